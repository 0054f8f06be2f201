import Verif.BTree.Inner
/-
The merging of nodes, seen from the inner nodes.
-/
namespace Verif.BTree
open Verif

variable {c : Cfg}

/-- A link as an entry of a layer. -/
abbrev entry (l : Bytes × Nat) : Option Bytes × Nat := (some l.1, l.2)

theorem exp_eq (n : Inner) (k : Option Bytes) : exp n k = (k, n.heir) :: n.links.map entry := rfl

theorem scanLinks_spec {id : Nat} : ∀ (xs ys : List (Bytes × Nat)) (pv : Nat) (kk : Bytes), id ∉ xs.map (·.2) →
    scanLinks id pv (xs ++ (kk, id) :: ys) = some (((xs.map (·.2)).getLast?).getD pv, kk, ys.head?)
  | [], ys, pv, kk, _ => by simp [scanLinks]
  | x :: xs, ys, pv, kk, h => by
    simp only [List.map_cons, List.mem_cons, not_or] at h
    have hne : x.2 ≠ id := fun he => h.1 he.symm
    simp only [List.cons_append, scanLinks, hne, if_false]
    rw [scanLinks_spec xs ys x.2 kk h.2]
    cases xs with
    | nil => simp
    | cons y xs => simp [List.getLast?_cons]

/-- The neighbours of a child, as entries. -/
theorem neighbours_spec {p : Inner} {k0 k : Option Bytes} {id : Nat} {X Y : Layer} (h : exp p k0 = X ++ (k, id) :: Y)
    (hn : ((exp p k0).map (·.2)).Nodup) :
    ((neighbours p id).1 = none ∧ X = [] ∨ ∃ a kk X' k1, (neighbours p id).1 = some (a, kk) ∧ X = X' ++ [(k1, a)] ∧ k = some kk) ∧
    ((neighbours p id).2 = none ∧ Y = [] ∨ ∃ kb b Y', (neighbours p id).2 = some (kb, b) ∧ Y = (some kb, b) :: Y') := by
  rw [exp_eq] at h
  cases X with
  | nil =>
    simp only [List.nil_append, List.cons.injEq, Prod.mk.injEq] at h
    obtain ⟨⟨_, h1⟩, h2⟩ := h
    have hnb : neighbours p id = (none, p.links.head?) := by simp [neighbours, h1]
    rw [hnb]
    refine ⟨Or.inl ⟨rfl, rfl⟩, ?_⟩
    cases hl : p.links with
    | nil => rw [hl] at h2; exact Or.inl ⟨rfl, h2.symm⟩
    | cons l ls => rw [hl] at h2; exact Or.inr ⟨l.1, l.2, _, rfl, h2.symm⟩
  | cons x X =>
    simp only [List.cons_append, List.cons.injEq] at h
    obtain ⟨rfl, h2⟩ := h
    obtain ⟨xs, r, e1, e2, e3⟩ := List.map_eq_append_iff.1 h2
    obtain ⟨l, ys, e4, e5, e6⟩ := List.map_eq_cons_iff.1 e3
    subst e4
    obtain ⟨kk, j⟩ := l
    rw [Prod.mk.injEq] at e5
    obtain ⟨rfl, rfl⟩ := e5
    simp only [exp_eq, List.map_cons, List.nodup_cons, e1, List.map_append, List.map_map] at hn
    have hne : p.heir ≠ j := by
      intro he
      exact hn.1 (by simp [he])
    have hnx : j ∉ xs.map (·.2) := by
      intro hi
      have := (List.nodup_append.1 hn.2).2.2 j (by simpa using hi) j (by simp)
      exact this rfl
    have hsc := scanLinks_spec xs ys p.heir kk hnx
    simp only [neighbours, hne, if_false, e1, hsc]
    constructor
    · right
      rcases List.eq_nil_or_concat xs with rfl | ⟨xs', y, rfl⟩
      · subst e2
        exact ⟨p.heir, kk, [], k0, rfl, rfl, rfl⟩
      · subst e2
        exact ⟨y.2, kk, (k0, p.heir) :: xs'.map entry, some y.1, by simp, by simp, rfl⟩
    · cases ys with
      | nil => exact Or.inl ⟨rfl, e6.symm⟩
      | cons y ys => exact Or.inr ⟨y.1, y.2, _, rfl, e6.symm⟩

theorem eraseP_mid {b : Nat} : ∀ (xs ys : List (Bytes × Nat)) (k : Bytes), b ∉ xs.map (·.2) →
    (xs ++ (k, b) :: ys).eraseP (fun l => l.2 == b) = xs ++ ys
  | [], ys, k, _ => by simp
  | x :: xs, ys, k, h => by
    simp only [List.map_cons, List.mem_cons, not_or] at h
    have : ¬ x.2 = b := fun he => h.1 he.symm
    simp [this, eraseP_mid xs ys k h.2]

/-- The link to the second of two neighbouring children is erased. -/
theorem joinPrev_spec {p : Inner} {k0 k1 : Option Bytes} {k2 : Bytes} {a b : Nat} {X Y : Layer} (h : exp p k0 = X ++ (k1, a) :: (some k2, b) :: Y)
    (hn : ((exp p k0).map (·.2)).Nodup) : exp { p with links := joinPrev p.links b, dirty := true } k0 = X ++ (k1, a) :: Y := by
  have hn' := hn
  rw [h] at hn'
  obtain ⟨xs, r, e1, e2, e3⟩ : ∃ xs ys, p.links = xs ++ (k2, b) :: ys ∧ (k0, p.heir) :: xs.map entry = X ++ [(k1, a)] ∧ ys.map entry = Y := by
    rw [exp_eq] at h
    cases X with
    | nil =>
      simp only [List.nil_append, List.cons.injEq] at h
      obtain ⟨l, ys, e4, e5, e6⟩ := List.map_eq_cons_iff.1 h.2
      obtain ⟨kk, j⟩ := l
      rw [Prod.mk.injEq] at e5
      simp only [Option.some.injEq] at e5
      obtain ⟨rfl, rfl⟩ := e5
      exact ⟨[], ys, e4, by simp [h.1], e6⟩
    | cons x X =>
      simp only [List.cons_append, List.cons.injEq] at h
      obtain ⟨xs, r, e1, e2, e3⟩ := List.map_eq_append_iff.1 h.2
      obtain ⟨l1, r, e4, e5, e6⟩ := List.map_eq_cons_iff.1 e3
      obtain ⟨l2, ys, e7, e8, e9⟩ := List.map_eq_cons_iff.1 e6
      obtain ⟨kk, j⟩ := l2
      rw [Prod.mk.injEq] at e8
      simp only [Option.some.injEq] at e8
      obtain ⟨rfl, rfl⟩ := e8
      subst e4 e7
      exact ⟨xs ++ [l1], ys, by rw [e1]; simp, by simp [h.1, e2, e5], e9⟩
  have hb : b ∉ xs.map (·.2) := by
    intro hi
    have h1 : b ∈ (X ++ [(k1, a)]).map (·.2) := by
      rw [← e2]
      simp only [List.map_cons, List.map_map, List.mem_cons]
      right
      simpa using hi
    have : X ++ (k1, a) :: (some k2, b) :: Y = (X ++ [(k1, a)]) ++ (some k2, b) :: Y := by simp
    rw [this, List.map_append, List.nodup_append] at hn'
    exact hn'.2.2 b h1 b (by simp) rfl
  rw [exp_eq]
  simp only [joinPrev, e1, eraseP_mid xs r k2 hb, List.map_append, e3]
  rw [← List.cons_append, e2]
  simp

theorem joinNextLinks_spec {a b : Nat} : ∀ (xs ys : List (Bytes × Nat)) (k1 k2 : Bytes), a ∉ xs.map (·.2) →
    joinNextLinks a b (xs ++ (k1, a) :: (k2, b) :: ys) = some (xs ++ (k1, b) :: ys)
  | [], ys, k1, k2, _ => by simp [joinNextLinks]
  | x :: xs, ys, k1, k2, h => by
    simp only [List.map_cons, List.mem_cons, not_or] at h
    have : ¬ x.2 = a := fun he => h.1 he.symm
    simp [joinNextLinks, this, joinNextLinks_spec xs ys k1 k2 h.2]

/-- The first of two neighbouring children is replaced by the second. -/
theorem joinNext_spec {p : Inner} {k0 k1 : Option Bytes} {k2 : Bytes} {a b : Nat} {X Y : Layer} (h : exp p k0 = X ++ (k1, a) :: (some k2, b) :: Y)
    (hn : ((exp p k0).map (·.2)).Nodup) : ∃ p', joinNext p a b = some p' ∧ exp p' k0 = X ++ (k1, b) :: Y := by
  have hn' := hn
  rw [h] at hn'
  rw [exp_eq] at h
  cases X with
  | nil =>
    simp only [List.nil_append, List.cons.injEq, Prod.mk.injEq] at h
    obtain ⟨⟨h0, h1⟩, h2⟩ := h
    obtain ⟨l, ys, e4, e5, e6⟩ := List.map_eq_cons_iff.1 h2
    refine ⟨⟨b, ys, true⟩, by simp [joinNext, h1, e4], ?_⟩
    rw [exp_eq, e6, h0]
    rfl
  | cons x X =>
    simp only [List.cons_append, List.cons.injEq] at h
    obtain ⟨rfl, h2⟩ := h
    obtain ⟨xs, r, e1, e2, e3⟩ := List.map_eq_append_iff.1 h2
    obtain ⟨l1, r, e4, e5, e6⟩ := List.map_eq_cons_iff.1 e3
    obtain ⟨l2, ys, e7, e8, e9⟩ := List.map_eq_cons_iff.1 e6
    obtain ⟨ka, j⟩ := l1
    obtain ⟨kb, j'⟩ := l2
    rw [Prod.mk.injEq] at e5 e8
    simp only [Option.some.injEq] at e8
    obtain ⟨rfl, rfl⟩ := e5
    obtain ⟨rfl, rfl⟩ := e8
    subst e2 e4 e7 e9
    simp only [List.cons_append, List.map_cons, List.map_append, List.nodup_cons, List.map_map, List.mem_append, List.mem_cons, not_or] at hn'
    have hne : p.heir ≠ j := hn'.1.2.1
    have hxs : j ∉ xs.map (·.2) := by
      intro hi
      exact (List.nodup_append.1 hn'.2).2.2 j (by simpa using hi) j (by simp) rfl
    refine ⟨⟨p.heir, xs ++ (ka, j') :: ys, true⟩, ?_, ?_⟩
    · simp only [joinNext, hne, if_false, e1, joinNextLinks_spec xs ys ka kb hxs, Option.map_some]
    · simp [exp_eq]

/-- The numbers of the children of a node of a layer. -/
theorem exp_nodup {inn : Nat → Option Inner} {U A B L : Layer} {e : Option Bytes × Nat} {n : Inner} (hU : U = A ++ e :: B) (hn : inn e.2 = some n)
    (hL : U.flatMap (expand inn) = L) (h : (L.map (·.2)).Nodup) : ((exp n e.1).map (·.2)).Nodup := by
  subst hL
  exact h.sublist ((exp_sublist hU hn).map _)

/-! ### Merging inner nodes -/

/-- What a merge step on inner nodes keeps. -/
structure StepOk (s s' : State) (U : Layer) (up : List Layer) (L : Layer) : Prop where
  shape : ∃ U', Shape s'.inners s'.root (U' :: up) L ∧ U'.Sublist U
  frame : ∀ i, i ∉ ids (U :: up) → s'.inners i = s.inners i
  rest : s' = { s with inners := s'.inners }

theorem mergeInner_spec {s : State} {U U2 A B X Y L : Layer} {ups : List Layer} {e : Option Bytes × Nat} {p : Inner} {k1 : Option Bytes} {k2 : Bytes}
    {a b : Nat} (hS : Shape s.inners s.root (U :: U2 :: ups) L) (hN : (ids (U :: U2 :: ups)).Nodup) (hU2 : U2 = A ++ e :: B)
    (hp : s.inners e.2 = some p) (hx : exp p e.1 = X ++ (k1, a) :: (some k2, b) :: Y) :
    ∃ s', mergeInner s e.2 a b k2 = some s' ∧ StepOk s s' U (U2 :: ups) L := by
  obtain ⟨h1, h2, h3⟩ := hS
  have h3' := h3
  obtain ⟨g1, g2, g3⟩ := h3'
  have hNU := hN
  rw [ids_cons, List.nodup_append] at hNU
  obtain ⟨nU, nU2, nd⟩ := hNU
  have hUe : U = (A.flatMap (expand s.inners) ++ X) ++ (k1, a) :: (some k2, b) :: (Y ++ B.flatMap (expand s.inners)) := by
    rw [← g2, hU2, List.flatMap_append, List.flatMap_cons, expand_some hp, hx]
    simp
  obtain ⟨na, hna⟩ := h1 (k1, a) (by rw [hUe]; simp)
  obtain ⟨nb, hnb⟩ := h1 (some k2, b) (by rw [hUe]; simp)
  simp only at hna hnb
  generalize hP : A.flatMap (expand s.inners) ++ X = P at hUe
  generalize hQ : Y ++ B.flatMap (expand s.inners) = Q at hUe
  have nU' := nU
  rw [hUe, List.map_append, List.nodup_append] at nU'
  simp only [List.map_cons, List.nodup_cons, List.mem_cons, not_or] at nU'
  obtain ⟨nP, ⟨⟨nab, naQ⟩, nbQ, nQ⟩, nPR⟩ := nU'
  have haU : a ∈ U.map (·.2) := by rw [hUe]; simp
  have hbU : b ∈ U.map (·.2) := by rw [hUe]; simp
  have he2 : e.2 ∈ ids (U2 :: ups) := mem_ids (List.mem_cons_self ..) (by rw [hU2]; simp)
  have hea : e.2 ≠ a := fun h => nd a haU e.2 he2 h.symm
  have heb : e.2 ≠ b := fun h => nd b hbU e.2 he2 h.symm
  refine ⟨_, by simp only [mergeInner, hp, hna, hnb, Option.bind_eq_bind, Option.bind_some]; rfl, ?_⟩
  generalize hinn : (upd (upd (upd s.inners a (some { na with links := na.links ++ (k2, nb.heir) :: nb.links, dirty := true })) e.2
      (some { p with links := joinPrev p.links b, dirty := true })) b none) = inn'
  have ia : inn' a = some { na with links := na.links ++ (k2, nb.heir) :: nb.links, dirty := true } := by
    simp [← hinn, upd, nab, hea.symm]
  have io : ∀ i, i ≠ a → i ≠ b → i ≠ e.2 → inn' i = s.inners i := by
    intro i x y z
    simp [← hinn, upd, x, y, z]
  have hPU : ∀ d ∈ P, d ∈ U := fun d hd => by rw [hUe]; simp [hd]
  have hQU : ∀ d ∈ Q, d ∈ U := fun d hd => by rw [hUe]; simp [hd]
  have hPn : ∀ d ∈ P, inn' d.2 = s.inners d.2 := by
    intro d hd
    have hm : d.2 ∈ P.map (·.2) := List.mem_map.2 ⟨d, hd, rfl⟩
    refine io _ (fun h => nPR d.2 hm a (by simp) h) (fun h => nPR d.2 hm b (by simp) h) (fun h => ?_)
    exact nd d.2 (List.mem_map.2 ⟨d, hPU d hd, rfl⟩) e.2 he2 h
  have hQn : ∀ d ∈ Q, inn' d.2 = s.inners d.2 := by
    intro d hd
    have hm : d.2 ∈ Q.map (·.2) := List.mem_map.2 ⟨d, hd, rfl⟩
    refine io _ (fun h => naQ (h ▸ hm)) (fun h => nbQ (h ▸ hm)) (fun h => ?_)
    exact nd d.2 (List.mem_map.2 ⟨d, hQU d hd, rfl⟩) e.2 he2 h
  refine ⟨⟨P ++ (k1, a) :: Q, ⟨?_, ?_, ?_⟩, ?_⟩, ?_, ?_⟩ <;> try dsimp only
  · intro d hd
    simp only [List.mem_append, List.mem_cons] at hd
    rcases hd with hd | rfl | hd
    · rw [hPn d hd]; exact h1 d (hPU d hd)
    · exact ⟨_, ia⟩
    · rw [hQn d hd]; exact h1 d (hQU d hd)
  · rw [List.flatMap_append, List.flatMap_cons, flatMap_expand_congr hPn, flatMap_expand_congr hQn, expand_some (e := (k1, a)) ia, ← h2, hUe,
      List.flatMap_append, List.flatMap_cons, List.flatMap_cons, expand_some (e := (k1, a)) hna, expand_some (e := (some k2, b)) hnb]
    simp [exp_eq]
  · have hupd := h3.update (n' := { p with links := joinPrev p.links b, dirty := true }) nU2 hU2
    have hnx := exp_nodup hU2 hp g2 nU
    rw [joinPrev_spec hx hnx] at hupd
    have hPQ : A.flatMap (expand s.inners) ++ (X ++ (k1, a) :: Y) ++ B.flatMap (expand s.inners) = P ++ (k1, a) :: Q := by
      rw [← hP, ← hQ]; simp
    rw [hPQ] at hupd
    refine hupd.congr fun i hi => ?_
    have hia : i ≠ a := fun h => nd a haU i hi h.symm
    have hib : i ≠ b := fun h => nd b hbU i hi h.symm
    simp only [← hinn, upd, hia, hib, if_false]
  · rw [hUe]
    exact List.Sublist.append (List.Sublist.refl _) ((List.sublist_cons_self _ _).cons_cons _)
  · intro i hi
    rw [ids_cons, List.mem_append, not_or] at hi
    exact io i (fun h => hi.1 (h ▸ haU)) (fun h => hi.1 (h ▸ hbU)) (fun h => hi.2 (h ▸ he2))

theorem mergeStep_spec {s : State} {U U2 A B X Y L : Layer} {ups : List Layer} {e : Option Bytes × Nat} {p : Inner} {k : Option Bytes} {id : Nat}
    (hS : Shape s.inners s.root (U :: U2 :: ups) L) (hN : (ids (U :: U2 :: ups)).Nodup) (hU2 : U2 = A ++ e :: B)
    (hp : s.inners e.2 = some p) (hx : exp p e.1 = X ++ (k, id) :: Y) :
    ∃ s', mergeStep s e.2 id = some s' ∧ StepOk s s' U (U2 :: ups) L := by
  have hNU := hN
  rw [ids_cons, List.nodup_append] at hNU
  obtain ⟨nU, _, _⟩ := hNU
  have hnx := exp_nodup hU2 hp hS.2.2.2.1 nU
  obtain ⟨h1, h2⟩ := neighbours_spec hx hnx
  have hUe : ∀ d ∈ exp p e.1, d ∈ U := by
    intro d hd
    rw [← hS.2.2.2.1]
    exact (exp_sublist hU2 hp).subset hd
  simp only [mergeStep, hp, Option.bind_eq_bind, Option.bind_some]
  generalize neighbours p id = nb at h1 h2
  obtain ⟨n1, n2⟩ := nb
  simp only at h1 h2
  rcases h1 with ⟨rfl, rfl⟩ | ⟨a, kk, X', k1, rfl, rfl, rfl⟩ <;> rcases h2 with ⟨rfl, rfl⟩ | ⟨kb, b, Y', rfl, rfl⟩ <;> simp only
  · exact ⟨s, rfl, ⟨U, hS, List.Sublist.refl _⟩, fun _ _ => rfl, rfl⟩
  · exact mergeInner_spec (X := []) hS hN hU2 hp (by rw [hx])
  · exact mergeInner_spec (X := X') (k1 := k1) (Y := []) hS hN hU2 hp (by rw [hx]; simp)
  · obtain ⟨na, hna⟩ := hS.1 (k1, a) (hUe _ (by rw [hx]; simp))
    obtain ⟨nb, hnb⟩ := hS.1 (some kb, b) (hUe _ (by rw [hx]; simp))
    simp only at hna hnb
    simp only [hna, hnb, Option.bind_some]
    split
    · exact mergeInner_spec (X := X') (k1 := k1) (Y := (some kb, b) :: Y') hS hN hU2 hp (by rw [hx]; simp)
    · exact mergeInner_spec (X := X' ++ [(k1, a)]) (Y := Y') hS hN hU2 hp (by rw [hx])

theorem mergeUp_spec (hw : StrictWeak c.lt) {x : Bytes} : ∀ (up : List Nat) (s : State) (U : Layer) (ups : List Layer) (L : Layer) (id : Nat),
    Shape s.inners s.root (U :: ups) L → (ids (U :: ups)).Nodup → SepSorted c.lt L → Path c.lt x (U :: ups) (id :: up) → ups.length + 1 < s.level →
    ∃ s' ups', mergeUp c s id up = some s' ∧ Shape s'.inners s'.root ups' L ∧ (ids ups').Nodup ∧ (∀ i ∈ ids ups', i ∈ ids (U :: ups)) ∧
      (∀ i, i ∉ ids (U :: ups) → s'.inners i = s.inners i) ∧ s'.numInner = s.numInner ∧
      s'.level + (ups.length + 1) = s.level + ups'.length ∧ SameRest s s'
  | [], s, U, ups, L, id, hS, hN, hs, hP, hl => by
    obtain ⟨⟨A, e, B, hAt, rfl⟩, hP⟩ := hP
    cases ups with
    | cons _ _ => exact hP.elim
    | nil =>
      have hS' := hS
      obtain ⟨h1, h2, h3⟩ := hS'
      have hU : U = [(none, s.root)] := h3
      have he : e = (none, s.root) := by
        have : e ∈ U := by rw [hAt.1]; simp
        rw [hU] at this
        simpa using this
      subst he
      obtain ⟨n, hn⟩ := h1 (none, s.root) (by rw [hU]; simp)
      simp only at hn
      have same : ∃ s' ups', some s = some s' ∧ Shape s'.inners s'.root ups' L ∧ (ids ups').Nodup ∧ (∀ i ∈ ids ups', i ∈ ids [U]) ∧
          (∀ i, i ∉ ids [U] → s'.inners i = s.inners i) ∧ s'.numInner = s.numInner ∧
          s'.level + (([] : List Layer).length + 1) = s.level + ups'.length ∧ SameRest s s' :=
        ⟨s, [U], rfl, hS, hN, fun _ h => h, fun _ _ => rfl, rfl, by simp, rfl⟩
      simp only [mergeUp, hn, Option.bind_eq_bind, Option.bind_some]
      split
      · split
        · next hemp =>
          refine ⟨_, [], rfl, ?_, by simp [ids], by simp [ids], ?_, rfl, ?_, rfl⟩
          · show L = [(none, n.heir)]
            rw [← h2, hU]
            simp only [List.flatMap_cons, List.flatMap_nil, List.append_nil]
            rw [expand_some (e := (none, s.root)) hn, exp_eq, List.isEmpty_iff.1 hemp]
            rfl
          · intro i hi
            have : i ≠ s.root := by
              rintro rfl
              exact hi (by rw [hU]; simp [ids])
            simp [upd, this]
          · simp only [List.length_nil] at hl ⊢
            omega
        · exact same
      · exact same
  | pid :: up, s, U, ups, L, id, hS, hN, hs, hP, hl => by
    obtain ⟨⟨A, e, B, hAt, rfl⟩, hP⟩ := hP
    cases ups with
    | nil => exact hP.elim
    | cons U2 ups =>
      have hP' := hP
      obtain ⟨⟨A2, e2, B2, hAt2, rfl⟩, hP2⟩ := hP'
      have hS' := hS
      obtain ⟨h1, h2, h3⟩ := hS'
      obtain ⟨n, hn⟩ := h1 e (by rw [hAt.1]; simp)
      obtain ⟨p, hp⟩ := h3.1 e2 (by rw [hAt2.1]; simp)
      have hsU := sorted_up h1 h2 hs
      obtain ⟨X, e', Y, g1, g2⟩ := at_expand hw h3.1 h3.2.1 hsU hAt2 hp
      obtain ⟨_, rfl, _⟩ := hAt.unique g2
      simp only [mergeUp, hn, Option.bind_eq_bind, Option.bind_some]
      split
      · obtain ⟨s1, r1, ⟨U', q1, q2⟩, r3, r4⟩ := mergeStep_spec (k := e.1) (id := e.2) hS hN hAt2.1 hp g1.1
        rw [r1]
        simp only [Option.bind_some]
        have hNU := hN
        rw [ids_cons, List.nodup_append] at hNU
        obtain ⟨nU, nU2, nd⟩ := hNU
        have hlev : s1.level = s.level := by rw [r4]
        simp only [List.length_cons] at hl
        obtain ⟨s', ups', t1, t2, t3, t4, t5, t6, t7, t8⟩ := mergeUp_spec hw up s1 U2 ups U' e2.2 q1.2.2 nU2 (hsU.sublist (q2.map _)) hP (by omega)
        have hU'ids : ∀ d ∈ U', d.2 ∈ U.map (·.2) := fun d hd => List.mem_map.2 ⟨d, q2.subset hd, rfl⟩
        have hframe : ∀ d ∈ U', s'.inners d.2 = s1.inners d.2 := fun d hd => t5 _ fun hi => nd _ (hU'ids d hd) _ hi rfl
        refine ⟨s', U' :: ups', t1, ⟨fun d hd => by rw [hframe d hd]; exact q1.1 d hd, by rw [flatMap_expand_congr hframe]; exact q1.2.1, t2⟩,
          ?_, ?_, ?_, ?_, ?_, ?_⟩
        · rw [ids_cons, List.nodup_append]
          refine ⟨nU.sublist (q2.map _), t3, fun i hi j hj hij => ?_⟩
          obtain ⟨d, hd, rfl⟩ := List.mem_map.1 hi
          exact nd _ (hU'ids d hd) j (t4 j hj) hij
        · intro i hi
          rw [ids_cons, List.mem_append] at hi ⊢
          rcases hi with hi | hi
          · obtain ⟨d, hd, rfl⟩ := List.mem_map.1 hi
            exact Or.inl (hU'ids d hd)
          · exact Or.inr (t4 i hi)
        · intro i hi
          have hi' := hi
          rw [ids_cons, List.mem_append, not_or] at hi'
          rw [t5 i hi'.2, r3 i hi]
        · rw [t6, r4]
        · simp only [List.length_cons]; omega
        · refine SameRest.trans (?_ : SameRest s s1) t8
          rw [r4]
          rfl
      · exact ⟨s, U :: U2 :: ups, rfl, hS, hN, fun _ h => h, fun _ _ => rfl, rfl, by simp, rfl⟩

end Verif.BTree
