import Verif.BTree.Ops
/-
Walking over the leaves, and the iterators.
-/
namespace Verif.BTree
open Verif

variable {c : Cfg}

theorem layer_length {s : State} {L : Layer} (h : Lower c s L) : L.length ≤ s.numLeaf := by
  have key : ∀ (n : Nat) (l : List Nat), l.Nodup → (∀ x ∈ l, x < n) → l.length ≤ n := by
    intro n
    induction n with
    | zero =>
      intro l _ h
      cases l with
      | nil => simp
      | cons a l => exact absurd (h a (by simp)) (by omega)
    | succ n ih =>
      intro l hn h
      have h1 := ih (l.erase n) (hn.erase n) (by
        intro x hx
        have h2 := h x (List.mem_of_mem_erase hx)
        have h3 := (hn.mem_erase_iff.1 hx).1
        omega)
      have := List.length_erase (a := n) (l := l)
      split at this <;> omega
  have := key s.numLeaf (L.map (·.2)) h.nodup (fun x hx => by
    obtain ⟨e, he, rfl⟩ := List.mem_map.1 hx
    exact h.fresh e he)
  simpa using this

/-- The walk forward. -/
theorem nonEmptyFrom_spec {s : State} : ∀ (n : Nat) (Q : Layer) (p : Option Nat), Linked s.leaves p Q none → Q.length ≤ n →
    (nonEmptyFrom s n (headId Q none) = some none ∧ contents s.leaves Q = []) ∨
    ∃ Q1 e Q2 l r rest, Q = Q1 ++ e :: Q2 ∧ contents s.leaves Q1 = [] ∧ s.leaves e.2 = some l ∧ l.recs = r :: rest ∧
      nonEmptyFrom s n (headId Q none) = some (some (e.2, r))
  | n, [], p, _, _ => Or.inl ⟨by cases n <;> rfl, rfl⟩
  | 0, e :: Q, p, _, hn => by simp at hn
  | n + 1, e :: Q, p, h, hn => by
    obtain ⟨⟨l, h1, h2, h3⟩, h4⟩ := h
    simp only [headId_cons, nonEmptyFrom, h1, Option.bind_eq_bind, Option.bind_some]
    cases hr : l.recs with
    | nil =>
      simp only
      rw [h3]
      rcases nonEmptyFrom_spec n Q (some e.2) h4 (by simpa using hn) with ⟨g1, g2⟩ | ⟨Q1, e', Q2, l', r, rest, g1, g2, g3, g4, g5⟩
      · exact Or.inl ⟨g1, by rw [contents_cons, recsAt_some h1, hr, g2]; rfl⟩
      · refine Or.inr ⟨e :: Q1, e', Q2, l', r, rest, by rw [g1]; rfl, ?_, g3, g4, g5⟩
        rw [contents_cons, recsAt_some h1, hr, g2]
        rfl
    | cons r rest => exact Or.inr ⟨[], e, Q, l, r, rest, rfl, rfl, h1, hr, rfl⟩

/-- The walk back. -/
theorem nonEmptyBack_spec {s : State} : ∀ (n : Nat) (P : Layer) (nx : Option Nat), Linked s.leaves none P nx → P.length ≤ n →
    (nonEmptyBack s n (lastId P none) = some none ∧ contents s.leaves P = []) ∨
    ∃ P1 e P2 l r rest, P = P1 ++ e :: P2 ∧ contents s.leaves P2 = [] ∧ s.leaves e.2 = some l ∧ l.recs = rest ++ [r] ∧
      nonEmptyBack s n (lastId P none) = some (some (e.2, r))
  | 0, P, nx, _, hn => by
    have : P = [] := List.length_eq_zero_iff.1 (Nat.le_zero.1 hn)
    subst this
    exact Or.inl ⟨rfl, rfl⟩
  | n + 1, P, nx, h, hn => by
    rcases List.eq_nil_or_concat P with rfl | ⟨P, e, rfl⟩
    · exact Or.inl ⟨rfl, rfl⟩
    · rw [List.concat_eq_append] at h hn ⊢
      obtain ⟨h1, ⟨l, h2, h3, h4⟩, _⟩ := linked_split.1 h
      rw [lastId_append]
      simp only [lastId, List.getLast?_nil, Option.map_none, Option.none_or, nonEmptyBack, h2, Option.bind_eq_bind, Option.bind_some]
      rcases List.eq_nil_or_concat l.recs with hr | ⟨rest, r, hr⟩
      · rw [hr]
        simp only [List.getLast?_nil]
        rw [h3]
        rcases nonEmptyBack_spec n P _ h1 (by simpa using hn) with ⟨g1, g2⟩ | ⟨P1, e', P2, l', r, rest, g1, g2, g3, g4, g5⟩
        · exact Or.inl ⟨g1, by rw [contents_append, g2, contents_cons, recsAt_some h2, hr]; rfl⟩
        · refine Or.inr ⟨P1, e', P2 ++ [e], l', r, rest, by rw [g1]; simp, ?_, g3, g4, g5⟩
          rw [contents_append, g2, contents_cons, recsAt_some h2, hr]
          rfl
      · rw [List.concat_eq_append] at hr
        rw [hr]
        simp only [List.getLast?_append, List.getLast?_singleton, Option.some_or]
        exact Or.inr ⟨P, e, [], l, r, rest, rfl, rfl, h2, hr, rfl⟩

theorem inv_setIter {s : State} {L : Layer} (h : Inv c s L) (i : Nat) (it : Iter)
    (hit : ∀ d, it.leaf = some d → ∃ x, it.key = some x ∧ locate c.lt x L = some d) : Inv c (s.setIter i it) L := by
  obtain ⟨ups, hU⟩ := h.upper
  have hl := h.lower
  refine ⟨⟨ups, hU.shape, hU.level, hU.nodup, hU.fresh⟩, ⟨hl.seps, hl.nodup, hl.fresh, hl.linked, hl.first, hl.last, hl.leaf, fun j d hd => ?_⟩, h.reorg, h.count⟩
  simp only [State.setIter] at hd ⊢
  by_cases hj : j = i
  · rw [if_pos hj] at hd ⊢
    exact hit d hd
  · rw [if_neg hj] at hd ⊢
    exact hl.iters j d hd

/-- The result of a move: only the iterator `i` changed, and its key is now `x`. -/
structure Moved (c : Cfg) (s s' : State) (L : Layer) (i : Nat) (x : Option Bytes) : Prop where
  inv : Inv c s' L
  eq : ∃ it : Iter, s' = s.setIter i it ∧ it.key = x

theorem moved_setIter {s : State} {L : Layer} (h : Inv c s L) (i : Nat) (it : Iter)
    (hit : ∀ d, it.leaf = some d → ∃ x, it.key = some x ∧ locate c.lt x L = some d) : Moved c s (s.setIter i it) L i it.key :=
  ⟨inv_setIter h i it hit, it, rfl, rfl⟩

theorem moved_clear {s : State} {L : Layer} (h : Inv c s L) (i : Nat) : Moved c s (s.setIter i Iter.clear) L i none :=
  moved_setIter h i Iter.clear (fun d hd => by cases hd)

theorem setIter_setIter (s : State) (i : Nat) (a b : Iter) : (s.setIter i a).setIter i b = s.setIter i b := by
  simp only [State.setIter]
  congr 1
  funext j
  by_cases hj : j = i <;> simp [hj]

theorem Moved.after {s s' s'' : State} {L : Layer} {i : Nat} {x y : Option Bytes} (h1 : Moved c s s' L i x) (h2 : Moved c s' s'' L i y) : Moved c s s'' L i y := by
  obtain ⟨it1, e1, k1⟩ := h1.eq
  obtain ⟨it2, e2, k2⟩ := h2.eq
  exact ⟨h2.inv, it2, by rw [e2, e1, setIter_setIter], k2⟩

/-- `SetPositionFirst` from the first of the leaves `Q`. -/
theorem setFirst_spec {s : State} {L P Q : Layer} (h : Inv c s L) (hL : L = P ++ Q) (i : Nat) :
    (setFirst s i (headId Q none) = some (s, false) ∧ contents s.leaves Q = []) ∨
    ∃ s' r rest, setFirst s i (headId Q none) = some (s', true) ∧ contents s.leaves Q = r :: rest ∧ Moved c s s' L i (some r.1) ∧ (s'.iters i).leaf ≠ none := by
  have hlk := h.lower.linked
  rw [hL] at hlk
  have hlen := layer_length h.lower
  rcases nonEmptyFrom_spec (s.numLeaf + 1) Q _ (linked_append.1 hlk).2 (by rw [hL, List.length_append] at hlen; omega) with
    ⟨g1, g2⟩ | ⟨Q1, e, Q2, l, r, rest, g1, g2, g3, g4, g5⟩
  · exact Or.inl ⟨by simp [setFirst, g1], g2⟩
  · refine Or.inr ⟨s.setIter i ⟨some r.1, some e.2⟩, r, rest ++ contents s.leaves Q2, by simp [setFirst, g5], ?_, ?_, by simp [State.setIter]⟩
    · rw [g1, contents_append, g2, contents_cons, recsAt_some g3, g4]
      rfl
    · refine moved_setIter h i ⟨some r.1, some e.2⟩ fun d hd => ⟨r.1, rfl, ?_⟩
      cases hd
      exact (h.lower.leaf e (by rw [hL, g1]; simp) l g3).own r (by rw [g4]; simp)

/-- `SetPositionLast` from the last of the leaves `P`. -/
theorem setLast_spec {s : State} {L P Q : Layer} (h : Inv c s L) (hL : L = P ++ Q) (i : Nat) :
    (setLast s i (lastId P none) = some (s, false) ∧ contents s.leaves P = []) ∨
    ∃ s' r rest, setLast s i (lastId P none) = some (s', true) ∧ contents s.leaves P = rest ++ [r] ∧ Moved c s s' L i (some r.1) ∧ (s'.iters i).leaf ≠ none := by
  have hlk := h.lower.linked
  rw [hL] at hlk
  have hlen := layer_length h.lower
  rcases nonEmptyBack_spec (s.numLeaf + 1) P _ (linked_append.1 hlk).1 (by rw [hL, List.length_append] at hlen; omega) with
    ⟨g1, g2⟩ | ⟨P1, e, P2, l, r, rest, g1, g2, g3, g4, g5⟩
  · exact Or.inl ⟨by simp [setLast, g1], g2⟩
  · refine Or.inr ⟨s.setIter i ⟨some r.1, some e.2⟩, r, contents s.leaves P1 ++ rest, by simp [setLast, g5], ?_, ?_, by simp [State.setIter]⟩
    · rw [g1, contents_append, contents_cons, g2, recsAt_some g3, g4]
      simp
    · refine moved_setIter h i ⟨some r.1, some e.2⟩ fun d hd => ⟨r.1, rfl, ?_⟩
      cases hd
      exact (h.lower.leaf e (by rw [hL, g1]; simp) l g3).own r (by rw [g4]; simp)

theorem first_spec {s : State} {L : Layer} (h : Inv c s L) (i : Nat) :
    ∃ s', first s i = some s' ∧ Moved c s s' L i ((contents s.leaves L).head?.map (·.1)) := by
  have h1 := moved_clear h i
  have hf : some s.first = headId L none := h.lower.first.symm
  rcases setFirst_spec (P := []) (Q := L) h1.inv rfl i with ⟨g1, g2⟩ | ⟨s', r, rest, g1, g2, g3, _⟩
  · refine ⟨_, by rw [first, hf, g1]; rfl, ?_⟩
    have g2 : contents s.leaves L = [] := g2
    rw [g2]
    exact h1
  · refine ⟨s', by rw [first, hf, g1]; rfl, ?_⟩
    have g2 : contents s.leaves L = r :: rest := g2
    rw [g2]
    exact h1.after g3

theorem last_spec {s : State} {L : Layer} (h : Inv c s L) (hok : s.lastOk = true) (i : Nat) :
    ∃ s', last s i = some s' ∧ Moved c s s' L i ((contents s.leaves L).getLast?.map (·.1)) := by
  have h1 := moved_clear h i
  have hf : some s.last = lastId L none := (h.lower.last hok).symm
  rcases setLast_spec (P := L) (Q := []) h1.inv (by simp) i with ⟨g1, g2⟩ | ⟨s', r, rest, g1, g2, g3, _⟩
  · refine ⟨_, by rw [last, hf, g1]; rfl, ?_⟩
    have g2 : contents s.leaves L = [] := g2
    rw [g2]
    exact h1
  · refine ⟨s', by rw [last, hf, g1]; rfl, ?_⟩
    have g2 : contents s.leaves L = rest ++ [r] := g2
    rw [g2]
    simpa using h1.after g3

theorem jump_spec {s : State} {L : Layer} (h : Inv c s L) (i : Nat) (x : Bytes) : Moved c s (jump s i x) L i (some x) :=
  moved_setIter h i ⟨some x, none⟩ (fun d hd => by cases hd)

/-- The leaf of an iterator is where its key belongs. -/
theorem leafOf_spec (hc : c.Ok) {s : State} {L : Layer} (h : Inv c s L) (i : Nat) {x : Bytes} (hx : (s.iters i).key = some x) :
    ∃ A e B l, leafOf c s (s.iters i) x = some e.2 ∧ At c.lt x L A e B ∧ s.leaves e.2 = some l := by
  unfold leafOf
  cases hl : (s.iters i).leaf with
  | none =>
    obtain ⟨A, e, B, h1, h2⟩ := search_spec hc h.upper h.lower.seps x
    obtain ⟨l, hl⟩ := h.lower.linked.get (e := e) (by rw [h2.1]; simp)
    exact ⟨A, e, B, l, h1, h2, hl⟩
  | some d =>
    obtain ⟨y, h1, h2⟩ := h.lower.iters i d hl
    rw [hx] at h1
    cases h1
    obtain ⟨A, e, B, h3, h4⟩ := at_of_locate hc.weak h.lower.seps h2
    obtain ⟨l, hl⟩ := h.lower.linked.get (e := e) (by rw [h3.1]; simp)
    exact ⟨A, e, B, l, by rw [h4], h3, hl⟩

/-- The records after the lower bound, in a leaf. -/
theorem upperBound_cut (hw : StrictWeak c.lt) {recs P R : List Rec} {q : Option Rec} {x : Bytes} (h : OMap.Cut c.lt x recs P q R) :
    OrdMap.upperBound c.lt x recs = R := by
  unfold OrdMap.upperBound
  rw [h.eq, List.dropWhile_append_of_pos]
  · cases R with
    | nil => rfl
    | cons r R => rw [List.dropWhile_cons, if_neg (by simp [h.hi r (by simp)])]
  · intro r hr
    rcases List.mem_append.1 hr with hr | hr
    · simp [hw.asymm (h.lo r hr)]
    · have : q = some r := by
        cases q with
        | none => simp at hr
        | some y => simp at hr; rw [hr]
      simp [(StrictWeak.eqv_iff.1 (h.at_ r this)).2]

theorem linked_next {s : State} {L A B : Layer} {e : Option Bytes × Nat} {l : Leaf} (h : Lower c s L) (hL : L = A ++ e :: B) (hl : s.leaves e.2 = some l) :
    l.next = headId B none ∧ l.prev = lastId A none := by
  have hlk := h.linked
  rw [hL] at hlk
  obtain ⟨_, ⟨l', h1, h2, h3⟩, _⟩ := linked_split.1 hlk
  rw [hl] at h1
  cases h1
  exact ⟨h3, h2⟩

/-- What is kept as the leaf belongs to every key of that leaf. -/
theorem kept_own {s : State} {L : Layer} (h : Inv c s L) {i : Nat} {x : Bytes} (hx : (s.iters i).key = some x) {A B : Layer} {e : Option Bytes × Nat} {l : Leaf}
    (hat : At c.lt x L A e B) (hw : StrictWeak c.lt) (hl : s.leaves e.2 = some l) {r : Rec} (hr : r ∈ l.recs) :
    ∀ d, keptLeaf c (s.iters i) e.2 = some d → ∃ y, (some r.1 : Option Bytes) = some y ∧ locate c.lt y L = some d := by
  intro d hd
  have hd' : d = e.2 := by
    unfold keptLeaf at hd
    split at hd
    · exact (Option.some.inj hd).symm
    · obtain ⟨y, y1, y2⟩ := h.lower.iters i d hd
      rw [hx] at y1
      cases y1
      have := hat.locate hw h.lower.seps
      rw [y2] at this
      exact Option.some.inj this
  exact ⟨r.1, rfl, by rw [hd']; exact (h.lower.leaf e (by rw [hat.1]; simp) l hl).own r hr⟩

/-- `NextImpl`, called with the stored key. -/
theorem nextImpl_spec (hc : c.Ok) {s : State} {L : Layer} (h : Inv c s L) (i : Nat) {x : Bytes} (hx : (s.iters i).key = some x) :
    ∃ s', nextImpl c s i x = some s' ∧ Moved c s s' L i ((OMap.greater c.lt x (contents s.leaves L)).map (·.1)) := by
  have hw := hc.weak
  obtain ⟨A, e, B, l, h1, h2, h3⟩ := leafOf_spec hc h i hx
  obtain ⟨R, hR, hcut⟩ := contents_cut hw h.lower h2 h3
  obtain ⟨R', hR', hlc⟩ := leaf_cut hw (h.lower.leaf e (by rw [h2.1]; simp) l h3).sorted x
  have hRR : R' = R := List.append_cancel_left (hR'.symm.trans hR)
  subst hRR
  rw [hcut.greater hw]
  simp only [nextImpl, h1, h3, Option.bind_eq_bind, Option.bind_some, upperBound_cut hw hlc]
  cases hr : R' with
  | cons r rest =>
    simp only [List.cons_append, List.head?_cons, Option.map_some]
    refine ⟨_, rfl, moved_setIter h i ⟨some r.1, keptLeaf c (s.iters i) e.2⟩ ?_⟩
    exact kept_own h hx h2 hw h3 (by rw [hlc.eq, hr]; simp)
  | nil =>
    simp only [List.nil_append]
    rw [(linked_next h.lower h2.1 h3).1]
    rcases setFirst_spec (P := A ++ [e]) (Q := B) h (by rw [h2.1]; simp) i with ⟨g1, g2⟩ | ⟨s', r, rest, g1, g2, g3, _⟩
    · rw [g1, g2]
      exact ⟨_, rfl, moved_clear h i⟩
    · rw [g1, g2]
      exact ⟨s', rfl, g3⟩

/-- `SyncPosition`. -/
theorem sync_spec (hc : c.Ok) {s : State} {L : Layer} (h : Inv c s L) (i : Nat) {x : Bytes} (hx : (s.iters i).key = some x) :
    ∃ s' y, sync c s i x = some (s', y) ∧ Moved c s s' L i ((OMap.atLeast c.lt x (contents s.leaves L)).map (·.1)) ∧
      y.map (·.2) = OMap.atLeast c.lt x (contents s.leaves L) ∧
      ∀ d r, y = some (d, r) → (s'.iters i).leaf = some d ∧ locate c.lt r.1 L = some d ∧ ∃ l, s.leaves d = some l ∧ r ∈ l.recs := by
  have hw := hc.weak
  obtain ⟨A, e, B, l, h1, h2, h3⟩ := leafOf_spec hc h i hx
  obtain ⟨R, hR, hcut⟩ := contents_cut hw h.lower h2 h3
  have hown := (h.lower.leaf e (by rw [h2.1]; simp) l h3).own
  rw [hcut.atLeast hw, ← List.append_assoc, ← hR]
  simp only [sync, h1, h3, Option.bind_eq_bind, Option.bind_some]
  cases hlb : OrdMap.lowerBound c.lt x l.recs with
  | cons r rest =>
    have hrm : r ∈ l.recs := by
      rw [← below_append c.lt x l.recs, hlb]
      simp
    refine ⟨_, _, rfl, moved_setIter h i ⟨some r.1, some e.2⟩ (fun d hd => ⟨r.1, rfl, ?_⟩), rfl, fun d r' hd => ?_⟩
    · cases hd
      exact hown r hrm
    · cases hd
      exact ⟨by simp [State.setIter], hown r hrm, l, h3, hrm⟩
  | nil =>
    simp only [List.nil_append]
    rw [(linked_next h.lower h2.1 h3).1]
    have hlk := h.lower.linked
    rw [h2.1] at hlk
    have hlen := layer_length h.lower
    rcases nonEmptyFrom_spec (s.numLeaf + 1) B _ (linked_split.1 hlk).2.2 (by rw [h2.1] at hlen; simp at hlen; omega) with
      ⟨g1, g2⟩ | ⟨Q1, e', Q2, l', r, rest, g1, g2, g3, g4, g5⟩
    · rw [g1, g2]
      exact ⟨_, _, rfl, moved_clear h i, rfl, fun d r hd => by cases hd⟩
    · rw [g5]
      have hcon : contents s.leaves B = r :: (rest ++ contents s.leaves Q2) := by
        rw [g1, contents_append, g2, contents_cons, recsAt_some g3, g4]
        rfl
      have hown' := (h.lower.leaf e' (by rw [h2.1, g1]; simp) l' g3).own r (by rw [g4]; simp)
      rw [hcon]
      refine ⟨_, _, rfl, moved_setIter h i ⟨some r.1, some e'.2⟩ (fun d hd => ⟨r.1, rfl, ?_⟩), rfl, fun d r' hd => ?_⟩
      · cases hd
        exact hown'
      · cases hd
        exact ⟨by simp [State.setIter], hown', l', g3, by rw [g4]; simp⟩

/-- `PreviousImpl` in a leaf `e` where the records before it are less than `x`. -/
theorem prevImpl_at (hc : c.Ok) {s : State} {L A B : Layer} {e : Option Bytes × Nat} {l : Leaf} (h : Inv c s L) (i : Nat) {x : Bytes}
    (h1 : leafOf c s (s.iters i) x = some e.2) (hL : L = A ++ e :: B) (h3 : s.leaves e.2 = some l)
    (hkept : ∀ r ∈ l.recs, ∀ d, keptLeaf c (s.iters i) e.2 = some d → ∃ y, (some r.1 : Option Bytes) = some y ∧ locate c.lt y L = some d)
    (hA : ∀ r ∈ contents s.leaves A, c.lt r.1 x = true) (hB : ∀ r ∈ contents s.leaves B, c.lt x r.1 = true) :
    ∃ s' y, prevImpl c s i x = some s' ∧ Moved c s s' L i y ∧
      ((∃ r ∈ l.recs, c.lt r.1 x = false) ∨ l.recs = [] → y = (OMap.lesser c.lt x (contents s.leaves L)).map (·.1)) ∧
      ∀ z, y = some z → ∃ r ∈ contents s.leaves L, r.1 = z ∧ c.lt z x = true := by
  have hw := hc.weak
  obtain ⟨R', hR', hlc⟩ := leaf_cut hw (h.lower.leaf e (by rw [hL]; simp) l h3).sorted x
  have hcon : contents s.leaves L = contents s.leaves A ++ l.recs ++ contents s.leaves B := by
    rw [hL, contents_append, contents_cons, recsAt_some h3, List.append_assoc]
  have hles : OMap.lesser c.lt x (contents s.leaves L) = (contents s.leaves A ++ below c.lt x l.recs).getLast? := by
    unfold OMap.lesser
    rw [hcon, List.filter_append, List.filter_append, OMap.filter_true hA, hlc.lower hw,
      OMap.filter_false (l := contents s.leaves B) fun r hr => hw.asymm (hB r hr), List.append_nil]
  rw [hles]
  simp only [prevImpl, h1, h3, Option.bind_eq_bind, Option.bind_some]
  -- going to the leaves before this one
  have back : ∃ s' y, ((setLast s i l.prev).bind fun t => if t.2 = true then some t.1 else some (s.setIter i Iter.clear)) = some s' ∧ Moved c s s' L i y ∧
      y = ((contents s.leaves A).getLast?).map (·.1) := by
    rw [(linked_next h.lower hL h3).2]
    rcases setLast_spec (P := A) (Q := e :: B) h hL i with ⟨g1, g2⟩ | ⟨s', r, rest, g1, g2, g3, _⟩
    · rw [g1, g2]
      exact ⟨_, none, rfl, moved_clear h i, rfl⟩
    · rw [g1, g2]
      exact ⟨s', some r.1, rfl, g3, by simp⟩
  have backOk : ∀ y, y = ((contents s.leaves A).getLast?).map (fun r : Rec => r.1) → ∀ z, y = some z → ∃ r ∈ contents s.leaves L, r.1 = z ∧ c.lt z x = true := by
    intro y hy z hz
    rw [hz] at hy
    cases hg : (contents s.leaves A).getLast? with
    | none => rw [hg] at hy; cases hy
    | some r =>
      rw [hg] at hy
      cases hy
      have hr := List.mem_of_getLast? hg
      exact ⟨r, by rw [hcon]; simp [hr], rfl, hA r hr⟩
  cases hlb : OrdMap.lowerBound c.lt x l.recs with
  | nil =>
    simp only
    obtain ⟨s', y, b1, b2, b3⟩ := back
    refine ⟨s', y, b1, b2, fun hor => ?_, backOk y b3⟩
    rw [b3]
    have hbel : below c.lt x l.recs = l.recs := by
      have := below_append c.lt x l.recs
      rw [hlb, List.append_nil] at this
      exact this
    rcases hor with ⟨r, hr, hlt⟩ | hnil
    · rw [← hbel] at hr
      rw [below_lt r hr] at hlt
      cases hlt
    · rw [hbel, hnil, List.append_nil]
  | cons r0 rest0 =>
    cases hbl : (below c.lt x l.recs).getLast? with
    | some r =>
      simp only
      have hr := List.mem_of_getLast? hbl
      have hrl : r ∈ l.recs := by
        rw [← below_append c.lt x l.recs]
        exact List.mem_append_left _ hr
      refine ⟨_, some r.1, rfl, moved_setIter h i ⟨some r.1, keptLeaf c (s.iters i) e.2⟩ (hkept r hrl), fun _ => ?_, fun z hz => ?_⟩
      · rw [List.getLast?_append, hbl]
        rfl
      · cases hz
        exact ⟨r, by rw [hcon]; simp [hrl], rfl, below_lt r hr⟩
    | none =>
      simp only
      obtain ⟨s', y, b1, b2, b3⟩ := back
      refine ⟨s', y, b1, b2, fun _ => ?_, backOk y b3⟩
      rw [b3, List.getLast?_eq_none_iff.1 hbl, List.append_nil]

/-- `PreviousImpl`, called with the stored key. -/
theorem prevImpl_spec (hc : c.Ok) {s : State} {L : Layer} (h : Inv c s L) (i : Nat) {x : Bytes} (hx : (s.iters i).key = some x) :
    ∃ s' y, prevImpl c s i x = some s' ∧ Moved c s s' L i y ∧
      ((OMap.get c.lt x (contents s.leaves L)).isSome → y = (OMap.lesser c.lt x (contents s.leaves L)).map (·.1)) ∧
      ∀ z, y = some z → ∃ r ∈ contents s.leaves L, r.1 = z ∧ c.lt z x = true := by
  have hw := hc.weak
  obtain ⟨A, e, B, l, h1, h2, h3⟩ := leafOf_spec hc h i hx
  obtain ⟨q1, q2⟩ := contents_sides hw h.lower h2
  obtain ⟨R, hR, hcut⟩ := contents_cut hw h.lower h2 h3
  obtain ⟨s', y, p1, p2, p3, p4⟩ := prevImpl_at hc h i h1 h2.1 h3 (fun r hr => kept_own h hx h2 hw h3 hr) q1 q2
  refine ⟨s', y, p1, p2, fun hg => p3 (Or.inl ?_), p4⟩
  rw [hcut.get hw] at hg
  obtain ⟨r, hr⟩ := Option.isSome_iff_exists.1 hg
  refine ⟨r, ?_, (StrictWeak.eqv_iff.1 (hcut.at_ r hr)).1⟩
  rw [← below_append c.lt x l.recs, hR, hr]
  simp

theorem key_setIter (s : State) (i : Nat) (it : Iter) : (s.setIter i it).iters i = it := by simp [State.setIter]

theorem Moved.key {s s' : State} {L : Layer} {i : Nat} {x : Option Bytes} (h : Moved c s s' L i x) : (s'.iters i).key = x := by
  obtain ⟨it, h1, h2⟩ := h.eq
  rw [h1, key_setIter, h2]

theorem Moved.leaves {s s' : State} {L : Layer} {i : Nat} {x : Option Bytes} (h : Moved c s s' L i x) : s'.leaves = s.leaves ∧ s'.last = s.last ∧ s'.lastOk = s.lastOk := by
  obtain ⟨it, h1, h2⟩ := h.eq
  rw [h1]
  exact ⟨rfl, rfl, rfl⟩

/-- `JumpUpper`. -/
theorem jumpUpper_spec (hc : c.Ok) {s : State} {L : Layer} (h : Inv c s L) (i : Nat) (x : Bytes) (incl : Bool) :
    ∃ s', jumpUpper c s i x incl = some s' ∧
      Moved c s s' L i ((if incl then OMap.atLeast c.lt x (contents s.leaves L) else OMap.greater c.lt x (contents s.leaves L)).map (·.1)) := by
  have hw := hc.weak
  obtain ⟨P, q, R, hcut⟩ := OMap.exists_cut hw x (contents_sorted hw h.lower)
  have hj := jump_spec (c := c) h i x
  obtain ⟨s1, y, a1, a2, a3, a4⟩ := sync_spec hc hj.inv i hj.key
  rw [hj.leaves.1] at a2 a3
  simp only [jumpUpper, a1, Option.bind_eq_bind, Option.bind_some]
  have hm := hj.after a2
  have hat := hcut.atLeast hw
  have hgr := hcut.greater hw
  cases y with
  | none =>
    simp only [Option.map_none] at a3
    refine ⟨s1, rfl, ?_⟩
    rw [← a3] at hm
    have : OMap.greater c.lt x (contents s.leaves L) = none := by
      rw [hgr]
      rw [hat] at a3
      cases q <;> cases R <;> simp at a3 ⊢
    rw [this, ← a3]
    cases incl <;> exact hm
  | some dr =>
    obtain ⟨d, r⟩ := dr
    simp only [Option.map_some] at a3
    rw [← a3] at hm
    simp only [Option.map_some] at hm
    simp only [upperLoop, hm.key]
    by_cases hlt : c.lt x r.1 = true
    · refine ⟨s1, by simp [hlt], ?_⟩
      have : OMap.greater c.lt x (contents s.leaves L) = some r := by
        rw [hgr]
        rw [hat] at a3
        cases q with
        | none => simpa using a3.symm
        | some q0 =>
          simp at a3
          subst a3
          have := (StrictWeak.eqv_iff.1 (hcut.at_ r rfl)).2
          rw [this] at hlt
          cases hlt
      rw [this, ← a3]
      cases incl <;> exact hm
    · have hlt' : c.lt x r.1 = false := by simpa using hlt
      have hge : c.lt r.1 x = false := by
        have : r ∈ (contents s.leaves L) ∧ (!c.lt r.1 x) = true := ⟨List.mem_of_find?_eq_some a3.symm, by
          have := List.find?_some a3.symm
          exact this⟩
        simpa using this.2
      have heq : eqv c.lt r.1 x = true := StrictWeak.eqv_iff.2 ⟨hge, hlt'⟩
      cases incl with
      | true =>
        refine ⟨s1, by simp [heq], ?_⟩
        simp only [if_true]
        rw [← a3]
        exact hm
      | false =>
        -- one step further
        have hnx : nextImpl c s1 i x = nextImpl c s1 i r.1 := by
          have hd := (a4 d r rfl).1
          unfold nextImpl leafOf
          rw [hd]
          simp only [Option.bind_eq_bind, Option.bind_some]
          have : ∀ recs : List Rec, OrdMap.upperBound c.lt x recs = OrdMap.upperBound c.lt r.1 recs := by
            intro recs
            unfold OrdMap.upperBound
            congr 1
            funext z
            rw [hw.lt_congr_left heq]
          simp only [this]
        obtain ⟨s2, n1, n2⟩ := nextImpl_spec hc hm.inv i hm.key
        have hgx : OMap.greater c.lt r.1 (contents s1.leaves L) = OMap.greater c.lt x (contents s.leaves L) := by
          rw [hm.leaves.1]
          unfold OMap.greater
          congr 1
          funext z
          rw [hw.lt_congr_left heq]
        rw [hgx] at n2
        have hmm := hm.after n2
        simp only [hlt', Bool.false_and, Bool.or_false, Bool.false_eq_true, if_false, hnx, n1, Option.bind_eq_bind, Option.bind_some, hmm.key]
        cases hg : OMap.greater c.lt x (contents s.leaves L) with
        | none =>
          rw [hg] at hmm
          refine ⟨_, rfl, hmm.after (moved_clear hmm.inv i)⟩
        | some g =>
          rw [hg] at hmm
          have : c.lt x g.1 = true := by
            unfold OMap.greater at hg
            have := List.find?_some hg
            exact this
          simp only [Option.map_some, this, if_true]
          exact ⟨_, rfl, hmm⟩

end Verif.BTree
