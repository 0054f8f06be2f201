import Verif.BTree.Layers
/-
The updates of the inner nodes: a new child is linked in (`addUp`), two neighbouring children become one (`joinPrev`, `joinNext`), inner nodes are merged
(`mergeUp`).
-/
namespace Verif.BTree
open Verif

variable {c : Cfg}

/-- Only the inner nodes, the root and the level changed. -/
def SameRest (s s' : State) : Prop :=
  s' = { s with inners := s'.inners, numInner := s'.numInner, root := s'.root, level := s'.level }

theorem SameRest.trans {s s' s'' : State} (h1 : SameRest s s') (h2 : SameRest s' s'') : SameRest s s'' := by
  unfold SameRest at *
  rw [h1] at h2
  exact h2

theorem sepSorted_drop {lt : Bytes → Bytes → Bool} {A B : Layer} {e d : Option Bytes × Nat} (hs : SepSorted lt (A ++ e :: d :: B)) :
    SepSorted lt (A ++ e :: B) := by
  unfold SepSorted at hs ⊢
  refine hs.sublist ?_
  simp only [List.map_append, List.map_cons]
  exact List.Sublist.append (List.Sublist.refl _) ((List.sublist_cons_self _ _).cons_cons _)

/-! ### A new child -/

theorem addLink_last {lt : Bytes → Bytes → Bool} {links : List (Bytes × Nat)} {k : Bytes} {ch : Nat} (h : ∀ l ∈ links, lt k l.1 = false) :
    addLink lt links k ch = links ++ [(k, ch)] := by
  induction links with
  | nil => rfl
  | cons l links ih =>
    have hl := h l (by simp)
    have := ih fun a ha => h a (by simp [ha])
    simp only [addLink] at this ⊢
    simp [List.takeWhile_cons, List.dropWhile_cons, hl, this]

theorem addLink_fold {lt : Bytes → Bytes → Bool} (hw : StrictWeak lt) : ∀ (links acc : List (Bytes × Nat)),
    (acc ++ links).Pairwise (fun a b => lt a.1 b.1 = true) → links.foldl (fun acc l => addLink lt acc l.1 l.2) acc = acc ++ links
  | [], acc, _ => by simp
  | l :: links, acc, h => by
    have h1 : addLink lt acc l.1 l.2 = acc ++ [l] := addLink_last fun a ha => by
      rw [List.pairwise_append] at h
      exact hw.asymm (h.2.2 a ha l (by simp))
    rw [List.foldl_cons, h1, addLink_fold hw links (acc ++ [l]) (by simpa using h)]
    simp

theorem exp_sorted_links {lt : Bytes → Bytes → Bool} {n : Inner} {k : Option Bytes} (h : SepSorted lt (exp n k)) :
    n.links.Pairwise (fun a b => lt a.1 b.1 = true) := by
  rw [exp, sepSorted_cons] at h
  have := h.2
  unfold SepSorted at this
  rw [List.map_map, List.pairwise_map] at this
  exact this.imp fun h => h

theorem exp_sublist {inn : Nat → Option Inner} {U A B : Layer} {e : Option Bytes × Nat} {n : Inner} (hU : U = A ++ e :: B) (hn : inn e.2 = some n) :
    (exp n e.1).Sublist (U.flatMap (expand inn)) := by
  subst hU
  rw [List.flatMap_append, List.flatMap_cons, expand_some hn]
  exact (List.sublist_append_left _ _).trans (List.sublist_append_right _ _)

/-- An inner node is cut at a link: the link becomes the heir of the right part. -/
theorem exp_split (n : Inner) (k : Option Bytes) (m : Bytes × Nat) (i : Nat) (h : n.links[i]? = some m) :
    exp n k = exp { n with links := n.links.take i, dirty := true } k ++ exp ⟨m.2, n.links.drop (i + 1), true⟩ (some m.1) := by
  have : n.links = n.links.take i ++ m :: n.links.drop (i + 1) := by
    obtain ⟨hi, hm⟩ := List.getElem?_eq_some_iff.1 h
    rw [← hm, ← List.drop_eq_getElem_cons hi, List.take_append_drop]
  simp only [exp]
  have h2 := congrArg (List.map fun (l : Bytes × Nat) => ((some l.1, l.2) : Option Bytes × Nat)) this
  rw [List.map_append, List.map_cons] at h2
  rw [h2]
  rfl

theorem addUp_spec (hw : StrictWeak c.lt) {x : Bytes} : ∀ (ups : List Layer) (s : State) (hist : List Nat) (L A B : Layer) (k : Option Bytes) (h ch : Nat)
    (m : Bytes), Shape s.inners s.root ups L → (ids ups).Nodup → (∀ i ∈ ids ups, i < s.numInner) → At c.lt x L A (k, h) B →
    SepSorted c.lt (A ++ (k, h) :: (some m, ch) :: B) → Path c.lt x ups hist →
    ∃ s' ups', addUp c s hist h ch m = some s' ∧ Shape s'.inners s'.root ups' (A ++ (k, h) :: (some m, ch) :: B) ∧ (ids ups').Nodup ∧
      (∀ i ∈ ids ups', i < s'.numInner) ∧ (∀ i ∈ ids ups', i ∈ ids ups ∨ s.numInner ≤ i) ∧
      (∀ i, i ∉ ids ups → i < s.numInner → s'.inners i = s.inners i) ∧ s.numInner ≤ s'.numInner ∧
      s'.level + ups.length = s.level + ups'.length ∧ SameRest s s'
  | [], s, hist, L, A, B, k, h, ch, m, hS, hN, hF, hA, hs, hP => by
    cases hist with
    | cons _ _ => exact hP.elim
    | nil =>
      have hL : L = [(none, s.root)] := hS
      have e : A = [] ∧ (k, h) = (none, s.root) ∧ B = [] := by
        have h1 := hA.1
        rw [hL] at h1
        cases A with
        | nil =>
          simp only [List.nil_append, List.cons.injEq] at h1
          exact ⟨rfl, h1.1.symm, h1.2.symm⟩
        | cons a A => simp at h1
      obtain ⟨rfl, e2, rfl⟩ := e
      rw [Prod.mk.injEq] at e2
      obtain ⟨rfl, rfl⟩ := e2
      refine ⟨_, [[(none, s.numInner)]], rfl, ⟨?_, ?_, rfl⟩, by simp [ids], by simp [ids], by simp [ids], ?_, by simp, by simp, ?_⟩
      · intro e he
        simp only [List.mem_singleton] at he
        subst he
        exact ⟨_, by simp [upd]; rfl⟩
      · simp [expand, upd, exp, addLink]
      · intro i _ hi
        have : i ≠ s.numInner := by omega
        simp [upd, this]
      · rfl
  | U :: ups, s, hist, L, A, B, k, h, ch, m, hS, hN, hF, hA, hs, hP => by
    cases hist with
    | nil => exact hP.elim
    | cons i hist =>
      obtain ⟨⟨A', e, B', hAt, rfl⟩, hP⟩ := hP
      have hS' := hS
      obtain ⟨hU, hL, hS2⟩ := hS'
      obtain ⟨n, hn⟩ := hU e (by rw [hAt.1]; simp)
      have hsL : SepSorted c.lt L := by rw [hA.1]; exact sepSorted_drop hs
      obtain ⟨X, e', Y, g1, g2⟩ := at_expand hw hU hL hsL hAt hn
      obtain ⟨rfl, rfl, rfl⟩ := hA.unique g2
      -- the new link goes after (k, h)
      have hsn : SepSorted c.lt (exp n e.1) := hsL.sublist ((by rw [← hL]; exact exp_sublist hAt.1 hn : (exp n e.1).Sublist L).map _)
      have hm : At c.lt m (exp n e.1) X (k, h) Y := by
        refine ⟨g1.1, fun a ha => ?_, ?_, fun b hb => ?_⟩
        · have := (sepSorted_append.1 hs).2.2 a (by simp [ha]) (some m, ch) (by simp)
          exact above_false_mono hw (b := some m) (hw.irrefl m) this
        · have := (sepSorted_cons.1 (sepSorted_append.1 hs).2.1).1 (some m, ch) (by simp)
          exact above_false_mono hw (b := some m) (hw.irrefl m) this
        · have := (sepSorted_cons.1 (sepSorted_cons.1 (sepSorted_append.1 hs).2.1).2).1 b (by simp [hb])
          cases h : b.1 with
          | none => rw [h] at this; exact this.elim
          | some kb => rw [h] at this; exact this
      have hx := (exp_links_split hm).2 ch
      -- bookkeeping of node numbers
      have hN' := hN
      rw [ids_cons, List.nodup_append] at hN'
      obtain ⟨nU, nups, nd⟩ := hN'
      have heU : e.2 ∈ U.map (·.2) := List.mem_map.2 ⟨e, by rw [hAt.1]; simp, rfl⟩
      have heups : e.2 ∉ ids ups := fun hi => nd e.2 heU e.2 hi rfl
      have helt : e.2 < s.numInner := hF e.2 (by rw [ids_cons]; simp only [List.mem_append]; exact Or.inl heU)
      simp only [addUp, hn, Option.bind_eq_bind, Option.bind_some]
      generalize hlinks : addLink c.lt n.links m ch = links at hx ⊢
      split
      · -- no division
        refine ⟨_, U :: ups, rfl, ?_, hN, hF, fun i hi => Or.inl hi, ?_, by simp, by simp, rfl⟩
        · have := hS.update (n' := { n with links := links, dirty := true }) hN hAt.1
          rw [hx] at this
          simpa using this
        · intro i hi _
          have : i ≠ e.2 := by
            rintro rfl
            exact hi (by rw [ids_cons]; simp only [List.mem_append]; exact Or.inl heU)
          simp [upd, this]
      · next hbig =>
        -- the inner node is divided
        have hpos : links.length / 2 < links.length := by omega
        obtain ⟨m2, hm2⟩ : ∃ m2, links[links.length / 2]? = some m2 := ⟨_, List.getElem?_eq_getElem hpos⟩
        rw [hm2]
        simp only [Option.bind_some]
        have hsx : SepSorted c.lt (exp { n with links := links, dirty := true } e.1) := by
          rw [hx]
          rw [sepSorted_append]
          have h1 := sepSorted_append.1 hs
          have h2 := sepSorted_append.1 h1.1
          refine ⟨h2.2.1, ?_, fun a ha b hb => h1.2.2 a (by simp [ha]) b ?_⟩
          · have h3 := h1.2.1
            refine List.Pairwise.sublist (List.Sublist.map _ ?_) h3
            exact ((List.sublist_append_left Y _).cons_cons _).cons_cons _
          · simp only [List.mem_cons, List.mem_append] at hb ⊢
            rcases hb with hb | hb | hb <;> simp [hb]
        have hsl := exp_sorted_links hsx
        have hfold : (links.drop (links.length / 2 + 1)).foldl (fun acc l => addLink c.lt acc l.1 l.2) [] = links.drop (links.length / 2 + 1) := by
          have := addLink_fold hw (links.drop (links.length / 2 + 1)) [] (by
            simp only [List.nil_append]
            exact hsl.sublist (List.drop_sublist _ _))
          simpa using this
        rw [hfold]
        have htake : links.length - ((links.drop (links.length / 2 + 1)).length + 1) = links.length / 2 := by
          rw [List.length_drop]; omega
        rw [htake]
        have hsplit := exp_split { n with links := links, dirty := true } e.1 m2 _ hm2
        simp only at hsplit
        generalize hs1 : ({ s with
            inners := upd (upd s.inners e.2 (some { n with links := links.take (links.length / 2), dirty := true })) s.numInner
              (some ⟨m2.2, links.drop (links.length / 2 + 1), true⟩)
            numInner := s.numInner + 1 } : State) = s1
        have hs1i : s1.inners = upd (upd s.inners e.2 (some { n with links := links.take (links.length / 2), dirty := true })) s.numInner
              (some ⟨m2.2, links.drop (links.length / 2 + 1), true⟩) := by rw [← hs1]
        have hs1r : s1.root = s.root := by rw [← hs1]
        have hs1n : s1.numInner = s.numInner + 1 := by rw [← hs1]
        have hs1l : s1.level = s.level := by rw [← hs1]
        have hne : e.2 ≠ s.numInner := by omega
        have hie : s1.inners e.2 = some { n with links := links.take (links.length / 2), dirty := true } := by simp [hs1i, upd, hne]
        have hin : s1.inners s.numInner = some ⟨m2.2, links.drop (links.length / 2 + 1), true⟩ := by simp [hs1i, upd]
        have hio : ∀ i, i ≠ e.2 → i < s.numInner → s1.inners i = s.inners i := by
          intro i h1 h2
          have : i ≠ s.numInner := by omega
          simp [hs1i, upd, h1, this]
        -- the layer of the divided node
        have hUlt : ∀ d ∈ U, d.2 < s.numInner := fun d hd => hF d.2 (by
          rw [ids_cons]; simp only [List.mem_append]; exact Or.inl (List.mem_map.2 ⟨d, hd, rfl⟩))
        have hA'U : ∀ d ∈ A', d ∈ U := fun d hd => by rw [hAt.1]; simp [hd]
        have hB'U : ∀ d ∈ B', d ∈ U := fun d hd => by rw [hAt.1]; simp [hd]
        have nU' := nU
        rw [hAt.1, List.map_append, List.nodup_append, List.map_cons, List.nodup_cons] at nU'
        have hA'ne : ∀ d ∈ A', d.2 ≠ e.2 := fun d hd he => nU'.2.2 d.2 (List.mem_map.2 ⟨d, hd, rfl⟩) e.2 (by simp) he
        have hB'ne : ∀ d ∈ B', d.2 ≠ e.2 := fun d hd he => nU'.2.1.1 (by rw [← he]; exact List.mem_map.2 ⟨d, hd, rfl⟩)
        have hexA : A'.flatMap (expand s1.inners) = A'.flatMap (expand s.inners) :=
          flatMap_expand_congr fun d hd => hio d.2 (hA'ne d hd) (hUlt d (hA'U d hd))
        have hexB : B'.flatMap (expand s1.inners) = B'.flatMap (expand s.inners) :=
          flatMap_expand_congr fun d hd => hio d.2 (hB'ne d hd) (hUlt d (hB'U d hd))
        have hall : ∀ d ∈ A' ++ e :: (some m2.1, s.numInner) :: B', ∃ n, s1.inners d.2 = some n := by
          intro d hd
          simp only [List.mem_append, List.mem_cons] at hd
          rcases hd with hd | rfl | rfl | hd
          · rw [hio d.2 (hA'ne d hd) (hUlt d (hA'U d hd))]; exact hU d (hA'U d hd)
          · exact ⟨_, hie⟩
          · exact ⟨_, hin⟩
          · rw [hio d.2 (hB'ne d hd) (hUlt d (hB'U d hd))]; exact hU d (hB'U d hd)
        have hexp : (A' ++ e :: (some m2.1, s.numInner) :: B').flatMap (expand s1.inners) =
            A'.flatMap (expand s.inners) ++ X ++ (k, h) :: (some m, ch) :: (Y ++ B'.flatMap (expand s.inners)) := by
          rw [List.flatMap_append, List.flatMap_cons, List.flatMap_cons, expand_some hie,
            expand_some (e := (some m2.1, s.numInner)) hin, hexA, hexB]
          rw [← List.append_assoc (exp _ _), ← hsplit, hx]
          simp
        have hsU' : SepSorted c.lt (A' ++ e :: (some m2.1, s.numInner) :: B') := sorted_up hall hexp hs
        obtain ⟨s', ups', r1, r2, r3, r4, r5, r6, r7, r8, r9⟩ := addUp_spec hw ups s1 hist U A' B' e.1 e.2 s.numInner m2.1
          (by rw [hs1r]; exact hS2.congr fun i hi => hio i (fun h => heups (h ▸ hi)) (hF i (by
            rw [ids_cons]; simp only [List.mem_append]; exact Or.inr hi))) nups
          (fun i hi => by rw [hs1n]; have := hF i (by rw [ids_cons]; simp only [List.mem_append]; exact Or.inr hi); omega)
          hAt hsU' hP
        have hframe : ∀ d ∈ A' ++ e :: (some m2.1, s.numInner) :: B', s'.inners d.2 = s1.inners d.2 := by
          intro d hd
          have hdU : d ∈ U ∨ d.2 = s.numInner := by
            simp only [List.mem_append, List.mem_cons] at hd
            rcases hd with hd | rfl | rfl | hd
            · exact Or.inl (hA'U d hd)
            · exact Or.inl (by rw [hAt.1]; simp)
            · exact Or.inr rfl
            · exact Or.inl (hB'U d hd)
          rcases hdU with hdU | hdU
          · refine r6 d.2 (fun hi => nd d.2 (List.mem_map.2 ⟨d, hdU, rfl⟩) d.2 hi rfl) ?_
            have := hUlt d hdU
            omega
          · rw [hdU]
            refine r6 _ (fun hi => ?_) (by omega)
            have := hF s.numInner (by rw [ids_cons]; simp only [List.mem_append]; exact Or.inr hi)
            omega
        refine ⟨s', (A' ++ e :: (some m2.1, s.numInner) :: B') :: ups', r1, ⟨fun d hd => ?_, ?_, r2⟩, ?_, ?_, ?_, ?_, ?_, ?_, ?_⟩
        · rw [hframe d hd]; exact hall d hd
        · rw [flatMap_expand_congr hframe, hexp]
        · rw [ids_cons, List.nodup_append]
          refine ⟨?_, r3, ?_⟩
          · rw [List.map_append, List.map_cons, List.map_cons, List.nodup_append]
            refine ⟨nU'.1, ?_, ?_⟩
            · rw [List.nodup_cons, List.nodup_cons]
              refine ⟨?_, ?_, nU'.2.1.2⟩
              · simp only [List.mem_cons, not_or]
                exact ⟨hne, nU'.2.1.1⟩
              · intro hi
                obtain ⟨d, hd, hdn⟩ := List.mem_map.1 hi
                have := hUlt d (hB'U d hd)
                simp only at hdn
                omega
            · intro a ha b hb
              rcases List.mem_cons.1 hb with rfl | hb
              · exact nU'.2.2 a ha e.2 (by simp)
              · rcases List.mem_cons.1 hb with rfl | hb
                · obtain ⟨d, hd, rfl⟩ := List.mem_map.1 ha
                  have := hUlt d (hA'U d hd)
                  simp only
                  omega
                · exact nU'.2.2 a ha b (by simp [hb])
          · intro a ha b hb hab
            subst hab
            obtain ⟨d, hd, rfl⟩ := List.mem_map.1 ha
            rcases r5 d.2 hb with h1 | h1
            · simp only [List.mem_append, List.mem_cons] at hd
              rcases hd with hd | rfl | rfl | hd
              · exact nd d.2 (List.mem_map.2 ⟨d, hA'U d hd, rfl⟩) d.2 h1 rfl
              · exact heups h1
              · have := hF s.numInner (by rw [ids_cons]; simp only [List.mem_append]; exact Or.inr h1)
                omega
              · exact nd d.2 (List.mem_map.2 ⟨d, hB'U d hd, rfl⟩) d.2 h1 rfl
            · rw [hs1n] at h1
              simp only [List.mem_append, List.mem_cons] at hd
              rcases hd with hd | rfl | rfl | hd
              · have := hUlt d (hA'U d hd); omega
              · omega
              · simp only at h1; omega
              · have := hUlt d (hB'U d hd); omega
        · intro i hi
          rw [ids_cons, List.mem_append] at hi
          rcases hi with hi | hi
          · obtain ⟨d, hd, rfl⟩ := List.mem_map.1 hi
            rw [hs1n] at r7
            simp only [List.mem_append, List.mem_cons] at hd
            rcases hd with hd | rfl | rfl | hd
            · have := hUlt d (hA'U d hd); omega
            · omega
            · simp only; omega
            · have := hUlt d (hB'U d hd); omega
          · exact r4 i hi
        · intro i hi
          rw [ids_cons, List.mem_append] at hi
          rw [ids_cons, List.mem_append]
          rcases hi with hi | hi
          · obtain ⟨d, hd, rfl⟩ := List.mem_map.1 hi
            simp only [List.mem_append, List.mem_cons] at hd
            rcases hd with hd | rfl | rfl | hd
            · exact Or.inl (Or.inl (List.mem_map.2 ⟨d, hA'U d hd, rfl⟩))
            · exact Or.inl (Or.inl heU)
            · exact Or.inr (Nat.le_refl _)
            · exact Or.inl (Or.inl (List.mem_map.2 ⟨d, hB'U d hd, rfl⟩))
          · rcases r5 i hi with h1 | h1
            · exact Or.inl (Or.inr h1)
            · right; omega
        · intro i hi hlt
          rw [ids_cons, List.mem_append, not_or] at hi
          rw [r6 i hi.2 (by omega)]
          exact hio i (fun he => hi.1 (he ▸ heU)) hlt
        · omega
        · simp only [List.length_cons]; omega
        · refine SameRest.trans (?_ : SameRest s s1) r9
          rw [← hs1]
          rfl

end Verif.BTree
