import Verif.Index.StdModel
import Verif.Index.Sim
/-
Every call of StdIndex and of StdIndexStr does what the specification says.
-/
namespace Verif.Index
open Verif

section
variable {ε κ ν : Type} [DecidableEq ε] [DecidableEq κ] [DecidableEq ν]

/-- The pairs in ascending order. -/
def Ordered (lt : κ × ν → κ × ν → Bool) (l : List (κ × ν)) : Prop := l.Pairwise fun p q => lt p q = true

/-- The pairs of the specification are the elements of the set. -/
structure StdRel (c : StdCfg ε κ ν) (ok : κ × ν → Prop) (lt : κ × ν → κ × ν → Bool) (s : StdState ε) (u : S κ ν) : Prop where
  elems : s.elems = u.pairs.map c.enc
  good : ∀ q ∈ u.pairs, ok q
  asc : Ordered lt u.pairs
  iters : ∀ i, s.iters i = (u.iters i).map c.enc
  there : ∀ i p, u.iters i = some p → p ∈ u.pairs

/-- How the elements stand for pairs. -/
structure Coded (c : StdCfg ε κ ν) (ok : κ × ν → Prop) (lt : κ × ν → κ × ν → Bool) : Prop where
  order : KeyOrder lt c.dflt
  read : ∀ p, ok p → c.dec (c.enc p) = some p
  less : ∀ p q, ok p → ok q → c.lt (c.enc p) (c.enc q) = lt p q

variable {c : StdCfg ε κ ν} {ok : κ × ν → Prop} {lt : κ × ν → κ × ν → Bool}

theorem takeWhile_split {α : Type} {f : α → Bool} : ∀ {A B : List α}, (∀ a ∈ A, f a = true) → (∀ b ∈ B, f b = false) →
    (A ++ B).takeWhile f = A ∧ (A ++ B).dropWhile f = B
  | [], B, _, hB => by
    cases B with
    | nil => exact ⟨rfl, rfl⟩
    | cons b B => simp [hB b (by simp)]
  | a :: A, B, hA, hB => by
    have := takeWhile_split (f := f) (fun x hx => hA x (by simp [hx])) hB (A := A)
    simp [hA a (by simp), this.1, this.2]

/-- A list in ascending order, cut at a pair. -/
theorem cut_pairs (ho : KeyOrder lt c.dflt) (p : κ × ν) : ∀ {l : List (κ × ν)}, Ordered lt l →
    ∃ A C, (∀ a ∈ A, lt a p = true) ∧ (∀ b ∈ C, lt p b = true) ∧ (l = A ++ p :: C ∨ (l = A ++ C ∧ p ∉ l))
  | [], _ => ⟨[], [], by simp, by simp, Or.inr ⟨rfl, by simp⟩⟩
  | q :: l, h => by
    have h' := List.pairwise_cons.1 h
    cases h1 : lt q p with
    | true =>
      obtain ⟨A, C, hA, hC, e⟩ := cut_pairs ho p h'.2
      refine ⟨q :: A, C, fun a ha => ?_, hC, ?_⟩
      · rcases List.mem_cons.1 ha with rfl | ha
        · exact h1
        · exact hA a ha
      · rcases e with e | ⟨e, hn⟩
        · exact Or.inl (by rw [e]; rfl)
        · refine Or.inr ⟨by rw [e]; rfl, ?_⟩
          intro hm
          rcases List.mem_cons.1 hm with rfl | hm
          · rw [ho.weak.irrefl] at h1; cases h1
          · exact hn hm
    | false =>
      cases h2 : lt p q with
      | true =>
        have hC : ∀ b ∈ q :: l, lt p b = true := fun b hb => by
          rcases List.mem_cons.1 hb with rfl | hb
          · exact h2
          · exact ho.weak.trans _ _ _ h2 (h'.1 b hb)
        refine ⟨[], q :: l, by simp, hC, Or.inr ⟨rfl, fun hm => ?_⟩⟩
        have := hC p hm
        rw [ho.weak.irrefl] at this; cases this
      | false =>
        have e := ho.total q p h1 h2
        subst e
        exact ⟨[], l, by simp, h'.1, Or.inl rfl⟩

/-- The specification at a pair which is there. -/
theorem spec_there (ho : KeyOrder lt c.dflt) {p : κ × ν} {A C : List (κ × ν)} (hA : ∀ a ∈ A, lt a p = true) (hC : ∀ b ∈ C, lt p b = true) :
    added lt p (A ++ p :: C) = A ++ p :: C ∧ (A ++ p :: C).filter (· ≠ p) = A ++ C ∧ notLess lt p (A ++ p :: C) = some p ∧ after lt p (A ++ p :: C) = C.head? ∧
    before lt p (A ++ p :: C) = A.getLast? := by
  have hAn : ∀ a ∈ A, a ≠ p := by rintro a ha rfl; have := hA _ ha; rw [ho.weak.irrefl] at this; cases this
  have hCn : ∀ a ∈ C, a ≠ p := by rintro a ha rfl; have := hC _ ha; rw [ho.weak.irrefl] at this; cases this
  have f1 : (A ++ p :: C).filter (lt · p) = A := by
    rw [List.filter_append, List.filter_eq_self.2 hA, List.filter_eq_nil_iff.2, List.append_nil]
    intro b hb
    rcases List.mem_cons.1 hb with rfl | hb
    · simp [ho.weak.irrefl]
    · simp [ho.weak.asymm (hC b hb)]
  have f2 : (A ++ p :: C).filter (lt p ·) = C := by
    rw [List.filter_append, List.filter_eq_nil_iff.2 (fun a ha => by simp [ho.weak.asymm (hA a ha)]), List.nil_append,
      List.filter_cons_of_neg (by simp [ho.weak.irrefl]), List.filter_eq_self.2 hC]
  refine ⟨by rw [added, f1, f2], ?_, ?_, ?_, ?_⟩
  · rw [List.filter_append, List.filter_eq_self.2 (fun a ha => by simpa using hAn a ha), List.filter_cons_of_neg (by simp),
      List.filter_eq_self.2 (fun a ha => by simpa using hCn a ha)]
  · rw [notLess, List.find?_append, List.find?_eq_none.2 (fun a ha => by simp [hA a ha]), Option.none_or, List.find?_cons_of_pos (by simp [ho.weak.irrefl])]
  · rw [after, ← List.head?_filter, f2]
  · rw [before, f1]

/-- The specification at a pair which is not there. -/
theorem spec_absent (ho : KeyOrder lt c.dflt) {p : κ × ν} {A C : List (κ × ν)} (hA : ∀ a ∈ A, lt a p = true) (hC : ∀ b ∈ C, lt p b = true) :
    added lt p (A ++ C) = A ++ p :: C ∧ (A ++ C).filter (· ≠ p) = A ++ C ∧ notLess lt p (A ++ C) = C.head? := by
  have hAn : ∀ a ∈ A, a ≠ p := by rintro a ha rfl; have := hA _ ha; rw [ho.weak.irrefl] at this; cases this
  have hCn : ∀ a ∈ C, a ≠ p := by rintro a ha rfl; have := hC _ ha; rw [ho.weak.irrefl] at this; cases this
  refine ⟨?_, ?_, ?_⟩
  · rw [added, List.filter_append, List.filter_append, List.filter_eq_self.2 hA, (List.filter_eq_nil_iff (l := C) (p := (lt · p))).2 (fun b hb => by simp [ho.weak.asymm (hC b hb)]),
      (List.filter_eq_nil_iff (l := A) (p := (lt p ·))).2 (fun a ha => by simp [ho.weak.asymm (hA a ha)]), List.filter_eq_self.2 hC, List.append_nil, List.nil_append]
  · rw [List.filter_append, List.filter_eq_self.2 (fun a ha => by simpa using hAn a ha), List.filter_eq_self.2 (fun a ha => by simpa using hCn a ha)]
  · rw [notLess, ← List.head?_filter, List.filter_append, List.filter_eq_nil_iff.2 (fun a ha => by simp [hA a ha]), List.nil_append,
      List.filter_eq_self.2 (fun b hb => by simp [ho.weak.asymm (hC b hb)])]

/-- The set at a pair: the elements before it and the others. -/
theorem at_pair (hc : Coded c ok lt) {p : κ × ν} (hp : ok p) {A B : List (κ × ν)} (hg : ∀ q ∈ A ++ B, ok q) (hA : ∀ a ∈ A, lt a p = true) (hB : ∀ b ∈ B, lt b p = false) :
    ((A ++ B).map c.enc).takeWhile (c.lt · (c.enc p)) = A.map c.enc ∧ lowerBound c.lt (c.enc p) ((A ++ B).map c.enc) = B.map c.enc := by
  unfold lowerBound
  rw [List.map_append]
  refine takeWhile_split (fun a ha => ?_) (fun b hb => ?_)
  · obtain ⟨a, h, rfl⟩ := List.mem_map.1 ha
    clear ha
    have ha := h
    rw [hc.less a p (hg a (by simp [ha])) hp]
    exact hA a ha
  · obtain ⟨b, h, rfl⟩ := List.mem_map.1 hb
    clear hb
    have hb := h
    rw [hc.less b p (hg b (by simp [hb])) hp]
    exact hB b hb

theorem stdLoop_eq (hc : Coded c ok lt) (key : κ) (max : Nat) : ∀ (l : List (κ × ν)) (values : List ν), (∀ q ∈ l, ok q) →
    stdLoop c key max (l.map c.enc) values = some (values ++
      (if max = 0 then (l.takeWhile fun q => decide (q.1 = key)).map (·.2) else ((l.takeWhile fun q => decide (q.1 = key)).map (·.2)).take (max - values.length)))
  | [], values, _ => by simp [stdLoop]
  | q :: l, values, h => by
    rw [List.map_cons, stdLoop]
    by_cases hm : 0 < max ∧ max ≤ values.length
    · rw [if_pos hm]
      simp [show max ≠ 0 by omega, show max - values.length = 0 by omega]
    · rw [if_neg hm, hc.read q (h q (by simp))]
      simp only [Option.bind_eq_bind, Option.bind_some]
      by_cases hk : q.1 = key
      · rw [if_neg (by simpa using hk), stdLoop_eq hc key max l _ fun x hx => h x (by simp [hx]), List.takeWhile_cons_of_pos (by simpa using hk)]
        simp only [List.append_assoc, List.map_cons, List.cons_append, List.nil_append, List.length_append, List.length_cons, List.length_nil]
        by_cases hz : max = 0
        · simp [hz]
        · simp only [hz, if_false]
          rw [show max - values.length = (max - (values.length + 1)) + 1 by omega, List.take_succ_cons]
      · rw [if_pos (by simpa using hk), List.takeWhile_cons_of_neg (by simpa using hk)]
        simp

/-- The values of a key from the place of the first possible one. -/
theorem takeWhile_values (ho : KeyOrder lt c.dflt) (key : κ) {A B : List (κ × ν)} (h : Ordered lt (A ++ B)) (hA : ∀ a ∈ A, lt a (key, c.dflt) = true)
    (hB : ∀ b ∈ B, lt b (key, c.dflt) = false) : (B.takeWhile fun q => decide (q.1 = key)) = (A ++ B).filter fun q => decide (q.1 = key) := by
  have hAk : (A.filter fun q => decide (q.1 = key)) = [] := by
    rw [List.filter_eq_nil_iff]
    intro a ha
    simp only [decide_eq_true_eq]
    intro e
    have h1 := hA a ha
    have h2 := ho.least key a.2
    rw [← e] at h2
    rw [← e] at h1
    rw [h1] at h2
    cases h2
  rw [List.filter_append, hAk, List.nil_append]
  have hBo : Ordered lt B := (List.pairwise_append.1 h).2.1
  clear h hA hAk
  induction B with
  | nil => rfl
  | cons q l ih =>
    have h' := List.pairwise_cons.1 hBo
    by_cases hk : q.1 = key
    · rw [List.takeWhile_cons_of_pos (by simpa using hk), List.filter_cons_of_pos (by simpa using hk), ih (fun b hb => hB b (by simp [hb])) h'.2]
    · rw [List.takeWhile_cons_of_neg (by simpa using hk), List.filter_cons_of_neg (by simpa using hk)]
      symm
      rw [List.filter_eq_nil_iff]
      intro b hb
      simp only [decide_eq_true_eq]
      intro e
      have h1 := hB q (by simp)
      have h2 := h'.1 b hb
      cases h3 : lt (key, c.dflt) q with
      | true => exact hk (ho.together (key, c.dflt) q b e.symm h3 h2)
      | false =>
        have := ho.total q (key, c.dflt) h1 h3
        rw [this] at hk
        exact hk rfl

omit [DecidableEq κ] in
theorem StdRel.move {s : StdState ε} {u : S κ ν} (h : StdRel c ok lt s u) (i : Nat) (x : Option (κ × ν)) (hx : ∀ p, x = some p → p ∈ u.pairs) :
    StdRel c ok lt (s.setIter i (x.map c.enc)) (u.move i x) where
  elems := h.elems
  good := h.good
  asc := h.asc
  iters j := by
    simp only [StdState.setIter, S.move]
    by_cases hj : j = i
    · simp [hj]
    · rw [if_neg hj, if_neg hj]; exact h.iters j
  there j p hp := by
    simp only [S.move] at hp
    split at hp
    · exact hx p hp
    · exact h.there j p hp

/-- SPECIFICATION: the pairs given to a call are such that they can be kept. -/
def CallOk (ok : κ × ν → Prop) (dflt : ν) : Call κ ν → Prop
  | .check p | .add p | .remove p | .jump _ p => ok p
  | .getValues key _ => ok (key, dflt)
  | _ => True

omit [DecidableEq ν] in
theorem enc_inj (hc : Coded c ok lt) {p q : κ × ν} (hp : ok p) (hq : ok q) (h : c.enc p = c.enc q) : p = q := by
  have := hc.read p hp
  rw [h, hc.read q hq] at this
  exact (Option.some.inj this).symm

theorem stdCall_ok (hc : Coded c ok lt) {s : StdState ε} {u : S κ ν} (h : StdRel c ok lt s u) (x : Call κ ν) (hx : CallOk ok c.dflt x) :
    ∃ s' o u', stdCall c s x = some (s', o) ∧ StdSpec lt u x u' o ∧ StdRel c ok lt s' u' := by
  have ho := hc.order
  -- the set at a pair
  have look : ∀ p, ok p → ∃ A C, (∀ a ∈ A, lt a p = true) ∧ (∀ b ∈ C, lt p b = true) ∧
      ((p ∈ u.pairs ∧ u.pairs = A ++ p :: C ∧ s.elems.takeWhile (c.lt · (c.enc p)) = A.map c.enc ∧ lowerBound c.lt (c.enc p) s.elems = c.enc p :: C.map c.enc ∧
          findElem c.lt (c.enc p) s.elems = some (c.enc p)) ∨
        (p ∉ u.pairs ∧ u.pairs = A ++ C ∧ s.elems.takeWhile (c.lt · (c.enc p)) = A.map c.enc ∧ lowerBound c.lt (c.enc p) s.elems = C.map c.enc ∧
          findElem c.lt (c.enc p) s.elems = none)) := by
    intro p hp
    obtain ⟨A, C, hA, hC, e⟩ := cut_pairs ho p h.asc
    refine ⟨A, C, hA, hC, ?_⟩
    rcases e with e | ⟨e, hn⟩
    · have := at_pair hc hp (A := A) (B := p :: C) (by rw [← e]; exact h.good) hA (fun b hb => by
        rcases List.mem_cons.1 hb with rfl | hb
        · exact ho.weak.irrefl _
        · exact ho.weak.asymm (hC b hb))
      rw [← e, ← h.elems] at this
      refine Or.inl ⟨by rw [e]; simp, e, this.1, this.2, ?_⟩
      unfold findElem
      rw [this.2, List.map_cons]
      simp [hc.less p p hp hp, ho.weak.irrefl]
    · have := at_pair hc hp (A := A) (B := C) (by rw [← e]; exact h.good) hA (fun b hb => ho.weak.asymm (hC b hb))
      rw [← e, ← h.elems] at this
      refine Or.inr ⟨hn, e, this.1, this.2, ?_⟩
      unfold findElem
      rw [this.2]
      cases C with
      | nil => rfl
      | cons q C =>
        simp [hc.less p q hp (h.good q (by rw [e]; simp)), hC q (by simp)]
  cases x with
  | check p =>
    obtain ⟨A, C, hA, hC, ⟨hm, e, -, -, hf⟩ | ⟨hm, e, -, -, hf⟩⟩ := look p hx
    · exact ⟨s, _, u, rfl, ⟨rfl, _, rfl, by rw [hf]; simp [hm]⟩, h⟩
    · exact ⟨s, _, u, rfl, ⟨rfl, _, rfl, by rw [hf]; simp [hm]⟩, h⟩
  | getValues key max =>
    obtain ⟨A, C, hA, hC, hcase⟩ := look (key, c.dflt) hx
    have key' : ∃ B, u.pairs = A ++ B ∧ lowerBound c.lt (c.enc (key, c.dflt)) s.elems = B.map c.enc ∧ ∀ b ∈ B, lt b (key, c.dflt) = false := by
      rcases hcase with ⟨-, e, -, hl, -⟩ | ⟨-, e, -, hl, -⟩
      · refine ⟨(key, c.dflt) :: C, e, hl, fun b hb => ?_⟩
        rcases List.mem_cons.1 hb with rfl | hb
        · exact ho.weak.irrefl _
        · exact ho.weak.asymm (hC b hb)
      · exact ⟨C, e, hl, fun b hb => ho.weak.asymm (hC b hb)⟩
    obtain ⟨B, e, hl, hB⟩ := key'
    refine ⟨s, .values (valuesOf u.pairs key max), u, ?_, ⟨rfl, rfl⟩, h⟩
    simp only [stdCall]
    rw [hl, stdLoop_eq hc key max B [] fun q hq => h.good q (by rw [e]; simp [hq])]
    simp only [Option.bind_eq_bind, Option.bind_some, List.nil_append, List.length_nil, Nat.sub_zero]
    rw [takeWhile_values ho key (by rw [← e]; exact h.asc) hA hB, ← e]
    rfl
  | add p =>
    obtain ⟨A, C, hA, hC, ⟨hm, e, -, -, hf⟩ | ⟨hm, e, ht, hl, hf⟩⟩ := look p hx
    · refine ⟨s, .done, u, ?_, ⟨?_, rfl⟩, h⟩
      · simp [stdCall, emplaceElem, hf]
      · have := (spec_there ho hA hC).1
        rw [← e] at this
        rw [this]
    · have ha := (spec_absent ho hA hC).1
      rw [← e] at ha
      refine ⟨_, .done, { u with pairs := added lt p u.pairs }, rfl, ⟨rfl, rfl⟩, ⟨?_, fun q hq => ?_, ?_, h.iters, fun i q hq => ?_⟩⟩
      · simp only [emplaceElem, hf, ht, hl, ha]
        simp
      · simp only [ha] at hq
        rcases List.mem_append.1 hq with hq | hq
        · exact h.good q (by rw [e]; simp [hq])
        · rcases List.mem_cons.1 hq with rfl | hq
          · exact hx
          · exact h.good q (by rw [e]; simp [hq])
      · show Ordered lt (added lt p u.pairs)
        rw [ha]
        have hasc := h.asc
        rw [e] at hasc
        have h1 := List.pairwise_append.1 hasc
        refine List.pairwise_append.2 ⟨h1.1, List.pairwise_cons.2 ⟨hC, h1.2.1⟩, fun a ha' b hb => ?_⟩
        rcases List.mem_cons.1 hb with rfl | hb
        · exact hA a ha'
        · exact h1.2.2 a ha' b hb
      · have := h.there i q hq
        show q ∈ added lt p u.pairs
        rw [ha]
        rw [e] at this
        rcases List.mem_append.1 this with h | h <;> simp [h]
  | remove p =>
    obtain ⟨A, C, hA, hC, ⟨hm, e, ht, hl, hf⟩ | ⟨hm, e, -, -, hf⟩⟩ := look p hx
    · have hsp := spec_there ho hA hC
      rw [← e] at hsp
      refine ⟨_, .done, _, by simp only [stdCall, hf]; rfl, ⟨rfl, rfl⟩, ?_⟩
      have hmem : ∀ q, q ∈ A ++ C → q ∈ u.pairs := fun q hq => by
        rw [e]
        rcases List.mem_append.1 hq with h | h <;> simp [h]
      have hit : ∀ i, (s.iters i = some (c.enc p)) ↔ u.iters i = some p := by
        intro i
        rw [h.iters]
        constructor
        · intro h'
          obtain ⟨q, hq, he⟩ := Option.map_eq_some_iff.1 h'
          rw [hq, enc_inj hc (h.good q (h.there i q hq)) hx he]
        · intro h'
          rw [h']; rfl
      refine ⟨?_, fun q hq => ?_, ?_, fun i => ?_, fun i q hq => ?_⟩
      · show eraseElem c.lt (c.enc p) s.elems = (u.pairs.filter (· ≠ p)).map c.enc
        rw [eraseElem, ht, hl, hsp.2.1]
        simp
      · exact h.good q (List.mem_filter.1 hq).1
      · exact List.Pairwise.filter _ h.asc
      · show (if s.iters i = some (c.enc p) then nextElem c.lt (c.enc p) s.elems else s.iters i) = _
        by_cases hi : u.iters i = some p
        · rw [if_pos ((hit i).2 hi)]
          simp only [hi, if_true]
          rw [hsp.2.2.2.1, nextElem, hl, List.tail_cons, List.head?_map]
        · rw [if_neg (fun h' => hi ((hit i).1 h'))]
          simp only [hi, if_false]
          exact h.iters i
      · show q ∈ u.pairs.filter (· ≠ p)
        simp only at hq
        split at hq
        · rw [hsp.2.2.2.1] at hq
          rw [hsp.2.1]
          have := List.mem_of_head? hq
          simp [this]
        · next hi =>
          refine List.mem_filter.2 ⟨h.there i q hq, ?_⟩
          simp only [ne_eq, decide_not, Bool.not_eq_true', decide_eq_false_iff_not]
          rintro rfl
          exact hi hq
    · refine ⟨s, .done, u, by simp [stdCall, hf], ⟨?_, rfl⟩, h⟩
      have hsp := (spec_absent ho hA hC).2.1
      rw [← e] at hsp
      rw [hsp]
      have : (fun i => if u.iters i = some p then after lt p u.pairs else u.iters i) = u.iters := by
        funext i
        rw [if_neg]
        intro hi
        exact hm (h.there i p hi)
      rw [this]
  | count => exact ⟨s, _, u, rfl, ⟨rfl, by rw [h.elems]; simp⟩, h⟩
  | clear => exact ⟨_, _, S.empty, rfl, ⟨rfl, rfl⟩, ⟨rfl, by simp [S.empty], List.Pairwise.nil, fun _ => rfl, by simp [S.empty]⟩⟩
  | first i =>
    refine ⟨_, _, u.move i u.pairs.head?, rfl, ⟨rfl, rfl⟩, ?_⟩
    rw [h.elems, List.head?_map]
    exact h.move i _ fun p hp => List.mem_of_head? hp
  | last i =>
    refine ⟨_, _, u.move i u.pairs.getLast?, rfl, ⟨rfl, rfl⟩, ?_⟩
    have : (if s.elems.head?.isSome then prevElem c.lt none s.elems else none) = u.pairs.getLast?.map c.enc := by
      rw [h.elems, prevElem, List.getLast?_map]
      cases u.pairs with
      | nil => rfl
      | cons q l => rfl
    rw [this]
    exact h.move i _ fun p hp => List.mem_of_getLast? hp
  | jump i p =>
    obtain ⟨A, C, hA, hC, ⟨hm, e, ht, hl, hf⟩ | ⟨hm, e, ht, hl, hf⟩⟩ := look p hx
    · have hsp := (spec_there ho hA hC).2.2.1
      rw [← e] at hsp
      refine ⟨_, _, u.move i (some p), rfl, ⟨by rw [hsp], rfl⟩, ?_⟩
      rw [hl]
      exact h.move i (some p) fun q hq => by cases hq; exact hm
    · have hsp := (spec_absent ho hA hC).2.2
      rw [← e] at hsp
      refine ⟨_, _, u.move i C.head?, rfl, ⟨by rw [hsp], rfl⟩, ?_⟩
      rw [hl, List.head?_map]
      exact h.move i _ fun q hq => by
        rw [e]
        simp [List.mem_of_head? hq]
  | next i =>
    cases hi : u.iters i with
    | none =>
      have hsi : s.iters i = none := by rw [h.iters, hi]; rfl
      refine ⟨s, _, u, by simp only [stdCall, hsi], ⟨?_, rfl⟩, h⟩
      rw [hi]
      have : (fun j => if j = i then none else u.iters j) = u.iters := by
        funext j
        by_cases hj : j = i
        · subst hj; simp [hi]
        · simp [hj]
      simp [S.move, this]
    | some p =>
      have hm := h.there i p hi
      have hsi : s.iters i = some (c.enc p) := by rw [h.iters, hi]; rfl
      obtain ⟨A, C, hA, hC, ⟨-, e, ht, hl, hf⟩ | ⟨hm', -⟩⟩ := look p (h.good p hm)
      · have hsp := (spec_there ho hA hC).2.2.2.1
        rw [← e] at hsp
        refine ⟨_, _, u.move i C.head?, by simp only [stdCall, hsi]; rfl, ⟨by rw [hi]; simp [hsp], rfl⟩, ?_⟩
        rw [nextElem, hl, List.tail_cons, List.head?_map]
        exact h.move i _ fun q hq => by
          rw [e]
          simp [List.mem_of_head? hq]
      · exact absurd hm hm'
  | previous i =>
    have key : (if s.iters i = s.elems.head? then none else prevElem c.lt (s.iters i) s.elems) =
        (match u.iters i with | none => u.pairs.getLast? | some p => before lt p u.pairs).map c.enc := by
      cases hi : u.iters i with
      | none =>
        have hsi : s.iters i = none := by rw [h.iters, hi]; rfl
        rw [hsi, h.elems]
        cases u.pairs with
        | nil => rfl
        | cons q l =>
          rw [if_neg (by simp), prevElem, List.getLast?_map]
      | some p =>
        have hm := h.there i p hi
        have hsi : s.iters i = some (c.enc p) := by rw [h.iters, hi]; rfl
        obtain ⟨A, C, hA, hC, ⟨-, e, ht, hl, hf⟩ | ⟨hm', -⟩⟩ := look p (h.good p hm)
        · have hsp := (spec_there ho hA hC).2.2.2.2
          rw [← e] at hsp
          rw [hsi]
          simp only [hsp, prevElem, ht]
          rw [List.getLast?_map]
          cases A with
          | nil => simp
          | cons a A =>
            rw [if_neg]
            rw [h.elems, e]
            simp only [List.cons_append, List.map_cons, List.head?_cons, Option.some.injEq]
            intro he
            have : p = a := enc_inj hc (h.good p hm) (h.good a (by rw [e]; simp)) he
            have h2 := hA a (by simp)
            rw [← this, ho.weak.irrefl] at h2
            cases h2
        · exact absurd hm hm'
    refine ⟨_, _, u.move i _, rfl, ⟨rfl, rfl⟩, ?_⟩
    rw [key]
    refine h.move i _ fun p hp => ?_
    cases hi : u.iters i with
    | none => rw [hi] at hp; exact List.mem_of_getLast? hp
    | some q =>
      rw [hi] at hp
      have := List.mem_of_getLast? hp
      exact (List.mem_filter.1 this).1
  | get i =>
    cases hi : u.iters i with
    | none =>
      have hsi : s.iters i = none := by rw [h.iters, hi]; rfl
      exact ⟨s, .pair none, u, by simp only [stdCall, hsi], ⟨rfl, by rw [hi]⟩, h⟩
    | some p =>
      have hsi : s.iters i = some (c.enc p) := by rw [h.iters, hi]; rfl
      exact ⟨s, .pair (some p), u, by simp [stdCall, hsi, hc.read p (h.good p (h.there i p hi))], ⟨rfl, by rw [hi]⟩, h⟩

theorem stdCalls_ok (hc : Coded c ok lt) : ∀ (l : List (Call κ ν)) {s : StdState ε} {u : S κ ν}, StdRel c ok lt s u → (∀ x ∈ l, CallOk ok c.dflt x) →
    ∃ s' os u', stdCalls c s l = some (s', os) ∧ StdSpecRun lt u l u' os ∧ StdRel c ok lt s' u'
  | [], s, u, h, _ => ⟨s, [], u, rfl, ⟨rfl, rfl⟩, h⟩
  | x :: l, s, u, h, hx => by
    obtain ⟨s1, o, u1, h1, h2, h3⟩ := stdCall_ok hc h x (hx x (by simp))
    obtain ⟨s', os, u', h4, h5, h6⟩ := stdCalls_ok hc l h3 fun y hy => hx y (by simp [hy])
    exact ⟨s', o :: os, u', by simp [stdCalls, h1, h4], ⟨u1, o, os, h2, h5, rfl⟩, h6⟩

omit [DecidableEq ε] [DecidableEq κ] [DecidableEq ν] in
theorem empty_std : StdRel c ok lt StdState.empty S.empty := ⟨rfl, by simp [S.empty], List.Pairwise.nil, fun _ => rfl, by simp [S.empty]⟩

end

/-! ### The two instances -/

theorem pairLt_keyOrder : KeyOrder pairLt ([] : Bytes) where
  weak := pairLt_weak
  total p q h1 h2 := (pairLt_eqv p q).1 (StrictWeak.eqv_iff.2 ⟨h1, h2⟩)
  together p q r e h1 h2 := by
    simp only [pairLt, Bool.or_eq_true, Bool.and_eq_true, decide_eq_true_eq] at h1 h2
    rcases h1 with h1 | ⟨h1, -⟩
    · rcases h2 with h2 | ⟨h2, -⟩
      · rw [← e] at h2
        rw [bytesLt_weak.asymm h1] at h2; cases h2
      · exact h2.trans e.symm
    · exact h1.symm
  least k v := by simp [pairLt, bytesLt_weak.irrefl, bytesLt]

theorem stdIndex_coded {κ ν : Type} [DecidableEq κ] [DecidableEq ν] {lt : κ × ν → κ × ν → Bool} {dflt : ν} (h : KeyOrder lt dflt) :
    Coded (stdIndex lt dflt) (fun _ => True) lt := ⟨h, fun _ _ => rfl, fun _ _ _ _ => rfl⟩

theorem stdIndexStr_coded : Coded stdIndexStr Small pairLt := ⟨pairLt_keyOrder, fun _ h => keyOf_ser h, fun _ _ h1 h2 => recLt_ser h1 h2⟩

end Verif.Index
