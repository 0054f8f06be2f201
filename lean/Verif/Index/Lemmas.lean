import Verif.Index.Model
/-
The pairs of an index and the records of the ordered database below.
-/
namespace Verif.Index
open Verif Verif.Codec

theorem keyOf_ser {p : Pair} (h : Small p) : keyOf (ser p) = some p := by
  unfold keyOf ser
  rw [(C35_pair_roundtrip p.1 p.2 h.1 h.2).1]

theorem ser_inj {p q : Pair} (hp : Small p) (hq : Small q) (h : ser p = ser q) : p = q := by
  have := keyOf_ser hp
  rw [h, keyOf_ser hq] at this
  exact (Option.some.inj this).symm

/-- The order on the keys of records, on what they stand for. -/
theorem recLt_eq (a b : Bytes) : recLt Cmp.lexCompare a b =
    match keyOf a, keyOf b with
    | some p, some q => pairLt p q
    | none, some _ => true
    | _, none => false := by
  have key : ∀ p q : Pair, Cmp.pairCompare (fun x y => some (Cmp.lexCompare x y)) a b = (if Cmp.lexCompare p.1 q.1 ≠ 0 then some (Cmp.lexCompare p.1 q.1)
      else some (Cmp.lexCompare p.2 q.2)) → recLt Cmp.lexCompare a b = pairLt p q := by
    intro p q h
    unfold recLt pairLt bytesLt
    rw [h]
    by_cases hz : Cmp.lexCompare p.1 q.1 = 0
    · rw [if_neg (by simpa using hz)]
      have he := (Cmp.lexCompare_zero _ _).1 hz
      have hi : ¬ q.1 < q.1 := by have := bytesLt_weak.irrefl q.1; simpa [bytesLt] using this
      simp [he, hi, Cmp.lexCompare_neg]
    · rw [if_pos hz]
      have he : p.1 ≠ q.1 := fun h => hz ((Cmp.lexCompare_zero _ _).2 h)
      simp [he, Cmp.lexCompare_neg]
  unfold keyOf
  cases ha : deserializeStrPair a with
  | ok p =>
    cases hb : deserializeStrPair b with
    | ok q =>
      refine key p q ?_
      unfold Cmp.pairCompare
      rw [ha, hb]; rfl
    | _ => simp [recLt, Cmp.pairCompare, keyOf, ha, hb]
  | _ => cases hb : deserializeStrPair b <;> simp [recLt, Cmp.pairCompare, keyOf, ha, hb]

theorem pairLt_weak : StrictWeak pairLt where
  irrefl p := by simp [pairLt, bytesLt_weak.irrefl]
  trans p q r h1 h2 := by
    simp only [pairLt, Bool.or_eq_true, Bool.and_eq_true, decide_eq_true_eq] at *
    rcases h1 with h1 | ⟨e1, h1⟩
    · rcases h2 with h2 | ⟨e2, h2⟩
      · exact Or.inl (bytesLt_weak.trans _ _ _ h1 h2)
      · rw [← e2]; exact Or.inl h1
    · rw [e1]
      rcases h2 with h2 | ⟨e2, h2⟩
      · exact Or.inl h2
      · exact Or.inr ⟨e2, bytesLt_weak.trans _ _ _ h1 h2⟩
  cotrans p q r h := by
    simp only [pairLt, Bool.or_eq_true, Bool.and_eq_true, decide_eq_true_eq] at *
    rcases h with h | ⟨e, h⟩
    · rcases bytesLt_weak.cotrans _ q.1 _ h with h | h
      · exact Or.inl (Or.inl h)
      · exact Or.inr (Or.inl h)
    · by_cases e2 : p.1 = q.1
      · rcases bytesLt_weak.cotrans _ q.2 _ h with h | h
        · exact Or.inl (Or.inr ⟨e2, h⟩)
        · exact Or.inr (Or.inr ⟨e2.symm.trans e, h⟩)
      · rcases bytes_trichotomy p.1 q.1 with h' | h' | h'
        · exact Or.inl (Or.inl (by simpa [bytesLt] using h'))
        · exact absurd h' e2
        · exact Or.inr (Or.inl (by rw [← e]; simpa [bytesLt] using h'))

theorem pairLt_eqv (p q : Pair) : eqv pairLt p q = true ↔ p = q := by
  constructor
  · intro h
    rw [StrictWeak.eqv_iff] at h
    simp only [pairLt, Bool.or_eq_false_iff, Bool.and_eq_false_iff, decide_eq_false_iff_not] at h
    have e1 : p.1 = q.1 := (bytesLt_eqv _ _).1 (StrictWeak.eqv_iff.2 ⟨h.1.1, h.2.1⟩)
    have e2 : p.2 = q.2 := (bytesLt_eqv _ _).1 (StrictWeak.eqv_iff.2 ⟨h.1.2.resolve_left fun h => h e1, h.2.2.resolve_left fun h => h e1.symm⟩)
    exact Prod.ext e1 e2
  · rintro rfl
    exact pairLt_weak.eqv_refl p

theorem recLt_weak : StrictWeak (recLt Cmp.lexCompare) where
  irrefl a := by
    rw [recLt_eq]
    cases keyOf a with
    | none => rfl
    | some p => exact pairLt_weak.irrefl p
  trans a b c h1 h2 := by
    rw [recLt_eq] at *
    revert h1 h2
    cases keyOf a <;> cases keyOf b <;> cases keyOf c <;> simp
    exact pairLt_weak.trans _ _ _
  cotrans a b c h := by
    rw [recLt_eq] at *
    rw [recLt_eq]
    revert h
    cases keyOf a <;> cases keyOf b <;> cases keyOf c <;> simp
    exact pairLt_weak.cotrans _ _ _

theorem recLt_ser {p q : Pair} (hp : Small p) (hq : Small q) : recLt Cmp.lexCompare (ser p) (ser q) = pairLt p q := by
  rw [recLt_eq, keyOf_ser hp, keyOf_ser hq]

theorem recEqv_ser {p q : Pair} (hp : Small p) (hq : Small q) : eqv (recLt Cmp.lexCompare) (ser p) (ser q) = decide (p = q) := by
  have : eqv (recLt Cmp.lexCompare) (ser p) (ser q) = eqv pairLt p q := by simp [eqv, recLt_ser hp hq, recLt_ser hq hp]
  rw [this]
  cases h : eqv pairLt p q with
  | true => simp [(pairLt_eqv p q).1 h]
  | false =>
    symm
    simp only [decide_eq_false_iff_not]
    intro e
    rw [(pairLt_eqv p q).2 e] at h
    cases h

/-- The record of a pair. -/
def toRec (p : Pair) : OMap.Rec := (ser p, [])

/-- The order of the pairs in the index. -/
def Asc (l : List Pair) : Prop := l.Pairwise fun p q => pairLt p q = true

local notation "lt" => recLt Cmp.lexCompare

theorem filter_rec {f : OMap.Rec → Bool} {g : Pair → Bool} {l : List Pair} (h : ∀ p ∈ l, f (toRec p) = g p) : (l.map toRec).filter f = (l.filter g).map toRec := by
  rw [List.filter_map]
  congr 1
  exact List.filter_congr fun p hp => h p hp

theorem find_rec {f : OMap.Rec → Bool} {g : Pair → Bool} {l : List Pair} (h : ∀ p ∈ l, f (toRec p) = g p) : (l.map toRec).find? f = (l.find? g).map toRec := by
  rw [← List.head?_filter, filter_rec h, List.head?_map, List.head?_filter]

theorem mem_filter_small {l : List Pair} (h : ∀ q ∈ l, Small q) {f : Pair → Bool} : ∀ q ∈ l.filter f, Small q := fun q hq => h q (List.mem_filter.1 hq).1

section
variable {l : List Pair} (hl : ∀ q ∈ l, Small q) {p : Pair} (hp : Small p)
include hl hp

theorem get_rec : OMap.get lt (ser p) (l.map toRec) = if p ∈ l then some (toRec p) else none := by
  unfold OMap.get
  rw [find_rec (g := fun q => decide (q = p)) fun q hq => by simp only [toRec]; exact recEqv_ser (hl q hq) hp]
  by_cases h : p ∈ l
  · rw [if_pos h]
    have : l.find? (fun q => decide (q = p)) = some p := by
      cases hf : l.find? (fun q => decide (q = p)) with
      | none =>
        have := List.find?_eq_none.1 hf p h
        simp at this
      | some q =>
        have := List.find?_some hf
        simp at this
        rw [this]
    rw [this]; rfl
  · rw [if_neg h]
    have : l.find? (fun q => decide (q = p)) = none := List.find?_eq_none.2 fun q hq => by
      simp only [decide_eq_true_eq]
      rintro rfl
      exact h hq
    rw [this]; rfl

theorem put_rec : OMap.put lt (ser p) [] (l.map toRec) = (added pairLt p l).map toRec := by
  unfold OMap.put added
  rw [get_rec hl hp, filter_rec (g := fun q => pairLt q p) (fun q hq => recLt_ser (hl q hq) hp),
    filter_rec (g := fun q => pairLt p q) (fun q hq => recLt_ser hp (hl q hq)), List.map_append, List.map_cons]
  split <;> rfl

theorem del_rec : OMap.del lt (ser p) (l.map toRec) = (l.filter (· ≠ p)).map toRec := by
  unfold OMap.del
  exact filter_rec fun q hq => by
    have := recEqv_ser (hl q hq) hp
    simp only [toRec, this]
    simp

theorem atLeast_rec : OMap.atLeast lt (ser p) (l.map toRec) = (notLess pairLt p l).map toRec :=
  find_rec fun q hq => by
    have := recLt_ser (hl q hq) hp
    simp only [toRec, this]

theorem greater_rec : OMap.greater lt (ser p) (l.map toRec) = (after pairLt p l).map toRec :=
  find_rec fun q hq => recLt_ser hp (hl q hq)

theorem lesser_rec : OMap.lesser lt (ser p) (l.map toRec) = (before pairLt p l).map toRec := by
  unfold OMap.lesser before
  rw [filter_rec (g := fun q => pairLt q p) (fun q hq => recLt_ser (hl q hq) hp), List.getLast?_map]

end

theorem after_mem {p q : Pair} {l : List Pair} (h : after pairLt p l = some q) : q ∈ l ∧ pairLt p q = true := ⟨List.mem_of_find?_eq_some h, List.find?_some h⟩
theorem notLess_mem {p q : Pair} {l : List Pair} (h : notLess pairLt p l = some q) : q ∈ l ∧ pairLt q p = false :=
  ⟨List.mem_of_find?_eq_some h, by have := List.find?_some h; simpa using this⟩
theorem before_mem {p q : Pair} {l : List Pair} (h : before pairLt p l = some q) : q ∈ l ∧ pairLt q p = true := by
  have := List.mem_of_getLast? h
  simpa using this

theorem added_mem {p q : Pair} {l : List Pair} : q ∈ added pairLt p l ↔ q ∈ l ∨ q = p := by
  unfold added
  simp only [List.mem_append, List.mem_filter, List.mem_cons]
  constructor
  · rintro (⟨h, -⟩ | rfl | ⟨h, -⟩)
    · exact Or.inl h
    · exact Or.inr rfl
    · exact Or.inl h
  · rintro (h | rfl)
    · cases h1 : pairLt q p with
      | true => exact Or.inl ⟨h, rfl⟩
      | false =>
        cases h2 : pairLt p q with
        | true => exact Or.inr (Or.inr ⟨h, rfl⟩)
        | false => exact Or.inr (Or.inl ((pairLt_eqv q p).1 (StrictWeak.eqv_iff.2 ⟨h1, h2⟩)))
    · exact Or.inr (Or.inl rfl)

theorem added_asc {p : Pair} {l : List Pair} (h : Asc l) : Asc (added pairLt p l) := by
  unfold Asc added
  rw [List.pairwise_append]
  refine ⟨List.Pairwise.filter _ h, ?_, ?_⟩
  · rw [List.pairwise_cons]
    exact ⟨fun q hq => by simpa using (List.mem_filter.1 hq).2, List.Pairwise.filter _ h⟩
  · intro a ha b hb
    have h1 : pairLt a p = true := (List.mem_filter.1 ha).2
    rcases List.mem_cons.1 hb with rfl | hb
    · exact h1
    · exact pairLt_weak.trans _ _ _ h1 (by simpa using (List.mem_filter.1 hb).2)

theorem filter_asc {f : Pair → Bool} {l : List Pair} (h : Asc l) : Asc (l.filter f) := List.Pairwise.filter _ h

end Verif.Index
