import Verif.Skip.Sorter
import Verif.Skip.Find
import Mathlib.Data.List.Induction
/-
What the sorter and the reduction produce: the records sorted by the key, those of the same key in the order of the
inputs, reduced key by key.
-/
namespace Verif.Skip
open Verif

/-- SPECIFICATION: the values of a key, in order. -/
def valuesOf (key : Bytes) (recs : Recs) : List Bytes := (recs.filter fun r => r.1 = key).map (·.2)

/-- SPECIFICATION: what is left of a series of values where `marker` stands for the removal of all before it. -/
def afterLast (marker : Bytes) (values : List Bytes) : List Bytes :=
  (values.reverse.takeWhile (· ≠ marker)).reverse

theorem ge_trans' {a b c : Bytes} (h1 : bytesLt b c = false) (h2 : bytesLt a b = false) : bytesLt a c = false := by
  rcases bytes_trichotomy b c with h | h | h
  · simp [bytesLt, h] at h1
  · rwa [← h]
  · rcases bytes_trichotomy a b with h' | h' | h'
    · simp [bytesLt, h'] at h2
    · rwa [h']
    · exact bytesLt_weak.asymm (bytesLt_weak.trans _ _ _ (by simpa [bytesLt] using h) (by simpa [bytesLt] using h'))

theorem lt_of_lt_ge {a b c : Bytes} (h1 : bytesLt a b = true) (h2 : bytesLt c b = false) : bytesLt a c = true := by
  cases h : bytesLt a c with
  | true => rfl
  | false => rw [ge_trans' h2 h] at h1; exact h1

theorem valuesOf_append (k : Bytes) (a b : Recs) : valuesOf k (a ++ b) = valuesOf k a ++ valuesOf k b := by
  simp [valuesOf]

theorem valuesOf_cons (k : Bytes) (r : Bytes × Bytes) (l : Recs) :
    valuesOf k (r :: l) = (if r.1 = k then [r.2] else []) ++ valuesOf k l := by
  by_cases h : r.1 = k <;> simp [valuesOf, h]

theorem valuesOf_nil (k : Bytes) : valuesOf k [] = [] := rfl

theorem valuesOf_eq_nil {k : Bytes} {l : Recs} (h : ∀ r ∈ l, r.1 ≠ k) : valuesOf k l = [] := by
  simp only [valuesOf, List.map_eq_nil_iff, List.filter_eq_nil_iff]
  intro r hr
  simpa using h r hr

theorem mem_valuesOf {k v : Bytes} {l : Recs} : v ∈ valuesOf k l ↔ (k, v) ∈ l := by
  simp only [valuesOf, List.mem_map, List.mem_filter, decide_eq_true_eq]
  constructor
  · rintro ⟨⟨a, b⟩, ⟨h, rfl⟩, rfl⟩; exact h
  · intro h; exact ⟨(k, v), ⟨h, rfl⟩, rfl⟩

/-- Two sorted lists with the same values for each key are the same list. -/
theorem sorted_unique : ∀ {a b : Recs}, SortedRecs a → SortedRecs b → (∀ k, valuesOf k a = valuesOf k b) → a = b
  | [], [], _, _, _ => rfl
  | [], r :: b, _, _, h => by
    have := h r.1
    rw [valuesOf_nil, valuesOf_cons, if_pos rfl] at this
    simp at this
  | r :: a, [], _, _, h => by
    have := h r.1
    rw [valuesOf_nil, valuesOf_cons, if_pos rfl] at this
    simp at this
  | r :: a, s :: b, ha, hb, h => by
    have hin : ∀ x y : Bytes × Bytes, ∀ l l' : Recs, SortedRecs (y :: l') →
        (∀ k, valuesOf k (x :: l) = valuesOf k (y :: l')) → bytesLt x.1 y.1 = false := by
      intro x y l l' hs hv
      have h1 : (x.1, x.2) ∈ y :: l' := mem_valuesOf.mp (by rw [← hv x.1, valuesOf_cons, if_pos rfl]; simp)
      rcases List.mem_cons.mp h1 with h2 | h2
      · rw [← h2]; exact bytesLt_weak.irrefl _
      · exact (List.pairwise_cons.mp hs).1 _ h2
    have hk : r.1 = s.1 := by
      have h1 := hin r s a b hb h
      have h2 := hin s r b a ha (fun k => (h k).symm)
      exact (bytesLt_eqv _ _).mp (by simp [eqv, h1, h2])
    have hv := h r.1
    rw [valuesOf_cons, valuesOf_cons, if_pos rfl, if_pos hk.symm] at hv
    simp only [List.cons_append, List.nil_append, List.cons.injEq] at hv
    have hrs : r = s := Prod.ext hk hv.1
    subst hrs
    congr 1
    refine sorted_unique (List.pairwise_cons.mp ha).2 (List.pairwise_cons.mp hb).2 fun k => ?_
    have := h k
    rw [valuesOf_cons, valuesOf_cons] at this
    exact List.append_cancel_left this

/-! The stable sort -/

theorem insertRec_mem (r : Bytes × Bytes) : ∀ (l : Recs) (x : Bytes × Bytes), x ∈ insertRec r l ↔ x = r ∨ x ∈ l
  | [], x => by simp [insertRec]
  | y :: l, x => by
    rw [insertRec]
    split
    · simp only [List.mem_cons, insertRec_mem r l x]
      constructor
      · rintro (h | h | h) <;> simp [h]
      · rintro (h | h | h) <;> simp [h]
    · simp

theorem insertRec_sorted (r : Bytes × Bytes) : ∀ (l : Recs), SortedRecs l → SortedRecs (insertRec r l)
  | [], _ => by simp [insertRec, SortedRecs]
  | y :: l, h => by
    have hp := List.pairwise_cons.mp h
    rw [insertRec]
    split
    · rename_i hlt
      refine List.pairwise_cons.mpr ⟨fun x hx => ?_, insertRec_sorted r l hp.2⟩
      rcases (insertRec_mem r l x).mp hx with rfl | hx
      · exact bytesLt_weak.asymm hlt
      · exact hp.1 x hx
    · rename_i hge
      have hge : bytesLt y.1 r.1 = false := by simpa using hge
      refine List.pairwise_cons.mpr ⟨fun x hx => ?_, h⟩
      rcases List.mem_cons.mp hx with rfl | hx
      · exact hge
      · exact ge_trans' hge (hp.1 x hx)

theorem insertRec_values (r : Bytes × Bytes) (k : Bytes) : ∀ (l : Recs), SortedRecs l →
    valuesOf k (insertRec r l) = (if r.1 = k then [r.2] else []) ++ valuesOf k l
  | [], _ => by simp [insertRec, valuesOf_cons]
  | y :: l, h => by
    have hp := List.pairwise_cons.mp h
    rw [insertRec]
    split
    · rename_i hlt
      rw [valuesOf_cons, insertRec_values r k l hp.2, valuesOf_cons]
      by_cases hr : r.1 = k
      · have hy : y.1 ≠ k := by
          intro e
          rw [hr, e] at hlt
          rw [bytesLt_weak.irrefl] at hlt
          simp at hlt
        simp [hr, hy]
      · simp [hr]
    · rw [valuesOf_cons]

theorem stableSort_spec : ∀ (l : Recs), SortedRecs (stableSort l) ∧ ∀ k, valuesOf k (stableSort l) = valuesOf k l
  | [] => ⟨by simp [stableSort, SortedRecs], fun _ => rfl⟩
  | r :: l => by
    obtain ⟨h1, h2⟩ := stableSort_spec l
    refine ⟨insertRec_sorted r _ h1, fun k => ?_⟩
    rw [valuesOf_cons, ← h2 k]
    exact insertRec_values r k _ h1

/-! The merge -/

theorem popMin_none : ∀ {slots : List Recs}, popMin slots = none → slots.flatten = []
  | [], _ => rfl
  | [] :: rest, h => by
    rw [popMin] at h
    split at h
    · rename_i h'
      simpa using popMin_none h'
    · simp at h
  | (x :: xs) :: rest, h => by
    rw [popMin] at h
    split at h
    · simp at h
    · split at h <;> simp at h

theorem popMin_spec : ∀ {slots : List Recs} {r slots'}, popMin slots = some (r, slots') → (∀ s ∈ slots, SortedRecs s) →
    (∀ s ∈ slots', SortedRecs s) ∧ (∀ x ∈ slots.flatten, bytesLt x.1 r.1 = false) ∧
      slots.flatten.length = slots'.flatten.length + 1 ∧ (∀ x ∈ slots'.flatten, x ∈ slots.flatten) ∧
      ∀ k, valuesOf k slots.flatten = (if r.1 = k then [r.2] else []) ++ valuesOf k slots'.flatten
  | [], r, slots', h, _ => by simp [popMin] at h
  | [] :: rest, r, slots', h, hs => by
    rw [popMin] at h
    split at h
    · simp at h
    · rename_i r' rest' h'
      simp only [Option.some.injEq, Prod.mk.injEq] at h
      obtain ⟨rfl, rfl⟩ := h
      obtain ⟨h1, h2, h3, h4, h5⟩ := popMin_spec h' (fun s hs' => hs s (List.mem_cons_of_mem _ hs'))
      refine ⟨?_, by simpa using h2, by simpa using h3, by simpa using h4, by simpa using h5⟩
      intro s hs'
      rcases List.mem_cons.mp hs' with rfl | hs'
      · simp [SortedRecs]
      · exact h1 s hs'
  | (x :: xs) :: rest, r, slots', h, hs => by
    have hx : SortedRecs (x :: xs) := hs _ (by simp)
    have hp := List.pairwise_cons.mp hx
    have hrest : ∀ s ∈ rest, SortedRecs s := fun s hs' => hs s (List.mem_cons_of_mem _ hs')
    have first : (∀ y ∈ rest.flatten, bytesLt y.1 x.1 = false) → r = x → slots' = xs :: rest →
        (∀ s ∈ slots', SortedRecs s) ∧ (∀ y ∈ ((x :: xs) :: rest).flatten, bytesLt y.1 r.1 = false) ∧
          ((x :: xs) :: rest).flatten.length = slots'.flatten.length + 1 ∧
          (∀ y ∈ slots'.flatten, y ∈ ((x :: xs) :: rest).flatten) ∧
          ∀ k, valuesOf k ((x :: xs) :: rest).flatten = (if r.1 = k then [r.2] else []) ++ valuesOf k slots'.flatten := by
      rintro hy rfl rfl
      refine ⟨?_, ?_, ?_, ?_, ?_⟩
      · intro s hs'
        rcases List.mem_cons.mp hs' with rfl | hs'
        · exact hp.2
        · exact hrest s hs'
      · intro y hy'
        simp only [List.flatten_cons, List.cons_append, List.mem_cons, List.mem_append] at hy'
        rcases hy' with rfl | hy' | hy'
        · exact bytesLt_weak.irrefl _
        · exact hp.1 y hy'
        · exact hy y hy'
      · simp
      · intro y hy'
        simp only [List.flatten_cons, List.cons_append, List.mem_cons, List.mem_append] at hy' ⊢
        exact Or.inr hy'
      · intro k
        simp only [List.flatten_cons, List.cons_append, valuesOf_cons]
    rw [popMin] at h
    split at h
    · rename_i h'
      simp only [Option.some.injEq, Prod.mk.injEq] at h
      refine first ?_ h.1.symm h.2.symm
      rw [popMin_none h']
      simp
    · rename_i r' rest' h'
      obtain ⟨h1, h2, h3, h4, h5⟩ := popMin_spec h' hrest
      split at h
      · rename_i hlt
        simp only [Option.some.injEq, Prod.mk.injEq] at h
        obtain ⟨rfl, rfl⟩ := h
        have hall : ∀ y ∈ x :: xs, bytesLt r'.1 y.1 = true := by
          intro y hy
          rcases List.mem_cons.mp hy with rfl | hy
          · exact hlt
          · exact lt_of_lt_ge hlt (hp.1 y hy)
        refine ⟨?_, ?_, ?_, ?_, ?_⟩
        · intro s hs'
          rcases List.mem_cons.mp hs' with rfl | hs'
          · exact hx
          · exact h1 s hs'
        · intro y hy'
          rw [List.flatten_cons, List.mem_append] at hy'
          rcases hy' with hy' | hy'
          · exact bytesLt_weak.asymm (hall y hy')
          · exact h2 y hy'
        · simp only [List.flatten_cons, List.length_append, h3]; omega
        · intro y hy'
          simp only [List.flatten_cons, List.mem_append] at hy' ⊢
          rcases hy' with hy' | hy'
          · exact Or.inl hy'
          · exact Or.inr (h4 y hy')
        · intro k
          rw [List.flatten_cons, List.flatten_cons, valuesOf_append, valuesOf_append, h5 k]
          by_cases hr : r'.1 = k
          · have : valuesOf k (x :: xs) = [] := by
              refine valuesOf_eq_nil fun y hy e => ?_
              have := hall y hy
              rw [hr, e, bytesLt_weak.irrefl] at this
              simp at this
            simp [this, hr]
          · simp [hr]
      · rename_i hge
        simp only [Option.some.injEq, Prod.mk.injEq] at h
        have hge : bytesLt r'.1 x.1 = false := by simpa using hge
        refine first (fun y hy => ?_) h.1.symm h.2.symm
        exact ge_trans' hge (h2 y hy)

theorem drain_spec : ∀ (n : Nat) (slots : List Recs), (∀ s ∈ slots, SortedRecs s) → slots.flatten.length = n →
    SortedRecs (drain n slots) ∧ (∀ x ∈ drain n slots, x ∈ slots.flatten) ∧
      ∀ k, valuesOf k (drain n slots) = valuesOf k slots.flatten
  | 0, slots, _, hn => by
    rw [List.length_eq_zero_iff.mp hn]
    simp [drain, SortedRecs]
  | n + 1, slots, hs, hn => by
    rw [drain]
    cases h : popMin slots with
    | none => rw [popMin_none h] at hn; simp at hn
    | some p =>
      obtain ⟨r, slots'⟩ := p
      obtain ⟨h1, h2, h3, h4, h5⟩ := popMin_spec h hs
      obtain ⟨i1, i2, i3⟩ := drain_spec n slots' h1 (by omega)
      refine ⟨List.pairwise_cons.mpr ⟨fun x hx => h2 x (h4 x (i2 x hx)), i1⟩, ?_, ?_⟩
      · intro x hx
        rcases List.mem_cons.mp hx with rfl | hx
        · have h6 := h5 x.1
          rw [if_pos rfl] at h6
          exact mem_valuesOf.mp (by rw [h6]; simp)
        · exact h4 x (i2 x hx)
      · intro k
        rw [valuesOf_cons, i3 k, h5 k]

theorem merged_spec (slots : List Recs) (hs : ∀ s ∈ slots, SortedRecs s) :
    SortedRecs (merged slots) ∧ ∀ k, valuesOf k (merged slots) = valuesOf k slots.flatten := by
  obtain ⟨h1, _, h3⟩ := drain_spec _ slots hs rfl
  exact ⟨h1, h3⟩

/-! The reduction -/

theorem reduceRemove_eq (values : List Bytes) : reduceRemove values = afterLast removingValue values := by
  induction values using List.reverseRecOn with
  | nil => rfl
  | append_singleton l v ih =>
    rw [reduceRemove, List.foldl_append] 
    rw [reduceRemove] at ih
    rw [ih]
    by_cases h : v = removingValue
    · simp [h, afterLast]
    · simp [h, afterLast]

/-- SPECIFICATION: what becomes of the values of a key. -/
def reduced (removed : Bool) (reducer : Option Reducer) (key : Bytes) (values : List Bytes) : List Bytes :=
  let live := if removed then afterLast removingValue values else values
  match reducer with
  | none => live
  | some f => if live = [] then [] else f key live

theorem emit_keys {removed : Bool} {reducer : Option Reducer} {key : Bytes} {values : List Bytes} :
    ∀ r ∈ emit removed reducer key values, r.1 = key := by
  intro r hr
  simp only [emit] at hr
  generalize (if removed = true then reduceRemove values else values) = live at hr
  by_cases he : live.isEmpty = true
  · rw [if_pos he] at hr
    simp at hr
  · rw [if_neg he, List.mem_map] at hr
    obtain ⟨v, _, rfl⟩ := hr
    rfl

theorem valuesOf_map (k : Bytes) (l : List Bytes) : valuesOf k (l.map fun v => (k, v)) = l := by
  induction l with
  | nil => rfl
  | cons v l ih => rw [List.map_cons, valuesOf_cons, if_pos rfl, ih]; rfl

theorem emit_values (removed : Bool) (reducer : Option Reducer) (key : Bytes) (values : List Bytes) :
    valuesOf key (emit removed reducer key values) = reduced removed reducer key values := by
  simp only [emit, reduced, reduceRemove_eq]
  generalize (if removed = true then afterLast removingValue values else values) = live
  by_cases h : live = []
  · subst h
    cases reducer <;> rfl
  · have : live.isEmpty = false := by simpa using h
    cases reducer with
    | none => simp [this, valuesOf_map]
    | some f => simp [this, valuesOf_map, h]

theorem emit_sorted (removed : Bool) (reducer : Option Reducer) (key : Bytes) (values : List Bytes) :
    SortedRecs (emit removed reducer key values) := by
  have h : ∀ l : Recs, (∀ r ∈ l, r.1 = key) → SortedRecs l := by
    intro l
    induction l with
    | nil => intro _; exact List.Pairwise.nil
    | cons a l ih =>
      intro h
      refine List.pairwise_cons.mpr ⟨fun b hb => ?_, ih fun r hr => h r (List.mem_cons_of_mem _ hr)⟩
      rw [h a (by simp), h b (List.mem_cons_of_mem _ hb)]
      exact bytesLt_weak.irrefl _
  exact h _ emit_keys

theorem reduced_nil (removed : Bool) (reducer : Option Reducer) (key : Bytes) : reduced removed reducer key [] = [] := by
  cases removed <;> cases reducer <;> rfl

/-- The loop in the grouping mode. -/
theorem reduceLoop_group {removed : Bool} {reducer : Option Reducer} (hg : (reducer.isNone && !removed) = false) :
    ∀ (l : Recs) (key : Bytes) (values : List Bytes), SortedRecs l → values ≠ [] →
      (∀ r ∈ l, bytesLt r.1 key = false) →
      SortedRecs (reduceLoop removed reducer l key values) ∧
      (∀ r ∈ reduceLoop removed reducer l key values, r.1 = key ∨ ∃ x ∈ l, x.1 = r.1) ∧
      ∀ k, valuesOf k (reduceLoop removed reducer l key values) =
        reduced removed reducer k ((if key = k then values else []) ++ valuesOf k l)
  | [], key, values, _, hv, _ => by
    have he : values.isEmpty = false := by simpa using hv
    rw [reduceLoop, he]
    refine ⟨emit_sorted _ _ _ _, fun r hr => Or.inl (emit_keys r hr), fun k => ?_⟩
    by_cases hk : key = k
    · subst hk
      simp [valuesOf_nil, emit_values]
    · rw [if_neg hk, valuesOf_nil, List.append_nil, reduced_nil]
      exact valuesOf_eq_nil fun r hr e => hk ((emit_keys r hr).symm.trans e)
  | r :: l, key, values, hs, hv, hk => by
    have he : values.isEmpty = false := by simpa using hv
    have hp := List.pairwise_cons.mp hs
    rw [reduceLoop, hg, if_neg (by simp), he, if_neg (by simp)]
    split
    · rename_i hr
      obtain ⟨i1, i2, i3⟩ := reduceLoop_group hg l key (values ++ [r.2]) hp.2 (by simp)
        (fun x hx => hk x (List.mem_cons_of_mem _ hx))
      refine ⟨i1, fun x hx => ?_, fun k => ?_⟩
      · rcases i2 x hx with h | ⟨y, hy, e⟩
        · exact Or.inl h
        · exact Or.inr ⟨y, List.mem_cons_of_mem _ hy, e⟩
      · rw [i3 k, valuesOf_cons, hr]
        by_cases hk' : key = k <;> simp [hk']
    · rename_i hr
      have hlt : bytesLt key r.1 = true := by
        rcases bytes_trichotomy key r.1 with h | h | h
        · simpa [bytesLt] using h
        · exact absurd h.symm hr
        · have := hk r (by simp)
          simp [bytesLt, h] at this
      obtain ⟨i1, i2, i3⟩ := reduceLoop_group hg l r.1 [r.2] hp.2 (by simp) hp.1
      have hgt : ∀ x ∈ reduceLoop removed reducer l r.1 [r.2], bytesLt key x.1 = true := by
        intro x hx
        rcases i2 x hx with h | ⟨y, hy, e⟩
        · rw [h]; exact hlt
        · rw [← e]; exact lt_of_lt_ge hlt (hp.1 y hy)
      refine ⟨?_, fun x hx => ?_, fun k => ?_⟩
      · refine List.pairwise_append.mpr ⟨emit_sorted _ _ _ _, i1, fun a ha b hb => ?_⟩
        rw [emit_keys a ha]
        exact bytesLt_weak.asymm (hgt b hb)
      · rcases List.mem_append.mp hx with hx | hx
        · exact Or.inl (emit_keys x hx)
        · refine Or.inr ?_
          rcases i2 x hx with h | ⟨y, hy, e⟩
          · exact ⟨r, by simp, h.symm⟩
          · exact ⟨y, List.mem_cons_of_mem _ hy, e⟩
      · rw [valuesOf_append, i3 k, valuesOf_cons]
        by_cases hk' : key = k
        · subst hk'
          have hne : ¬ r.1 = key := hr
          have hnone : valuesOf key l = [] := by
            refine valuesOf_eq_nil fun y hy e => ?_
            have := lt_of_lt_ge hlt (hp.1 y hy)
            rw [e, bytesLt_weak.irrefl] at this
            simp at this
          simp [hne, hnone, emit_values, reduced_nil]
        · have : valuesOf k (emit removed reducer key values) = [] :=
            valuesOf_eq_nil fun x hx e => hk' ((emit_keys x hx).symm.trans e)
          rw [this, if_neg hk']
          rfl

theorem reduceLoop_plain : ∀ (l : Recs) (key : Bytes), reduceLoop false none l key [] = l
  | [], key => rfl
  | r :: l, key => by
    rw [reduceLoop]
    simp [reduceLoop_plain l key]

/-- The records written are sorted and the values of each key are reduced. -/
theorem reduceLoop_spec (removed : Bool) (reducer : Option Reducer) (l : Recs) (hs : SortedRecs l) :
    SortedRecs (reduceLoop removed reducer l [] []) ∧
      ∀ k, valuesOf k (reduceLoop removed reducer l [] []) = reduced removed reducer k (valuesOf k l) := by
  cases hg : (reducer.isNone && !removed) with
  | true =>
    rw [Bool.and_eq_true] at hg
    obtain ⟨h1, h2⟩ := hg
    cases reducer with
    | some f => simp at h1
    | none =>
      simp only [Bool.not_eq_true'] at h2
      subst h2
      rw [reduceLoop_plain]
      exact ⟨hs, fun k => rfl⟩
  | false =>
    cases l with
    | nil =>
      refine ⟨by simp [reduceLoop, SortedRecs], fun k => ?_⟩
      rw [valuesOf_nil, reduced_nil]
      rfl
    | cons r l =>
      have hp := List.pairwise_cons.mp hs
      rw [reduceLoop, hg, if_neg (by simp), if_pos (by rfl)]
      obtain ⟨i1, _, i3⟩ := reduceLoop_group hg l r.1 [r.2] hp.2 (by simp) hp.1
      exact ⟨i1, fun k => by rw [i3 k, valuesOf_cons]⟩

end Verif.Skip
