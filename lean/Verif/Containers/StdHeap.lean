import Verif.Prelude.OrdMap
/-
The heap functions of the C++ standard library, for any comparison: what `std::push_heap` and `std::pop_heap` promise.
-/
namespace Verif.StdHeap
open Verif

/-- SPECIFICATION: `std::is_heap`: no element is greater than its parent. -/
def isHeap {α : Type} (lt : α → α → Bool) (l : List α) : Bool :=
  (List.range l.length).all fun i =>
    match l[i / 2]?, l[i + 1]? with
    | some a, some b => !lt a b
    | _, _ => true

/-- SPECIFICATION: what C++ promises of `std::push_heap` and `std::pop_heap` on a range that is a heap; how they arrange
the elements is left open. -/
structure Fns {α : Type} (lt : α → α → Bool) where
  push : List α → List α
  pop : List α → List α
  push_spec : ∀ l x, isHeap lt l = true → (push (l ++ [x])).Perm (l ++ [x]) ∧ isHeap lt (push (l ++ [x])) = true
  pop_spec : ∀ x l, isHeap lt (x :: l) = true → ∃ pre, pop (x :: l) = pre ++ [x] ∧ pre.Perm l ∧ isHeap lt pre = true

variable {α : Type} {lt : α → α → Bool}

theorem isHeap_iff (l : List α) : isHeap lt l = true ↔ ∀ (i : Nat) (a b : α), l[i / 2]? = some a → l[i + 1]? = some b → lt a b = false := by
  unfold isHeap
  rw [List.all_eq_true]
  constructor
  · intro h i a b ha hb
    have hi : i < l.length := by
      rcases Nat.lt_or_ge i l.length with h | h
      · exact h
      · rw [List.getElem?_eq_none (by omega)] at hb; cases hb
    have := h i (List.mem_range.2 hi)
    simp only [ha, hb] at this
    simpa using this
  · intro h i _
    split
    · rename_i a b ha hb
      simp [h i a b ha hb]
    · rfl

theorem isHeap_nil : isHeap lt ([] : List α) = true := rfl

/-- No element is greater than the front of a heap. -/
theorem front (hw : StrictWeak lt) {x : α} {l : List α} (h : isHeap lt (x :: l) = true) : ∀ y ∈ x :: l, lt x y = false := by
  rw [isHeap_iff] at h
  have key : ∀ (n : Nat) (y : α), (x :: l)[n]? = some y → lt x y = false := by
    intro n
    induction n using Nat.strongRecOn with
    | _ n ih =>
      intro y hy
      cases n with
      | zero => simp at hy; subst hy; exact hw.irrefl _
      | succ i =>
        have hlt : i / 2 < (x :: l).length := by
          rcases Nat.lt_or_ge (i / 2) (x :: l).length with h | h
          · exact h
          · rw [List.getElem?_eq_none (by omega)] at hy; cases hy
        have h1 := ih (i / 2) (by omega) _ (List.getElem?_eq_getElem hlt)
        have h2 := h i _ y (List.getElem?_eq_getElem hlt) hy
        cases hxy : lt x y with
        | false => rfl
        | true =>
          rcases hw.cotrans x ((x :: l)[i / 2]) y hxy with h3 | h3
          · rw [h1] at h3; cases h3
          · rw [h2] at h3; cases h3
  intro y hy
  obtain ⟨n, hn⟩ := List.getElem?_of_mem hy
  exact key n y hn

/-- A list in descending order is a heap. -/
theorem isHeap_desc {l : List α} (h : l.Pairwise (fun a b => lt a b = false)) (hr : ∀ a, lt a a = false) : isHeap lt l = true := by
  rw [isHeap_iff]
  intro i a b ha hb
  have hj : i + 1 < l.length := by
    rcases Nat.lt_or_ge (i + 1) l.length with h | h
    · exact h
    · rw [List.getElem?_eq_none h] at hb; cases hb
  rw [List.getElem?_eq_getElem hj] at hb
  rw [List.getElem?_eq_getElem (show i / 2 < l.length by omega)] at ha
  cases ha; cases hb
  exact List.pairwise_iff_getElem.1 h (i / 2) (i + 1) (by omega) hj (by omega)

/-- Insertion into a descending list. -/
def insert (lt : α → α → Bool) (x : α) : List α → List α
  | [] => [x]
  | y :: l => if lt x y then y :: insert lt x l else x :: y :: l

/-- The list in descending order. -/
def sort (lt : α → α → Bool) (l : List α) : List α := l.foldr (insert lt) []

theorem insert_perm (x : α) (l : List α) : (insert lt x l).Perm (x :: l) := by
  induction l with
  | nil => exact .refl _
  | cons y l ih =>
    simp only [insert]
    split
    · exact (List.Perm.cons y ih).trans (List.Perm.swap _ _ _)
    · exact .refl _

theorem insert_desc (hw : StrictWeak lt) (x : α) (l : List α) (h : l.Pairwise (fun a b => lt a b = false)) :
    (insert lt x l).Pairwise (fun a b => lt a b = false) := by
  induction l with
  | nil => simp [insert]
  | cons y l ih =>
    simp only [insert]
    rw [List.pairwise_cons] at h
    split
    · rename_i hxy
      rw [List.pairwise_cons]
      refine ⟨?_, ih h.2⟩
      intro z hz
      rcases List.mem_cons.1 ((insert_perm x l).mem_iff.1 hz) with rfl | hz
      · exact hw.asymm hxy
      · exact h.1 z hz
    · rename_i hxy
      rw [List.pairwise_cons]
      refine ⟨?_, List.pairwise_cons.2 h⟩
      intro z hz
      rcases List.mem_cons.1 hz with rfl | hz
      · simpa using hxy
      · cases hxz : lt x z with
        | false => rfl
        | true =>
          rcases hw.cotrans x y z hxz with h3 | h3
          · exact absurd h3 hxy
          · rw [h.1 z hz] at h3; cases h3

theorem sort_perm (l : List α) : (sort lt l).Perm l := by
  induction l with
  | nil => exact .refl _
  | cons x l ih => exact (insert_perm x _).trans (List.Perm.cons x ih)

theorem sort_desc (hw : StrictWeak lt) (l : List α) : (sort lt l).Pairwise (fun a b => lt a b = false) := by
  induction l with
  | nil => exact List.Pairwise.nil
  | cons x l ih => exact insert_desc hw x _ ih

/-- The promises can be met: by sorting. -/
def bySorting (hw : StrictWeak lt) : Fns lt where
  push := sort lt
  pop
    | [] => []
    | x :: l => sort lt l ++ [x]
  push_spec l x _ := ⟨sort_perm _, isHeap_desc (sort_desc hw _) hw.irrefl⟩
  pop_spec x l _ := ⟨sort lt l, rfl, sort_perm _, isHeap_desc (sort_desc hw _) hw.irrefl⟩

end Verif.StdHeap
