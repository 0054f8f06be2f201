import Verif.Hash.Model
/-
The structured view of a hash database file used in the proofs: the bucket values and the list of records that tile the
file from the record base.  Here: its operations and their laws.
-/
namespace Verif.Hash

/-- A structured file. -/
structure Lay where
  buckets : List Nat
  recs : List Rec
deriving Repr

variable (c : Cfg)

/-- Total size of a list of records. -/
def totalSize : List Rec → Nat
  | [] => 0
  | r :: rs => r.size c + totalSize rs

/-- The record that starts at an offset, the first one starting at `b`. -/
def recAt : Nat → List Rec → Nat → Option Rec
  | _, [], _ => none
  | b, r :: rs, off => if off = b then some r else recAt (b + r.size c) rs off

/-- Replace the record that starts at an offset. -/
def setAt : Nat → List Rec → Nat → Rec → List Rec
  | _, [], _, _ => []
  | b, r :: rs, off, r' => if off = b then r' :: rs else r :: setAt (b + r.size c) rs off r'

variable {c}

theorem size_pos (r : Rec) : 0 < r.size c := by simp [Rec.size, baseSize]; omega

theorem recAt_ge {b off r} {rs : List Rec} (h : recAt c b rs off = some r) : b ≤ off := by
  induction rs generalizing b with
  | nil => simp [recAt] at h
  | cons x rs ih =>
    simp only [recAt] at h
    split at h
    · omega
    · have := ih h; omega

theorem recAt_lt {b off r} {rs : List Rec} (h : recAt c b rs off = some r) :
    off + r.size c ≤ b + totalSize c rs := by
  induction rs generalizing b with
  | nil => simp [recAt] at h
  | cons x rs ih =>
    simp only [recAt] at h
    simp only [totalSize]
    split at h
    · cases h; omega
    · have := ih h; omega

theorem recAt_mem {b off r} {rs : List Rec} (h : recAt c b rs off = some r) : r ∈ rs := by
  induction rs generalizing b with
  | nil => simp [recAt] at h
  | cons x rs ih =>
    simp only [recAt] at h
    split at h
    · cases h; simp
    · exact List.mem_cons_of_mem _ (ih h)

theorem exists_recAt {b r} {rs : List Rec} (h : r ∈ rs) : ∃ off, recAt c b rs off = some r := by
  induction rs generalizing b with
  | nil => simp at h
  | cons x rs ih =>
    rcases List.mem_cons.1 h with rfl | h
    · exact ⟨b, by simp [recAt]⟩
    · obtain ⟨off, ho⟩ := ih (b := b + x.size c) h
      refine ⟨off, ?_⟩
      have := recAt_ge ho
      have := size_pos (c := c) x
      rw [recAt, if_neg (by omega)]; exact ho

theorem totalSize_append (x y : List Rec) : totalSize c (x ++ y) = totalSize c x + totalSize c y := by
  induction x with
  | nil => simp [totalSize]
  | cons a x ih => simp only [List.cons_append, totalSize, ih]; omega

theorem length_le_totalSize (x : List Rec) : x.length ≤ totalSize c x := by
  induction x with
  | nil => simp
  | cons a x ih => simp only [List.length_cons, totalSize]; have := size_pos (c := c) a; omega

theorem recAt_append_left {b off r} {rs : List Rec} (ys : List Rec) (h : recAt c b rs off = some r) :
    recAt c b (rs ++ ys) off = some r := by
  induction rs generalizing b with
  | nil => simp [recAt] at h
  | cons x rs ih =>
    simp only [List.cons_append, recAt] at h ⊢
    split at h
    · rename_i h1; rw [if_pos h1]; exact h
    · rename_i h1; rw [if_neg h1]; exact ih h

theorem recAt_append {b off} {rs : List Rec} (ys : List Rec) :
    recAt c b (rs ++ ys) off = (recAt c b rs off).or (recAt c (b + totalSize c rs) ys off) := by
  induction rs generalizing b with
  | nil => simp [recAt, totalSize]
  | cons x rs ih =>
    simp only [List.cons_append, recAt, totalSize]
    split
    · simp
    · rw [ih]; congr 2; omega

/-- The offset just behind the records. -/
theorem recAt_new {b} (rs : List Rec) (r : Rec) : recAt c b (rs ++ [r]) (b + totalSize c rs) = some r := by
  rw [recAt_append]
  cases h : recAt c b rs (b + totalSize c rs) with
  | none => simp [recAt]
  | some x => have := recAt_lt h; have := size_pos (c := c) x; omega

theorem recAt_append_inv {b off x r} {rs : List Rec} (h : recAt c b (rs ++ [r]) off = some x) :
    recAt c b rs off = some x ∨ (off = b + totalSize c rs ∧ x = r) := by
  rw [recAt_append] at h
  cases h1 : recAt c b rs off with
  | some y => rw [h1] at h; simp only [Option.some_or] at h; exact Or.inl h
  | none =>
    rw [h1] at h
    simp only [Option.none_or, recAt] at h
    split at h
    · cases h; right; exact ⟨by assumption, rfl⟩
    · cases h

theorem setAt_length {b off r'} (rs : List Rec) : (setAt c b rs off r').length = rs.length := by
  induction rs generalizing b with
  | nil => rfl
  | cons x rs ih => simp only [setAt]; split <;> simp [ih]

/-- Replacing a record by one of the same size. -/
theorem recAt_setAt_self {b off r r'} {rs : List Rec} (h : recAt c b rs off = some r) (_hs : r'.size c = r.size c) :
    recAt c b (setAt c b rs off r') off = some r' := by
  induction rs generalizing b with
  | nil => simp [recAt] at h
  | cons x rs ih =>
    simp only [recAt] at h
    simp only [setAt]
    split at h
    · rename_i h1; rw [if_pos h1]; simp [recAt, h1]
    · rename_i h1; rw [if_neg h1]; simp only [recAt]; rw [if_neg h1]; exact ih h

theorem recAt_setAt_other {b off off' r r'} {rs : List Rec} (h : recAt c b rs off = some r) (hs : r'.size c = r.size c)
    (hne : off' ≠ off) : recAt c b (setAt c b rs off r') off' = recAt c b rs off' := by
  induction rs generalizing b with
  | nil => rfl
  | cons x rs ih =>
    simp only [recAt] at h
    simp only [setAt]
    split at h
    · rename_i h1
      rw [if_pos h1]
      cases h
      subst h1
      simp only [recAt, if_neg hne, hs]
    · rename_i h1
      rw [if_neg h1]
      simp only [recAt]
      split
      · rfl
      · exact ih h

theorem totalSize_setAt {b off r r'} {rs : List Rec} (h : recAt c b rs off = some r) (hs : r'.size c = r.size c) :
    totalSize c (setAt c b rs off r') = totalSize c rs := by
  induction rs generalizing b with
  | nil => rfl
  | cons x rs ih =>
    simp only [recAt] at h
    simp only [setAt]
    split at h
    · rename_i h1; rw [if_pos h1]; cases h; simp only [totalSize, hs]
    · rename_i h1; rw [if_neg h1]; simp only [totalSize, ih h]

/-- Distinct records do not overlap. -/
theorem recAt_disjoint {b o1 o2 r1 r2} {rs : List Rec} (h1 : recAt c b rs o1 = some r1) (h2 : recAt c b rs o2 = some r2)
    (hne : o1 ≠ o2) : o1 + r1.size c ≤ o2 ∨ o2 + r2.size c ≤ o1 := by
  induction rs generalizing b with
  | nil => simp [recAt] at h1
  | cons x rs ih =>
    simp only [recAt] at h1 h2
    split at h1
    · rename_i e1
      cases h1
      split at h2
      · omega
      · have := recAt_ge h2; left; omega
    · split at h2
      · cases h2; have := recAt_ge h1; right; omega
      · exact ih h1 h2

/-- A weighted sum over the records. -/
theorem sum_setAt {b off r r'} (f : Rec → Int) {rs : List Rec} (h : recAt c b rs off = some r) :
    ((setAt c b rs off r').map f).sum = (rs.map f).sum - f r + f r' := by
  induction rs generalizing b with
  | nil => simp [recAt] at h
  | cons x rs ih =>
    simp only [recAt] at h
    simp only [setAt]
    split at h
    · rename_i h1; rw [if_pos h1]; cases h; simp only [List.map_cons, List.sum_cons]; omega
    · rename_i h1; rw [if_neg h1]; simp only [List.map_cons, List.sum_cons, ih h]; omega

theorem mem_setAt {b off r r' x} {rs : List Rec} (h : recAt c b rs off = some r) (hs : r'.size c = r.size c)
    (hx : x ∈ setAt c b rs off r') : x = r' ∨ x ∈ rs := by
  obtain ⟨o, ho⟩ := exists_recAt (c := c) (b := b) hx
  by_cases e : o = off
  · subst e; rw [recAt_setAt_self h hs] at ho; cases ho; exact Or.inl rfl
  · rw [recAt_setAt_other h hs e] at ho; exact Or.inr (recAt_mem ho)

theorem recAt_split {b off r} {rs : List Rec} (h : recAt c b rs off = some r) :
    ∃ x y, rs = x ++ r :: y ∧ off = b + totalSize c x ∧ ∀ r', setAt c b rs off r' = x ++ r' :: y := by
  induction rs generalizing b with
  | nil => simp [recAt] at h
  | cons a rs ih =>
    simp only [recAt] at h
    split at h
    · rename_i e1
      cases h
      exact ⟨[], rs, rfl, by simp [totalSize, e1], fun r' => by simp [setAt, e1]⟩
    · rename_i e1
      obtain ⟨x, y, rfl, h2, h3⟩ := ih h
      refine ⟨a :: x, y, rfl, by simp only [totalSize]; omega, ?_⟩
      intro r'
      simp only [setAt, if_neg e1, h3]; rfl

end Verif.Hash
