/-
`EditDistanceLev` (tkrzw_str_util.h 770-798): C40.
-/
namespace Verif.EditDistance

variable {α : Type} [DecidableEq α]

/-- The table: `none` is a cell that has not been written. -/
abbrev Table := Nat → Option Nat

/-- Reading a cell; outside the table or before a write this is undefined behaviour (`none`). -/
def rd (size : Nat) (t : Table) (i : Nat) : Option Nat := if i < size then t i else none

/-- Writing a cell. -/
def wr (size : Nat) (t : Table) (i v : Nat) : Option Table :=
  if i < size then some (fun j => if j = i then some v else t j) else none

/-- The first column (tkrzw_str_util.h 779-781), for `i` from `1 + (n - fuel)` on. -/
def initCol (size col : Nat) : (fuel i : Nat) → Table → Option Table
  | 0, _, t => some t
  | fuel + 1, i, t => (wr size t (i * col) i).bind (initCol size col fuel (i + 1))

/-- The first row (tkrzw_str_util.h 782-784). -/
def initRow (size : Nat) : (fuel i : Nat) → Table → Option Table
  | 0, _, t => some t
  | fuel + 1, i, t => (wr size t i i).bind (initRow size fuel (i + 1))

/-- One cell (tkrzw_str_util.h 787-790). -/
def cell (a b : List α) (size col i j : Nat) (t : Table) : Option Table := do
  let ac ← rd size t ((i - 1) * col + j)
  let bc ← rd size t (i * col + j - 1)
  let cc ← rd size t ((i - 1) * col + j - 1)
  let x ← a[i - 1]?
  let y ← b[j - 1]?
  wr size t (i * col + j) (min (min (ac + 1) (bc + 1)) (cc + if x ≠ y then 1 else 0))

/-- The inner loop (tkrzw_str_util.h 786-791). -/
def rowLoop (a b : List α) (size col i : Nat) : (fuel j : Nat) → Table → Option Table
  | 0, _, t => some t
  | fuel + 1, j, t => (cell a b size col i j t).bind (rowLoop a b size col i fuel (j + 1))

/-- The outer loop (tkrzw_str_util.h 785-792). -/
def outer (a b : List α) (size col : Nat) : (fuel i : Nat) → Table → Option Table
  | 0, _, t => some t
  | fuel + 1, i, t => (rowLoop a b size col i b.length 1 t).bind (outer a b size col fuel (i + 1))

/-- `EditDistanceLev` (tkrzw_str_util.h 770-798). The size of the table is an `int32_t`; its overflow is undefined behaviour
(`none`). The choice between stack and heap is not modelled. -/
def editDistanceLev (a b : List α) : Option Nat := do
  let col := b.length + 1
  let size := (a.length + 1) * col
  if size ≥ 2 ^ 31 then none
  else
    let t ← wr size (fun _ => none) 0 0
    let t ← initCol size col a.length 1 t
    let t ← initRow size b.length 1 t
    let t ← outer a b size col a.length 1 t
    rd size t (a.length * col + b.length)

/-! ### SPECIFICATION -/

/-- One insertion, deletion or substitution of an element. -/
inductive Edit1 : List α → List α → Prop
  | ins (u : List α) (x : α) (v : List α) : Edit1 (u ++ v) (u ++ x :: v)
  | del (u : List α) (x : α) (v : List α) : Edit1 (u ++ x :: v) (u ++ v)
  | sub (u : List α) (x y : α) (v : List α) : Edit1 (u ++ x :: v) (u ++ y :: v)

/-- `n` edits turn one sequence into the other. -/
inductive Edits : Nat → List α → List α → Prop
  | refl (a : List α) : Edits 0 a a
  | step {n : Nat} {a b c : List α} : Edit1 a b → Edits n b c → Edits (n + 1) a c

/-! ### The recursion -/

/-- The distance of two sequences by recursion. -/
def lev : List α → List α → Nat
  | [], b => b.length
  | a, [] => a.length
  | x :: a, y :: b => min (min (lev a (y :: b) + 1) (lev (x :: a) b + 1)) (lev a b + if x ≠ y then 1 else 0)
termination_by a b => a.length + b.length

/-- A way to align two sequences. -/
inductive Align : Nat → List α → List α → Prop
  | nil : Align 0 [] []
  | keep {n : Nat} {a b : List α} (x : α) : Align n a b → Align n (x :: a) (x :: b)
  | sub {n : Nat} {a b : List α} (x y : α) : Align n a b → Align (n + 1) (x :: a) (y :: b)
  | ins {n : Nat} {a b : List α} (y : α) : Align n a b → Align (n + 1) a (y :: b)
  | del {n : Nat} {a b : List α} (x : α) : Align n a b → Align (n + 1) (x :: a) b

theorem lev_nil (b : List α) : lev [] b = b.length := by unfold lev; rfl
theorem lev_nil' (a : List α) : lev a [] = a.length := by cases a <;> simp [lev]

theorem align_ins (b : List α) : Align b.length [] b := by
  induction b with
  | nil => exact .nil
  | cons y b ih => exact .ins y ih

theorem align_del (a : List α) : Align a.length a [] := by
  induction a with
  | nil => exact .nil
  | cons y b ih => exact .del y ih

theorem align_lev (n : Nat) : ∀ a b : List α, a.length + b.length ≤ n → Align (lev a b) a b := by
  induction n with
  | zero =>
    intro a b h
    cases a with
    | nil => rw [lev_nil]; exact align_ins b
    | cons x a => simp at h
  | succ n ih =>
    intro a b h
    cases a with
    | nil => rw [lev_nil]; exact align_ins b
    | cons x a =>
      cases b with
      | nil => rw [lev_nil']; exact align_del _
      | cons y b =>
        simp only [List.length_cons] at h
        have h1 := ih a (y :: b) (by simp only [List.length_cons]; omega)
        have h2 := ih (x :: a) b (by simp only [List.length_cons]; omega)
        have h3 := ih a b (by omega)
        simp only [lev]
        by_cases c1 : lev a (y :: b) + 1 ≤ lev (x :: a) b + 1
        · rw [Nat.min_eq_left c1]
          by_cases c2 : lev a (y :: b) + 1 ≤ lev a b + if x ≠ y then 1 else 0
          · rw [Nat.min_eq_left c2]; exact .del x h1
          · rw [Nat.min_eq_right (by omega)]
            by_cases e : x = y
            · subst e; simp only [ne_eq, not_true_eq_false, if_false]; exact .keep x h3
            · simp only [ne_eq, e, not_false_eq_true, if_true]; exact .sub x y h3
        · rw [Nat.min_eq_right (Nat.le_of_lt (Nat.lt_of_not_le c1))]
          by_cases c2 : lev (x :: a) b + 1 ≤ lev a b + if x ≠ y then 1 else 0
          · rw [Nat.min_eq_left c2]; exact .ins y h2
          · rw [Nat.min_eq_right (by omega)]
            by_cases e : x = y
            · subst e; simp only [ne_eq, not_true_eq_false, if_false]; exact .keep x h3
            · simp only [ne_eq, e, not_false_eq_true, if_true]; exact .sub x y h3

theorem lev_le {n : Nat} {a b : List α} (h : Align n a b) : lev a b ≤ n := by
  induction h with
  | nil => simp [lev_nil]
  | keep x h ih => simp only [lev, ne_eq, not_true_eq_false, if_false]; omega
  | sub x y h ih => simp only [lev]; split <;> omega
  | @ins n a b y h ih =>
    cases a with
    | nil => rw [lev_nil] at ih ⊢; simp only [List.length_cons]; omega
    | cons x a => simp only [lev]; omega
  | @del n a b x h ih =>
    cases b with
    | nil => rw [lev_nil'] at ih ⊢; simp only [List.length_cons]; omega
    | cons y b => simp only [lev]; omega

/-! Edits and alignments -/

theorem align_ins_left {n : Nat} {b c : List α} (h : Align n b c) :
    ∀ u x v, b = u ++ x :: v → ∃ m, m ≤ n + 1 ∧ Align m (u ++ v) c := by
  induction h with
  | nil => intro u x v e; cases u <;> cases e
  | @keep n a b z h ih =>
    intro u x v e
    cases u with
    | nil => cases e; exact ⟨_, Nat.le_refl _, .ins _ h⟩
    | cons w u => cases e; obtain ⟨m, h1, h2⟩ := ih u x v rfl; exact ⟨m, h1, .keep _ h2⟩
  | @sub n a b z y h ih =>
    intro u x v e
    cases u with
    | nil => cases e; exact ⟨_, by omega, .ins _ h⟩
    | cons w u => cases e; obtain ⟨m, h1, h2⟩ := ih u x v rfl; exact ⟨m + 1, by omega, .sub _ _ h2⟩
  | @ins n a b y h ih =>
    intro u x v e
    obtain ⟨m, h1, h2⟩ := ih u x v e; exact ⟨m + 1, by omega, .ins _ h2⟩
  | @del n a b z h ih =>
    intro u x v e
    cases u with
    | nil => cases e; exact ⟨_, by omega, h⟩
    | cons w u => cases e; obtain ⟨m, h1, h2⟩ := ih u x v rfl; exact ⟨m + 1, by omega, .del _ h2⟩

theorem align_del_left {n : Nat} {b c : List α} (h : Align n b c) :
    ∀ u x v, b = u ++ v → ∃ m, m ≤ n + 1 ∧ Align m (u ++ x :: v) c := by
  induction h with
  | nil =>
    intro u x v e
    cases u with
    | nil => cases e; exact ⟨1, by omega, .del x .nil⟩
    | cons w u => cases e
  | @keep n a b z h ih =>
    intro u x v e
    cases u with
    | nil => cases e; exact ⟨n + 1, by omega, .del x (.keep _ h)⟩
    | cons w u => cases e; obtain ⟨m, h1, h2⟩ := ih u x v rfl; exact ⟨m, h1, .keep _ h2⟩
  | @sub n a b z y h ih =>
    intro u x v e
    cases u with
    | nil => cases e; exact ⟨n + 2, by omega, .del x (.sub _ _ h)⟩
    | cons w u => cases e; obtain ⟨m, h1, h2⟩ := ih u x v rfl; exact ⟨m + 1, by omega, .sub _ _ h2⟩
  | @ins n a b y h ih =>
    intro u x v e
    obtain ⟨m, h1, h2⟩ := ih u x v e; exact ⟨m + 1, by omega, .ins _ h2⟩
  | @del n a b z h ih =>
    intro u x v e
    cases u with
    | nil => cases e; exact ⟨n + 2, by omega, .del x (.del _ h)⟩
    | cons w u => cases e; obtain ⟨m, h1, h2⟩ := ih u x v rfl; exact ⟨m + 1, by omega, .del _ h2⟩

theorem align_sub_left {n : Nat} {b c : List α} (h : Align n b c) :
    ∀ u x y v, b = u ++ y :: v → ∃ m, m ≤ n + 1 ∧ Align m (u ++ x :: v) c := by
  induction h with
  | nil => intro u x y v e; cases u <;> cases e
  | @keep n a b z h ih =>
    intro u x y v e
    cases u with
    | nil => cases e; exact ⟨_, Nat.le_refl _, .sub _ _ h⟩
    | cons w u => cases e; obtain ⟨m, h1, h2⟩ := ih u x y v rfl; exact ⟨m, h1, .keep _ h2⟩
  | @sub n a b z y' h ih =>
    intro u x y v e
    cases u with
    | nil => cases e; exact ⟨_, by omega, .sub _ _ h⟩
    | cons w u => cases e; obtain ⟨m, h1, h2⟩ := ih u x y v rfl; exact ⟨m + 1, by omega, .sub _ _ h2⟩
  | @ins n a b y' h ih =>
    intro u x y v e
    obtain ⟨m, h1, h2⟩ := ih u x y v e; exact ⟨m + 1, by omega, .ins _ h2⟩
  | @del n a b z h ih =>
    intro u x y v e
    cases u with
    | nil => cases e; exact ⟨n + 1, by omega, .del x h⟩
    | cons w u => cases e; obtain ⟨m, h1, h2⟩ := ih u x y v rfl; exact ⟨m + 1, by omega, .del _ h2⟩

theorem align_refl (a : List α) : Align 0 a a := by
  induction a with
  | nil => exact .nil
  | cons x a ih => exact .keep x ih

theorem align_of_edits {n : Nat} {a b : List α} (h : Edits n a b) : ∃ m, m ≤ n ∧ Align m a b := by
  induction h with
  | refl a => exact ⟨0, Nat.le_refl _, align_refl a⟩
  | step h1 _ ih =>
    obtain ⟨m, h2, h3⟩ := ih
    cases h1 with
    | ins u x v => obtain ⟨m', h4, h5⟩ := align_ins_left h3 u x v rfl; exact ⟨m', by omega, h5⟩
    | del u x v => obtain ⟨m', h4, h5⟩ := align_del_left h3 u x v rfl; exact ⟨m', by omega, h5⟩
    | sub u x y v => obtain ⟨m', h4, h5⟩ := align_sub_left h3 u x y v rfl; exact ⟨m', by omega, h5⟩

theorem Edits.cons {n : Nat} {a b : List α} (h : Edits n a b) (x : α) : Edits n (x :: a) (x :: b) := by
  induction h with
  | refl a => exact .refl _
  | step h1 _ ih =>
    refine .step ?_ ih
    cases h1 with
    | ins u y v => exact .ins (x :: u) y v
    | del u y v => exact .del (x :: u) y v
    | sub u y z v => exact .sub (x :: u) y z v

theorem edits_of_align {n : Nat} {a b : List α} (h : Align n a b) : Edits n a b := by
  induction h with
  | nil => exact .refl _
  | keep x _ ih => exact ih.cons x
  | sub x y _ ih => exact .step (.sub [] x y _) (ih.cons y)
  | ins y _ ih => exact .step (.ins [] y _) (ih.cons y)
  | del x _ ih => exact .step (.del [] x _) ih

theorem Edits.reverse {n : Nat} {a b : List α} (h : Edits n a b) : Edits n a.reverse b.reverse := by
  induction h with
  | refl a => exact .refl _
  | step h1 _ ih =>
    refine .step ?_ ih
    cases h1 with
    | ins u y v => simpa using Edit1.ins v.reverse y u.reverse
    | del u y v => simpa using Edit1.del v.reverse y u.reverse
    | sub u y z v => simpa using Edit1.sub v.reverse y z u.reverse

/-! ### The table -/

/-- The distance of the prefixes of lengths `i` and `j`. -/
def pre (a b : List α) (i j : Nat) : Nat := lev (a.take i).reverse (b.take j).reverse

theorem take_succ_reverse {a : List α} {i : Nat} {x : α} (h : a[i]? = some x) : (a.take (i + 1)).reverse = x :: (a.take i).reverse := by
  rw [List.take_add_one, h]; simp

theorem pre_zero_left (a b : List α) {j : Nat} (h : j ≤ b.length) : pre a b 0 j = j := by
  simp only [pre, List.take_zero, List.reverse_nil, lev_nil, List.length_reverse, List.length_take]; omega

theorem pre_zero_right (a b : List α) {i : Nat} (h : i ≤ a.length) : pre a b i 0 = i := by
  simp only [pre, List.take_zero, List.reverse_nil, lev_nil', List.length_reverse, List.length_take]; omega

theorem pre_succ {a b : List α} {i j : Nat} {x y : α} (hx : a[i]? = some x) (hy : b[j]? = some y) :
    pre a b (i + 1) (j + 1) = min (min (pre a b i (j + 1) + 1) (pre a b (i + 1) j + 1)) (pre a b i j + if x ≠ y then 1 else 0) := by
  simp only [pre, take_succ_reverse hx, take_succ_reverse hy, lev]

theorem idx_lt {col n i j : Nat} (hj : j < col) (hi : i ≤ n) : i * col + j < (n + 1) * col := by
  have : (i + 1) * col ≤ (n + 1) * col := Nat.mul_le_mul_right _ (by omega)
  rw [Nat.add_mul, Nat.one_mul] at this; omega

theorem idx_inj {col i j i' j' : Nat} (hj : j < col) (hj' : j' < col) (h : i * col + j = i' * col + j') : i = i' ∧ j = j' := by
  have hp : 0 < col := by omega
  have h1 : (i * col + j) / col = i := by rw [Nat.mul_comm, Nat.mul_add_div hp, Nat.div_eq_of_lt hj]; rfl
  have h2 : (i' * col + j') / col = i' := by rw [Nat.mul_comm, Nat.mul_add_div hp, Nat.div_eq_of_lt hj']; rfl
  have : i = i' := by rw [← h1, ← h2, h]
  subst this
  exact ⟨rfl, by omega⟩

/-- The cells of the rows below `i`, and of row `i` the cells below `j`, and of the later rows the first, are filled. -/
def Filled (a b : List α) (i j : Nat) (t : Table) : Prop :=
  ∀ i' j', i' ≤ a.length → j' ≤ b.length → (i' < i ∨ (i' = i ∧ j' < j) ∨ j' = 0) → t (i' * (b.length + 1) + j') = some (pre a b i' j')

theorem initCol_spec (a b : List α) (fuel i : Nat) (t : Table) (hi : i + fuel = a.length + 1) (hi1 : 1 ≤ i)
    (h : ∀ i', i' < i → t (i' * (b.length + 1)) = some i') :
    ∃ t', initCol ((a.length + 1) * (b.length + 1)) (b.length + 1) fuel i t = some t' ∧
      ∀ i', i' ≤ a.length → t' (i' * (b.length + 1)) = some i' := by
  induction fuel generalizing i t with
  | zero => exact ⟨t, rfl, fun i' hi' => h i' (by omega)⟩
  | succ fuel ih =>
    have hlt := idx_lt (col := b.length + 1) (n := a.length) (i := i) (j := 0) (by omega) (by omega)
    simp only [Nat.add_zero] at hlt
    simp only [initCol, wr, if_pos hlt, Option.bind_some]
    apply ih (i + 1) _ (by omega) (by omega)
    intro i' hi'
    by_cases e : i' = i
    · subst e; simp
    · have hne : i' * (b.length + 1) ≠ i * (b.length + 1) := by
        intro e1
        exact e (idx_inj (col := b.length + 1) (j := 0) (j' := 0) (by omega) (by omega) (by simpa using e1)).1
      simp only [if_neg hne]
      exact h i' (by omega)

theorem initRow_spec (a b : List α) (fuel i : Nat) (t : Table) (hi : i + fuel = b.length + 1) (hi1 : 1 ≤ i)
    (h0 : ∀ i', i' ≤ a.length → t (i' * (b.length + 1)) = some i') (h : ∀ j, j < i → t j = some j) :
    ∃ t', initRow ((a.length + 1) * (b.length + 1)) fuel i t = some t' ∧
      (∀ i', i' ≤ a.length → t' (i' * (b.length + 1)) = some i') ∧ ∀ j, j ≤ b.length → t' j = some j := by
  induction fuel generalizing i t with
  | zero => exact ⟨t, rfl, h0, fun j hj => h j (by omega)⟩
  | succ fuel ih =>
    have hlt := idx_lt (col := b.length + 1) (n := a.length) (i := 0) (j := i) (by omega) (by omega)
    simp only [Nat.zero_mul, Nat.zero_add] at hlt
    simp only [initRow, wr, if_pos hlt, Option.bind_some]
    apply ih (i + 1) _ (by omega) (by omega)
    · intro i' hi'
      have hne : i' * (b.length + 1) ≠ i := by
        intro e1
        have := (idx_inj (col := b.length + 1) (i := i') (i' := 0) (j := 0) (j' := i) (by omega) (by omega) (by simpa using e1)).2
        omega
      simp only [if_neg hne]; exact h0 i' hi'
    · intro j hj
      by_cases e : j = i
      · simp [e]
      · simp only [if_neg e]; exact h j (by omega)

theorem cell_spec (a b : List α) {i j : Nat} {t : Table} (hi : 1 ≤ i) (hi2 : i ≤ a.length) (hj : 1 ≤ j) (hj2 : j ≤ b.length)
    (h : Filled a b i j t) :
    ∃ t', cell a b ((a.length + 1) * (b.length + 1)) (b.length + 1) i j t = some t' ∧ Filled a b i (j + 1) t' := by
  obtain ⟨i, rfl⟩ : ∃ k, i = k + 1 := ⟨i - 1, by omega⟩
  obtain ⟨j, rfl⟩ : ∃ k, j = k + 1 := ⟨j - 1, by omega⟩
  have r1 := h i (j + 1) (by omega) hj2 (Or.inl (by omega))
  have r2 := h (i + 1) j hi2 (by omega) (Or.inr (Or.inl ⟨rfl, by omega⟩))
  have r3 := h i j (by omega) (by omega) (Or.inl (by omega))
  have l1 := idx_lt (col := b.length + 1) (n := a.length) (i := i) (j := j + 1) (by omega) (by omega)
  have l2 := idx_lt (col := b.length + 1) (n := a.length) (i := i + 1) (j := j) (by omega) (by omega)
  have l3 := idx_lt (col := b.length + 1) (n := a.length) (i := i) (j := j) (by omega) (by omega)
  have l4 := idx_lt (col := b.length + 1) (n := a.length) (i := i + 1) (j := j + 1) (by omega) (by omega)
  have hx : a[i]? = some a[i] := List.getElem?_eq_getElem (by omega)
  have hy : b[j]? = some b[j] := List.getElem?_eq_getElem (by omega)
  have e1 : (i + 1) * (b.length + 1) + (j + 1) - 1 = (i + 1) * (b.length + 1) + j := by omega
  have e2 : i * (b.length + 1) + (j + 1) - 1 = i * (b.length + 1) + j := by omega
  simp only [cell, Nat.add_sub_cancel, e1, e2, rd, if_pos l1, if_pos l2, if_pos l3, r1, r2, r3, hx, hy, wr, if_pos l4,
    Option.bind_eq_bind, Option.bind_some]
  refine ⟨_, rfl, ?_⟩
  intro i' j' hi' hj' hc
  dsimp only
  split
  · rename_i e
    obtain ⟨rfl, rfl⟩ := idx_inj (by omega) (by omega) e
    rw [pre_succ hx hy]
  · rename_i e
    apply h i' j' hi' hj'
    rcases hc with hc | ⟨hc1, hc2⟩ | hc
    · exact Or.inl hc
    · refine Or.inr (Or.inl ⟨hc1, ?_⟩)
      by_cases e3 : j' = j + 1
      · subst e3; subst hc1; exact absurd rfl e
      · omega
    · exact Or.inr (Or.inr hc)

theorem rowLoop_spec (a b : List α) {i : Nat} (hi : 1 ≤ i) (hi2 : i ≤ a.length) (fuel j : Nat) (t : Table) (hj : 1 ≤ j)
    (hf : j + fuel = b.length + 1) (h : Filled a b i j t) :
    ∃ t', rowLoop a b ((a.length + 1) * (b.length + 1)) (b.length + 1) i fuel j t = some t' ∧ Filled a b (i + 1) 1 t' := by
  induction fuel generalizing j t with
  | zero =>
    refine ⟨t, rfl, ?_⟩
    intro i' j' hi' hj' hc
    apply h i' j' hi' hj'
    rcases hc with hc | ⟨hc1, hc2⟩ | hc
    · by_cases e : i' = i
      · exact Or.inr (Or.inl ⟨e, by omega⟩)
      · exact Or.inl (by omega)
    · exact Or.inr (Or.inr (by omega))
    · exact Or.inr (Or.inr hc)
  | succ fuel ih =>
    obtain ⟨t1, g1, g2⟩ := cell_spec a b hi hi2 hj (by omega) h
    simp only [rowLoop, g1, Option.bind_some]
    exact ih (j + 1) t1 (by omega) (by omega) g2

theorem outer_spec (a b : List α) (fuel i : Nat) (t : Table) (hi : 1 ≤ i) (hf : i + fuel = a.length + 1) (h : Filled a b i 1 t) :
    ∃ t', outer a b ((a.length + 1) * (b.length + 1)) (b.length + 1) fuel i t = some t' ∧ Filled a b (a.length + 1) 1 t' := by
  induction fuel generalizing i t with
  | zero =>
    have : i = a.length + 1 := by omega
    subst this
    exact ⟨t, rfl, h⟩
  | succ fuel ih =>
    obtain ⟨t1, g1, g2⟩ := rowLoop_spec a b hi (by omega) b.length 1 t (Nat.le_refl _) (by omega) h
    simp only [outer, g1, Option.bind_some]
    exact ih (i + 1) t1 (by omega) (by omega) g2

theorem editDistanceLev_eq (a b : List α) (hs : (a.length + 1) * (b.length + 1) < 2 ^ 31) :
    editDistanceLev a b = some (lev a.reverse b.reverse) := by
  have l0 := idx_lt (col := b.length + 1) (n := a.length) (i := 0) (j := 0) (by omega) (by omega)
  simp only [Nat.zero_mul, Nat.add_zero] at l0
  obtain ⟨t1, g1, g2⟩ := initCol_spec a b a.length 1 (fun j => if j = 0 then some 0 else none) (by omega) (by omega)
    (by intro i' hi'; have : i' = 0 := by omega
        subst this; simp)
  obtain ⟨t2, g3, g4, g5⟩ := initRow_spec a b b.length 1 t1 (by omega) (by omega) g2
    (by intro j hj; have : j = 0 := by omega
        subst this; simpa using g2 0 (by omega))
  obtain ⟨t3, g6, g7⟩ := outer_spec a b a.length 1 t2 (by omega) (by omega) (by
    intro i' j' hi' hj' hc
    by_cases e : j' = 0
    · subst e
      rw [Nat.add_zero, g4 i' hi', pre_zero_right _ _ hi']
    · have : i' = 0 := by omega
      subst this
      rw [Nat.zero_mul, Nat.zero_add, g5 j' hj', pre_zero_left _ _ hj'])
  have l1 := idx_lt (col := b.length + 1) (n := a.length) (i := a.length) (j := b.length) (by omega) (by omega)
  have := g7 a.length b.length (by omega) (by omega) (Or.inl (by omega))
  simp only [editDistanceLev, if_neg (Nat.not_le.2 hs), wr, if_pos l0, Option.bind_eq_bind, Option.bind_some, g1, g3, g6, rd, if_pos l1, this]
  simp only [pre, List.take_length]

/-- C40: as long as the size of its table fits an `int32_t`, `EditDistanceLev` returns the least number of insertions, deletions
and substitutions that turn one sequence into the other. -/
theorem C40_edit_distance (a b : List α) (hs : (a.length + 1) * (b.length + 1) < 2 ^ 31) :
    ∃ n, editDistanceLev a b = some n ∧ Edits n a b ∧ ∀ m, Edits m a b → n ≤ m := by
  refine ⟨_, editDistanceLev_eq a b hs, ?_, ?_⟩
  · simpa using (edits_of_align (align_lev _ a.reverse b.reverse (Nat.le_refl _))).reverse
  · intro m h
    obtain ⟨m', h1, h2⟩ := align_of_edits h.reverse
    exact Nat.le_trans (lev_le h2) h1

/-- "kitten" and "sitting". -/
example : editDistanceLev "kitten".toList "sitting".toList = some 3 := by decide +kernel

/-- For two sequences of 46341 elements the size of the table overflows, which is undefined behaviour. -/
theorem C40_overflow_violated (x : α) : editDistanceLev (List.replicate 46341 x) (List.replicate 46341 x) = none := by
  unfold editDistanceLev
  rw [List.length_replicate]
  rfl

end Verif.EditDistance
