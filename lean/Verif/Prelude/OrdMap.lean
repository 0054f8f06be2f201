import Verif.Prelude.Bytes
/-
Sorted association lists: the model of `std::map` (and of any container that keeps records sorted by a key
comparison). `lt` is the comparison; keys are equivalent when neither is less.
-/
namespace Verif

/-- SPECIFICATION: `lt` is a strict weak order (the requirement the standard library states for a comparison). -/
structure StrictWeak {κ : Type} (lt : κ → κ → Bool) : Prop where
  irrefl : ∀ a, lt a a = false
  trans : ∀ a b c, lt a b = true → lt b c = true → lt a c = true
  cotrans : ∀ a b c, lt a c = true → lt a b = true ∨ lt b c = true

/-- SPECIFICATION: equivalence of keys. -/
def eqv {κ : Type} (lt : κ → κ → Bool) (a b : κ) : Bool := !lt a b && !lt b a

namespace StrictWeak
variable {κ : Type} {lt : κ → κ → Bool}

theorem asymm (h : StrictWeak lt) {a b : κ} (hab : lt a b = true) : lt b a = false := by
  cases hba : lt b a with
  | false => rfl
  | true => have := h.trans a b a hab hba; rw [h.irrefl] at this; cases this

theorem eqv_refl (h : StrictWeak lt) (a : κ) : eqv lt a a = true := by simp [eqv, h.irrefl]

theorem eqv_symm (a b : κ) : eqv lt a b = eqv lt b a := by simp [eqv, Bool.and_comm]

theorem eqv_iff {a b : κ} : eqv lt a b = true ↔ lt a b = false ∧ lt b a = false := by simp [eqv]

theorem eqv_trans (h : StrictWeak lt) {a b c : κ} (h1 : eqv lt a b = true) (h2 : eqv lt b c = true) :
    eqv lt a c = true := by
  rw [eqv_iff] at *
  constructor
  · cases hac : lt a c with
    | false => rfl
    | true => rcases h.cotrans a b c hac with h' | h' <;> simp_all
  · cases hac : lt c a with
    | false => rfl
    | true => rcases h.cotrans c b a hac with h' | h' <;> simp_all

theorem lt_of_eqv_left (h : StrictWeak lt) {a b c : κ} (h1 : eqv lt a b = true) (h2 : lt b c = true) :
    lt a c = true := by
  rw [eqv_iff] at h1
  rcases h.cotrans b a c h2 with h' | h'
  · simp_all
  · exact h'

theorem lt_of_eqv_right (h : StrictWeak lt) {a b c : κ} (h1 : lt a b = true) (h2 : eqv lt b c = true) :
    lt a c = true := by
  rw [eqv_iff] at h2
  rcases h.cotrans a c b h1 with h' | h'
  · exact h'
  · simp_all

theorem lt_congr_left (h : StrictWeak lt) {a b c : κ} (h1 : eqv lt a b = true) : lt a c = lt b c := by
  cases hb : lt b c with
  | true => exact h.lt_of_eqv_left h1 hb
  | false =>
    cases ha : lt a c with
    | false => rfl
    | true => rw [eqv_symm] at h1; rw [h.lt_of_eqv_left h1 ha] at hb; cases hb

theorem lt_congr_right (h : StrictWeak lt) {a b c : κ} (h1 : eqv lt a b = true) : lt c a = lt c b := by
  cases hb : lt c b with
  | true => rw [eqv_symm] at h1; exact h.lt_of_eqv_right hb h1
  | false =>
    cases ha : lt c a with
    | false => rfl
    | true => rw [h.lt_of_eqv_right ha h1] at hb; cases hb

end StrictWeak

/-- The comparison of `std::string`, unsigned bytes in lexicographic order. -/
def bytesLt (a b : Bytes) : Bool := decide (a < b)

theorem bytes_trichotomy (a b : Bytes) : a < b ∨ a = b ∨ b < a := by
  rcases Decidable.em (a < b) with h | h
  · exact Or.inl h
  · rcases Decidable.em (b < a) with h2 | h2
    · exact Or.inr (Or.inr h2)
    · exact Or.inr (Or.inl (List.le_antisymm h2 h))

theorem bytesLt_weak : StrictWeak bytesLt where
  irrefl a := by simp [bytesLt]
  trans a b c h1 h2 := by
    simp only [bytesLt, decide_eq_true_eq] at *; exact List.lt_trans h1 h2
  cotrans a b c h := by
    simp only [bytesLt, decide_eq_true_eq] at *
    rcases bytes_trichotomy a b with h' | h' | h'
    · exact Or.inl h'
    · subst h'; exact Or.inr h
    · exact Or.inr (List.lt_trans h' h)

theorem bytesLt_eqv (a b : Bytes) : eqv bytesLt a b = true ↔ a = b := by
  rw [StrictWeak.eqv_iff]
  simp only [bytesLt, decide_eq_false_iff_not]
  constructor
  · intro h
    rcases bytes_trichotomy a b with h' | h' | h'
    · exact absurd h' h.1
    · exact h'
    · exact absurd h' h.2
  · rintro rfl; simp

namespace OrdMap
variable {κ β : Type}

/-- SPECIFICATION: keys in strictly ascending order. -/
def Sorted (lt : κ → κ → Bool) (m : List (κ × β)) : Prop := m.Pairwise (fun a b => lt a.1 b.1 = true)

/-- `std::map::find`: the value stored under a key equivalent to `k`. -/
def find (lt : κ → κ → Bool) (k : κ) : List (κ × β) → Option β
  | [] => none
  | (a, v) :: m => if eqv lt a k then some v else find lt k m

/-- `std::map::emplace`: inserts at its place unless an equivalent key is present. -/
def emplace (lt : κ → κ → Bool) (k : κ) (v : β) : List (κ × β) → List (κ × β)
  | [] => [(k, v)]
  | (a, w) :: m =>
    if lt a k then (a, w) :: emplace lt k v m
    else if lt k a then (k, v) :: (a, w) :: m
    else (a, w) :: m

/-- Insertion or `it->second = v`. -/
def assign (lt : κ → κ → Bool) (k : κ) (v : β) : List (κ × β) → List (κ × β)
  | [] => [(k, v)]
  | (a, w) :: m =>
    if lt a k then (a, w) :: assign lt k v m
    else if lt k a then (k, v) :: (a, w) :: m
    else (a, v) :: m

/-- `std::map::erase(key)`. -/
def erase (lt : κ → κ → Bool) (k : κ) : List (κ × β) → List (κ × β)
  | [] => []
  | (a, w) :: m => if eqv lt a k then m else (a, w) :: erase lt k m

/-- `std::map::lower_bound`: the records from the first key that is not less than `k`. -/
def lowerBound (lt : κ → κ → Bool) (k : κ) (m : List (κ × β)) : List (κ × β) := m.dropWhile (fun r => lt r.1 k)

/-- `std::map::upper_bound`: the records from the first key greater than `k`. -/
def upperBound (lt : κ → κ → Bool) (k : κ) (m : List (κ × β)) : List (κ × β) := m.dropWhile (fun r => !lt k r.1)

variable {lt : κ → κ → Bool}

theorem sorted_nil : Sorted lt ([] : List (κ × β)) := List.Pairwise.nil

theorem sorted_cons {r : κ × β} {m : List (κ × β)} :
    Sorted lt (r :: m) ↔ (∀ x ∈ m, lt r.1 x.1 = true) ∧ Sorted lt m := by
  simp [Sorted, List.pairwise_cons]

theorem mem_emplace {k : κ} {v : β} {m : List (κ × β)} {x} (h : x ∈ emplace lt k v m) : x = (k, v) ∨ x ∈ m := by
  induction m with
  | nil => simp only [emplace, List.mem_singleton] at h; exact Or.inl h
  | cons r m ih =>
    obtain ⟨a, w⟩ := r
    simp only [emplace] at h
    split at h
    · rcases List.mem_cons.mp h with h | h
      · simp [h]
      · rcases ih h with h | h <;> simp [h]
    · split at h
      · rcases List.mem_cons.mp h with h | h
        · simp [h]
        · simp [h]
      · exact Or.inr h

theorem mem_assign_key {k : κ} {v : β} {m : List (κ × β)} {x} (h : x ∈ assign lt k v m) :
    x.1 = k ∨ ∃ y ∈ m, y.1 = x.1 := by
  induction m with
  | nil => simp only [assign, List.mem_singleton] at h; simp [h]
  | cons r m ih =>
    obtain ⟨a, w⟩ := r
    simp only [assign] at h
    split at h
    · rcases List.mem_cons.mp h with h | h
      · exact Or.inr ⟨(a, w), by simp, by simp [h]⟩
      · rcases ih h with h | ⟨y, hy, h⟩
        · exact Or.inl h
        · exact Or.inr ⟨y, by simp [hy], h⟩
    · split at h
      · rcases List.mem_cons.mp h with h | h
        · simp [h]
        · exact Or.inr ⟨x, h, rfl⟩
      · rcases List.mem_cons.mp h with h | h
        · exact Or.inr ⟨(a, w), by simp, by simp [h]⟩
        · exact Or.inr ⟨x, by simp [h], rfl⟩

theorem sorted_emplace (hw : StrictWeak lt) (k : κ) (v : β) {m : List (κ × β)} (h : Sorted lt m) :
    Sorted lt (emplace lt k v m) := by
  induction m with
  | nil => simp [emplace, Sorted]
  | cons r m ih =>
    obtain ⟨a, w⟩ := r
    rw [sorted_cons] at h
    simp only [emplace]
    split
    · rw [sorted_cons]
      refine ⟨fun x hx => ?_, ih h.2⟩
      rcases mem_emplace hx with rfl | hx
      · assumption
      · exact h.1 x hx
    · split
      · rw [sorted_cons]
        refine ⟨fun x hx => ?_, sorted_cons.mpr h⟩
        rcases List.mem_cons.mp hx with rfl | hx
        · assumption
        · exact hw.trans _ _ _ ‹lt k a = true› (h.1 x hx)
      · exact sorted_cons.mpr h

theorem sorted_assign (hw : StrictWeak lt) (k : κ) (v : β) {m : List (κ × β)} (h : Sorted lt m) :
    Sorted lt (assign lt k v m) := by
  induction m with
  | nil => simp [assign, Sorted]
  | cons r m ih =>
    obtain ⟨a, w⟩ := r
    rw [sorted_cons] at h
    simp only [assign]
    split
    · rw [sorted_cons]
      refine ⟨fun x hx => ?_, ih h.2⟩
      rcases mem_assign_key hx with hx | ⟨y, hy, e⟩
      · rw [hx]; assumption
      · rw [← e]; exact h.1 y hy
    · split
      · rw [sorted_cons]
        refine ⟨fun x hx => ?_, sorted_cons.mpr h⟩
        rcases List.mem_cons.mp hx with rfl | hx
        · assumption
        · exact hw.trans _ _ _ ‹lt k a = true› (h.1 x hx)
      · rw [sorted_cons]; exact h

theorem mem_erase {k : κ} {m : List (κ × β)} {x} (h : x ∈ erase lt k m) : x ∈ m := by
  induction m with
  | nil => exact h
  | cons r m ih =>
    obtain ⟨a, w⟩ := r
    simp only [erase] at h
    split at h
    · exact List.mem_cons_of_mem _ h
    · rcases List.mem_cons.mp h with h | h
      · simp [h]
      · exact List.mem_cons_of_mem _ (ih h)

theorem sorted_erase (k : κ) {m : List (κ × β)} (h : Sorted lt m) : Sorted lt (erase lt k m) := by
  induction m with
  | nil => exact h
  | cons r m ih =>
    obtain ⟨a, w⟩ := r
    rw [sorted_cons] at h
    simp only [erase]
    split
    · exact h.2
    · rw [sorted_cons]; exact ⟨fun x hx => h.1 x (mem_erase hx), ih h.2⟩

theorem find_none_of_lt (hw : StrictWeak lt) {k : κ} {m : List (κ × β)} (h : ∀ x ∈ m, lt k x.1 = true) :
    find lt k m = none := by
  induction m with
  | nil => rfl
  | cons r m ih =>
    obtain ⟨a, w⟩ := r
    have ha := h (a, w) (by simp)
    rw [find, if_neg (by simp [eqv, ha]), ih (fun x hx => h x (by simp [hx]))]

theorem find_congr (hw : StrictWeak lt) {k k' : κ} (he : eqv lt k k' = true) (m : List (κ × β)) :
    find lt k m = find lt k' m := by
  induction m with
  | nil => rfl
  | cons r m ih =>
    obtain ⟨a, w⟩ := r
    have : eqv lt a k = eqv lt a k' := by
      simp only [eqv, hw.lt_congr_left he, hw.lt_congr_right he]
    rw [find, find, this, ih]

theorem find_emplace (hw : StrictWeak lt) (k : κ) (v : β) {m : List (κ × β)} (h : Sorted lt m) (k' : κ) :
    find lt k' (emplace lt k v m) =
      if eqv lt k k' then (match find lt k m with | some w => some w | none => some v) else find lt k' m := by
  induction m with
  | nil => simp only [emplace, find]
  | cons r m ih =>
    obtain ⟨a, w⟩ := r
    have hs := h
    rw [sorted_cons] at h
    have ih := ih h.2
    simp only [emplace]
    split
    · rename_i hak
      have hnk : eqv lt a k = false := by simp [eqv, hak]
      rw [find, ih]
      by_cases hk : eqv lt k k' = true
      · have : eqv lt a k' = false := by
          simp [eqv, hw.lt_of_eqv_right hak hk]
        rw [if_pos hk, if_neg (by simp [this]), if_pos hk, find, if_neg (by simp [hnk])]
      · rw [if_neg hk, if_neg hk, find]
    · rename_i hak
      split
      · rename_i hka
        rw [find]
        by_cases hk : eqv lt k k' = true
        · rw [if_pos hk, if_pos hk, find_none_of_lt hw]
          intro x hx
          rcases List.mem_cons.mp hx with rfl | hx
          · exact hka
          · exact hw.trans _ _ _ hka (h.1 x hx)
        · rw [if_neg hk, if_neg hk]
      · rename_i hka
        have hnk : eqv lt a k = true := by simp [eqv, hak, hka]
        by_cases hk : eqv lt k k' = true
        · rw [if_pos hk, find, if_pos (hw.eqv_trans hnk hk), find, if_pos hnk]
        · rw [if_neg hk]

theorem find_assign (hw : StrictWeak lt) (k : κ) (v : β) {m : List (κ × β)} (h : Sorted lt m) (k' : κ) :
    find lt k' (assign lt k v m) = if eqv lt k k' then some v else find lt k' m := by
  induction m with
  | nil => simp only [assign, find]
  | cons r m ih =>
    obtain ⟨a, w⟩ := r
    rw [sorted_cons] at h
    have ih := ih h.2
    simp only [assign]
    split
    · rename_i hak
      rw [find, ih]
      by_cases hk : eqv lt k k' = true
      · have : eqv lt a k' = false := by
          simp [eqv, hw.lt_of_eqv_right hak hk]
        rw [if_pos hk, if_neg (by simp [this]), if_pos hk]
      · rw [if_neg hk, if_neg hk, find]
    · rename_i hak
      split
      · rename_i hka
        rw [find]
      · rename_i hka
        have hnk : eqv lt a k = true := by simp [eqv, hak, hka]
        by_cases hk : eqv lt k k' = true
        · rw [if_pos hk, find, if_pos (hw.eqv_trans hnk hk)]
        · have : ¬eqv lt a k' = true := by
            intro h'
            rw [StrictWeak.eqv_symm] at hnk
            exact hk (hw.eqv_trans hnk h')
          rw [if_neg hk, find, find, if_neg this, if_neg this]

theorem find_erase (hw : StrictWeak lt) (k : κ) {m : List (κ × β)} (h : Sorted lt m) (k' : κ) :
    find lt k' (erase lt k m) = if eqv lt k k' then none else find lt k' m := by
  induction m with
  | nil => simp [erase, find]
  | cons r m ih =>
    obtain ⟨a, w⟩ := r
    rw [sorted_cons] at h
    have ih := ih h.2
    simp only [erase]
    split
    · rename_i hak
      by_cases hk : eqv lt k k' = true
      · rw [if_pos hk, find_none_of_lt hw]
        intro x hx
        have := h.1 x hx
        exact hw.lt_of_eqv_left (by rw [StrictWeak.eqv_symm]; exact hw.eqv_trans hak hk) this
      · have : ¬eqv lt a k' = true := by
          intro h'
          rw [StrictWeak.eqv_symm] at hak
          exact hk (hw.eqv_trans hak h')
        rw [if_neg hk, find, if_neg this]
    · rename_i hak
      rw [find, ih]
      by_cases hk : eqv lt k k' = true
      · have : ¬eqv lt a k' = true := by
          intro h'
          exact hak (hw.eqv_trans h' (by rw [StrictWeak.eqv_symm]; exact hk))
        rw [if_pos hk, if_neg this, if_pos hk]
      · rw [if_neg hk, if_neg hk, find]

theorem find_mem {k : κ} {v : β} {m : List (κ × β)} (h : find lt k m = some v) :
    ∃ a, eqv lt a k = true ∧ (a, v) ∈ m := by
  induction m with
  | nil => simp [find] at h
  | cons r m ih =>
    obtain ⟨a, w⟩ := r
    rw [find] at h
    split at h
    · rename_i ha
      injection h with h; subst h
      exact ⟨a, ha, by simp⟩
    · obtain ⟨b, hb, hm⟩ := ih h
      exact ⟨b, hb, by simp [hm]⟩

theorem find_of_mem (hw : StrictWeak lt) {k : κ} {v : β} {m : List (κ × β)} (hs : Sorted lt m) (h : (k, v) ∈ m) :
    find lt k m = some v := by
  induction m with
  | nil => simp at h
  | cons r m ih =>
    obtain ⟨a, w⟩ := r
    rw [sorted_cons] at hs
    rcases List.mem_cons.mp h with h | h
    · injection h with h1 h2
      subst h1; subst h2
      rw [find, if_pos (hw.eqv_refl _)]
    · have := hs.1 _ h
      rw [find, if_neg (by simp [eqv, this]), ih hs.2 h]

/-- Appending a greater key: `emplace` at the end. -/
theorem emplace_last (hw : StrictWeak lt) (k : κ) (v : β) {m : List (κ × β)} (h : ∀ x ∈ m, lt x.1 k = true) :
    emplace lt k v m = m ++ [(k, v)] := by
  induction m with
  | nil => rfl
  | cons r m ih =>
    obtain ⟨a, w⟩ := r
    rw [emplace, if_pos (h (a, w) (by simp)), ih (fun x hx => h x (by simp [hx]))]; rfl

theorem assign_last (k : κ) (v : β) {m : List (κ × β)} (h : ∀ x ∈ m, lt x.1 k = true) :
    assign lt k v m = m ++ [(k, v)] := by
  induction m with
  | nil => rfl
  | cons r m ih =>
    obtain ⟨a, w⟩ := r
    rw [assign, if_pos (h (a, w) (by simp)), ih (fun x hx => h x (by simp [hx]))]; rfl

end OrdMap
end Verif
