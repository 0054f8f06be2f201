import Verif.Text.SearchProps
/-
`StrSearchZ` (tkrzw_str_util.cc 1013-1051): C38.
-/
namespace Verif.Search

/-- The longest common prefix of `s` and of its rest from `i` has length `n`. -/
def Lcp (s : Bytes) (i n : Nat) : Prop :=
  i + n ≤ s.length ∧ (∀ m, m < n → s[m]? = s[i + m]?) ∧ (i + n < s.length → s[n]? ≠ s[i + n]?)

theorem zExtend_spec (s : Bytes) (i fuel right : Nat) (hi : i ≤ right) (hr : right ≤ s.length) (hf : s.length ≤ right + fuel)
    (h : ∀ m, i + m < right → s[m]? = s[i + m]?) : Lcp s i (zExtend s i fuel right - i) ∧ right ≤ zExtend s i fuel right := by
  induction fuel generalizing right with
  | zero =>
    simp only [zExtend]
    refine ⟨⟨by omega, fun m hm => h m (by omega), fun hlt => by omega⟩, Nat.le_refl _⟩
  | succ fuel ih =>
    simp only [zExtend]
    split
    · rename_i hc
      obtain ⟨g1, g2⟩ := ih (right + 1) (by omega) (by omega) (by omega) (by
        intro m hm
        by_cases e : i + m = right
        · rw [e, ← hc.2]; congr 1; omega
        · exact h m (by omega))
      exact ⟨g1, by omega⟩
    · rename_i hc
      refine ⟨⟨by omega, fun m hm => h m (by omega), ?_⟩, Nat.le_refl _⟩
      intro hlt he
      apply hc
      rw [show i + (right - i) = right by omega] at hlt he
      exact ⟨hlt, he⟩

/-- What holds before index `i`. -/
structure ZInv (s : Bytes) (i left right : Nat) (z : List Nat) : Prop where
  len : z.length = i
  cells : ∀ k, 1 ≤ k → k < i → ∃ n, z[k]? = some n ∧ Lcp s k n
  right_lt : right < s.length
  left_lt : left < i
  box : ∀ j, left ≤ j → j ≤ right → s[j - left]? = s[j]?
  left_pos : i ≤ right → 1 ≤ left
  maximal : 1 ≤ left → i ≤ right → right + 1 < s.length → s[right + 1 - left]? ≠ s[right + 1]?

theorem zInv_extend {s : Bytes} {i left right : Nat} {z : List Nat} (h : ZInv s i left right z) (hi : i < s.length) (hi1 : 1 ≤ i)
    {r : Nat} (hr : i ≤ r) (hl : Lcp s i (r - i)) : ZInv s (i + 1) i (r - 1) (z ++ [r - i]) where
  len := by simp [h.len]
  cells := by
    intro k h1 h2
    by_cases e : k = i
    · subst e
      refine ⟨r - k, ?_, hl⟩
      have := h.len
      rw [← this, List.getElem?_concat_length]
    · obtain ⟨n, g1, g2⟩ := h.cells k h1 (by omega)
      exact ⟨n, by rw [List.getElem?_append_left (by rw [h.len]; omega)]; exact g1, g2⟩
  right_lt := by have := hl.1; omega
  left_lt := by omega
  box := by
    intro j h1 h2
    have := hl.2.1 (j - i) (by omega)
    rw [this]; congr 1; omega
  left_pos := by intro _; omega
  maximal := by
    intro _ h2 h3
    have := hl.2.2 (by omega)
    rw [show r - 1 + 1 - i = r - i by omega, show r - 1 + 1 = i + (r - i) by omega]
    exact this

theorem zLoop_spec (s : Bytes) (fuel i left right : Nat) (z : List Nat) (hi1 : 1 ≤ i) (his : i ≤ s.length) (hf : s.length ≤ i + fuel)
    (h : ZInv s i left right z) :
    ∃ z', zLoop s fuel i left right z = some z' ∧ z'.length = s.length ∧ ∀ k, 1 ≤ k → k < s.length → ∃ n, z'[k]? = some n ∧ Lcp s k n := by
  induction fuel generalizing i left right z with
  | zero =>
    have : i = s.length := by omega
    subst this
    exact ⟨z, rfl, h.len, h.cells⟩
  | succ fuel ih =>
    simp only [zLoop]
    by_cases hi : i < s.length
    · rw [if_pos hi]
      by_cases hr : i > right
      · rw [if_pos hr]
        obtain ⟨g1, g2⟩ := zExtend_spec s i s.length i (Nat.le_refl _) (by omega) (by omega) (fun m hm => by omega)
        exact ih _ _ _ _ (by omega) (by omega) (by omega) (zInv_extend h hi hi1 g2 g1)
      · rw [if_neg hr]
        have hlp := h.left_pos (by omega)
        have hll := h.left_lt
        obtain ⟨n, c1, c2⟩ := h.cells (i - left) (by omega) (by omega)
        have hrl := h.right_lt
        -- inside the box the rest from `i` equals the rest from `i - left`
        have inb : ∀ m, i + m ≤ right → s[i - left + m]? = s[i + m]? := by
          intro m hm
          have := h.box (i + m) (by omega) hm
          rw [← this]; congr 1; omega
        rw [c1]
        simp only [Option.bind_eq_bind, Option.bind_some]
        by_cases hn : n < right - i + 1
        · rw [if_pos hn]
          apply ih (i + 1) left right _ (by omega) (by omega) (by omega)
          refine ⟨by simp [h.len], ?_, hrl, by omega, h.box, fun _ => hlp, fun h1 _ h3 => h.maximal h1 (by omega) h3⟩
          intro k h1 h2
          by_cases e : k = i
          · subst e
            refine ⟨n, ?_, by omega, ?_, ?_⟩
            · rw [← h.len, List.getElem?_concat_length]
            · intro m hm
              rw [c2.2.1 m hm, inb m (by omega)]
            · intro _
              rw [← inb n (by omega)]
              exact c2.2.2 (by omega)
          · obtain ⟨n', g1, g2⟩ := h.cells k h1 (by omega)
            exact ⟨n', by rw [List.getElem?_append_left (by rw [h.len]; omega)]; exact g1, g2⟩
        · rw [if_neg hn]
          obtain ⟨g1, g2⟩ := zExtend_spec s i s.length right (by omega) (by omega) (by omega) (fun m hm => by
            rw [c2.2.1 m (by omega), inb m (by omega)])
          exact ih _ _ _ _ (by omega) (by omega) (by omega) (zInv_extend h hi hi1 (by omega) g1)
    · rw [if_neg hi]
      have : i = s.length := by omega
      subst this
      exact ⟨z, rfl, h.len, h.cells⟩

theorem zFind_spec (z : List Nat) (n fuel i : Nat) (hf : z.length ≤ i + fuel) (hi : n + 1 ≤ i) :
    (∃ k, i ≤ k ∧ k < z.length ∧ z[k]? = some n ∧ zFind z n fuel i = ((k - 1 - n : Nat) : Int) ∧ ∀ j, i ≤ j → j < k → z[j]? ≠ some n) ∨
    (zFind z n fuel i = -1 ∧ ∀ j, i ≤ j → j < z.length → z[j]? ≠ some n) := by
  induction fuel generalizing i with
  | zero => right; exact ⟨rfl, fun j h1 h2 => by omega⟩
  | succ fuel ih =>
    simp only [zFind]
    split
    · rename_i hlt
      split
      · rename_i he
        exact Or.inl ⟨i, Nat.le_refl _, hlt, he, rfl, fun j h1 h2 => by omega⟩
      · rename_i he
        rcases ih (i + 1) (by omega) (by omega) with ⟨k, g1, g2, g3, g4, g5⟩ | ⟨g1, g2⟩
        · refine Or.inl ⟨k, by omega, g2, g3, g4, fun j h1 h2 => ?_⟩
          by_cases e : j = i
          · subst e; exact he
          · exact g5 j (by omega) h2
        · refine Or.inr ⟨g1, fun j h1 h2 => ?_⟩
          by_cases e : j = i
          · subst e; exact he
          · exact g2 j (by omega) h2
    · exact Or.inr ⟨rfl, fun j h1 h2 => by omega⟩

/-- The cell is the length of the pattern where the pattern occurs and is not followed by a NUL. -/
theorem lcp_occurs {text pat : Bytes} {j n : Nat} (hj : j < text.length) (hl : Lcp (pat ++ [0] ++ text) (pat.length + 1 + j) n) :
    n = pat.length ↔ Occurs text pat j ∧ text[j + pat.length]? ≠ some 0 := by
  obtain ⟨h1, h2, h3⟩ := hl
  simp only [List.length_append, List.length_singleton] at h1 h3
  have gt : ∀ m, (pat ++ [0] ++ text)[pat.length + 1 + j + m]? = text[j + m]? := by
    intro m
    rw [List.getElem?_append_right (by simp; omega)]
    simp only [List.length_append, List.length_singleton]
    congr 1; omega
  have gp : ∀ m, m < pat.length → (pat ++ [0] ++ text)[m]? = pat[m]? := by
    intro m hm
    rw [List.getElem?_append_left (by simp; omega), List.getElem?_append_left hm]
  have g0 : (pat ++ [0] ++ text)[pat.length]? = some 0 := by
    rw [List.getElem?_append_left (by simp), List.getElem?_concat_length]
  constructor
  · rintro rfl
    refine ⟨occurs_get.2 ⟨by omega, fun m hm => ?_⟩, ?_⟩
    · rw [← gt m, ← gp m hm, h2 m hm]
    · intro e
      have hlt : j + pat.length < text.length := (List.getElem?_eq_some_iff.1 e).1
      exact h3 (by omega) (by rw [g0, gt, e])
  · rintro ⟨ho, hz⟩
    obtain ⟨w1, w2⟩ := occurs_get.1 ho
    by_cases hlt : n < pat.length
    · exact absurd (by rw [gp n hlt, gt n, w2 n hlt]) (h3 (by omega))
    · by_cases hgt : pat.length < n
      · have := h2 pat.length hgt
        rw [g0, gt] at this
        exact absurd this.symm hz
      · omega

/-- What `StrSearchZ` returns for all texts and patterns: the first position, before the end of the text, where the pattern occurs
and is not followed by a NUL. -/
theorem C38_z_exact (text pat : Bytes) :
    ∃ r, searchZ text pat = some r ∧
      ((∃ i : Nat, r = i ∧ i < text.length ∧ Occurs text pat i ∧ text[i + pat.length]? ≠ some 0 ∧
          ∀ j, j < i → Occurs text pat j → text[j + pat.length]? = some 0) ∨
       (r = -1 ∧ ∀ j, j < text.length → Occurs text pat j → text[j + pat.length]? = some 0)) := by
  unfold searchZ
  obtain ⟨z, h1, h2, h3⟩ := zLoop_spec (pat ++ [0] ++ text) (pat ++ [0] ++ text).length 1 0 0 [0] (by omega) (by simp; omega) (by omega)
    ⟨rfl, fun k h1 h2 => by omega, by simp; omega, by omega, fun j h1 h2 => by simp, fun h => by omega, fun h => by omega⟩
  simp only [Option.bind_eq_bind, h1, Option.bind_some]
  refine ⟨_, rfl, ?_⟩
  have hlen : (pat ++ [0] ++ text).length = pat.length + 1 + text.length := by simp; omega
  have cell : ∀ j, j < text.length → (z[pat.length + 1 + j]? = some pat.length ↔ Occurs text pat j ∧ text[j + pat.length]? ≠ some 0) := by
    intro j hj
    obtain ⟨n, g1, g2⟩ := h3 (pat.length + 1 + j) (by omega) (by omega)
    rw [g1, ← lcp_occurs hj g2]
    simp
  rcases zFind_spec z pat.length (pat ++ [0] ++ text).length (pat.length + 1) (by omega) (Nat.le_refl _) with
    ⟨k, g1, g2, g3, g4, g5⟩ | ⟨g1, g2⟩
  · obtain ⟨i, rfl⟩ : ∃ i, k = pat.length + 1 + i := ⟨k - (pat.length + 1), by omega⟩
    obtain ⟨w1, w2⟩ := (cell i (by omega)).1 g3
    refine Or.inl ⟨i, ?_, by omega, w1, w2, ?_⟩
    · rw [g4]; congr 1; omega
    · intro j hj ho
      have := g5 (pat.length + 1 + j) (by omega) (by omega)
      by_cases e : text[j + pat.length]? = some 0
      · exact e
      · exact absurd ((cell j (by omega)).2 ⟨ho, e⟩) this
  · refine Or.inr ⟨g1, ?_⟩
    intro j hj ho
    have := g2 (pat.length + 1 + j) (by omega) (by omega)
    by_cases e : text[j + pat.length]? = some 0
    · exact e
    · exact absurd ((cell j hj).2 ⟨ho, e⟩) this

/-- C38: `StrSearchZ` returns the position of the first occurrence, or -1, if the text has no NUL byte and the strings are not both
empty; the property does not have those conditions, see `C38_z_violated`. -/
theorem C38_z_partial (text pat : Bytes) (h0 : ∀ c ∈ text, c ≠ 0) (he : text ≠ [] ∨ pat ≠ []) : ∃ r, searchZ text pat = some r ∧ First text pat r := by
  obtain ⟨r, h1, h2⟩ := C38_z_exact text pat
  refine ⟨r, h1, ?_⟩
  have nz : ∀ i : Nat, text[i]? ≠ some (0 : UInt8) := fun i e => h0 _ (List.mem_of_getElem? e) rfl
  rcases h2 with ⟨i, rfl, g1, g2, g3, g4⟩ | ⟨rfl, g1⟩
  · exact Or.inl ⟨i, rfl, g2, fun j hj ho => nz _ (g4 j hj ho)⟩
  · refine Or.inr ⟨rfl, fun j ho => ?_⟩
    by_cases hj : j < text.length
    · exact nz _ (g1 j hj ho)
    · have := (occurs_iff.1 ho).1
      have hp : pat = [] := List.length_eq_zero_iff.1 (by omega)
      have ht : text ≠ [] := he.resolve_right (fun h => h hp)
      have hl : 0 < text.length := List.length_pos_iff.2 ht
      subst hp
      exact nz _ (g1 0 hl (occurs_nil.2 (by omega)))

/-- `abab` in `aababab`. -/
example : searchZ [97, 97, 98, 97, 98, 97, 98] [97, 98, 97, 98] = some 1 := by decide +kernel

/-- C38 fails for the Z algorithm: an occurrence followed by a NUL is not found, nor is the empty pattern in the empty text. -/
theorem C38_z_violated : searchZ [97, 0] [97] = some (-1) ∧ Occurs [97, 0] [97] 0 ∧ searchZ [] [] = some (-1) ∧ Occurs [] [] 0 := by
  refine ⟨by decide +kernel, ⟨[], [0], rfl, rfl⟩, by decide +kernel, ⟨[], [], rfl, rfl⟩⟩

end Verif.Search
