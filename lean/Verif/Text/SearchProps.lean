import Verif.Text.SearchKMP
/-
`StrSearchDoubleLoop`, `StrSearchMemchr`, `StrSearchBM`, `StrSearchRK` and the functions for all occurrences
(tkrzw_str_util.cc 860-1213): C38.
-/
namespace Verif.Search

/-! ### The double loop -/

theorem matchLen_spec (text pat : Bytes) (ti : Nat) (fuel pi : Nat) (hf : pat.length ≤ pi + fuel) (hp : pi ≤ pat.length)
    (h : ∀ m, m < pi → text[ti + m]? = pat[m]?) :
    (matchLen text pat ti fuel pi = pat.length ↔ ∀ m, m < pat.length → text[ti + m]? = pat[m]?) := by
  induction fuel generalizing pi with
  | zero =>
    have : pi = pat.length := by omega
    subst this
    simp [matchLen]; exact h
  | succ fuel ih =>
    simp only [matchLen]
    split
    · rename_i hc
      apply ih (pi + 1) (by omega) (by omega)
      intro m hm
      by_cases e : m = pi
      · subst e; exact hc.2
      · exact h m (by omega)
    · rename_i hc
      constructor
      · intro e m hm; subst e; exact h m hm
      · intro e
        by_cases hlt : pi < pat.length
        · exact absurd ⟨hlt, e pi hlt⟩ hc
        · omega

theorem doubleLoop_spec (text pat : Bytes) (hl : pat.length ≤ text.length) (fuel ti : Nat) (hf : text.length < ti + fuel)
    (h : ∀ i, i < ti → ¬ Occurs text pat i) : First text pat (doubleLoop text pat (text.length - pat.length + 1) fuel ti) := by
  induction fuel generalizing ti with
  | zero => exact Or.inr ⟨rfl, fun i ho => h i (by have := (occurs_iff.1 ho).1; omega) ho⟩
  | succ fuel ih =>
    simp only [doubleLoop]
    split
    · rename_i hlt
      split
      · rename_i he
        rw [matchLen_spec text pat ti pat.length 0 (by omega) (by omega) (by intro m hm; omega)] at he
        exact Or.inl ⟨ti, rfl, occurs_get.2 ⟨by omega, he⟩, h⟩
      · rename_i he
        rw [matchLen_spec text pat ti pat.length 0 (by omega) (by omega) (by intro m hm; omega)] at he
        apply ih (ti + 1) (by omega)
        intro i hi ho
        by_cases e : i = ti
        · subst e; exact he (occurs_get.1 ho).2
        · exact h i (by omega) ho
    · exact Or.inr ⟨rfl, fun i ho => h i (by have := (occurs_iff.1 ho).1; omega) ho⟩

/-- C38: `StrSearchDoubleLoop` returns the position of the first occurrence, or -1. -/
theorem C38_double_loop (text pat : Bytes) : First text pat (searchDoubleLoop text pat) := by
  unfold searchDoubleLoop
  split
  · exact Or.inr ⟨rfl, fun i ho => by have := (occurs_iff.1 ho).1; omega⟩
  · exact doubleLoop_spec text pat (by omega) _ 0 (by omega) (fun i h => by omega)

theorem memchr_spec (text : Bytes) (c : UInt8) (size cur : Nat) :
    match memchr text c size cur with
    | none => ∀ i, cur ≤ i → i < cur + size → text[i]? ≠ some c
    | some m => cur ≤ m ∧ m < cur + size ∧ text[m]? = some c ∧ ∀ i, cur ≤ i → i < m → text[i]? ≠ some c := by
  induction size generalizing cur with
  | zero => simp only [memchr]; intro i h1 h2; omega
  | succ size ih =>
    simp only [memchr]
    by_cases h : text[cur]? = some c
    · simp only [if_pos h]; exact ⟨Nat.le_refl _, by omega, h, fun i h1 h2 => by omega⟩
    · simp only [if_neg h]
      have := ih (cur + 1)
      cases hm : memchr text c size (cur + 1) with
      | none =>
        rw [hm] at this
        intro i h1 h2
        by_cases e : i = cur
        · subst e; exact h
        · exact this i (by omega) (by omega)
      | some m =>
        rw [hm] at this
        obtain ⟨g1, g2, g3, g4⟩ := this
        refine ⟨by omega, by omega, g3, fun i h1 h2 => ?_⟩
        by_cases e : i = cur
        · subst e; exact h
        · exact g4 i (by omega) h2

theorem occurs_cons {text rest : Bytes} {c : UInt8} {i : Nat} :
    Occurs text (c :: rest) i ↔ i + rest.length < text.length ∧ text[i]? = some c ∧ (text.drop (i + 1)).take rest.length = rest := by
  rw [occurs_iff]
  simp only [List.length_cons]
  constructor
  · rintro ⟨h1, h2⟩
    have hi : i < text.length := by omega
    rw [List.drop_eq_getElem_cons hi, List.take_succ_cons] at h2
    simp only [List.cons.injEq] at h2
    exact ⟨by omega, by rw [List.getElem?_eq_getElem hi, h2.1], h2.2⟩
  · rintro ⟨h1, h2, h3⟩
    have hi : i < text.length := by omega
    refine ⟨by omega, ?_⟩
    rw [List.drop_eq_getElem_cons hi, List.take_succ_cons, h3]
    rw [List.getElem?_eq_getElem hi] at h2
    simp only [Option.some.injEq] at h2
    rw [h2]

theorem memchrLoop_spec (text : Bytes) (c : UInt8) (rest : Bytes) (fuel : Nat) (size : Int) (cur : Nat)
    (hsz : size = (text.length : Int) - rest.length - cur) (hf : text.length < cur + fuel) (h : ∀ i, i < cur → ¬ Occurs text (c :: rest) i) :
    First text (c :: rest) (memchrLoop text c rest fuel size cur) := by
  have none_left : (∀ i, cur ≤ i → i + rest.length < text.length → ¬ Occurs text (c :: rest) i) → First text (c :: rest) (-1) := by
    intro hn
    refine Or.inr ⟨rfl, fun i ho => ?_⟩
    by_cases hc : i < cur
    · exact h i hc ho
    · exact hn i (by omega) (occurs_cons.1 ho).1 ho
  induction fuel generalizing size cur with
  | zero => exact none_left fun i h1 h2 => by omega
  | succ fuel ih =>
    simp only [memchrLoop]
    by_cases hs : size > 0
    · rw [if_pos hs]
      have hm := memchr_spec text c size.toNat cur
      cases hmc : memchr text c size.toNat cur with
      | none =>
        rw [hmc] at hm
        apply none_left
        intro i h1 h2 ho
        exact hm i h1 (by omega) (occurs_cons.1 ho).2.1
      | some m =>
        rw [hmc] at hm
        obtain ⟨g1, g2, g3, g4⟩ := hm
        have hb : ∀ i, i < m → ¬ Occurs text (c :: rest) i := by
          intro i hi ho
          by_cases hc : i < cur
          · exact h i hc ho
          · exact g4 i (by omega) hi (occurs_cons.1 ho).2.1
        dsimp only
        by_cases he : (text.drop (m + 1)).take rest.length = rest
        · rw [if_pos he]
          exact Or.inl ⟨m, rfl, occurs_cons.2 ⟨by omega, g3, he⟩, hb⟩
        · rw [if_neg he]
          have hb' : ∀ i, i < m + 1 → ¬ Occurs text (c :: rest) i := by
            intro i hi ho
            by_cases e : i = m
            · subst e; exact he (occurs_cons.1 ho).2.2
            · exact hb i (by omega) ho
          refine ih _ (m + 1) (by omega) (by omega) hb' ?_
          intro hn
          refine Or.inr ⟨rfl, fun i ho => ?_⟩
          by_cases hc : i < m + 1
          · exact hb' i hc ho
          · exact hn i (by omega) (occurs_cons.1 ho).1 ho
    · rw [if_neg hs]
      exact none_left fun i h1 h2 => by omega

/-- C38: `StrSearchMemchr` returns the position of the first occurrence, or -1. -/
theorem C38_memchr (text pat : Bytes) : First text pat (searchMemchr text pat) := by
  cases pat with
  | nil => exact first_nil text
  | cons c rest => exact memchrLoop_spec text c rest _ _ 0 (by omega) (by omega) (fun i h => by omega)

/-! ### Boyer-Moore -/

/-- The cells of the table: how far the last occurrence of the byte among the first `n` of the pattern is from the end. -/
def BmOk (pat : Bytes) (n : Nat) (table : List Int) : Prop :=
  table.length = 255 ∧ ∀ c : UInt8, c.toNat < 255 →
    (table[c.toNat]? = some (pat.length : Int) ∧ ∀ i, i < n → pat[i]? ≠ some c) ∨
    (∃ i, i < n ∧ pat[i]? = some c ∧ table[c.toNat]? = some ((pat.length : Int) - 1 - i) ∧ ∀ j, i < j → j < n → pat[j]? ≠ some c)

theorem bmFill_spec {pat : Bytes} (h255 : ∀ c ∈ pat, c ≠ 255) (shift idx : Nat) (table : List Int) (hs : idx + shift = pat.length)
    (ht : BmOk pat idx table) : ∃ table', bmFill pat shift idx table = some table' ∧ BmOk pat pat.length table' := by
  induction shift generalizing idx table with
  | zero =>
    have : idx = pat.length := by omega
    subst this
    exact ⟨table, rfl, ht⟩
  | succ shift ih =>
    have hi : idx < pat.length := by omega
    have hc : pat[idx] ≠ 255 := h255 _ (List.getElem_mem hi)
    have hc' : pat[idx].toNat < 255 := by
      have := pat[idx].toNat_lt
      have : pat[idx].toNat ≠ 255 := fun e => hc (UInt8.toNat_inj.1 e)
      omega
    simp only [bmFill, List.getElem?_eq_getElem hi, Option.bind_eq_bind, Option.bind_some, ht.1, if_pos hc']
    apply ih (idx + 1) _ (by omega)
    refine ⟨by simp [ht.1], ?_⟩
    intro c hcl
    by_cases e : c = pat[idx]
    · subst e
      right
      refine ⟨idx, by omega, List.getElem?_eq_getElem hi, ?_, fun j h1 h2 => by omega⟩
      rw [List.getElem?_set_self (by rw [ht.1]; exact hc')]
      congr 1; omega
    · have hne : pat[idx].toNat ≠ c.toNat := fun e' => e (UInt8.toNat_inj.1 e'.symm)
      rw [List.getElem?_set_ne hne]
      have hni : pat[idx]? ≠ some c := by
        rw [List.getElem?_eq_getElem hi]; intro e'; exact e (Option.some.inj e').symm
      rcases ht.2 c hcl with ⟨h1, h2⟩ | ⟨i, h1, h2, h3, h4⟩
      · left
        refine ⟨h1, fun i hi' => ?_⟩
        by_cases e2 : i = idx
        · subst e2; exact hni
        · exact h2 i (by omega)
      · right
        refine ⟨i, by omega, h2, h3, fun j h5 h6 => ?_⟩
        by_cases e2 : j = idx
        · subst e2; exact hni
        · exact h4 j h5 (by omega)

theorem bmTable_spec {pat : Bytes} (h255 : ∀ c ∈ pat, c ≠ 255) : ∃ table, bmTable pat = some table ∧ BmOk pat pat.length table := by
  apply bmFill_spec h255 _ 0 _ (by omega)
  refine ⟨List.length_replicate, ?_⟩
  intro c hc
  left
  refine ⟨by rw [List.getElem?_replicate, if_pos hc], fun i h => by omega⟩

theorem bmCompare_spec (text pat : Bytes) (b pidx : Nat) :
    match bmCompare text pat b pidx with
    | none => ∀ m, m < pidx → text[b + m]? = pat[m]?
    | some p => p < pidx ∧ text[b + p]? ≠ pat[p]? ∧ ∀ m, p < m → m < pidx → text[b + m]? = pat[m]? := by
  induction pidx with
  | zero => simp only [bmCompare]; intro m h; omega
  | succ p ih =>
    simp only [bmCompare]
    by_cases h : text[b + p]? = pat[p]?
    · simp only [if_pos h]
      cases hc : bmCompare text pat b p with
      | none =>
        rw [hc] at ih
        intro m hm
        by_cases e : m = p
        · subst e; exact h
        · exact ih m (by omega)
      | some q =>
        rw [hc] at ih
        refine ⟨by omega, ih.2.1, fun m h1 h2 => ?_⟩
        by_cases e : m = p
        · subst e; exact h
        · exact ih.2.2 m h1 (by omega)
    · simp only [if_neg h]
      exact ⟨by omega, h, fun m h1 h2 => by omega⟩

/-- The step after a mismatch skips no occurrence. -/
theorem bm_step {text pat : Bytes} {table : List Int} (ht : BmOk pat pat.length table) {b p : Nat} (hb : b + (pat.length - 1) < text.length)
    (hp : p < pat.length) (hne : text[b + p]? ≠ pat[p]?) (heq : ∀ m, p < m → m < pat.length → text[b + m]? = pat[m]?)
    {c : UInt8} (hc : text[b + p]? = some c) (hc255 : c ≠ 255) :
    ∃ t, table[c.toNat]? = some t ∧
      ∀ i, b ≤ i → i < b + (if t - (pat.length - 1 : Nat) + p > 0 then (t - (pat.length - 1 : Nat) + p).toNat else 2) → ¬ Occurs text pat i := by
  have hc' : c.toNat < 255 := by
    have := c.toNat_lt
    have : c.toNat ≠ 255 := fun e => hc255 (UInt8.toNat_inj.1 e)
    omega
  have zero : ¬ Occurs text pat b := fun ho => hne ((occurs_get.1 ho).2 p hp)
  rcases ht.2 c hc' with ⟨h1, h2⟩ | ⟨l, h1, h2, h3, h4⟩
  · refine ⟨_, h1, ?_⟩
    rw [if_pos (by omega)]
    intro i hi1 hi2 ho
    have := (occurs_get.1 ho).2 (b + p - i) (by omega)
    rw [show i + (b + p - i) = b + p by omega, hc] at this
    exact h2 _ (by omega) this.symm
  · refine ⟨_, h3, ?_⟩
    have hlp : l ≠ p := by
      rintro rfl
      rw [hc, h2] at hne
      exact hne rfl
    by_cases hlt : l < p
    · rw [if_pos (by omega)]
      intro i hi1 hi2 ho
      have := (occurs_get.1 ho).2 (b + p - i) (by omega)
      rw [show i + (b + p - i) = b + p by omega, hc] at this
      exact h4 _ (by omega) (by omega) this.symm
    · rw [if_neg (by omega)]
      intro i hi1 hi2 ho
      by_cases e : i = b
      · subst e; exact zero ho
      · have e : i = b + 1 := by omega
        subst e
        have hg := (occurs_get.1 ho).2
        -- all bytes of the pattern from `p` on are equal
        have all : ∀ m, p ≤ m → m < pat.length → pat[m]? = pat[p]? := by
          intro m hm
          induction hm with
          | refl => intro _; rfl
          | @step m hm ih =>
            intro hlt2
            have hm' : p ≤ m := hm
            rw [← ih (by omega), ← heq (m + 1) (by omega) hlt2, ← hg m (by omega)]
            congr 1; omega
        have := all l (by omega) h1
        rw [h2] at this
        exact hne (by rw [hc, this])

theorem bmLoop_spec {text pat : Bytes} {table : List Int} (ht : BmOk pat pat.length table) (hp : pat ≠ []) (h255 : ∀ c ∈ text, c ≠ 255)
    (fuel b : Nat) (hf : text.length < b + fuel) (hf1 : 1 ≤ fuel) (h : ∀ i, i < b → ¬ Occurs text pat i) :
    ∃ r, bmLoop text pat table fuel b = some r ∧ First text pat r := by
  have hl : 0 < pat.length := List.length_pos_iff.2 hp
  induction fuel generalizing b with
  | zero => omega
  | succ fuel ih =>
    simp only [bmLoop]
    by_cases hb : b + (pat.length - 1) < text.length
    · rw [if_pos hb]
      have hcmp := bmCompare_spec text pat b pat.length
      cases hc : bmCompare text pat b pat.length with
      | none =>
        rw [hc] at hcmp
        exact ⟨b, rfl, Or.inl ⟨b, rfl, occurs_get.2 ⟨by omega, hcmp⟩, h⟩⟩
      | some p =>
        rw [hc] at hcmp
        obtain ⟨g1, g2, g3⟩ := hcmp
        have hbp : b + p < text.length := by omega
        have hcc := List.getElem?_eq_getElem hbp
        obtain ⟨t, k1, k2⟩ := bm_step ht hb g1 g2 g3 hcc (h255 _ (List.getElem_mem hbp))
        dsimp only
        rw [hcc]
        simp only [Option.bind_eq_bind, Option.bind_some, k1]
        apply ih
        · split <;> omega
        · omega
        · intro i hi ho
          by_cases hib : i < b
          · exact h i hib ho
          · exact k2 i (by omega) hi ho
    · rw [if_neg hb]
      refine ⟨-1, rfl, Or.inr ⟨rfl, fun i ho => h i (by have := (occurs_iff.1 ho).1; omega) ho⟩⟩

/-- C38: `StrSearchBM` returns the position of the first occurrence, or -1, if neither string has a byte 0xFF; the property does not
have that condition, see `C38_bm_violated`. -/
theorem C38_bm_partial (text pat : Bytes) (h1 : ∀ c ∈ text, c ≠ 255) (h2 : ∀ c ∈ pat, c ≠ 255) :
    ∃ r, searchBM text pat = some r ∧ First text pat r := by
  unfold searchBM
  by_cases hp : pat = []
  · subst hp; exact ⟨0, rfl, first_nil text⟩
  · rw [if_neg (by simpa using hp)]
    obtain ⟨table, g1, g2⟩ := bmTable_spec h2
    rw [g1]
    exact bmLoop_spec g2 hp h1 _ 0 (by omega) (by omega) (fun i h => by omega)

theorem wholeBMLoop_spec {text pat : Bytes} {table : List Int} (ht : BmOk pat pat.length table) (hp : pat ≠ []) (h255 : ∀ c ∈ text, c ≠ 255)
    (max : Nat) (fuel b : Nat) (acc : List Nat) (hf : text.length < b + fuel) (hf1 : 1 ≤ fuel) (ha : max > 0 → acc.length < max) :
    wholeBMLoop text pat table max fuel b acc = some (fin max (acc ++ occFrom text pat b)) := by
  have hl : 0 < pat.length := List.length_pos_iff.2 hp
  have skip : ∀ b b', b ≤ b' → (∀ i, b ≤ i → i < b' → ¬ Occurs text pat i) → occFrom text pat b = occFrom text pat b' := by
    intro b b' hbb hn
    unfold occFrom
    by_cases hb' : b' ≤ text.length
    · rw [show text.length - b = (b' - b) + (text.length - b') by omega, ← List.range'_append, List.filter_append,
        range'_filter_eq_nil (fun i h1 h2 => by simpa using hn i h1 (by omega)), List.nil_append]
      congr 2; omega
    · rw [show text.length - b' = 0 by omega, range'_filter_eq_nil (fun i h1 h2 => by simpa using hn i h1 (by omega))]; rfl
  induction fuel generalizing b acc with
  | zero => omega
  | succ fuel ih =>
    simp only [wholeBMLoop]
    by_cases hb : b + (pat.length - 1) < text.length
    · rw [if_pos hb]
      have hcmp := bmCompare_spec text pat b pat.length
      cases hc : bmCompare text pat b pat.length with
      | none =>
        rw [hc] at hcmp
        have ho : Occurs text pat b := occurs_get.2 ⟨by omega, hcmp⟩
        rw [occFrom_first (Nat.le_refl b) (by omega) ho (fun j h1 h2 => by omega)]
        simp only [if_true, true_and, Option.getD_none]
        by_cases hm : max > 0 ∧ (acc ++ [b]).length ≥ max
        · rw [if_pos hm, show acc ++ b :: occFrom text pat (b + 1) = (acc ++ [b]) ++ occFrom text pat (b + 1) by simp, fin_done hm]
          have := ha hm.1
          simp only [List.length_append, List.length_singleton]; omega
        · rw [if_neg hm]
          have hb0 : b + 0 < text.length := by omega
          have hcc := List.getElem?_eq_getElem hb0
          rw [hcc]
          have hc255 := h255 _ (List.getElem_mem hb0)
          have hc' : text[b + 0].toNat < 255 := by
            have := (text[b + 0]).toNat_lt
            have : (text[b + 0]).toNat ≠ 255 := fun e => hc255 (UInt8.toNat_inj.1 e)
            omega
          have h0 : pat[0]? = some text[b + 0] := by rw [← hcmp 0 hl, hcc]
          rcases ht.2 _ hc' with ⟨_, g2⟩ | ⟨l, g1, g2, g3, g4⟩
          · exact absurd h0 (g2 0 hl)
          · simp only [Option.bind_eq_bind, Option.bind_some, g3]
            rw [if_neg (by omega)]
            rw [ih (b + 1) _ (by omega) (by omega) (by intro h; simp only [List.length_append, List.length_singleton] at hm ⊢; omega)]
            simp
      | some p =>
        rw [hc] at hcmp
        obtain ⟨g1, g2, g3⟩ := hcmp
        have hbp : b + p < text.length := by omega
        have hcc := List.getElem?_eq_getElem hbp
        obtain ⟨t, k1, k2⟩ := bm_step ht hb g1 g2 g3 hcc (h255 _ (List.getElem_mem hbp))
        simp only [reduceCtorEq, if_false, false_and, Option.getD_some]
        rw [hcc]
        simp only [Option.bind_eq_bind, Option.bind_some, k1]
        rw [ih _ acc (by split <;> omega) (by omega) ha]
        rw [skip b _ (Nat.le_add_right _ _) k2]
    · rw [if_neg hb]
      rw [occFrom_none (s := b), List.append_nil, fin_all ha]
      intro j hj ho
      have := (occurs_iff.1 ho).1
      omega

/-- C38: `StrSearchWholeBM` returns the positions of all occurrences, if neither string has a byte 0xFF. -/
theorem C38_whole_bm_partial (text pat : Bytes) (max : Nat) (h1 : ∀ c ∈ text, c ≠ 255) (h2 : ∀ c ∈ pat, c ≠ 255) :
    wholeBM text pat max = some (allOccurrences text pat max) := by
  unfold wholeBM
  by_cases hp : pat = []
  · subst hp; simp only [List.isEmpty_nil, if_true]; rw [wholeEmpty_eq]
  · rw [if_neg (by simpa using hp)]
    obtain ⟨table, g1, g2⟩ := bmTable_spec h2
    rw [g1]
    simp only [Option.bind_some]
    rw [wholeBMLoop_spec g2 hp h1 max _ 0 [] (by omega) (by omega) (by intro h; simpa using h), allOccurrences_eq]
    rfl

/-- C38 fails for Boyer-Moore: the table has 255 cells, so a byte 0xFF of the pattern, or of the text where they differ, is looked up
outside it. -/
theorem C38_bm_violated : searchBM [97] [255] = none ∧ searchBM [255] [97] = none ∧ wholeBM [255] [97] 0 = none := by decide +kernel

/-! ### Rabin-Karp -/

/-- The polynomial of the hash, not reduced. -/
def poly (l : Bytes) : Int := l.foldl (fun h c => h * 239 + c.toNat) 0

theorem poly_snoc (l : Bytes) (c : UInt8) : poly (l ++ [c]) = poly l * 239 + c.toNat := by simp [poly]

theorem poly_nonneg (l : Bytes) : 0 ≤ poly l := by
  have : ∀ (l : Bytes) (h : Int), 0 ≤ h → 0 ≤ l.foldl (fun (h : Int) (c : UInt8) => h * 239 + c.toNat) h := by
    intro l
    induction l with
    | nil => intro h hh; exact hh
    | cons c l ih => intro h hh; exact ih _ (by show 0 ≤ h * 239 + (c.toNat : Int); omega)
  exact this l 0 (Int.le_refl 0)

theorem poly_cons (d : UInt8) (l : Bytes) : poly (d :: l) = d.toNat * 239 ^ l.length + poly l := by
  have : ∀ (l : Bytes) (h : Int), l.foldl (fun (h : Int) (c : UInt8) => h * 239 + c.toNat) h = h * 239 ^ l.length + poly l := by
    intro l
    induction l with
    | nil => intro h; simp [poly]
    | cons c l ih =>
      intro h
      simp only [poly, List.foldl_cons, List.length_cons]
      rw [ih, ih, Int.pow_succ]
      simp only [Int.zero_mul, Int.zero_add, Int.add_mul]
      have : h * 239 * 239 ^ l.length = h * (239 ^ l.length * 239) := by rw [Int.mul_assoc, Int.mul_comm 239]
      rw [this]; omega
  simp only [poly, List.foldl_cons]
  rw [this]; simp [poly]

theorem rkStep_poly (l : Bytes) (c : UInt8) : rkStep (poly l % 1798201) c = poly (l ++ [c]) % 1798201 := by
  have h1 := poly_nonneg l
  unfold rkStep
  rw [Int.tmod_eq_emod_of_nonneg (by omega), poly_snoc]
  omega

theorem rkHash_eq (pat : Bytes) : rkHash pat = poly pat % 1798201 := by
  have : ∀ (l p : Bytes), l.foldl rkStep (poly p % 1798201) = poly (p ++ l) % 1798201 := by
    intro l
    induction l with
    | nil => intro p; simp
    | cons c l ih => intro p; simp only [List.foldl_cons, rkStep_poly, ih]; simp
  simpa [poly, rkHash] using this pat []

theorem rkPower_eq (n : Nat) : rkPower n = 239 ^ n % 1798201 := by
  induction n with
  | zero => rfl
  | succ n ih =>
    simp only [rkPower, ih]
    rw [Int.tmod_eq_emod_of_nonneg (by omega), Int.pow_succ]
    omega

/-- The window that ends at `i`: the last `n` bytes of the first `i`. -/
def win (text : Bytes) (n i : Nat) : Bytes := (text.take i).drop (i - n)

theorem rkRoll_spec {text : Bytes} {n i : Nat} (hn : 0 < n) (hi : i < text.length) :
    rkRoll text n (rkPower n) (poly (win text n i) % 1798201) i = some (poly (win text n (i + 1)) % 1798201) := by
  unfold rkRoll
  rw [List.getElem?_eq_getElem hi]
  simp only [Option.bind_eq_bind, Option.bind_some, rkStep_poly]
  have e1 : text.take (i + 1) = text.take i ++ [text[i]] := by
    rw [List.take_add_one, List.getElem?_eq_getElem hi]; rfl
  by_cases h : i ≥ n
  · rw [if_pos h]
    have hj : i - n < text.length := by omega
    rw [List.getElem?_eq_getElem hj]
    simp only [Option.bind_some]
    have e2 : win text n i ++ [text[i]] = text[i - n] :: win text n (i + 1) := by
      unfold win
      rw [← List.drop_append_of_le_length (by simp; omega), ← e1]
      rw [show i + 1 - n = i - n + 1 by omega]
      rw [List.drop_eq_getElem_cons (by simp; omega)]
      simp
    have e3 : (win text n (i + 1)).length = n := by unfold win; simp; omega
    have hw := poly_nonneg (win text n (i + 1))
    rw [e2, poly_cons, e3, rkPower_eq, Int.tmod_eq_emod_of_nonneg (Int.mul_nonneg (Int.emod_nonneg _ (by decide)) (by omega))]
    have e4 : (239 ^ n % 1798201 * ((text[i - n]).toNat : Int)) % 1798201 = (((text[i - n]).toNat : Int) * 239 ^ n) % 1798201 := by
      rw [Int.mul_comm ((text[i - n]).toNat : Int), Int.mul_emod, Int.emod_emod_of_dvd _ (Int.dvd_refl _), ← Int.mul_emod]
    rw [e4]
    generalize ((text[i - n]).toNat : Int) * 239 ^ n = A
    generalize poly (win text n (i + 1)) = B
    congr 1
    split <;> omega
  · rw [if_neg h]
    congr 3
    unfold win
    rw [show i - n = 0 by omega, show i + 1 - n = 0 by omega, e1]; simp

theorem win_occurs {text pat : Bytes} {i : Nat} (hi : i < text.length) (hp : pat.length - 1 ≤ i) (hp1 : pat ≠ []) :
    win text pat.length (i + 1) = (text.drop (i - (pat.length - 1))).take pat.length := by
  have hl : 0 < pat.length := List.length_pos_iff.2 hp1
  unfold win
  rw [List.drop_take]
  congr 1
  · omega
  · congr 1; omega

theorem rk_test {text pat : Bytes} {i : Nat} (hi : i < text.length) (hp : pat ≠ []) :
    (rkHash pat = poly (win text pat.length (i + 1)) % 1798201 ∧ i ≥ pat.length - 1 ∧ window text pat (i - (pat.length - 1)) = true) ↔
      (pat.length - 1 ≤ i ∧ Occurs text pat (i - (pat.length - 1))) := by
  have hl : 0 < pat.length := List.length_pos_iff.2 hp
  unfold window
  rw [occurs_iff]
  constructor
  · rintro ⟨_, h1, h2⟩; exact ⟨h1, by omega, by simpa using h2⟩
  · rintro ⟨h1, _, h2⟩
    refine ⟨?_, h1, by simpa using h2⟩
    rw [win_occurs hi h1 hp, h2, rkHash_eq]

theorem rkLoop_spec {text pat : Bytes} (hp : pat ≠ []) (fuel i : Nat) (hf : i + fuel = text.length)
    (h : ∀ j, j + pat.length ≤ i → ¬ Occurs text pat j) :
    ∃ r, rkLoop text pat (rkPower pat.length) (rkHash pat) fuel i (poly (win text pat.length i) % 1798201) = some r ∧ First text pat r := by
  have hl : 0 < pat.length := List.length_pos_iff.2 hp
  induction fuel generalizing i with
  | zero => exact ⟨-1, rfl, Or.inr ⟨rfl, fun j ho => h j (by have := (occurs_iff.1 ho).1; omega) ho⟩⟩
  | succ fuel ih =>
    have hi : i < text.length := by omega
    simp only [rkLoop, rkRoll_spec hl hi, Option.bind_eq_bind, Option.bind_some]
    by_cases hc : pat.length - 1 ≤ i ∧ Occurs text pat (i - (pat.length - 1))
    · rw [if_pos ((rk_test hi hp).2 hc)]
      exact ⟨_, rfl, Or.inl ⟨_, rfl, hc.2, fun j hj => h j (by omega)⟩⟩
    · rw [if_neg (fun hx => hc ((rk_test hi hp).1 hx))]
      apply ih (i + 1) (by omega)
      intro j hj ho
      by_cases e : j + pat.length = i + 1
      · exact hc ⟨by omega, by rw [show i - (pat.length - 1) = j by omega]; exact ho⟩
      · exact h j (by omega) ho

/-- C38: `StrSearchRK` returns the position of the first occurrence, or -1. -/
theorem C38_rk (text pat : Bytes) : ∃ r, searchRK text pat = some r ∧ First text pat r := by
  unfold searchRK
  by_cases hp : pat = []
  · subst hp; exact ⟨0, rfl, first_nil text⟩
  · rw [if_neg (by simpa using hp)]
    have hl : 0 < pat.length := List.length_pos_iff.2 hp
    have := rkLoop_spec (text := text) hp text.length 0 (by omega) (fun j hj => by omega)
    simpa [win, poly] using this

theorem occFrom_skip {text pat : Bytes} {b : Nat} (h : ¬ Occurs text pat b) : occFrom text pat b = occFrom text pat (b + 1) := by
  unfold occFrom
  by_cases hb : b < text.length
  · rw [show text.length - b = text.length - (b + 1) + 1 by omega, List.range'_succ, List.filter_cons_of_neg (by simpa using h)]
  · rw [show text.length - b = 0 by omega, show text.length - (b + 1) = 0 by omega]; rfl

theorem wholeRKLoop_spec {text pat : Bytes} (hp : pat ≠ []) (max : Nat) (fuel i : Nat) (acc : List Nat) (hf : i + fuel = text.length)
    (ha : max > 0 → acc.length < max) :
    wholeRKLoop text pat (rkPower pat.length) (rkHash pat) max fuel i (poly (win text pat.length i) % 1798201) acc =
      some (fin max (acc ++ occFrom text pat (i - (pat.length - 1)))) := by
  have hl : 0 < pat.length := List.length_pos_iff.2 hp
  induction fuel generalizing i acc with
  | zero =>
    rw [occFrom_none, List.append_nil, fin_all ha]
    · rfl
    · intro j hj ho
      have := (occurs_iff.1 ho).1
      omega
  | succ fuel ih =>
    have hi : i < text.length := by omega
    simp only [wholeRKLoop, rkRoll_spec hl hi, Option.bind_eq_bind, Option.bind_some]
    by_cases hc : pat.length - 1 ≤ i ∧ Occurs text pat (i - (pat.length - 1))
    · rw [if_pos ((rk_test hi hp).2 hc)]
      rw [occFrom_first (Nat.le_refl _) (occurs_lt hp hc.2) hc.2 (fun j h1 h2 => by omega)]
      generalize hbe : i - (pat.length - 1) = b
      by_cases hm : max > 0 ∧ (acc ++ [b]).length ≥ max
      · rw [if_pos hm, show acc ++ b :: occFrom text pat (b + 1) = (acc ++ [b]) ++ occFrom text pat (b + 1) by simp, fin_done hm]
        have := ha hm.1
        simp only [List.length_append, List.length_singleton]; omega
      · rw [if_neg hm, ih (i + 1) _ (by omega) (by intro h; simp only [List.length_append, List.length_singleton] at hm ⊢; omega)]
        rw [show i + 1 - (pat.length - 1) = b + 1 by omega]
        simp
    · rw [if_neg (fun hx => hc ((rk_test hi hp).1 hx)), ih (i + 1) acc (by omega) ha]
      congr 3
      by_cases hle : pat.length - 1 ≤ i
      · rw [show i + 1 - (pat.length - 1) = i - (pat.length - 1) + 1 by omega]
        rw [occFrom_skip (b := i - (pat.length - 1)) (fun ho => hc ⟨hle, ho⟩)]
      · rw [show i + 1 - (pat.length - 1) = 0 by omega, show i - (pat.length - 1) = 0 by omega]

/-- C38: `StrSearchWholeRK` returns the positions of all occurrences. -/
theorem C38_whole_rk (text pat : Bytes) (max : Nat) : wholeRK text pat max = some (allOccurrences text pat max) := by
  unfold wholeRK
  by_cases hp : pat = []
  · subst hp; simp only [List.isEmpty_nil, if_true]; rw [wholeEmpty_eq]
  · rw [if_neg (by simpa using hp)]
    have := wholeRKLoop_spec (text := text) hp max text.length 0 [] (by omega) (by intro h; simpa using h)
    rw [show poly (win text pat.length 0) % 1798201 = 0 by simp [win, poly]] at this
    rw [this, allOccurrences_eq]
    simp only [Nat.zero_sub, List.nil_append]
    rfl

example : searchRK [97, 97, 98, 97, 98, 97, 98] [97, 98, 97, 98] = some 1 ∧
    wholeRK [97, 97, 98, 97, 98, 97, 98] [97, 98, 97, 98] 0 = some [1, 3] ∧
    searchBM [97, 97, 98, 97, 98, 97, 98] [97, 98, 97, 98] = some 1 ∧
    wholeBM [97, 97, 98, 97, 98, 97, 98] [97, 98, 97, 98] 1 = some [1] ∧
    searchDoubleLoop [97, 97, 98] [97, 98] = 1 ∧ searchMemchr [97, 97, 98] [97, 98] = 1 := by decide +kernel

end Verif.Search
