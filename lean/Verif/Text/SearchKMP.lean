import Verif.Text.Search
/-
`StrSearchKMP` and `StrSearchWholeKMP` (tkrzw_str_util.cc 912-942, 1079-1126): C38.
-/
namespace Verif.Search

/-- The longest prefix of the pattern that is a suffix of `x` has length `k`. -/
def Longest (pat x : Bytes) (k : Nat) : Prop := k ≤ pat.length ∧ pat.take k <:+ x ∧ ∀ j, j ≤ pat.length → pat.take j <:+ x → j ≤ k

/-- The first `n + 1` cells of the table. -/
def TableOk (pat : Bytes) (table : List Int) (n : Nat) : Prop :=
  table.length = n + 1 ∧ table[0]? = some (-1) ∧
    ∀ q, 1 ≤ q → q ≤ n → ∃ k : Nat, table[q]? = some (k : Int) ∧ k < q ∧ Longest pat ((pat.take q).tail) k

theorem suffix_of_suffix {a b c : Bytes} (h1 : a <:+ c) (h2 : b <:+ c) (h : a.length ≤ b.length) : a <:+ b := by
  obtain ⟨u, rfl⟩ := h1
  obtain ⟨v, hv⟩ := h2
  refine ⟨u.drop v.length, ?_⟩
  have h3 : v.length ≤ u.length := by
    have := congrArg List.length hv; simp only [List.length_append] at this; omega
  have h4 : (v ++ b).drop v.length = (u ++ a).drop v.length := by rw [hv]
  rw [List.drop_left, List.drop_append_of_le_length h3] at h4
  exact h4.symm

theorem suffix_tail {a b : Bytes} (h : a <:+ b) (hl : a.length < b.length) : a <:+ b.tail := by
  obtain ⟨u, rfl⟩ := h
  cases u with
  | nil => simp at hl
  | cons x u => exact ⟨u, rfl⟩

theorem take_succ_suffix {pat x : Bytes} {c : UInt8} {j : Nat} (hj : j < pat.length) :
    pat.take (j + 1) <:+ x ++ [c] ↔ pat.take j <:+ x ∧ pat[j]? = some c := by
  rw [List.take_add_one, List.getElem?_eq_getElem hj]
  constructor
  · rintro ⟨u, hu⟩
    simp only [Option.toList_some, ← List.append_assoc] at hu
    have := List.append_inj' hu rfl
    refine ⟨⟨u, this.1⟩, ?_⟩
    simpa using this.2
  · rintro ⟨⟨u, rfl⟩, h⟩
    simp only [Option.some.injEq] at h
    exact ⟨u, by simp [h]⟩

/-- The inner loop keeps the longest prefix that can be continued with `c`. -/
theorem fall_spec {pat x : Bytes} {table : List Int} {n : Nat} (ht : TableOk pat table n) (c : UInt8) (hn : n ≤ pat.length) :
    ∀ (fuel : Nat) (o : Int), -1 ≤ o → o < pat.length → o ≤ n → o + 1 < fuel → (0 ≤ o → pat.take o.toNat <:+ x) →
      (∀ j : Nat, j < pat.length → pat.take j <:+ x → pat[j]? = some c → (j : Int) ≤ o) →
      ∃ o', fall pat table c fuel o = some o' ∧ -1 ≤ o' ∧ o' ≤ o ∧ Longest pat (x ++ [c]) (o' + 1).toNat := by
  intro fuel
  induction fuel with
  | zero => intro o h1 _ _ h2; exact absurd h2 (by omega)
  | succ fuel ih =>
    intro o h1 h2 hno h3 h4 h5
    simp only [fall]
    by_cases ho : 0 ≤ o
    · rw [if_pos ho]
      obtain ⟨k, rfl⟩ : ∃ k : Nat, o = k := ⟨o.toNat, by omega⟩
      have hk : k < pat.length := by omega
      have hk' : k ≤ n := by omega
      simp only [Int.toNat_natCast] at h4 ⊢
      rw [List.getElem?_eq_getElem hk]
      simp only [Option.bind_eq_bind, Option.bind_some]
      by_cases hc : c = pat[k]
      · rw [if_neg (by simpa using hc)]
        refine ⟨_, rfl, by omega, by omega, ?_⟩
        have e : ((k : Int) + 1).toNat = k + 1 := by omega
        rw [e]
        refine ⟨by omega, (take_succ_suffix hk).2 ⟨h4 (by omega), by rw [List.getElem?_eq_getElem hk, hc]⟩, ?_⟩
        intro j hj hs
        cases j with
        | zero => omega
        | succ j =>
          obtain ⟨g1, g2⟩ := (take_succ_suffix (by omega)).1 hs
          have := h5 j (by omega) g1 g2
          omega
      · rw [if_pos (by simpa using hc)]
        have hx : ∀ j : Nat, j < pat.length → pat.take j <:+ x → pat[j]? = some c → j < k := by
          intro j g1 g2 g3
          have g4 := h5 j g1 g2 g3
          have : j ≠ k := by
            rintro rfl
            rw [List.getElem?_eq_getElem g1] at g3
            exact hc (by simpa using g3.symm)
          omega
        by_cases hk0 : k = 0
        · subst hk0
          rw [ht.2.1]
          simp only [Option.bind_some]
          obtain ⟨o', g1, g2, g3, g4⟩ := ih (-1) (by omega) (by omega) (by omega) (by omega) (by intro h; omega)
            (by intro j g1 g2 g3; exact absurd (hx j g1 g2 g3) (by omega))
          exact ⟨o', g1, g2, by omega, g4⟩
        · obtain ⟨q, r1, r2, r3⟩ := ht.2.2 k (by omega) hk'
          rw [r1]
          simp only [Option.bind_some]
          have hqx : pat.take q <:+ x := r3.2.1.trans ((List.tail_suffix _).trans (h4 (by omega)))
          obtain ⟨o', g1, g2, g3, g4⟩ := ih q (by omega) (by omega) (by omega) (by omega) (by intro _; simpa using hqx)
            (by
              intro j g1 g2 g3
              have hjk := hx j g1 g2 g3
              have : pat.take j <:+ (pat.take k).tail := by
                apply suffix_tail (suffix_of_suffix g2 (h4 (by omega)) _)
                · simp only [List.length_take]; omega
                · simp only [List.length_take]; omega
              have := r3.2.2 j (by omega) this
              omega)
          exact ⟨o', g1, g2, by omega, g4⟩
    · rw [if_neg ho]
      refine ⟨_, rfl, h1, by omega, ?_⟩
      have : o = -1 := by omega
      subst this
      refine ⟨by omega, ⟨x ++ [c], by simp⟩, ?_⟩
      intro j hj hs
      cases j with
      | zero => omega
      | succ j =>
        obtain ⟨g1, g2⟩ := (take_succ_suffix (by omega)).1 hs
        exact absurd (h5 j (by omega) g1 g2) (by omega)

theorem longest_nil (pat : Bytes) : Longest pat [] 0 := by
  refine ⟨Nat.zero_le _, by simp, ?_⟩
  intro j hj h
  have := List.suffix_nil.1 h
  have := congrArg List.length this
  simp only [List.length_take, List.length_nil] at this
  omega

theorem kmpTable_spec (pat : Bytes) (fuel idx : Nat) (o : Int) (table : List Int) (hf : idx + fuel = pat.length)
    (ht : TableOk pat table idx) (ho : (idx = 0 ∧ o = -1) ∨ (1 ≤ idx ∧ table[idx]? = some o)) :
    ∃ table', kmpTable pat fuel idx o table = some table' ∧ TableOk pat table' pat.length := by
  induction fuel generalizing idx o table with
  | zero =>
    have : idx = pat.length := by omega
    subst this
    exact ⟨table, rfl, ht⟩
  | succ fuel ih =>
    have hi : idx < pat.length := by omega
    simp only [kmpTable, if_pos hi, List.getElem?_eq_getElem hi, Option.bind_eq_bind, Option.bind_some]
    have key : ∃ o' : Int, fall pat table pat[idx] (pat.length + 2) o = some o' ∧ ∃ k : Nat, o' + 1 = k ∧ k < idx + 1 ∧
        Longest pat ((pat.take (idx + 1)).tail) k := by
      rcases ho with ⟨rfl, rfl⟩ | ⟨h1, h2⟩
      · refine ⟨-1, by simp [fall], 0, by omega, by omega, ?_⟩
        have : (pat.take (0 + 1)).tail = [] := by cases pat <;> simp
        rw [this]; exact longest_nil pat
      · obtain ⟨k, r1, r2, r3⟩ := ht.2.2 idx h1 (Nat.le_refl _)
        rw [h2] at r1
        simp only [Option.some.injEq] at r1
        subst r1
        obtain ⟨o', g1, g2, g3, g4⟩ := fall_spec (x := (pat.take idx).tail) ht pat[idx] (by omega) (pat.length + 2) k (by omega) (by omega)
          (by omega) (by omega) (by intro _; simpa using r3.2.1) (by
            intro j w1 w2 w3
            have := r3.2.2 j (by omega) w2
            omega)
        refine ⟨o', g1, (o' + 1).toNat, by omega, by omega, ?_⟩
        have e : (pat.take (idx + 1)).tail = (pat.take idx).tail ++ [pat[idx]] := by
          rw [List.take_add_one, List.getElem?_eq_getElem hi, List.tail_append_of_ne_nil]
          · rfl
          · intro e; have := congrArg List.length e; simp only [List.length_take, List.length_nil] at this; omega
        rw [e]; exact g4
    obtain ⟨o', g1, k, g2, g3, g4⟩ := key
    rw [g1]
    simp only [Option.bind_some]
    apply ih (idx + 1) (o' + 1) _ (by omega)
    · refine ⟨by simp [ht.1], ?_, ?_⟩
      · rw [List.getElem?_append_left (by rw [ht.1]; omega)]; exact ht.2.1
      · intro q h1 h2
        by_cases e : q = idx + 1
        · subst e
          refine ⟨k, ?_, g3, g4⟩
          rw [← ht.1, List.getElem?_concat_length, g2]
        · obtain ⟨k', r1, r2, r3⟩ := ht.2.2 q h1 (by omega)
          refine ⟨k', ?_, r2, r3⟩
          rw [List.getElem?_append_left (by rw [ht.1]; omega)]; exact r1
    · right
      refine ⟨by omega, ?_⟩
      rw [← ht.1, List.getElem?_concat_length]

theorem table_spec (pat : Bytes) : ∃ table, kmpTable pat pat.length 0 (-1) [-1] = some table ∧ TableOk pat table pat.length :=
  kmpTable_spec pat pat.length 0 (-1) [-1] (by omega) ⟨rfl, rfl, fun q h1 h2 => by omega⟩ (Or.inl ⟨rfl, rfl⟩)

/-- The scan from position `s` stops behind the first occurrence that is not before `s`. -/
theorem kmpScan_spec {text pat : Bytes} {table : List Int} (ht : TableOk pat table pat.length) (hp : pat ≠ []) (s : Nat)
    (fuel idx : Nat) (k : Nat) (hs : s ≤ idx) (hi : idx ≤ text.length) (hf : text.length ≤ idx + fuel)
    (hk : Longest pat ((text.drop s).take (idx - s)) k) (hb : ∀ i, s ≤ i → i + pat.length < idx → ¬ Occurs text pat i)
    (hb2 : k < pat.length → ∀ i, s ≤ i → i + pat.length ≤ idx → ¬ Occurs text pat i) :
    (∃ i, s ≤ i ∧ Occurs text pat i ∧ (∀ j, s ≤ j → j < i → ¬ Occurs text pat j) ∧
        kmpScan text pat table fuel idx k = some (i + pat.length, (pat.length : Int))) ∨
    ((∀ i, s ≤ i → ¬ Occurs text pat i) ∧ ∃ o : Int, o ≠ pat.length ∧ kmpScan text pat table fuel idx k = some (text.length, o)) := by
  have done : k = pat.length → Occurs text pat (idx - pat.length) ∧ s ≤ idx - pat.length ∧ idx - pat.length + pat.length = idx := by
    intro e
    subst e
    have h1 := hk.2.1
    rw [List.take_length] at h1
    obtain ⟨u, hu⟩ := h1
    have hl := congrArg List.length hu
    simp only [List.length_append, List.length_take, List.length_drop] at hl
    refine ⟨?_, by omega, by omega⟩
    rw [occurs_iff]
    refine ⟨by omega, ?_⟩
    have e : text.drop (idx - pat.length) = (text.drop s).drop u.length := by
      rw [List.drop_drop]; congr 1; omega
    rw [e]
    have : (text.drop s) = u ++ pat ++ (text.drop s).drop (idx - s) := by rw [hu, List.take_append_drop]
    rw [this]; simp
  induction fuel generalizing idx k with
  | zero =>
    have : idx = text.length := by omega
    subst this
    by_cases e : k = pat.length
    · obtain ⟨d1, d2, d3⟩ := done e
      left
      refine ⟨_, d2, d1, ?_, ?_⟩
      · intro j h1 h2; exact hb j h1 (by omega)
      · simp only [kmpScan]; rw [d3, e]
    · right
      have hlt : k < pat.length := by have := hk.1; omega
      refine ⟨?_, k, by omega, rfl⟩
      intro i h1 h2
      exact hb2 hlt i h1 (occurs_iff.1 h2).1 h2
  | succ fuel ih =>
    simp only [kmpScan]
    by_cases e : k = pat.length
    · obtain ⟨d1, d2, d3⟩ := done e
      rw [if_neg (by omega)]
      left
      refine ⟨_, d2, d1, ?_, ?_⟩
      · intro j h1 h2; exact hb j h1 (by omega)
      · rw [d3, e]
    · have hlt : k < pat.length := by have := hk.1; omega
      by_cases hx : idx < text.length
      · rw [if_pos ⟨hx, by omega⟩]
        simp only [List.getElem?_eq_getElem hx, Option.bind_eq_bind, Option.bind_some]
        obtain ⟨o', g1, g2, g3, g4⟩ := fall_spec (x := (text.drop s).take (idx - s)) ht text[idx] (Nat.le_refl _) (pat.length + 2) k
          (by omega) (by omega) (by omega) (by omega) (by intro _; simpa using hk.2.1) (by
            intro j w1 w2 w3
            have := hk.2.2 j (by omega) w2
            omega)
        rw [g1]
        simp only [Option.bind_some]
        obtain ⟨k', hk'⟩ : ∃ k' : Nat, o' + 1 = k' := ⟨(o' + 1).toNat, by omega⟩
        rw [hk'] at g4 ⊢
        simp only [Int.toNat_natCast] at g4
        have ex : (text.drop s).take (idx + 1 - s) = (text.drop s).take (idx - s) ++ [text[idx]] := by
          rw [show idx + 1 - s = idx - s + 1 by omega, List.take_add_one, List.getElem?_drop]
          rw [show s + (idx - s) = idx by omega, List.getElem?_eq_getElem hx]; rfl
        rw [← ex] at g4
        have nb : ∀ i, s ≤ i → i + pat.length < idx + 1 → ¬ Occurs text pat i := fun i h1 h2 => hb2 hlt i h1 (by omega)
        have hb2' : k' < pat.length → ∀ i, s ≤ i → i + pat.length ≤ idx + 1 → ¬ Occurs text pat i := by
          intro hk2 i h1 h2 h3
          by_cases e3 : i + pat.length = idx + 1
          · have : pat.take pat.length <:+ (text.drop s).take (idx + 1 - s) := by
              rw [List.take_length]
              obtain ⟨u, v, rfl, rfl⟩ := h3
              refine ⟨u.drop s, ?_⟩
              rw [List.append_assoc, List.drop_append_of_le_length h1, ← List.append_assoc]
              rw [List.take_left']
              simp only [List.length_append, List.length_drop]; omega
            have := g4.2.2 _ (Nat.le_refl _) this
            omega
          · exact nb i h1 (by omega) h3
        refine ih (idx + 1) k' (by omega) (by omega) (by omega) g4 nb hb2' ?_
        intro e
        subst e
        have h1 := g4.2.1
        rw [List.take_length] at h1
        obtain ⟨u, hu⟩ := h1
        have hl := congrArg List.length hu
        simp only [List.length_append, List.length_take, List.length_drop] at hl
        refine ⟨?_, by omega, by omega⟩
        rw [occurs_iff]
        refine ⟨by omega, ?_⟩
        have e : text.drop (idx + 1 - pat.length) = (text.drop s).drop u.length := by
          rw [List.drop_drop]; congr 1; omega
        rw [e]
        have : (text.drop s) = u ++ pat ++ (text.drop s).drop (idx + 1 - s) := by rw [hu, List.take_append_drop]
        rw [this]; simp
      · rw [if_neg (by omega)]
        have : idx = text.length := by omega
        subst this
        right
        refine ⟨?_, k, by omega, rfl⟩
        intro i h1 h2
        exact hb2 hlt i h1 (occurs_iff.1 h2).1 h2

theorem scan_spec {text pat : Bytes} {table : List Int} (ht : TableOk pat table pat.length) (hp : pat ≠ []) (s : Nat) (hs : s ≤ text.length) :
    (∃ i, s ≤ i ∧ Occurs text pat i ∧ (∀ j, s ≤ j → j < i → ¬ Occurs text pat j) ∧
        kmpScan text pat table text.length s 0 = some (i + pat.length, (pat.length : Int))) ∨
    ((∀ i, s ≤ i → ¬ Occurs text pat i) ∧ ∃ o : Int, o ≠ pat.length ∧ kmpScan text pat table text.length s 0 = some (text.length, o)) := by
  have hl : 0 < pat.length := List.length_pos_iff.2 hp
  exact kmpScan_spec ht hp s text.length s 0 (Nat.le_refl _) hs (by omega)
    (by rw [Nat.sub_self, List.take_zero]; exact longest_nil pat)
    (by intro i h1 h2; omega) (by intro _ i h1 h2; omega)

/-- C38: `StrSearchKMP` returns the position of the first occurrence, or -1. -/
theorem C38_kmp (text pat : Bytes) : ∃ r, searchKMP text pat = some r ∧ First text pat r := by
  unfold searchKMP
  by_cases hp : pat = []
  · subst hp; exact ⟨0, rfl, first_nil text⟩
  · rw [if_neg (by simpa using hp)]
    obtain ⟨table, h1, h2⟩ := table_spec pat
    rw [h1]
    simp only [Option.bind_eq_bind, Option.bind_some]
    rcases scan_spec (text := text) h2 hp 0 (Nat.zero_le _) with ⟨i, g1, g2, g3, g4⟩ | ⟨g1, o, g2, g3⟩
    · have g4' : kmpScan text pat table text.length 0 0 = some (i + pat.length, (pat.length : Int)) := g4
      rw [g4']
      refine ⟨(i : Int), by simp, Or.inl ⟨i, rfl, g2, fun j hj => g3 j (Nat.zero_le _) hj⟩⟩
    · have g3' : kmpScan text pat table text.length 0 0 = some (text.length, o) := g3
      rw [g3']
      refine ⟨-1, by simp [g2], Or.inr ⟨rfl, fun i => g1 i (Nat.zero_le _)⟩⟩

/-! ### All occurrences -/

/-- The occurrences from position `s` on. -/
def occFrom (text pat : Bytes) (s : Nat) : List Nat := (List.range' s (text.length - s)).filter fun i => decide (Occurs text pat i)

theorem range'_filter_eq_nil {p : Nat → Bool} {s n : Nat} (h : ∀ i, s ≤ i → i < s + n → p i = false) : (List.range' s n).filter p = [] := by
  rw [List.filter_eq_nil_iff]
  intro i hi
  rw [List.mem_range'_1] at hi
  simp [h i hi.1 hi.2]

theorem occFrom_first {text pat : Bytes} {s i : Nat} (hs : s ≤ i) (hi : i < text.length) (ho : Occurs text pat i)
    (hb : ∀ j, s ≤ j → j < i → ¬ Occurs text pat j) : occFrom text pat s = i :: occFrom text pat (i + 1) := by
  unfold occFrom
  have e : List.range' s (text.length - s) = List.range' s (i - s) ++ (i :: List.range' (i + 1) (text.length - (i + 1))) := by
    rw [← List.range'_succ, show text.length - s = (i - s) + (text.length - (i + 1) + 1) by omega, ← List.range'_append]
    congr 2; omega
  rw [e, List.filter_append, range'_filter_eq_nil (fun j h1 h2 => by simpa using hb j h1 (by omega)), List.nil_append,
    List.filter_cons_of_pos (by simpa using ho)]

theorem occFrom_none {text pat : Bytes} {s : Nat} (hb : ∀ j, s ≤ j → ¬ Occurs text pat j) : occFrom text pat s = [] :=
  range'_filter_eq_nil fun i h1 _ => by simpa using hb i h1

theorem occFrom_end {text pat : Bytes} {s : Nat} (h : text.length ≤ s) : occFrom text pat s = [] := by
  unfold occFrom; rw [show text.length - s = 0 by omega]; rfl

theorem allOccurrences_eq (text pat : Bytes) (max : Nat) :
    allOccurrences text pat max = if max > 0 then (occFrom text pat 0).take max else occFrom text pat 0 := by
  unfold allOccurrences occFrom
  rw [Nat.sub_zero, List.range_eq_range']

theorem wholeEmpty_eq (text : Bytes) (max : Nat) : wholeEmpty text max = allOccurrences text [] max := by
  have : (List.range text.length).filter (fun i => decide (Occurs text [] i)) = List.range text.length := by
    apply List.filter_eq_self.2
    intro i hi
    have := List.mem_range.1 hi
    simpa using occurs_nil.2 (by omega)
  unfold wholeEmpty allOccurrences
  simp only [this]
  by_cases h : max > 0
  · rw [if_pos h, if_pos h, List.take_range]
  · rw [if_neg h, if_neg h]

theorem occurs_lt {text pat : Bytes} (hp : pat ≠ []) {i : Nat} (h : Occurs text pat i) : i < text.length := by
  have := (occurs_iff.1 h).1
  have : 0 < pat.length := List.length_pos_iff.2 hp
  omega

/-- The results so far and those still to come, cut at the maximum. -/
def fin (max : Nat) (l : List Nat) : List Nat := if max > 0 then l.take max else l

theorem fin_done {max : Nat} {acc : List Nat} (h : max > 0 ∧ acc.length ≥ max) (h2 : acc.length ≤ max) (l : List Nat) :
    fin max (acc ++ l) = acc := by
  unfold fin
  rw [if_pos h.1, List.take_append_of_le_length h.2, List.take_of_length_le h2]

theorem fin_all {max : Nat} {acc : List Nat} (h : max > 0 → acc.length < max) : fin max acc = acc := by
  unfold fin
  split
  · rename_i hm; exact List.take_of_length_le (Nat.le_of_lt (h hm))
  · rfl

theorem wholeKMPLoop_spec {text pat : Bytes} {table : List Int} (ht : TableOk pat table pat.length) (hp : pat ≠ []) (max : Nat)
    (fuel s : Nat) (acc : List Nat) (hs : s ≤ text.length) (hf : text.length + 1 < s + fuel) (ha : max > 0 → acc.length < max) :
    wholeKMPLoop text pat table max fuel s acc = some (fin max (acc ++ occFrom text pat s)) := by
  induction fuel generalizing s acc with
  | zero => omega
  | succ fuel ih =>
    simp only [wholeKMPLoop]
    by_cases hx : s < text.length
    · rw [if_pos hx]
      rcases scan_spec (text := text) ht hp s hs with ⟨i, g1, g2, g3, g4⟩ | ⟨g1, o, g2, g3⟩
      · rw [g4]
        simp only [Option.bind_eq_bind, Option.bind_some, if_true, Nat.add_sub_cancel]
        have hi := occurs_lt hp g2
        rw [occFrom_first g1 hi g2 g3]
        by_cases hm : max > 0 ∧ (acc ++ [i]).length ≥ max
        · rw [if_pos hm, show acc ++ i :: occFrom text pat (i + 1) = (acc ++ [i]) ++ occFrom text pat (i + 1) by simp, fin_done hm]
          have := ha hm.1
          simp only [List.length_append, List.length_singleton]; omega
        · rw [if_neg hm, ih (i + 1) _ (by omega) (by omega) (by intro h; simp only [List.length_append, List.length_singleton] at hm ⊢; omega)]
          simp
      · rw [g3]
        simp only [Option.bind_eq_bind, Option.bind_some]
        rw [if_neg g2, occFrom_none g1, List.append_nil, fin_all ha]
        cases fuel with
        | zero => omega
        | succ fuel => simp [wholeKMPLoop]
    · rw [if_neg hx, occFrom_end (by omega), List.append_nil, fin_all ha]

/-- C38: `StrSearchWholeKMP` returns the positions of all occurrences, overlapping ones too, in order and up to the maximum. -/
theorem C38_whole_kmp (text pat : Bytes) (max : Nat) : wholeKMP text pat max = some (allOccurrences text pat max) := by
  unfold wholeKMP
  by_cases hp : pat = []
  · subst hp; simp only [List.isEmpty_nil, if_true]; rw [wholeEmpty_eq]
  · rw [if_neg (by simpa using hp)]
    obtain ⟨table, h1, h2⟩ := table_spec pat
    rw [h1]
    simp only [Option.bind_eq_bind, Option.bind_some]
    rw [wholeKMPLoop_spec h2 hp max _ 0 [] (Nat.zero_le _) (by omega) (by intro h; simpa using h), allOccurrences_eq]
    rfl

/-- `abab` in `aababab`. -/
example : searchKMP [97, 97, 98, 97, 98, 97, 98] [97, 98, 97, 98] = some 1 ∧
    wholeKMP [97, 97, 98, 97, 98, 97, 98] [97, 98, 97, 98] 0 = some [1, 3] ∧
    searchKMP [97, 98] [98, 97] = some (-1) := by decide +kernel

end Verif.Search
