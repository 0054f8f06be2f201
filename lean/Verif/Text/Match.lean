import Verif.Text.SearchProps
import Verif.Text.Comparators
/-
The matchers of `Search` (tkrzw_str_util.cc): whether a text contains, begins or ends with a pattern, with or without regard to case and words.
-/
namespace Verif.Text
open Verif Verif.Search Verif.Cmp 

/-! ### SPECIFICATION -/

/-- A letter or a digit of ASCII. -/
def isAlnum (c : UInt8) : Prop := (48 ≤ c.toNat ∧ c.toNat ≤ 57) ∨ (65 ≤ c.toNat ∧ c.toNat ≤ 90) ∨ (97 ≤ c.toNat ∧ c.toNat ≤ 122)

/-- No word goes on across the place before byte `i`. -/
def Boundary (text : Bytes) (i : Nat) : Prop :=
  ∀ a b, 0 < i → text[i - 1]? = some a → text[i]? = some b → ¬ (isAlnum a ∧ isAlnum b)

/-- The pattern is at `i` and cuts no word. -/
def WordOccurs (text pat : Bytes) (i : Nat) : Prop := Occurs text pat i ∧ Boundary text i ∧ Boundary text (i + pat.length)

/-- The capital letters of ASCII replaced by small ones. -/
def lowered (s : Bytes) : Bytes := s.map fun c => if 65 ≤ c.toNat ∧ c.toNat ≤ 90 then UInt8.ofNat (c.toNat + 32) else c

/-- `r` is the least number with the property, `none` if there is none. -/
def IsFirst (P : Nat → Prop) : Option Nat → Prop
  | some i => P i ∧ ∀ j, j < i → ¬ P j
  | none => ∀ i, ¬ P i

/-! ### Model -/

/-- `tkrzw_memmem` (tkrzw_str_util.cc 40-64), the version without the C library; the inner loop is a comparison of the bytes. The version of the C
library is specified to give the same. -/
def memmemLoop (text pat : Bytes) : (fuel i : Nat) → Option Nat
  | 0, _ => none
  | fuel + 1, i => if window text pat i then some i else memmemLoop text pat fuel (i + 1)

/-- `tkrzw_memmem` (tkrzw_str_util.cc 40-64). -/
def memmem (text pat : Bytes) : Option Nat :=
  if pat.length > text.length then none else memmemLoop text pat (text.length - pat.length + 1) 0

/-- `tkrzw_isalnum` (tkrzw_str_util.cc 68-70); no byte above 127 is one, signed or not. -/
def alnum (c : UInt8) : Bool := (48 ≤ c && c ≤ 57) || (97 ≤ c && c ≤ 122) || (65 ≤ c && c ≤ 90)

/-- `StrContains` (tkrzw_str_util.cc 709-711). -/
def contains (text pat : Bytes) : Bool := (memmem text pat).isSome

/-- `StrBeginsWith` (tkrzw_str_util.cc 817-822). -/
def beginsWith (text pat : Bytes) : Bool := if pat.length > text.length then false else text.take pat.length == pat

/-- `StrEndsWith` (tkrzw_str_util.cc 824-830). -/
def endsWith (text pat : Bytes) : Bool := if pat.length > text.length then false else text.drop (text.length - pat.length) == pat

/-- Are the bytes at `ti` those of the buffer, in lower case (tkrzw_str_util.cc 1336-1345, 1408-1417)? -/
def caseWindow (text buffer : Bytes) (ti : Nat) : Bool := ((text.drop ti).take buffer.length).map lower == buffer

/-- The loop of `StrCaseSearch` (tkrzw_str_util.cc 1334-1350). -/
def caseLoopSearch (text buffer : Bytes) : (fuel ti : Nat) → Option Nat
  | 0, _ => none
  | fuel + 1, ti => if caseWindow text buffer ti then some ti else caseLoopSearch text buffer fuel (ti + 1)

/-- `StrCaseSearch` (tkrzw_str_util.cc 1313-1355). -1 is `none`; that the result is stored in 32 bits is left out. -/
def caseSearch (text pat : Bytes) : Option Nat :=
  if pat.length > text.length then none
  else if pat.isEmpty then some 0
  else caseLoopSearch text (pat.map lower) (text.length - pat.length + 1) 0

/-- Do two bytes next to each other belong to a word? A byte outside of the text is not read by the code. -/
def joined (text : Bytes) (i : Nat) : Bool := alnum (text.getD (i - 1) 0) && alnum (text.getD i 0)

/-- Is a place found to be passed over (tkrzw_str_util.cc 1369-1379, 1419-1425)? -/
def cutsWord (text : Bytes) (i n : Nat) : Bool := (i ≠ 0 && joined text i) || (i + n ≠ text.length && joined text (i + n))

/-- The loop of `StrWordSearch` (tkrzw_str_util.cc 1366-1382) with the offset of `rp`. -/
def wordLoop (text pat : Bytes) : (fuel rp : Nat) → Option Nat
  | 0, _ => none
  | fuel + 1, rp =>
    if text.length - rp > 0 then
      match memmem (text.drop rp) pat with
      | none => none
      | some d => if cutsWord text (rp + d) pat.length then wordLoop text pat fuel (rp + d + 1) else some (rp + d)
    else none

/-- `StrWordSearch` (tkrzw_str_util.cc 1357-1384). -/
def wordSearch (text pat : Bytes) : Option Nat :=
  if pat.length > text.length then none
  else if pat.isEmpty then some 0
  else wordLoop text pat (text.length + 1) 0

/-- The loop of `StrCaseWordSearch` (tkrzw_str_util.cc 1406-1430). -/
def caseWordLoop (text buffer : Bytes) : (fuel ti : Nat) → Option Nat
  | 0, _ => none
  | fuel + 1, ti =>
    if caseWindow text buffer ti && !cutsWord text ti buffer.length then some ti else caseWordLoop text buffer fuel (ti + 1)

/-- `StrCaseWordSearch` (tkrzw_str_util.cc 1386-1435). -/
def caseWordSearch (text pat : Bytes) : Option Nat :=
  if pat.length > text.length then none
  else if pat.isEmpty then some 0
  else caseWordLoop text (pat.map lower) (text.length - pat.length + 1) 0

/-- `StrCaseContains` (tkrzw_str_util.cc 713-715). -/
def caseContains (text pat : Bytes) : Bool := (caseSearch text pat).isSome

/-- `StrWordContains` (tkrzw_str_util.cc 717-719). -/
def wordContains (text pat : Bytes) : Bool := (wordSearch text pat).isSome

/-- `StrCaseWordContains` (tkrzw_str_util.cc 721-723). -/
def caseWordContains (text pat : Bytes) : Bool := (caseWordSearch text pat).isSome

/-- `StrContainsBatch` (tkrzw_str_util.cc 725-732). -/
def containsBatch (text : Bytes) (pats : List Bytes) : Bool := pats.any fun p => (memmem text p).isSome

/-- `StrCaseContainsBatch` (tkrzw_str_util.cc 734-741). -/
def caseContainsBatch (text : Bytes) (pats : List Bytes) : Bool := pats.any fun p => (caseSearch text p).isSome

/-- `StrWordContainsBatch` (tkrzw_str_util.cc 743-750). -/
def wordContainsBatch (text : Bytes) (pats : List Bytes) : Bool := pats.any fun p => (wordSearch text p).isSome

/-- `StrCaseWordContainsBatch` (tkrzw_str_util.cc 752-759). -/
def caseWordContainsBatch (text : Bytes) (pats : List Bytes) : Bool := pats.any fun p => (caseWordSearch text p).isSome

/-- `StrCaseWordContainsBatchLower` (tkrzw_str_util.cc 761-815): the text is copied in lower case; the patterns must be in lower case. -/
def caseWordContainsBatchLower (text : Bytes) (pats : List Bytes) : Bool :=
  pats.any fun p => p.isEmpty || (wordLoop (text.map lower) p (text.length + 1) 0).isSome

/-- `StrLowerCase` (tkrzw_str_util.cc 638-648). -/
def lowerCase (s : Bytes) : Bytes := s.map lower

/-! ### Lemmas -/

theorem lower_eq (c : UInt8) : lower c = if 65 ≤ c.toNat ∧ c.toNat ≤ 90 then UInt8.ofNat (c.toNat + 32) else c := by
  unfold lower
  have h1 : (65 ≤ c) ↔ 65 ≤ c.toNat := UInt8.le_iff_toNat_le
  have h2 : (c ≤ 90) ↔ c.toNat ≤ 90 := UInt8.le_iff_toNat_le
  by_cases h : 65 ≤ c.toNat ∧ c.toNat ≤ 90
  · rw [if_pos ⟨h1.2 h.1, h2.2 h.2⟩, if_pos h]
    apply UInt8.toNat_inj.1
    rw [UInt8.toNat_add, UInt8.toNat_ofNat']
    rfl
  · rw [if_neg h, if_neg fun g => h ⟨h1.1 g.1, h2.1 g.2⟩]

theorem map_lower (s : Bytes) : s.map lower = lowered s := by
  unfold lowered
  congr 1

theorem alnum_iff (c : UInt8) : alnum c = true ↔ isAlnum c := by
  unfold alnum isAlnum
  simp only [Bool.or_eq_true, Bool.and_eq_true, decide_eq_true_eq, UInt8.le_iff_toNat_le]
  have e1 : (48 : UInt8).toNat = 48 := rfl
  have e2 : (57 : UInt8).toNat = 57 := rfl
  have e3 : (97 : UInt8).toNat = 97 := rfl
  have e4 : (122 : UInt8).toNat = 122 := rfl
  have e5 : (65 : UInt8).toNat = 65 := rfl
  have e6 : (90 : UInt8).toNat = 90 := rfl
  omega

theorem alnum_lower (c : UInt8) : alnum (lower c) = alnum c := by
  rw [Bool.eq_iff_iff, alnum_iff, alnum_iff, lower_eq]
  unfold isAlnum
  split
  · rw [UInt8.toNat_ofNat', Nat.mod_eq_of_lt (by omega)]
    omega
  · exact Iff.rfl

theorem window_iff {text pat : Bytes} {i : Nat} (h : pat.length ≤ text.length) (hi : i ≤ text.length - pat.length) : window text pat i = true ↔ Occurs text pat i := by
  unfold window
  rw [beq_iff_eq]
  constructor
  · intro e
    exact ⟨text.take i, text.drop (i + pat.length), by
      conv => lhs; rw [← List.take_append_drop i text, ← List.take_append_drop pat.length (text.drop i), e, List.drop_drop]
      rw [List.append_assoc], by rw [List.length_take]; omega⟩
  · rintro ⟨u, v, e, hu⟩
    rw [e, List.append_assoc, List.drop_left' hu, List.take_left' rfl]

theorem occurs_le {text pat : Bytes} {i : Nat} (h : Occurs text pat i) : i + pat.length ≤ text.length := by
  obtain ⟨u, v, rfl, rfl⟩ := h
  simp only [List.length_append]
  omega

/-- A loop that tests the places one after the other. -/
def scan (t : Nat → Bool) : (fuel i : Nat) → Option Nat
  | 0, _ => none
  | fuel + 1, i => if t i then some i else scan t fuel (i + 1)

theorem scan_first {t : Nat → Bool} {P : Nat → Prop} : ∀ (fuel i : Nat), (∀ j, i ≤ j → j < i + fuel → (t j = true ↔ P j)) → (∀ j, j < i → ¬ P j) →
    (∀ j, i + fuel ≤ j → ¬ P j) → IsFirst P (scan t fuel i)
  | 0, i, _, h2, h3 => by
    rw [scan]
    intro j
    by_cases h : j < i
    · exact h2 j h
    · exact h3 j (by omega)
  | fuel + 1, i, h1, h2, h3 => by
    rw [scan]
    split
    · rename_i h
      exact ⟨(h1 i (Nat.le_refl _) (by omega)).1 h, h2⟩
    · rename_i h
      refine scan_first fuel (i + 1) (fun j ha hb => h1 j (by omega) (by omega)) (fun j hj => ?_) (fun j hj => h3 j (by omega))
      by_cases hji : j = i
      · subst hji
        exact fun hp => h ((h1 j (Nat.le_refl _) (by omega)).2 hp)
      · exact h2 j (by omega)

theorem memmemLoop_scan (text pat : Bytes) : ∀ (fuel i : Nat), memmemLoop text pat fuel i = scan (window text pat) fuel i
  | 0, _ => rfl
  | fuel + 1, i => by rw [memmemLoop, scan, memmemLoop_scan text pat fuel]

/-- The first place of a pattern in a text. -/
theorem memmem_first (text pat : Bytes) : IsFirst (Occurs text pat) (memmem text pat) := by
  unfold memmem
  split
  · intro i h
    have := occurs_le h
    omega
  · rw [memmemLoop_scan]
    refine scan_first _ 0 (fun j _ hj => window_iff (by omega) (by omega)) (fun j hj => by omega) (fun j hj h => ?_)
    have := occurs_le h
    omega

theorem IsFirst.isSome {P : Nat → Prop} : ∀ {r : Option Nat}, IsFirst P r → (r.isSome = true ↔ ∃ i, P i)
  | some i, h => by simpa using ⟨i, h.1⟩
  | none, h => by simp only [Option.isSome_none, Bool.false_eq_true, false_iff, not_exists]; exact h

theorem IsFirst.congr {P Q : Nat → Prop} (h : ∀ i, P i ↔ Q i) : ∀ {r : Option Nat}, IsFirst P r → IsFirst Q r
  | some i, g => ⟨(h i).1 g.1, fun j hj hq => g.2 j hj ((h j).2 hq)⟩
  | none, g => fun i hq => g i ((h i).2 hq)

theorem caseWindow_window (text pat : Bytes) (i : Nat) : caseWindow text (pat.map lower) i = window (text.map lower) (pat.map lower) i := by
  unfold caseWindow window
  rw [List.map_take, List.map_drop]

theorem caseLoopSearch_scan (text b : Bytes) : ∀ (fuel i : Nat), caseLoopSearch text b fuel i = scan (caseWindow text b) fuel i
  | 0, _ => rfl
  | fuel + 1, i => by rw [caseLoopSearch, scan, caseLoopSearch_scan text b fuel]

theorem caseWordLoop_scan (text b : Bytes) : ∀ (fuel i : Nat), caseWordLoop text b fuel i = scan (fun i => caseWindow text b i && !cutsWord text i b.length) fuel i
  | 0, _ => rfl
  | fuel + 1, i => by rw [caseWordLoop, scan, caseWordLoop_scan text b fuel]

theorem caseWindow_iff {text pat : Bytes} {i : Nat} (h : pat.length ≤ text.length) (hi : i ≤ text.length - pat.length) :
    caseWindow text (pat.map lower) i = true ↔ Occurs (lowered text) (lowered pat) i := by
  rw [caseWindow_window, window_iff (by simpa using h) (by simpa using hi), map_lower, map_lower]

theorem lowered_length (s : Bytes) : (lowered s).length = s.length := List.length_map _

theorem joined_iff {text : Bytes} {i : Nat} (h0 : 0 < i) (hi : i < text.length) : joined text i = true ↔ ¬ Boundary text i := by
  unfold joined Boundary
  rw [Bool.and_eq_true, alnum_iff, alnum_iff, List.getD_eq_getElem?_getD, List.getD_eq_getElem?_getD, List.getElem?_eq_getElem (by omega), List.getElem?_eq_getElem hi]
  simp only [Option.getD_some, Option.some.injEq]
  constructor
  · intro h hn
    exact hn _ _ h0 rfl rfl h
  · intro h
    refine Classical.byContradiction fun g => h ?_
    rintro a b _ rfl rfl
    exact g

theorem boundary_zero (text : Bytes) : Boundary text 0 := fun _ _ h => absurd h (by decide)

theorem boundary_end (text : Bytes) : Boundary text text.length := by
  intro a b _ _ h
  rw [List.getElem?_eq_none (Nat.le_refl _)] at h
  cases h

theorem cutsWord_iff {text : Bytes} {i n : Nat} (hn : 0 < n) (h : i + n ≤ text.length) : cutsWord text i n = true ↔ ¬ (Boundary text i ∧ Boundary text (i + n)) := by
  unfold cutsWord
  simp only [Bool.or_eq_true, Bool.and_eq_true, decide_eq_true_eq, ne_eq, bne_iff_ne]
  constructor
  · rintro (⟨h1, h2⟩ | ⟨h1, h2⟩) ⟨g1, g2⟩
    · exact (joined_iff (by omega) (by omega)).1 h2 g1
    · exact (joined_iff (by omega) (by omega)).1 h2 g2
  · intro g
    by_cases g1 : Boundary text i
    · right
      have g2 : ¬ Boundary text (i + n) := fun g2 => g ⟨g1, g2⟩
      have hne : i + n ≠ text.length := fun e => g2 (by rw [e]; exact boundary_end text)
      exact ⟨hne, (joined_iff (by omega) (by omega)).2 g2⟩
    · left
      have hne : i ≠ 0 := fun e => g1 (by rw [e]; exact boundary_zero text)
      exact ⟨hne, (joined_iff (by omega) (by omega)).2 g1⟩

theorem occurs_drop {text pat : Bytes} {k i : Nat} (hk : k ≤ text.length) : Occurs (text.drop k) pat i ↔ Occurs text pat (k + i) := by
  constructor
  · rintro ⟨u, v, e, hu⟩
    exact ⟨text.take k ++ u, v, by
      conv => lhs; rw [← List.take_append_drop k text, e]
      simp only [List.append_assoc], by rw [List.length_append, List.length_take, hu]; omega⟩
  · rintro ⟨u, v, e, hu⟩
    refine ⟨u.drop k, v, ?_, by rw [List.length_drop, hu]; omega⟩
    rw [e, List.append_assoc, List.drop_append_of_le_length (by omega), List.append_assoc]

theorem wordLoop_first {text pat : Bytes} (hp : 0 < pat.length) : ∀ (fuel rp : Nat), text.length + 1 ≤ rp + fuel → (∀ j, j < rp → ¬ WordOccurs text pat j) →
    IsFirst (WordOccurs text pat) (wordLoop text pat fuel rp)
  | 0, rp, hf, h => by
    rw [wordLoop]
    intro i hi
    have := occurs_le hi.1
    exact h i (by omega) hi
  | fuel + 1, rp, hf, h => by
    rw [wordLoop]
    split
    · rename_i hs
      have hm := memmem_first (text.drop rp) pat
      split
      · rename_i e
        rw [e] at hm
        intro i hi
        by_cases hir : i < rp
        · exact h i hir hi
        · refine hm (i - rp) ((occurs_drop (by omega)).2 ?_)
          rw [show rp + (i - rp) = i by omega]
          exact hi.1
      · rename_i d e
        rw [e] at hm
        have hocc : Occurs text pat (rp + d) := (occurs_drop (by omega)).1 hm.1
        have hle := occurs_le hocc
        have hbefore : ∀ j, j < rp + d → ¬ WordOccurs text pat j := by
          intro j hj hw
          by_cases hir : j < rp
          · exact h j hir hw
          · refine hm.2 (j - rp) (by omega) ((occurs_drop (by omega)).2 ?_)
            rw [show rp + (j - rp) = j by omega]
            exact hw.1
        split
        · rename_i hc
          refine wordLoop_first hp fuel _ (by omega) fun j hj => ?_
          by_cases hjd : j = rp + d
          · subst hjd
            exact fun hw => (cutsWord_iff hp hle).1 hc hw.2
          · exact hbefore j (by omega)
        · rename_i hc
          refine ⟨⟨hocc, ?_⟩, hbefore⟩
          exact Classical.byContradiction fun g => hc ((cutsWord_iff hp hle).2 g)
    · intro i hi
      have := occurs_le hi.1
      exact h i (by omega) hi

/-! ### Theorems -/

/-- C56: `StrContains` tells whether the pattern is somewhere in the text. -/
theorem C56_contains (text pat : Bytes) : contains text pat = true ↔ ∃ i, Occurs text pat i := (memmem_first text pat).isSome

/-- C56: `StrBeginsWith` tells whether the text begins with the pattern. -/
theorem C56_begins_with (text pat : Bytes) : beginsWith text pat = true ↔ ∃ rest, text = pat ++ rest := by
  unfold beginsWith
  split
  · simp only [Bool.false_eq_true, false_iff, not_exists]
    rintro rest rfl
    simp only [List.length_append] at *
    omega
  · rw [beq_iff_eq]
    constructor
    · intro h
      exact ⟨text.drop pat.length, by conv => lhs; rw [← List.take_append_drop pat.length text, h]⟩
    · rintro ⟨rest, rfl⟩
      exact List.take_left' rfl

/-- C56: `StrEndsWith` tells whether the text ends with the pattern. -/
theorem C56_ends_with (text pat : Bytes) : endsWith text pat = true ↔ ∃ rest, text = rest ++ pat := by
  unfold endsWith
  split
  · simp only [Bool.false_eq_true, false_iff, not_exists]
    rintro rest rfl
    simp only [List.length_append] at *
    omega
  · rw [beq_iff_eq]
    constructor
    · intro h
      exact ⟨text.take (text.length - pat.length), by conv => lhs; rw [← List.take_append_drop (text.length - pat.length) text, h]⟩
    · rintro ⟨rest, rfl⟩
      exact List.drop_left' (by rw [List.length_append]; omega)

/-- C56: `StrCaseSearch` gives the first place of the pattern regardless of the case of letters. -/
theorem C56_case_search (text pat : Bytes) : IsFirst (Occurs (lowered text) (lowered pat)) (caseSearch text pat) := by
  unfold caseSearch
  split
  · intro i h
    have := occurs_le h
    rw [lowered_length, lowered_length] at this
    omega
  · split
    · rename_i hp
      rw [List.isEmpty_iff.1 hp]
      exact ⟨⟨[], lowered text, rfl, rfl⟩, fun j hj => by omega⟩
    · rw [caseLoopSearch_scan]
      refine scan_first _ 0 (fun j _ hj => caseWindow_iff (by omega) (by omega)) (fun j hj => by omega) (fun j hj h => ?_)
      have := occurs_le h
      rw [lowered_length, lowered_length] at this
      omega

/-- C56: `StrWordSearch` gives the first place of the pattern where it cuts no word; an empty pattern is at the beginning. -/
theorem C56_word_search (text pat : Bytes) (hp : pat ≠ []) : IsFirst (WordOccurs text pat) (wordSearch text pat) := by
  have hp' : 0 < pat.length := List.length_pos_iff.2 hp
  unfold wordSearch
  split
  · intro i h
    have := occurs_le h.1
    omega
  · rw [if_neg (by simpa using hp)]
    exact wordLoop_first hp' _ 0 (by omega) (fun j hj => by omega)

theorem boundary_lowered (text : Bytes) (i : Nat) : Boundary (lowered text) i ↔ Boundary text i := by
  have ha : ∀ c, isAlnum (lower c) ↔ isAlnum c := fun c => by rw [← alnum_iff, ← alnum_iff, alnum_lower]
  unfold Boundary
  rw [← map_lower]
  simp only [List.getElem?_map, Option.map_eq_some_iff]
  constructor
  · intro h a b h0 h1 h2
    have := h _ _ h0 ⟨a, h1, rfl⟩ ⟨b, h2, rfl⟩
    rwa [ha, ha] at this
  · rintro h _ _ h0 ⟨a, h1, rfl⟩ ⟨b, h2, rfl⟩
    rw [ha, ha]
    exact h a b h0 h1 h2

/-- C56: `StrCaseWordSearch` gives the first place where the pattern is, regardless of case, and cuts no word. -/
theorem C56_case_word_search (text pat : Bytes) (hp : pat ≠ []) : IsFirst (WordOccurs (lowered text) (lowered pat)) (caseWordSearch text pat) := by
  have hp' : 0 < pat.length := List.length_pos_iff.2 hp
  unfold caseWordSearch
  split
  · intro i h
    have := occurs_le h.1
    rw [lowered_length, lowered_length] at this
    omega
  · rw [if_neg (by simpa using hp), caseWordLoop_scan]
    refine scan_first _ 0 (fun j _ hj => ?_) (fun j hj => by omega) (fun j hj h => ?_)
    · rw [Bool.and_eq_true, caseWindow_iff (by omega) (by omega), List.length_map, Bool.not_eq_true', ← Bool.not_eq_true,
        cutsWord_iff hp' (by omega), Classical.not_not]
      unfold WordOccurs
      rw [boundary_lowered, boundary_lowered, lowered_length]
    · have := occurs_le h.1
      rw [lowered_length, lowered_length] at this
      omega

/-- C56: an empty pattern is in every text. -/
theorem C56_empty_pattern (text : Bytes) : contains text [] = true ∧ caseSearch text [] = some 0 ∧ wordSearch text [] = some 0 ∧ caseWordSearch text [] = some 0 := by
  refine ⟨(C56_contains text []).2 ⟨0, [], text, rfl, rfl⟩, ?_, ?_, ?_⟩
  · simp [caseSearch]
  · simp [wordSearch]
  · simp [caseWordSearch]

/-- C56: a batch matches when one of its patterns does. -/
theorem C56_batch (text : Bytes) (pats : List Bytes) :
    (containsBatch text pats = true ↔ ∃ p ∈ pats, contains text p = true) ∧
    (caseContainsBatch text pats = true ↔ ∃ p ∈ pats, caseContains text p = true) ∧
    (wordContainsBatch text pats = true ↔ ∃ p ∈ pats, wordContains text p = true) ∧
    (caseWordContainsBatch text pats = true ↔ ∃ p ∈ pats, caseWordContains text p = true) :=
  ⟨List.any_eq_true, List.any_eq_true, List.any_eq_true, List.any_eq_true⟩

/-- C56: `StrCaseWordContainsBatchLower` gives for the patterns in lower case what `StrCaseWordContainsBatch` gives for them. -/
theorem C56_batch_lower (text : Bytes) (pats : List Bytes) : caseWordContainsBatchLower text (pats.map lowerCase) = caseWordContainsBatch text pats := by
  unfold caseWordContainsBatchLower caseWordContainsBatch
  rw [List.any_map]
  congr 1
  funext p
  simp only [Function.comp, lowerCase]
  by_cases hp : p = []
  · subst hp
    rw [(C56_empty_pattern text).2.2.2]
    rfl
  · have h1 := C56_case_word_search text p hp
    have hpl : 0 < (p.map lower).length := by rw [List.length_map]; exact List.length_pos_iff.2 hp
    have h2 := wordLoop_first (text := text.map lower) hpl (text.length + 1) 0 (by rw [List.length_map]; omega) (fun j hj => by omega)
    rw [map_lower, map_lower] at h2 ⊢
    have he : (lowered p).isEmpty = false := by
      rw [List.isEmpty_eq_false_iff, Ne, ← List.length_eq_zero_iff, lowered_length, List.length_eq_zero_iff]
      exact hp
    rw [he, Bool.false_or, Bool.eq_iff_iff, h1.isSome, h2.isSome]

/-! ### Examples: "ab Abc" -/

example : wordSearch [97, 98, 99, 32, 97, 98] [97, 98] = some 4 := by decide
example : caseWordSearch [97, 98, 99, 32, 65, 98] [97, 66] = some 4 := by decide
example : caseSearch [97, 98, 99, 32, 65, 98] [98, 67] = some 1 := by decide
example : contains [1, 2, 3] [2, 3] = true ∧ contains [1, 2, 3] [3, 2] = false ∧ beginsWith [1, 2] [1] = true ∧ endsWith [1, 2] [1] = false := by decide
example : caseWordContainsBatchLower [65, 66, 99, 32, 65, 98] [[99], [97, 98]] = true := by decide

end Verif.Text
