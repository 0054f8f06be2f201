import Verif.Prelude.Bytes
import Verif.Text.Search
/-
Editing of strings (tkrzw_str_util.cc 660-708, 1437-1516): the model and the specification of C68.
-/
namespace Verif.Edit
open Verif.Search

/-! ### SPECIFICATION -/

/-- SPECIFICATION: the result of replacing the occurrences of a pattern, from left to right and without overlap. -/
inductive Replaced (pat after : Bytes) : Bytes → Bytes → Prop
  | done (s : Bytes) (h : ∀ i, ¬ Occurs s pat i) : Replaced pat after s s
  | step (u v r : Bytes) (h : ∀ i, i < u.length → ¬ Occurs (u ++ pat ++ v) pat i) (hr : Replaced pat after v r) :
      Replaced pat after (u ++ pat ++ v) (u ++ after ++ r)

/-- SPECIFICATION: white space and control characters. -/
def IsSpace (c : UInt8) : Prop := c ≤ 32

instance (c : UInt8) : Decidable (IsSpace c) := by unfold IsSpace; infer_instance

/-- SPECIFICATION: CR and LF. -/
def IsBreak (c : UInt8) : Prop := c = 13 ∨ c = 10

/-- SPECIFICATION: `r` is the string without the white space at both ends. -/
def Stripped (s r : Bytes) : Prop :=
  ∃ a b, s = a ++ r ++ b ∧ (∀ c ∈ a, IsSpace c) ∧ (∀ c ∈ b, IsSpace c) ∧ (∀ c, r.head? = some c → ¬ IsSpace c) ∧ (∀ c, r.getLast? = some c → ¬ IsSpace c)

/-- SPECIFICATION: a series of words with one character of white space, the first one of each gap, in between. -/
inductive Squeezed : Bytes → Bytes → Prop
  | blank (s : Bytes) (h : ∀ c ∈ s, IsSpace c) : Squeezed s []
  | last (a w b : Bytes) (ha : ∀ c ∈ a, IsSpace c) (hw : w ≠ []) (hn : ∀ c ∈ w, ¬ IsSpace c) (hb : ∀ c ∈ b, IsSpace c) : Squeezed (a ++ w ++ b) w
  | more (a w : Bytes) (c : UInt8) (b s r : Bytes) (ha : ∀ c ∈ a, IsSpace c) (hw : w ≠ []) (hn : ∀ c ∈ w, ¬ IsSpace c) (hc : IsSpace c)
      (hb : ∀ c ∈ b, IsSpace c) (hs : r ≠ []) (h : Squeezed s r) : Squeezed (a ++ w ++ (c :: b) ++ s) (w ++ (c :: r))

/-! ### Model -/

/-- The inner loop of `StrReplace` (tkrzw_str_util.cc 671-676). -/
def matchAt (str before : Bytes) (i : Nat) : (fuel j : Nat) → Bool
  | 0, _ => true
  | fuel + 1, j => if j < before.length then if str[i + j]? ≠ before[j]? then false else matchAt str before i fuel (j + 1) else true

/-- The loop of `StrReplace` (tkrzw_str_util.cc 669-684); the index and the result so far. -/
def replaceLoop (str before after : Bytes) (fin : Nat) : (fuel i : Nat) → Bytes → Nat × Bytes
  | 0, i, acc => (i, acc)
  | fuel + 1, i, acc =>
    if i < fin then
      if matchAt str before i before.length 0 then replaceLoop str before after fin fuel (i + before.length) (acc ++ after)
      else replaceLoop str before after fin fuel (i + 1) (acc ++ (str[i]?).toList)
    else (i, acc)

/-- The rest of the string (tkrzw_str_util.cc 685-687). -/
def replaceRest (str : Bytes) (x : Nat × Bytes) : Bytes := if x.1 < str.length then x.2 ++ str.drop x.1 else x.2

/-- `StrReplace` (tkrzw_str_util.cc 660-688). -/
def strReplace (str before after : Bytes) : Bytes :=
  if before.length > str.length ∨ before.isEmpty then str
  else replaceRest str (replaceLoop str before after (str.length - before.length + 1) (str.length + 1) 0 [])

/-- The search for the character (tkrzw_str_util.cc 694-700); `none` is npos. -/
def charIndex (before : Bytes) (c : UInt8) : (fuel i : Nat) → Option Nat
  | 0, _ => none
  | fuel + 1, i => if i < before.length then if before[i]? = some c then some i else charIndex before c fuel (i + 1) else none

/-- The loop of `StrReplaceCharacters` (tkrzw_str_util.cc 692-706), in place. -/
def replaceCharsLoop (before after : Bytes) : (fuel inp out : Nat) → Bytes → Nat × Bytes
  | 0, _, out, str => (out, str)
  | fuel + 1, inp, out, str =>
    match str[inp]? with
    | none => (out, str)
    | some c =>
      match charIndex before c before.length 0 with
      | none => replaceCharsLoop before after fuel (inp + 1) (out + 1) (str.set out c)
      | some m =>
        match after[m]? with
        | some a => replaceCharsLoop before after fuel (inp + 1) (out + 1) (str.set out a)
        | none => replaceCharsLoop before after fuel (inp + 1) out str

/-- `StrReplaceCharacters` (tkrzw_str_util.cc 690-708). -/
def strReplaceCharacters (str before after : Bytes) : Bytes :=
  let x := replaceCharsLoop before after str.length 0 0 str
  x.2.take x.1

/-- The loop of `StrStripSpace` (tkrzw_str_util.cc 1441-1453): `converted` and `content_size`. -/
def stripLoop : Bytes → Bytes × Nat → Bytes × Nat
  | [], x => x
  | c :: s, (conv, n) =>
    if c ≤ 32 then if conv.isEmpty then stripLoop s (conv, n) else stripLoop s (conv ++ [c], n)
    else stripLoop s (conv ++ [c], (conv ++ [c]).length)

/-- `StrStripSpace` (tkrzw_str_util.cc 1437-1456). -/
def strStripSpace (s : Bytes) : Bytes :=
  let x := stripLoop s ([], 0)
  x.1.take x.2

/-- `StrStripLine` (tkrzw_str_util.cc 1457-1478): the loop over the size, in both forms. -/
def stripLineLoop (s : Bytes) : Nat → Nat
  | 0 => 0
  | n + 1 => if s[n]? ≠ some 13 ∧ s[n]? ≠ some 10 then n + 1 else stripLineLoop s n

/-- `StrStripLine` (tkrzw_str_util.cc 1457-1467). -/
def strStripLine (s : Bytes) : Bytes := s.take (stripLineLoop s s.length)

/-- The loop of `StrSqueezeAndStripSpace` (tkrzw_str_util.cc 1485-1498): `converted`, `content_size` and `last_is_space`. -/
def squeezeLoop : Bytes → Bytes × Nat × Bool → Bytes × Nat × Bool
  | [], x => x
  | c :: s, (conv, n, sp) =>
    if c ≤ 32 then if sp then squeezeLoop s (conv, n, sp) else squeezeLoop s (conv ++ [c], n, true)
    else squeezeLoop s (conv ++ [c], (conv ++ [c]).length, false)

/-- `StrSqueezeAndStripSpace` (tkrzw_str_util.cc 1480-1501). -/
def strSqueezeAndStripSpace (s : Bytes) : Bytes :=
  let x := squeezeLoop s ([], 0, true)
  x.1.take x.2.1

/-- `StrTrimForTSV` (tkrzw_str_util.cc 1503-1516). -/
def strTrimForTSV (s : Bytes) (keepTab : Bool) : Bytes :=
  s.map fun c => if c ≤ 32 ∨ c = 0x7f then if c ≠ 9 ∨ !keepTab then 32 else c else c

/-! ### C68: StrReplace -/

theorem matchAt_spec (str before : Bytes) (i : Nat) (hi : i + before.length ≤ str.length) : ∀ (fuel j : Nat), j + fuel = before.length →
    (∀ m, m < j → str[i + m]? = before[m]?) → (matchAt str before i fuel j = true ↔ Occurs str before i) := by
  intro fuel
  induction fuel with
  | zero =>
    intro j hj h
    simp only [matchAt, true_iff]
    exact occurs_get.2 ⟨hi, fun m hm => h m (by omega)⟩
  | succ fuel ih =>
    intro j hj h
    simp only [matchAt]
    rw [if_pos (by omega)]
    by_cases he : str[i + j]? = before[j]?
    · rw [if_neg (by simpa using he)]
      refine ih (j + 1) (by omega) fun m hm => ?_
      by_cases h' : m = j
      · rw [h']; exact he
      · exact h m (by omega)
    · rw [if_pos he]
      exact ⟨(fun h => by cases h), fun ho => absurd ((occurs_get.1 ho).2 j (by omega)) he⟩

theorem occurs_drop {s pat : Bytes} {k i : Nat} (hk : k ≤ s.length) : Occurs (s.drop k) pat i ↔ Occurs s pat (k + i) := by
  rw [occurs_iff, occurs_iff, List.drop_drop, List.length_drop]
  constructor <;> rintro ⟨h1, h2⟩ <;> exact ⟨by omega, h2⟩

/-- The first byte of a rest without an occurrence at its beginning is kept. -/
theorem Replaced.cons {pat after s r : Bytes} {c : UInt8} (hn : ¬ Occurs (c :: s) pat 0) (h : Replaced pat after s r) :
    Replaced pat after (c :: s) (c :: r) := by
  have shift : ∀ {s : Bytes} {i}, Occurs (c :: s) pat (i + 1) → Occurs s pat i := by
    intro s i ho
    have := (occurs_drop (s := c :: s) (pat := pat) (k := 1) (i := i) (by simp)).2 (by rw [Nat.add_comm]; exact ho)
    simpa using this
  cases h with
  | done _ h =>
    refine .done _ fun i => ?_
    cases i with
    | zero => exact hn
    | succ i => exact fun ho => h i (shift ho)
  | step u v r h hr =>
    have := Replaced.step (pat := pat) (after := after) (c :: u) v r (fun i hi => by
      cases i with
      | zero => exact hn
      | succ i => exact fun ho => h i (by simp at hi; omega) (shift (by simpa using ho))) hr
    simpa using this

theorem replaceLoop_spec {str before after : Bytes} (hb : before ≠ []) (hl : before.length ≤ str.length) : ∀ (fuel i : Nat) (acc : Bytes),
    i ≤ str.length → str.length - i < fuel →
    ∃ r, replaceRest str (replaceLoop str before after (str.length - before.length + 1) fuel i acc) = acc ++ r ∧ Replaced before after (str.drop i) r := by
  have hpos : 0 < before.length := List.length_pos_iff.2 hb
  intro fuel
  induction fuel with
  | zero => intro i acc _ h; omega
  | succ fuel ih =>
    intro i acc hi hf
    simp only [replaceLoop]
    by_cases hz : i < str.length - before.length + 1
    · rw [if_pos hz]
      have hm := matchAt_spec str before i (by omega) before.length 0 (by omega) (fun m h => by omega)
      by_cases ho : Occurs str before i
      · rw [if_pos (hm.2 ho)]
        obtain ⟨r, h1, h2⟩ := ih (i + before.length) (acc ++ after) (by omega) (by omega)
        refine ⟨after ++ r, by rw [← List.append_assoc]; exact h1, ?_⟩
        have e1 : str.drop i = [] ++ before ++ str.drop (i + before.length) := by
          conv => lhs; rw [← List.take_append_drop before.length (str.drop i), (occurs_iff.1 ho).2, List.drop_drop]
          simp
        rw [e1]
        have := Replaced.step (pat := before) (after := after) [] (str.drop (i + before.length)) r (fun j hj => by simp at hj) h2
        simpa using this
      · rw [if_neg (fun h => ho (hm.1 h))]
        have hlt : i < str.length := by omega
        obtain ⟨r, h1, h2⟩ := ih (i + 1) (acc ++ (str[i]?).toList) (by omega) (by omega)
        refine ⟨str[i] :: r, ?_, ?_⟩
        · rw [List.getElem?_eq_getElem hlt] at h1 ⊢
          simpa using h1
        · rw [List.drop_eq_getElem_cons hlt]
          refine Replaced.cons (fun h => ho ?_) h2
          rw [← List.drop_eq_getElem_cons hlt] at h
          simpa using (occurs_drop hi).1 h
    · rw [if_neg hz]
      refine ⟨str.drop i, ?_, .done _ fun j h => ?_⟩
      · by_cases h : i < str.length
        · simp [replaceRest, h]
        · simp [replaceRest, h, List.drop_eq_nil_of_le (Nat.le_of_not_lt h)]
      · have := (occurs_iff.1 ((occurs_drop hi).1 h)).1
        omega

/-- C68: `StrReplace` replaces the occurrences of the pattern from left to right; nothing else changes. -/
theorem C68_replace (str before after : Bytes) (hb : before ≠ []) : Replaced before after str (strReplace str before after) := by
  unfold strReplace
  by_cases hl : before.length > str.length
  · rw [if_pos (Or.inl hl)]
    exact .done _ fun i h => by have := (occurs_iff.1 h).1; omega
  · have : ¬ (before.length > str.length ∨ before.isEmpty = true) := by simp [hl, hb]
    rw [if_neg this]
    obtain ⟨r, h1, h2⟩ := replaceLoop_spec (after := after) hb (Nat.le_of_not_lt hl) (str.length + 1) 0 [] (by omega) (by omega)
    simp only [List.nil_append, List.drop_zero] at h1 h2
    rw [h1]
    exact h2

/-- The specification determines the result. -/
theorem Replaced.unique {pat after s r r' : Bytes} (h : Replaced pat after s r) : Replaced pat after s r' → r = r' := by
  induction h generalizing r' with
  | done s h =>
    intro h'
    cases h' with
    | done => rfl
    | step u v r _ _ => exact absurd ⟨u, v, rfl, rfl⟩ (h u.length)
  | step u v r h hr ih =>
    intro h'
    generalize hs : u ++ pat ++ v = s at h'
    cases h' with
    | done _ h' => exact absurd ⟨u, v, hs.symm, rfl⟩ (h' u.length)
    | step u' v' r' h2 hr' =>
      have hl : u.length = u'.length := by
        rcases Nat.lt_trichotomy u.length u'.length with hl | hl | hl
        · exact absurd ⟨u, v, hs.symm, rfl⟩ (h2 _ hl)
        · exact hl
        · exact absurd ⟨u', v', hs, rfl⟩ (h _ hl)
      rw [List.append_assoc, List.append_assoc] at hs
      obtain ⟨rfl, e2⟩ := List.append_inj hs hl
      obtain ⟨_, rfl⟩ := List.append_inj e2 rfl
      rw [ih hr']

/-- C68: an empty pattern changes nothing; nor does replacing a pattern by itself. -/
theorem C68_replace_same (str before after : Bytes) : strReplace str [] after = str ∧ strReplace str before before = str := by
  refine ⟨by simp [strReplace], ?_⟩
  cases hb : before with
  | nil => simp [strReplace]
  | cons c b =>
    have h := C68_replace str (c :: b) (c :: b) (by simp)
    have same : ∀ {s r : Bytes}, Replaced (c :: b) (c :: b) s r → r = s := by
      intro s r h
      induction h with
      | done => rfl
      | step u v r _ _ ih => rw [ih]
    exact same h

example : strReplace [97, 97, 97, 98, 97, 97] [97, 97] [120] = [120, 97, 98, 120] := by decide

/-! ### C68: StrReplaceCharacters -/

/-- SPECIFICATION: what becomes of a character: that at its first place in `before` becomes the one at this place of `after`, or nothing. -/
def charSpec (before after : Bytes) (c : UInt8) : Bytes := if c ∈ before then (after[before.idxOf c]?).toList else [c]

theorem charIndex_spec (before : Bytes) (c : UInt8) : ∀ (fuel i : Nat), i + fuel = before.length → c ∉ before.take i →
    charIndex before c fuel i = if c ∈ before then some (before.idxOf c) else none := by
  intro fuel
  induction fuel with
  | zero =>
    intro i hi h
    rw [List.take_of_length_le (by omega)] at h
    simp [charIndex, h]
  | succ fuel ih =>
    intro i hi h
    have hlt : i < before.length := by omega
    simp only [charIndex]
    rw [if_pos hlt]
    by_cases he : before[i]? = some c
    · rw [if_pos he]
      have hm : c ∈ before := List.mem_of_getElem? he
      rw [if_pos hm]
      have e1 : before = before.take i ++ c :: before.drop (i + 1) := by
        rw [List.getElem?_eq_getElem hlt, Option.some.injEq] at he
        rw [← he, ← List.drop_eq_getElem_cons hlt, List.take_append_drop]
      rw [e1, List.idxOf_append]
      simp [h]
      omega
    · rw [if_neg he]
      refine ih (i + 1) (by omega) fun hm => ?_
      rw [List.take_succ, List.mem_append] at hm
      rcases hm with hm | hm
      · exact h hm
      · rw [List.getElem?_eq_getElem hlt] at hm he
        simp only [Option.toList_some, List.mem_singleton] at hm
        exact he (by rw [hm])

theorem replaceChars_spec (before after : Bytes) : ∀ (fuel : Nat) (done todo : Bytes) (inp : Nat) (str : Bytes), todo.length = fuel → str.drop inp = todo →
    str.take done.length = done → done.length ≤ inp → inp ≤ str.length →
    ((replaceCharsLoop before after fuel inp done.length str).2.take (replaceCharsLoop before after fuel inp done.length str).1) =
      done ++ todo.flatMap (charSpec before after) := by
  intro fuel
  induction fuel with
  | zero =>
    intro done todo inp str hl _ ht _ _
    simp [replaceCharsLoop, List.length_eq_zero_iff.1 hl, ht]
  | succ fuel ih =>
    intro done todo inp str hl hd ht hle hle'
    cases todo with
    | nil => simp at hl
    | cons c todo =>
      have hg : str[inp]? = some c := by
        have := congrArg (fun l => l[0]?) hd
        simpa using this
      have hlt : inp < str.length := (List.getElem?_eq_some_iff.1 hg).1
      have hd' : str.drop (inp + 1) = todo := by
        have := congrArg List.tail hd
        simpa [List.tail_drop] using this
      have put : ∀ a, (replaceCharsLoop before after fuel (inp + 1) (done.length + 1) (str.set done.length a)).2.take
          (replaceCharsLoop before after fuel (inp + 1) (done.length + 1) (str.set done.length a)).1 = done ++ a :: todo.flatMap (charSpec before after) := by
        intro a
        have := ih (done ++ [a]) todo (inp + 1) (str.set done.length a) (by simpa using hl) (by rw [List.drop_set_of_lt (by omega)]; exact hd')
          (by
            rw [List.length_append, List.length_singleton, List.take_succ, List.take_set_of_le (Nat.le_refl _), ht, List.getElem?_set_self (by omega)]
            rfl) (by simp; omega) (by simp; omega)
        simpa using this
      simp only [replaceCharsLoop, hg, List.flatMap_cons]
      rw [charIndex_spec before c before.length 0 (by omega) (by simp)]
      simp only [charSpec]
      by_cases hm : c ∈ before
      · simp only [hm, if_true]
        cases ha : after[before.idxOf c]? with
        | none =>
          simp only [Option.toList_none, List.nil_append]
          exact ih done todo (inp + 1) str (by simpa using hl) hd' ht (by omega) (by omega)
        | some a => simpa using put a
      · simpa [hm] using put c

/-- C68: `StrReplaceCharacters` maps each character for itself, although it works in place. -/
theorem C68_replace_characters (str before after : Bytes) : strReplaceCharacters str before after = str.flatMap (charSpec before after) := by
  have := replaceChars_spec before after str.length [] str 0 str rfl (by simp) (by simp) (by simp) (by simp)
  simpa [strReplaceCharacters] using this

example : strReplaceCharacters [1, 2, 3, 4, 2] [2, 3, 2] [9] = [1, 9, 4, 9] := by decide

/-! ### C68: StrStripSpace, StrStripLine -/

theorem stripLoop_spec : ∀ (s p conv : Bytes) (n : Nat), n ≤ conv.length → (∃ a, p = a ++ conv ∧ ∀ c ∈ a, IsSpace c) → (∀ c, conv.head? = some c → ¬ IsSpace c) →
    (∀ c ∈ conv.drop n, IsSpace c) → (∀ c, (conv.take n).getLast? = some c → ¬ IsSpace c) →
    Stripped (p ++ s) ((stripLoop s (conv, n)).1.take (stripLoop s (conv, n)).2) := by
  intro s
  induction s with
  | nil =>
    rintro p conv n hn ⟨a, rfl, ha⟩ hh hd hl
    simp only [stripLoop, List.append_nil]
    refine ⟨a, conv.drop n, by simp, ha, hd, fun c hc => ?_, hl⟩
    rw [List.head?_take] at hc
    split at hc
    · cases hc
    · exact hh c hc
  | cons c s ih =>
    rintro p conv n hn ⟨a, rfl, ha⟩ hh hd hl
    simp only [stripLoop]
    have e1 : a ++ conv ++ c :: s = (a ++ conv ++ [c]) ++ s := by simp
    rw [e1]
    by_cases hc : c ≤ 32
    · rw [if_pos hc]
      by_cases he : conv.isEmpty = true
      · rw [if_pos he]
        have : conv = [] := by simpa using he
        subst this
        exact ih _ [] n hn ⟨a ++ [c], by simp, by
          intro x hx
          rcases List.mem_append.1 hx with h | h
          · exact ha x h
          · rw [List.mem_singleton.1 h]; exact hc⟩ hh hd hl
      · rw [if_neg he]
        have hne : conv ≠ [] := by simpa using he
        refine ih _ (conv ++ [c]) n (by simp; omega) ⟨a, by simp, ha⟩ ?_ ?_ ?_
        · intro x hx
          cases conv with
          | nil => exact absurd rfl hne
          | cons y conv => exact hh x hx
        · intro x hx
          rw [List.drop_append, List.mem_append] at hx
          rcases hx with h | h
          · exact hd x h
          · have := List.mem_of_mem_drop h
            rw [List.mem_singleton.1 this]; exact hc
        · intro x hx
          rw [List.take_append_of_le_length hn] at hx
          exact hl x hx
    · rw [if_neg hc]
      refine ih _ (conv ++ [c]) _ (Nat.le_refl _) ⟨a, by simp, ha⟩ ?_ ?_ ?_
      · intro x hx
        cases conv with
        | nil => simp only [List.nil_append, List.head?_cons, Option.some.injEq] at hx; rw [← hx]; exact hc
        | cons y conv => simp only [List.cons_append, List.head?_cons] at hx hh; exact hh x hx
      · simp
      · intro x hx
        simp only [List.take_length, List.getLast?_append, List.getLast?_singleton, Option.some_or, Option.some.injEq] at hx
        rw [← hx]; exact hc

/-- C68: `StrStripSpace` takes away the white space at both ends and nothing else. -/
theorem C68_strip_space (s : Bytes) : Stripped s (strStripSpace s) :=
  stripLoop_spec s [] [] 0 (Nat.le_refl _) ⟨[], rfl, by simp⟩ (by simp) (by simp) (by simp)

theorem Stripped.nil {s : Bytes} (h : ∀ c ∈ s, IsSpace c) {r : Bytes} (hr : Stripped s r) : r = [] := by
  obtain ⟨a, b, rfl, _, _, h1, _⟩ := hr
  cases r with
  | nil => rfl
  | cons c r => exact absurd (h c (by simp)) (h1 c rfl)

/-- The specification determines the result. -/
theorem Stripped.unique {s r r' : Bytes} (h : Stripped s r) (h' : Stripped s r') : r = r' := by
  obtain ⟨a, b, e1, ha, hb, hh, hl⟩ := h
  obtain ⟨a', b', e1', ha', hb', hh', hl'⟩ := h'
  by_cases hr : r = []
  · subst hr
    have hs : ∀ c ∈ s, IsSpace c := by
      rw [e1]; intro c hc
      rcases List.mem_append.1 hc with h | h
      · exact ha c (by simpa using h)
      · exact hb c h
    exact (Stripped.nil hs ⟨a', b', e1', ha', hb', hh', hl'⟩).symm
  by_cases hr' : r' = []
  · subst hr'
    have hs : ∀ c ∈ s, IsSpace c := by
      rw [e1']; intro c hc
      rcases List.mem_append.1 hc with h | h
      · exact ha' c (by simpa using h)
      · exact hb' c h
    exact Stripped.nil hs ⟨a, b, e1, ha, hb, hh, hl⟩
  -- the same beginning
  have pre : ∀ {a a' x x' : Bytes}, a ++ x = a' ++ x' → (∀ c ∈ a, IsSpace c) → (∀ c ∈ a', IsSpace c) →
      (∃ c, x.head? = some c ∧ ¬ IsSpace c) → (∃ c, x'.head? = some c ∧ ¬ IsSpace c) → a = a' := by
    intro a
    induction a with
    | nil =>
      intro a' x x' he _ ha' hx _
      cases a' with
      | nil => rfl
      | cons c a' =>
        obtain ⟨d, hd, hn⟩ := hx
        rw [List.nil_append] at he
        rw [he] at hd
        simp only [List.cons_append, List.head?_cons, Option.some.injEq] at hd
        exact absurd (ha' c (by simp)) (by rw [hd]; exact hn)
    | cons c a ih =>
      intro a' x x' he ha ha' hx hx'
      cases a' with
      | nil =>
        obtain ⟨d, hd, hn⟩ := hx'
        rw [List.nil_append] at he
        rw [← he] at hd
        simp only [List.cons_append, List.head?_cons, Option.some.injEq] at hd
        exact absurd (ha c (by simp)) (by rw [hd]; exact hn)
      | cons c' a' =>
        simp only [List.cons_append, List.cons.injEq] at he
        obtain ⟨rfl, he⟩ := he
        rw [ih he (fun c h => ha c (by simp [h])) (fun c h => ha' c (by simp [h])) hx hx']
  have hd : ∀ {r b : Bytes}, r ≠ [] → (∀ c, r.head? = some c → ¬ IsSpace c) → ∃ c, (r ++ b).head? = some c ∧ ¬ IsSpace c := by
    intro r b hr hh
    cases r with
    | nil => exact absurd rfl hr
    | cons c r => exact ⟨c, rfl, hh c rfl⟩
  have e2 : a ++ (r ++ b) = a' ++ (r' ++ b') := by rw [← List.append_assoc, ← List.append_assoc, ← e1, ← e1']
  have ea := pre e2 ha ha' (hd hr hh) (hd hr' hh')
  rw [ea] at e2
  have e3 := List.append_cancel_left e2
  have e4 : b.reverse ++ r.reverse = b'.reverse ++ r'.reverse := by rw [← List.reverse_append, ← List.reverse_append, e3]
  have ld : ∀ {r : Bytes}, r ≠ [] → (∀ c, r.getLast? = some c → ¬ IsSpace c) → ∃ c, r.reverse.head? = some c ∧ ¬ IsSpace c := by
    intro r hr hl
    obtain ⟨c, hc⟩ := List.exists_cons_of_ne_nil (l := r.reverse) (by simpa using hr)
    obtain ⟨t, hc⟩ := hc
    refine ⟨c, by rw [hc]; rfl, hl c ?_⟩
    rw [← List.head?_reverse, hc]; rfl
  have eb := pre e4 (by simpa using hb) (by simpa using hb') (ld hr hl) (ld hr' hl')
  rw [List.reverse_inj] at eb
  rw [eb] at e3
  exact List.append_cancel_right e3

theorem stripLine_spec (s : Bytes) : ∀ n, n ≤ s.length → ∃ b, s.take n = s.take (stripLineLoop s n) ++ b ∧ (∀ c ∈ b, IsBreak c) ∧
    (∀ c, (s.take (stripLineLoop s n)).getLast? = some c → ¬ IsBreak c) := by
  intro n
  induction n with
  | zero => intro _; exact ⟨[], by simp [stripLineLoop]⟩
  | succ n ih =>
    intro hn
    have hlt : n < s.length := by omega
    simp only [stripLineLoop]
    by_cases h : s[n]? ≠ some 13 ∧ s[n]? ≠ some 10
    · rw [if_pos h]
      refine ⟨[], by simp, by simp, fun c hc => ?_⟩
      rw [List.take_succ, List.getElem?_eq_getElem hlt] at hc
      simp only [Option.toList_some, List.getLast?_append, List.getLast?_singleton, Option.some_or, Option.some.injEq] at hc
      rw [List.getElem?_eq_getElem hlt, hc] at h
      rintro (h' | h')
      · exact h.1 (by rw [h'])
      · exact h.2 (by rw [h'])
    · rw [if_neg h]
      obtain ⟨b, h1, h2, h3⟩ := ih (by omega)
      refine ⟨b ++ [s[n]], ?_, ?_, h3⟩
      · rw [List.take_succ, h1, List.getElem?_eq_getElem hlt]; simp
      · intro c hc
        rcases List.mem_append.1 hc with hc | hc
        · exact h2 c hc
        · rw [List.mem_singleton.1 hc]
          rw [List.getElem?_eq_getElem hlt] at h
          by_cases h13 : s[n] = 13
          · exact Or.inl h13
          · refine Or.inr ?_
            by_cases h10 : s[n] = 10
            · exact h10
            · exact absurd ⟨by simpa using h13, by simpa using h10⟩ h

/-- C68: `StrStripLine` takes away all CR and LF at the end and nothing else. -/
theorem C68_strip_line (s : Bytes) : ∃ b, s = strStripLine s ++ b ∧ (∀ c ∈ b, IsBreak c) ∧ (∀ c, (strStripLine s).getLast? = some c → ¬ IsBreak c) := by
  have := stripLine_spec s s.length (Nat.le_refl _)
  rw [List.take_length] at this
  exact this

example : strStripSpace [32, 9, 65, 32, 66, 10] = [65, 32, 66] ∧ strStripLine [65, 10, 66, 13, 10, 10] = [65, 10, 66] := by decide

/-! ### C68: StrSqueezeAndStripSpace, StrTrimForTSV -/

theorem squeeze_shift (conv : Bytes) (n : Nat) : ∀ (t x : Bytes) (y : Nat) (sp : Bool),
    squeezeLoop t (conv ++ x, if y = 0 then n else conv.length + y, sp) =
      (conv ++ (squeezeLoop t (x, y, sp)).1, if (squeezeLoop t (x, y, sp)).2.1 = 0 then n else conv.length + (squeezeLoop t (x, y, sp)).2.1,
        (squeezeLoop t (x, y, sp)).2.2) := by
  intro t
  induction t with
  | nil => intro x y sp; rfl
  | cons c t ih =>
    intro x y sp
    simp only [squeezeLoop]
    by_cases hc : c ≤ 32
    · simp only [if_pos hc]
      cases sp with
      | true => simp only [if_true]; exact ih x y true
      | false => simp only [Bool.false_eq_true, if_false]; rw [List.append_assoc]; exact ih (x ++ [c]) y true
    · simp only [if_neg hc]
      have := ih (x ++ [c]) (x ++ [c]).length false
      rw [if_neg (by simp)] at this
      rw [← List.append_assoc] at this
      rw [← this]
      simp [Nat.add_assoc]

theorem squeeze_le : ∀ (t x : Bytes) (y : Nat) (sp : Bool), y ≤ x.length → (squeezeLoop t (x, y, sp)).2.1 ≤ (squeezeLoop t (x, y, sp)).1.length := by
  intro t
  induction t with
  | nil => intro x y sp h; exact h
  | cons c t ih =>
    intro x y sp h
    simp only [squeezeLoop]
    by_cases hc : c ≤ 32
    · simp only [if_pos hc]
      cases sp with
      | true => simp only [if_true]; exact ih x y true h
      | false => simp only [Bool.false_eq_true, if_false]; exact ih _ _ _ (by simp; omega)
    · simp only [if_neg hc]
      exact ih _ _ _ (Nat.le_refl _)

theorem squeeze_spaces (a t conv : Bytes) (n : Nat) (ha : ∀ c ∈ a, IsSpace c) : squeezeLoop (a ++ t) (conv, n, true) = squeezeLoop t (conv, n, true) := by
  induction a with
  | nil => rfl
  | cons c a ih =>
    have hc : c ≤ 32 := ha c (by simp)
    simp only [List.cons_append, squeezeLoop, if_pos hc, if_true]
    exact ih fun c h => ha c (by simp [h])

theorem squeeze_word (w t : Bytes) (hn : ∀ c ∈ w, ¬ IsSpace c) : ∀ (conv : Bytes) (n : Nat) (sp : Bool), w ≠ [] →
    squeezeLoop (w ++ t) (conv, n, sp) = squeezeLoop t (conv ++ w, (conv ++ w).length, false) := by
  induction w with
  | nil => intro _ _ _ h; exact absurd rfl h
  | cons c w ih =>
    intro conv n sp _
    have hc : ¬ c ≤ 32 := hn c (by simp)
    simp only [List.cons_append, squeezeLoop, if_neg hc]
    cases w with
    | nil => rfl
    | cons d w =>
      have := ih (fun c h => hn c (by simp [h])) (conv ++ [c]) (conv ++ [c]).length false (by simp)
      simpa using this

theorem span_space (s : Bytes) : ∃ a t, s = a ++ t ∧ (∀ c ∈ a, IsSpace c) ∧ ∀ c, t.head? = some c → ¬ IsSpace c := by
  induction s with
  | nil => exact ⟨[], [], rfl, by simp, by simp⟩
  | cons c s ih =>
    by_cases h : IsSpace c
    · obtain ⟨a, t, e1, h1, h2⟩ := ih
      exact ⟨c :: a, t, by rw [e1]; rfl, by intro d hd; rcases List.mem_cons.1 hd with rfl | hd; exact h; exact h1 d hd, h2⟩
    · exact ⟨[], c :: s, rfl, by simp, by intro d hd; simp at hd; rw [← hd]; exact h⟩

theorem span_word (s : Bytes) : ∃ a t, s = a ++ t ∧ (∀ c ∈ a, ¬ IsSpace c) ∧ ∀ c, t.head? = some c → IsSpace c := by
  induction s with
  | nil => exact ⟨[], [], rfl, by simp, by simp⟩
  | cons c s ih =>
    by_cases h : IsSpace c
    · exact ⟨[], c :: s, rfl, by simp, by intro d hd; simp at hd; rw [← hd]; exact h⟩
    · obtain ⟨a, t, e1, h1, h2⟩ := ih
      exact ⟨c :: a, t, by rw [e1]; rfl, by intro d hd; rcases List.mem_cons.1 hd with rfl | hd; exact h; exact h1 d hd, h2⟩

theorem squeezed_nil {s r : Bytes} (h : Squeezed s r) : r = [] → ∀ c ∈ s, IsSpace c := by
  cases h with
  | blank _ h => intro _; exact h
  | last a w b _ hw _ _ => intro h; exact absurd h hw
  | more a w c b s r _ hw _ _ _ _ _ => intro h; simp at h

/-- C68: `StrSqueezeAndStripSpace` leaves the words as they are, with a single character of white space between two of them. -/
theorem C68_squeeze : ∀ s : Bytes, Squeezed s (strSqueezeAndStripSpace s) := by
  have main : ∀ (n : Nat) (s : Bytes), s.length ≤ n → Squeezed s (strSqueezeAndStripSpace s) := by
    intro n
    induction n with
    | zero =>
      intro s hs
      have : s = [] := List.length_eq_zero_iff.1 (by omega)
      subst this
      exact .blank [] (by simp)
    | succ n ih =>
      intro s hs
      obtain ⟨a, t, e1, ha, ht⟩ := span_space s
      obtain ⟨w, u, e2, hw, hu⟩ := span_word t
      subst e2
      subst e1
      unfold strSqueezeAndStripSpace
      rw [squeeze_spaces a _ [] 0 ha]
      by_cases hwn : w = []
      · subst hwn
        cases u with
        | nil => simp only [squeezeLoop]; exact .blank _ (by simpa using ha)
        | cons c u => exact absurd (hu c rfl) (ht c rfl)
      · rw [squeeze_word w u hw [] 0 true hwn, List.nil_append]
        cases u with
        | nil =>
          simp only [squeezeLoop, List.take_length]
          have := Squeezed.last a w [] ha hwn hw (by simp)
          simpa using this
        | cons c u =>
          have hc : IsSpace c := hu c rfl
          have hc' : c ≤ 32 := hc
          simp only [squeezeLoop, if_pos hc', Bool.false_eq_true, if_false]
          have hlu : u.length ≤ n := by simp at hs; omega
          have hi := ih u hlu
          have hsh := squeeze_shift (w ++ [c]) w.length u [] 0 true
          simp only [if_true, List.append_nil] at hsh
          rw [hsh]
          have hle := squeeze_le u [] 0 true (Nat.le_refl _)
          have hR : strSqueezeAndStripSpace u = (squeezeLoop u ([], 0, true)).1.take (squeezeLoop u ([], 0, true)).2.1 := rfl
          generalize squeezeLoop u ([], 0, true) = z at hle hR
          dsimp only
          by_cases hz : z.2.1 = 0
          · rw [if_pos hz]
            rw [hz, List.take_zero] at hR
            have hsp := squeezed_nil hi hR
            have e3 : (w ++ [c] ++ z.1).take w.length = w := by simp
            rw [e3]
            have := Squeezed.last a w (c :: u) ha hwn hw (by
              intro x hx
              rcases List.mem_cons.1 hx with rfl | hx
              · exact hc
              · exact hsp x hx)
            simpa using this
          · rw [if_neg hz]
            have hne : strSqueezeAndStripSpace u ≠ [] := by
              rw [hR]
              intro h
              have := congrArg List.length h
              rw [List.length_take, Nat.min_eq_left hle] at this
              exact hz this
            have e3 : (w ++ [c] ++ z.1).take ((w ++ [c]).length + z.2.1) = w ++ (c :: strSqueezeAndStripSpace u) := by
              rw [List.take_length_add_append, ← hR]; simp
            rw [e3]
            have := Squeezed.more a w c [] u _ ha hwn hw hc (by simp) hne hi
            simpa using this
  exact fun s => main s.length s (Nat.le_refl _)

/-- C68: `StrTrimForTSV` keeps the number of characters and every character that is printable, or a tab if so told; the others become spaces. The result
has no line break. -/
theorem C68_trim (s : Bytes) (keepTab : Bool) : (strTrimForTSV s keepTab).length = s.length ∧
    (∀ (i : Nat) (c : UInt8), s[i]? = some c → ((32 ≤ c ∧ c ≠ 0x7f ∨ keepTab = true ∧ c = 9) → (strTrimForTSV s keepTab)[i]? = some c) ∧
      (¬ (32 ≤ c ∧ c ≠ 0x7f ∨ keepTab = true ∧ c = 9) → (strTrimForTSV s keepTab)[i]? = some 32)) ∧
    (10 ∉ strTrimForTSV s keepTab ∧ 13 ∉ strTrimForTSV s keepTab ∧ (keepTab = false → 9 ∉ strTrimForTSV s keepTab)) := by
  refine ⟨by simp [strTrimForTSV], ?_, ?_⟩
  · intro i c hi
    have key : ∀ n : Fin 256, ∀ b : Bool, let c := UInt8.ofNat n; ((32 ≤ c ∧ c ≠ 0x7f ∨ b = true ∧ c = 9) →
        (if c ≤ 32 ∨ c = 0x7f then if c ≠ 9 ∨ !b then 32 else c else c) = c) ∧
        (¬ (32 ≤ c ∧ c ≠ 0x7f ∨ b = true ∧ c = 9) → (if c ≤ 32 ∨ c = 0x7f then if c ≠ 9 ∨ !b then 32 else c else c) = 32) := by
      decide +kernel
    simp only [strTrimForTSV, List.getElem?_map, hi, Option.map_some, Option.some.injEq]
    have := key ⟨c.toNat, c.toNat_lt⟩ keepTab
    simp only [UInt8.ofNat_toNat] at this
    exact this
  · have key : ∀ n : Fin 256, ∀ b : Bool, let c := UInt8.ofNat n; (if c ≤ 32 ∨ c = 0x7f then if c ≠ 9 ∨ !b then 32 else c else c) ≠ (10 : UInt8) ∧
        (if c ≤ 32 ∨ c = 0x7f then if c ≠ 9 ∨ !b then 32 else c else c) ≠ (13 : UInt8) ∧
        (b = false → (if c ≤ 32 ∨ c = 0x7f then if c ≠ 9 ∨ !b then 32 else c else c) ≠ (9 : UInt8)) := by decide +kernel
    simp only [strTrimForTSV, List.mem_map, not_exists, not_and]
    have key' := fun c : UInt8 => key ⟨c.toNat, c.toNat_lt⟩ keepTab
    simp only [UInt8.ofNat_toNat] at key'
    exact ⟨fun c _ => (key' c).1, fun c _ => (key' c).2.1, fun h c _ => (key' c).2.2 h⟩

example : strSqueezeAndStripSpace [32, 65, 9, 32, 66, 66, 32, 67, 10] = [65, 9, 66, 66, 32, 67] ∧
    strTrimForTSV [65, 10, 9, 127, 66] true = [65, 32, 9, 32, 66] := by decide

end Verif.Edit
