import Verif.Codec.SerialProps
import Verif.Codec.NumProps
import Verif.Codec.Text
/-
Key comparators (tkrzw_key_comparators.h 39-301): C41.

A comparator returns `none` where its evaluation is undefined behaviour.
-/
namespace Verif.Cmp
open Verif.Codec

/-- `x < y ? -1 : (x > y ? 1 : 0)` (tkrzw_key_comparators.h 69 and others). -/
def cmpInt (x y : Int) : Int := if x < y then -1 else if x > y then 1 else 0

/-- `LexicalKeyComparator` (tkrzw_key_comparators.h 45-47): `std::string_view::compare`, bytes as unsigned numbers, a proper prefix is
less. Only the sign of the result is specified by C++; here it is -1, 0 or 1. -/
def lexCompare : Bytes → Bytes → Int
  | [], [] => 0
  | [], _ :: _ => -1
  | _ :: _, [] => 1
  | x :: a, y :: b => if x < y then -1 else if y < x then 1 else lexCompare a b

/-- The conversion to lower case (tkrzw_str_util.cc 836-838). -/
def lower (c : UInt8) : UInt8 := if 65 ≤ c ∧ c ≤ 90 then c + 32 else c

/-- The loop of `StrCaseCompare` (tkrzw_str_util.cc 834-846); 0 when no difference was found. -/
def caseLoop : Nat → Bytes → Bytes → Int
  | n + 1, x :: a, y :: b => if lower x ≠ lower y then if lower x < lower y then -1 else 1 else caseLoop n a b
  | _, _, _ => 0

/-- `StrCaseCompare` (tkrzw_str_util.cc 832-854); the number of compared bytes is an `int32_t`. -/
def strCaseCompare (a b : Bytes) : Int :=
  let r := caseLoop (toInt32 (min a.length b.length)).toNat a b
  if r ≠ 0 then r else if a.length < b.length then -1 else if a.length > b.length then 1 else 0

/-- The digits of `StrToInt` (tkrzw_str_util.cc 93-98). `num * 10 + *rp` must not overflow `int64_t`; that sum is computed before
`'0'` is subtracted. -/
def decDigits : Bytes → Int → Bool → Option (Int × Bool)
  | [], num, has => some (num, has)
  | c :: s, num, has =>
    if c < 48 ∨ c > 57 then some (num, has)
    else if num * 10 + c.toNat > 2 ^ 63 - 1 then none
    else decDigits s (num * 10 + c.toNat - 48) true

/-- Leading spaces and control characters (tkrzw_str_util.cc 75-77). -/
def skipSpace (s : Bytes) : Bytes := s.dropWhile (· ≤ 32)

/-- `StrToInt` (tkrzw_str_util.cc 72-102) with the default value 0. -/
def strToInt (s : Bytes) : Option Int :=
  let s := skipSpace s
  let (sign, s) : Int × Bytes := match s with
    | c :: rest => if c = 45 then (-1, rest) else if c = 43 then (1, rest) else (1, s)
    | [] => (1, s)
  match decDigits (skipSpace s) 0 false with
  | none => none
  | some (num, has) => some (if has then num * sign else 0)

/-- `DecimalKeyComparator` (tkrzw_key_comparators.h 66-70). -/
def decimalCompare (a b : Bytes) : Option Int := do
  let x ← strToInt a
  let y ← strToInt b
  some (cmpInt x y)

/-- The value of a hexadecimal digit (tkrzw_str_util.cc 232-240). -/
def hexVal (c : UInt8) : Option Nat :=
  if 48 ≤ c ∧ c ≤ 57 then some (c.toNat - 48)
  else if 97 ≤ c ∧ c ≤ 102 then some (c.toNat - 97 + 10)
  else if 65 ≤ c ∧ c ≤ 70 then some (c.toNat - 65 + 10)
  else none

/-- The digits of `StrToIntHex` (tkrzw_str_util.cc 231-244), in 64 bits. -/
def hexDigits : Bytes → Nat → Nat
  | [], num => num
  | c :: s, num => match hexVal c with
    | some v => hexDigits s ((num * 16 + v) % 2 ^ 64)
    | none => num

/-- The prefix `0x` (tkrzw_str_util.cc 227-229). -/
def skipHexPrefix : Bytes → Bytes
  | c :: d :: s => if c = 48 ∧ (d = 120 ∨ d = 88) then s else c :: d :: s
  | s => s

/-- `StrToIntHex` (tkrzw_str_util.cc 221-249) with the default value 0. -/
def strToIntHex (s : Bytes) : Nat := hexDigits (skipHexPrefix (skipSpace s)) 0

/-- Conversion of a `uint64_t` to `int64_t` and of narrower ones (two's complement). -/
def signed (bits n : Nat) : Int := if n % 2 ^ bits < 2 ^ (bits - 1) then (n % 2 ^ bits : Nat) else ((n % 2 ^ bits : Nat) : Int) - 2 ^ bits

/-- `HexadecimalKeyComparator` (tkrzw_key_comparators.h 78-82): the numbers are converted to `int64_t`. -/
def hexCompare (a b : Bytes) : Int := cmpInt (signed 64 (strToIntHex a)) (signed 64 (strToIntHex b))

/-- The cast of `SignedBigEndianKeyComparator` (tkrzw_key_comparators.h 104-118). -/
def signedBE (s : Bytes) : Int :=
  let num := strToIntBigEndian s
  if s.length = 1 then signed 8 num
  else if s.length = 2 then signed 16 num
  else if s.length = 4 then signed 32 num
  else signed 64 num

/-- `SignedBigEndianKeyComparator` (tkrzw_key_comparators.h 103-122). -/
def signedBECompare (a b : Bytes) : Int := cmpInt (signedBE a) (signedBE b)

/-- A floating-point number that is not NaN is an element of some ordered type; NaN is `none`. The conversions of bytes and of decimal
expressions to floating-point numbers are parameters of the model. `a_num < b_num ? -1 : (a_num > b_num ? 1 : 0)` with the rule
that a comparison with NaN is false (tkrzw_key_comparators.h 93, 136). -/
def cmpFloat {γ : Type} (c : γ → γ → Int) : Option γ → Option γ → Int
  | some x, some y => if c x y < 0 then -1 else if c x y > 0 then 1 else 0
  | _, _ => 0

/-- `FloatBigEndianKeyComparator` (tkrzw_key_comparators.h 130-136). -/
def floatBECompare {γ : Type} (c : γ → γ → Int) (f : Bytes → Option γ) (a b : Bytes) : Int :=
  match f a, f b with
  | none, none => 0
  | none, some _ => -1
  | some _, none => 1
  | x, y => cmpFloat c x y

/-- Does `StrToDouble` take the expression for "nan" (tkrzw_str_util.cc 254-275): after spaces and a sign, and not "inf"? -/
def isNanExpr (s : Bytes) : Bool :=
  let s := skipSpace s
  let s := match s with
    | c :: rest => if c = 45 ∨ c = 43 then rest else s
    | [] => s
  match s with
  | c :: d :: e :: _ => (c = 110 ∨ c = 78) ∧ (d = 97 ∨ d = 65) ∧ (e = 110 ∨ e = 78)
  | _ => false

/-- `StrToDouble` (tkrzw_str_util.cc 251-310): NaN for "nan"; the value of any other expression is a parameter. -/
def strToDouble {γ : Type} (value : Bytes → γ) (s : Bytes) : Option γ := if isNanExpr s then none else some (value s)

/-- `RealNumberKeyComparator` (tkrzw_key_comparators.h 90-94). -/
def realCompare {γ : Type} (c : γ → γ → Int) (value : Bytes → γ) (a b : Bytes) : Int := cmpFloat c (strToDouble value a) (strToDouble value b)

/-- `PairLexicalKeyComparator` and the other comparators of pairs (tkrzw_key_comparators.h 145-297): the given comparator for the
first components, then the lexical one for the second components. Outside the data is undefined behaviour. -/
def pairCompare (first : Bytes → Bytes → Option Int) (a b : Bytes) : Option Int :=
  match deserializeStrPair a, deserializeStrPair b with
  | .ok (ak, av), .ok (bk, bv) => do
    let r ← first ak bk
    if r ≠ 0 then some r else some (lexCompare av bv)
  | _, _ => none

/-! ### SPECIFICATION -/

/-- SPECIFICATION: the comparator is defined for the given keys and is a total preorder on them: a key equals itself, exchanging the
arguments changes the sign, and "not greater" is transitive. -/
structure TotalOrder (ok : Bytes → Prop) (cmp : Bytes → Bytes → Option Int) : Prop where
  defined : ∀ a b, ok a → ok b → ∃ r, cmp a b = some r
  refl : ∀ a, ok a → cmp a a = some 0
  sign : ∀ a b x y, ok a → ok b → cmp a b = some x → cmp b a = some y → (x < 0 ↔ 0 < y) ∧ (x = 0 ↔ y = 0)
  trans : ∀ a b c x y z, ok a → ok b → ok c → cmp a b = some x → cmp b c = some y → cmp a c = some z → x ≤ 0 → y ≤ 0 → z ≤ 0

/-- SPECIFICATION: a total preorder given by the sign of a total function. -/
structure Order {γ : Type} (c : γ → γ → Int) : Prop where
  refl : ∀ a, c a a = 0
  sign : ∀ a b, (c a b < 0 ↔ 0 < c b a)
  trans : ∀ a b d, c a b ≤ 0 → c b d ≤ 0 → c a d ≤ 0

theorem Order.zero {γ : Type} {c : γ → γ → Int} (h : Order c) (a b : γ) : c a b = 0 ↔ c b a = 0 := by
  have h1 := h.sign a b
  have h2 := h.sign b a
  omega

/-- Comparing by a key. -/
theorem TotalOrder.of_key {γ : Type} {c : γ → γ → Int} (hc : Order c) {f : Bytes → Option γ} {ok : Bytes → Prop} {cmp : Bytes → Bytes → Option Int}
    (hok : ∀ a, ok a → ∃ x, f a = some x) (hcmp : ∀ a b x y, ok a → ok b → f a = some x → f b = some y → cmp a b = some (c x y)) :
    TotalOrder ok cmp where
  defined a b ha hb := by
    obtain ⟨x, hx⟩ := hok a ha
    obtain ⟨y, hy⟩ := hok b hb
    exact ⟨_, hcmp a b x y ha hb hx hy⟩
  refl a ha := by
    obtain ⟨x, hx⟩ := hok a ha
    rw [hcmp a a x x ha ha hx hx, hc.refl]
  sign a b x y ha hb h1 h2 := by
    obtain ⟨p, hp⟩ := hok a ha
    obtain ⟨q, hq⟩ := hok b hb
    rw [hcmp a b p q ha hb hp hq] at h1
    rw [hcmp b a q p hb ha hq hp] at h2
    simp only [Option.some.injEq] at h1 h2
    subst h1; subst h2
    exact ⟨hc.sign p q, hc.zero p q⟩
  trans a b d x y z ha hb hd h1 h2 h3 g1 g2 := by
    obtain ⟨p, hp⟩ := hok a ha
    obtain ⟨q, hq⟩ := hok b hb
    obtain ⟨r, hr⟩ := hok d hd
    rw [hcmp a b p q ha hb hp hq] at h1
    rw [hcmp b d q r hb hd hq hr] at h2
    rw [hcmp a d p r ha hd hp hr] at h3
    simp only [Option.some.injEq] at h1 h2 h3
    subst h1; subst h2; subst h3
    exact hc.trans p q r g1 g2

theorem cmpInt_neg {x y : Int} : cmpInt x y < 0 ↔ x < y := by unfold cmpInt; split <;> (try split) <;> omega
theorem cmpInt_pos {x y : Int} : 0 < cmpInt x y ↔ y < x := by unfold cmpInt; split <;> (try split) <;> omega

theorem order_cmpInt : Order cmpInt where
  refl a := by simp [cmpInt]
  sign a b := by rw [cmpInt_neg, cmpInt_pos]
  trans a b d h1 h2 := by
    have e1 := @cmpInt_pos a b
    have e2 := @cmpInt_pos b d
    have e3 := @cmpInt_pos a d
    omega

/-! ### Lexical -/

theorem lexCompare_neg (a b : Bytes) : lexCompare a b < 0 ↔ a < b := by
  induction a generalizing b with
  | nil => cases b <;> simp [lexCompare]
  | cons x a ih =>
    cases b with
    | nil => simp [lexCompare]
    | cons y b =>
      simp only [lexCompare, List.cons_lt_cons_iff]
      split
      · simp [*]
      · split
        · have : x ≠ y := by rintro rfl; exact absurd ‹x < x› (UInt8.lt_irrefl x)
          simp [*]
        · have : x = y := by
            have h1 := UInt8.not_lt.1 ‹¬x < y›
            have h2 := UInt8.not_lt.1 ‹¬y < x›
            exact UInt8.le_antisymm h2 h1
          subst this
          simp [ih]

theorem lexCompare_swap (a b : Bytes) : lexCompare b a = - lexCompare a b := by
  induction a generalizing b with
  | nil => cases b <;> simp [lexCompare]
  | cons x a ih =>
    cases b with
    | nil => simp [lexCompare]
    | cons y b =>
      simp only [lexCompare]
      by_cases h1 : x < y
      · have : ¬ y < x := fun h => UInt8.lt_irrefl _ (UInt8.lt_trans h1 h)
        simp [h1, this]
      · by_cases h2 : y < x
        · simp [h1, h2]
        · simp [h1, h2, ih]

theorem lexCompare_pos (a b : Bytes) : 0 < lexCompare a b ↔ b < a := by rw [← lexCompare_neg, lexCompare_swap a b]; omega

theorem lexCompare_zero (a b : Bytes) : lexCompare a b = 0 ↔ a = b := by
  have h1 := lexCompare_neg a b
  have h2 := lexCompare_pos a b
  constructor
  · intro e
    rcases bytes_trichotomy a b with h | h | h
    · have := h1.2 h; omega
    · exact h
    · have := h2.2 h; omega
  · rintro rfl
    have g1 : ¬ lexCompare a a < 0 := fun h => List.lt_irrefl a (h1.1 h)
    have g2 : ¬ 0 < lexCompare a a := fun h => List.lt_irrefl a (h2.1 h)
    omega

theorem order_lex : Order lexCompare where
  refl a := (lexCompare_zero a a).2 rfl
  sign a b := by rw [lexCompare_neg, lexCompare_pos]
  trans a b d h1 h2 := by
    have e1 := (lexCompare_pos a b)
    have e2 := (lexCompare_pos b d)
    have e3 := (lexCompare_pos a d)
    by_cases h : 0 < lexCompare a d
    · have h4 := e3.1 h
      rcases bytes_trichotomy a b with h5 | h5 | h5
      · have := e2.2 (List.lt_trans h4 h5); omega
      · subst h5; omega
      · have := e1.2 h5; omega
    · omega

/-- C41: the lexical comparator is the order of `std::string`, and only equal keys are equivalent. -/
theorem C41_lexical : TotalOrder (fun _ => True) (fun a b => some (lexCompare a b)) ∧
    ∀ a b, (lexCompare a b < 0 ↔ bytesLt a b = true) ∧ (lexCompare a b = 0 ↔ a = b) := by
  refine ⟨.of_key order_lex (f := some) (fun a _ => ⟨a, rfl⟩) (fun a b x y _ _ hx hy => ?_), fun a b => ⟨?_, lexCompare_zero a b⟩⟩
  · simp only [Option.some.injEq] at hx hy; rw [hx, hy]
  · rw [lexCompare_neg]; simp [bytesLt]

/-! ### Lexical without case -/

theorem caseLoop_eq (a b : Bytes) :
    caseLoop (min a.length b.length) a b = lexCompare ((a.map lower).take (min a.length b.length)) ((b.map lower).take (min a.length b.length)) := by
  induction a generalizing b with
  | nil => simp [caseLoop, lexCompare]
  | cons x a ih =>
    cases b with
    | nil => simp [caseLoop, lexCompare]
    | cons y b =>
      simp only [List.length_cons, Nat.add_min_add_right, caseLoop, List.map_cons, List.take_succ_cons, lexCompare]
      by_cases h : lower x = lower y
      · simp [h, UInt8.lt_irrefl, ih]
      · by_cases h2 : lower x < lower y
        · simp [h, h2]
        · have h3 : lower y < lower x := by
            rcases UInt8.lt_or_eq_of_le (UInt8.not_lt.1 h2) with h3 | h3
            · exact h3
            · exact absurd h3.symm h
          simp [h, h2, h3]

theorem lexCompare_take (a b : Bytes) :
    lexCompare a b = if lexCompare (a.take (min a.length b.length)) (b.take (min a.length b.length)) ≠ 0
      then lexCompare (a.take (min a.length b.length)) (b.take (min a.length b.length))
      else if a.length < b.length then -1 else if a.length > b.length then 1 else 0 := by
  induction a generalizing b with
  | nil => cases b <;> simp [lexCompare]
  | cons x a ih =>
    cases b with
    | nil => simp [lexCompare]
    | cons y b =>
      simp only [List.length_cons, Nat.add_min_add_right, List.take_succ_cons, lexCompare, Nat.add_lt_add_iff_right, gt_iff_lt]
      by_cases h1 : x < y
      · simp [h1]
      · by_cases h2 : y < x
        · simp [h1, h2]
        · simp only [h1, h2, if_false]; exact ih b

theorem strCaseCompare_eq {a b : Bytes} (h : a.length < 2 ^ 31 ∨ b.length < 2 ^ 31) : strCaseCompare a b = lexCompare (a.map lower) (b.map lower) := by
  rw [lexCompare_take]
  unfold strCaseCompare
  rw [toInt32_small (by omega), Int.toNat_natCast, caseLoop_eq]
  simp only [List.length_map]

/-- C41: for keys below 2 GiB the comparator that ignores case is the lexical order of the keys in lower case. -/
theorem C41_lexical_case_partial : TotalOrder (fun a => a.length < 2 ^ 31) (fun a b => some (strCaseCompare a b)) ∧
    ∀ a b : Bytes, a.length < 2 ^ 31 → b.length < 2 ^ 31 → strCaseCompare a b = lexCompare (a.map lower) (b.map lower) := by
  refine ⟨.of_key order_lex (f := fun a => some (a.map lower)) (fun a _ => ⟨_, rfl⟩) (fun a b x y ha _ hx hy => ?_),
    fun a b h1 _ => strCaseCompare_eq (Or.inl h1)⟩
  simp only [Option.some.injEq] at hx hy
  rw [strCaseCompare_eq (Or.inl ha), hx, hy]

/-- With keys of 2 GiB the property fails: the number of bytes to compare is negative, so that two such keys of one size are equivalent
whatever they contain, although a third key lies between them. -/
theorem C41_lexical_case_violated :
    strCaseCompare (List.replicate (2 ^ 31) 97) [98] < 0 ∧ strCaseCompare [98] (List.replicate (2 ^ 31) 98) < 0 ∧
    strCaseCompare (List.replicate (2 ^ 31) 97) (List.replicate (2 ^ 31) 98) = 0 := by
  have key : ∀ n : Nat, 1 < n →
      strCaseCompare (List.replicate n 97) [98] < 0 ∧ strCaseCompare [98] (List.replicate n 98) < 0 := by
    intro n hn
    obtain ⟨m, rfl⟩ : ∃ m, n = m + 2 := ⟨n - 2, by omega⟩
    constructor
    · rw [strCaseCompare_eq (Or.inr (by simp))]
      simp [List.replicate_succ, lexCompare, show lower 97 = 97 by decide, show lower 98 = 98 by decide]
    · rw [strCaseCompare_eq (Or.inl (by simp))]
      simp [List.replicate_succ, lexCompare]
  refine ⟨(key _ (by decide)).1, (key _ (by decide)).2, ?_⟩
  have : ∀ n : Nat, toInt32 n < 0 → strCaseCompare (List.replicate n 97) (List.replicate n 98) = 0 := by
    intro n hn
    unfold strCaseCompare
    simp only [List.length_replicate, Nat.min_self]
    rw [show (toInt32 n).toNat = 0 by omega]
    simp [caseLoop]
  exact this _ (by decide)

/-! ### Numbers -/

/-- C41: the decimal comparator is a total order on the keys whose number does not overflow. -/
theorem C41_decimal_partial : TotalOrder (fun a => strToInt a ≠ none) decimalCompare := by
  refine .of_key order_cmpInt (f := strToInt) (fun a h => Option.ne_none_iff_exists'.1 h) (fun a b x y _ _ hx hy => ?_)
  simp [decimalCompare, hx, hy]

/-- SPECIFICATION: the decimal expression of a number. -/
def dec (n : Nat) : Bytes := if n < 10 then [byte (48 + n)] else dec (n / 10) ++ [byte (48 + n % 10)]
termination_by n
decreasing_by omega

theorem byte_digit {d : Nat} (h : d < 10) : ¬ (byte (48 + d) < 48 ∨ byte (48 + d) > 57) ∧ (byte (48 + d)).toNat = 48 + d ∧ ¬ byte (48 + d) ≤ 32 ∧
    byte (48 + d) ≠ 45 ∧ byte (48 + d) ≠ 43 := by
  have : ∀ d : Fin 10, ¬ (byte (48 + d) < 48 ∨ byte (48 + d) > 57) ∧ (byte (48 + d)).toNat = 48 + d ∧ ¬ byte (48 + d) ≤ 32 ∧
    byte (48 + d) ≠ 45 ∧ byte (48 + d) ≠ 43 := by decide
  exact this ⟨d, h⟩

theorem decDigits_dec (n : Nat) (h : n + 48 < 2 ^ 63) (rest : Bytes) (has : Bool) : decDigits (dec n ++ rest) 0 has = decDigits rest n true := by
  induction n using Nat.strongRecOn generalizing rest has with
  | ind n ih =>
    rw [dec]
    by_cases hn : n < 10
    · rw [if_pos hn]
      obtain ⟨h1, h2, _⟩ := byte_digit hn
      simp only [List.singleton_append, decDigits, if_neg h1, h2]
      rw [if_neg (by omega)]
      congr 1; omega
    · rw [if_neg hn, List.append_assoc, ih (n / 10) (by omega) (by omega)]
      obtain ⟨h1, h2, _⟩ := byte_digit (d := n % 10) (by omega)
      simp only [List.singleton_append, decDigits, if_neg h1, h2]
      rw [if_neg (by omega)]
      congr 1; omega

theorem dec_head (n : Nat) : ∃ c s, dec n = c :: s ∧ ¬ c ≤ 32 ∧ c ≠ 45 ∧ c ≠ 43 := by
  induction n using Nat.strongRecOn with
  | ind n ih =>
    rw [dec]
    by_cases hn : n < 10
    · rw [if_pos hn]
      obtain ⟨_, _, h3, h4, h5⟩ := byte_digit hn
      exact ⟨_, _, rfl, h3, h4, h5⟩
    · rw [if_neg hn]
      obtain ⟨c, s, h1, h2⟩ := ih (n / 10) (by omega)
      exact ⟨c, s ++ [byte (48 + n % 10)], by rw [h1]; rfl, h2⟩

/-- SPECIFICATION: the decimal expression of an integer. -/
def decInt (n : Int) : Bytes := if n < 0 then 45 :: dec n.natAbs else dec n.natAbs

theorem skipSpace_cons {c : UInt8} {s : Bytes} (h : ¬ c ≤ 32) : skipSpace (c :: s) = c :: s := by
  unfold skipSpace; simp [h]

theorem strToInt_decInt (n : Int) (h : n.natAbs + 48 < 2 ^ 63) : strToInt (decInt n) = some n := by
  obtain ⟨c, s, h1, h2, h3, h4⟩ := dec_head n.natAbs
  have hd := decDigits_dec n.natAbs h [] false
  rw [List.append_nil] at hd
  unfold decInt strToInt
  by_cases hn : n < 0
  · rw [if_pos hn, skipSpace_cons (by decide)]
    simp only [if_true]
    rw [h1, skipSpace_cons h2, ← h1, hd]
    simp only [decDigits, if_true, Option.some.injEq]; omega
  · rw [if_neg hn, h1, skipSpace_cons h2]
    simp only [h3, h4, if_false]
    rw [skipSpace_cons h2, ← h1, hd]
    simp only [decDigits, if_true, Option.some.injEq]; omega

/-- C41: on decimal expressions of integers the decimal comparator is the order of the integers. (The largest magnitude excluded by
the condition is within 48 of 2^63, where the code overflows.) -/
theorem C41_decimal_numbers (n m : Int) (hn : n.natAbs + 48 < 2 ^ 63) (hm : m.natAbs + 48 < 2 ^ 63) :
    decimalCompare (decInt n) (decInt m) = some (if n < m then -1 else if n > m then 1 else 0) := by
  simp [decimalCompare, strToInt_decInt n hn, strToInt_decInt m hm, cmpInt]

/-- -12 comes before 7, and 100 after 99. -/
example : decimalCompare (asc "-12") (asc "7") = some (-1) ∧ decimalCompare (asc "100") (asc " 99") = some 1 ∧
    decInt (-12) = asc "-12" := by decide +kernel

/-- The greatest `int64_t` overflows on the way: `num * 10 + '7'` exceeds it. -/
theorem C41_decimal_overflow_violated : decimalCompare (asc "9223372036854775807") (asc "0") = none := by decide +kernel

/-- C41: the hexadecimal comparator is a total order on all keys. -/
theorem C41_hexadecimal : TotalOrder (fun _ => True) (fun a b => some (hexCompare a b)) := by
  refine .of_key order_cmpInt (f := fun a => some (signed 64 (strToIntHex a))) (fun a _ => ⟨_, rfl⟩) (fun a b x y _ _ hx hy => ?_)
  simp only [Option.some.injEq] at hx hy
  simp [hexCompare, hx, hy]

/-- SPECIFICATION: the hexadecimal expression of a number. -/
def hex (n : Nat) : Bytes := if n < 16 then [hexDigit n] else hex (n / 16) ++ [hexDigit (n % 16)]
termination_by n
decreasing_by omega

theorem hexVal_digit {d : Nat} (h : d < 16) : hexVal (hexDigit d) = some d := by
  have : ∀ d : Fin 16, hexVal (hexDigit d) = some d.val := by decide
  exact this ⟨d, h⟩

theorem hexDigits_hex (n : Nat) (h : n < 2 ^ 64) (rest : Bytes) : hexDigits (hex n ++ rest) 0 = hexDigits rest n := by
  induction n using Nat.strongRecOn generalizing rest with
  | ind n ih =>
    rw [hex]
    by_cases hn : n < 16
    · rw [if_pos hn]
      simp only [List.singleton_append, hexDigits, hexVal_digit hn]
      congr 1; omega
    · rw [if_neg hn, List.append_assoc, ih (n / 16) (by omega) (by omega)]
      simp only [List.singleton_append, hexDigits, hexVal_digit (d := n % 16) (by omega)]
      congr 1; omega

theorem hex_chars (n : Nat) : ∃ c s, hex n = c :: s ∧ ¬ c ≤ 32 ∧ ∀ x ∈ s, x ≠ 120 ∧ x ≠ 88 := by
  have dg : ∀ d, d < 16 → ¬ hexDigit d ≤ 32 ∧ hexDigit d ≠ 120 ∧ hexDigit d ≠ 88 := by
    intro d h
    have : ∀ d : Fin 16, ¬ hexDigit d ≤ 32 ∧ hexDigit d ≠ 120 ∧ hexDigit d ≠ 88 := by decide
    exact this ⟨d, h⟩
  induction n using Nat.strongRecOn with
  | ind n ih =>
    rw [hex]
    by_cases hn : n < 16
    · rw [if_pos hn]; exact ⟨_, [], rfl, (dg n hn).1, by simp⟩
    · rw [if_neg hn]
      obtain ⟨c, s, h1, h2, h3⟩ := ih (n / 16) (by omega)
      refine ⟨c, s ++ [hexDigit (n % 16)], by rw [h1]; rfl, h2, ?_⟩
      intro x hx
      rcases List.mem_append.1 hx with hx | hx
      · exact h3 x hx
      · simp only [List.mem_singleton] at hx; subst hx; exact (dg _ (by omega)).2

/-- C41: on hexadecimal expressions of numbers below 2^63 the hexadecimal comparator is the order of the numbers. -/
theorem C41_hexadecimal_numbers_partial (n m : Nat) (hn : n < 2 ^ 63) (hm : m < 2 ^ 63) :
    hexCompare (hex n) (hex m) = if n < m then -1 else if n > m then 1 else 0 := by
  have key : ∀ n, n < 2 ^ 63 → signed 64 (strToIntHex (hex n)) = n := by
    intro n h
    obtain ⟨c, s, h1, h2, h3⟩ := hex_chars n
    have hp : skipHexPrefix (skipSpace (hex n)) = hex n := by
      rw [h1, skipSpace_cons h2]
      cases s with
      | nil => rfl
      | cons d s =>
        have := h3 d (by simp)
        simp [skipHexPrefix, this.1, this.2]
    have hd := hexDigits_hex n (by omega) []
    rw [List.append_nil] at hd
    have he : strToIntHex (hex n) = n := by rw [strToIntHex, hp, hd]; rfl
    rw [he, signed, if_pos (by omega)]; omega
  rw [hexCompare, key n hn, key m hm, cmpInt]
  by_cases h1 : n < m
  · rw [if_pos (by omega), if_pos h1]
  · rw [if_neg (by omega), if_neg h1]
    by_cases h2 : n > m
    · rw [if_pos (by omega), if_pos h2]
    · rw [if_neg (by omega), if_neg h2]

/-- From 2^63 on the numbers count as negative: `ffffffffffffffff` comes before `0`. -/
theorem C41_hexadecimal_violated : hexCompare (asc "ffffffffffffffff") (asc "0") = -1 ∧ strToIntHex (asc "ffffffffffffffff") = 2 ^ 64 - 1 := by
  decide +kernel

/-- C41: the comparator of signed big-endian numbers is a total order on all keys. -/
theorem C41_signed_big_endian : TotalOrder (fun _ => True) (fun a b => some (signedBECompare a b)) := by
  refine .of_key order_cmpInt (f := fun a => some (signedBE a)) (fun a _ => ⟨_, rfl⟩) (fun a b x y _ _ hx hy => ?_)
  simp only [Option.some.injEq] at hx hy
  simp [signedBECompare, hx, hy]

/-- C41: on the big-endian forms, in two's complement, of signed numbers of 1, 2, 4 or 8 bytes, also of different widths, it is the order
of the numbers. -/
theorem C41_signed_big_endian_numbers (n m : Int) (v w : Nat) (hv : v = 1 ∨ v = 2 ∨ v = 4 ∨ v = 8) (hw : w = 1 ∨ w = 2 ∨ w = 4 ∨ w = 8)
    (hn : -2 ^ (8 * v - 1) ≤ n ∧ n < 2 ^ (8 * v - 1)) (hm : -2 ^ (8 * w - 1) ≤ m ∧ m < 2 ^ (8 * w - 1)) :
    signedBECompare (intToStrBigEndian (n % 2 ^ (8 * v)).toNat v) (intToStrBigEndian (m % 2 ^ (8 * w)).toNat w) =
      if n < m then -1 else if n > m then 1 else 0 := by
  have key : ∀ (n : Int) (v : Nat), (v = 1 ∨ v = 2 ∨ v = 4 ∨ v = 8) → -2 ^ (8 * v - 1) ≤ n ∧ n < 2 ^ (8 * v - 1) →
      signedBE (intToStrBigEndian (n % 2 ^ (8 * v)).toNat v) = n := by
    intro n v hv hn
    have hlt : (n % 2 ^ (8 * v)).toNat < 2 ^ (8 * v) := by
      have h1 := Int.emod_lt_of_pos n (show (0 : Int) < 2 ^ (8 * v) from Int.pow_pos (by decide))
      have h2 := Int.emod_nonneg n (show (2 : Int) ^ (8 * v) ≠ 0 from Int.ne_of_gt (Int.pow_pos (by decide)))
      have : (((2 : Nat) ^ (8 * v) : Nat) : Int) = (2 : Int) ^ (8 * v) := by simp
      omega
    have hm : min v 8 = v := by omega
    have hr := C33_bigendian_roundtrip (n % 2 ^ (8 * v)).toNat v (by omega) (by rw [hm]; exact hlt)
    have hl : (intToStrBigEndian (n % 2 ^ (8 * v)).toNat v).length = v := by
      rw [intToStrBigEndian, if_neg (by omega), hm, writeFixNum_length _ (by omega)]
    unfold signedBE
    rw [hr, hl]
    rcases hv with rfl | rfl | rfl | rfl <;> simp only [signed] at hn ⊢ <;> simp only [Nat.reduceEqDiff, if_true, if_false] <;> split <;> omega
  rw [signedBECompare, key n v hv hn, key m w hw hm, cmpInt]

example : signedBECompare (intToStrBigEndian 255 1) (intToStrBigEndian 3 2) = -1 := by decide +kernel

/-! ### Floating-point numbers -/

theorem order_floatBE {γ : Type} {c : γ → γ → Int} (hc : Order c) :
    Order (fun (x y : Option γ) => match x, y with
      | none, none => 0
      | none, some _ => -1
      | some _, none => 1
      | some x, some y => cmpFloat c (some x) (some y)) where
  refl a := by cases a <;> simp [cmpFloat, hc.refl]
  sign a b := by
    cases a <;> cases b <;> simp [cmpFloat]
    rename_i x y
    have h1 := hc.sign x y
    have h2 := hc.sign y x
    split <;> split <;> (try split) <;> (try split) <;> omega
  trans a b d := by
    cases a <;> cases b <;> cases d <;> simp [cmpFloat]
    rename_i x y z
    have h1 := hc.trans x y z
    have e : ∀ p q : γ, ((if c p q < 0 then (-1 : Int) else if 0 < c p q then 1 else 0) ≤ 0 ↔ c p q ≤ 0) := by
      intro p q
      split <;> (try split) <;> omega
    rw [e, e, e]
    exact h1

/-- C41: the comparator of big-endian floating-point numbers is a total order on all keys, with NaN before all numbers. -/
theorem C41_float_big_endian {γ : Type} {c : γ → γ → Int} (hc : Order c) (f : Bytes → Option γ) :
    TotalOrder (fun _ => True) (fun a b => some (floatBECompare c f a b)) ∧
      ∀ a b, f a = none → f b ≠ none → floatBECompare c f a b < 0 := by
  refine ⟨.of_key (order_floatBE hc) (f := fun a => some (f a)) (fun a _ => ⟨_, rfl⟩) (fun a b x y _ _ hx hy => ?_), ?_⟩
  · simp only [Option.some.injEq] at hx hy
    simp only [floatBECompare, hx, hy]
    cases x <;> cases y <;> rfl
  · intro a b h1 h2
    obtain ⟨y, hy⟩ := Option.ne_none_iff_exists'.1 h2
    simp [floatBECompare, h1, hy]

/-- C41: the comparator of real numbers is a total order on the keys that are not expressions of NaN. -/
theorem C41_real_partial {γ : Type} {c : γ → γ → Int} (hc : Order c) (value : Bytes → γ) :
    TotalOrder (fun a => isNanExpr a = false) (fun a b => some (realCompare c value a b)) := by
  refine .of_key (order_floatBE hc) (f := fun a => some (strToDouble value a)) (fun a _ => ⟨_, rfl⟩) (fun a b x y ha hb hx hy => ?_)
  simp only [Option.some.injEq] at hx hy
  simp only [strToDouble, ha, hb, Bool.false_eq_true, if_false] at hx hy
  subst hx; subst hy
  simp [realCompare, strToDouble, ha, hb]

/-- C41 fails for the comparator of real numbers: the key `nan` is equivalent to `1` and to `2`, although `1` comes before `2`. -/
theorem C41_real_violated {γ : Type} {c : γ → γ → Int} (value : Bytes → γ) (h12 : c (value (asc "1")) (value (asc "2")) < 0) :
    realCompare c value (asc "1") (asc "nan") = 0 ∧ realCompare c value (asc "nan") (asc "2") = 0 ∧ realCompare c value (asc "1") (asc "2") < 0 := by
  have e1 : isNanExpr (asc "1") = false := by decide +kernel
  have e2 : isNanExpr (asc "2") = false := by decide +kernel
  have e3 : isNanExpr (asc "nan") = true := by decide +kernel
  simp [realCompare, strToDouble, e1, e2, e3, cmpFloat, h12]

/-! ### Pairs -/

/-- C41: a comparator of pairs is a total order on the serialized pairs whose first components the given comparator orders: by the first
components, then by the second. -/
theorem C41_pair {ok : Bytes → Prop} {first : Bytes → Bytes → Option Int} (h : TotalOrder ok first) :
    TotalOrder (fun a => ∃ k v, ok k ∧ deserializeStrPair a = .ok (k, v)) (pairCompare first) where
  defined a b ha hb := by
    obtain ⟨k, v, h1, h2⟩ := ha
    obtain ⟨k', v', h3, h4⟩ := hb
    obtain ⟨r, hr⟩ := h.defined k k' h1 h3
    simp only [pairCompare, h2, h4, hr, Option.bind_eq_bind, Option.bind_some]
    by_cases e : r = 0
    · exact ⟨lexCompare v v', by simp [e]⟩
    · exact ⟨r, by simp [e]⟩
  refl a ha := by
    obtain ⟨k, v, h1, h2⟩ := ha
    simp [pairCompare, h2, h.refl k h1, order_lex.refl]
  sign a b x y ha hb hx hy := by
    obtain ⟨k, v, h1, h2⟩ := ha
    obtain ⟨k', v', h3, h4⟩ := hb
    obtain ⟨r, hr⟩ := h.defined k k' h1 h3
    obtain ⟨s, hs⟩ := h.defined k' k h3 h1
    have hsg := h.sign k k' r s h1 h3 hr hs
    simp only [pairCompare, h2, h4, hr, hs, Option.bind_eq_bind, Option.bind_some] at hx hy
    by_cases e : r = 0
    · have e2 := hsg.2.1 e
      rw [if_neg (by simpa using e)] at hx
      rw [if_neg (by simpa using e2)] at hy
      simp only [Option.some.injEq] at hx hy
      subst hx; subst hy
      exact ⟨order_lex.sign v v', order_lex.zero v v'⟩
    · have e2 : s ≠ 0 := fun e3 => e (hsg.2.2 e3)
      rw [if_pos e] at hx
      rw [if_pos e2] at hy
      simp only [Option.some.injEq] at hx hy
      subst hx; subst hy
      exact hsg
  trans a b d x y z ha hb hd hx hy hz gx gy := by
    obtain ⟨k1, v1, a1, a2⟩ := ha
    obtain ⟨k2, v2, b1, b2⟩ := hb
    obtain ⟨k3, v3, d1, d2⟩ := hd
    obtain ⟨r, hr⟩ := h.defined k1 k2 a1 b1
    obtain ⟨s, hs⟩ := h.defined k2 k3 b1 d1
    obtain ⟨t, ht⟩ := h.defined k1 k3 a1 d1
    obtain ⟨r', hr'⟩ := h.defined k2 k1 b1 a1
    obtain ⟨s', hs'⟩ := h.defined k3 k2 d1 b1
    obtain ⟨t', ht'⟩ := h.defined k3 k1 d1 a1
    have g1 := h.sign _ _ _ _ a1 b1 hr hr'
    have g2 := h.sign _ _ _ _ b1 d1 hs hs'
    have g3 := h.sign _ _ _ _ a1 d1 ht ht'
    have g4 := h.sign _ _ _ _ b1 a1 hr' hr
    have g5 := h.sign _ _ _ _ d1 b1 hs' hs
    have g6 := h.sign _ _ _ _ d1 a1 ht' ht
    have t1 := h.trans _ _ _ _ _ _ a1 b1 d1 hr hs ht
    have t2 := h.trans _ _ _ _ _ _ b1 d1 a1 hs ht' hr'
    have t3 := h.trans _ _ _ _ _ _ d1 a1 b1 ht' hr hs'
    have t4 := h.trans _ _ _ _ _ _ d1 b1 a1 hs' hr' ht'
    simp only [pairCompare, a2, b2, d2, hr, hs, ht, Option.bind_eq_bind, Option.bind_some] at hx hy hz
    by_cases er : r = 0
    · rw [if_neg (by simpa using er)] at hx
      by_cases es : s = 0
      · rw [if_neg (by simpa using es)] at hy
        have et : t = 0 := by omega
        rw [if_neg (by simpa using et)] at hz
        simp only [Option.some.injEq] at hx hy hz
        subst hx; subst hy; subst hz
        exact order_lex.trans _ _ _ gx gy
      · rw [if_pos es] at hy
        simp only [Option.some.injEq] at hx hy
        subst hy
        have et : t ≠ 0 := by omega
        rw [if_pos et] at hz
        simp only [Option.some.injEq] at hz
        omega
    · rw [if_pos er] at hx
      simp only [Option.some.injEq] at hx
      subst hx
      by_cases es : s = 0
      · have et : t ≠ 0 := by omega
        rw [if_pos et] at hz
        simp only [Option.some.injEq] at hz
        omega
      · rw [if_pos es] at hy
        simp only [Option.some.injEq] at hy
        subst hy
        have et : t ≠ 0 := by omega
        rw [if_pos et] at hz
        simp only [Option.some.injEq] at hz
        omega

/-- C41: on pairs made by `SerializeStrPair` the lexical comparator of pairs compares the first components and, if they are equal, the
second. -/
theorem C41_pair_serialized (a b c d : Bytes) (ha : a.length < 2 ^ 64) (hb : b.length < 2 ^ 64) (hc : c.length < 2 ^ 64) (hd : d.length < 2 ^ 64) :
    ∃ r, pairCompare (fun x y => some (lexCompare x y)) (serializeStrPair a b) (serializeStrPair c d) = some r ∧
      (r < 0 ↔ a < c ∨ (a = c ∧ b < d)) ∧ (r = 0 ↔ a = c ∧ b = d) := by
  simp only [pairCompare, C35_pair_roundtrip a b ha hb, C35_pair_roundtrip c d hc hd, Option.bind_eq_bind, Option.bind_some]
  by_cases e : lexCompare a c = 0
  · rw [if_neg (by simpa using e)]
    have e2 := (lexCompare_zero a c).1 e
    subst e2
    refine ⟨_, rfl, ?_, ?_⟩
    · rw [lexCompare_neg]; simp [List.lt_irrefl]
    · rw [lexCompare_zero]; simp
  · rw [if_pos e]
    have e2 : a ≠ c := fun h => e ((lexCompare_zero a c).2 h)
    refine ⟨_, rfl, ?_, ?_⟩
    · rw [lexCompare_neg]; simp [e2]
    · simp [e, e2]

end Verif.Cmp
