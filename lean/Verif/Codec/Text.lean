import Verif.Codec.Num
/-
Model of the text encodings of tkrzw_str_util.cc: Base64, URL encoding, C-style escaping, UTF-8.
Character constants are written as their ASCII codes with the character in a comment or by `ch`.
-/
namespace Verif.Codec
open Verif

/-- The byte of an ASCII character constant. -/
def ch (c : Char) : UInt8 := byte c.toNat

/-- The bytes of an ASCII string literal. -/
def asc (s : String) : Bytes := s.toList.map ch

/-! ### Base64 -/

/-- `table` of `StrEncodeBase64` (tkrzw_str_util.cc 1632). -/
def b64Table : Bytes :=
  "ABCDEFGHIJKLMNOPQRSTUVWXYZabcdefghijklmnopqrstuvwxyz0123456789+/".toList.map ch

/-- `table[i]`; the index is always below 64 (see `b64Index_lt`), out of range is 0, the terminator. -/
def b64At (i : Nat) : UInt8 := b64Table.getD i 0

/-- `StrEncodeBase64` (tkrzw_str_util.cc 1631-1663): the three cases of the loop over `str.size() - i`. -/
def encodeBase64 : Bytes → Bytes
  | [] => []
  | [a] => [b64At (a.toNat >>> 2), b64At ((a.toNat &&& 3) <<< 4), ch '=', ch '=']
  | [a, b] =>
    [b64At (a.toNat >>> 2), b64At (((a.toNat &&& 3) <<< 4) + (b.toNat >>> 4)),
     b64At ((b.toNat &&& 0xf) <<< 2), ch '=']
  | a :: b :: c :: rest =>
    b64At (a.toNat >>> 2) :: b64At (((a.toNat &&& 3) <<< 4) + (b.toNat >>> 4)) ::
    b64At (((b.toNat &&& 0xf) <<< 2) + (c.toNat >>> 6)) :: b64At (c.toNat &&& 0x3f) ::
    encodeBase64 rest

/-- The chain of conditions on one character in `StrDecodeBase64` (tkrzw_str_util.cc 1674-1693): its six bits, or
nothing for a character that is skipped; `=` is treated apart. -/
def b64Val (c : UInt8) : Option Nat :=
  let n := c.toNat
  if n ≥ 65 ∧ n ≤ 90 then some (n - 65)
  else if n ≥ 97 ∧ n ≤ 122 then some (n - 97 + 26)
  else if n ≥ 48 ∧ n ≤ 57 then some (n - 48 + 52)
  else if n = 43 then some 62
  else if n = 47 then some 63
  else none

/-- The inner loop of `StrDecodeBase64` (tkrzw_str_util.cc 1673-1695): returns `bits`, `step`, `num_equals` and the
unread input. `size_t bits` never exceeds 24 bits. -/
def b64Group : Bytes → Nat → Nat → Nat → Nat × Nat × Nat × Bytes
  | [], bits, step, eqs => (bits, step, eqs, [])
  | c :: rest, bits, step, eqs =>
    if step < 4 then
      match b64Val c with
      | some v => b64Group rest ((bits <<< 6) ||| v) (step + 1) eqs
      | none =>
        if c = ch '=' then b64Group rest (bits <<< 6) (step + 1) (eqs + 1)
        else b64Group rest bits step eqs
    else (bits, step, eqs, c :: rest)

theorem b64Group_rest_le (s : Bytes) : ∀ bits step eqs, (b64Group s bits step eqs).2.2.2.length ≤ s.length := by
  induction s with
  | nil => intro bits step eqs; simp [b64Group]
  | cons c rest ih =>
    intro bits step eqs
    simp only [b64Group]
    split
    · split
      · have := ih ((bits <<< 6) ||| ‹Nat›) (step + 1) eqs; simp; omega
      · split
        · have := ih (bits <<< 6) (step + 1) (eqs + 1); simp; omega
        · have := ih bits step eqs; simp; omega
    · simp

theorem b64Group_rest_lt (c : UInt8) (s : Bytes) : (b64Group (c :: s) 0 0 0).2.2.2.length < (c :: s).length := by
  simp only [b64Group]
  split
  · split
    · have := b64Group_rest_le s ((0 <<< 6) ||| ‹Nat›) (0 + 1) 0; simp at this ⊢; omega
    · split
      · have := b64Group_rest_le s (0 <<< 6) (0 + 1) (0 + 1); simp at this ⊢; omega
      · have := b64Group_rest_le s 0 0 0; simp at this ⊢; omega
  · omega

/-- `StrDecodeBase64` (tkrzw_str_util.cc 1665-1716): the outer loop. -/
def decodeBase64 : Bytes → Bytes
  | [] => []
  | c :: s =>
    let g := b64Group (c :: s) 0 0 0
    let bits := g.1
    let step := g.2.1
    let eqs := g.2.2.1
    if step = 0 ∧ g.2.2.2 = [] then []
    else if eqs = 0 then
      byte ((bits >>> 16) &&& 0xff) :: byte ((bits >>> 8) &&& 0xff) :: byte (bits &&& 0xff) ::
        decodeBase64 g.2.2.2
    else if eqs = 1 then [byte ((bits >>> 16) &&& 0xff), byte ((bits >>> 8) &&& 0xff)]
    else if eqs = 2 then [byte ((bits >>> 16) &&& 0xff)]
    else []
termination_by s => s.length
decreasing_by exact b64Group_rest_lt c s

/-! ### URL encoding -/

/-- The hexadecimal digit written for a number below 16 (tkrzw_str_util.cc 1731-1742). -/
def hexDigit (num : Nat) : UInt8 := if num < 10 then byte (48 + num) else byte (97 + num - 10)

/-- The characters `StrEncodeURL` copies (tkrzw_str_util.cc 1726-1727); `strchr` never sees NUL. -/
def urlPlain (c : UInt8) : Bool :=
  let n := c.toNat
  (n ≥ 65 ∧ n ≤ 90) || (n ≥ 97 ∧ n ≤ 122) || (n ≥ 48 ∧ n ≤ 57) ||
    (n ≠ 0 && [ch '_', ch '-', ch '.', ch '~'].contains c)

/-- `StrEncodeURL` (tkrzw_str_util.cc 1718-1744). -/
def encodeURL : Bytes → Bytes
  | [] => []
  | c :: rest =>
    if urlPlain c then c :: encodeURL rest
    else ch '%' :: hexDigit (c.toNat >>> 4) :: hexDigit (c.toNat &&& 0x0f) :: encodeURL rest

/-- The digit conditions of `StrDecodeURL` (tkrzw_str_util.cc 1757-1772): `num` after reading the digit `c`, where
`num0` is `num * 0x10` for the second digit and 0 for the first. A non-digit leaves `num` as it was (`keep`). -/
def urlDigit (c : UInt8) (num0 keep : Nat) : Nat :=
  let n := c.toNat
  if n ≥ 48 ∧ n ≤ 57 then num0 + n - 48
  else if n ≥ 97 ∧ n ≤ 102 then num0 + n - 97 + 10
  else if n ≥ 65 ∧ n ≤ 70 then num0 + n - 65 + 10
  else keep

/-- `StrDecodeURL` (tkrzw_str_util.cc 1746-1786). The characters are signed, so `c <= ' '` also drops every byte
of 0x80 or more that is not percent-encoded. -/
def decodeURL : Bytes → Bytes
  | [] => []
  | c :: rest =>
    if c = ch '%' then
      match rest with
      | [] => []
      | [_] => []
      | d :: e :: rest' =>
        let num := urlDigit d 0 0
        byte (urlDigit e (num * 0x10) num) :: decodeURL rest'
    else if c = ch '+' then ch ' ' :: decodeURL rest
    else if c.toNat ≤ 32 ∨ c.toNat ≥ 128 ∨ c.toNat = 0x7f then decodeURL rest
    else c :: decodeURL rest

/-! ### C-style escaping -/

/-- `SPrintF("\\x%02x", c)`. -/
def hexEscape (c : UInt8) : Bytes :=
  [ch '\\', ch 'x', hexDigit (c.toNat >>> 4), hexDigit (c.toNat &&& 0x0f)]

/-- The `switch` of `StrEscapeC` (tkrzw_str_util.cc 1525-1556): what is appended for the byte `c` when `rest`
follows it. -/
def escapeOne (escNonasc : Bool) (c : UInt8) (rest : Bytes) : Bytes :=
  let n := c.toNat
  if n = 0 then
    match rest with
    | [] => [ch '\\', ch '0']
    | d :: _ =>
      if d.toNat ≥ 48 ∧ d.toNat ≤ 55 then [ch '\\', ch 'x', ch '0', ch '0'] else [ch '\\', ch '0']
  else if n = 7 then [ch '\\', ch 'a']
  else if n = 8 then [ch '\\', ch 'b']
  else if n = 9 then [ch '\\', ch 't']
  else if n = 10 then [ch '\\', ch 'n']
  else if n = 11 then [ch '\\', ch 'v']
  else if n = 12 then [ch '\\', ch 'f']
  else if n = 13 then [ch '\\', ch 'r']
  else if n = 92 then [ch '\\', ch '\\']
  else if n < 32 ∨ n = 0x7f then hexEscape c
  else if escNonasc ∧ n ≥ 0x80 then hexEscape c
  else [c]

/-- `StrEscapeC` (tkrzw_str_util.cc 1518-1561). -/
def escapeC (escNonasc : Bool) : Bytes → Bytes
  | [] => []
  | c :: rest => escapeOne escNonasc c rest ++ escapeC escNonasc rest

/-- The hexadecimal digit loop of `StrUnescapeC` (tkrzw_str_util.cc 1588-1600): at most `k` digits. -/
def unescHex : Nat → Bytes → Nat → Nat × Bytes
  | 0, s, num => (num, s)
  | _ + 1, [], num => (num, [])
  | k + 1, c :: rest, num =>
    let n := c.toNat
    if n ≥ 48 ∧ n ≤ 57 then unescHex k rest (num * 16 + n - 48)
    else if n ≥ 65 ∧ n ≤ 70 then unescHex k rest (num * 16 + n - 65 + 10)
    else if n ≥ 97 ∧ n ≤ 102 then unescHex k rest (num * 16 + n - 97 + 10)
    else (num, c :: rest)

/-- The octal digit loop of `StrUnescapeC` (tkrzw_str_util.cc 1609-1617): at most `k` more digits. -/
def unescOct : Nat → Bytes → Nat → Nat × Bytes
  | 0, s, num => (num, s)
  | _ + 1, [], num => (num, [])
  | k + 1, c :: rest, num =>
    let n := c.toNat
    if n ≥ 48 ∧ n ≤ 55 then unescOct k rest (num * 8 + n - 48)
    else (num, c :: rest)

theorem unescHex_len (k : Nat) (s : Bytes) : ∀ num, (unescHex k s num).2.length ≤ s.length := by
  induction k generalizing s with
  | zero => intro num; simp [unescHex]
  | succ k ih =>
    intro num
    cases s with
    | nil => simp [unescHex]
    | cons c rest =>
      simp only [unescHex]
      repeat' split
      all_goals first
        | (have := ih rest (num * 16 + c.toNat - 48); simp; omega)
        | (have := ih rest (num * 16 + c.toNat - 65 + 10); simp; omega)
        | (have := ih rest (num * 16 + c.toNat - 97 + 10); simp; omega)
        | simp

theorem unescOct_len (k : Nat) (s : Bytes) : ∀ num, (unescOct k s num).2.length ≤ s.length := by
  induction k generalizing s with
  | zero => intro num; simp [unescOct]
  | succ k ih =>
    intro num
    cases s with
    | nil => simp [unescOct]
    | cons c rest =>
      simp only [unescOct]
      split
      · have := ih rest (num * 8 + c.toNat - 48); simp; omega
      · simp

/-- `StrUnescapeC` (tkrzw_str_util.cc 1563-1629). The octal branch accepts a leading digit up to `8` as the code
does. -/
def unescapeC : Bytes → Bytes
  | [] => []
  | c :: rest =>
    if c = ch '\\' then
      match rest with
      | [] => []
      | d :: rest' =>
        if d = ch 'a' then 7 :: unescapeC rest'
        else if d = ch 'b' then 8 :: unescapeC rest'
        else if d = ch 't' then 9 :: unescapeC rest'
        else if d = ch 'n' then 10 :: unescapeC rest'
        else if d = ch 'v' then 11 :: unescapeC rest'
        else if d = ch 'f' then 12 :: unescapeC rest'
        else if d = ch 'r' then 13 :: unescapeC rest'
        else if d = ch 'x' ∨ d = ch 'X' then
          byte (unescHex 2 rest' 0).1 :: unescapeC (unescHex 2 rest' 0).2
        else if d.toNat ≥ 48 ∧ d.toNat ≤ 56 then
          byte (unescOct 2 rest' (d.toNat - 48)).1 :: unescapeC (unescOct 2 rest' (d.toNat - 48)).2
        else d :: unescapeC rest'
    else c :: unescapeC rest
termination_by s => s.length
decreasing_by
  all_goals first
    | (simp; done)
    | (simp; omega)
    | (refine Nat.lt_of_le_of_lt (unescHex_len _ _ _) ?_; simp only [List.length_cons]; omega)
    | (refine Nat.lt_of_le_of_lt (unescOct_len _ _ _) ?_; simp only [List.length_cons]; omega)

/-! ### UTF-8 -/

/-- The bytes `ConvertUCS4ToUTF8` appends for one code point (tkrzw_str_util.cc 1940-1968). -/
def utf8Char (c : Nat) : Bytes :=
  if c < 0x80 then [byte c]
  else if c < 0x800 then [byte (0xc0 ||| (c >>> 6)), byte (0x80 ||| (c &&& 0x3f))]
  else if c < 0x10000 then
    [byte (0xe0 ||| (c >>> 12)), byte (0x80 ||| ((c &&& 0xfff) >>> 6)), byte (0x80 ||| (c &&& 0x3f))]
  else if c < 0x200000 then
    [byte (0xf0 ||| (c >>> 18)), byte (0x80 ||| ((c &&& 0x3ffff) >>> 12)),
     byte (0x80 ||| ((c &&& 0xfff) >>> 6)), byte (0x80 ||| (c &&& 0x3f))]
  else if c < 0x4000000 then
    [byte (0xf8 ||| (c >>> 24)), byte (0x80 ||| ((c &&& 0xffffff) >>> 18)),
     byte (0x80 ||| ((c &&& 0x3ffff) >>> 12)), byte (0x80 ||| ((c &&& 0xfff) >>> 6)),
     byte (0x80 ||| (c &&& 0x3f))]
  else if c < 0x80000000 then
    [byte (0xfc ||| (c >>> 30)), byte (0x80 ||| ((c &&& 0x3fffffff) >>> 24)),
     byte (0x80 ||| ((c &&& 0xffffff) >>> 18)), byte (0x80 ||| ((c &&& 0x3ffff) >>> 12)),
     byte (0x80 ||| ((c &&& 0xfff) >>> 6)), byte (0x80 ||| (c &&& 0x3f))]
  else []

/-- `ConvertUCS4ToUTF8` (tkrzw_str_util.cc 1933-1971). -/
def ucs4ToUtf8 (ucs : List Nat) : Bytes := ucs.flatMap utf8Char

/-- `utf[i] & 0x3f`. -/
def low6 (b : UInt8) : Nat := b.toNat &&& 0x3f

/-- `if (c >= min) ucs.emplace_back(c)`. -/
def pushIf (c min : Nat) (rest : List Nat) : List Nat := if c ≥ min then c :: rest else rest

/-- `ConvertUTF8ToUCS4` (tkrzw_str_util.cc 1885-1931). A truncated sequence at the end drops its first byte only,
as `index++` does. -/
def utf8ToUcs4 : Bytes → List Nat
  | [] => []
  | b :: s =>
    let c := b.toNat
    if c < 0x80 then c :: utf8ToUcs4 s
    else if c < 0xe0 then
      if c ≥ 0xc0 then
        match s with
        | b1 :: s' => pushIf (((c &&& 0x1f) <<< 6) ||| low6 b1) 0x80 (utf8ToUcs4 s')
        | [] => utf8ToUcs4 []
      else utf8ToUcs4 s
    else if c < 0xf0 then
      match s with
      | b1 :: b2 :: s' =>
        pushIf (((c &&& 0x0f) <<< 12) ||| (low6 b1 <<< 6) ||| low6 b2) 0x800 (utf8ToUcs4 s')
      | s => utf8ToUcs4 s
    else if c < 0xf8 then
      match s with
      | b1 :: b2 :: b3 :: s' =>
        pushIf (((c &&& 0x07) <<< 18) ||| (low6 b1 <<< 12) ||| (low6 b2 <<< 6) ||| low6 b3) 0x10000
          (utf8ToUcs4 s')
      | s => utf8ToUcs4 s
    else if c < 0xfc then
      match s with
      | b1 :: b2 :: b3 :: b4 :: s' =>
        pushIf (((c &&& 0x03) <<< 24) ||| (low6 b1 <<< 18) ||| (low6 b2 <<< 12) ||| (low6 b3 <<< 6) ||| low6 b4)
          0x200000 (utf8ToUcs4 s')
      | s => utf8ToUcs4 s
    else if c < 0xfe then
      match s with
      | b1 :: b2 :: b3 :: b4 :: b5 :: s' =>
        pushIf (((c &&& 0x01) <<< 30) ||| (low6 b1 <<< 24) ||| (low6 b2 <<< 18) ||| (low6 b3 <<< 12) |||
          (low6 b4 <<< 6) ||| low6 b5) 0x4000000 (utf8ToUcs4 s')
      | s => utf8ToUcs4 s
    else utf8ToUcs4 s
termination_by s => s.length
decreasing_by all_goals (simp_all; try omega)

end Verif.Codec
