import Verif.Prelude.Bytes
/-
Substring search (tkrzw_str_util.cc 860-1213): the model and the specification of C38.

`none` is undefined behaviour (an access outside an array) or a loop that does not end; positions are modelled without the limit
of `int32_t`, so the theorems are about texts shorter than 2 GiB.
-/
namespace Verif.Search

/-! ### SPECIFICATION -/

/-- SPECIFICATION: the pattern occurs in the text at position `i`. -/
def Occurs (text pat : Bytes) (i : Nat) : Prop := ∃ u v, text = u ++ pat ++ v ∧ u.length = i

/-- SPECIFICATION: the position of the first occurrence, or -1. -/
def First (text pat : Bytes) (r : Int) : Prop :=
  (∃ i : Nat, r = i ∧ Occurs text pat i ∧ ∀ j, j < i → ¬ Occurs text pat j) ∨ (r = -1 ∧ ∀ i, ¬ Occurs text pat i)

theorem occurs_iff {text pat : Bytes} {i : Nat} :
    Occurs text pat i ↔ i + pat.length ≤ text.length ∧ (text.drop i).take pat.length = pat := by
  constructor
  · rintro ⟨u, v, rfl, rfl⟩
    refine ⟨by simp, by simp⟩
  · rintro ⟨h1, h2⟩
    refine ⟨text.take i, text.drop (i + pat.length), ?_, by simp; omega⟩
    conv => lhs; rw [← List.take_append_drop i text, ← List.take_append_drop pat.length (text.drop i), h2]
    simp

instance (text pat : Bytes) (i : Nat) : Decidable (Occurs text pat i) := decidable_of_iff _ occurs_iff.symm

/-- SPECIFICATION: the positions of all occurrences before the end of the text, in order, at most `max` of them unless `max` is 0. -/
def allOccurrences (text pat : Bytes) (max : Nat) : List Nat :=
  let l := (List.range text.length).filter fun i => decide (Occurs text pat i)
  if max > 0 then l.take max else l

theorem occurs_get {text pat : Bytes} {i : Nat} :
    Occurs text pat i ↔ i + pat.length ≤ text.length ∧ ∀ m, m < pat.length → text[i + m]? = pat[m]? := by
  rw [occurs_iff]
  refine and_congr_right fun h => ?_
  constructor
  · intro e m hm
    conv => rhs; rw [← e]
    rw [List.getElem?_take_of_lt hm, List.getElem?_drop]
  · intro e
    apply List.ext_getElem?
    intro m
    by_cases hm : m < pat.length
    · rw [List.getElem?_take_of_lt hm, List.getElem?_drop, e m hm]
    · rw [List.getElem?_eq_none (by simp; omega), List.getElem?_eq_none (by omega)]

theorem occurs_nil {text : Bytes} {i : Nat} : Occurs text [] i ↔ i ≤ text.length := by rw [occurs_get]; simp

theorem first_nil (text : Bytes) : First text [] 0 := Or.inl ⟨0, rfl, occurs_nil.2 (Nat.zero_le _), fun j h => by omega⟩

/-! ### `StrSearch`, `StrSearchDoubleLoop`, `StrSearchMemchr` -/

/-- The inner loop of `StrSearchDoubleLoop` (tkrzw_str_util.cc 867-871): the number of equal bytes. -/
def matchLen (text pat : Bytes) (ti : Nat) : (fuel pi : Nat) → Nat
  | 0, pi => pi
  | fuel + 1, pi => if pi < pat.length ∧ text[ti + pi]? = pat[pi]? then matchLen text pat ti fuel (pi + 1) else pi

/-- The outer loop (tkrzw_str_util.cc 865-875). -/
def doubleLoop (text pat : Bytes) (fin : Nat) : (fuel ti : Nat) → Int
  | 0, _ => -1
  | fuel + 1, ti =>
    if ti < fin then if matchLen text pat ti pat.length 0 = pat.length then ti else doubleLoop text pat fin fuel (ti + 1) else -1

/-- `StrSearchDoubleLoop` (tkrzw_str_util.cc 860-877). -/
def searchDoubleLoop (text pat : Bytes) : Int :=
  if pat.length > text.length then -1 else doubleLoop text pat (text.length - pat.length + 1) (text.length + 1) 0

/-- `std::memchr`: the first position from `cur` on with the byte, below `cur + size`. -/
def memchr (text : Bytes) (c : UInt8) : (size cur : Nat) → Option Nat
  | 0, _ => none
  | size + 1, cur => if text[cur]? = some c then some cur else memchr text c size (cur + 1)

/-- The loop of `StrSearchMemchr` (tkrzw_str_util.cc 888-901); `size` is the number of positions left. -/
def memchrLoop (text : Bytes) (c : UInt8) (rest : Bytes) : (fuel : Nat) → (size : Int) → (cur : Nat) → Int
  | 0, _, _ => -1
  | fuel + 1, size, cur =>
    if size > 0 then
      match memchr text c size.toNat cur with
      | none => -1
      | some m => if (text.drop (m + 1)).take rest.length = rest then m else memchrLoop text c rest fuel (size - (m + 1 - cur : Nat)) (m + 1)
    else -1

/-- `StrSearchMemchr` (tkrzw_str_util.cc 878-903). -/
def searchMemchr (text pat : Bytes) : Int :=
  match pat with
  | [] => 0
  | c :: rest => memchrLoop text c rest (text.length + 1) ((text.length : Int) - (rest.length + 1) + 1) 0

/-! ### Knuth-Morris-Pratt -/

/-- `while (offset >= 0 && c != pattern[offset]) offset = table[offset]` (tkrzw_str_util.cc 921-923, 932-934). -/
def fall (pat : Bytes) (table : List Int) (c : UInt8) : (fuel : Nat) → Int → Option Int
  | 0, _ => none
  | fuel + 1, o =>
    if 0 ≤ o then do
      let p ← pat[o.toNat]?
      if c ≠ p then do
        let o' ← table[o.toNat]?
        fall pat table c fuel o'
      else some o
    else some o

/-- The construction of the table (tkrzw_str_util.cc 920-927). The cells are written in ascending order, so the table is modelled
as a list that grows. -/
def kmpTable (pat : Bytes) : (fuel idx : Nat) → Int → List Int → Option (List Int)
  | 0, _, _, table => some table
  | fuel + 1, idx, o, table =>
    if idx < pat.length then do
      let c ← pat[idx]?
      let o' ← fall pat table c (pat.length + 2) o
      kmpTable pat fuel (idx + 1) (o' + 1) (table ++ [o' + 1])
    else some table

/-- The scan of the text (tkrzw_str_util.cc 928-937). -/
def kmpScan (text pat : Bytes) (table : List Int) : (fuel idx : Nat) → Int → Option (Nat × Int)
  | 0, idx, o => some (idx, o)
  | fuel + 1, idx, o =>
    if idx < text.length ∧ o < pat.length then do
      let c ← text[idx]?
      let o' ← fall pat table c (pat.length + 2) o
      kmpScan text pat table fuel (idx + 1) (o' + 1)
    else some (idx, o)

/-- `StrSearchKMP` (tkrzw_str_util.cc 912-942). -/
def searchKMP (text pat : Bytes) : Option Int :=
  if pat.isEmpty then some 0
  else do
    let table ← kmpTable pat pat.length 0 (-1) [-1]
    let (idx, o) ← kmpScan text pat table text.length 0 0
    if o = pat.length then some ((idx : Int) - pat.length) else some (-1)

/-- The result for an empty pattern (tkrzw_str_util.cc 1056-1063). -/
def wholeEmpty (text : Bytes) (max : Nat) : List Nat := List.range (if max > 0 then min max text.length else text.length)

/-- The loop of `StrSearchWholeKMP` (tkrzw_str_util.cc 1104-1124). -/
def wholeKMPLoop (text pat : Bytes) (table : List Int) (max : Nat) : (fuel idx : Nat) → List Nat → Option (List Nat)
  | 0, _, _ => none
  | fuel + 1, idx, acc =>
    if idx < text.length then do
      let (idx, o) ← kmpScan text pat table text.length idx 0
      if o = pat.length then
        let acc := acc ++ [idx - pat.length]
        if max > 0 ∧ acc.length ≥ max then some acc else wholeKMPLoop text pat table max fuel (idx - pat.length + 1) acc
      else wholeKMPLoop text pat table max fuel idx acc
    else some acc

/-- `StrSearchWholeKMP` (tkrzw_str_util.cc 1079-1126). -/
def wholeKMP (text pat : Bytes) (max : Nat) : Option (List Nat) :=
  if pat.isEmpty then some (wholeEmpty text max)
  else do
    let table ← kmpTable pat pat.length 0 (-1) [-1]
    wholeKMPLoop text pat table max (text.length + 2) 0 []

/-! ### Boyer-Moore -/

/-- Filling the table for the bytes of the pattern (tkrzw_str_util.cc 952-957). The table has `UINT8MAX` = 255 cells; writing to cell
255 is undefined behaviour. -/
def bmFill (pat : Bytes) : (shift idx : Nat) → List Int → Option (List Int)
  | 0, _, table => some table
  | shift + 1, idx, table => do
    let c ← pat[idx]?
    if c.toNat < table.length then bmFill pat shift (idx + 1) (table.set c.toNat shift) else none

/-- The table (tkrzw_str_util.cc 948-957). -/
def bmTable (pat : Bytes) : Option (List Int) := bmFill pat pat.length 0 (List.replicate 255 (pat.length : Int))

/-- The comparison from the end of the pattern (tkrzw_str_util.cc 963-968): the index of the last byte that differs, or `none` when
all are equal. Called with `pidx` one more than the index. -/
def bmCompare (text pat : Bytes) (b : Nat) : (pidx : Nat) → Option Nat
  | 0 => none
  | pidx + 1 => if text[b + pidx]? = pat[pidx]? then bmCompare text pat b pidx else some pidx

/-- The loop of `StrSearchBM` (tkrzw_str_util.cc 958-972); `begin_index < end_index` is written `b + pend < size`. -/
def bmLoop (text pat : Bytes) (table : List Int) : (fuel b : Nat) → Option Int
  | 0, _ => none
  | fuel + 1, b =>
    if b + (pat.length - 1) < text.length then
      match bmCompare text pat b pat.length with
      | none => some b
      | some pidx => do
        let c ← text[b + pidx]?
        let t ← table[c.toNat]?
        let step : Int := t - (pat.length - 1 : Nat) + pidx
        bmLoop text pat table fuel (b + if step > 0 then step.toNat else 2)
    else some (-1)

/-- `StrSearchBM` (tkrzw_str_util.cc 944-974). -/
def searchBM (text pat : Bytes) : Option Int :=
  if pat.isEmpty then some 0 else (bmTable pat).bind fun table => bmLoop text pat table (text.length + 1) 0

/-- The loop of `StrSearchWholeBM` (tkrzw_str_util.cc 1151-1172). After a hit the index of the pattern is 0. -/
def wholeBMLoop (text pat : Bytes) (table : List Int) (max : Nat) : (fuel b : Nat) → List Nat → Option (List Nat)
  | 0, _, _ => none
  | fuel + 1, b, acc =>
    if b + (pat.length - 1) < text.length then
      let cmp := bmCompare text pat b pat.length
      let acc := if cmp = none then acc ++ [b] else acc
      if cmp = none ∧ max > 0 ∧ acc.length ≥ max then some acc
      else do
        let pidx := cmp.getD 0
        let c ← text[b + pidx]?
        let t ← table[c.toNat]?
        let step : Int := t - (pat.length - 1 : Nat) + pidx
        wholeBMLoop text pat table max fuel (b + if step > 0 then step.toNat else if cmp = none then 1 else 2) acc
    else some acc

/-- `StrSearchWholeBM` (tkrzw_str_util.cc 1128-1174). -/
def wholeBM (text pat : Bytes) (max : Nat) : Option (List Nat) :=
  if pat.isEmpty then some (wholeEmpty text max)
  else (bmTable pat).bind fun table => wholeBMLoop text pat table max (text.length + 2) 0 []

/-! ### Rabin-Karp -/

/-- `power` (tkrzw_str_util.cc 984-987). The products stay below 2^31. -/
def rkPower : Nat → Int
  | 0 => 1
  | n + 1 => (rkPower n * 239).tmod 1798201

/-- One step of the hash (tkrzw_str_util.cc 990-991, 995-996). -/
def rkStep (h : Int) (c : UInt8) : Int := (h * 239 + c.toNat).tmod 1798201

/-- `pattern_hash` (tkrzw_str_util.cc 988-992). -/
def rkHash (pat : Bytes) : Int := pat.foldl rkStep 0

/-- The new hash of the window at index `i` (tkrzw_str_util.cc 995-1002). -/
def rkRoll (text : Bytes) (n : Nat) (power : Int) (h : Int) (i : Nat) : Option Int := do
  let c ← text[i]?
  let h := rkStep h c
  if i ≥ n then do
    let d ← text[i - n]?
    let h := h - (power * d.toNat).tmod 1798201
    some (if h < 0 then h + 1798201 else h)
  else some h

/-- `memcmp(text + offset, pattern, pattern.size()) == 0`. -/
def window (text pat : Bytes) (off : Nat) : Bool := (text.drop off).take pat.length == pat

/-- The loop of `StrSearchRK` (tkrzw_str_util.cc 994-1010). -/
def rkLoop (text pat : Bytes) (power ph : Int) : (fuel i : Nat) → Int → Option Int
  | 0, _, _ => some (-1)
  | fuel + 1, i, h => do
    let h ← rkRoll text pat.length power h i
    if ph = h ∧ i ≥ pat.length - 1 ∧ window text pat (i - (pat.length - 1)) = true then some ((i - (pat.length - 1) : Nat) : Int)
    else rkLoop text pat power ph fuel (i + 1) h

/-- `StrSearchRK` (tkrzw_str_util.cc 976-1011). -/
def searchRK (text pat : Bytes) : Option Int :=
  if pat.isEmpty then some 0 else rkLoop text pat (rkPower pat.length) (rkHash pat) text.length 0 0

/-- The loop of `StrSearchWholeRK` (tkrzw_str_util.cc 1194-1212). -/
def wholeRKLoop (text pat : Bytes) (power ph : Int) (max : Nat) : (fuel i : Nat) → Int → List Nat → Option (List Nat)
  | 0, _, _, acc => some acc
  | fuel + 1, i, h, acc => do
    let h ← rkRoll text pat.length power h i
    if ph = h ∧ i ≥ pat.length - 1 ∧ window text pat (i - (pat.length - 1)) = true then
      let acc := acc ++ [i - (pat.length - 1)]
      if max > 0 ∧ acc.length ≥ max then some acc else wholeRKLoop text pat power ph max fuel (i + 1) h acc
    else wholeRKLoop text pat power ph max fuel (i + 1) h acc

/-- `StrSearchWholeRK` (tkrzw_str_util.cc 1176-1213). -/
def wholeRK (text pat : Bytes) (max : Nat) : Option (List Nat) :=
  if pat.isEmpty then some (wholeEmpty text max)
  else wholeRKLoop text pat (rkPower pat.length) (rkHash pat) max text.length 0 0 []

/-! ### The Z algorithm -/

/-- `while (right < concat.size() && concat[right - left] == concat[right]) right++` (tkrzw_str_util.cc 1026-1028, 1037-1039). -/
def zExtend (s : Bytes) (left : Nat) : (fuel right : Nat) → Nat
  | 0, right => right
  | fuel + 1, right => if right < s.length ∧ s[right - left]? = s[right]? then zExtend s left fuel (right + 1) else right

/-- The loop of the table (tkrzw_str_util.cc 1020-1044). The cells are written in ascending order; the first is 0. -/
def zLoop (s : Bytes) : (fuel i left right : Nat) → List Nat → Option (List Nat)
  | 0, _, _, _, z => some z
  | fuel + 1, i, left, right, z =>
    if i < s.length then
      if i > right then
        let r := zExtend s i s.length i
        zLoop s fuel (i + 1) i (r - 1) (z ++ [r - i])
      else do
        let zk ← z[i - left]?
        if zk < right - i + 1 then zLoop s fuel (i + 1) left right (z ++ [zk])
        else
          let r := zExtend s i s.length right
          zLoop s fuel (i + 1) i (r - 1) (z ++ [r - i])
    else some z

/-- The last loop of `StrSearchZ` (tkrzw_str_util.cc 1045-1049). -/
def zFind (z : List Nat) (n : Nat) : (fuel i : Nat) → Int
  | 0, _ => -1
  | fuel + 1, i => if i < z.length then if z[i]? = some n then ((i - 1 - n : Nat) : Int) else zFind z n fuel (i + 1) else -1

/-- `StrSearchZ` (tkrzw_str_util.cc 1013-1051). -/
def searchZ (text pat : Bytes) : Option Int := do
  let s := pat ++ [0] ++ text
  let z ← zLoop s s.length 1 0 0 [0]
  some (zFind z pat.length s.length (pat.length + 1))

end Verif.Search
