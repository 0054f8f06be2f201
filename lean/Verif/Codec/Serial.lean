import Verif.Codec.Num
import Verif.Prelude.OrdMap
/-
Model of the container serializers of tkrzw_str_util: string pairs, vectors, maps, basic-type vectors and integer
vectors in delta encoding. Assertions are taken as disabled.
-/
namespace Verif.Codec
open Verif

/-- Outcome of a deserializer: a value, a loop that never ends, a C++ exception (`std::length_error`), or memory
access / pointer arithmetic outside the given data. -/
inductive Deser (α : Type) where
  | ok (a : α)
  | hangs
  | throws
  | outOfBounds
deriving DecidableEq, Repr

namespace Deser
/-- Apply a function to a successful outcome. -/
def map {α β : Type} (f : α → β) : Deser α → Deser β
  | ok a => ok (f a)
  | hangs => hangs
  | throws => throws
  | outOfBounds => outOfBounds
end Deser

/-- One string with its size in front, as all serializers write it (e.g. tkrzw_str_util.cc 2066-2068). -/
def serializeStr (s : Bytes) : Bytes := writeVarNum s.length ++ s

/-- `SerializeStrPair` (tkrzw_str_util.cc 2061-2072). -/
def serializeStrPair (first second : Bytes) : Bytes := serializeStr first ++ serializeStr second

/-- The result and step of `ReadVarNum` as the callers use it: 0 and 0 on failure (tkrzw_sys_config.h 519-522). -/
def readVarNum0 (s : Bytes) : Nat × Nat :=
  match readVarNum s with
  | some r => r
  | none => (0, 0)

/-- `DeserializeStrPair` (tkrzw_str_util.cc 2074-2090). The code makes views without checking that they lie within
the data; a view outside is `outOfBounds`. -/
def deserializeStrPair (s : Bytes) : Deser (Bytes × Bytes) :=
  let (n1, k1) := readVarNum0 s
  let r1 := s.drop k1
  if r1.length < n1 then .outOfBounds
  else
    let r2 := r1.drop n1
    let (n2, k2) := readVarNum0 r2
    let r3 := r2.drop k2
    if r3.length < n2 then .outOfBounds else .ok (r1.take n1, r3.take n2)

/-- `GetFirstFromSerializedStrPair` (tkrzw_str_util.cc 2092-2096). -/
def firstOfStrPair (s : Bytes) : Deser Bytes :=
  let (n1, k1) := readVarNum0 s
  let r1 := s.drop k1
  if r1.length < n1 then .outOfBounds else .ok (r1.take n1)

/-- `SerializeStrVector` (tkrzw_str_util.cc 2098-2111). -/
def serializeStrVector (values : List Bytes) : Bytes := values.flatMap serializeStr

/-- `int32_t size = serialized.size()`: conversion to a 32-bit signed integer. -/
def toInt32 (n : Nat) : Int :=
  let m : Nat := n % 2 ^ 32
  if m < 2 ^ 31 then (m : Int) else (m : Int) - 2 ^ 32

theorem readVarNum_used {s : Bytes} {n k : Nat} (h : readVarNum s = some (n, k)) : 1 ≤ k := by
  have : ∀ (s : Bytes) acc used n k, readVarNumLoop s acc used = some (n, k) → used + 1 ≤ k := by
    intro s
    induction s with
    | nil => intro acc used n k h; simp [readVarNumLoop] at h
    | cons c s ih =>
      intro acc used n k h
      simp only [readVarNumLoop] at h
      split at h
      · have := ih _ _ _ _ h; omega
      · simp only [Option.some.injEq, Prod.mk.injEq] at h; omega
  have := this s 0 0 n k h
  omega

/-- The loop of `DeserializeStrVector` (tkrzw_str_util.cc 2117-2128). When `ReadVarNum` fails the loop appends an
empty string without consuming anything, forever. A size of 2^63 or more passes the signed comparison and makes
`std::string` throw. -/
def deserStrVectorLoop (s : Bytes) : Deser (List Bytes) :=
  if _hs : s = [] then .ok []
  else
    match h : readVarNum s with
    | none => .hangs
    | some (n, k) =>
      let r := s.drop k
      if n ≥ 2 ^ 63 then .throws
      else if r.length < n then .ok []
      else (deserStrVectorLoop (r.drop n)).map (r.take n :: ·)
termination_by s.length
decreasing_by
  have := readVarNum_used h
  have : s.length ≠ 0 := by simpa using _hs
  simp only [List.length_drop]; omega

/-- `DeserializeStrVector` (tkrzw_str_util.cc 2113-2130). -/
def deserializeStrVector (s : Bytes) : Deser (List Bytes) :=
  let size := toInt32 s.length
  if size ≤ 0 then .ok [] else deserStrVectorLoop (s.take size.toNat)

/-- `SerializeStrMap` (tkrzw_str_util.cc 2151-2168); the records of the `std::map` in iteration order. -/
def serializeStrMap (records : List (Bytes × Bytes)) : Bytes :=
  records.flatMap (fun r => serializeStr r.1 ++ serializeStr r.2)

/-- The loop of `DeserializeStrMap` (tkrzw_str_util.cc 2174-2196). -/
def deserStrMapLoop (s : Bytes) (records : List (Bytes × Bytes)) : Deser (List (Bytes × Bytes)) :=
  if _hs : s = [] then .ok records
  else
    match h : readVarNum s with
    | none => .hangs
    | some (n, k) =>
      let r := s.drop k
      if n ≥ 2 ^ 63 then .outOfBounds
      else if r.length < n then .ok records
      else
        let r2 := r.drop n
        match readVarNum r2 with
        | none => deserStrMapLoop r2 (OrdMap.emplace bytesLt (r.take n) [] records)
        | some (m, j) =>
          let r3 := r2.drop j
          if m ≥ 2 ^ 63 then .throws
          else if r3.length < m then .ok records
          else deserStrMapLoop (r3.drop m) (OrdMap.emplace bytesLt (r.take n) (r3.take m) records)
termination_by s.length
decreasing_by
  all_goals
    have := readVarNum_used h
    have : s.length ≠ 0 := by simpa using _hs
    simp +zetaDelta only [List.length_drop]; omega

/-- `DeserializeStrMap` (tkrzw_str_util.cc 2170-2198). -/
def deserializeStrMap (s : Bytes) : Deser (List (Bytes × Bytes)) :=
  let size := toInt32 s.length
  if size ≤ 0 then .ok [] else deserStrMapLoop (s.take size.toNat) []

/-- `SerializeBasicVector<T>` (tkrzw_str_util.h 933-942) for an unsigned type of `w` bytes: each value in big-endian
order (`xmemcpybigendian`). -/
def serializeBasicVector (w : Nat) (values : List Nat) : Bytes := values.flatMap (fun v => writeFixNum v w)

/-- `DeserializeBasicVector<T>` (tkrzw_str_util.h 951-965). -/
def deserBasicLoop (w : Nat) : Nat → Bytes → List Nat
  | 0, _ => []
  | k + 1, s => readFixNum s w :: deserBasicLoop w k (s.drop w)

/-- `DeserializeBasicVector<T>` (tkrzw_str_util.h 951-965). -/
def deserializeBasicVector (w : Nat) (s : Bytes) : List Nat := deserBasicLoop w (s.length / w) s

/-- The number `SerializeIntVectorDelta<T>` encodes for one value of a signed type of `bits` bits (32 or 64), or
nothing when the multiplication overflows the type, which is undefined in C++ (tkrzw_str_util.h 980-988). -/
def deltaNum (bits : Nat) (zigzag : Bool) (value : Int) : Option Nat :=
  if zigzag then
    if value < 0 then
      let m := (value + 1) * -2
      if m < 2 ^ (bits - 1) then some (m.toNat + 1) else none
    else
      let m := value * 2
      if m < 2 ^ (bits - 1) then some m.toNat else none
  else some (value % 2 ^ 64).toNat

/-- `SerializeIntVectorDelta<T>` (tkrzw_str_util.h 973-1058); the branches over `num` are those of `WriteVarNum`. -/
def serializeIntVectorDelta (bits : Nat) (zigzag : Bool) : List Int → Option Bytes
  | [] => some []
  | v :: vs => do
    let num ← deltaNum bits zigzag v
    let rest ← serializeIntVectorDelta bits zigzag vs
    return writeVarNum num ++ rest

/-- Conversion of an integer to a signed type of `bits` bits. -/
def toSigned (bits : Nat) (n : Int) : Int :=
  let m := n % 2 ^ bits
  if m < 2 ^ (bits - 1) then m else m - 2 ^ bits

/-- The inner loop of `DeserializeIntVectorDelta<T>` (tkrzw_str_util.h 1075-1082): unlike `ReadVarNum` it keeps the
digits of a truncated number. -/
def deltaDigits : Bytes → Nat → Nat × Bytes
  | [], num => (num, [])
  | c :: rest, num =>
    let num := ((num <<< 7) + (c.toNat &&& 0x7f)) % 2 ^ 64
    if c.toNat ≥ 0x80 then deltaDigits rest num else (num, rest)

theorem deltaDigits_len (s : Bytes) : ∀ num, (deltaDigits s num).2.length ≤ s.length := by
  induction s with
  | nil => intro num; simp [deltaDigits]
  | cons c s ih =>
    intro num
    simp only [deltaDigits]
    split
    · exact Nat.le_trans (ih _) (by simp)
    · simp

/-- `DeserializeIntVectorDelta<T>` (tkrzw_str_util.h 1067-1094) for a signed type of `bits` bits. -/
def deserializeIntVectorDelta (bits : Nat) (zigzag : Bool) : Bytes → List Int
  | [] => []
  | c :: s =>
    let d := deltaDigits (c :: s) 0
    let v := if zigzag then
        if d.1 % 2 = 1 then toSigned bits ((d.1 - 1) / 2 : Nat) * -1 - 1 else toSigned bits (d.1 / 2 : Nat)
      else toSigned bits d.1
    v :: deserializeIntVectorDelta bits zigzag d.2
termination_by s => s.length
decreasing_by
  simp only [deltaDigits]
  split
  · exact Nat.lt_of_le_of_lt (deltaDigits_len _ _) (by simp)
  · simp

end Verif.Codec
