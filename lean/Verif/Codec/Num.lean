import Verif.Prelude.Bytes
/-
Model of the integer codecs of tkrzw_sys_config.h and their users in tkrzw_str_util.cc.
`uint64_t` values are `Nat`s; every place where the C++ arithmetic wraps has an explicit `% 2^64`.
-/
namespace Verif.Codec
open Verif

/-- The low byte of a number (conversion of an integer to `unsigned char`). -/
def byte (n : Nat) : UInt8 := UInt8.ofNat n

/-- The eight bytes of `HostToNet64(num)` in memory order, i.e. big-endian
(tkrzw_sys_config.h 407-413 `HostToNet64`, both byte orders of the host give this memory image). -/
def be64 (num : Nat) : Bytes :=
  [byte (num >>> 56), byte (num >>> 48), byte (num >>> 40), byte (num >>> 32),
   byte (num >>> 24), byte (num >>> 16), byte (num >>> 8), byte num]

/-- Memory image of 8 bytes read as a big-endian number (`NetToHost64`, tkrzw_sys_config.h 423-425). -/
def fromBe64 (bs : Bytes) : Nat := bs.foldl (fun a b => a * 256 + b.toNat) 0

/-- `WriteFixNum` (tkrzw_sys_config.h 427-431): copies the last `width` of the 8 big-endian bytes. -/
def writeFixNum (num width : Nat) : Bytes := (be64 num).drop (8 - width)

/-- `ReadFixNum` (tkrzw_sys_config.h 433-438): copies `width` bytes to the front of a zeroed 64-bit buffer,
swaps, and shifts right. The caller guarantees that `width` bytes are present (`take` pads nothing; a shorter
buffer would be an out-of-bounds read in C++ and is excluded by hypothesis in the theorems). -/
def readFixNum (buf : Bytes) (width : Nat) : Nat :=
  fromBe64 (buf.take width ++ List.replicate (8 - width) 0) >>> ((8 - width) * 8)

/-- Middle byte of `WriteVarNum`: `(x & 0x7f) | 0x80`. -/
def midByte (x : Nat) : UInt8 := byte ((x &&& 0x7f) ||| 0x80)
/-- First byte of a multi-byte `WriteVarNum`: `x | 0x80`. -/
def topByte (x : Nat) : UInt8 := byte (x ||| 0x80)
/-- Last byte of a multi-byte `WriteVarNum`: `x & 0x7f`. -/
def lastByte (x : Nat) : UInt8 := byte (x &&& 0x7f)

/-- `WriteVarNum` (tkrzw_sys_config.h 440-510), branch by branch. -/
def writeVarNum (num : Nat) : Bytes :=
  if num < 1 <<< 7 then [byte num]
  else if num < 1 <<< 14 then [topByte (num >>> 7), lastByte num]
  else if num < 1 <<< 21 then [topByte (num >>> 14), midByte (num >>> 7), lastByte num]
  else if num < 1 <<< 28 then
    [topByte (num >>> 21), midByte (num >>> 14), midByte (num >>> 7), lastByte num]
  else if num < 1 <<< 35 then
    [topByte (num >>> 28), midByte (num >>> 21), midByte (num >>> 14), midByte (num >>> 7), lastByte num]
  else if num < 1 <<< 42 then
    [topByte (num >>> 35), midByte (num >>> 28), midByte (num >>> 21), midByte (num >>> 14),
     midByte (num >>> 7), lastByte num]
  else if num < 1 <<< 49 then
    [topByte (num >>> 42), midByte (num >>> 35), midByte (num >>> 28), midByte (num >>> 21),
     midByte (num >>> 14), midByte (num >>> 7), lastByte num]
  else if num < 1 <<< 56 then
    [topByte (num >>> 49), midByte (num >>> 42), midByte (num >>> 35), midByte (num >>> 28),
     midByte (num >>> 21), midByte (num >>> 14), midByte (num >>> 7), lastByte num]
  else if num < 1 <<< 63 then
    [topByte (num >>> 56), midByte (num >>> 49), midByte (num >>> 42), midByte (num >>> 35),
     midByte (num >>> 28), midByte (num >>> 21), midByte (num >>> 14), midByte (num >>> 7), lastByte num]
  else
    [topByte (num >>> 63), midByte (num >>> 56), midByte (num >>> 49), midByte (num >>> 42),
     midByte (num >>> 35), midByte (num >>> 28), midByte (num >>> 21), midByte (num >>> 14),
     midByte (num >>> 7), lastByte num]

/-- `SizeVarNum` (tkrzw_sys_config.h 545-556). -/
def sizeVarNum (num : Nat) : Nat :=
  if num < 1 <<< 7 then 1
  else if num < 1 <<< 14 then 2
  else if num < 1 <<< 21 then 3
  else if num < 1 <<< 28 then 4
  else if num < 1 <<< 35 then 5
  else if num < 1 <<< 42 then 6
  else if num < 1 <<< 49 then 7
  else if num < 1 <<< 56 then 8
  else if num < 1 <<< 63 then 9
  else 10

/-- Loop of the bounded `ReadVarNum` (tkrzw_sys_config.h 512-529): `acc` is `num`, `used` is `rp - buf`.
`none` is the return value 0 with `*np = 0`. The addition wraps at 64 bits. -/
def readVarNumLoop : Bytes → Nat → Nat → Option (Nat × Nat)
  | [], _, _ => none
  | c :: rest, acc, used =>
    let num := ((acc <<< 7) + (c.toNat &&& 0x7f)) % 2 ^ 64
    if c.toNat ≥ 0x80 then readVarNumLoop rest num (used + 1) else some (num, used + 1)

/-- The bounded `ReadVarNum` (tkrzw_sys_config.h 512-529): the number and the consumed size. -/
def readVarNum (buf : Bytes) : Option (Nat × Nat) := readVarNumLoop buf 0 0

/-- `IntToStrBigEndian` (tkrzw_str_util.cc 497-505). -/
def intToStrBigEndian (data size : Nat) : Bytes :=
  if size < 1 then [] else writeFixNum data (min size 8)

/-- `StrToIntBigEndian` (tkrzw_str_util.cc 314-320). -/
def strToIntBigEndian (str : Bytes) : Nat :=
  if str.isEmpty then 0 else readFixNum str (min str.length 8)

/-- `IntToStrDelta` (tkrzw_str_util.cc 521-532), `data` a `uint64_t`, unsigned wrap-around arithmetic. -/
def intToStrDelta (data : Nat) (zigzag : Bool) : Bytes :=
  let data :=
    if zigzag then
      if data > 2 ^ 63 - 1 then (((data + 1) % 2 ^ 64) * (2 ^ 64 - 2) + 1) % 2 ^ 64
      else (data * 2) % 2 ^ 64
    else data
  writeVarNum data

/-- `StrToIntDelta` (tkrzw_str_util.cc 341-352). `static_cast<int64_t>((num - 1) / 2) * -1 - 1` is computed in
`int64_t` (it cannot overflow because `(num-1)/2 < 2^63`) and converted back to `uint64_t`. -/
def strToIntDelta (str : Bytes) (zigzag : Bool) : Nat :=
  let num := match readVarNum str with
    | some (n, _) => n
    | none => 0
  if zigzag then
    if num % 2 = 1 then ((-(((num - 1) / 2 : Nat) : Int) - 1) % (2 ^ 64 : Int)).toNat
    else num / 2
  else num

end Verif.Codec
