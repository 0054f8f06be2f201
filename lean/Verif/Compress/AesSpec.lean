import Verif.Compress.Aes
/-
The specification of AES for C61.
-/
namespace Verif.Aes
open Verif

/-! ### SPECIFICATION: the cipher of FIPS 197, by arithmetic in GF(2^8) and without tables

A state is a list of 16 bytes, column after column. -/
namespace Fips

/-- Multiplication by x (FIPS 197, 4.2.1). -/
def xtime (b : UInt8) : UInt8 := ⟨b.toBitVec <<< 1 ^^^ (if b.toBitVec.msb then 0x1b#8 else 0#8)⟩

/-- Multiplication (FIPS 197, 4.2): the sum of `xtime^i b` for the bits `i` of `a`. -/
def mulBits : Nat → Nat → UInt8 → UInt8
  | 0, _, _ => 0
  | n + 1, a, b => (if a % 2 = 1 then b else 0) ^^^ mulBits n (a / 2) (xtime b)

def mul (a b : UInt8) : UInt8 := mulBits 8 a.toNat b

def sq (a : UInt8) : UInt8 := mul a a

/-- The inverse, by `a^254`; that of zero is zero. -/
def inv (a : UInt8) : UInt8 :=
  let a2 := sq a
  let a3 := mul a2 a
  let a6 := sq a3
  let a7 := mul a6 a
  let a14 := sq a7
  let a15 := mul a14 a
  let a30 := sq a15
  let a31 := mul a30 a
  let a62 := sq a31
  let a63 := mul a62 a
  let a126 := sq a63
  let a127 := mul a126 a
  sq a127

/-- `inv` is the inverse. -/
example : ∀ n, n < 256 → n ≠ 0 → mul (UInt8.ofNat n) (inv (UInt8.ofNat n)) = 1 := by decide +kernel

def rot (b : UInt8) (k : Nat) : UInt8 := ⟨b.toBitVec.rotateLeft k⟩

/-- The S-box (FIPS 197, 5.1.1). -/
def sbox (b : UInt8) : UInt8 :=
  let x := inv b
  x ^^^ rot x 1 ^^^ rot x 2 ^^^ rot x 3 ^^^ rot x 4 ^^^ 0x63

def xors (a b : Bytes) : Bytes := List.zipWith (· ^^^ ·) a b

/-- `SubBytes`. -/
def subBytes (s : Bytes) : Bytes := s.map sbox

/-- `ShiftRows`: row `r` is shifted by `r` columns. -/
def shiftRows (s : Bytes) : Bytes := (List.range 16).map fun i => s.getD (i % 4 + 4 * ((i / 4 + i % 4) % 4)) 0

/-- A column of `MixColumns`. -/
def mixColumn (a b c d : UInt8) : Bytes :=
  [mul 2 a ^^^ mul 3 b ^^^ c ^^^ d, a ^^^ mul 2 b ^^^ mul 3 c ^^^ d, a ^^^ b ^^^ mul 2 c ^^^ mul 3 d, mul 3 a ^^^ b ^^^ c ^^^ mul 2 d]

/-- `MixColumns`. -/
def mixColumns (s : Bytes) : Bytes :=
  (List.range 4).flatMap fun c => mixColumn (s.getD (4 * c) 0) (s.getD (4 * c + 1) 0) (s.getD (4 * c + 2) 0) (s.getD (4 * c + 3) 0)

/-- x^n. -/
def rcon : Nat → UInt8
  | 0 => 1
  | n + 1 => xtime (rcon n)

/-- A word of the key expansion (FIPS 197, 5.2), for a key of `nk` words. -/
def word (key : Bytes) (nk : Nat) (i : Nat) : Bytes :=
  if h : nk = 0 ∨ i < nk then [key.getD (4 * i) 0, key.getD (4 * i + 1) 0, key.getD (4 * i + 2) 0, key.getD (4 * i + 3) 0]
  else
    let temp := word key nk (i - 1)
    let temp :=
      if i % nk = 0 then xors (subBytes (temp.drop 1 ++ temp.take 1)) [rcon (i / nk - 1), 0, 0, 0]
      else if nk > 6 ∧ i % nk = 4 then subBytes temp
      else temp
    xors (word key nk (i - nk)) temp
  termination_by i
  decreasing_by
  · omega
  · omega

/-- The key of a round. -/
def roundKey (key : Bytes) (nk : Nat) (r : Nat) : Bytes := (List.range 4).flatMap fun c => word key nk (4 * r + c)

/-- `Cipher` (FIPS 197, 5.1), for a key of `nk` words and `nk + 6` rounds. -/
def cipher (key : Bytes) (nk : Nat) (input : Bytes) : Bytes :=
  let s := xors input (roundKey key nk 0)
  let s := (List.range (nk + 5)).foldl (fun s r => xors (mixColumns (shiftRows (subBytes s))) (roundKey key nk (r + 1))) s
  xors (shiftRows (subBytes s)) (roundKey key nk (nk + 6))

end Fips

end Verif.Aes
