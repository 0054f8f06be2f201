import Verif.Compress.AesTables
/-
The AES block cipher of tkrzw_sys_compress_aes.h 686-1053.

A `uint32_t` is modelled as its four bytes, the highest first: all that the code does with such numbers is to make them of bytes, to take
their bytes by shifting, to mask bytes out and to add them by `^`, each of which acts byte by byte. The rounds, which are written out one after
another in the code (for 10, 12 or 14 rounds), are a loop here. An array of round keys is a list; the pointer that moves along it is an index.
-/
namespace Verif.Aes
open Verif

/-- A `uint32_t` as its bytes. -/
structure W where
  b3 : UInt8
  b2 : UInt8
  b1 : UInt8
  b0 : UInt8
  deriving DecidableEq

/-- `^` of numbers. -/
def W.add (x y : W) : W := ⟨x.b3 ^^^ y.b3, x.b2 ^^^ y.b2, x.b1 ^^^ y.b1, x.b0 ^^^ y.b0⟩

instance : Add W := ⟨W.add⟩

/-- A number written in a table. -/
def W.ofNat (n : Nat) : W := ⟨UInt8.ofNat (n / 2 ^ 24), UInt8.ofNat (n / 2 ^ 16), UInt8.ofNat (n / 2 ^ 8), UInt8.ofNat n⟩

/-- An element of a table. -/
def look (t : List Nat) (x : UInt8) : W := W.ofNat (t.getD x.toNat 0)

/-- A block of 16 bytes, as four numbers. -/
structure Block where
  w0 : W
  w1 : W
  w2 : W
  w3 : W
  deriving DecidableEq

/-- `AES_GETU32` of the bytes at an offset (tkrzw_sys_compress_aes.h 692-694). -/
def getW (b : Bytes) (off : Nat) : W := ⟨b.getD off 0, b.getD (off + 1) 0, b.getD (off + 2) 0, b.getD (off + 3) 0⟩

/-- `AES_PUTU32` (tkrzw_sys_compress_aes.h 696-698). -/
def W.bytes (w : W) : Bytes := [w.b3, w.b2, w.b1, w.b0]

def Block.of (b : Bytes) : Block := ⟨getW b 0, getW b 4, getW b 8, getW b 12⟩

def Block.bytes (x : Block) : Bytes := x.w0.bytes ++ x.w1.bytes ++ x.w2.bytes ++ x.w3.bytes

def Block.add (x y : Block) : Block := ⟨x.w0 + y.w0, x.w1 + y.w1, x.w2 + y.w2, x.w3 + y.w3⟩

instance : Add Block := ⟨Block.add⟩

/-- The round key at an index. -/
def keyAt (rk : List W) (i : Nat) : W := rk.getD i ⟨0, 0, 0, 0⟩

/-- The round keys of round `r`. -/
def keys (rk : List W) (r : Nat) : Block := ⟨keyAt rk (4 * r), keyAt rk (4 * r + 1), keyAt rk (4 * r + 2), keyAt rk (4 * r + 3)⟩

/-- A byte of `aes_te4` or `aes_td4` with all the others masked out, put together (tkrzw_sys_compress_aes.h 706-708 and so on). -/
def masked (t : List Nat) (x3 x2 x1 x0 : UInt8) : W :=
  ⟨(look t x3).b3, 0, 0, 0⟩ + ⟨0, (look t x2).b2, 0, 0⟩ + ⟨0, 0, (look t x1).b1, 0⟩ + ⟨0, 0, 0, (look t x0).b0⟩

/-- The four words that a turn of the loop for 128 bits adds to the round keys, which end in `k0`..`k3` (tkrzw_sys_compress_aes.h 708-714). -/
def turn128 (i : Nat) (k0 k1 k2 k3 : W) : List W :=
  let r4 := k0 + masked te4Table k3.b2 k3.b1 k3.b0 k3.b3 + W.ofNat (rconTable.getD i 0)
  let r5 := k1 + r4
  let r6 := k2 + r5
  let r7 := k3 + r6
  [r4, r5, r6, r7]

/-- The loop for 128 bits (tkrzw_sys_compress_aes.h 706-720), `n` turns being left. -/
def loop128 : Nat → Nat → List W → List W
  | 0, _, rk => rk
  | n + 1, i, rk => loop128 n (i + 1) (rk ++ turn128 i (keyAt rk (4 * i)) (keyAt rk (4 * i + 1)) (keyAt rk (4 * i + 2)) (keyAt rk (4 * i + 3)))

/-- A turn of the loop for 256 bits (tkrzw_sys_compress_aes.h 744-763); the last one ends in the middle. -/
def turn256 (last : Bool) (i : Nat) (k0 k1 k2 k3 k4 k5 k6 k7 : W) : List W :=
  let r8 := k0 + masked te4Table k7.b2 k7.b1 k7.b0 k7.b3 + W.ofNat (rconTable.getD i 0)
  let r9 := k1 + r8
  let r10 := k2 + r9
  let r11 := k3 + r10
  if last then [r8, r9, r10, r11]
  else
    let r12 := k4 + masked te4Table r11.b3 r11.b2 r11.b1 r11.b0
    let r13 := k5 + r12
    let r14 := k6 + r13
    let r15 := k7 + r14
    [r8, r9, r10, r11, r12, r13, r14, r15]

/-- The loop for 256 bits (tkrzw_sys_compress_aes.h 742-764). -/
def loop256 : Nat → Nat → List W → List W
  | 0, _, rk => rk
  | n + 1, i, rk => loop256 n (i + 1) (rk ++ turn256 (n == 0) i (keyAt rk (8 * i)) (keyAt rk (8 * i + 1)) (keyAt rk (8 * i + 2)) (keyAt rk (8 * i + 3))
      (keyAt rk (8 * i + 4)) (keyAt rk (8 * i + 5)) (keyAt rk (8 * i + 6)) (keyAt rk (8 * i + 7)))

/-- `AESKeySetupEnc` (tkrzw_sys_compress_aes.h 700-766) of a key of 16 or 32 bytes: the round keys and the number of rounds. The loop for 192
bits is not modelled: nothing calls the function with such a key. -/
def setupEnc (key : Bytes) (size : Nat) : List W × Nat :=
  let head := [getW key 0, getW key 4, getW key 8, getW key 12]
  if size = 16 then (loop128 10 0 head, 10)
  else (loop256 7 0 (head ++ [getW key 16, getW key 20, getW key 24, getW key 28]), 14)

/-- The loop that reverses the round keys (tkrzw_sys_compress_aes.h 771-776): `a` rounds from the beginning are exchanged with those from the
end. -/
def swapKeys (n : Nat) (rk : List W) : List W :=
  (List.range (n + 1)).flatMap fun r => [keyAt rk (4 * (n - r)), keyAt rk (4 * (n - r) + 1), keyAt rk (4 * (n - r) + 2), keyAt rk (4 * (n - r) + 3)]

/-- What is done to a round key for decryption (tkrzw_sys_compress_aes.h 779-782). -/
def unmix (w : W) : W :=
  look td0Table (look te4Table w.b3).b0 + look td1Table (look te4Table w.b2).b0 + look td2Table (look te4Table w.b1).b0 + look td3Table (look te4Table w.b0).b0

/-- The loop that prepares the round keys but those of the first and the last rounds (tkrzw_sys_compress_aes.h 777-795). -/
def unmixKeys (n : Nat) (rk : List W) : List W :=
  (List.range rk.length).map fun i => if 4 ≤ i ∧ i < 4 * n then unmix (keyAt rk i) else keyAt rk i

/-- `AESKeySetupDec` (tkrzw_sys_compress_aes.h 768-797). -/
def setupDec (key : Bytes) (size : Nat) : List W × Nat :=
  let e := setupEnc key size
  (unmixKeys e.2 (swapKeys e.2 e.1), e.2)

/-- One word of a round of encryption (tkrzw_sys_compress_aes.h 804-805). -/
def encWord (x3 x2 x1 x0 : W) : W := look te0Table x3.b3 + look te1Table x2.b2 + look te2Table x1.b1 + look te3Table x0.b0

/-- One round of encryption (tkrzw_sys_compress_aes.h 804-811). -/
def encRound (s : Block) (k : Block) : Block :=
  ⟨encWord s.w0 s.w1 s.w2 s.w3 + k.w0, encWord s.w1 s.w2 s.w3 s.w0 + k.w1, encWord s.w2 s.w3 s.w0 s.w1 + k.w2, encWord s.w3 s.w0 s.w1 s.w2 + k.w3⟩

/-- The last round of encryption (tkrzw_sys_compress_aes.h 912-924). -/
def encLast (t : Block) (k : Block) : Block :=
  ⟨masked te4Table t.w0.b3 t.w1.b2 t.w2.b1 t.w3.b0 + k.w0, masked te4Table t.w1.b3 t.w2.b2 t.w3.b1 t.w0.b0 + k.w1,
   masked te4Table t.w2.b3 t.w3.b2 t.w0.b1 t.w1.b0 + k.w2, masked te4Table t.w3.b3 t.w0.b2 t.w1.b1 t.w2.b0 + k.w3⟩

/-- The rounds of encryption but the last (tkrzw_sys_compress_aes.h 804-910). -/
def encRounds (rk : List W) (n : Nat) (s : Block) : Block := (List.range (n - 1)).foldl (fun s r => encRound s (keys rk (r + 1))) s

/-- `AESEncrypt` (tkrzw_sys_compress_aes.h 799-925). -/
def encrypt (k : List W × Nat) (pt : Bytes) : Bytes :=
  (encLast (encRounds k.1 k.2 (Block.of pt + keys k.1 0)) (keys k.1 k.2)).bytes

/-- One word of a round of decryption (tkrzw_sys_compress_aes.h 932-933). -/
def decWord (x3 x2 x1 x0 : W) : W := look td0Table x3.b3 + look td1Table x2.b2 + look td2Table x1.b1 + look td3Table x0.b0

/-- One round of decryption (tkrzw_sys_compress_aes.h 932-939). -/
def decRound (s : Block) (k : Block) : Block :=
  ⟨decWord s.w0 s.w3 s.w2 s.w1 + k.w0, decWord s.w1 s.w0 s.w3 s.w2 + k.w1, decWord s.w2 s.w1 s.w0 s.w3 + k.w2, decWord s.w3 s.w2 s.w1 s.w0 + k.w3⟩

/-- The last round of decryption (tkrzw_sys_compress_aes.h 1040-1052). -/
def decLast (t : Block) (k : Block) : Block :=
  ⟨masked td4Table t.w0.b3 t.w3.b2 t.w2.b1 t.w1.b0 + k.w0, masked td4Table t.w1.b3 t.w0.b2 t.w3.b1 t.w2.b0 + k.w1,
   masked td4Table t.w2.b3 t.w1.b2 t.w0.b1 t.w3.b0 + k.w2, masked td4Table t.w3.b3 t.w2.b2 t.w1.b1 t.w0.b0 + k.w3⟩

/-- The rounds of decryption but the last (tkrzw_sys_compress_aes.h 932-1038). -/
def decRounds (rk : List W) (n : Nat) (s : Block) : Block := (List.range (n - 1)).foldl (fun s r => decRound s (keys rk (r + 1))) s

/-- `AESDecrypt` (tkrzw_sys_compress_aes.h 927-1053). -/
def decrypt (k : List W × Nat) (ct : Bytes) : Bytes :=
  (decLast (decRounds k.1 k.2 (Block.of ct + keys k.1 0)) (keys k.1 k.2)).bytes

/-! ### Known answers (FIPS 197, appendix C) -/

def fipsKey (n : Nat) : Bytes := (List.range n).map UInt8.ofNat

def fipsText : Bytes := (List.range 16).map fun i => UInt8.ofNat (i * 17)

example : encrypt (setupEnc (fipsKey 16) 16) fipsText =
    [0x69, 0xc4, 0xe0, 0xd8, 0x6a, 0x7b, 0x04, 0x30, 0xd8, 0xcd, 0xb7, 0x80, 0x70, 0xb4, 0xc5, 0x5a] := by decide +kernel

example : encrypt (setupEnc (fipsKey 32) 32) fipsText =
    [0x8e, 0xa2, 0xb7, 0xca, 0x51, 0x67, 0x45, 0xbf, 0xea, 0xfc, 0x49, 0x90, 0x4b, 0x49, 0x60, 0x89] := by decide +kernel

example : decrypt (setupDec (fipsKey 32) 32) (encrypt (setupEnc (fipsKey 32) 32) fipsText) = fipsText := by decide +kernel

end Verif.Aes
