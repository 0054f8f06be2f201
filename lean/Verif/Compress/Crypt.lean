import Verif.Codec.Num
import Verif.Hashing.Crc
import Verif.Compress.Aes
/-
The compressors of tkrzw_compress.cc that are in the code itself: DummyCompressor, RC4Compressor and AESCompressor. Those that call
other libraries (ZLib, ZStd, LZ4, LZMA) are not modelled. The random numbers are arguments, and a null pointer is `none`.
-/
namespace Verif.Compress
open Verif Verif.Codec

/-! ### DummyCompressor -/

/-- `HashCRC32` with the default arguments (tkrzw_hash_util.h, tkrzw_hash_util.cc 386-424); `lead` is the number of bytes before an aligned address. -/
def crcOf (lead : Nat) (data : Bytes) : Nat := (Crc.crc32 lead data true 0xFFFFFFFF#32).toNat

/-- `DummyCompressor::Compress` (tkrzw_compress.cc 55-68). -/
def dummyCompress (checksum : Bool) (lead : Nat) (data : Bytes) : Bytes :=
  if checksum then writeFixNum (crcOf lead data) 4 ++ data else data

/-- `DummyCompressor::Decompress` (tkrzw_compress.cc 70-91). -/
def dummyDecompress (checksum : Bool) (lead : Nat) (buf : Bytes) : Option Bytes :=
  if checksum then
    if buf.length < 4 then none
    else if crcOf lead (buf.drop 4) ≠ readFixNum buf 4 then none
    else some (buf.drop 4)
  else some buf

/-! ### RC4Compressor -/

/-- `key_` (tkrzw_compress.cc 446-449). -/
def rc4Key (key : Bytes) : Bytes := if key = [] then [0] else key

/-- `kbox` (tkrzw_compress.cc 484-490): of the key and the nonce. A byte of the nonce is a `char` and can become a large number; only its low
byte matters, as the sum is masked. -/
def kbox (key iv : Bytes) : List Nat :=
  (List.range 256).map fun i =>
    let v := i % (key.length + 6)
    if v < key.length then (key.getD v 0).toNat else (iv.getD (v - key.length) 0).toNat

/-- Exchanging two elements, by an assignment after another (tkrzw_compress.cc 495-497, 506-508). -/
def swap (s : List Nat) (i j : Nat) : List Nat :=
  let t := s.getD i 0
  let s := s.set i (s.getD j 0)
  s.set j t

/-- The loop that mixes the box (tkrzw_compress.cc 492-498), from index `i`. -/
def mixBox (k : List Nat) : Nat → Nat → Nat → List Nat → List Nat
  | 0, _, _, s => s
  | n + 1, i, sidx, s =>
    let sidx := (sidx + s.getD i 0 + k.getD i 0) % 256
    mixBox k n (i + 1) sidx (swap s i sidx)

/-- The loop over the data (tkrzw_compress.cc 503-510, 548-555). -/
def rc4Loop : List Nat → Nat → Nat → Bytes → Bytes
  | _, _, _, [] => []
  | s, x, y, b :: bs =>
    let x := (x + 1) % 256
    let y := (y + s.getD x 0) % 256
    let s := swap s x y
    (b ^^^ UInt8.ofNat (s.getD ((s.getD x 0 + s.getD y 0) % 256) 0)) :: rc4Loop s x y bs

/-- The box made of the key and the nonce (tkrzw_compress.cc 480-498, 525-543). -/
def rc4Box (key iv : Bytes) : List Nat := mixBox (kbox key iv) 256 0 0 (List.range 256)

/-- `RC4Compressor::Compress` (tkrzw_compress.cc 469-513) with the random number `iv`. -/
def rc4Compress (key : Bytes) (iv : Nat) (data : Bytes) : Bytes :=
  let ivp := writeFixNum iv 6
  ivp ++ rc4Loop (rc4Box (rc4Key key) ivp) 0 0 data

/-- `RC4Compressor::Decompress` (tkrzw_compress.cc 515-558). -/
def rc4Decompress (key buf : Bytes) : Option Bytes :=
  if buf.length < 6 then none
  else some (rc4Loop (rc4Box (rc4Key key) (buf.take 6)) 0 0 (buf.drop 6))

/-! ### AESCompressor -/

/-- `bin_key` of a long key (tkrzw_compress.cc 579-581). -/
def foldKey : Nat → Bytes → Bytes → Bytes
  | _, bin, [] => bin
  | i, bin, b :: bs => foldKey (i + 1) (bin.set (i % 32) (bin.getD (i % 32) 0 ^^^ b)) bs

/-- `bin_key` and `key_size` (tkrzw_compress.cc 566-583). -/
def aesKey (key : Bytes) : Bytes × Nat :=
  if key.length ≤ 32 then
    let rem := key.length % 16
    let size := if rem > 0 then key.length + 16 - rem else 0
    (key ++ List.replicate (32 - key.length) 0, if size < 16 then 16 else size)
  else (foldKey 0 (List.replicate 32 0) key, 32)

/-- `enc_rk_` and `enc_rounds_` (tkrzw_compress.cc 594). -/
def aesEnc (key : Bytes) : List Aes.W × Nat := Aes.setupEnc (aesKey key).1 (aesKey key).2

/-- `dec_rk_` and `dec_rounds_` (tkrzw_compress.cc 595). -/
def aesDec (key : Bytes) : List Aes.W × Nat := Aes.setupDec (aesKey key).1 (aesKey key).2

/-- `AESBlockXOR` (tkrzw_sys_compress_aes.h 1055-1064). -/
def blockXor (a b : Bytes) : Bytes := List.zipWith (· ^^^ ·) (a.take 16) (b.take 16)

/-- The loop of encryption and what follows it (tkrzw_compress.cc 628-641); `pp` is the block before. `AESBlockXORSized`
(tkrzw_sys_compress_aes.h 1066-1071) changes the first bytes of a block that is filled with their number. -/
def aesEncLoop (k : List Aes.W × Nat) (pp data : Bytes) : Bytes :=
  if 16 ≤ data.length then
    Aes.encrypt k (blockXor data pp) ++ aesEncLoop k (data.take 16) (data.drop 16)
  else
    Aes.encrypt k (List.zipWith (· ^^^ ·) data pp ++ List.replicate (16 - data.length) (UInt8.ofNat data.length))
  termination_by data.length
  decreasing_by rw [List.length_drop]; omega

/-- `AESCompressor::Compress` (tkrzw_compress.cc 610-644) with the random numbers. -/
def aesCompress (key : Bytes) (iv1 iv2 : Nat) (data : Bytes) : Bytes :=
  let ivbuf := writeFixNum iv1 8 ++ writeFixNum iv2 8
  Aes.encrypt (aesEnc key) ivbuf ++ aesEncLoop (aesEnc key) ivbuf data

/-- The loop of decryption (tkrzw_compress.cc 660-671): what has been written, and `rem_size`. -/
def aesDecLoop (k : List Aes.W × Nat) (pp buf out : Bytes) (rem : Nat) : Bytes × Nat :=
  if 16 ≤ buf.length then
    let w := blockXor (Aes.decrypt k (buf.take 16)) pp
    aesDecLoop k w (buf.drop 16) (out ++ w) (w.getD 15 0 ^^^ pp.getD 15 0).toNat
  else (out, rem)
  termination_by buf.length
  decreasing_by rw [List.length_drop]; omega

/-- `AESCompressor::Decompress` (tkrzw_compress.cc 646-679). `rem_size` is made of `char`s: one that is negative becomes a number above 16, as
here. -/
def aesDecompress (key buf : Bytes) : Option Bytes :=
  if buf.length < 32 ∨ buf.length % 16 ≠ 0 then none
  else
    let ivbuf := Aes.decrypt (aesDec key) (buf.take 16)
    let r := aesDecLoop (aesDec key) ivbuf (buf.drop 16) [] 0
    if r.2 > 16 then none
    else some (r.1.take (r.1.length - (16 - r.2)))

end Verif.Compress
