import Verif.Hash.Props
import Verif.Hash.CrashProps
import Verif.Hashing.CrcProps
import Verif.Hashing.Checksum

/-
The hash functions and the checksums which HashDBM uses: the parameter `Env` of its model, instantiated.
-/
namespace Verif.Hashing
open Verif.Hash

/-! ### The model -/

def mul : BitVec 64 := 0xc6a4a7935bd1e995#64

/-- A byte as `uint64_t`. -/
def wide64 (b : UInt8) : BitVec 64 := b.toBitVec.setWidth 64

/-- The word of up to eight bytes, the first being the least significant. -/
def word64 : Bytes → BitVec 64
  | [] => 0
  | b :: bs => wide64 b ||| (word64 bs <<< 8)

/-- The loop of `HashMurmur` and the switch after it (tkrzw_hash_util.cc 33-57). -/
def murmurLoop (hash : BitVec 64) : Bytes → BitVec 64
  | b0 :: b1 :: b2 :: b3 :: b4 :: b5 :: b6 :: b7 :: rest =>
    let num := word64 [b0, b1, b2, b3, b4, b5, b6, b7]
    let num := num * mul
    let num := num ^^^ (num >>> 47)
    let num := num * mul
    murmurLoop ((hash * mul) ^^^ num) rest
  | [] => hash
  | rest => (hash ^^^ word64 rest) * mul

/-- `HashMurmur` (tkrzw_hash_util.cc 27-62). -/
def murmur (data : Bytes) (seed : BitVec 64) : BitVec 64 :=
  let hash := murmurLoop (seed ^^^ (BitVec.ofNat 64 data.length * mul)) data
  let hash := hash ^^^ (hash >>> 47)
  let hash := hash * mul
  hash ^^^ (hash >>> 47)

/-- `HashFNV` (tkrzw_hash_util.cc 64-75). -/
def fnvLoop (hash : BitVec 64) : Bytes → BitVec 64
  | [] => hash
  | b :: bs => fnvLoop ((hash ^^^ wide64 b) * 109951162811#64) bs

def fnv (data : Bytes) : BitVec 64 := fnvLoop 14695981039346656037#64 data

/-- The folding of 64 bits to 32 bits (tkrzw_dbm_common_impl.h 40-41, 57-58). -/
def fold32 (hash : BitVec 64) : BitVec 64 :=
  (((hash &&& 0xffff000000000000#64) >>> 48) ||| ((hash &&& 0x0000ffff00000000#64) >>> 16)) ^^^
    (((hash &&& 0x000000000000ffff#64) <<< 16) ||| ((hash &&& 0x00000000ffff0000#64) >>> 16))

/-- `PrimaryHash` (tkrzw_dbm_common_impl.h 36-44). -/
def primaryHash (data : Bytes) (num : Nat) : Nat :=
  let hash := murmur data 19780211#64
  (if num ≤ 2 ^ 32 - 1 then fold32 hash else hash).toNat % num

/-- `SecondaryHash` (tkrzw_dbm_common_impl.h 53-60). -/
def secondaryHash (data : Bytes) (num : Nat) : Nat :=
  let hash := fnv data
  (if num ≤ 2 ^ 32 - 1 then fold32 hash else hash).toNat % num

/-- `MagicChecksum` (tkrzw_dbm_hash_impl.h 425-428). -/
def magicChecksum (k v : Bytes) : Nat := Checksum.checksum6Pair k v 11 + 3

/-- The extra CRC of a record (tkrzw_dbm_hash_impl.cc 238-251), for the addresses modulo four `lk` and `lv` of key and value. -/
def recordCrc (lk lv : Nat) (w : Nat) (k v : Bytes) : Nat :=
  match w with
  | 1 => (Crc.crc8 lv v true (Crc.crc8 lk k false 0)).toNat
  | 2 => (Crc.crc16 v true (Crc.crc16 k false 0)).toNat
  | 4 => (Crc.crc32 lv v true (Crc.crc32 lk k false 0xFFFFFFFF#32)).toNat
  | _ => 0

/-- What HashDBM uses. The addresses do not matter (`recordCrc_lead`). -/
def env : Env := ⟨primaryHash, magicChecksum, recordCrc 0 0⟩

/-! ### Facts -/

/-- The values do not depend on where the data lie in memory. -/
theorem recordCrc_lead (lk lv w : Nat) (k v : Bytes) : recordCrc lk lv w k v = recordCrc 0 0 w k v := by
  unfold recordCrc
  have h1 := Crc.C47_crc_continuous lk lv 0 k v true 0
  have h2 := Crc.C47_crc_continuous 0 0 0 k v true 0
  have h3 := Crc.C47_crc_continuous lk lv 0 k v true 0xFFFFFFFF#32
  have h4 := Crc.C47_crc_continuous 0 0 0 k v true 0xFFFFFFFF#32
  rw [h1.2.1, h2.2.1, h3.2.2.2, h4.2.2.2]

theorem magicChecksum_eq (k v : Bytes) : magicChecksum k v = (11 + Checksum.total (k ++ v)) % 61 + 3 := by
  rw [magicChecksum, (Checksum.C47_checksum [] k v true 11 (by decide)).2.2.1]

/-- The functions of HashDBM meet what its theorems assume of them: so C03 to C10 and the others hold with these functions. -/
theorem env_ok : EnvOk env where
  hash k n hn := Nat.mod_lt _ hn
  sum k v := by
    show 3 ≤ magicChecksum k v ∧ magicChecksum k v < 64
    rw [magicChecksum_eq]; omega
  crc w k v := by
    show recordCrc 0 0 w k v < 256 ^ w
    have hd : ∀ n, 0 < 256 ^ n := fun n => Nat.pow_pos (by decide)
    unfold recordCrc
    split
    · have h1 := (Crc.C47_crc8 0 k false 0 (by decide)).2
      exact (Crc.C47_crc8 0 v true _ h1).2
    · exact (Crc.C47_crc16 v true _).2
    · exact BitVec.isLt _
    · exact hd _

/-! ### C47: what the check of a record detects -/

/-- C47: if a database keeps an extra CRC of any width, the check of a record fails when any one byte of its key or value is changed, whichever
byte and wherever. -/
theorem C47_record_crc_detects (w : Nat) (hw : w = 1 ∨ w = 2 ∨ w = 4) (k v k' v' a b : Bytes) (x y : UInt8) (hxy : x ≠ y)
    (h1 : k ++ v = a ++ x :: b) (h2 : k' ++ v' = a ++ y :: b) : env.crc w k v ≠ env.crc w k' v' := by
  intro h
  apply hxy
  have hd := fun s => Crc.C47_crc_detects 0 0 a [x] [y] b true s rfl
  have hc := fun s => Crc.C47_crc_continuous 0 0 0 k v true s
  have hc' := fun s => Crc.C47_crc_continuous 0 0 0 k' v' true s
  have e1 : k ++ v = a ++ [x] ++ b := by simpa using h1
  have e2 : k' ++ v' = a ++ [y] ++ b := by simpa using h2
  have key : ([x] : Bytes) = [y] := by
    rcases hw with rfl | rfl | rfl
    · have h := BitVec.eq_of_toNat_eq h
      rw [(hc 0).2.1, (hc' 0).2.1, e1, e2] at h
      exact (hd 0).1 (by simp) h
    · have h := BitVec.eq_of_toNat_eq h
      rw [(hc 0).2.2.1, (hc' 0).2.2.1, e1, e2] at h
      exact (hd 0).2.1 (by simp) h
    · have h := BitVec.eq_of_toNat_eq h
      rw [(hc _).2.2.2, (hc' _).2.2.2, e1, e2] at h
      exact (hd _).2.2 (by simp) h
  simpa using key

/-- C47 in part: without an extra CRC, a changed byte shows unless it differs by a multiple of 61; what is missing is shown in
`C47_record_checksum_violated`. -/
theorem C47_record_checksum_partial (k v k' v' a b : Bytes) (x y : UInt8) (h1 : k ++ v = a ++ x :: b) (h2 : k' ++ v' = a ++ y :: b) :
    env.sum k v = env.sum k' v' ↔ x.toNat % 61 = y.toNat % 61 := by
  show magicChecksum k v = magicChecksum k' v' ↔ _
  rw [magicChecksum_eq, magicChecksum_eq, h1, h2, Checksum.total_append, Checksum.total_append, Checksum.total_cons, Checksum.total_cons]
  omega

/-- Without an extra CRC, the check of a record misses some changes of one byte. -/
theorem C47_record_checksum_violated (k a b : Bytes) : env.sum k (a ++ 0 :: b) = env.sum k (a ++ 61 :: b) :=
  (C47_record_checksum_partial k _ k _ (k ++ a) b 0 61 (by simp) (by simp)).2 rfl

/-! Values of the unit tests. -/
def hello : Bytes := [0x48, 0x65, 0x6C, 0x6C, 0x6F, 0x20, 0x57, 0x6F, 0x72, 0x6C, 0x64]

example : murmur hello 19780211#64 = 0x15941D6097FA1378#64 := by decide +kernel
example : fnv hello = 0x9AA143013F1E405F#64 := by decide +kernel
example : primaryHash [0x61, 0x62, 0x63] (2 ^ 64 - 1) = 16973900370012003622 := by decide +kernel
example : primaryHash [0x61, 0x62, 0x63] (2 ^ 32 - 1) = 3042090208 := by decide +kernel
example : env.sum [] [1] = 15 := by show magicChecksum [] [1] = 15; rw [magicChecksum_eq]; decide
example : env.crc 4 [0x31, 0x32] [0x33, 0x34, 0x35, 0x36, 0x37, 0x38, 0x39] = 0xCBF43926 := by decide +kernel

end Verif.Hashing
