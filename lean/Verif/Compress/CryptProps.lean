import Verif.Codec.NumLemmas
import Verif.Hashing.CrcProps
import Verif.Compress.AesProps
import Verif.Compress.Crypt
/-
C48: what a compressor of the code compresses or encrypts, it gives back. C61: the ciphers are those of the standards.
-/
namespace Verif.Compress
open Verif Verif.Codec

/-! ### SPECIFICATION: RC4 -/
namespace Rc4

/-- A permutation with two values exchanged. -/
def exch (s : Nat → Nat) (i j : Nat) : Nat → Nat := fun k => if k = i then s j else if k = j then s i else s k

/-- The key scheduling, after `n` steps, with the second index. -/
def schedule (key : Bytes) : Nat → (Nat → Nat) × Nat
  | 0 => (fun k => k, 0)
  | n + 1 =>
    let (s, j) := schedule key n
    let j := (j + s n + (key.getD (n % key.length) 0).toNat) % 256
    (exch s n j, j)

/-- The generator after `n` steps: the permutation and the indices. -/
def gen (key : Bytes) : Nat → (Nat → Nat) × Nat × Nat
  | 0 => ((schedule key 256).1, 0, 0)
  | n + 1 =>
    let (s, i, j) := gen key n
    let i := (i + 1) % 256
    let j := (j + s i) % 256
    (exch s i j, i, j)

/-- The byte that the generator gives in step `n`. -/
def stream (key : Bytes) (n : Nat) : UInt8 :=
  let (s, i, j) := gen key (n + 1)
  UInt8.ofNat (s ((s i + s j) % 256))

end Rc4

/-! ### DummyCompressor -/

theorem crcOf_lead (l1 l2 : Nat) (data : Bytes) : crcOf l1 data = crcOf l2 data := by
  unfold crcOf
  rw [(Crc.C47_crc32 l1 data _).2, (Crc.C47_crc32 l2 data _).2]
  have : Crc.crc32 l1 data false 0xFFFFFFFF#32 = Crc.crc32 l2 data false 0xFFFFFFFF#32 :=
    Crc.low_inj _ _ (by rw [(Crc.C47_crc32 l1 data _).1, (Crc.C47_crc32 l2 data _).1])
  rw [this]

theorem crcOf_lt (l : Nat) (data : Bytes) : crcOf l data < 2 ^ 32 := (Crc.crc32 l data true 0xFFFFFFFF#32).isLt

theorem readFixNum_four {n : Nat} (hn : n < 2 ^ 32) (rest : Bytes) : readFixNum (writeFixNum n 4 ++ rest) 4 = n := by
  rw [readFixNum_eq _ (by decide), List.take_left' (writeFixNum_length n (by decide)), fromBe64_writeFixNum n (by decide)]
  exact Nat.mod_eq_of_lt hn

/-- C48: what the dummy compressor takes, with or without checksums, it gives back, wherever the buffers are. -/
theorem C48_dummy_round_trip (checksum : Bool) (l1 l2 : Nat) (data : Bytes) :
    dummyDecompress checksum l2 (dummyCompress checksum l1 data) = some data := by
  unfold dummyDecompress dummyCompress
  cases checksum with
  | false => rfl
  | true =>
    simp only [if_true]
    have hl : (writeFixNum (crcOf l1 data) 4).length = 4 := writeFixNum_length _ (by decide)
    rw [if_neg (by rw [List.length_append]; omega), List.drop_left' hl, readFixNum_four (crcOf_lt _ _), if_neg (by rw [crcOf_lead l2 l1]; simp)]

/-- C48: with checksums, the dummy compressor refuses data in which four bytes in a row, or less, are changed. -/
theorem C48_dummy_detects (l1 l2 : Nat) (a x y b : Bytes) (hl : x.length = y.length) (h4 : x.length ≤ 4) (hxy : x ≠ y) :
    dummyDecompress true l2 (writeFixNum (crcOf l1 (a ++ x ++ b)) 4 ++ (a ++ y ++ b)) = none := by
  unfold dummyDecompress
  have h4' : (writeFixNum (crcOf l1 (a ++ x ++ b)) 4).length = 4 := writeFixNum_length _ (by decide)
  rw [if_pos rfl, if_neg (by rw [List.length_append]; omega), List.drop_left' h4', readFixNum_four (crcOf_lt _ _), if_pos]
  intro h
  apply hxy
  refine (Crc.C47_crc_detects l1 l2 a x y b true 0xFFFFFFFF#32 hl).2.2 h4 ?_
  exact BitVec.eq_of_toNat_eq h.symm

/-- C48: the dummy compressor with checksums refuses data too short to have one. -/
theorem C48_dummy_short (l : Nat) (buf : Bytes) (h : buf.length < 4) : dummyDecompress true l buf = none := by
  unfold dummyDecompress
  rw [if_pos rfl, if_pos h]

/-! ### RC4 -/

theorem rc4Loop_length : ∀ (data : Bytes) (s : List Nat) (x y : Nat), (rc4Loop s x y data).length = data.length
  | [], _, _, _ => rfl
  | b :: bs, s, x, y => by
    rw [rc4Loop]
    simp only [List.length_cons, rc4Loop_length bs]

theorem rc4Loop_twice : ∀ (data : Bytes) (s : List Nat) (x y : Nat), rc4Loop s x y (rc4Loop s x y data) = data
  | [], _, _, _ => rfl
  | b :: bs, s, x, y => by
    rw [rc4Loop]
    rw [rc4Loop]
    rw [rc4Loop_twice bs, UInt8.xor_assoc, UInt8.xor_self, UInt8.xor_zero]

/-- C48: what the RC4 compressor encrypts, it gives back, whatever the key and the nonce. -/
theorem C48_rc4_round_trip (key : Bytes) (iv : Nat) (data : Bytes) : rc4Decompress key (rc4Compress key iv data) = some data := by
  have hl : (writeFixNum iv 6).length = 6 := writeFixNum_length _ (by decide)
  unfold rc4Decompress rc4Compress
  simp only
  rw [if_neg (by rw [List.length_append]; omega), List.take_left' hl, List.drop_left' hl, rc4Loop_twice]

/-- C48: the RC4 compressor refuses just what is too short to have a nonce. -/
theorem C48_rc4_short (key buf : Bytes) : rc4Decompress key buf = none ↔ buf.length < 6 := by
  unfold rc4Decompress
  split <;> simp_all

/-- A list of 256 numbers that is a function. -/
def Is (s : List Nat) (f : Nat → Nat) : Prop := s.length = 256 ∧ ∀ k, k < 256 → s.getD k 0 = f k

theorem swap_is {s : List Nat} {f : Nat → Nat} (h : Is s f) {i j : Nat} (hi : i < 256) (hj : j < 256) : Is (swap s i j) (Rc4.exch f i j) := by
  obtain ⟨h1, h2⟩ := h
  unfold swap
  simp only
  refine ⟨by simp [h1], fun k hk => ?_⟩
  rw [List.getD_eq_getElem?_getD, List.getElem?_set, List.getElem?_set]
  simp only [List.length_set, h1]
  unfold Rc4.exch
  have e1 := h2 i hi
  have e2 := h2 j hj
  have e3 := h2 k hk
  rw [List.getD_eq_getElem?_getD] at e3
  by_cases hkj : j = k
  · subst hkj
    rw [if_pos rfl, if_pos hj]
    by_cases hki : j = i
    · subst hki
      rw [if_pos rfl]
      exact e1
    · rw [if_neg hki, if_pos rfl]
      exact e1
  · rw [if_neg hkj]
    by_cases hki : i = k
    · subst hki
      rw [if_pos rfl, if_pos hi, if_pos rfl]
      exact e2
    · rw [if_neg hki, if_neg (fun h => hki h.symm), if_neg (fun h => hkj h.symm)]
      exact e3

theorem kbox_at {key iv : Bytes} (hiv : iv.length = 6) {i : Nat} (hi : i < 256) : (kbox key iv).getD i 0 = ((key ++ iv).getD (i % (key ++ iv).length) 0).toNat := by
  unfold kbox
  rw [List.getD_eq_getElem?_getD, List.getElem?_map, List.getElem?_range hi]
  simp only [Option.map_some, Option.getD_some]
  have hl : (key ++ iv).length = key.length + 6 := by rw [List.length_append, hiv]
  rw [hl, List.getD_eq_getElem?_getD, List.getD_eq_getElem?_getD, List.getD_eq_getElem?_getD]
  split
  · rename_i h
    rw [List.getElem?_append_left h]
  · rename_i h
    rw [List.getElem?_append_right (by omega)]

theorem mixBox_is {key iv : Bytes} (hiv : iv.length = 6) : ∀ (n i : Nat) (s : List Nat), i + n = 256 → Is s (Rc4.schedule (key ++ iv) i).1 →
    Is (mixBox (kbox key iv) n i (Rc4.schedule (key ++ iv) i).2 s) (Rc4.schedule (key ++ iv) 256).1
  | 0, i, s, hi, h => by
    have : i = 256 := by omega
    subst this
    exact h
  | n + 1, i, s, hi, h => by
    rw [mixBox]
    have hj : ((Rc4.schedule (key ++ iv) i).2 + s.getD i 0 + (kbox key iv).getD i 0) % 256 = (Rc4.schedule (key ++ iv) (i + 1)).2 := by
      rw [Rc4.schedule]
      simp only
      rw [h.2 i (by omega), kbox_at hiv (by omega)]
    rw [hj]
    refine mixBox_is hiv n (i + 1) _ (by omega) ?_
    have := swap_is h (i := i) (j := (Rc4.schedule (key ++ iv) (i + 1)).2) (by omega) (by rw [Rc4.schedule]; exact Nat.mod_lt _ (by decide))
    exact this

theorem rc4Box_is {key iv : Bytes} (hiv : iv.length = 6) : Is (rc4Box key iv) (Rc4.schedule (key ++ iv) 256).1 := by
  refine mixBox_is hiv 256 0 _ rfl ⟨by simp, fun k hk => ?_⟩
  rw [List.getD_eq_getElem?_getD, List.getElem?_range hk]
  rfl

theorem rc4Loop_stream (key : Bytes) : ∀ (data : Bytes) (m : Nat) (s : List Nat), Is s (Rc4.gen key m).1 → ∀ n,
    (rc4Loop s (Rc4.gen key m).2.1 (Rc4.gen key m).2.2 data)[n]? = data[n]?.map fun b => b ^^^ Rc4.stream key (m + n)
  | [], _, _, _, n => rfl
  | b :: bs, m, s, h, n => by
    rw [rc4Loop]
    have hi : ((Rc4.gen key m).2.1 + 1) % 256 = (Rc4.gen key (m + 1)).2.1 := rfl
    have hil : (Rc4.gen key (m + 1)).2.1 < 256 := Nat.mod_lt _ (by decide)
    have hjl : (Rc4.gen key (m + 1)).2.2 < 256 := Nat.mod_lt _ (by decide)
    have hj : ((Rc4.gen key m).2.2 + s.getD (Rc4.gen key (m + 1)).2.1 0) % 256 = (Rc4.gen key (m + 1)).2.2 := by
      rw [h.2 _ hil]
      rfl
    rw [hi, hj]
    have hs := swap_is h hil hjl
    have hs' : Is (swap s (Rc4.gen key (m + 1)).2.1 (Rc4.gen key (m + 1)).2.2) (Rc4.gen key (m + 1)).1 := hs
    cases n with
    | zero =>
      simp only [List.getElem?_cons_zero, Option.map_some, Option.some.injEq, Nat.add_zero]
      rw [hs'.2 _ hil, hs'.2 _ hjl, hs'.2 _ (Nat.mod_lt _ (by decide))]
      rfl
    | succ n =>
      simp only [List.getElem?_cons_succ]
      rw [rc4Loop_stream key bs (m + 1) _ hs' n, show m + 1 + n = m + (n + 1) by omega]

theorem gen_zero (key : Bytes) : Rc4.gen key 0 = ((Rc4.schedule key 256).1, 0, 0) := by rw [Rc4.gen]

attribute [local irreducible] Rc4.schedule in
/-- C61: the RC4 compressor writes the nonce and then the data encrypted by the stream of RC4 for the key followed by the nonce; an empty key is
a zero byte. -/
theorem C61_rc4 (key : Bytes) (iv : Nat) (data : Bytes) :
    (rc4Compress key iv data).take 6 = writeFixNum iv 6 ∧ (rc4Compress key iv data).length = 6 + data.length ∧
    ∀ n, (rc4Compress key iv data)[6 + n]? = data[n]?.map fun b => b ^^^ Rc4.stream ((if key = [] then [0] else key) ++ writeFixNum iv 6) n := by
  have hl : (writeFixNum iv 6).length = 6 := writeFixNum_length _ (by decide)
  unfold rc4Compress
  simp only
  refine ⟨List.take_left' hl, by rw [List.length_append, rc4Loop_length, hl], fun n => ?_⟩
  rw [List.getElem?_append_right (by omega), hl, Nat.add_sub_cancel_left]
  have hb := rc4Box_is (key := rc4Key key) hl
  have := rc4Loop_stream (rc4Key key ++ writeFixNum iv 6) data 0 (rc4Box (rc4Key key) (writeFixNum iv 6)) (by rw [gen_zero]; exact hb) n
  rw [Nat.zero_add, gen_zero] at this
  exact this

/-! ### AES -/

theorem zip_cancel : ∀ (a b : Bytes), a.length ≤ b.length → List.zipWith (· ^^^ ·) (List.zipWith (· ^^^ ·) a b) b = a
  | [], b, _ => by simp
  | x :: a, [], h => by simp at h
  | x :: a, y :: b, h => by
    simp only [List.zipWith_cons_cons, UInt8.xor_assoc, UInt8.xor_self, UInt8.xor_zero]
    rw [zip_cancel a b (by simpa using h)]

theorem blockXor_length {a b : Bytes} (ha : 16 ≤ a.length) (hb : b.length = 16) : (blockXor a b).length = 16 := by
  unfold blockXor
  rw [List.length_zipWith, List.length_take, List.length_take]
  omega

theorem blockXor_twice {a b : Bytes} (ha : 16 ≤ a.length) (hb : b.length = 16) : blockXor (blockXor a b) b = a.take 16 := by
  have hl := blockXor_length ha hb
  have h1 : blockXor (blockXor a b) b = List.zipWith (· ^^^ ·) ((blockXor a b).take 16) (b.take 16) := rfl
  rw [h1, List.take_of_length_le (by omega : (blockXor a b).length ≤ 16)]
  unfold blockXor
  exact zip_cancel _ _ (by rw [List.length_take, List.length_take]; omega)

theorem aesLoop_spec (key : Bytes) (size : Nat) : ∀ (n : Nat) (pp data out : Bytes) (rem : Nat), data.length / 16 = n → pp.length = 16 →
    ∃ tail, tail.length = 16 - data.length % 16 ∧
      aesDecLoop (Aes.setupDec key size) pp (aesEncLoop (Aes.setupEnc key size) pp data) out rem = (out ++ data ++ tail, data.length % 16) := by
  intro n
  induction n with
  | zero =>
    intro pp data out rem hn hp
    have hlt : data.length < 16 := by omega
    rw [aesEncLoop, if_neg (by omega)]
    generalize hx : List.zipWith (· ^^^ ·) data pp ++ List.replicate (16 - data.length) (UInt8.ofNat data.length) = x
    have hxl : x.length = 16 := by
      rw [← hx, List.length_append, List.length_zipWith, List.length_replicate]
      omega
    rw [aesDecLoop, if_pos (by rw [Aes.encrypt_length]; omega), List.take_of_length_le (by rw [Aes.encrypt_length]; omega)]
    simp only
    rw [Aes.C61_decrypt key size x hxl]
    rw [aesDecLoop, if_neg (by rw [List.length_drop, Aes.encrypt_length]; omega)]
    have hw : blockXor x pp = List.zipWith (· ^^^ ·) x pp := by
      unfold blockXor
      rw [List.take_of_length_le (by omega), List.take_of_length_le (by omega)]
    have hdata : (blockXor x pp).take data.length = data := by
      rw [hw, List.take_zipWith, ← hx, List.take_left' (by rw [List.length_zipWith]; omega)]
      have hpt : List.zipWith (· ^^^ ·) data pp = List.zipWith (· ^^^ ·) data (pp.take data.length) := by
        apply List.ext_getElem?
        intro i
        rw [List.getElem?_zipWith, List.getElem?_zipWith, List.getElem?_take]
        by_cases hi : i < data.length
        · rw [if_pos hi]
        · rw [List.getElem?_eq_none (by omega : data.length ≤ i)]
      rw [hpt]
      exact zip_cancel _ _ (by rw [List.length_take]; omega)
    refine ⟨(blockXor x pp).drop data.length, ?_, ?_⟩
    · rw [List.length_drop, blockXor_length (by omega) hp, Nat.mod_eq_of_lt hlt]
    · rw [List.append_assoc]
      conv => rhs; rw [show data ++ (blockXor x pp).drop data.length = blockXor x pp by
        conv => lhs; lhs; rw [← hdata]
        exact List.take_append_drop _ _]
      rw [Nat.mod_eq_of_lt hlt]
      have h15 : x[15]? = some (UInt8.ofNat data.length) := by
        rw [← hx, List.getElem?_append_right (by rw [List.length_zipWith]; omega), List.getElem?_replicate,
          if_pos (by rw [List.length_zipWith]; omega)]
      obtain ⟨p, hp15⟩ : ∃ p, pp[15]? = some p := ⟨pp[15], List.getElem?_eq_getElem (by omega)⟩
      have : (blockXor x pp).getD 15 0 ^^^ pp.getD 15 0 = UInt8.ofNat data.length := by
        rw [hw, List.getD_eq_getElem?_getD, List.getD_eq_getElem?_getD, List.getElem?_zipWith, h15, hp15]
        simp [UInt8.xor_assoc]
      rw [this, UInt8.toNat_ofNat', Nat.mod_eq_of_lt (by omega)]
  | succ n ih =>
    intro pp data out rem hn hp
    have hge : 16 ≤ data.length := by omega
    rw [aesEncLoop, if_pos hge]
    rw [aesDecLoop, if_pos (by rw [List.length_append, Aes.encrypt_length]; omega), List.take_left' (Aes.encrypt_length _ _), List.drop_left' (Aes.encrypt_length _ _)]
    simp only
    rw [Aes.C61_decrypt key size _ (blockXor_length hge hp), blockXor_twice hge hp]
    obtain ⟨tail, h1, h2⟩ := ih (data.take 16) (data.drop 16) (out ++ data.take 16) ((data.take 16).getD 15 0 ^^^ pp.getD 15 0).toNat
      (by rw [List.length_drop]; omega) (by rw [List.length_take]; omega)
    rw [List.length_drop] at h1 h2
    have hm : (data.length - 16) % 16 = data.length % 16 := by omega
    rw [hm] at h1 h2
    refine ⟨tail, h1, ?_⟩
    rw [h2, List.append_assoc out, List.take_append_drop]

theorem aesEncLoop_length (k : List Aes.W × Nat) : ∀ (n : Nat) (pp data : Bytes), data.length / 16 = n → (aesEncLoop k pp data).length = 16 * (n + 1) := by
  intro n
  induction n with
  | zero =>
    intro pp data hn
    rw [aesEncLoop, if_neg (by omega), Aes.encrypt_length]
  | succ n ih =>
    intro pp data hn
    rw [aesEncLoop, if_pos (by omega), List.length_append, Aes.encrypt_length, ih _ _ (by rw [List.length_drop]; omega)]
    omega

theorem iv_length (iv1 iv2 : Nat) : (writeFixNum iv1 8 ++ writeFixNum iv2 8).length = 16 := by
  rw [List.length_append, writeFixNum_length _ (by decide), writeFixNum_length _ (by decide)]

/-- C48: what the AES compressor encrypts, it gives back, whatever the key and the nonce. -/
theorem C48_aes_round_trip (key : Bytes) (iv1 iv2 : Nat) (data : Bytes) : aesDecompress key (aesCompress key iv1 iv2 data) = some data := by
  have hiv := iv_length iv1 iv2
  unfold aesDecompress aesCompress
  simp only
  generalize writeFixNum iv1 8 ++ writeFixNum iv2 8 = iv at *
  have hl := aesEncLoop_length (aesEnc key) _ iv data rfl
  rw [if_neg (by rw [List.length_append, Aes.encrypt_length, hl]; omega), List.take_left' (Aes.encrypt_length _ _), List.drop_left' (Aes.encrypt_length _ _)]
  have hd : Aes.decrypt (aesDec key) (Aes.encrypt (aesEnc key) iv) = iv := Aes.C61_decrypt _ _ _ hiv
  rw [hd]
  obtain ⟨tail, h1, h2⟩ := aesLoop_spec (aesKey key).1 (aesKey key).2 _ iv data [] 0 rfl hiv
  unfold aesDec aesEnc
  rw [h2]
  simp only [List.nil_append]
  rw [if_neg (by omega), List.length_append, h1, Option.some.injEq]
  exact List.take_left' (by omega)

/-- C48: the AES compressor refuses data that is not of two whole blocks at least. -/
theorem C48_aes_refuses (key buf : Bytes) (h : buf.length < 32 ∨ buf.length % 16 ≠ 0) : aesDecompress key buf = none := by
  unfold aesDecompress
  rw [if_pos h]

/-! ### The format and the key -/

/-- SPECIFICATION. The key of the cipher that a key given stands for: filled with zeros, or, when it is longer than 32 bytes, with each 32 bytes added to the
first ones. -/
def fullKey (key : Bytes) : Bytes :=
  if key.length ≤ 32 then key ++ List.replicate (32 - key.length) 0
  else (List.range 32).map fun j => ((List.range key.length).filter fun i => i % 32 = j).foldl (fun x i => x ^^^ key.getD i 0) 0

theorem foldKey_spec : ∀ (rest : Bytes) (i : Nat) (bin : Bytes), bin.length = 32 → ∀ j, j < 32 →
    (foldKey i bin rest).getD j 0 = ((List.range rest.length).filter fun m => (i + m) % 32 = j).foldl (fun x m => x ^^^ rest.getD m 0) (bin.getD j 0) ∧
    (foldKey i bin rest).length = 32
  | [], i, bin, hb, j, hj => by
    rw [foldKey]
    exact ⟨rfl, hb⟩
  | b :: rest, i, bin, hb, j, hj => by
    rw [foldKey]
    obtain ⟨h1, h2⟩ := foldKey_spec rest (i + 1) (bin.set (i % 32) (bin.getD (i % 32) 0 ^^^ b)) (by rw [List.length_set, hb]) j hj
    refine ⟨?_, h2⟩
    rw [h1, List.length_cons, List.range_succ_eq_map, List.filter_cons, List.filter_map]
    have hf : ((fun m => decide ((i + m) % 32 = j)) ∘ Nat.succ) = fun m => decide ((i + 1 + m) % 32 = j) := by
      funext m
      simp only [Function.comp]
      rw [show i + m.succ = i + 1 + m by omega]
    rw [hf]
    have hg : (bin.set (i % 32) (bin.getD (i % 32) 0 ^^^ b)).getD j 0 = if i % 32 = j then bin.getD j 0 ^^^ b else bin.getD j 0 := by
      rw [List.getD_eq_getElem?_getD, List.getElem?_set]
      split
      · rename_i h
        subst h
        rw [if_pos (by omega)]
        rfl
      · rw [← List.getD_eq_getElem?_getD]
    rw [hg]
    by_cases h : i % 32 = j
    · simp only [h, Nat.add_zero, decide_true, if_true, List.foldl_cons, List.foldl_map, List.getD_cons_succ, List.getD_cons_zero, Nat.succ_eq_add_one]
    · simp only [h, Nat.add_zero, decide_false, Bool.false_eq_true, if_false, List.foldl_map, List.getD_cons_succ, Nat.succ_eq_add_one]

theorem aesKey_full (key : Bytes) : (aesKey key).1 = fullKey key := by
  unfold aesKey fullKey
  split
  · rfl
  · simp only
    have hs := foldKey_spec key 0 (List.replicate 32 0) (List.length_replicate ..)
    apply List.ext_getElem?
    intro j
    by_cases hj : j < 32
    · obtain ⟨h1, h2⟩ := hs j hj
      rw [List.getElem?_map, List.getElem?_range hj, List.getElem?_eq_getElem (by omega)]
      simp only [Option.map_some, Option.some.injEq]
      rw [List.getD_eq_getElem?_getD, List.getElem?_eq_getElem (by omega)] at h1
      rw [Option.getD_some] at h1
      rw [h1]
      simp only [Nat.zero_add]
      congr 1
      rw [List.getD_eq_getElem?_getD, List.getElem?_replicate, if_pos hj]
      rfl
    · rw [List.getElem?_eq_none (by rw [(hs 0 (by decide)).2]; omega), List.getElem?_eq_none (by simp; omega)]

theorem aesKey_size (key : Bytes) : (aesKey key).2 = 4 * (if key.length ≤ 16 ∨ key.length = 32 then 4 else 8) := by
  unfold aesKey
  by_cases h : key.length ≤ 32
  · rw [if_pos h]
    simp only
    generalize hn : (if key.length % 16 > 0 then key.length + 16 - key.length % 16 else 0) = n
    by_cases h16 : key.length ≤ 16 ∨ key.length = 32
    · rw [if_pos h16]
      split at hn <;> split <;> omega
    · rw [if_neg h16]
      split at hn <;> split <;> omega
  · rw [if_neg h, if_neg (by omega)]

/-- C61, in part: the blocks are encrypted by the cipher of the standard with the whole key given, filled or folded as above, with 128 bits for keys of up to
16 bytes and 256 bits for longer ones. What is missing is keys of exactly 32 bytes: see `C61_aes_key_violated`. -/
theorem C61_aes_key_partial (key pt : Bytes) (hl : pt.length = 16) (h32 : key.length ≠ 32) :
    Aes.encrypt (aesEnc key) pt = Aes.Fips.cipher (fullKey key) (if key.length ≤ 16 then 4 else 8) pt := by
  unfold aesEnc
  rw [aesKey_full, aesKey_size]
  simp only [h32, or_false]
  exact Aes.C61_standard _ _ _ (by split <;> simp) hl

/-- C61: of a key of 32 bytes, the cipher takes the first 16 only. -/
theorem C61_aes_key32 (key pt : Bytes) (hl : pt.length = 16) (h32 : key.length = 32) :
    Aes.encrypt (aesEnc key) pt = Aes.Fips.cipher (fullKey key) 4 pt := by
  unfold aesEnc
  rw [aesKey_full, aesKey_size]
  simp only [h32, or_true, if_true]
  exact Aes.C61_standard _ _ _ (.inl rfl) hl

/-- The first bytes of a block or of the nonce that it is added to. -/
def previous (iv data : Bytes) (i : Nat) : Bytes := if i = 0 then iv else (data.drop (16 * (i - 1))).take 16

theorem aesEncLoop_blocks (k : List Aes.W × Nat) : ∀ (n : Nat) (pp data : Bytes), data.length / 16 = n →
    aesEncLoop k pp data = ((List.range n).flatMap fun i => Aes.encrypt k (blockXor (data.drop (16 * i)) (previous pp data i))) ++
      Aes.encrypt k (List.zipWith (· ^^^ ·) (data.drop (16 * n)) (previous pp data n) ++ List.replicate (16 - data.length % 16) (UInt8.ofNat (data.length % 16))) := by
  intro n
  induction n with
  | zero =>
    intro pp data hn
    rw [aesEncLoop, if_neg (by omega), Nat.mod_eq_of_lt (by omega)]
    rfl
  | succ n ih =>
    intro pp data hn
    rw [aesEncLoop, if_pos (by omega), ih (data.take 16) (data.drop 16) (by rw [List.length_drop]; omega)]
    rw [List.range_succ_eq_map, List.flatMap_cons, List.flatMap_map, List.append_assoc, List.length_drop, show (data.length - 16) % 16 = data.length % 16 by omega]
    have hprev : ∀ i, previous (data.take 16) (data.drop 16) i = previous pp data (i + 1) := by
      intro i
      unfold previous
      rw [if_neg (by omega : ¬ i + 1 = 0), Nat.add_sub_cancel]
      cases i with
      | zero => simp
      | succ i =>
        rw [if_neg (by omega), List.drop_drop]
        congr 2
        omega
    simp only [List.drop_drop, hprev]
    have h16 : ∀ i, 16 + 16 * i = 16 * (i + 1) := by intro i; omega
    simp only [h16]
    rfl

/-- C61: the AES compressor writes the nonce encrypted, and then each block of the data, added to the block before it (the nonce for the first one),
encrypted; the last block, which is always short, is filled with its size. -/
theorem C61_aes_format (key : Bytes) (iv1 iv2 : Nat) (data : Bytes) :
    aesCompress key iv1 iv2 data =
      Aes.encrypt (aesEnc key) (writeFixNum iv1 8 ++ writeFixNum iv2 8) ++
      ((List.range (data.length / 16)).flatMap fun i => Aes.encrypt (aesEnc key) (blockXor (data.drop (16 * i)) (previous (writeFixNum iv1 8 ++ writeFixNum iv2 8) data i))) ++
      Aes.encrypt (aesEnc key) (List.zipWith (· ^^^ ·) (data.drop (16 * (data.length / 16))) (previous (writeFixNum iv1 8 ++ writeFixNum iv2 8) data (data.length / 16)) ++
        List.replicate (16 - data.length % 16) (UInt8.ofNat (data.length % 16))) := by
  unfold aesCompress
  simp only
  rw [aesEncLoop_blocks _ _ _ data rfl, List.append_assoc]

/-- C61 does not hold of keys of 32 bytes: two that differ encrypt alike, and each decrypts what the other has encrypted. -/
theorem C61_aes_key_violated : ∃ k1 k2 : Bytes, k1.length = 32 ∧ k2.length = 32 ∧ k1 ≠ k2 ∧
    ∀ iv1 iv2 data, aesCompress k1 iv1 iv2 data = aesCompress k2 iv1 iv2 data ∧ aesDecompress k2 (aesCompress k1 iv1 iv2 data) = some data := by
  refine ⟨List.replicate 32 7, List.replicate 16 7 ++ List.replicate 16 9, rfl, rfl, by decide, fun iv1 iv2 data => ?_⟩
  have h : aesEnc (List.replicate 32 7) = aesEnc (List.replicate 16 7 ++ List.replicate 16 9) := by rfl
  have hc : aesCompress (List.replicate 32 7) iv1 iv2 data = aesCompress (List.replicate 16 7 ++ List.replicate 16 9) iv1 iv2 data := by
    unfold aesCompress
    rw [h]
  refine ⟨hc, ?_⟩
  rw [hc]
  exact C48_aes_round_trip _ _ _ _

/-! ### Examples -/

/-- RC4 with a known answer: the key "Key" gives the stream EB 9F 77 81. -/
example : (List.range 4).map (Rc4.stream [0x4b, 0x65, 0x79]) = [0xeb, 0x9f, 0x77, 0x81] := by decide +kernel

example : rc4Compress [0x4b] 1 [1, 2, 3] ≠ [0, 0, 0, 0, 0, 1, 1, 2, 3] ∧ rc4Decompress [0x4b] (rc4Compress [0x4b] 1 [1, 2, 3]) = some [1, 2, 3] := by decide +kernel

example : aesDecompress [1, 2] (aesCompress [1, 2] 77 88 (List.replicate 17 5)) = some (List.replicate 17 5) := by decide +kernel

example : dummyDecompress true 0 (dummyCompress true 3 [1, 2, 3, 4, 5]) = some [1, 2, 3, 4, 5] := by decide +kernel

end Verif.Compress
