import Verif.Hash.Content
import Verif.Codec.NumProps
/-
C05: the record format of the hash database: what is written is read back.
-/
namespace Verif.Hash
open Verif.Codec

/-- The checksum is between 3 and 63, as `MagicChecksum` is, and the CRC fits its width. -/
structure EnvOk (e : Env) : Prop where
  hash : ∀ k n, 0 < n → e.hash k n < n
  sum : ∀ k v, 3 ≤ e.sum k v ∧ e.sum k v < 64
  crc : ∀ w k v, e.crc w k v < 256 ^ w

variable {e : Env} {c : Cfg}

theorem sizeVarNum_le_of {n k : Nat} (h : n < 2 ^ 64) (hk : 1 ≤ k) (hn : n < 2 ^ (7 * k)) : sizeVarNum n ≤ k :=
  ((C34_varnum_size n h).2.2.2 k hk).2 hn

theorem headBytes_length (hc : CfgOk c) (r : Rec) : (headBytes e c r).length =
    1 + c.ow + sizeVarNum r.key.length + sizeVarNum r.value.length + sizeVarNum r.pad + c.cw := by
  have h1 := hc.ow
  have h2 := hc.cw
  simp only [headBytes, List.length_cons, List.length_append, writeVarNum_length, writeFixNum_length _ (w := c.ow) (by omega)]
  split
  · rw [writeFixNum_length _ (by omega)]; omega
  · simp only [List.length_nil]; omega

theorem padBytes_length (n : Nat) : (padBytes n).length + sizeVarNum n = n + 1 := by
  unfold padBytes
  split
  · have : sizeVarNum n ≤ n := by
      by_cases h : n < 128
      · have := sizeVarNum_le_of (n := n) (k := 1) (by omega) (by omega) (by omega); omega
      · have := sizeVarNum_le n; omega
    simp only [List.length_cons, List.length_replicate]; omega
  · have : n = 0 := by omega
    subst this; decide

theorem recBytes_length (hc : CfgOk c) (r : Rec) : (recBytes e c r).length = r.size c := by
  have := padBytes_length r.pad
  have := sizeVarNum_pos r.pad
  simp only [recBytes, List.length_append, headBytes_length hc, Rec.size, baseSize]; omega

theorem opOfMagic_magic (s : Nat) (hs : s < 64) (op : OpType) : opOfMagic (byte (s ||| op.magic)).toNat = op ∧
    (byte (s ||| op.magic)).toNat &&& 0x3F = s := by
  have : ∀ s < 64, ∀ op : OpType, opOfMagic (byte (s ||| op.magic)).toNat = op ∧
      (byte (s ||| op.magic)).toNat &&& 0x3F = s := by
    intro s hs op
    cases op <;> revert s <;> decide
  exact this s hs op

theorem readField_write {n lim maxRead : Nat} (h1 : n ≤ lim) (h2 : n ≤ maxRead) (hn : n < 2 ^ 64) (rest : Bytes) :
    readField (writeVarNum n ++ rest) lim maxRead = some (n, rest, sizeVarNum n) := by
  simp only [readField, readVarNum_write hn]
  rw [if_neg (by omega), ← writeVarNum_length n, List.drop_left]

theorem padOk_pad (n m : Nat) (rest : Bytes) : padOk n ((padBytes n ++ rest).take m) = true := by
  by_cases h0 : n = 0
  · subst h0
    simp only [padOk]; split <;> simp
  · unfold padBytes
    rw [if_pos (by omega)]
    cases m with
    | zero => rfl
    | succ m =>
      simp only [List.cons_append, List.take_succ_cons, padOk]
      by_cases h1 : n ≤ 1
      · have : n = 1 := by omega
        subst this
        simp only [beq_self_eq_true, Bool.true_and]
        split <;> simp
      · have hs : n - sizeVarNum n = (n - sizeVarNum n - 1) + 1 := by
          by_cases h : n < 128
          · have := sizeVarNum_le_of (n := n) (k := 1) (by omega) (by omega) (by omega); omega
          · have := sizeVarNum_le n; omega
        rw [hs]
        cases m with
        | zero => simp
        | succ m => simp [List.replicate_succ]

/-- The header of a record is at most 25 bytes long, so that it is in the first read. -/
theorem header_le (hc : CfgOk c) {r : Rec} (hg : FmtRec c r) :
    1 + c.ow + sizeVarNum r.key.length + sizeVarNum r.value.length + sizeVarNum r.pad + c.cw ≤ 25 := by
  have h1 := hc.ow
  have h2 := hc.cw
  have h3 := hg.key
  have h4 := hg.small
  simp only [maxKeySize] at h3
  simp only [Rec.size, baseSize] at h4
  have := sizeVarNum_le_of (n := r.key.length) (k := 4) (by omega) (by omega) (by omega)
  have := sizeVarNum_le_of (n := r.value.length) (k := 5) (by omega) (by omega) (by omega)
  have := sizeVarNum_le_of (n := r.pad) (k := 5) (by omega) (by omega) (by omega)
  omega

theorem shift_back {n a : Nat} (h : n % (1 <<< a) = 0) : (n >>> a) <<< a = n := by
  rw [Nat.shiftLeft_eq, Nat.one_mul] at h
  rw [Nat.shiftRight_eq_div_pow, Nat.shiftLeft_eq]
  exact Nat.div_mul_cancel (Nat.dvd_of_mod_eq_zero h)

theorem shift_lt {n a w : Nat} (h : n < 2 ^ (8 * w + a)) : n >>> a < 2 ^ (8 * w) := by
  rw [Nat.shiftRight_eq_div_pow]
  apply Nat.div_lt_of_lt_mul
  rw [← Nat.pow_add, Nat.add_comm a]; exact h

theorem take_append_ge {α : Type} {a b : List α} {n : Nat} (h : a.length ≤ n) : (a ++ b).take n = a ++ b.take (n - a.length) := by
  rw [List.take_append, List.take_of_length_le h]

/-- Reading a record anywhere in a file gives back its operation type, checksum, child offset, key, value and size. -/
theorem readMeta_rec (he : EnvOk e) (hc : CfgOk c) {r : Rec} (hg : FmtRec c r) (hch : r.child < 2 ^ (8 * c.ow + c.ap))
    (pre post : Bytes) {minRead : Nat} (hmin : metaMinReadSize ≤ minRead) :
    ∃ m, readMeta c (pre ++ (recBytes e c r ++ post)) pre.length minRead = some m ∧ m.op = r.op ∧
      m.sum = e.sum r.key r.value ∧ m.child = r.child ∧ m.keySize = r.key.length ∧ m.valueSize = r.value.length ∧
      m.padSize = r.pad ∧ (0 < c.cw → m.crc = e.crc c.cw r.key r.value) ∧
      m.headerSize = (headBytes e c r).length ∧ m.whole = r.size c ∧ m.key = r.key ∧
      readValue (pre ++ (recBytes e c r ++ post)) pre.length m = some r.value := by
  have hlen := recBytes_length (e := e) hc r
  have hhl := headBytes_length (e := e) hc r
  have h25 := header_le hc hg
  have how := hc.ow
  have hcw := hc.cw
  have hfile : (pre ++ (recBytes e c r ++ post)).length = pre.length + (r.size c + post.length) := by
    simp only [List.length_append, hlen]
  have hsmall := hg.small
  have hkey := hg.key
  have p1 := sizeVarNum_pos r.key.length
  have p2 := sizeVarNum_pos r.value.length
  have p3 := sizeVarNum_pos r.pad
  have hbase : r.size c = 1 + c.ow + sizeVarNum r.key.length + sizeVarNum r.value.length + 1 + c.cw + r.key.length +
    r.value.length + r.pad := rfl
  have hpl := padBytes_length r.pad
  simp only [metaMinReadSize] at hmin
  unfold readMeta
  rw [hfile, if_neg (by omega), List.drop_left, show pre.length + (r.size c + post.length) - pre.length = r.size c + post.length from by omega]
  obtain ⟨n, hn⟩ : ∃ n, n = min (r.size c + post.length) minRead - (headBytes e c r).length := ⟨_, rfl⟩
  have hbuf : (recBytes e c r ++ post).take (min (r.size c + post.length) minRead) =
      headBytes e c r ++ (r.key ++ (r.value ++ (padBytes r.pad ++ post))).take n := by
    rw [hn, recBytes]
    simp only [List.append_assoc]
    rw [take_append_ge (by omega)]
  simp only [hbuf]
  obtain ⟨tl, htl⟩ : ∃ tl, tl = (r.key ++ (r.value ++ (padBytes r.pad ++ post))).take n := ⟨_, rfl⟩
  rw [← htl]
  simp only [headBytes, List.cons_append, List.append_assoc]
  obtain ⟨hm1, hm2⟩ := opOfMagic_magic _ (he.sum r.key r.value).2 r.op
  have hs3 := (he.sum r.key r.value).1
  rw [if_neg (by rw [hm2]; omega)]
  have hwl := writeFixNum_length (r.child >>> c.ap) (w := c.ow) (by omega)
  rw [if_neg (by simp only [List.length_append, hwl]; omega)]
  have hdrop : ∀ rest : Bytes, (writeFixNum (r.child >>> c.ap) c.ow ++ rest).drop c.ow = rest := by
    intro rest; exact List.drop_left' hwl
  rw [hdrop, readField_write (by exact hkey) (by omega) (by simp only [maxKeySize] at hkey; omega)]
  simp only []
  rw [readField_write (by simp only [maxValueSize]; omega) (by omega) (by omega)]
  simp only []
  rw [readField_write (by simp only [maxValueSize]; omega) (by omega) (by omega)]
  simp only []
  have hchild : readFixNum (writeFixNum (r.child >>> c.ap) c.ow ++ (writeVarNum r.key.length ++ (writeVarNum r.value.length ++
      (writeVarNum r.pad ++ ((if c.cw > 0 then writeFixNum (e.crc c.cw r.key r.value) c.cw else []) ++ tl))))) c.ow <<< c.ap =
      r.child := by
    rw [(C33_fixnum_roundtrip _ _ (by omega) (shift_lt hch) _).1, shift_back hg.child]
  rw [hchild]
  have hcl : (if c.cw > 0 then writeFixNum (e.crc c.cw r.key r.value) c.cw else ([] : Bytes)).length = c.cw := by
    split
    · rw [writeFixNum_length _ (by omega)]
    · simp; omega
  rw [if_neg (by rw [List.length_append, hcl]; omega)]
  have hcd : ((if c.cw > 0 then writeFixNum (e.crc c.cw r.key r.value) c.cw else ([] : Bytes)) ++ tl).drop c.cw = tl := by
    exact List.drop_left' hcl
  have hcrc : ∀ tl, 0 < c.cw → readFixNum (writeFixNum (e.crc c.cw r.key r.value) c.cw ++ tl) c.cw =
      e.crc c.cw r.key r.value := by
    intro tl h0
    refine (C33_fixnum_roundtrip _ _ (by omega) ?_ _).1
    have := he.crc c.cw r.key r.value
    rwa [show (256 : Nat) = 2 ^ 8 from rfl, ← Nat.pow_mul] at this
  rw [hcd]
  have hbody : fread (pre ++ (recBytes e c r ++ post)) (pre.length + (headBytes e c r).length)
      (r.key.length + r.value.length) = some (r.key ++ r.value) := by
    unfold fread
    rw [hfile, if_pos (by omega), ← List.drop_drop, List.drop_left]
    simp only [recBytes, List.append_assoc]
    rw [List.drop_left, ← List.append_assoc, List.take_left' (by simp)]
  have hhl' : 1 + c.ow + sizeVarNum r.key.length + sizeVarNum r.value.length + sizeVarNum r.pad + c.cw =
    (headBytes e c r).length := hhl.symm
  by_cases hk : r.key.length ≤ tl.length
  · rw [if_pos hk]
    have htl2 : tl = r.key ++ (r.value ++ (padBytes r.pad ++ post)).take (n - r.key.length) := by
      rw [htl]; apply take_append_ge
      rw [htl, List.length_take] at hk; omega
    obtain ⟨tl2, h2⟩ : ∃ t, t = (r.value ++ (padBytes r.pad ++ post)).take (n - r.key.length) := ⟨_, rfl⟩
    rw [htl2, ← h2, List.take_left, List.drop_left]
    have hpad : padOk r.pad (tl2.drop r.value.length) = true := by
      rw [h2, List.drop_take, List.drop_left]; exact padOk_pad _ _ _
    rw [if_pos hpad]
    refine ⟨_, rfl, hm1, hm2, rfl, rfl, rfl, rfl, ?_, hhl', by simp only []; omega, rfl, ?_⟩
    · intro h0; simp only [if_pos h0]; exact hcrc _ h0
    · simp only [readValue]
      by_cases hv : r.value.length ≤ tl2.length
      · simp only [ge_iff_le, hv, if_true]
        have hvt : r.value.length ≤ n - r.key.length := by rw [h2, List.length_take] at hv; omega
        rw [h2, take_append_ge hvt, List.take_left]
      · simp only [ge_iff_le, hv, if_false]
        rw [hhl', hbody]; simp
  · rw [if_neg hk]
    have hw : 1 + c.ow + sizeVarNum r.key.length + sizeVarNum r.value.length + sizeVarNum r.pad + c.cw + r.key.length +
      r.value.length + r.pad - (sizeVarNum r.pad - 1) = r.size c := by omega
    rw [hw, if_neg (by omega), hhl', hbody]
    simp only [List.take_left, List.drop_left]
    refine ⟨_, rfl, hm1, hm2, rfl, rfl, rfl, rfl, ?_, rfl, rfl, rfl, rfl⟩
    intro h0; simp only [if_pos h0]; exact hcrc _ h0

end Verif.Hash
