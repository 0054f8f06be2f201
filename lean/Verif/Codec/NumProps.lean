import Verif.Codec.NumLemmas
/-
Property theorems C33 (fixed-width integers) and C34 (variable-length integers).
-/
namespace Verif.Codec
open Verif

theorem lex_iff_fromBe64 : ∀ (xs ys : Bytes), xs.length = ys.length →
    (xs < ys ↔ fromBe64 xs < fromBe64 ys)
  | [], [], _ => by simp [fromBe64]
  | [], _ :: _, h => by simp at h
  | _ :: _, [], h => by simp at h
  | x :: xs, y :: ys, h => by
    have hl : xs.length = ys.length := by simpa using h
    have ih := lex_iff_fromBe64 xs ys hl
    have e1 : fromBe64 (x :: xs) = x.toNat * 256 ^ xs.length + fromBe64 xs := by
      have := fromBe64_append [x] xs
      simpa [fromBe64] using this
    have e2 : fromBe64 (y :: ys) = y.toNat * 256 ^ xs.length + fromBe64 ys := by
      have := fromBe64_append [y] ys
      rw [hl]; simpa [fromBe64] using this
    have b1 := fromBe64_lt xs
    have b2 := fromBe64_lt ys
    rw [← hl] at b2
    rw [List.cons_lt_cons_iff, e1, e2, ih]
    generalize 256 ^ xs.length = P at *
    have hxy : x < y ↔ x.toNat < y.toNat := UInt8.lt_iff_toNat_lt
    have hxe : x = y ↔ x.toNat = y.toNat := UInt8.toNat_inj.symm
    rw [hxy, hxe]
    rcases Nat.lt_trichotomy x.toNat y.toNat with hlt | heq | hgt
    · have : (x.toNat + 1) * P ≤ y.toNat * P := Nat.mul_le_mul_right P hlt
      rw [Nat.add_mul] at this
      constructor
      · intro _; omega
      · intro _; exact Or.inl hlt
    · rw [heq]; omega
    · have : (y.toNat + 1) * P ≤ x.toNat * P := Nat.mul_le_mul_right P hgt
      rw [Nat.add_mul] at this
      constructor
      · intro h; omega
      · intro h; omega

/-- C33: a number that fits in `w` bytes survives `WriteFixNum` / `ReadFixNum`, whatever follows in the buffer,
and takes exactly `w` bytes. -/
theorem C33_fixnum_roundtrip (n w : Nat) (hw : w ≤ 8) (hn : n < 2 ^ (8 * w)) (rest : Bytes) :
    readFixNum (writeFixNum n w ++ rest) w = n ∧ (writeFixNum n w).length = w := by
  refine ⟨?_, writeFixNum_length n hw⟩
  rw [readFixNum_eq _ hw, List.take_append_of_le_length (by rw [writeFixNum_length n hw]; omega),
    List.take_of_length_le (by rw [writeFixNum_length n hw]; omega), fromBe64_writeFixNum n hw]
  apply Nat.mod_eq_of_lt
  rw [Nat.pow_mul] at hn; exact hn

example : readFixNum (writeFixNum 0xABCDEF 3 ++ [9, 9]) 3 = 0xABCDEF ∧ writeFixNum 0xABCDEF 3 = [0xAB, 0xCD, 0xEF] := by
  decide

/-- C33: `StrToIntBigEndian(IntToStrBigEndian(x, size)) = x` for every value fitting the size (1..8 bytes; a
larger size is clamped to 8). -/
theorem C33_bigendian_roundtrip (x size : Nat) (h1 : 1 ≤ size) (hx : x < 2 ^ (8 * min size 8)) :
    strToIntBigEndian (intToStrBigEndian x size) = x := by
  have hw : min size 8 ≤ 8 := Nat.min_le_right _ _
  have hl := writeFixNum_length x hw
  have hne : writeFixNum x (min size 8) ≠ [] := by
    intro h; rw [h] at hl; simp at hl; omega
  have e : intToStrBigEndian x size = writeFixNum x (min size 8) := by
    rw [intToStrBigEndian, if_neg (by omega)]
  rw [e, strToIntBigEndian, if_neg (by simpa using hne), hl, Nat.min_eq_left hw]
  have := (C33_fixnum_roundtrip x _ hw hx []).1
  simpa using this

example : strToIntBigEndian (intToStrBigEndian 258 2) = 258 ∧ intToStrBigEndian 258 2 = [1, 2] := by decide

/-- C33: the serialized numbers compare as byte strings exactly as the numbers compare. -/
theorem C33_bigendian_order (x y w : Nat) (h1 : 1 ≤ w) (hw : w ≤ 8) (hx : x < 2 ^ (8 * w)) (hy : y < 2 ^ (8 * w)) :
    intToStrBigEndian x w < intToStrBigEndian y w ↔ x < y := by
  have m : min w 8 = w := Nat.min_eq_left hw
  rw [intToStrBigEndian, intToStrBigEndian, if_neg (by omega), if_neg (by omega), m,
    lex_iff_fromBe64 _ _ (by rw [writeFixNum_length _ hw, writeFixNum_length _ hw]),
    fromBe64_writeFixNum _ hw, fromBe64_writeFixNum _ hw]
  rw [Nat.pow_mul] at hx hy
  rw [Nat.mod_eq_of_lt hx, Nat.mod_eq_of_lt hy]

example : intToStrBigEndian 255 2 < intToStrBigEndian 256 2 := by decide

/-- C34: reading what was written gives the number and its written length, whatever bytes follow. -/
theorem C34_varnum_roundtrip (n : Nat) (h : n < 2 ^ 64) (rest : Bytes) :
    readVarNum (writeVarNum n ++ rest) = some (n, (writeVarNum n).length) := by
  rw [writeVarNum_length]; exact readVarNum_write h rest

/-- C34: `SizeVarNum` announces the written length, which is 1 to 10 bytes and grows by one byte per 7 bits. -/
theorem C34_varnum_size (n : Nat) (h : n < 2 ^ 64) :
    (writeVarNum n).length = sizeVarNum n ∧ 1 ≤ sizeVarNum n ∧ sizeVarNum n ≤ 10 ∧
    ∀ k, 1 ≤ k → (sizeVarNum n ≤ k ↔ n < 2 ^ (7 * k)) := by
  refine ⟨writeVarNum_length n, sizeVarNum_pos n, sizeVarNum_le n, ?_⟩
  intro k hk
  have mono : ∀ i j, i ≤ j → 2 ^ (7 * i) ≤ 2 ^ (7 * j) := fun i j hij =>
    Nat.pow_le_pow_right (by decide) (by omega)
  have cases : (sizeVarNum n = 1 ∨ 2 ^ (7 * (sizeVarNum n - 1)) ≤ n) ∧ n < 2 ^ (7 * sizeVarNum n) := by
    unfold sizeVarNum
    simp only [Nat.shiftLeft_eq, Nat.one_mul]
    split
    · exact ⟨Or.inl rfl, by omega⟩
    repeat' (split; · exact ⟨Or.inr (by omega), by omega⟩)
    exact ⟨Or.inr (by omega), by omega⟩
  obtain ⟨c1, c2⟩ := cases
  constructor
  · intro h; exact Nat.lt_of_lt_of_le c2 (mono _ _ h)
  · intro h
    rcases Nat.lt_or_ge k (sizeVarNum n) with hlt | hge
    · rcases c1 with c1 | c1
      · omega
      · have := mono k (sizeVarNum n - 1) (by omega)
        omega
    · exact hge

/-- C34: a truncated number is reported as an error, never read past its end: every proper prefix of a written
number is rejected. -/
theorem C34_varnum_truncated (n : Nat) (h : n < 2 ^ 64) (p : Bytes) (hp : p <+: writeVarNum n)
    (hne : p ≠ writeVarNum n) : readVarNum p = none := by
  obtain ⟨init, last, e, _, hc⟩ := writeVarNum_shape h
  rw [e] at hp hne
  have : p <+: init := by
    rcases List.prefix_concat_iff.mp hp with h | h
    · exact absurd h hne
    · exact h
  exact readLoop_allCont p (fun c hcp => hc c (this.subset hcp)) 0 0

/-- C34: the reader is self-delimiting: when it succeeds it consumed at most the given bytes, and the result does
not depend on anything after the consumed bytes. -/
theorem C34_varnum_local (s : Bytes) (v k : Nat) (h : readVarNum s = some (v, k)) :
    1 ≤ k ∧ k ≤ s.length ∧ ∀ r, readVarNum (s.take k ++ r) = some (v, k) := by
  obtain ⟨h1, h2, h3⟩ := readLoop_local s 0 0 v k h
  exact ⟨by omega, by omega, by simpa only [readVarNum, Nat.sub_zero] using h3⟩

example : readVarNum (writeVarNum 16384 ++ [7]) = some (16384, 3) ∧ writeVarNum 16384 = [0x81, 0x80, 0x00] ∧
    readVarNum [0x81, 0x80] = none := by decide

/-- C34: different numbers never have encodings one of which is a prefix of the other. -/
theorem C34_varnum_prefix_free (a b : Nat) (ha : a < 2 ^ 64) (hb : b < 2 ^ 64)
    (h : writeVarNum a <+: writeVarNum b) : a = b := by
  obtain ⟨t, ht⟩ := h
  have h1 := C34_varnum_roundtrip a ha t
  have h2 := C34_varnum_roundtrip b hb []
  rw [ht] at h1
  rw [List.append_nil] at h2
  rw [h1] at h2
  simpa using (congrArg (Option.map Prod.fst) h2)

/-- C34: `StrToIntDelta(IntToStrDelta(x, zigzag), zigzag) = x` for every 64-bit value, with or without zigzag. -/
theorem C34_delta_roundtrip (x : Nat) (h : x < 2 ^ 64) (zigzag : Bool) :
    strToIntDelta (intToStrDelta x zigzag) zigzag = x := by
  have key : ∀ y < 2 ^ 64, readVarNum (writeVarNum y) = some (y, sizeVarNum y) := by
    intro y hy; have := readVarNum_write hy []; simpa using this
  cases zigzag with
  | false => simp [strToIntDelta, intToStrDelta, key x h]
  | true =>
    by_cases hx : x > 2 ^ 63 - 1
    · simp only [strToIntDelta, intToStrDelta, if_true, if_pos hx]
      rw [key _ (Nat.mod_lt _ (by decide))]
      simp only []
      -- the encoded value is 2 * (2^64 - x) - 1
      have e : (((x + 1) % 2 ^ 64) * (2 ^ 64 - 2) + 1) % 2 ^ 64 = 2 * (2 ^ 64 - x) - 1 := by
        by_cases hm : x = 2 ^ 64 - 1
        · subst hm; decide
        · rw [Nat.mod_eq_of_lt (by omega : x + 1 < 2 ^ 64)]
          omega
      rw [e, if_pos (by omega)]
      omega
    · simp only [strToIntDelta, intToStrDelta, if_true, if_neg hx]
      rw [key _ (Nat.mod_lt _ (by decide))]
      simp only []
      rw [Nat.mod_eq_of_lt (by omega : x * 2 < 2 ^ 64), if_neg (by omega)]
      omega

/-- C34: zigzag keeps small magnitudes short: a value whose signed magnitude is below `2^(7k-1)` takes at most `k`
bytes. -/
theorem C34_delta_short (x k : Nat) (hk : 1 ≤ k) (hx : x < 2 ^ 64)
    (hs : x < 2 ^ (7 * k - 1) ∨ 2 ^ 64 - x ≤ 2 ^ (7 * k - 1)) :
    (intToStrDelta x true).length ≤ k := by
  have hp : 2 ^ (7 * k) = 2 * 2 ^ (7 * k - 1) := by
    rw [← Nat.pow_succ']; congr 1; omega
  simp only [intToStrDelta, if_true]
  generalize hP : 2 ^ (7 * k - 1) = P at *
  rw [(C34_varnum_size _ (by split <;> exact Nat.mod_lt _ (by decide))).1,
    (C34_varnum_size _ (by split <;> exact Nat.mod_lt _ (by decide))).2.2.2 k hk, hp]
  split
  · by_cases hm : x = 2 ^ 64 - 1
    · subst hm
      rcases hs with h | h
      · simp; omega
      · simp; omega
    · rw [Nat.mod_eq_of_lt (by omega : x + 1 < 2 ^ 64)]
      have e : ((x + 1) * (2 ^ 64 - 2) + 1) % 2 ^ 64 = 2 * (2 ^ 64 - x) - 1 := by omega
      rw [e]; omega
  · rw [Nat.mod_eq_of_lt (by omega : x * 2 < 2 ^ 64)]; omega

example : strToIntDelta (intToStrDelta (2 ^ 64 - 5) true) true = 2 ^ 64 - 5 ∧
    intToStrDelta (2 ^ 64 - 5) true = [9] := by decide

end Verif.Codec
