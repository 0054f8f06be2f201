import Verif.Codec.Num
/- Lemmas on the integer codecs. -/
namespace Verif.Codec
open Verif

theorem byte_toNat (n : Nat) : (byte n).toNat = n % 256 := by simp [byte]

theorem and7f (x : Nat) : x &&& 0x7f = x % 128 := Nat.and_two_pow_sub_one_eq_mod x 7

theorem or80 {x : Nat} (h : x < 128) : x ||| 0x80 = x + 128 := by
  have := Nat.two_pow_add_eq_or_of_lt (i := 7) (b := x) (by simpa using h) 1
  rw [Nat.or_comm]; simp at this ⊢; omega

theorem midByte_toNat (x : Nat) : (midByte x).toNat = x % 128 + 128 := by
  rw [midByte, and7f, or80 (Nat.mod_lt _ (by decide)), byte_toNat]; omega

theorem topByte_toNat {x : Nat} (h : x < 128) : (topByte x).toNat = x + 128 := by
  rw [topByte, or80 h, byte_toNat]; omega

theorem lastByte_toNat (x : Nat) : (lastByte x).toNat = x % 128 := by
  rw [lastByte, and7f, byte_toNat]; omega

theorem readLoop_cont {c : UInt8} {rest acc used} (h : c.toNat ≥ 128) :
    readVarNumLoop (c :: rest) acc used =
      readVarNumLoop rest ((acc * 128 + c.toNat % 128) % 2 ^ 64) (used + 1) := by
  simp only [readVarNumLoop, and7f, Nat.shiftLeft_eq]
  rw [if_pos h]

theorem readLoop_end {c : UInt8} {rest acc used} (h : c.toNat < 128) :
    readVarNumLoop (c :: rest) acc used =
      some ((acc * 128 + c.toNat % 128) % 2 ^ 64, used + 1) := by
  simp only [readVarNumLoop, and7f, Nat.shiftLeft_eq]
  rw [if_neg (by omega)]

theorem readLoop_mid (x : Nat) (rest acc used) :
    readVarNumLoop (midByte x :: rest) acc used =
      readVarNumLoop rest ((acc * 128 + x % 128) % 2 ^ 64) (used + 1) := by
  rw [readLoop_cont (by rw [midByte_toNat]; omega), midByte_toNat]
  congr 3; omega

theorem readLoop_top {x : Nat} (h : x < 128) (rest used) :
    readVarNumLoop (topByte x :: rest) 0 used =
      readVarNumLoop rest (x % 2 ^ 64) (used + 1) := by
  rw [readLoop_cont (by rw [topByte_toNat h]; omega), topByte_toNat h]
  congr 2; omega

theorem readLoop_last (x : Nat) (rest acc used) :
    readVarNumLoop (lastByte x :: rest) acc used =
      some ((acc * 128 + x % 128) % 2 ^ 64, used + 1) := by
  rw [readLoop_end (by rw [lastByte_toNat]; omega), lastByte_toNat]
  congr 3; omega

theorem writeVarNum_length (n : Nat) : (writeVarNum n).length = sizeVarNum n := by
  unfold writeVarNum sizeVarNum
  repeat' split
  all_goals rfl

theorem step_div (n k : Nat) (h : n < 2 ^ 64) :
    ((n >>> (k + 7)) * 128 + (n >>> k) % 128) % 2 ^ 64 = n >>> k := by
  have e : n >>> (k + 7) = (n >>> k) / 128 := by rw [Nat.shiftRight_add]; simp [Nat.shiftRight_eq_div_pow]
  have l : n >>> k ≤ n := Nat.shiftRight_le n k
  rw [e]; omega

theorem readLoop_mid' {n : Nat} (h : n < 2 ^ 64) (k : Nat) (rest used) :
    readVarNumLoop (midByte (n >>> k) :: rest) (n >>> (k + 7)) used =
      readVarNumLoop rest (n >>> k) (used + 1) := by
  rw [readLoop_mid, step_div n k h]

theorem readLoop_last' {n : Nat} (h : n < 2 ^ 64) (rest used) :
    readVarNumLoop (lastByte n :: rest) (n >>> 7) used = some (n, used + 1) := by
  rw [readLoop_last]
  have := step_div n 0 h
  simp only [Nat.zero_add, Nat.shiftRight_zero] at this
  rw [this]

theorem readLoop_top' {n k : Nat} (h : n < 2 ^ 64) (hk : n < 2 ^ (k + 7)) (rest used) :
    readVarNumLoop (topByte (n >>> k) :: rest) 0 used = readVarNumLoop rest (n >>> k) (used + 1) := by
  have l : n >>> k ≤ n := Nat.shiftRight_le n k
  have l2 : n >>> k < 128 := by
    rw [Nat.shiftRight_eq_div_pow, Nat.div_lt_iff_lt_mul (Nat.two_pow_pos k)]
    rw [Nat.pow_add] at hk; omega
  rw [readLoop_top l2, Nat.mod_eq_of_lt (by omega)]

theorem readVarNum_write {n : Nat} (h : n < 2 ^ 64) (rest : Bytes) :
    readVarNum (writeVarNum n ++ rest) = some (n, sizeVarNum n) := by
  rw [← writeVarNum_length n]
  unfold writeVarNum readVarNum
  repeat' split
  · rename_i h1
    simp only [List.cons_append, List.nil_append]
    simp only [Nat.shiftLeft_eq] at h1
    rw [readLoop_end (by rw [byte_toNat]; omega), byte_toNat]; congr 2; omega
  all_goals
    simp only [List.cons_append, List.nil_append, Nat.shiftLeft_eq, Nat.one_mul] at *
  · rw [readLoop_top' h (by assumption), readLoop_last' h]; rfl
  · rw [readLoop_top' h (by assumption), readLoop_mid' h 7, readLoop_last' h]; rfl
  · rw [readLoop_top' h (by assumption), readLoop_mid' h 14, readLoop_mid' h 7, readLoop_last' h]; rfl
  · rw [readLoop_top' h (by assumption), readLoop_mid' h 21, readLoop_mid' h 14, readLoop_mid' h 7,
      readLoop_last' h]; rfl
  · rw [readLoop_top' h (by assumption), readLoop_mid' h 28, readLoop_mid' h 21, readLoop_mid' h 14,
      readLoop_mid' h 7, readLoop_last' h]; rfl
  · rw [readLoop_top' h (by assumption), readLoop_mid' h 35, readLoop_mid' h 28, readLoop_mid' h 21,
      readLoop_mid' h 14, readLoop_mid' h 7, readLoop_last' h]; rfl
  · rw [readLoop_top' h (by assumption), readLoop_mid' h 42, readLoop_mid' h 35, readLoop_mid' h 28,
      readLoop_mid' h 21, readLoop_mid' h 14, readLoop_mid' h 7, readLoop_last' h]; rfl
  · rw [readLoop_top' h (by assumption), readLoop_mid' h 49, readLoop_mid' h 42, readLoop_mid' h 35,
      readLoop_mid' h 28, readLoop_mid' h 21, readLoop_mid' h 14, readLoop_mid' h 7, readLoop_last' h]; rfl
  · rw [readLoop_top' h (Nat.lt_of_lt_of_le h (Nat.pow_le_pow_right (by decide) (by decide))),
      readLoop_mid' h 56, readLoop_mid' h 49, readLoop_mid' h 42, readLoop_mid' h 35,
      readLoop_mid' h 28, readLoop_mid' h 21, readLoop_mid' h 14, readLoop_mid' h 7, readLoop_last' h]; rfl

theorem sizeVarNum_pos (n : Nat) : 1 ≤ sizeVarNum n := by
  unfold sizeVarNum; repeat' split
  all_goals omega

theorem sizeVarNum_le (n : Nat) : sizeVarNum n ≤ 10 := by
  unfold sizeVarNum; repeat' split
  all_goals omega

theorem writeVarNum_ne_nil (n : Nat) : writeVarNum n ≠ [] := by
  intro h; have := writeVarNum_length n; rw [h] at this; have := sizeVarNum_pos n; simp at *; omega

/-- All bytes but the last have the continuation bit. -/
theorem writeVarNum_shape {n : Nat} (h : n < 2 ^ 64) :
    ∃ init last, writeVarNum n = init ++ [last] ∧ last.toNat < 128 ∧ ∀ c ∈ init, c.toNat ≥ 128 := by
  obtain ⟨w, hw⟩ : ∃ w, w = writeVarNum n := ⟨_, rfl⟩
  have hne : w ≠ [] := hw ▸ writeVarNum_ne_nil n
  rw [← hw]
  refine ⟨w.dropLast, w.getLast hne, (List.dropLast_concat_getLast hne).symm, ?_⟩
  unfold writeVarNum at hw
  simp only [Nat.shiftLeft_eq, Nat.shiftRight_eq_div_pow] at hw
  repeat' split at hw
  all_goals
    subst hw
    simp only [List.getLast_cons_cons, List.getLast_singleton, List.dropLast_cons_cons,
      List.dropLast_singleton, List.mem_cons, List.not_mem_nil, or_false, forall_eq_or_imp, forall_eq,
      false_imp_iff, implies_true, and_true, lastByte_toNat, midByte_toNat, byte_toNat]
  · omega
  all_goals
    rw [topByte_toNat (by omega)]
    omega

theorem readLoop_allCont (p : Bytes) (hp : ∀ c ∈ p, c.toNat ≥ 128) (acc used) :
    readVarNumLoop p acc used = none := by
  induction p generalizing acc used with
  | nil => rfl
  | cons c p ih =>
    rw [readLoop_cont (hp c (by simp))]
    exact ih (fun c hc => hp c (by simp [hc])) _ _

/-- The reader depends only on the bytes it consumes. -/
theorem readLoop_local (s : Bytes) : ∀ (acc used v k : Nat), readVarNumLoop s acc used = some (v, k) →
    used < k ∧ k - used ≤ s.length ∧
    ∀ r, readVarNumLoop (s.take (k - used) ++ r) acc used = some (v, k) := by
  induction s with
  | nil => intro acc used v k h; simp [readVarNumLoop] at h
  | cons c s ih =>
    intro acc used v k h
    by_cases hc : c.toNat ≥ 128
    · rw [readLoop_cont hc] at h
      obtain ⟨h1, h2, h3⟩ := ih _ _ _ _ h
      refine ⟨by omega, by simp; omega, fun r => ?_⟩
      have : k - used = (k - (used + 1)) + 1 := by omega
      rw [this, List.take_succ_cons, List.cons_append, readLoop_cont hc]
      exact h3 r
    · rw [readLoop_end (by omega)] at h
      simp only [Option.some.injEq, Prod.mk.injEq] at h
      obtain ⟨rfl, rfl⟩ := h
      refine ⟨by omega, by simp, fun r => ?_⟩
      have : used + 1 - used = 1 := by omega
      rw [this, List.take_succ_cons, List.cons_append, readLoop_end (by omega)]

/-! Fixed width -/

theorem fromBe64_append (xs ys : Bytes) :
    fromBe64 (xs ++ ys) = fromBe64 xs * 256 ^ ys.length + fromBe64 ys := by
  have aux : ∀ (ys : Bytes) (a : Nat), ys.foldl (fun a b => a * 256 + b.toNat) a =
      a * 256 ^ ys.length + ys.foldl (fun a b => a * 256 + b.toNat) 0 := by
    intro ys
    induction ys with
    | nil => intro a; simp
    | cons y ys ih =>
      intro a
      simp only [List.foldl_cons, List.length_cons]
      rw [ih, ih (0 * 256 + y.toNat)]
      rw [Nat.pow_succ, Nat.add_mul, Nat.zero_mul, Nat.zero_add, ← Nat.add_assoc, Nat.mul_assoc,
        Nat.mul_comm 256]
  simp only [fromBe64, List.foldl_append]
  exact aux _ _

theorem fromBe64_zeros (k : Nat) : fromBe64 (List.replicate k 0) = 0 := by
  induction k with
  | zero => rfl
  | succ k ih =>
    rw [List.replicate_succ', fromBe64_append, ih]; simp [fromBe64]

theorem fromBe64_lt (xs : Bytes) : fromBe64 xs < 256 ^ xs.length := by
  suffices H : ∀ (xs : Bytes), fromBe64 xs.reverse < 256 ^ xs.length by
    have := H xs.reverse; simpa using this
  intro xs
  induction xs with
  | nil => simp [fromBe64]
  | cons x xs ih =>
    rw [List.reverse_cons, fromBe64_append]
    have := x.toNat_lt
    have e : fromBe64 [x] = x.toNat := by simp [fromBe64]
    rw [e, List.length_cons, Nat.pow_succ]
    simp only [List.length_cons, List.length_nil, Nat.zero_add, Nat.pow_one]
    omega

theorem be64_length (n : Nat) : (be64 n).length = 8 := rfl

theorem writeFixNum_length {w : Nat} (n : Nat) (h : w ≤ 8) : (writeFixNum n w).length = w := by
  simp only [writeFixNum, List.length_drop, be64_length]; omega

theorem fromBe64_writeFixNum (n : Nat) {w : Nat} (h : w ≤ 8) :
    fromBe64 (writeFixNum n w) = n % 256 ^ w := by
  have : w = 0 ∨ w = 1 ∨ w = 2 ∨ w = 3 ∨ w = 4 ∨ w = 5 ∨ w = 6 ∨ w = 7 ∨ w = 8 := by omega
  rcases this with rfl | rfl | rfl | rfl | rfl | rfl | rfl | rfl | rfl <;>
    simp only [writeFixNum, be64, fromBe64, List.drop_succ_cons, List.drop_zero, List.foldl_cons, List.foldl_nil,
      byte_toNat, Nat.shiftRight_eq_div_pow, Nat.reduceSub, List.drop_nil] <;> omega

theorem readFixNum_eq (buf : Bytes) {w : Nat} (h : w ≤ 8) :
    readFixNum buf w = fromBe64 (buf.take w) := by
  rw [readFixNum, fromBe64_append, fromBe64_zeros, List.length_replicate, Nat.shiftRight_eq_div_pow,
    Nat.add_zero, Nat.mul_comm (8 - w) 8, Nat.pow_mul]
  exact Nat.mul_div_cancel _ (Nat.pow_pos (by decide))

end Verif.Codec
