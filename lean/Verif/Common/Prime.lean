import Mathlib.NumberTheory.Bertrand
/-
Bucket sizes of the hash databases (tkrzw_dbm_common_impl.cc 25-56).
-/
namespace Verif.Common

/-- The loop of `IsPrimeNumber` (tkrzw_dbm_common_impl.cc 36-40). -/
def trialLoop (num sq d : Nat) : Bool :=
  if h : d ≤ sq then
    if num % d = 0 then false else trialLoop num sq (d + 2)
  else true
termination_by sq + 1 - d

/-- `IsPrimeNumber` (tkrzw_dbm_common_impl.cc 25-42). `std::sqrt` on `double`, truncated, is taken to be the
integer square root, which it is for arguments below 2^52 (correct rounding of IEEE-754). -/
def isPrimeNumber (num : Nat) : Bool :=
  if num < 2 then false
  else if num = 2 then true
  else if num % 2 = 0 then false
  else trialLoop num (Nat.sqrt num) 3

/-- `INT64MAX`. -/
def int64max : Nat := 2 ^ 63 - 1

/-- The loop of `GetHashBucketSize` (tkrzw_dbm_common_impl.cc 48-55). -/
def bucketLoop (minSize num : Nat) : Nat :=
  if h : num < int64max then
    if isPrimeNumber num then num else bucketLoop minSize (num + 1)
  else minSize
termination_by int64max - num

/-- `GetHashBucketSize` (tkrzw_dbm_common_impl.cc 44-56). The argument may be negative. -/
def getHashBucketSize (minSize : Int) : Nat :=
  if minSize ≤ 100 then (max minSize 1).toNat
  else bucketLoop minSize.toNat minSize.toNat

theorem trialLoop_eq (num sq d : Nat) :
    trialLoop num sq d = true ↔ ∀ j, d + 2 * j ≤ sq → num % (d + 2 * j) ≠ 0 := by
  fun_induction trialLoop num sq d with
  | case1 d h h0 =>
    simp only [Bool.false_eq_true, false_iff, Classical.not_forall]
    exact ⟨0, by simpa using h, by simpa using h0⟩
  | case2 d h h0 ih =>
    rw [ih]
    constructor
    · intro hj j hle
      cases j with
      | zero => simpa using h0
      | succ j =>
        have := hj j (by omega)
        rwa [show d + 2 + 2 * j = d + 2 * (j + 1) by omega] at this
    · intro hj j hle
      have := hj (j + 1) (by omega)
      rwa [show d + 2 * (j + 1) = d + 2 + 2 * j by omega] at this
  | case3 d h =>
    simp only [true_iff]
    intro j hj; omega

/-- C50: `IsPrimeNumber` answers correctly. -/
theorem C50_is_prime (num : Nat) : isPrimeNumber num = true ↔ num.Prime := by
  unfold isPrimeNumber
  split
  · rename_i h
    simp only [Bool.false_eq_true, false_iff]
    intro hp; have := hp.two_le; omega
  · split
    · rename_i h; subst h; simp [Nat.prime_two]
    · split
      · rename_i h1 h2 h3
        simp only [Bool.false_eq_true, false_iff]
        intro hp
        rcases hp.eq_two_or_odd with h | h <;> omega
      · rename_i h1 h2 h3
        rw [trialLoop_eq]
        constructor
        · intro h
          rw [Nat.prime_def_le_sqrt]
          refine ⟨by omega, ?_⟩
          intro m hm hs hd
          have hodd : m % 2 = 1 := by
            by_contra hc
            have : 2 ∣ m := Nat.dvd_of_mod_eq_zero (by omega)
            have := Nat.dvd_trans this hd
            omega
          have := h ((m - 3) / 2) (by omega)
          rw [show 3 + 2 * ((m - 3) / 2) = m by omega] at this
          exact this (Nat.mod_eq_zero_of_dvd hd)
        · intro hp j hj h0
          have hd := Nat.dvd_of_mod_eq_zero h0
          rcases (Nat.dvd_prime hp).1 hd with h | h
          · omega
          · have := Nat.sqrt_lt_self (n := num) (by omega)
            omega

/-- SPECIFICATION: `p` is the smallest prime not below `n`. -/
def IsNextPrime (n p : Nat) : Prop := p.Prime ∧ n ≤ p ∧ ∀ q, n ≤ q → q < p → ¬ q.Prime

theorem bucketLoop_next (minSize : Nat) (num p : Nat) (hp : IsNextPrime num p) (hlt : p < int64max) :
    bucketLoop minSize num = p := by
  fun_induction bucketLoop minSize num with
  | case1 num h h0 =>
    have h1 := (C50_is_prime num).1 h0
    rcases Nat.lt_or_ge num p with h2 | h2
    · exact absurd h1 (hp.2.2 num (Nat.le_refl _) h2)
    · have := hp.2.1; omega
  | case2 num h h0 ih =>
    apply ih
    refine ⟨hp.1, ?_, fun q h1 h2 => hp.2.2 q (by omega) h2⟩
    have : num ≠ p := fun e => h0 (by rw [C50_is_prime, e]; exact hp.1)
    have := hp.2.1; omega
  | case3 num h => have := hp.2.1; omega

/-- C50: above 100, `GetHashBucketSize` returns the smallest prime number that is at least the given size, which
is less than twice the size (so the loop ends); up to 100 the size itself, but at least 1. The bound 2^51 keeps
the numbers within the exact range of `double`; the databases clamp to 1099511627689 < 2^51 before calling. -/
theorem C50_bucket_size (n : Int) :
    (n ≤ 100 → getHashBucketSize n = (max n 1).toNat) ∧
    (100 < n → n ≤ 2 ^ 51 → IsNextPrime n.toNat (getHashBucketSize n) ∧ getHashBucketSize n ≤ 2 * n.toNat) := by
  refine ⟨fun h => by simp [getHashBucketSize, h], fun h1 h2 => ?_⟩
  obtain ⟨q, hq, hq1, hq2⟩ := Nat.exists_prime_lt_and_le_two_mul n.toNat (by omega)
  have hex : ∃ p, p.Prime ∧ n.toNat ≤ p := ⟨q, hq, by omega⟩
  classical
  have hnp : IsNextPrime n.toNat (Nat.find hex) :=
    ⟨(Nat.find_spec hex).1, (Nat.find_spec hex).2, fun r hr1 hr2 hr3 => Nat.find_min hex hr2 ⟨hr3, hr1⟩⟩
  have hle : Nat.find hex ≤ q := Nat.find_min' hex ⟨hq, by omega⟩
  have e : getHashBucketSize n = Nat.find hex := by
    rw [getHashBucketSize, if_neg (by omega)]
    exact bucketLoop_next _ _ _ hnp (by simp only [int64max]; omega)
  rw [e]
  exact ⟨hnp, by omega⟩

/-- C50: the number of buckets is never zero. -/
theorem C50_bucket_size_pos (n : Int) : 0 < getHashBucketSize n := by
  rw [getHashBucketSize]
  split
  · omega
  · have key : ∀ m num, 0 < m → 0 < num → 0 < bucketLoop m num := by
      intro m num
      fun_induction bucketLoop m num with
      | case1 num h h0 => intro _ h; exact h
      | case2 num h h0 ih => intro h1 h2; exact ih h1 (by omega)
      | case3 num h => intro h _; exact h
    exact key _ _ (by omega) (by omega)

example : getHashBucketSize 102 = 103 ∧ getHashBucketSize 64 = 64 ∧ getHashBucketSize 0 = 1 := by decide +kernel

end Verif.Common
