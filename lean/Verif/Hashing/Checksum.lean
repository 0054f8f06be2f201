import Verif.Prelude.Bytes

/-
The checksum and Adler functions of tkrzw_hash_util.cc 77-187 and tkrzw_hash_util.h 93-175: C47.
-/
namespace Verif.Checksum

/-! ### The model -/

/-- Arithmetic of `uint32_t`. -/
def u32 (n : Nat) : Nat := n % 2 ^ 32

/-- The inner loop of the checksums (tkrzw_hash_util.cc 85-87, 101-103). -/
def addAll (seed : Nat) : Bytes → Nat
  | [] => seed
  | b :: bs => addAll (u32 (seed + b.toNat)) bs

/-- The outer loop of the checksums (tkrzw_hash_util.cc 82-89, 98-105). -/
def batches (modulo cap : Nat) (seed : Nat) : Bytes → Nat
  | [] => seed
  | b :: bs => batches modulo cap (addAll seed (b :: bs.take (cap - 1)) % modulo) (bs.drop (cap - 1))
  termination_by data => data.length
  decreasing_by simp; omega

/-- `HashChecksum6Continuous` (tkrzw_hash_util.cc 77-91). -/
def checksum6 (data : Bytes) (_finish : Bool) (seed : Nat) : Nat := batches 61 (2 ^ 23) seed data

/-- `HashChecksum8Continuous` (tkrzw_hash_util.cc 93-107). -/
def checksum8 (data : Bytes) (_finish : Bool) (seed : Nat) : Nat := batches 251 (2 ^ 23) seed data

/-- `HashChecksum6Pair` (tkrzw_hash_util.h 93-113). -/
def checksum6Pair (a b : Bytes) (seed : Nat) : Nat :=
  if a.length + b.length < 2 ^ 23 then addAll (addAll seed a) b % 61 else checksum6 b true (checksum6 a false seed)

/-- `HashChecksum8Pair` (tkrzw_hash_util.h 148-168). -/
def checksum8Pair (a b : Bytes) (seed : Nat) : Nat :=
  if a.length + b.length < 2 ^ 23 then addAll (addAll seed a) b % 251 else checksum8 b true (checksum8 a false seed)

/-- The inner loop of the Adler functions (tkrzw_hash_util.cc 119-122 and so on): the pair of `seed` and `sum`. -/
def adlerAll (st : Nat × Nat) : Bytes → Nat × Nat
  | [] => st
  | b :: bs => adlerAll (u32 (st.1 + b.toNat), u32 (st.2 + u32 (st.1 + b.toNat))) bs

/-- The outer loop of the Adler functions (tkrzw_hash_util.cc 116-125 and so on). -/
def adlerBatches (modulo : Nat) (st : Nat × Nat) : Bytes → Nat × Nat
  | [] => st
  | b :: bs =>
    let st := adlerAll st (b :: bs.take 4095)
    adlerBatches modulo (st.1 % modulo, st.2 % modulo) (bs.drop 4095)
  termination_by data => data.length
  decreasing_by simp; omega

/-- An Adler function of a modulus and a number of bits per part. -/
def adler (modulo bits : Nat) (data : Bytes) (seed : Nat) : Nat :=
  let st := adlerBatches modulo (seed &&& (2 ^ bits - 1), seed >>> bits) data
  u32 (st.2 <<< bits) ||| st.1

/-- `HashAdler6Continuous` (tkrzw_hash_util.cc 109-127). -/
def adler6 (data : Bytes) (_finish : Bool) (seed : Nat) : Nat := adler 7 3 data seed
/-- `HashAdler8Continuous` (tkrzw_hash_util.cc 129-147). -/
def adler8 (data : Bytes) (_finish : Bool) (seed : Nat) : Nat := adler 13 4 data seed
/-- `HashAdler16Continuous` (tkrzw_hash_util.cc 149-167). -/
def adler16 (data : Bytes) (_finish : Bool) (seed : Nat) : Nat := adler 251 8 data seed
/-- `HashAdler32Continuous` without zlib (tkrzw_hash_util.cc 174-187). -/
def adler32 (data : Bytes) (_finish : Bool) (seed : Nat) : Nat := adler 65521 16 data seed

/-! ### SPECIFICATION -/

/-- The sum of the bytes. -/
def total (data : Bytes) : Nat := (data.map UInt8.toNat).sum

/-- The sum over all positions of the sum of the bytes up to it. -/
def weighted : Bytes → Nat
  | [] => 0
  | b :: bs => b.toNat * (bs.length + 1) + weighted bs

/-! ### Lemmas -/

theorem total_nil : total [] = 0 := rfl
theorem total_cons (b : UInt8) (bs : Bytes) : total (b :: bs) = b.toNat + total bs := by simp [total]
theorem total_append (a b : Bytes) : total (a ++ b) = total a + total b := by simp [total]
theorem total_le : ∀ data : Bytes, total data ≤ 255 * data.length
  | [] => by simp [total]
  | b :: bs => by
    have := total_le bs
    have := b.toNat_lt
    rw [total_cons, List.length_cons]; omega

theorem weighted_append : ∀ a b : Bytes, weighted (a ++ b) = weighted a + total a * b.length + weighted b
  | [], b => by simp [weighted, total]
  | x :: a, b => by
    rw [List.cons_append, weighted, weighted_append a b, weighted, total_cons, List.length_append, Nat.add_mul, Nat.mul_add, Nat.mul_add, Nat.mul_add]
    omega

theorem addAll_eq : ∀ (data : Bytes) (seed : Nat), seed + total data < 2 ^ 32 → addAll seed data = seed + total data
  | [], seed, _ => rfl
  | b :: bs, seed, h => by
    rw [total_cons] at h ⊢
    rw [addAll, u32, Nat.mod_eq_of_lt (by omega), addAll_eq bs _ (by omega)]
    omega

theorem batches_eq (modulo cap : Nat) (hm : 0 < modulo) (hm2 : modulo ≤ 2 ^ 16) (hc : 0 < cap) (hc2 : cap ≤ 2 ^ 23) :
    ∀ (n : Nat) (data : Bytes) (seed : Nat), data.length ≤ n → seed < 2 ^ 31 → data ≠ [] → batches modulo cap seed data = (seed + total data) % modulo := by
  intro n
  induction n with
  | zero => intro data seed hn _ hne; exact absurd (List.length_eq_zero_iff.1 (by omega)) hne
  | succ n ih =>
    intro data seed hn hs hne
    obtain ⟨b, bs, rfl⟩ := List.exists_cons_of_ne_nil hne
    have hsplit : total (b :: bs) = total (b :: bs.take (cap - 1)) + total (bs.drop (cap - 1)) := by
      rw [← total_append, List.cons_append, List.take_append_drop]
    have hb := total_le (b :: bs.take (cap - 1))
    simp only [List.length_cons, List.length_take] at hb hn
    have hb2 : total (b :: bs.take (cap - 1)) ≤ 255 * 2 ^ 23 := by omega
    rw [batches, addAll_eq _ _ (by omega)]
    have hlt : (seed + total (b :: bs.take (cap - 1))) % modulo < modulo := Nat.mod_lt _ hm
    by_cases hd : bs.drop (cap - 1) = []
    · rw [hd, batches, hsplit, hd, total_nil, Nat.add_zero]
    · rw [ih _ _ (by rw [List.length_drop]; omega) (by omega) hd, hsplit, Nat.mod_add_mod]
      congr 1; omega

theorem batches_nil (modulo cap seed : Nat) : batches modulo cap seed [] = seed := by rw [batches]

theorem adlerAll_eq : ∀ (data : Bytes) (s t : Nat), s + total data < 2 ^ 32 → t + s * data.length + weighted data < 2 ^ 32 →
    adlerAll (s, t) data = (s + total data, t + s * data.length + weighted data)
  | [], s, t, _, _ => by simp [adlerAll, total, weighted]
  | b :: bs, s, t, h1, h2 => by
    rw [total_cons] at h1 ⊢
    rw [weighted, List.length_cons, Nat.mul_add, Nat.mul_add] at h2 ⊢
    have hx : (s + b.toNat) * bs.length = s * bs.length + b.toNat * bs.length := Nat.add_mul _ _ _
    simp only [adlerAll, u32]
    rw [Nat.mod_eq_of_lt (show s + b.toNat < 2 ^ 32 by omega), Nat.mod_eq_of_lt (show t + (s + b.toNat) < 2 ^ 32 by omega),
      adlerAll_eq bs _ _ (by omega) (by rw [hx]; omega), hx]
    congr 1 <;> omega

theorem weighted_le : ∀ data : Bytes, 2 * weighted data ≤ 255 * (data.length * (data.length + 1))
  | [] => by simp [weighted]
  | b :: bs => by
    have h1 := weighted_le bs
    have hb : b.toNat ≤ 255 := by have := b.toNat_lt; omega
    have h2 : b.toNat * (bs.length + 1) ≤ 255 * (bs.length + 1) := Nat.mul_le_mul_right _ hb
    rw [weighted, List.length_cons]
    have e : (bs.length + 1) * (bs.length + 1 + 1) = bs.length * (bs.length + 1) + 2 * (bs.length + 1) := by
      rw [← Nat.add_mul, Nat.mul_comm]
    omega

theorem mod_add (a b c m : Nat) (h : a % m = b % m) : (a + c) % m = (b + c) % m := by rw [Nat.add_mod, h, ← Nat.add_mod]
theorem mod_three (a b c w m : Nat) : (a % m + b % m * c + w) % m = (a + b * c + w) % m := by
  refine mod_add _ _ w m ?_
  rw [Nat.mod_add_mod, Nat.add_comm, Nat.add_comm a]
  refine mod_add _ _ a m ?_
  rw [Nat.mod_mul_mod]

theorem adler_eq (modulo : Nat) (hm : 0 < modulo) (hm2 : modulo ≤ 2 ^ 16) :
    ∀ (n : Nat) (data : Bytes) (s t : Nat), data.length ≤ n → s < 2 ^ 16 → t < 2 ^ 30 → data ≠ [] →
      adlerBatches modulo (s, t) data = ((s + total data) % modulo, (t + s * data.length + weighted data) % modulo) := by
  intro n
  induction n with
  | zero => intro data s t hn _ _ hne; exact absurd (List.length_eq_zero_iff.1 (by omega)) hne
  | succ n ih =>
    intro data s t hn hs ht hne
    obtain ⟨b, bs, rfl⟩ := List.exists_cons_of_ne_nil hne
    generalize hx : b :: bs.take 4095 = x
    generalize hy : bs.drop 4095 = y
    have hxy : b :: bs = x ++ y := by rw [← hx, ← hy, List.cons_append, List.take_append_drop]
    have hxl : x.length ≤ 4096 := by rw [← hx, List.length_cons, List.length_take]; omega
    have hyl : y.length ≤ n := by rw [← hy, List.length_drop]; simp only [List.length_cons] at hn; omega
    have h1 := total_le x
    have h2 := weighted_le x
    have h3 : x.length * (x.length + 1) ≤ 4096 * 4097 := Nat.mul_le_mul hxl (by omega)
    have h4 : s * x.length ≤ 2 ^ 16 * 4096 := Nat.mul_le_mul (by omega) hxl
    rw [adlerBatches, hx, hy, adlerAll_eq x s t (by omega) (by omega)]
    dsimp only
    rw [hxy, total_append, weighted_append, List.length_append]
    have l1 : (s + total x) % modulo < modulo := Nat.mod_lt _ hm
    have l2 : (t + s * x.length + weighted x) % modulo < modulo := Nat.mod_lt _ hm
    by_cases hd : y = []
    · subst hd
      rw [adlerBatches]
      simp [weighted, total]
    · rw [ih y _ _ hyl (by omega) (by omega) hd]
      congr 1
      · rw [Nat.mod_add_mod]; congr 1; omega
      · rw [mod_three]
        congr 1
        rw [Nat.add_mul, Nat.mul_add]; omega

/-- The packing of the two parts. -/
theorem adler_pack (bits s t : Nat) (hs : s < 2 ^ bits) (ht : t * 2 ^ bits < 2 ^ 32) : u32 (t <<< bits) ||| s = t * 2 ^ bits + s := by
  rw [u32, Nat.shiftLeft_eq, Nat.mod_eq_of_lt ht, Nat.mul_comm, ← Nat.two_pow_add_eq_or_of_lt hs]

theorem adler_unpack (bits s t : Nat) (hs : s < 2 ^ bits) : (t * 2 ^ bits + s) &&& (2 ^ bits - 1) = s ∧ (t * 2 ^ bits + s) >>> bits = t := by
  rw [Nat.and_two_pow_sub_one_eq_mod, Nat.shiftRight_eq_div_pow]
  constructor
  · rw [Nat.add_comm, Nat.add_mul_mod_self_right, Nat.mod_eq_of_lt hs]
  · rw [Nat.add_comm, Nat.add_mul_div_right _ _ (Nat.two_pow_pos bits), Nat.div_eq_of_lt hs, Nat.zero_add]

/-- An Adler function by its two sums, for a seed made of reduced parts. -/
theorem adler_spec (modulo bits s t : Nat) (data : Bytes) (hm : 0 < modulo) (hmb : modulo ≤ 2 ^ bits) (hb : bits ≤ 16) (hs : s < modulo) (ht : t < modulo) :
    adler modulo bits data (t * 2 ^ bits + s) = (t + s * data.length + weighted data) % modulo * 2 ^ bits + (s + total data) % modulo := by
  have hp : 2 ^ bits ≤ 2 ^ 16 := Nat.pow_le_pow_right (by decide) hb
  have hu := adler_unpack bits s t (by omega)
  have hmul : ∀ u, u < modulo → u * 2 ^ bits < 2 ^ 32 := fun u hu =>
    Nat.lt_of_lt_of_le (Nat.mul_lt_mul_of_pos_right (show u < 2 ^ 16 by omega) (Nat.two_pow_pos bits)) (by
      have := Nat.mul_le_mul_left (2 ^ 16) hp
      omega)
  unfold adler
  rw [hu.1, hu.2]
  by_cases hd : data = []
  · subst hd
    simp only [adlerBatches, total, weighted, List.length_nil, List.map_nil, List.sum_nil, Nat.mul_zero, Nat.add_zero]
    rw [adler_pack bits s t (by omega) (hmul t ht), Nat.mod_eq_of_lt ht, Nat.mod_eq_of_lt hs]
  · rw [adler_eq modulo hm (by omega) data.length data s t (Nat.le_refl _) (by omega) (by omega) hd]
    have l1 : (s + total data) % modulo < modulo := Nat.mod_lt _ hm
    exact adler_pack bits _ _ (by omega) (hmul _ (Nat.mod_lt _ hm))

/-! ### C47 -/

/-- C47: the checksums are the sum of the bytes and the seed, reduced by 61 or 251, for data of any length and seeds below 2^31. (Of no data,
the continuous functions give the seed as it is, and the pair functions the seed reduced.) -/
theorem C47_checksum (data a b : Bytes) (finish : Bool) (seed : Nat) (hs : seed < 2 ^ 31) :
    checksum6 data finish seed = (if data = [] then seed else (seed + total data) % 61) ∧
    checksum8 data finish seed = (if data = [] then seed else (seed + total data) % 251) ∧
    checksum6Pair a b seed = (seed + total (a ++ b)) % 61 ∧ checksum8Pair a b seed = (seed + total (a ++ b)) % 251 := by
  have one : ∀ m, 0 < m → m ≤ 2 ^ 16 → ∀ data seed, seed < 2 ^ 31 → batches m (2 ^ 23) seed data = if data = [] then seed else (seed + total data) % m := by
    intro m hm hm2 data seed hs
    by_cases hd : data = []
    · subst hd; rw [if_pos rfl, batches_nil]
    · rw [if_neg hd, batches_eq m _ hm hm2 (by decide) (by decide) _ _ _ (Nat.le_refl _) hs hd]
  have pair : ∀ m, 0 < m → m ≤ 2 ^ 16 →
      (if a.length + b.length < 2 ^ 23 then addAll (addAll seed a) b % m else batches m (2 ^ 23) (batches m (2 ^ 23) seed a) b) = (seed + total (a ++ b)) % m := by
    intro m hm hm2
    rw [total_append]
    by_cases hl : a.length + b.length < 2 ^ 23
    · have h1 := total_le a
      have h2 := total_le b
      rw [if_pos hl, addAll_eq a seed (by omega), addAll_eq b _ (by omega), Nat.add_assoc]
    · rw [if_neg hl]
      have hr : ∀ x, x % m < 2 ^ 31 := fun x => by have := Nat.mod_lt x hm; omega
      by_cases ha : a = []
      · subst ha
        rw [batches_nil, one m hm hm2 b _ hs, if_neg (by intro hb; subst hb; simp at hl), total_nil, Nat.zero_add]
      · rw [one m hm hm2 a _ hs, if_neg ha, one m hm hm2 b _ (hr _)]
        by_cases hb : b = []
        · subst hb; rw [if_pos rfl, total_nil, Nat.add_zero]
        · rw [if_neg hb, Nat.mod_add_mod, Nat.add_assoc]
  exact ⟨one 61 (by decide) (by decide) data seed hs, one 251 (by decide) (by decide) data seed hs, pair 61 (by decide) (by decide), pair 251 (by decide) (by decide)⟩

/-- C47: the checksums over pieces are the checksums over the whole. -/
theorem C47_checksum_continuous (a b : Bytes) (finish : Bool) (seed : Nat) (hs : seed < 2 ^ 31) :
    checksum6 b finish (checksum6 a false seed) = checksum6 (a ++ b) finish seed ∧ checksum8 b finish (checksum8 a false seed) = checksum8 (a ++ b) finish seed := by
  have hr : ∀ x m : Nat, 0 < m → m < 2 ^ 31 → x % m < 2 ^ 31 := fun x m hm h => by have := Nat.mod_lt x hm; omega
  by_cases ha : a = []
  · subst ha
    simp only [checksum6, checksum8, batches_nil, List.nil_append, and_self]
  by_cases hb : b = []
  · subst hb
    simp only [checksum6, checksum8, batches_nil, List.append_nil, and_self]
  have hab : a ++ b ≠ [] := by simp [ha]
  have h1 := C47_checksum a [] [] false seed hs
  have h3 := C47_checksum (a ++ b) [] [] finish seed hs
  rw [h1.1, h1.2.1, h3.1, h3.2.1]
  simp only [if_neg ha, if_neg hab]
  have h2 := (C47_checksum b [] [] finish _ (hr (seed + total a) 61 (by decide) (by decide))).1
  have h2' := (C47_checksum b [] [] finish _ (hr (seed + total a) 251 (by decide) (by decide))).2.1
  rw [h2, h2']
  simp only [if_neg hb, Nat.mod_add_mod, total_append, Nat.add_assoc, and_self]

/-- C47: the Adler functions are the two sums, of the bytes and of the sums at all positions, for data of any length and seeds made by such a function. -/
theorem C47_adler (data : Bytes) (finish : Bool) (s t : Nat) :
    (s < 7 → t < 7 → adler6 data finish (t * 8 + s) = (t + s * data.length + weighted data) % 7 * 8 + (s + total data) % 7) ∧
    (s < 13 → t < 13 → adler8 data finish (t * 16 + s) = (t + s * data.length + weighted data) % 13 * 16 + (s + total data) % 13) ∧
    (s < 251 → t < 251 → adler16 data finish (t * 256 + s) = (t + s * data.length + weighted data) % 251 * 256 + (s + total data) % 251) ∧
    (s < 65521 → t < 65521 → adler32 data finish (t * 65536 + s) = (t + s * data.length + weighted data) % 65521 * 65536 + (s + total data) % 65521) :=
  ⟨adler_spec 7 3 s t data (by decide) (by decide) (by decide), adler_spec 13 4 s t data (by decide) (by decide) (by decide),
   adler_spec 251 8 s t data (by decide) (by decide) (by decide), adler_spec 65521 16 s t data (by decide) (by decide) (by decide)⟩

theorem adler_pieces (modulo bits s t : Nat) (a b : Bytes) (hm : 0 < modulo) (hmb : modulo ≤ 2 ^ bits) (hb : bits ≤ 16) (hs : s < modulo) (ht : t < modulo) :
    adler modulo bits b (adler modulo bits a (t * 2 ^ bits + s)) = adler modulo bits (a ++ b) (t * 2 ^ bits + s) := by
  rw [adler_spec modulo bits s t a hm hmb hb hs ht, adler_spec modulo bits _ _ b hm hmb hb (Nat.mod_lt _ hm) (Nat.mod_lt _ hm),
    adler_spec modulo bits s t (a ++ b) hm hmb hb hs ht, total_append, weighted_append, List.length_append]
  congr 1
  · congr 1
    rw [mod_three]
    congr 1
    rw [Nat.add_mul, Nat.mul_add]; omega
  · rw [Nat.mod_add_mod, Nat.add_assoc]

/-- C47: the Adler functions over pieces are those over the whole. -/
theorem C47_adler_continuous (a b : Bytes) (finish : Bool) (s t : Nat) :
    (s < 7 → t < 7 → adler6 b finish (adler6 a false (t * 8 + s)) = adler6 (a ++ b) finish (t * 8 + s)) ∧
    (s < 13 → t < 13 → adler8 b finish (adler8 a false (t * 16 + s)) = adler8 (a ++ b) finish (t * 16 + s)) ∧
    (s < 251 → t < 251 → adler16 b finish (adler16 a false (t * 256 + s)) = adler16 (a ++ b) finish (t * 256 + s)) ∧
    (s < 65521 → t < 65521 → adler32 b finish (adler32 a false (t * 65536 + s)) = adler32 (a ++ b) finish (t * 65536 + s)) :=
  ⟨adler_pieces 7 3 s t a b (by decide) (by decide) (by decide), adler_pieces 13 4 s t a b (by decide) (by decide) (by decide),
   adler_pieces 251 8 s t a b (by decide) (by decide) (by decide), adler_pieces 65521 16 s t a b (by decide) (by decide) (by decide)⟩

theorem congr_mod (u v m : Nat) (x y : Nat) (h : (u + x) % m = (u + y) % m) (hv : v = x) (hx : v < m) (hy : y < m) : x = y := by
  subst hv
  rcases Nat.le_total v y with hle | hle
  · have : (y - v) % m = 0 := by
      have := Nat.sub_mod_eq_zero_of_mod_eq h.symm
      rwa [show u + y - (u + v) = y - v by omega] at this
    rw [Nat.mod_eq_of_lt (by omega)] at this; omega
  · have : (v - y) % m = 0 := by
      have := Nat.sub_mod_eq_zero_of_mod_eq h
      rwa [show u + v - (u + y) = v - y by omega] at this
    rw [Nat.mod_eq_of_lt (by omega)] at this; omega

/-- C47: any single changed byte changes Adler-32. -/
theorem C47_adler32_detects (a b : Bytes) (x y : UInt8) (finish : Bool) (s t : Nat) (hs : s < 65521) (ht : t < 65521)
    (h : adler32 (a ++ x :: b) finish (t * 65536 + s) = adler32 (a ++ y :: b) finish (t * 65536 + s)) : x = y := by
  rw [(C47_adler _ _ _ _).2.2.2 hs ht, (C47_adler _ _ _ _).2.2.2 hs ht] at h
  have hm := congrArg (· % 65536) h
  simp only [Nat.mul_add_mod_self_right] at hm
  have l : ∀ n : Nat, n % 65521 % 65536 = n % 65521 := fun n => Nat.mod_eq_of_lt (Nat.lt_of_lt_of_le (Nat.mod_lt n (by decide)) (by decide))
  rw [l, l, total_append, total_append, total_cons, total_cons] at hm
  have hx := x.toNat_lt
  have hy := y.toNat_lt
  have e : ∀ n : Nat, s + (total a + (n + total b)) = (s + total a + total b) + n := by intro n; omega
  rw [e, e] at hm
  exact UInt8.toNat_inj.1 (congr_mod _ x.toNat 65521 _ _ hm rfl (by omega) (by omega))

/-- C47 in part: a changed byte changes the checksums exactly if the difference is not a multiple of the modulus. So the record checksum of
HashDBM (modulus 61) and the checksum of messages (modulus 251) miss some changes of one byte; see `C47_checksum_violated`. -/
theorem C47_checksum_detects_partial (a b : Bytes) (x y : UInt8) (finish : Bool) (seed : Nat) (hs : seed < 2 ^ 31) :
    (checksum6 (a ++ x :: b) finish seed = checksum6 (a ++ y :: b) finish seed ↔ x.toNat % 61 = y.toNat % 61) ∧
    (checksum8 (a ++ x :: b) finish seed = checksum8 (a ++ y :: b) finish seed ↔ x.toNat % 251 = y.toNat % 251) := by
  have hne : ∀ z : UInt8, a ++ z :: b ≠ [] := by intro z; simp
  have hx := C47_checksum (a ++ x :: b) [] [] finish seed hs
  have hy := C47_checksum (a ++ y :: b) [] [] finish seed hs
  rw [hx.1, hx.2.1, hy.1, hy.2.1]
  simp only [if_neg (hne _), total_append, total_cons]
  constructor <;> omega

/-- C47 does not hold of the checksums: a byte changed from 0 to 61, or to 251, goes unnoticed. -/
theorem C47_checksum_violated (a b : Bytes) (seed : Nat) (hs : seed < 2 ^ 31) :
    checksum6 (a ++ 0 :: b) true seed = checksum6 (a ++ 61 :: b) true seed ∧ checksum8 (a ++ 0 :: b) true seed = checksum8 (a ++ 251 :: b) true seed :=
  ⟨(C47_checksum_detects_partial a b 0 61 true seed hs).1.2 rfl, (C47_checksum_detects_partial a b 0 251 true seed hs).2.2 rfl⟩

/-! The catalogue value of Adler-32, and values of the others for a text. -/
def wiki : Bytes := [0x57, 0x69, 0x6B, 0x69, 0x70, 0x65, 0x64, 0x69, 0x61]

example : adler32 wiki true 1 = 0x11E60398 := by
  rw [(C47_adler wiki true 1 0).2.2.2 (by decide) (by decide)]; decide +kernel
example : adler32 (wiki.drop 4) true (adler32 (wiki.take 4) false 1) = 0x11E60398 := by
  rw [(C47_adler_continuous (wiki.take 4) (wiki.drop 4) true 1 0).2.2.2 (by decide) (by decide), List.take_append_drop,
    (C47_adler wiki true 1 0).2.2.2 (by decide) (by decide)]; decide +kernel
example : adler16 wiki true 1 = (4582 % 251) * 256 + 920 % 251 := by
  rw [(C47_adler wiki true 1 0).2.2.1 (by decide) (by decide)]; decide +kernel
example : checksum6Pair (wiki.take 4) (wiki.drop 4) 11 = (11 + 919) % 61 := by
  rw [(C47_checksum [] (wiki.take 4) (wiki.drop 4) true 11 (by decide)).2.2.1]; decide +kernel

end Verif.Checksum
