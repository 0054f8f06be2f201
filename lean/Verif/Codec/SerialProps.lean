import Verif.Codec.Serial
import Verif.Codec.NumProps
/-
Property theorems C35 (container serializers) and C57 (deserializing untrusted data).
-/
namespace Verif.Codec
open Verif

theorem read_serializeStr {s : Bytes} (h : s.length < 2 ^ 64) (rest : Bytes) :
    readVarNum (serializeStr s ++ rest) = some (s.length, sizeVarNum s.length) := by
  rw [serializeStr, List.append_assoc]; exact readVarNum_write h _

theorem drop_serializeStr (s rest : Bytes) :
    (serializeStr s ++ rest).drop (sizeVarNum s.length) = s ++ rest := by
  rw [serializeStr, List.append_assoc, ← writeVarNum_length, List.drop_left]

/-- C35: a serialized pair of strings is read back exactly. -/
theorem C35_pair_roundtrip (a b : Bytes) (ha : a.length < 2 ^ 64) (hb : b.length < 2 ^ 64) :
    deserializeStrPair (serializeStrPair a b) = .ok (a, b) ∧
    firstOfStrPair (serializeStrPair a b) = .ok a := by
  have r1 : readVarNum0 (serializeStr a ++ serializeStr b) = (a.length, sizeVarNum a.length) := by
    rw [readVarNum0, read_serializeStr ha]
  have r2 : readVarNum0 (serializeStr b) = (b.length, sizeVarNum b.length) := by
    have := read_serializeStr hb []
    rw [List.append_nil] at this
    rw [readVarNum0, this]
  have d2 : (serializeStr b).drop (sizeVarNum b.length) = b := by
    have := drop_serializeStr b []
    simpa using this
  constructor
  · rw [deserializeStrPair, serializeStrPair, r1]
    simp only [drop_serializeStr]
    rw [if_neg (by simp), List.drop_left, r2]
    simp only [d2]
    rw [if_neg (by omega), List.take_left, List.take_length]
  · rw [firstOfStrPair, serializeStrPair, r1]
    simp only [drop_serializeStr]
    rw [if_neg (by simp), List.take_left]

example : serializeStrPair [97, 98] [7] = [2, 97, 98, 1, 7] := by decide

theorem serializeStr_ne_nil (s : Bytes) : serializeStr s ≠ [] := by
  have := writeVarNum_ne_nil s.length
  simp [serializeStr, this]

theorem deserStrVectorLoop_serialize (vs : List Bytes) (h : ∀ v ∈ vs, v.length < 2 ^ 63) :
    deserStrVectorLoop (serializeStrVector vs) = .ok vs := by
  induction vs with
  | nil => rw [serializeStrVector, List.flatMap_nil, deserStrVectorLoop]; simp
  | cons v vs ih =>
    have hv := h v (by simp)
    have e : serializeStrVector (v :: vs) = serializeStr v ++ serializeStrVector vs := by
      simp [serializeStrVector]
    rw [e, deserStrVectorLoop, dif_neg (by simp [serializeStr_ne_nil])]
    split
    · rename_i hr; rw [read_serializeStr (by omega)] at hr; cases hr
    · rename_i n k hr
      rw [read_serializeStr (by omega)] at hr
      simp only [Option.some.injEq, Prod.mk.injEq] at hr
      obtain ⟨rfl, rfl⟩ := hr
      simp only [drop_serializeStr]
      rw [if_neg (by omega), if_neg (by simp), List.drop_left, List.take_left,
        ih (fun x hx => h x (by simp [hx]))]
      rfl

theorem toInt32_small {n : Nat} (h : n < 2 ^ 31) : toInt32 n = n := by
  unfold toInt32
  simp only []
  rw [Nat.mod_eq_of_lt (by omega), if_pos h]

theorem serializeStr_length (v : Bytes) : v.length < (serializeStr v).length := by
  rw [serializeStr, List.length_append, writeVarNum_length]
  have := sizeVarNum_pos v.length
  omega

theorem length_le_flatMap {α : Type} (f : α → Bytes) (l : List α) {x : α} (h : x ∈ l) :
    (f x).length ≤ (l.flatMap f).length := by
  induction l with
  | nil => simp at h
  | cons y l ih =>
    rw [List.flatMap_cons, List.length_append]
    rcases List.mem_cons.mp h with rfl | h
    · omega
    · have := ih h; omega

/-- C35 (partial: for serialized data below 2 GiB; `C35_vector_violated` shows that the bound is needed): a
serialized vector of strings is read back exactly. -/
theorem C35_vector_roundtrip_partial (vs : List Bytes) (h : (serializeStrVector vs).length < 2 ^ 31) :
    deserializeStrVector (serializeStrVector vs) = .ok vs := by
  have hv : ∀ v ∈ vs, v.length < 2 ^ 63 := by
    intro v hv
    have h1 := serializeStr_length v
    have h2 := length_le_flatMap serializeStr vs hv
    rw [serializeStrVector] at h
    omega
  unfold deserializeStrVector
  simp only [toInt32_small h]
  by_cases hz : (serializeStrVector vs).length = 0
  · rw [if_pos (by omega)]
    cases vs with
    | nil => rfl
    | cons v vs =>
      have h1 := serializeStr_length v
      have h2 := length_le_flatMap serializeStr (v :: vs) (by simp : v ∈ v :: vs)
      rw [serializeStrVector] at hz
      omega
  · rw [if_neg (by omega), Int.toNat_natCast, List.take_length, deserStrVectorLoop_serialize vs hv]

example : deserializeStrVector (serializeStrVector [[1, 2], [], [3]]) = .ok [[1, 2], [], [3]] :=
  C35_vector_roundtrip_partial _ (by decide)

/-- C35 fails for a vector whose serialized form takes 2 GiB or more: the size is kept in a 32-bit signed integer,
so the deserializer returns an empty vector. -/
theorem C35_vector_violated : ∃ vs : List Bytes, deserializeStrVector (serializeStrVector vs) ≠ .ok vs := by
  have gen : ∀ x : Bytes, x.length = 2 ^ 31 → deserializeStrVector (serializeStrVector [x]) = .ok [] := by
    intro x hx
    have hl : (serializeStrVector [x]).length = 2 ^ 31 + 5 := by
      simp only [serializeStrVector, List.flatMap_cons, List.flatMap_nil, List.append_nil, serializeStr,
        List.length_append, writeVarNum_length, hx]
      decide
    have ht : toInt32 (2 ^ 31 + 5) = -2147483643 := by decide
    unfold deserializeStrVector
    simp only [hl, ht]
    rw [if_pos (by decide)]
  refine ⟨[List.replicate (2 ^ 31) 0], ?_⟩
  rw [gen _ List.length_replicate]
  intro h
  injection h with h
  cases h

theorem deserStrMapLoop_serialize (recs acc : List (Bytes × Bytes))
    (h : ∀ r ∈ recs, r.1.length < 2 ^ 63 ∧ r.2.length < 2 ^ 63) (hs : OrdMap.Sorted bytesLt (acc ++ recs)) :
    deserStrMapLoop (serializeStrMap recs) acc = .ok (acc ++ recs) := by
  induction recs generalizing acc with
  | nil => rw [serializeStrMap, List.flatMap_nil, deserStrMapLoop]; simp
  | cons r recs ih =>
    obtain ⟨a, b⟩ := r
    obtain ⟨ha, hb⟩ := h (a, b) (by simp)
    simp only [] at ha hb
    have e : serializeStrMap ((a, b) :: recs) = serializeStr a ++ (serializeStr b ++ serializeStrMap recs) := by
      simp [serializeStrMap]
    have hlast : OrdMap.emplace bytesLt a b acc = acc ++ [(a, b)] := by
      apply OrdMap.emplace_last bytesLt_weak
      intro x hx
      exact (List.pairwise_append.mp hs).2.2 x hx (a, b) (by simp)
    rw [e, deserStrMapLoop, dif_neg (by simp [serializeStr_ne_nil])]
    split
    · rename_i hr; rw [read_serializeStr (by omega)] at hr; cases hr
    · rename_i n k hr
      rw [read_serializeStr (by omega)] at hr
      simp only [Option.some.injEq, Prod.mk.injEq] at hr
      obtain ⟨rfl, rfl⟩ := hr
      simp only [drop_serializeStr]
      rw [if_neg (by omega), if_neg (by simp), List.drop_left, List.take_left]
      split
      · rename_i hr; rw [read_serializeStr (by omega)] at hr; cases hr
      · rename_i n k hr
        rw [read_serializeStr (by omega)] at hr
        simp only [Option.some.injEq, Prod.mk.injEq] at hr
        obtain ⟨rfl, rfl⟩ := hr
        simp only [drop_serializeStr]
        rw [if_neg (by omega), if_neg (by simp), List.drop_left, List.take_left, hlast,
          ih _ (fun x hx => h x (by simp [hx])) (by simpa using hs)]
        simp

/-- C35 (partial: for serialized data below 2 GiB): a serialized map of strings, i.e. records in strictly ascending
key order as `std::map` keeps them, is read back exactly. -/
theorem C35_map_roundtrip_partial (m : List (Bytes × Bytes)) (hm : OrdMap.Sorted bytesLt m)
    (h : (serializeStrMap m).length < 2 ^ 31) :
    deserializeStrMap (serializeStrMap m) = .ok m := by
  have hv : ∀ r ∈ m, r.1.length < 2 ^ 63 ∧ r.2.length < 2 ^ 63 := by
    intro r hr
    have h1 := serializeStr_length r.1
    have h1' := serializeStr_length r.2
    have h2 := length_le_flatMap (fun r : Bytes × Bytes => serializeStr r.1 ++ serializeStr r.2) m hr
    simp only [List.length_append] at h2
    rw [serializeStrMap] at h
    omega
  unfold deserializeStrMap
  simp only [toInt32_small h]
  by_cases hz : (serializeStrMap m).length = 0
  · rw [if_pos (by omega)]
    cases m with
    | nil => rfl
    | cons r m =>
      have h1 := serializeStr_length r.1
      have h2 := length_le_flatMap (fun r : Bytes × Bytes => serializeStr r.1 ++ serializeStr r.2) (r :: m)
        (by simp : r ∈ r :: m)
      simp only [List.length_append] at h2
      rw [serializeStrMap] at hz
      omega
  · rw [if_neg (by omega), Int.toNat_natCast, List.take_length, deserStrMapLoop_serialize m [] hv (by simpa using hm)]
    rfl

example : OrdMap.Sorted bytesLt [([1], [9]), ([1, 0], []), ([2], [8, 8])] ∧
    (serializeStrMap [([1], [9]), ([1, 0], []), ([2], [8, 8])]).length < 2 ^ 31 := by
  constructor
  · simp (decide := true) [OrdMap.Sorted]
  · decide

/-- C35: the map read back is well formed whatever order and repetitions the records had: of several records with one
key the first is kept, and the keys come out in order. -/
theorem C35_map_first_wins (recs : List (Bytes × Bytes)) (h : (serializeStrMap recs).length < 2 ^ 31) :
    ∃ m, deserializeStrMap (serializeStrMap recs) = .ok m ∧ OrdMap.Sorted bytesLt m ∧
      ∀ k, OrdMap.find bytesLt k m = (recs.find? (fun r => r.1 == k)).map Prod.snd := by
  have gen : ∀ (recs acc : List (Bytes × Bytes)), (∀ r ∈ recs, r.1.length < 2 ^ 63 ∧ r.2.length < 2 ^ 63) →
      OrdMap.Sorted bytesLt acc →
      ∃ m, deserStrMapLoop (serializeStrMap recs) acc = .ok m ∧ OrdMap.Sorted bytesLt m ∧
      ∀ k, OrdMap.find bytesLt k m = match OrdMap.find bytesLt k acc with
        | some v => some v
        | none => (recs.find? (fun r => r.1 == k)).map Prod.snd := by
    intro recs
    induction recs with
    | nil =>
      intro acc _ hacc
      refine ⟨acc, ?_, hacc, ?_⟩
      · rw [serializeStrMap, List.flatMap_nil, deserStrMapLoop]; simp
      · intro k; cases OrdMap.find bytesLt k acc <;> rfl
    | cons r recs ih =>
      intro acc hb hacc
      obtain ⟨a, b⟩ := r
      obtain ⟨ha, hbb⟩ := hb (a, b) (by simp)
      simp only [] at ha hbb
      have e : serializeStrMap ((a, b) :: recs) = serializeStr a ++ (serializeStr b ++ serializeStrMap recs) := by
        simp [serializeStrMap]
      obtain ⟨m, hm1, hm2, hm3⟩ := ih (OrdMap.emplace bytesLt a b acc) (fun x hx => hb x (by simp [hx]))
        (OrdMap.sorted_emplace bytesLt_weak _ _ hacc)
      refine ⟨m, ?_, hm2, ?_⟩
      · rw [e, deserStrMapLoop, dif_neg (by simp [serializeStr_ne_nil])]
        split
        · rename_i hr; rw [read_serializeStr (by omega)] at hr; cases hr
        · rename_i n k hr
          rw [read_serializeStr (by omega)] at hr
          simp only [Option.some.injEq, Prod.mk.injEq] at hr
          obtain ⟨rfl, rfl⟩ := hr
          simp only [drop_serializeStr]
          rw [if_neg (by omega), if_neg (by simp), List.drop_left, List.take_left]
          split
          · rename_i hr; rw [read_serializeStr (by omega)] at hr; cases hr
          · rename_i n k hr
            rw [read_serializeStr (by omega)] at hr
            simp only [Option.some.injEq, Prod.mk.injEq] at hr
            obtain ⟨rfl, rfl⟩ := hr
            simp only [drop_serializeStr]
            rw [if_neg (by omega), if_neg (by simp), List.drop_left, List.take_left, hm1]
      · intro k
        rw [hm3 k, OrdMap.find_emplace bytesLt_weak _ _ hacc]
        by_cases hk : a = k
        · subst hk
          rw [if_pos ((bytesLt_eqv _ _).mpr rfl)]
          cases OrdMap.find bytesLt a acc <;> simp
        · rw [if_neg (fun h => hk ((bytesLt_eqv _ _).mp h))]
          cases OrdMap.find bytesLt k acc <;> simp [hk]
  have hv : ∀ r ∈ recs, r.1.length < 2 ^ 63 ∧ r.2.length < 2 ^ 63 := by
    intro r hr
    have h1 := serializeStr_length r.1
    have h1' := serializeStr_length r.2
    have h2 := length_le_flatMap (fun r : Bytes × Bytes => serializeStr r.1 ++ serializeStr r.2) recs hr
    simp only [List.length_append] at h2
    rw [serializeStrMap] at h
    omega
  obtain ⟨m, h1, h2, h3⟩ := gen recs [] hv OrdMap.sorted_nil
  refine ⟨m, ?_, h2, fun k => by rw [h3 k]; rfl⟩
  unfold deserializeStrMap
  simp only [toInt32_small h]
  by_cases hz : (serializeStrMap recs).length = 0
  · have hn : serializeStrMap recs = [] := List.length_eq_zero_iff.mp hz
    rw [hn, deserStrMapLoop] at h1
    simp only [dite_true, Deser.ok.injEq] at h1
    rw [if_pos (by omega), ← h1]
  · rw [if_neg (by omega), Int.toNat_natCast, List.take_length, h1]

theorem deserBasicLoop_serialize (w : Nat) (hw : w ≤ 8) (vs : List Nat) (h : ∀ v ∈ vs, v < 2 ^ (8 * w)) :
    deserBasicLoop w vs.length (serializeBasicVector w vs) = vs := by
  induction vs with
  | nil => rfl
  | cons v vs ih =>
    have e : serializeBasicVector w (v :: vs) = writeFixNum v w ++ serializeBasicVector w vs := by
      simp [serializeBasicVector]
    obtain ⟨r, l⟩ := C33_fixnum_roundtrip v w hw (h v (by simp)) (serializeBasicVector w vs)
    rw [List.length_cons, deserBasicLoop, e, r]
    have : List.drop w (writeFixNum v w ++ serializeBasicVector w vs) = serializeBasicVector w vs := by
      have := List.drop_left (l₁ := writeFixNum v w) (l₂ := serializeBasicVector w vs)
      rwa [l] at this
    rw [this, ih (fun x hx => h x (by simp [hx]))]

/-- C35: vectors of unsigned integers of 1 to 8 bytes are read back exactly. -/
theorem C35_basic_vector_roundtrip (w : Nat) (h1 : 1 ≤ w) (hw : w ≤ 8) (vs : List Nat) (h : ∀ v ∈ vs, v < 2 ^ (8 * w)) :
    deserializeBasicVector w (serializeBasicVector w vs) = vs ∧
    (serializeBasicVector w vs).length = w * vs.length := by
  have hl : (serializeBasicVector w vs).length = w * vs.length := by
    clear h
    induction vs with
    | nil => rfl
    | cons v vs ih =>
      have e : serializeBasicVector w (v :: vs) = writeFixNum v w ++ serializeBasicVector w vs := by
        simp [serializeBasicVector]
      rw [e, List.length_append, ih, writeFixNum_length v hw, List.length_cons, Nat.mul_add]; omega
  refine ⟨?_, hl⟩
  rw [deserializeBasicVector, hl, Nat.mul_div_cancel_left _ (by omega), deserBasicLoop_serialize w hw vs h]

example : serializeBasicVector 2 [258, 5] = [1, 2, 0, 5] := by decide

theorem deltaDigits_eq (s : Bytes) : ∀ acc used n k, readVarNumLoop s acc used = some (n, k) →
    deltaDigits s acc = (n, s.drop (k - used)) ∧ used + 1 ≤ k := by
  induction s with
  | nil => intro acc used n k h; simp [readVarNumLoop] at h
  | cons c s ih =>
    intro acc used n k h
    simp only [readVarNumLoop] at h
    simp only [deltaDigits]
    split at h
    · rename_i hc
      obtain ⟨h1, h2⟩ := ih _ _ _ _ h
      rw [if_pos hc, h1]
      refine ⟨?_, by omega⟩
      have : k - used = (k - (used + 1)) + 1 := by omega
      rw [this, List.drop_succ_cons]
    · rename_i hc
      simp only [Option.some.injEq, Prod.mk.injEq] at h
      obtain ⟨rfl, rfl⟩ := h
      rw [if_neg hc]
      have : used + 1 - used = 0 + 1 := by omega
      rw [this, List.drop_succ_cons]
      exact ⟨rfl, by omega⟩

theorem deltaDigits_write {n : Nat} (h : n < 2 ^ 64) (rest : Bytes) :
    deltaDigits (writeVarNum n ++ rest) 0 = (n, rest) := by
  have hr := readVarNum_write h rest
  obtain ⟨h1, -⟩ := deltaDigits_eq _ _ _ _ _ hr
  rw [h1, Nat.sub_zero, ← writeVarNum_length, List.drop_left]

theorem toSigned_id {bits : Nat} (hb : 1 ≤ bits) {n : Int} (h0 : 0 ≤ n) (h : n < 2 ^ (bits - 1)) :
    toSigned bits n = n := by
  have hp : (2 : Int) ^ bits = 2 * 2 ^ (bits - 1) := by
    obtain ⟨k, rfl⟩ : ∃ k, bits = k + 1 := ⟨bits - 1, by omega⟩
    rw [Nat.add_sub_cancel, Int.pow_succ, Int.mul_comm]
  unfold toSigned
  simp only [hp]
  generalize (2 : Int) ^ (bits - 1) = P at *
  rw [Int.emod_eq_of_lt h0 (by omega), if_pos h]

/-- C35: vectors of signed 32- or 64-bit integers in delta encoding with zigzag are read back exactly, whenever the
encoder is defined, i.e. whenever doubling does not overflow the integer type. -/
theorem C35_delta_vector_roundtrip (bits : Nat) (hb : bits = 32 ∨ bits = 64) (vs : List Int) (s : Bytes)
    (hs : serializeIntVectorDelta bits true vs = some s) :
    deserializeIntVectorDelta bits true s = vs := by
  induction vs generalizing s with
  | nil =>
    simp only [serializeIntVectorDelta, Option.some.injEq] at hs
    subst hs; rw [deserializeIntVectorDelta]
  | cons v vs ih =>
    simp only [serializeIntVectorDelta, Option.bind_eq_bind, Option.bind_eq_some_iff, Option.pure_def,
      Option.some.injEq] at hs
    obtain ⟨num, hnum, rest, hrest, rfl⟩ := hs
    have ih := ih rest hrest
    have hne := writeVarNum_ne_nil num
    -- the number and its decoding
    have key : num < 2 ^ 64 ∧ (if num % 2 = 1 then toSigned bits ((num - 1) / 2 : Nat) * -1 - 1
        else toSigned bits (num / 2 : Nat)) = v := by
      simp only [deltaNum, if_true] at hnum
      split at hnum
      · rename_i hv
        split at hnum
        · rename_i hm
          simp only [Option.some.injEq] at hnum
          have hP : (2 : Int) ^ (bits - 1) ≤ 2 ^ 63 := by rcases hb with rfl | rfl <;> decide
          refine ⟨by omega, ?_⟩
          rw [if_pos (by omega), toSigned_id (by omega) (by omega) (by omega)]; omega
        · cases hnum
      · rename_i hv
        split at hnum
        · rename_i hm
          simp only [Option.some.injEq] at hnum
          have hP : (2 : Int) ^ (bits - 1) ≤ 2 ^ 63 := by rcases hb with rfl | rfl <;> decide
          refine ⟨by omega, ?_⟩
          rw [if_neg (by omega), toSigned_id (by omega) (by omega) (by omega)]; omega
        · cases hnum
    obtain ⟨hlt, hdec⟩ := key
    have hdd := deltaDigits_write hlt rest
    cases hw : writeVarNum num with
    | nil => exact absurd hw hne
    | cons c t =>
      rw [hw] at hdd
      rw [List.cons_append] at hdd ⊢
      rw [deserializeIntVectorDelta]
      simp only [hdd, if_true, ih, hdec]

/-- C35: without zigzag every vector of signed 32- or 64-bit integers is read back exactly. -/
theorem C35_delta_vector_plain (bits : Nat) (hb : bits = 32 ∨ bits = 64) (vs : List Int)
    (h : ∀ v ∈ vs, -2 ^ (bits - 1) ≤ v ∧ v < 2 ^ (bits - 1)) :
    ∃ s, serializeIntVectorDelta bits false vs = some s ∧ deserializeIntVectorDelta bits false s = vs := by
  induction vs with
  | nil => exact ⟨[], rfl, by rw [deserializeIntVectorDelta]⟩
  | cons v vs ih =>
    obtain ⟨rest, h1, h2⟩ := ih (fun x hx => h x (by simp [hx]))
    obtain ⟨hlo, hhi⟩ := h v (by simp)
    have q : (0 : Int) ≤ v % 2 ^ 64 ∧ v % 2 ^ 64 < 2 ^ 64 :=
      ⟨Int.emod_nonneg _ (by decide), Int.emod_lt_of_pos _ (by decide)⟩
    have hlt : (v % 2 ^ 64).toNat < 2 ^ 64 := by omega
    have hdec : toSigned bits ((v % 2 ^ 64).toNat : Int) = v := by
      rw [Int.toNat_of_nonneg q.1]
      rcases hb with rfl | rfl
      · have e : v % 2 ^ 64 % 2 ^ 32 = v % 2 ^ 32 := Int.emod_emod_of_dvd v (by decide)
        unfold toSigned
        rw [e]
        simp only []
        split <;> omega
      · unfold toSigned
        rw [Int.emod_emod_of_dvd v (Int.dvd_refl _)]
        simp only []
        split <;> omega
    refine ⟨writeVarNum (v % 2 ^ 64).toNat ++ rest, by simp [serializeIntVectorDelta, deltaNum, h1], ?_⟩
    have hdd := deltaDigits_write hlt rest
    have hne := writeVarNum_ne_nil (v % 2 ^ 64).toNat
    cases hw : writeVarNum (v % 2 ^ 64).toNat with
    | nil => exact absurd hw hne
    | cons c t =>
      rw [hw] at hdd
      rw [List.cons_append] at hdd ⊢
      rw [deserializeIntVectorDelta]
      simp only [hdd, Bool.false_eq_true, if_false, h2, hdec]

/-- C35: the delta encoder is defined for every value whose double fits the type. -/
theorem C35_delta_vector_defined (bits : Nat) (vs : List Int)
    (h : ∀ v ∈ vs, -2 ^ (bits - 1) < v * 2 ∧ v * 2 < 2 ^ (bits - 1)) :
    ∃ s, serializeIntVectorDelta bits true vs = some s := by
  induction vs with
  | nil => exact ⟨[], rfl⟩
  | cons v vs ih =>
    obtain ⟨s, hs⟩ := ih (fun x hx => h x (by simp [hx]))
    obtain ⟨h1, h2⟩ := h v (by simp)
    have : ∃ n, deltaNum bits true v = some n := by
      simp only [deltaNum, if_true]
      generalize (2 : Int) ^ (bits - 1) = P at *
      split
      · rw [if_pos (by omega)]; exact ⟨_, rfl⟩
      · first
          | exact ⟨_, rfl⟩
          | (rw [if_pos (by omega)]; exact ⟨_, rfl⟩)
    obtain ⟨n, hn⟩ := this
    exact ⟨writeVarNum n ++ s, by simp [serializeIntVectorDelta, hn, hs]⟩

example : serializeIntVectorDelta 32 true [-3, 100, 0] = some [5, 0x81, 0x48, 0] := by decide +kernel

/-! ### C57: untrusted data -/

/-- C57 fails: `DeserializeStrVector` and `DeserializeStrMap` never return on the one-byte input 0x80, and
`DeserializeStrPair` makes a view outside the data on the one-byte input 0x05. -/
theorem C57_malformed_violated : deserializeStrVector [0x80] = .hangs ∧ deserializeStrMap [0x80] = .hangs ∧
    deserializeStrPair [0x05] = .outOfBounds := by
  have hr : readVarNum [0x80] = none := by decide
  refine ⟨?_, ?_, by decide⟩
  · have e : deserializeStrVector [0x80] = deserStrVectorLoop [0x80] := by
      unfold deserializeStrVector
      simp (decide := true) [toInt32]
    rw [e, deserStrVectorLoop, dif_neg (by simp)]
    split
    · rfl
    · rename_i h; rw [hr] at h; cases h
  · have e : deserializeStrMap [0x80] = deserStrMapLoop [0x80] [] := by
      unfold deserializeStrMap
      simp (decide := true) [toInt32]
    rw [e, deserStrMapLoop, dif_neg (by simp)]
    split
    · rfl
    · rename_i h; rw [hr] at h; cases h

theorem writeVarNum_ne (n : Nat) : writeVarNum n ≠ [] := by
  intro h
  have := writeVarNum_length n
  rw [h] at this
  unfold sizeVarNum at this
  repeat' split at this
  all_goals simp at this

/-- C57 fails: a size of 2^63 or more, which is negative when it is compared as a signed number, passes the check of the
remaining data, whatever follows: `DeserializeStrVector` throws for it, and `DeserializeStrMap` does so for the value of a
record, and makes a view outside the data for a key. -/
theorem C57_huge_size_violated {n : Nat} (h : 2 ^ 63 ≤ n) (h' : n < 2 ^ 64) (rest key : Bytes) (hk : key.length < 2 ^ 63) (records : List (Bytes × Bytes)) :
    deserStrVectorLoop (writeVarNum n ++ rest) = .throws ∧
    deserStrMapLoop (writeVarNum n ++ rest) records = .outOfBounds ∧
    deserStrMapLoop (serializeStr key ++ (writeVarNum n ++ rest)) records = .throws := by
  have hr := readVarNum_write h' rest
  refine ⟨?_, ?_, ?_⟩
  · rw [deserStrVectorLoop, dif_neg (by simp [writeVarNum_ne])]
    split
    · rename_i e; rw [hr] at e; cases e
    · rename_i a b e
      rw [hr] at e
      simp only [Option.some.injEq, Prod.mk.injEq] at e
      simp only []
      rw [if_pos (by omega)]
  · rw [deserStrMapLoop, dif_neg (by simp [writeVarNum_ne])]
    split
    · rename_i e; rw [hr] at e; cases e
    · rename_i a b e
      rw [hr] at e
      simp only [Option.some.injEq, Prod.mk.injEq] at e
      simp only []
      rw [if_pos (by omega)]
  · rw [deserStrMapLoop, dif_neg (by simp [serializeStr, writeVarNum_ne])]
    have hk' := read_serializeStr (s := key) (by omega) (writeVarNum n ++ rest)
    split
    · rename_i e; rw [hk'] at e; cases e
    · rename_i a b e
      rw [hk'] at e
      simp only [Option.some.injEq, Prod.mk.injEq] at e
      obtain ⟨rfl, rfl⟩ := e
      have hd : ((serializeStr key ++ (writeVarNum n ++ rest)).drop (sizeVarNum key.length)) = key ++ (writeVarNum n ++ rest) := by
        rw [← writeVarNum_length, serializeStr, List.append_assoc, List.drop_left]
      simp only [hd]
      rw [if_neg (by omega), if_neg (by simp)]
      rw [List.drop_left, hr]
      simp only []
      rw [if_pos h]

/-- C57: when the size of the first string of a pair cannot be read, `DeserializeStrPair` and
`GetFirstFromSerializedStrPair` give empty strings. -/
theorem C57_pair_malformed {s : Bytes} (h : readVarNum s = none) : deserializeStrPair s = .ok ([], []) ∧ firstOfStrPair s = .ok [] := by
  unfold deserializeStrPair firstOfStrPair readVarNum0
  simp [h]

example : readVarNum [0x80, 0x80] = none := by decide

/-- C57 (partial): what does hold for arbitrary data: `DeserializeStrVector` never makes a string outside the data,
and when it returns, the strings it returned are in the data one after the other: the data starts with a sequence of
size-prefixed strings holding exactly the result. -/
theorem C57_vector_inside_partial (s : Bytes) : deserStrVectorLoop s ≠ .outOfBounds ∧
    ∀ vs, deserStrVectorLoop s = .ok vs → (vs.map List.length).sum + vs.length ≤ s.length ∧
      ∀ v ∈ vs, v <:+: s := by
  generalize hn : s.length = n
  induction n using Nat.strongRecOn generalizing s with
  | ind n ih =>
    subst hn
    rw [deserStrVectorLoop]
    split
    · rename_i hs
      subst hs
      refine ⟨by simp, ?_⟩
      rintro vs h
      simp only [Deser.ok.injEq] at h
      subst h; simp
    · rename_i hs
      split
      · simp
      · rename_i n k hr
        have hk := readVarNum_used hr
        have hlen : s.length ≠ 0 := by simpa using hs
        have hk2 := (C34_varnum_local s n k hr).2.1
        simp only []
        split
        · simp
        split
        · refine ⟨by simp, ?_⟩
          rintro vs h
          simp only [Deser.ok.injEq] at h
          subst h; simp
        · rename_i h63 hlt
          have ihr := ih ((s.drop k).drop n).length (by simp only [List.length_drop]; omega) _ rfl
          cases hd : deserStrVectorLoop ((s.drop k).drop n) with
          | ok vs' =>
            refine ⟨by simp [Deser.map], ?_⟩
            rintro vs h
            simp only [Deser.map, Deser.ok.injEq] at h
            subst h
            obtain ⟨h1, h2⟩ := ihr.2 vs' hd
            simp only [List.length_drop] at h1 hlt
            refine ⟨?_, ?_⟩
            · simp only [List.map_cons, List.sum_cons, List.length_take, List.length_drop, List.length_cons]
              omega
            · intro v hv
              rcases List.mem_cons.mp hv with rfl | hv
              · exact ((List.take_prefix _ _).isInfix).trans (List.drop_suffix _ _).isInfix
              · exact (h2 v hv).trans ((List.drop_suffix _ _).isInfix.trans (List.drop_suffix _ _).isInfix)
          | hangs => simp [Deser.map]
          | throws => simp [Deser.map]
          | outOfBounds => exact absurd hd ihr.1

end Verif.Codec
