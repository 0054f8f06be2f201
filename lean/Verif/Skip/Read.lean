import Verif.Skip.Layout
/-
Reading back the records of a file, and the records in the cache.
-/
namespace Verif.Skip
open Verif

/-- The conditions on the tuning parameters (any value the database accepts meets them). -/
structure Cfg.Ok (c : Cfg) : Prop where
  w : c.w ≤ 8
  step : 2 ≤ c.step
  lvl : c.maxLevel < 2 ^ 31

/-- The records fit: the offsets fit in the offset width, and each record has less than 2^31 bytes. -/
structure Fits (c : Cfg) (recs : Recs) : Prop where
  offs : offs c recs recs.length ≤ 2 ^ (8 * c.w)
  size : ∀ i, i < recs.length → sizeAt c recs i < 2 ^ 31

theorem readFields_write {w : Nat} (hw : w ≤ 8) : ∀ (l : List Nat) (rest : Bytes), (∀ x ∈ l, x < 2 ^ (8 * w)) →
    readFields w l.length (l.flatMap (fun o => Codec.writeFixNum o w) ++ rest) = l
  | [], _, _ => rfl
  | a :: l, rest, h => by
    rw [List.length_cons, readFields, List.flatMap_cons, List.append_assoc, (Codec.C33_fixnum_roundtrip a w hw (h a (by simp)) _).1]
    congr 1
    have e : List.drop w (Codec.writeFixNum a w ++ (l.flatMap (fun o => Codec.writeFixNum o w) ++ rest)) = l.flatMap (fun o => Codec.writeFixNum o w) ++ rest :=
      List.drop_left' (Codec.writeFixNum_length a hw)
    rw [e, readFields_write hw l rest fun x hx => h x (by simp [hx])]

theorem toInt32_small {n : Nat} (h : n < 2 ^ 31) : Codec.toInt32 n = n := by
  unfold Codec.toInt32
  have : n % 2 ^ 32 = n := Nat.mod_eq_of_lt (by omega)
  rw [this]
  simp only [h, if_true]

/-- The record in memory when the file holds it, apart from whether its value is loaded. -/
def recAt (c : Cfg) (recs : Recs) (i : Nat) (key : Bytes) (valueSize : Nat) (value : Option Bytes) : Rec where
  offset := offs c recs i
  index := i
  level := c.level i
  skips := (List.range (c.level i)).map (link c recs i)
  whole := sizeAt c recs i
  keySize := key.length
  valueSize := valueSize
  key := key
  value := value
  bodyOffset := offs c recs i + (1 + c.w * c.level i + Codec.sizeVarNum key.length + Codec.sizeVarNum valueSize)

theorem image_split {c : Cfg} (hw : c.w ≤ 8) {md : Bytes} (hm : md.length = metadataSize) (recs : Recs) (i : Nat) (h : i < recs.length) :
    ∃ rest, (image c md recs).drop (offs c recs i) =
      recBytes c.w ((List.range (c.level i)).map (link c recs i)) recs[i].1 recs[i].2 ++ rest := by
  have hb := blocks_get c (link c recs) recs i h
  have hlt : i < (blocks c (link c recs) recs).length := by rw [blocks_length]; exact h
  have hX := Option.some.inj ((List.getElem?_eq_getElem hlt).symm.trans hb)
  refine ⟨((blocks c (link c recs) recs).drop (i + 1)).flatten, ?_⟩
  have e1 : blocks c (link c recs) recs = (blocks c (link c recs) recs).take i ++
      recBytes c.w ((List.range (c.level i)).map (link c recs i)) recs[i].1 recs[i].2 :: (blocks c (link c recs) recs).drop (i + 1) := by
    rw [← hX, List.getElem_cons_drop, List.take_append_drop]
  have e2 : image c md recs = (md ++ ((blocks c (link c recs) recs).take i).flatten) ++
      (recBytes c.w ((List.range (c.level i)).map (link c recs i)) recs[i].1 recs[i].2 ++ ((blocks c (link c recs) recs).drop (i + 1)).flatten) := by
    rw [image]
    conv => lhs; rw [e1]
    simp [List.flatten_append, List.append_assoc]
  rw [e2, List.drop_left' (take_blocks_length hw _ md hm recs i (by omega))]

theorem take_short {α : Type} {m : Nat} {a b : List α} (h : a.length ≤ m) : (a ++ b).take m = a ++ b.take (m - a.length) := by
  rw [List.take_append, List.take_of_length_le h]

theorem readBody_spec {F : Bytes} {r : Rec} {k v rest : Bytes} (hF : F.drop r.bodyOffset = k ++ v ++ rest)
    (hb : r.bodyOffset + k.length + v.length ≤ F.length) (hk : r.keySize = k.length) (hv : r.valueSize = v.length) :
    readBody F r = .ok { r with key := k, value := some v } := by
  unfold readBody readAt
  have ht : (k ++ v ++ rest).take (k.length + v.length) = k ++ v := List.take_left' (by simp)
  rw [hk, hv, if_pos (by omega), hF, Rd.bind_ok, Rd.pure_eq, ht, List.take_left, List.drop_left]

theorem loadBody_spec {F : Bytes} {r : Rec} {k v rest : Bytes} {m : Nat} (hF : F.drop r.bodyOffset = k ++ v ++ rest)
    (hle : r.offset + r.whole ≤ F.length) (hb : r.bodyOffset + k.length + v.length ≤ F.length) (hk : r.keySize = k.length) (hv : r.valueSize = v.length) :
    ∃ o, (o = none ∨ o = some v) ∧ loadBody F r ((k ++ v ++ rest).take m) = .ok { r with key := k, value := o } := by
  unfold loadBody
  rw [hk, hv]
  have hlen : (k ++ v ++ rest).length = F.length - r.bodyOffset := by rw [← hF, List.length_drop]
  simp only [List.length_append] at hlen
  by_cases h1 : k.length ≤ m
  · have e : ((k ++ v ++ rest).take m) = k ++ (v ++ rest).take (m - k.length) := by rw [List.append_assoc, take_short h1]
    rw [e, if_pos (by rw [List.length_append]; omega), List.drop_left, List.take_left]
    by_cases h2 : v.length ≤ m - k.length
    · refine ⟨some v, Or.inr rfl, ?_⟩
      rw [take_short h2, if_pos (by rw [List.length_append]; omega), List.take_left]
    · refine ⟨none, Or.inl rfl, ?_⟩
      rw [if_neg (by rw [List.length_take]; omega)]
  · rw [if_neg (by rw [List.length_take]; omega), if_neg (by omega)]
    refine ⟨some v, Or.inr rfl, ?_⟩
    simpa [hk, hv] using readBody_spec hF hb hk hv

theorem image_body {c : Cfg} (hw : c.w ≤ 8) {md : Bytes} (hm : md.length = metadataSize) (recs : Recs) (i : Nat) (h : i < recs.length) :
    ∃ rest, (image c md recs).drop (offs c recs i + (1 + c.w * c.level i + Codec.sizeVarNum recs[i].1.length + Codec.sizeVarNum recs[i].2.length)) =
      recs[i].1 ++ recs[i].2 ++ rest := by
  obtain ⟨rest, hr⟩ := image_split hw hm recs i h
  refine ⟨rest, ?_⟩
  rw [← List.drop_drop, hr, recBytes]
  have hl : (recordMagic :: (((List.range (c.level i)).map (link c recs i)).flatMap (fun o => Codec.writeFixNum o c.w) ++ Codec.writeVarNum recs[i].1.length ++
      Codec.writeVarNum recs[i].2.length)).length = 1 + c.w * c.level i + Codec.sizeVarNum recs[i].1.length + Codec.sizeVarNum recs[i].2.length := by
    simp only [List.length_cons, List.length_append, fixes_length c.w hw, Codec.writeVarNum_length, List.length_map, List.length_range]
    omega
  have := List.drop_left' (l₂ := recs[i].1 ++ recs[i].2 ++ rest) hl
  simpa [List.append_assoc] using this

theorem link_lt {c : Cfg} {recs : Recs} (hfit : Fits c recs) (i j : Nat) : link c recs i j < 2 ^ (8 * c.w) := by
  unfold link
  split
  · rename_i h
    have := offs_lt (c := c) (recs := recs) (i := i + c.step ^ (j + 1)) (j := recs.length) h h
    have := hfit.offs
    omega
  · exact Nat.pow_pos (by omega)

theorem body_of_split {c : Cfg} (hw : c.w ≤ 8) {F : Bytes} {recs : Recs} {i : Nat} {k v rest : Bytes}
    (hr : F.drop (offs c recs i) = recBytes c.w ((List.range (c.level i)).map (link c recs i)) k v ++ rest) :
    F.drop (offs c recs i + (1 + c.w * c.level i + Codec.sizeVarNum k.length + Codec.sizeVarNum v.length)) = k ++ v ++ rest := by
  rw [← List.drop_drop, hr, recBytes]
  have hl : (recordMagic :: (((List.range (c.level i)).map (link c recs i)).flatMap (fun o => Codec.writeFixNum o c.w) ++ Codec.writeVarNum k.length ++
      Codec.writeVarNum v.length)).length = 1 + c.w * c.level i + Codec.sizeVarNum k.length + Codec.sizeVarNum v.length := by
    simp only [List.length_cons, List.length_append, fixes_length c.w hw, Codec.writeVarNum_length, List.length_map, List.length_range]
    omega
  have := List.drop_left' (l₂ := k ++ v ++ rest) hl
  simpa [List.append_assoc] using this

/-- Reading back a record which is somewhere in a file. -/
theorem readMetadataKey_at {c : Cfg} (hc : c.Ok) {recs : Recs} (hfit : Fits c recs) (i : Nat) (h : i < recs.length) {F rest : Bytes}
    (hr : F.drop (offs c recs i) = recBytes c.w ((List.range (c.level i)).map (link c recs i)) recs[i].1 recs[i].2 ++ rest)
    (hlen : offs c recs i + sizeAt c recs i ≤ F.length) :
    ∃ o, (o = none ∨ o = some recs[i].2) ∧
      readMetadataKey c F (offs c recs i) i = .ok (recAt c recs i recs[i].1 recs[i].2.length o) := by
  have hw := hc.w
  have hbody := body_of_split hw hr
  have hsz := sizeAt_lt (c := c) h
  have hlt31 := hfit.size i h
  generalize hk : recs[i].1 = k at *
  generalize hv : recs[i].2 = v at *
  rw [wholeSize] at hsz
  have hk1 := Codec.sizeVarNum_pos k.length
  have hv1 := Codec.sizeVarNum_pos v.length
  have hk10 := Codec.sizeVarNum_le k.length
  have hv10 := Codec.sizeVarNum_le v.length
  unfold readMetadataKey
  simp only
  have hmax : 1 + c.w * c.level i + Codec.sizeVarNum k.length + Codec.sizeVarNum v.length ≤ min (F.length - offs c recs i) maxMemorySize := by
    unfold maxMemorySize; omega
  rw [if_neg (by omega)]
  generalize hL : min (min (F.length - offs c recs i) maxMemorySize) (1 + c.w * c.level i + 2 + readDataSize) = L
  have hLle : 1 + c.w * c.level i + Codec.sizeVarNum k.length + Codec.sizeVarNum v.length ≤ L := by
    unfold readDataSize at hL; omega
  have hfl : (((List.range (c.level i)).map (link c recs i)).flatMap (fun o => Codec.writeFixNum o c.w)).length = c.w * c.level i := by
    rw [fixes_length c.w hw]; simp
  have hwin : (F.drop (offs c recs i)).take L = recordMagic :: (((List.range (c.level i)).map (link c recs i)).flatMap (fun o => Codec.writeFixNum o c.w) ++
      (Codec.writeVarNum k.length ++ (Codec.writeVarNum v.length ++ (k ++ v ++ rest).take
        (L - (1 + c.w * c.level i + Codec.sizeVarNum k.length + Codec.sizeVarNum v.length))))) := by
    rw [hr, recBytes]
    have := take_short (m := L) (a := recordMagic :: (((List.range (c.level i)).map (link c recs i)).flatMap (fun o => Codec.writeFixNum o c.w) ++
      Codec.writeVarNum k.length ++ Codec.writeVarNum v.length)) (b := k ++ v ++ rest)
      (by simp only [List.length_cons, List.length_append, hfl, Codec.writeVarNum_length]; omega)
    simp only [List.length_cons, List.length_append, hfl, Codec.writeVarNum_length] at this
    rw [show c.w * c.level i + Codec.sizeVarNum k.length + Codec.sizeVarNum v.length + 1 =
      1 + c.w * c.level i + Codec.sizeVarNum k.length + Codec.sizeVarNum v.length by omega] at this
    simpa [List.append_assoc] using this
  rw [hwin, if_neg (by simp), List.drop_succ_cons, List.drop_zero, if_neg (by rw [List.length_append, hfl]; omega), List.drop_left' hfl]
  have hrf : readFields c.w (c.level i) (((List.range (c.level i)).map (link c recs i)).flatMap (fun o => Codec.writeFixNum o c.w) ++
      (Codec.writeVarNum k.length ++ (Codec.writeVarNum v.length ++ (k ++ v ++ rest).take
        (L - (1 + c.w * c.level i + Codec.sizeVarNum k.length + Codec.sizeVarNum v.length))))) = (List.range (c.level i)).map (link c recs i) := by
    have := readFields_write hw ((List.range (c.level i)).map (link c recs i)) (Codec.writeVarNum k.length ++ (Codec.writeVarNum v.length ++ (k ++ v ++ rest).take
        (L - (1 + c.w * c.level i + Codec.sizeVarNum k.length + Codec.sizeVarNum v.length)))) (by
          intro x hx
          obtain ⟨j, _, rfl⟩ := List.mem_map.1 hx
          exact link_lt hfit i j)
    simpa using this
  rw [hrf]
  unfold loadSizes
  rw [Codec.readVarNum_write (by omega)]
  simp only
  rw [toInt32_small (by omega), if_neg (by unfold maxMemorySize; omega), List.drop_left' (Codec.writeVarNum_length _), Codec.readVarNum_write (by omega)]
  simp only
  rw [toInt32_small (by omega), if_neg (by unfold maxMemorySize; omega), if_neg (by omega), List.drop_left' (Codec.writeVarNum_length _)]
  simp only [Int.toNat_natCast]
  rw [if_neg (by omega)]
  obtain ⟨o, ho, he⟩ := loadBody_spec (F := F) (r := Rec.mk (offs c recs i) i (c.level i) ((List.range (c.level i)).map (link c recs i))
    (1 + c.w * c.level i + Codec.sizeVarNum k.length + Codec.sizeVarNum v.length + k.length + v.length) k.length v.length [] none
    (offs c recs i + (1 + c.w * c.level i + Codec.sizeVarNum k.length + Codec.sizeVarNum v.length))) (k := k) (v := v) (rest := rest)
    (m := L - (1 + c.w * c.level i + Codec.sizeVarNum k.length + Codec.sizeVarNum v.length)) hbody (by simp only; omega) (by simp only; omega) rfl rfl
  refine ⟨o, ho, ?_⟩
  rw [he]
  simp only [recAt, hsz]

/-- Reading back a record of a file with anything after the records. -/
theorem readMetadataKey_tail {c : Cfg} (hc : c.Ok) {md : Bytes} (hm : md.length = metadataSize) {recs : Recs} (hfit : Fits c recs)
    (i : Nat) (h : i < recs.length) (Z : Bytes) :
    ∃ o, (o = none ∨ o = some recs[i].2) ∧
      readMetadataKey c (image c md recs ++ Z) (offs c recs i) i = .ok (recAt c recs i recs[i].1 recs[i].2.length o) := by
  have hw := hc.w
  have hlen := image_length hw hm recs
  have hle : offs c recs i + sizeAt c recs i ≤ offs c recs recs.length := offs_mono c recs (show i + 1 ≤ recs.length from h)
  obtain ⟨rest, hr⟩ := image_split hw hm recs i h
  exact readMetadataKey_at hc hfit i h (rest := rest ++ Z) (by rw [List.drop_append_of_le_length (by omega), hr, List.append_assoc])
    (by rw [List.length_append]; omega)

/-- Reading back a record. -/
theorem readMetadataKey_image {c : Cfg} (hc : c.Ok) {md : Bytes} (hm : md.length = metadataSize) {recs : Recs} (hfit : Fits c recs)
    (i : Nat) (h : i < recs.length) :
    ∃ o, (o = none ∨ o = some recs[i].2) ∧
      readMetadataKey c (image c md recs) (offs c recs i) i = .ok (recAt c recs i recs[i].1 recs[i].2.length o) := by
  simpa using readMetadataKey_tail hc hm hfit i h []

/-- The record at an index as reading the file gives it. -/
def theRec (c : Cfg) (md : Bytes) (recs : Recs) (i : Nat) : Rec :=
  match readMetadataKey c (image c md recs) (offs c recs i) i with
  | .ok r => r
  | _ => recAt c recs i [] 0 none

theorem read_image {c : Cfg} (hc : c.Ok) {md : Bytes} (hm : md.length = metadataSize) {recs : Recs} (hfit : Fits c recs)
    (i : Nat) (h : i < recs.length) : readMetadataKey c (image c md recs) (offs c recs i) i = .ok (theRec c md recs i) := by
  obtain ⟨o, _, he⟩ := readMetadataKey_image hc hm hfit i h
  rw [theRec, he]

theorem theRec_eq {c : Cfg} (hc : c.Ok) {md : Bytes} (hm : md.length = metadataSize) {recs : Recs} (hfit : Fits c recs)
    (i : Nat) (h : i < recs.length) :
    ∃ o, (o = none ∨ o = some recs[i].2) ∧ theRec c md recs i = recAt c recs i recs[i].1 recs[i].2.length o := by
  obtain ⟨o, ho, he⟩ := readMetadataKey_image hc hm hfit i h
  exact ⟨o, ho, by rw [theRec, he]⟩

/-- The value of a record of the file. -/
theorem loadValue_image {c : Cfg} (hc : c.Ok) {md : Bytes} (hm : md.length = metadataSize) {recs : Recs} (hfit : Fits c recs)
    (i : Nat) (h : i < recs.length) : loadValue (image c md recs) (theRec c md recs i) = .ok recs[i].2 := by
  obtain ⟨o, ho, he⟩ := theRec_eq hc hm hfit i h
  rw [he, loadValue]
  rcases ho with rfl | rfl
  · simp only [recAt]
    obtain ⟨rest, hb⟩ := image_body hc.w hm recs i h
    have hlen := image_length hc.w hm recs
    have hle : offs c recs i + sizeAt c recs i ≤ offs c recs recs.length := offs_mono c recs (show i + 1 ≤ recs.length from h)
    have hsz := sizeAt_lt (c := c) h
    rw [wholeSize] at hsz
    rw [readBody_spec (rest := rest) hb (by simp only; omega) rfl rfl]
    rfl
  · simp [recAt]

/-! The cache -/

theorem readVar6_write {n : Nat} (h : n < 2 ^ 35) (rest : Bytes) : readVar6 (Codec.writeVarNum n ++ rest) = (n, rest) := by
  have hl : (Codec.writeVarNum n).length ≤ 6 := by
    rw [Codec.writeVarNum_length]
    unfold Codec.sizeVarNum
    repeat' split
    all_goals omega
  unfold readVar6
  rw [take_short hl, Codec.readVarNum_write (by omega)]
  simp only
  rw [List.drop_left' (Codec.writeVarNum_length n)]

theorem deserialize_serialize {c : Cfg} (hc : c.Ok) {recs : Recs} (hfit : Fits c recs) (i : Nat) (h : i < recs.length) (o : Option Bytes)
    (ho : o = none ∨ o = some recs[i].2) :
    deserialize c i ((recAt c recs i recs[i].1 recs[i].2.length o).serialize c) = recAt c recs i recs[i].1 recs[i].2.length o := by
  have hw := hc.w
  have hsz := sizeAt_lt (c := c) h
  have hlt31 := hfit.size i h
  have hoff : offs c recs i < 2 ^ (8 * c.w) := by
    have := offs_lt (c := c) h h
    have := hfit.offs
    omega
  have hlvl : c.level i < 2 ^ 35 := by
    have := level_le (show 0 < c.step by have := hc.step; omega) (c := c) i
    have := hc.lvl
    omega
  generalize recs[i].1 = k at *
  generalize recs[i].2 = v at *
  rw [wholeSize] at hsz
  have h64 : ∀ x ∈ (List.range (c.level i)).map (link c recs i), x < 2 ^ (8 * 8) := by
    intro x hx
    obtain ⟨j, _, rfl⟩ := List.mem_map.1 hx
    exact Nat.lt_of_lt_of_le (link_lt hfit i j) (Nat.pow_le_pow_right (by omega) (by omega))
  unfold Rec.serialize
  simp only [recAt]
  generalize htail : serializedTail k o = tail
  unfold deserialize
  simp only [List.append_assoc]
  rw [(Codec.C33_fixnum_roundtrip _ c.w hw hoff _).1, List.drop_left' (Codec.writeFixNum_length _ hw), readVar6_write hlvl]
  simp only
  have e1 := readFields_write (show 8 ≤ 8 by omega) ((List.range (c.level i)).map (link c recs i)) (Codec.writeVarNum k.length ++ (Codec.writeVarNum v.length ++ tail)) h64
  simp only [List.length_map, List.length_range] at e1
  have e2 : List.drop (8 * c.level i) (((List.range (c.level i)).map (link c recs i)).flatMap (fun o => Codec.writeFixNum o 8) ++ (Codec.writeVarNum k.length ++ (Codec.writeVarNum v.length ++ tail))) =
      Codec.writeVarNum k.length ++ (Codec.writeVarNum v.length ++ tail) := List.drop_left' (by rw [fixes_length 8 (by omega)]; simp)
  rw [e1, e2, readVar6_write (by omega)]
  simp only
  rw [readVar6_write (by omega)]
  simp only
  rcases ho with rfl | rfl
  · subst htail
    simp [hsz, serializedTail]
  · subst htail
    simp [hsz, serializedTail]

/-- Every record in the cache is the one which reading the file gives. -/
def CacheOk (c : Cfg) (md : Bytes) (recs : Recs) (cc : Cache) : Prop :=
  0 < cc.unit ∧ ∀ q s, cc.slots[q]? = some (some s) → q * cc.unit < recs.length ∧ s = (theRec c md recs (q * cc.unit)).serialize c

theorem cacheUnit_pos {step : Nat} (hs : 0 < step) (cap num : Nat) : ∀ (n u : Nat), 0 < u → 0 < cacheUnit step cap num n u
  | 0, u, h => by simpa [cacheUnit] using h
  | n + 1, u, h => by
    rw [cacheUnit]
    split
    · exact cacheUnit_pos hs cap num n _ (Nat.mul_pos h hs)
    · exact h

theorem cache_new {c : Cfg} (hc : c.Ok) (md : Bytes) (recs : Recs) (cap num : Nat) : CacheOk c md recs (Cache.new c.step cap num) := by
  refine ⟨cacheUnit_pos (by have := hc.step; omega) _ _ _ _ (by omega), ?_⟩
  intro q s h
  simp only [Cache.new, List.getElem?_replicate] at h
  split at h <;> simp at h

theorem prepare_spec {c : Cfg} (hc : c.Ok) {md : Bytes} (hm : md.length = metadataSize) {recs : Recs} (hfit : Fits c recs) {cc : Cache}
    (hcc : CacheOk c md recs cc) {i : Nat} {r : Rec} (h : cc.prepare c i = some r) : i < recs.length ∧ r = theRec c md recs i := by
  unfold Cache.prepare at h
  split at h
  · cases h
  · rename_i hcond
    split at h
    · rename_i s hs
      obtain ⟨hlt, hse⟩ := hcc.2 _ _ hs
      have hmul : i / cc.unit * cc.unit = i := Nat.div_mul_cancel (Nat.dvd_of_mod_eq_zero (by omega))
      rw [hmul] at hlt hse
      obtain ⟨o, ho, he⟩ := theRec_eq hc hm hfit i hlt
      refine ⟨hlt, ?_⟩
      rw [← Option.some.inj h, hse, he, deserialize_serialize hc hfit i hlt o ho]
    · cases h

theorem add_spec {c : Cfg} (hc : c.Ok) {md : Bytes} (hm : md.length = metadataSize) {recs : Recs} (hfit : Fits c recs) {cc : Cache}
    (hcc : CacheOk c md recs cc) {i : Nat} (h : i < recs.length) : CacheOk c md recs (cc.add c (theRec c md recs i)) := by
  obtain ⟨o, _, he⟩ := theRec_eq hc hm hfit i h
  have hidx : (theRec c md recs i).index = i := by rw [he]; rfl
  unfold Cache.add
  rw [hidx]
  split
  · exact hcc
  · rename_i hcond
    split
    · refine ⟨hcc.1, ?_⟩
      intro q s hq
      simp only at hq ⊢
      rw [List.getElem?_set] at hq
      split at hq
      · rename_i hqe
        split at hq
        · have hmul : i / cc.unit * cc.unit = i := Nat.div_mul_cancel (Nat.dvd_of_mod_eq_zero (by omega))
          rw [← hqe, hmul]
          exact ⟨h, (Option.some.inj (Option.some.inj hq)).symm⟩
        · cases hq
      · exact hcc.2 q s hq
    · exact hcc

/-- Fetching a record at its place gives the record, with any cache. -/
theorem fetch_spec {c : Cfg} (hc : c.Ok) {md : Bytes} (hm : md.length = metadataSize) {recs : Recs} (hfit : Fits c recs) {cc : Cache}
    (hcc : CacheOk c md recs cc) {i : Nat} (h : i < recs.length) :
    ∃ cc', CacheOk c md recs cc' ∧ fetch c (image c md recs) cc (offs c recs i) i = (cc', .ok (theRec c md recs i)) := by
  unfold fetch
  cases hp : cc.prepare c i with
  | some r =>
    have := prepare_spec hc hm hfit hcc hp
    exact ⟨cc, hcc, by rw [this.2]⟩
  | none =>
    rw [read_image hc hm hfit i h]
    exact ⟨_, add_spec hc hm hfit hcc h, rfl⟩

end Verif.Skip
