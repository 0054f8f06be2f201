import Verif.Skip.Spec
/-
The metadata: what is saved is what is loaded.
-/
namespace Verif.Skip
open Verif

theorem Cfg.Valid.ok {c : Cfg} (h : c.Valid) : c.Ok where
  w := by have := h.w; omega
  step := h.step.1
  lvl := by have := h.maxLevel; omega

/-- The conditions on the members under which they are loaded as they were saved. -/
structure Meta.Good (m : Meta) : Prop where
  major : 1 ≤ m.major ∧ m.major < 256
  minor : m.minor < 256
  dbType : m.dbType < 2 ^ 32

theorem encodeMeta_length (c : Cfg) (m : Meta) (fin : Bool) : (encodeMeta c m fin).length = metadataSize := by
  simp only [encodeMeta, List.length_append, metaMagic, Codec.writeFixNum_length _ (show (1 : Nat) ≤ 8 by omega),
    Codec.writeFixNum_length _ (show (8 : Nat) ≤ 8 by omega), Codec.writeFixNum_length _ (show (4 : Nat) ≤ 8 by omega),
    List.length_replicate, List.length_cons, List.length_nil, List.length_take, metadataSize]
  omega

theorem overwrite_image (c : Cfg) {md md' : Bytes} (hm : md.length = metadataSize) (hm' : md'.length = metadataSize) (recs : Recs) :
    overwrite (image c md recs) 0 md' = image c md' recs := by
  simp only [overwrite, image, List.take_zero, List.nil_append, Nat.zero_add, hm']
  rw [List.drop_left' hm]

theorem skipOver {a b : Bytes} {n k : Nat} (h : a.length = n) : (a ++ b).drop (n + k) = b.drop k := by
  rw [← h, List.drop_length_add_append]

theorem skipMagic (b : Bytes) (k : Nat) : (metaMagic ++ b).drop (9 + k) = b.drop k := skipOver rfl
theorem skip1 (n : Nat) (b : Bytes) (k : Nat) : (Codec.writeFixNum n 1 ++ b).drop (1 + k) = b.drop k :=
  skipOver (Codec.writeFixNum_length n (by omega))
theorem skip8 (n : Nat) (b : Bytes) (k : Nat) : (Codec.writeFixNum n 8 ++ b).drop (8 + k) = b.drop k :=
  skipOver (Codec.writeFixNum_length n (by omega))
theorem skip4 (n : Nat) (b : Bytes) (k : Nat) : (Codec.writeFixNum n 4 ++ b).drop (4 + k) = b.drop k :=
  skipOver (Codec.writeFixNum_length n (by omega))
theorem skipZeros (n : Nat) (b : Bytes) (k : Nat) : (List.replicate n (0 : UInt8) ++ b).drop (n + k) = b.drop k :=
  skipOver (by simp)

theorem read1 {n : Nat} (h : n < 256) (b : Bytes) : Codec.readFixNum (Codec.writeFixNum n 1 ++ b) 1 = n :=
  (Codec.C33_fixnum_roundtrip n 1 (by omega) (by omega) b).1
theorem writeFix1_mod (n : Nat) : Codec.writeFixNum n 1 = Codec.writeFixNum (n % 256) 1 := by
  have e : ∀ k : Nat, Codec.writeFixNum k 1 = [Codec.byte k] := fun k => rfl
  rw [e, e]
  refine congrArg (fun b => [b]) (UInt8.toNat_inj.1 ?_)
  simp [Codec.byte]
theorem read1_mod (n : Nat) (b : Bytes) : Codec.readFixNum (Codec.writeFixNum n 1 ++ b) 1 = n % 256 := by
  rw [writeFix1_mod]
  exact read1 (by omega) b
theorem read8 {n : Nat} (h : n < 2 ^ 64) (b : Bytes) : Codec.readFixNum (Codec.writeFixNum n 8 ++ b) 8 = n :=
  (Codec.C33_fixnum_roundtrip n 8 (by omega) h b).1
theorem read4 {n : Nat} (h : n < 2 ^ 32) (b : Bytes) : Codec.readFixNum (Codec.writeFixNum n 4 ++ b) 4 = n :=
  (Codec.C33_fixnum_roundtrip n 4 (by omega) h b).1

/-- The opaque data as it is stored. -/
def storedExtra (m : Meta) : Bytes := m.extra.take 64 ++ List.replicate (64 - m.extra.length) 0

theorem storedExtra_length (m : Meta) : (storedExtra m).length = 64 := by
  simp only [storedExtra, List.length_append, List.length_take, List.length_replicate]
  omega

theorem skipExtra (m : Meta) (b : Bytes) (k : Nat) : (storedExtra m ++ b).drop (64 + k) = b.drop k :=
  skipOver (storedExtra_length m)
theorem skipByte (b : Bytes) (k : Nat) : ([(0 : UInt8)] ++ b).drop (1 + k) = b.drop k := skipOver rfl

/-- What is loaded after it was saved. -/
theorem readMetadata_encode {c : Cfg} (hc : c.Valid) {m : Meta} (hm : m.Good) (h1 : m.num < 2 ^ 64) (h2 : m.eff < 2 ^ 64)
    (h3 : m.fileSize < 2 ^ 64) (fin : Bool) (R : Bytes) :
    ∃ m', readMetadata (encodeMeta c m fin ++ R) = some (c, m', true) ∧ m'.major = m.major ∧ m'.minor = m.minor ∧
      m'.closure = (if m.closure % 2 = 1 ∧ fin = true then 1 else 0) ∧ m'.num = m.num ∧ m'.eff = m.eff ∧
      m'.fileSize = m.fileSize ∧ m'.dbType = m.dbType ∧ m'.extra = storedExtra m ∧
      m'.cyclic = m.cyclic % 256 := by
  have hlen := encodeMeta_length c m fin
  have hF : encodeMeta c m fin ++ R = metaMagic ++ (Codec.writeFixNum m.cyclic 1 ++ (Codec.writeFixNum m.major 1 ++
      (Codec.writeFixNum m.minor 1 ++ (Codec.writeFixNum c.w 1 ++ (Codec.writeFixNum c.step 1 ++ (Codec.writeFixNum c.maxLevel 1 ++
      (Codec.writeFixNum (if m.closure % 2 = 1 ∧ fin = true then 1 else 0) 1 ++ (List.replicate 8 0 ++
      (Codec.writeFixNum m.num 8 ++ (Codec.writeFixNum m.eff 8 ++ (Codec.writeFixNum m.fileSize 8 ++
      (Codec.writeFixNum m.timestamp 8 ++ (Codec.writeFixNum m.dbType 4 ++ (List.replicate 2 0 ++
      (storedExtra m ++ ([0] ++ (Codec.writeFixNum m.cyclic 1 ++ R))))))))))))))))) := by
    simp only [encodeMeta, storedExtra, List.append_assoc]
  have hcl : (if m.closure % 2 = 1 ∧ fin = true then 1 else 0) < 256 := by split <;> omega
  have e9 : (encodeMeta c m fin ++ R).drop 9 = Codec.writeFixNum m.cyclic 1 ++ ((encodeMeta c m fin ++ R).drop 10) := by
    rw [hF, show (9 : Nat) = 9 + 0 from rfl, show (10 : Nat) = 9 + (1 + 0) from rfl]
    simp only [skipMagic, skip1, List.drop_zero]
  have e127 : ∃ T, (encodeMeta c m fin ++ R).drop 127 = Codec.writeFixNum m.cyclic 1 ++ T := by
    refine ⟨R, ?_⟩
    rw [hF, show (127 : Nat) = 9 + (1 + (1 + (1 + (1 + (1 + (1 + (1 + (8 + (8 + (8 + (8 + (8 + (4 + (2 + (64 + (1 + 0)))))))))))))))) from rfl]
    simp only [skipMagic, skip1, skip8, skip4, skipZeros, skipExtra, skipByte, List.drop_zero]
  obtain ⟨T, e127⟩ := e127
  have same : Codec.readFixNum ((encodeMeta c m fin ++ R).drop 9) 1 = Codec.readFixNum ((encodeMeta c m fin ++ R).drop 127) 1 := by
    rw [e9, e127]
    rw [Codec.readFixNum_eq _ (by omega), Codec.readFixNum_eq _ (by omega), List.take_left' (Codec.writeFixNum_length _ (by omega)),
      List.take_left' (Codec.writeFixNum_length _ (by omega))]
  unfold readMetadata
  rw [if_neg (by rw [List.length_append, hlen]; omega), if_neg (by rw [hF]; simp only [ne_eq, Decidable.not_not]; exact List.take_left' rfl)]
  refine ⟨_, by
    simp only [same, if_true, decide_true]
    refine congrArg some (Prod.ext ?_ rfl)
    obtain ⟨w, st, ml⟩ := c
    have v1 := hc.w
    have v2 := hc.step
    have v3 := hc.maxLevel
    simp only at v1 v2 v3
    simp only [Cfg.mk.injEq]
    refine ⟨?_, ?_, ?_⟩
    · rw [hF, show (12 : Nat) = 9 + (1 + (1 + (1 + 0))) from rfl]
      simp only [skipMagic, skip1, List.drop_zero]
      exact read1 (by omega) _
    · rw [hF, show (13 : Nat) = 9 + (1 + (1 + (1 + (1 + 0)))) from rfl]
      simp only [skipMagic, skip1, List.drop_zero]
      exact read1 (by omega) _
    · rw [hF, show (14 : Nat) = 9 + (1 + (1 + (1 + (1 + (1 + 0))))) from rfl]
      simp only [skipMagic, skip1, List.drop_zero]
      exact read1 (by omega) _, ?_, ?_, ?_, ?_, ?_, ?_, ?_, ?_, ?_⟩
  · simp only
    rw [hF, show (10 : Nat) = 9 + (1 + 0) from rfl]
    simp only [skipMagic, skip1, List.drop_zero]
    exact read1 hm.major.2 _
  · simp only
    rw [hF, show (11 : Nat) = 9 + (1 + (1 + 0)) from rfl]
    simp only [skipMagic, skip1, List.drop_zero]
    exact read1 hm.minor _
  · simp only
    rw [hF, show (15 : Nat) = 9 + (1 + (1 + (1 + (1 + (1 + (1 + 0)))))) from rfl]
    simp only [skipMagic, skip1, List.drop_zero]
    exact read1 hcl _
  · simp only
    rw [hF, show (24 : Nat) = 9 + (1 + (1 + (1 + (1 + (1 + (1 + (1 + (8 + 0)))))))) from rfl]
    simp only [skipMagic, skip1, skipZeros, List.drop_zero]
    exact read8 h1 _
  · simp only
    rw [hF, show (32 : Nat) = 9 + (1 + (1 + (1 + (1 + (1 + (1 + (1 + (8 + (8 + 0))))))))) from rfl]
    simp only [skipMagic, skip1, skip8, skipZeros, List.drop_zero]
    exact read8 h2 _
  · simp only
    rw [hF, show (40 : Nat) = 9 + (1 + (1 + (1 + (1 + (1 + (1 + (1 + (8 + (8 + (8 + 0)))))))))) from rfl]
    simp only [skipMagic, skip1, skip8, skipZeros, List.drop_zero]
    exact read8 h3 _
  · simp only
    rw [hF, show (56 : Nat) = 9 + (1 + (1 + (1 + (1 + (1 + (1 + (1 + (8 + (8 + (8 + (8 + (8 + 0)))))))))))) from rfl]
    simp only [skipMagic, skip1, skip8, skipZeros, List.drop_zero]
    exact read4 hm.dbType _
  · simp only
    rw [hF, show (62 : Nat) = 9 + (1 + (1 + (1 + (1 + (1 + (1 + (1 + (8 + (8 + (8 + (8 + (8 + (4 + (2 + 0)))))))))))))) from rfl]
    simp only [skipMagic, skip1, skip8, skip4, skipZeros, List.drop_zero]
    exact List.take_left' (storedExtra_length m)
  · simp only
    rw [e127]
    exact read1_mod _ _

/-- The same with the checks of LoadMetadata. -/
theorem loadMetadata_encode {c : Cfg} (hc : c.Valid) {m : Meta} (hm : m.Good) (h1 : m.num < 2 ^ 63) (h2 : m.eff < 2 ^ 63)
    (h3 : m.fileSize < 2 ^ 63) (h4 : metadataSize ≤ m.fileSize) (fin : Bool) (R : Bytes) :
    ∃ m', loadMetadata (encodeMeta c m fin ++ R) = some (c, m', true) ∧ m'.major = m.major ∧ m'.minor = m.minor ∧
      m'.closure = (if m.closure % 2 = 1 ∧ fin = true then 1 else 0) ∧ m'.num = m.num ∧ m'.eff = m.eff ∧
      m'.fileSize = m.fileSize ∧ m'.dbType = m.dbType ∧ m'.extra = storedExtra m ∧
      m'.cyclic = m.cyclic % 256 := by
  obtain ⟨m', e, r⟩ := readMetadata_encode hc hm (by omega) (by omega) (by omega) fin R
  refine ⟨m', ?_, r⟩
  obtain ⟨r1, r2, r3, r4, r5, r6, _⟩ := r
  have v1 := hc.w
  have v2 := hc.step
  have v3 := hc.maxLevel
  have v4 := hm.major
  unfold loadMetadata
  rw [e]
  simp only
  rw [if_neg (by omega), if_neg (by omega), if_neg (by omega), if_neg (by omega), if_neg (by omega)]

theorem storedExtra_idem (m m' : Meta) (h : m'.extra = storedExtra m) : storedExtra m' = storedExtra m := by
  rw [storedExtra, h, List.take_of_length_le (by rw [storedExtra_length]; omega), storedExtra_length]
  simp

end Verif.Skip
