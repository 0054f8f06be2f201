import Verif.Skip.Restore
import Verif.Skip.Steps
/-
A process which dies while it has the database open. The file at the path of the database is only changed by writing
the metadata, by putting a finished file in its place, and by truncating it.
-/
namespace Verif.Skip
open Verif

/-- SPECIFICATION: a write over the bytes `old` of which the first `k` bytes have been done. -/
def torn (new old : Bytes) (k : Nat) : Bytes := new.take k ++ old.drop k

/-- SPECIFICATION: zeros after the end of the file (the memory-mapped files are made longer than their contents,
tkrzw_file_mmap.cc 160-161 and 243-270). -/
def padded (F : Bytes) (z : Nat) : Bytes := F ++ List.replicate z 0

/-- The file during SkipDBMImpl::SaveMetadata (tkrzw_dbm_skip.cc 1118-1143). -/
def Db.saving (d : Db) (finish : Bool) : List Bytes :=
  (List.range (metadataSize + 1)).map (torn (d.saveMetadata d.file finish).2 d.file)

/-- The file during SkipDBMImpl::Open of an existing file (tkrzw_dbm_skip.cc 261-340); a restored file takes the place
of the old one (311). -/
def openMoments (p : Params) (F : Bytes) (now : Nat) : Rd (List Bytes) := do
  let d ← Db.openBase p F now
  pure (F :: d.saving false)

/-- The file during SkipDBMImpl::Close (tkrzw_dbm_skip.cc 356-372); FinishStorage puts the new file in the place of the
old one (1264-1275, 1364-1375). -/
def Db.closeMoments (d : Db) (now : Nat) : Rd (List Bytes) :=
  if d.updated then do
    let F ← d.close now
    pure [d.file, F]
  else .ok ((d.discarded now).saving true)

/-- The file during a call, at the moments at which the process may die. In Clear (tkrzw_dbm_skip.cc 674-703) the
writing of the metadata is taken as one step; see `C64_clear_torn_metadata_violated`. -/
def Db.moments (d : Db) : Op → Rd (List Bytes)
  | .sync now reducer => do
    let d1 ← d.finishStorage now reducer
    pure (d.file :: d1.saving false)
  | .clear now => do
    let d1 ← d.flushed now
    let d2 := d1.cleared now
    pure [d.file, d1.file, d2.file, (d2.saveMetadata d2.file false).2]
  | .rebuild now c' => do
    let d1 ← d.flushed now
    let d2 ← d1.rebuilt now c'
    pure (d.file :: d1.file :: d2.saving false)
  | .reopen now p now' => do
    let l ← d.closeMoments now
    let F ← d.close now
    let l' ← openMoments p F now'
    pure (l ++ l')
  | _ => .ok [d.file]

/-! The metadata of a file -/

theorem torn_drop {A B : Bytes} {k a : Nat} (hA : k ≤ A.length) (h : k ≤ a) : (torn A B k).drop a = B.drop a := by
  unfold torn
  have hl : (A.take k).length = k := by rw [List.length_take]; omega
  rw [List.drop_append, hl, List.drop_eq_nil_of_le (by omega), List.nil_append, List.drop_drop]
  congr 1
  omega

theorem torn_take {A B : Bytes} {k a n : Nat} (hA : k ≤ A.length) (h : a + n ≤ k) : ((torn A B k).drop a).take n = (A.drop a).take n := by
  unfold torn
  have hl : (A.take k).length = k := by rw [List.length_take]; omega
  rw [List.drop_append_of_le_length (by omega), List.take_append_of_le_length (by rw [List.length_drop]; omega), List.drop_take, List.take_take]
  congr 1
  omega

theorem torn_both {A B : Bytes} {k a n : Nat} (hA : k ≤ A.length) (h : (A.drop a).take n = (B.drop a).take n) :
    ((torn A B k).drop a).take n = (B.drop a).take n := by
  by_cases h1 : k ≤ a
  · rw [torn_drop hA h1]
  · have e : ((torn A B k).drop a).take n = ((A.drop a).take n).take (k - a) ++ ((B.drop a).take n).drop (k - a) := by
      unfold torn
      have hl : (A.take k).length = k := by rw [List.length_take]; omega
      rw [List.drop_append_of_le_length (by omega), List.drop_take, List.take_append, List.length_take, List.length_drop,
        List.take_take, List.take_take, Nat.min_comm, List.drop_take, List.drop_drop]
      have e1 : min (k - a) (A.length - a) = k - a := by omega
      have e2 : a + (k - a) = k := by omega
      rw [e1, e2]
    rw [e, h, List.take_append_drop]

theorem torn_self {A : Bytes} {k : Nat} : torn A A k = A := by
  unfold torn
  rw [List.take_append_drop]

theorem torn_append {A B R : Bytes} {k : Nat} (h : k ≤ A.length) (hl : A.length = B.length) : torn (A ++ R) (B ++ R) k = torn A B k ++ R := by
  unfold torn
  rw [List.take_append_of_le_length h, List.drop_append_of_le_length (by omega), List.append_assoc]

theorem readFix_congr {a b : Bytes} {w : Nat} (hw : w ≤ 8) (h : a.take w = b.take w) : Codec.readFixNum a w = Codec.readFixNum b w := by
  rw [Codec.readFixNum_eq _ hw, Codec.readFixNum_eq _ hw, h]

theorem torn_byte {A B : Bytes} {k a : Nat} (hA : k ≤ A.length) :
    Codec.readFixNum ((torn A B k).drop a) 1 = if a < k then Codec.readFixNum (A.drop a) 1 else Codec.readFixNum (B.drop a) 1 := by
  split
  · exact readFix_congr (by omega) (torn_take hA (by omega))
  · rw [torn_drop hA (by omega)]

/-- The bytes of the numbers in the metadata. -/
theorem encode_sizes (c : Cfg) (m : Meta) (fin : Bool) (R : Bytes) : ((encodeMeta c m fin ++ R).drop 24).take 24 =
    Codec.writeFixNum m.num 8 ++ (Codec.writeFixNum m.eff 8 ++ Codec.writeFixNum m.fileSize 8) := by
  have hF : encodeMeta c m fin ++ R = metaMagic ++ (Codec.writeFixNum m.cyclic 1 ++ (Codec.writeFixNum m.major 1 ++
      (Codec.writeFixNum m.minor 1 ++ (Codec.writeFixNum c.w 1 ++ (Codec.writeFixNum c.step 1 ++ (Codec.writeFixNum c.maxLevel 1 ++
      (Codec.writeFixNum (if m.closure % 2 = 1 ∧ fin = true then 1 else 0) 1 ++ (List.replicate 8 0 ++
      (Codec.writeFixNum m.num 8 ++ (Codec.writeFixNum m.eff 8 ++ (Codec.writeFixNum m.fileSize 8 ++
      (Codec.writeFixNum m.timestamp 8 ++ (Codec.writeFixNum m.dbType 4 ++ (List.replicate 2 0 ++
      (storedExtra m ++ ([0] ++ (Codec.writeFixNum m.cyclic 1 ++ R))))))))))))))))) := by
    simp only [encodeMeta, storedExtra, List.append_assoc]
  rw [hF, show (24 : Nat) = 9 + (1 + (1 + (1 + (1 + (1 + (1 + (1 + (8 + 0)))))))) from rfl]
  simp only [skipMagic, skip1, skipZeros, List.drop_zero]
  have hl : (Codec.writeFixNum m.num 8 ++ (Codec.writeFixNum m.eff 8 ++ Codec.writeFixNum m.fileSize 8)).length = 24 := by
    simp only [List.length_append, Codec.writeFixNum_length _ (show 8 ≤ 8 by omega)]
  have := List.take_left' (l₂ := Codec.writeFixNum m.timestamp 8 ++ (Codec.writeFixNum m.dbType 4 ++ (List.replicate 2 0 ++
      (storedExtra m ++ ([0] ++ (Codec.writeFixNum m.cyclic 1 ++ R)))))) hl
  simpa [List.append_assoc] using this

/-- What the fields of the metadata are. -/
theorem encode_fields {c : Cfg} (hc : c.Valid) {m : Meta} (hm : m.Good) (h1 : m.num < 2 ^ 63) (h2 : m.eff < 2 ^ 63)
    (h3 : m.fileSize < 2 ^ 63) (fin : Bool) (R : Bytes) :
    (encodeMeta c m fin ++ R).take 9 = metaMagic ∧
    Codec.readFixNum ((encodeMeta c m fin ++ R).drop 9) 1 = m.cyclic % 256 ∧
    Codec.readFixNum ((encodeMeta c m fin ++ R).drop 127) 1 = m.cyclic % 256 ∧
    1 ≤ Codec.readFixNum ((encodeMeta c m fin ++ R).drop 10) 1 ∧
    Codec.readFixNum ((encodeMeta c m fin ++ R).drop 12) 1 = c.w ∧
    Codec.readFixNum ((encodeMeta c m fin ++ R).drop 13) 1 = c.step ∧
    Codec.readFixNum ((encodeMeta c m fin ++ R).drop 14) 1 = c.maxLevel ∧
    Codec.readFixNum ((encodeMeta c m fin ++ R).drop 24) 8 = m.num ∧
    Codec.readFixNum ((encodeMeta c m fin ++ R).drop 32) 8 = m.eff ∧
    Codec.readFixNum ((encodeMeta c m fin ++ R).drop 40) 8 = m.fileSize := by
  obtain ⟨m', h, r1, r2, r3, r4, r5, r6, r7, r8, r9⟩ := readMetadata_encode hc hm (by omega) (by omega) (by omega) fin R
  unfold readMetadata at h
  rw [if_neg (by rw [List.length_append, encodeMeta_length]; omega)] at h
  split at h
  · cases h
  · rename_i hmagic
    simp only [Option.some.injEq, Prod.mk.injEq, decide_eq_true_eq] at h
    obtain ⟨hc1, hm1, hsame⟩ := h
    rw [← hm1] at r1 r2 r3 r4 r5 r6 r7 r8 r9
    simp only at r1 r4 r5 r6 r9
    rw [if_pos hsame] at r9
    have hh := hm.major
    refine ⟨by simpa using hmagic, r9, by rw [← hsame]; exact r9, by rw [r1]; omega, congrArg Cfg.w hc1, congrArg Cfg.step hc1, congrArg Cfg.maxLevel hc1, r4, r5, r6⟩

/-- Metadata of which only a part has been written: the change is noticed. -/
theorem torn_load {c : Cfg} (hc : c.Valid) {recs : Recs} (hfit : Fits c recs) {m0 m1 : Meta} (h0 : Header c m0 recs) (h1 : Header c m1 recs)
    (hne : m1.cyclic % 256 ≠ m0.cyclic % 256) (f0 f1 : Bool) {k : Nat} (hk : 9 < k) (hk' : k < metadataSize) (R : Bytes) :
    ∃ m, readMetadata (torn (encodeMeta c m1 f1) (encodeMeta c m0 f0) k ++ R) = some (c, m, false) ∧
      loadMetadata (torn (encodeMeta c m1 f1) (encodeMeta c m0 f0) k ++ R) = some (c, m, false) := by
  obtain ⟨s1, s2, s3⟩ := hfit.small hc
  have h128 := offs_pos c recs recs.length
  have hL1 := encodeMeta_length c m1 f1
  have hL0 := encodeMeta_length c m0 f0
  obtain ⟨a1, a2, a3, a4, a5, a6, a7, a8, a9, a10⟩ := encode_fields hc h1.good (by rw [h1.num]; exact s1) (by rw [h1.eff]; exact s2) (by rw [h1.size]; exact s3) f1 R
  obtain ⟨b1, b2, b3, b4, b5, b6, b7, b8, b9, b10⟩ := encode_fields hc h0.good (by rw [h0.num]; exact s1) (by rw [h0.eff]; exact s2) (by rw [h0.size]; exact s3) f0 R
  have hsz : ((encodeMeta c m1 f1 ++ R).drop 24).take 24 = ((encodeMeta c m0 f0 ++ R).drop 24).take 24 := by
    rw [encode_sizes, encode_sizes, h1.num, h0.num, h1.eff, h0.eff, h1.size, h0.size]
  rw [← torn_append (by omega) (by omega)]
  have hA : k ≤ (encodeMeta c m1 f1 ++ R).length := by rw [List.length_append]; omega
  have hlen : metadataSize ≤ (torn (encodeMeta c m1 f1 ++ R) (encodeMeta c m0 f0 ++ R) k).length := by
    rw [torn_append (by omega) (by omega), List.length_append]
    unfold torn
    rw [List.length_append, List.length_take, List.length_drop]
    omega
  generalize hAA : encodeMeta c m1 f1 ++ R = A at *
  generalize hBB : encodeMeta c m0 f0 ++ R = B at *
  have t1 : (torn A B k).take 9 = metaMagic := by
    have := torn_take (A := A) (B := B) (a := 0) (n := 9) hA (by omega)
    simpa [a1] using this
  have h8 := torn_both (B := B) hA hsz
  have e8 : Codec.readFixNum ((torn A B k).drop 24) 8 = Codec.readFixNum (B.drop 24) 8 := by
    refine readFix_congr (by omega) ?_
    have := congrArg (List.take 8) h8
    simpa [List.take_take] using this
  have e9 : Codec.readFixNum ((torn A B k).drop 32) 8 = Codec.readFixNum (B.drop 32) 8 := by
    refine readFix_congr (by omega) ?_
    have := congrArg (fun l => (List.drop 8 l).take 8) h8
    simpa [List.take_take, List.drop_take, List.drop_drop] using this
  have e10 : Codec.readFixNum ((torn A B k).drop 40) 8 = Codec.readFixNum (B.drop 40) 8 := by
    refine readFix_congr (by omega) ?_
    have := congrArg (fun l => (List.drop 16 l).take 8) h8
    simpa [List.take_take, List.drop_take, List.drop_drop] using this
  have hr : ∃ m, readMetadata (torn A B k) = some (c, m, false) ∧ 1 ≤ m.major ∧ m.num = m0.num ∧ m.eff = m0.eff ∧ m.fileSize = m0.fileSize := by
    unfold readMetadata
    rw [if_neg (by omega), if_neg (by simpa using t1)]
    have hdiff : Codec.readFixNum ((torn A B k).drop 9) 1 ≠ Codec.readFixNum ((torn A B k).drop 127) 1 := by
      rw [torn_byte hA, torn_byte hA, if_pos (by omega), if_neg (by unfold metadataSize at hk'; omega), a2, b3]
      exact hne
    refine ⟨_, by
      simp only [Option.some.injEq, Prod.mk.injEq]
      refine ⟨?_, rfl, by simpa using hdiff⟩
      rw [torn_byte hA, torn_byte hA, torn_byte hA, a5, a6, a7, b5, b6, b7]
      simp, ?_, ?_, ?_, ?_⟩
    · simp only
      rw [torn_byte hA]
      split <;> assumption
    · simp only [e8, b8]
    · simp only [e9, b9]
    · simp only [e10, b10]
  obtain ⟨m, hr, hmaj, r1, r2, r3⟩ := hr
  refine ⟨m, hr, ?_⟩
  unfold loadMetadata
  rw [hr]
  have v1 := hc.w
  have v2 := hc.step
  have v3 := hc.maxLevel
  simp only
  rw [if_neg (by omega), if_neg (by omega), if_neg (by omega), if_neg (by omega), if_neg (by
    rw [r1, r2, r3, h0.num, h0.eff, h0.size]; unfold metadataSize; omega)]

/-! What a process may leave behind -/

/-- SPECIFICATION: the parameters of the record format if none are given (tkrzw_dbm_skip.h 60-65). -/
def defaultCfg : Cfg := ⟨4, 4, 14⟩

/-- The records can be restored. -/
structure Sound (recs : Recs) : Prop where
  sorted : SortedRecs recs
  clean : ∀ r ∈ recs, r.2 ≠ removingValue
  fits : Fits defaultCfg recs

/-- A file which was left with the records. With `tail` zeros may follow. -/
def Left (tail : Bool) (c : Cfg) (recs : Recs) (X : Bytes) : Prop :=
  c.Valid ∧ Fits c recs ∧
    ((∃ m fin z, Header c m recs ∧ X = padded (image c (encodeMeta c m fin) recs) z) ∨
      (∃ T z, T.length = metadataSize ∧ (∀ R, ∃ m, readMetadata (T ++ R) = some (c, m, false) ∧ loadMetadata (T ++ R) = some (c, m, false)) ∧
        X = padded (image c T recs) z) ∨
      (tail = false ∧ recs = [] ∧ ∃ m fin, m.Good ∧ m.num < 2 ^ 63 ∧ m.eff < 2 ^ 63 ∧ m.fileSize < 2 ^ 63 ∧ metadataSize < m.fileSize ∧
        X = encodeMeta c m fin))

theorem padded_zero (F : Bytes) : padded F 0 = F := by simp [padded]

theorem padded_padded (F : Bytes) (a b : Nat) : padded (padded F a) b = padded F (a + b) := by
  simp [padded, List.append_assoc]

theorem Left.pad {c : Cfg} {recs : Recs} {X : Bytes} (h : Left true c recs X) (z : Nat) : Left true c recs (padded X z) := by
  obtain ⟨hv, hf, h⟩ := h
  refine ⟨hv, hf, ?_⟩
  rcases h with ⟨m, fin, z', h1, e⟩ | ⟨T, z', h1, h2, e⟩ | ⟨h, _⟩
  · exact Or.inl ⟨m, fin, z' + z, h1, by rw [e, padded_padded]⟩
  · exact Or.inr (Or.inl ⟨T, z' + z, h1, h2, by rw [e, padded_padded]⟩)
  · cases h

theorem Left.weak {b : Bool} {c : Cfg} {recs : Recs} {X : Bytes} (h : Left true c recs X) : Left b c recs X := by
  obtain ⟨hv, hf, h⟩ := h
  refine ⟨hv, hf, ?_⟩
  rcases h with h | h | ⟨h, _⟩
  · exact Or.inl h
  · exact Or.inr (Or.inl h)
  · cases h

theorem left_whole {c : Cfg} (hv : c.Valid) {recs : Recs} (hf : Fits c recs) {m : Meta} (h : Header c m recs) (fin : Bool) :
    Left true c recs (image c (encodeMeta c m fin) recs) :=
  ⟨hv, hf, Or.inl ⟨m, fin, 0, h, (padded_zero _).symm⟩⟩

theorem take_magic (c : Cfg) (m : Meta) (fin : Bool) : (encodeMeta c m fin).take 9 = metaMagic := by
  simp only [encodeMeta, List.append_assoc]
  exact List.take_left' rfl

/-- The file while the metadata are being written. -/
theorem left_torn {c : Cfg} (hv : c.Valid) {recs : Recs} (hf : Fits c recs) {m0 m1 : Meta} (h0 : Header c m0 recs) (h1 : Header c m1 recs)
    (hne : m1.cyclic % 256 ≠ m0.cyclic % 256) (f0 f1 : Bool) {k : Nat} (hk : k ≤ metadataSize) :
    Left true c recs (torn (image c (encodeMeta c m1 f1) recs) (image c (encodeMeta c m0 f0) recs) k) := by
  have hL1 := encodeMeta_length c m1 f1
  have hL0 := encodeMeta_length c m0 f0
  have e : torn (image c (encodeMeta c m1 f1) recs) (image c (encodeMeta c m0 f0) recs) k =
      image c (torn (encodeMeta c m1 f1) (encodeMeta c m0 f0) k) recs := by
    unfold image
    exact torn_append (by omega) (by omega)
  rw [e]
  by_cases h9 : k ≤ 9
  · have : torn (encodeMeta c m1 f1) (encodeMeta c m0 f0) k = encodeMeta c m0 f0 := by
      unfold torn
      have : (encodeMeta c m1 f1).take k = (encodeMeta c m0 f0).take k := by
        have t := (take_magic c m1 f1).trans (take_magic c m0 f0).symm
        have := congrArg (List.take k) t
        rwa [List.take_take, List.take_take, Nat.min_eq_left h9] at this
      rw [this, List.take_append_drop]
    rw [this]
    exact left_whole hv hf h0 f0
  · by_cases h128 : k = metadataSize
    · have : torn (encodeMeta c m1 f1) (encodeMeta c m0 f0) k = encodeMeta c m1 f1 := by
        unfold torn
        rw [List.take_of_length_le (by omega), List.drop_eq_nil_of_le (by omega), List.append_nil]
      rw [this]
      exact left_whole hv hf h1 f1
    · refine ⟨hv, hf, Or.inr (Or.inl ⟨_, 0, ?_, ?_, (padded_zero _).symm⟩)⟩
      · unfold torn
        rw [List.length_append, List.length_take, List.length_drop]
        omega
      · intro R
        exact torn_load hv hf h0 h1 hne f0 f1 (by omega) (by omega) R

/-- The file during SaveMetadata. -/
theorem saving_left {d : Db} (hv : d.cfg.Valid) {recs : Recs} (hf : Fits d.cfg recs) {m0 : Meta} {f0 : Bool} (h0 : Header d.cfg m0 recs)
    (hfile : d.file = image d.cfg (encodeMeta d.cfg m0 f0) recs) (h1 : Header d.cfg d.md recs) (hc : d.md.cyclic % 256 = m0.cyclic % 256)
    (fin : Bool) : ∀ X ∈ d.saving fin, Left true d.cfg recs X := by
  have h2 : Header d.cfg { d.md with cyclic := d.md.cyclic + 1 } recs :=
    ⟨⟨h1.good.major, h1.good.minor, h1.good.dbType⟩, h1.num, h1.eff, h1.size⟩
  have hne : (d.md.cyclic + 1) % 256 ≠ m0.cyclic % 256 := by omega
  have e1 : (d.saveMetadata d.file fin).2 = image d.cfg (encodeMeta d.cfg { d.md with cyclic := d.md.cyclic + 1 } fin) recs := by
    rw [hfile]
    exact overwrite_image _ (encodeMeta_length _ _ _) (encodeMeta_length _ _ _) _
  intro X hX
  unfold Db.saving at hX
  rw [e1, hfile] at hX
  obtain ⟨k, hk, e⟩ := List.mem_map.1 hX
  rw [← e]
  exact left_torn hv hf h0 h2 hne f0 fin (by have := List.mem_range.1 hk; omega)

theorem clampCfg_valid {c : Cfg} (hv : c.Valid) : clampCfg c.w c.step c.maxLevel = c := by
  obtain ⟨w, st, l⟩ := c
  have v1 := hv.w
  have v2 := hv.step
  have v3 := hv.maxLevel
  simp only at v1 v2 v3
  simp only [clampCfg, clamp, Cfg.mk.injEq]
  refine ⟨?_, ?_, ?_⟩ <;> rw [if_pos (by omega)] <;> omega

theorem openEnd_file {d : Db} (h : d.writable = true ∧ d.healthy = true) : d.openEnd.file = (d.saveMetadata d.file false).2 := by
  unfold Db.openEnd
  rw [h.1, h.2]
  simp only [Bool.and_self, if_true, Db.newCache, Db.prepareStorage]
  split <;> rfl

/-- The end of opening a file with whole metadata. -/
theorem opened_ok {c : Cfg} (hv : c.Valid) {recs : Recs} (hs : Sound recs) (hfit : Fits c recs) {m m' : Meta} (h : Header c m recs)
    (h' : Header c m' recs) (hcy : m'.cyclic = m.cyclic % 256) (fin : Bool) (p : Params) (ar : Bool) :
    Inv (Db.opened p ar c m' (image c (encodeMeta c m fin) recs)).openEnd ⟨c, p.inOrder, recs, [], [], none⟩ ∧
      ∀ Y ∈ (Db.opened p ar c m' (image c (encodeMeta c m fin) recs)).saving false, Left true c recs Y :=
  ⟨openEnd_inv (opened_calm (p := p) hv h'.good (encodeMeta_length _ _ _) hs.sorted hfit hs.clean h'.num h'.eff) h'.size,
    saving_left (d := Db.opened p ar c m' (image c (encodeMeta c m fin) recs)) hv hfit h rfl h' (by simp only [Db.opened]; omega) false⟩

/-- The end of opening a file which was restored. -/
theorem restored_ok {c : Cfg} (hv : c.Valid) {recs : Recs} (hs : Sound recs) (hfit : Fits c recs) {F : Bytes} {m : Meta} (h : Closed c m recs F)
    (p : Params) : ∃ m', loadMetadata F = some (c, m', true) ∧
    Inv (Db.opened p true c m' F).openEnd ⟨c, p.inOrder, recs, [], [], none⟩ ∧ ∀ Y ∈ (Db.opened p true c m' F).saving false, Left true c recs Y := by
  obtain ⟨m', el, hg, hnum, heff, hsz, hcl', hty, hex, hcy⟩ := h.load hv hfit
  have hl : F.length = offs c recs recs.length := by rw [h.file, image_length hv.ok.w (encodeMeta_length _ _ _)]
  refine ⟨m', el, ?_⟩
  rw [h.file]
  exact opened_ok hv hs hfit ⟨h.good, h.num, h.eff, by rw [h.size, hl]⟩ ⟨hg, hnum, heff, by rw [hsz, hl]⟩ hcy true p true

/-- Opening what was left gives the records, and while it is being opened the file goes on to be such a file. -/
theorem left_open {b : Bool} {c : Cfg} {recs : Recs} {X : Bytes} (hs : Sound recs) (h : Left b c recs X) (p : Params) (now : Nat) :
    ∃ d l c', Db.openFile p X now = .ok d ∧ (c' = c ∨ c' = defaultCfg) ∧ Inv d ⟨c', p.inOrder, recs, [], [], none⟩ ∧
      openMoments p X now = .ok l ∧ ∀ Y ∈ l, ∃ c'', (c'' = c ∨ c'' = defaultCfg) ∧ Left b c'' recs Y := by
  have hX := h
  obtain ⟨hv, hfit, h⟩ := h
  suffices hbase : ∃ d c', Db.openBase p X now = .ok d ∧ (c' = c ∨ c' = defaultCfg) ∧ Inv d.openEnd ⟨c', p.inOrder, recs, [], [], none⟩ ∧
      (∀ Y ∈ d.saving false, Left true c' recs Y) ∧ 1 ≤ X.length by
    obtain ⟨d, c', h1, h2, h3, h4, h5⟩ := hbase
    refine ⟨d.openEnd, X :: d.saving false, c', ?_, h2, h3, ?_, ?_⟩
    · rw [Db.openFile, if_neg (by omega), h1]
      rfl
    · rw [openMoments, h1]
      rfl
    · intro Y hY
      rcases List.mem_cons.1 hY with rfl | hY
      · exact ⟨c, Or.inl rfl, hX⟩
      · exact ⟨c', h2, (h4 Y hY).weak⟩
  obtain ⟨s1, s2, s3⟩ := hfit.small hv
  have h128 := offs_pos c recs recs.length
  have hdv : defaultCfg.Valid := ⟨by simp [defaultCfg], by simp [defaultCfg], by simp [defaultCfg]⟩
  rcases h with ⟨m, fin, z, hm, eX⟩ | ⟨T, z, hT, hload, eX⟩ | ⟨_, rfl, m, fin, hg, hn, he, hsz, hgt, eX⟩ <;> rw [eX] <;> clear hX eX
  · have hlen : (image c (encodeMeta c m fin) recs).length = offs c recs recs.length := image_length hv.ok.w (encodeMeta_length _ _ _) recs
    obtain ⟨m', el, r1, r2, r3, r4, r5, r6, r7, r8, r9⟩ := loadMetadata_encode hv hm.good (by rw [hm.num]; exact s1) (by rw [hm.eff]; exact s2)
      (by rw [hm.size]; exact s3) (by rw [hm.size]; simp [metadataSize]; omega) fin ((blocks c (link c recs) recs).flatten ++ List.replicate z 0)
    have el' : loadMetadata (padded (image c (encodeMeta c m fin) recs) z) = some (c, m', true) := by
      rw [← el, padded, image, List.append_assoc]
    have hm' : Header c { m' with closure := 1 } recs :=
      ⟨⟨by rw [r1]; exact hm.good.major, by rw [r2]; exact hm.good.minor, by rw [r7]; exact hm.good.dbType⟩, by simp only [r4, hm.num],
        by simp only [r5, hm.eff], by simp only [r6, hm.size]⟩
    obtain ⟨k1, k2⟩ := opened_ok hv hs hfit hm hm' r9 fin p (decide (m'.closure % 2 = 0))
    refine ⟨_, c, ?_, Or.inl rfl, k1, k2, by rw [padded, List.length_append]; omega⟩
    unfold Db.openBase
    rw [el']
    simp only
    by_cases hz : z = 0
    · subst hz
      rw [padded_zero, if_pos ⟨trivial, by rw [r6, hm.size, hlen]⟩]
    · have hplen : (padded (image c (encodeMeta c m fin) recs) z).length = offs c recs recs.length + z := by
        rw [padded, List.length_append, hlen, List.length_replicate]
      rw [if_neg (by rw [r6, hm.size, hplen]; omega), if_pos, r6, hm.size, padded, List.take_left' hlen]
      refine ⟨trivial, by rw [r6, hm.size, hplen]; omega, ?_⟩
      rw [r6, hm.size, zeroRegion, padded, List.drop_left' hlen]
      simp [List.all_eq_true]
  · obtain ⟨m, e1, e2⟩ := hload ((blocks c (link c recs) recs).flatten ++ List.replicate z 0)
    have e1' : readMetadata (padded (image c T recs) z) = some (c, m, false) := by rw [← e1, padded, image, List.append_assoc]
    have e2' : loadMetadata (padded (image c T recs) z) = some (c, m, false) := by rw [← e2, padded, image, List.append_assoc]
    have hlen : (image c T recs).length = offs c recs recs.length := image_length hv.ok.w hT recs
    have hplen : (padded (image c T recs) z).length = offs c recs recs.length + z := by
      rw [padded, List.length_append, hlen, List.length_replicate]
    obtain ⟨F', m', hr, hclosed, _, _, _⟩ := restore_ok (by rw [hplen]; unfold metadataSize; omega) e1' (salvage_image hv.ok hT hfit z) hs.sorted hs.clean
      (by rw [if_neg (by simp)]; exact hs.fits) now
    rw [if_neg (by simp), show clampCfg (-1) (-1) (-1) = defaultCfg from rfl] at hclosed
    obtain ⟨m2, k0, k1, k2⟩ := restored_ok hdv hs hs.fits hclosed p
    refine ⟨_, defaultCfg, ?_, Or.inr rfl, k1, k2, by rw [hplen]; omega⟩
    unfold Db.openBase
    rw [e2']
    simp only [Bool.false_eq_true, false_and, if_false]
    rw [hr, Rd.bind_ok, k0]
  · obtain ⟨m', el, r1, r2, r3, r4, r5, r6, r7, r8, r9⟩ := loadMetadata_encode hv hg hn he hsz (by omega) fin []
    obtain ⟨m'', el2, _⟩ := readMetadata_encode hv hg (by omega) (by omega) (by omega) fin []
    rw [List.append_nil] at el el2
    have himg : image c (encodeMeta c m fin) [] = encodeMeta c m fin := image_nil _ _
    have hlen := encodeMeta_length c m fin
    have hsalv := salvage_image hv.ok (md := encodeMeta c m fin) hlen hfit 0
    rw [himg, List.replicate_zero, List.append_nil] at hsalv
    obtain ⟨F', m3, hr, hclosed, _, _, _⟩ := restore_ok (by omega) el2 hsalv hs.sorted hs.clean (by
      rw [if_pos rfl, clampCfg_valid hv]; exact hfit) now
    rw [if_pos rfl, clampCfg_valid hv] at hclosed
    obtain ⟨m2, k0, k1, k2⟩ := restored_ok hv hs hfit hclosed p
    refine ⟨_, c, ?_, Or.inl rfl, k1, k2, by rw [hlen]; unfold metadataSize; omega⟩
    unfold Db.openBase
    rw [el]
    simp only
    rw [if_neg (by rw [r6]; omega), if_neg (by rw [r6]; omega), hr, Rd.bind_ok, k0]

end Verif.Skip
