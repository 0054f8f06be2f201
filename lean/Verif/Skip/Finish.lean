import Verif.Skip.Inv
/-
The synchronization, and starting from a file.
-/
namespace Verif.Skip
open Verif

theorem zeroMeta_length : zeroMeta.length = metadataSize := by simp [zeroMeta]

theorem image_nil (c : Cfg) (md : Bytes) : image c md [] = md := by simp [image, blocks]

theorem image_long {c : Cfg} (hw : c.w ≤ 8) {md : Bytes} (hm : md.length = metadataSize) {recs : Recs} (h : recs ≠ []) :
    metadataSize < (image c md recs).length := by
  rw [image_length hw hm]
  have hp : 0 < recs.length := List.length_pos_iff.mpr h
  have := offs_lt (c := c) (recs := recs) hp hp
  simpa [offs] using this

theorem effOf_cons (r : Bytes × Bytes) (l : Recs) : effOf (r :: l) = r.1.length + r.2.length + effOf l := by simp [effOf]

theorem effOf_append (a b : Recs) : effOf (a ++ b) = effOf a + effOf b := by simp [effOf]

theorem effOf_le (c : Cfg) (recs : Recs) : effOf recs ≤ offs c recs recs.length := by
  have : ∀ i, i ≤ recs.length → effOf (recs.take i) ≤ offs c recs i := by
    intro i
    induction i with
    | zero => intro _; simp [effOf]
    | succ i ih =>
      intro h
      have hi : i < recs.length := by omega
      rw [List.take_add_one, List.getElem?_eq_getElem hi, effOf_append]
      have h1 := ih (by omega)
      have h2 : offs c recs (i + 1) = offs c recs i + sizeAt c recs i := rfl
      rw [sizeAt_lt hi, wholeSize] at h2
      simp only [Option.toList, effOf, List.map_cons, List.map_nil, List.sum_cons, List.sum_nil]
      simp only [effOf] at h1
      omega
  simpa using this recs.length (Nat.le_refl _)

theorem Fits.small {c : Cfg} (hv : c.Valid) {recs : Recs} (h : Fits c recs) :
    recs.length < 2 ^ 63 ∧ effOf recs < 2 ^ 63 ∧ Skip.offs c recs recs.length < 2 ^ 63 := by
  have h1 := length_le_offs c recs recs.length (Nat.le_refl _)
  have h2 := effOf_le c recs
  have h3 := h.offs
  have h4 : 2 ^ (8 * c.w) ≤ 2 ^ 48 := Nat.pow_le_pow_right (by omega) (by have := hv.w; omega)
  have h5 : (2 : Nat) ^ 48 < 2 ^ 63 := by decide
  omega

theorem Fits.nil (c : Cfg) (hv : c.Valid) : Fits c [] where
  offs := by
    have h4 : 2 ^ 24 ≤ 2 ^ (8 * c.w) := Nat.pow_le_pow_right (by omega) (by have := hv.w; omega)
    simp only [List.length_nil, Skip.offs, metadataSize]
    omega
  size := by intro i h; simp at h

/-- The database after FinishStorage. -/
structure Fin (d d' : Db) (new : Recs) : Prop where
  cfg : d'.cfg = d.cfg
  inOrder : d'.inOrder = d.inOrder
  cap : d'.cap = d.cap
  mode : d'.writable = d.writable ∧ d'.healthy = d.healthy
  file : d'.file = image d.cfg (encodeMeta d.cfg d'.md true) new
  good : d'.md.Good
  closure : d'.md.closure = d.md.closure
  num : d'.md.num = new.length
  eff : d'.md.eff = effOf new
  size : d'.md.fileSize = d'.file.length
  user : d'.md.dbType = d.md.dbType ∧ d'.md.extra = d.md.extra
  clear : d'.sorter = none ∧ d'.sorted = none ∧ d'.updated = false

/-- A source is added unless it is empty. -/
theorem addIf_spec {t : Sorter} {c : Cfg} (hc : c.Ok) {md : Bytes} (hm : md.length = metadataSize) {recs : Recs} (hf : Fits c recs)
    (hs : SortedRecs recs) {ls : List Recs} (ht : SourcesOk t.sources ls) {pend : Recs} (ha : AsideOk t pend) :
    ∃ ls', SourcesOk (if metadataSize < (image c md recs).length then t.addSource c (image c md recs) else t).sources ls' ∧
      (∀ k, valuesOf k ls'.flatten = valuesOf k ls.flatten ++ valuesOf k recs) ∧
      AsideOk (if metadataSize < (image c md recs).length then t.addSource c (image c md recs) else t) pend := by
  by_cases he : recs = []
  · subst he
    rw [image_nil, hm, if_neg (by omega)]
    exact ⟨ls, ht, by simp [valuesOf_nil], ha⟩
  · rw [if_pos (image_long hc.w hm he)]
    exact ⟨ls ++ [recs], ht.append (SourcesOk.one ⟨hc, ⟨md, hm, rfl⟩, hf, hs⟩), by simp [valuesOf_append], ha.runs, ha.values⟩

theorem synced_pend {d : Db} {s : S} (h : Inv d s) (ho : s.inOrder = true) (hst : s.stored = []) (hsrc : s.sources = []) :
    Synced s none s.pend := by
  refine ⟨(h.ordered ho).1, fun k => ?_⟩
  rw [hst, hsrc, valuesOf_pend, reduceBy, liveAfter_plain _ _ (fun u hu => (h.ordered ho).2 _ (mem_updatesOf hu))]
  simp [valuesOf_nil]

theorem finish_ok {d : Db} {s : S} (h : Inv d s) (hp : s.PendFits) (now : Nat) (reducer : Option Reducer) :
    ∃ new d', Synced s reducer new ∧ d.finishStorage now reducer = .ok d' ∧ Fin d d' new := by
  obtain ⟨t, ht, hts, hta, hto⟩ := h.sorter
  obtain ⟨md, hm, hfile, _⟩ := h.file
  have hc := h.valid.ok
  have hstep : 0 < d.cfg.step := by have := hc.step; omega
  unfold Db.finishStorage
  rw [ht]
  simp only
  by_cases hfast : (reducer.isNone && d.file.length == metadataSize && !t.isUpdated) = true ∧ s.inOrder = true
  · obtain ⟨hfast, ho⟩ := hfast
    have hsd := h.sorted
    rw [if_pos ho] at hsd
    obtain ⟨W, hW, hWok⟩ := hsd
    simp only [Bool.and_eq_true, Bool.not_eq_true', Option.isNone_iff_eq_none, beq_iff_eq] at hfast
    obtain ⟨⟨hr, hlen⟩, hup⟩ := hfast
    have hst : s.stored = [] := by
      by_cases he : s.stored = []
      · exact he
      · have := image_long hc.w hm (c := d.cfg) he
        rw [← hfile] at this
        omega
    have hsrc : s.sources = [] := by
      simp only [Sorter.isUpdated, Bool.or_eq_false_iff, Bool.not_eq_false', List.isEmpty_iff] at hup
      rw [hup.2, SourcesOk] at hts
      exact hts
    subst hr
    rw [if_pos (by simp [hlen, hup]), hW]
    refine ⟨s.pend, _, synced_pend h ho hst hsrc, rfl, ?_⟩
    have hf := hWok.1
    refine ⟨rfl, rfl, rfl, ⟨rfl, rfl⟩, ?_, ⟨h.good.major, h.good.minor, h.good.dbType⟩, rfl, ?_, ?_, ?_, ⟨rfl, rfl⟩, ⟨rfl, rfl, rfl⟩⟩
    · simp only [Db.saveMetadata]
      rw [hf, overwrite_image _ zeroMeta_length (encodeMeta_length _ _ _)]
    · simp only [Db.saveMetadata]
      rw [h.num, hst, if_pos ho]
      simp [S.pend]
    · simp only [Db.saveMetadata]
      rw [h.eff, hst, if_pos ho]
      simp [effOf]
    · simp only [Db.saveMetadata]
      rw [hf, overwrite_image _ zeroMeta_length (encodeMeta_length _ _ _), image_length hc.w zeroMeta_length,
        image_length hc.w (encodeMeta_length _ _ _)]
  · have hnone : (if reducer.isNone && d.file.length == metadataSize && !t.isUpdated then d.sorted else none) = none := by
      by_cases hb : (reducer.isNone && d.file.length == metadataSize && !t.isUpdated) = true
      · rw [if_pos hb]
        have ho : s.inOrder = false := by
          cases ho : s.inOrder
          · rfl
          · exact absurd ⟨hb, ho⟩ hfast
        have hsd := h.sorted
        rw [ho] at hsd
        simpa using hsd
      · rw [if_neg hb]
    rw [hnone]
    simp only
    -- the sources
    obtain ⟨ls1, hs1, hv1, ha1⟩ := addIf_spec hc hm h.fits h.stored hts hta
    rw [← hfile] at hs1 ha1
    generalize (if metadataSize < d.file.length then t.addSource d.cfg d.file else t) = t1 at *
    have step2 : ∃ ls2, ∃ t2, addSorted d.cfg t1 d.sorted = t2 ∧ SourcesOk t2.sources ls2 ∧
        AsideOk t2 (if s.inOrder then [] else s.pend) ∧ ∀ k, valuesOf k ls2.flatten ++ valuesOf k (if s.inOrder then [] else s.pend) =
          valuesOf k ls1.flatten ++ valuesOf k s.pend := by
      have hsd := h.sorted
      cases ho : s.inOrder with
      | false =>
        rw [ho] at hsd ha1
        simp only [Bool.false_eq_true, if_false] at hsd
        rw [hsd]
        exact ⟨ls1, t1, rfl, hs1, ha1, fun k => rfl⟩
      | true =>
        rw [if_pos ho] at hsd
        obtain ⟨W, hW, hWok⟩ := hsd
        rw [hW, addSorted]
        rw [ho] at ha1
        have hpf := hp ho
        rw [← h.cfg] at hpf
        obtain ⟨ls2, hs2, hv2, ha2⟩ := addIf_spec hc zeroMeta_length hpf (h.ordered ho).1 hs1 ha1
        rw [← hWok.1] at hs2 ha2
        exact ⟨ls2, _, rfl, hs2, ha2, fun k => by simp [hv2 k, valuesOf_nil]⟩
    obtain ⟨ls2, t2, et2, hs2, ha2, hv2⟩ := step2
    rw [et2]
    obtain ⟨slots, hsl, hss, hsv⟩ := finish_spec ha2 hs2
    rw [hsl, Rd.bind_ok]
    obtain ⟨hm1, hm2⟩ := merged_spec slots hss
    obtain ⟨hr1, hr2⟩ := reduceLoop_spec d.removed reducer (merged slots) hm1
    have hsync : Synced s reducer (reduceLoop d.removed reducer (merged slots) [] []) := by
      refine ⟨hr1, fun k => ?_⟩
      rw [hr2 k, hm2 k, hsv k, hv2 k, hv1 k, valuesOf_pend]
      refine reduced_eq reducer k ?_ ?_ ?_
      · intro v hv
        rcases List.mem_append.mp hv with hv | hv
        · obtain ⟨l, hl, hv⟩ := List.mem_flatten.mp (mem_valuesOf.mp hv)
          exact h.cleanSrc l hl _ hv
        · exact h.clean _ (mem_valuesOf.mp hv)
      · intro u hu
        exact h.cleanPend _ (mem_updatesOf hu)
      · intro hr u hu
        exact h.removed hr _ (mem_updatesOf hu)
    generalize reduceLoop d.removed reducer (merged slots) [] [] = out at *
    have hW := writeAll_spec hc.w hstep zeroMeta_length out (new_spec d.cfg zeroMeta)
    rw [List.nil_append] at hW
    generalize (Writer.new d.cfg zeroMeta).writeAll d.cfg out = W at *
    have hf := hW.1
    refine ⟨out, _, hsync, rfl, ?_⟩
    refine ⟨rfl, rfl, rfl, ⟨rfl, rfl⟩, ?_, ⟨h.good.major, h.good.minor, h.good.dbType⟩, rfl, rfl, rfl, ?_, ⟨rfl, rfl⟩, ⟨rfl, rfl, rfl⟩⟩
    · simp only [Db.saveMetadata]
      rw [hf, overwrite_image _ zeroMeta_length (encodeMeta_length _ _ _)]
    · simp only [Db.saveMetadata]
      rw [hf, overwrite_image _ zeroMeta_length (encodeMeta_length _ _ _), image_length hc.w zeroMeta_length,
        image_length hc.w (encodeMeta_length _ _ _)]

/-- A database whose file holds records, apart from the updates it keeps and its cache. -/
structure Calm (d : Db) (recs : Recs) : Prop where
  valid : d.cfg.Valid
  file : ∃ md, md.length = metadataSize ∧ d.file = image d.cfg md recs
  stored : SortedRecs recs
  fits : Fits d.cfg recs
  clean : ∀ r ∈ recs, r.2 ≠ removingValue
  mode : d.writable = true ∧ d.healthy = true
  good : d.md.Good
  num : d.md.num = recs.length
  eff : d.md.eff = effOf recs
  sorted : d.inOrder = false → d.sorted = none

theorem asideOk_new (m : Nat) : AsideOk (Sorter.new m) [] := ⟨by simp [Sorter.new], fun k => rfl⟩

theorem prepare_inv {d : Db} {recs : Recs} (h : Calm d recs)
    (hfile : ∃ md, md.length = metadataSize ∧ d.file = image d.cfg md recs ∧ CacheOk d.cfg md recs d.cache) (hdisk : Disk d recs) (pos : Option Nat) :
    Inv d.prepareStorage ⟨d.cfg, d.inOrder, recs, [], [], pos⟩ := by
  have hpend : ∀ c b r p, S.pend ⟨c, b, r, [], [], p⟩ = [] := fun _ _ _ _ => rfl
  cases ho : d.inOrder
  · have e : d.prepareStorage = { d with sorter := some (Sorter.new d.sortMem), oldNum := d.md.num, oldEff := d.md.eff } := by
      simp [Db.prepareStorage, ho]
    rw [e]
    exact {
      cfg := rfl
      inOrder := ho
      valid := h.valid
      file := hfile
      disk := hdisk
      stored := h.stored
      fits := h.fits
      clean := h.clean
      cleanSrc := by simp
      cleanPend := by simp
      mode := h.mode
      good := h.good
      num := by simp [h.num]
      eff := by simp [h.eff]
      oldNum := h.num
      oldEff := h.eff
      sorter := ⟨_, rfl, rfl, asideOk_new _, by simp⟩
      sorted := h.sorted ho
      ordered := by simp
      removed := by simp
      updated := by simp }
  · have e : d.prepareStorage = { d with
        sorter := some (Sorter.new d.sortMem)
        oldNum := d.md.num
        oldEff := d.md.eff
        sorted := some (Writer.new d.cfg zeroMeta) } := by
      simp [Db.prepareStorage, ho]
    rw [e]
    exact {
      cfg := rfl
      inOrder := ho
      valid := h.valid
      file := hfile
      disk := hdisk
      stored := h.stored
      fits := h.fits
      clean := h.clean
      cleanSrc := by simp
      cleanPend := by simp
      mode := h.mode
      good := h.good
      num := by simp [h.num]
      eff := by simp [h.eff, hpend, effOf]
      oldNum := h.num
      oldEff := h.eff
      sorter := ⟨_, rfl, rfl, asideOk_new _, fun _ => ⟨rfl, rfl⟩⟩
      sorted := ⟨_, rfl, new_spec _ _⟩
      ordered := fun _ => ⟨by rw [hpend]; exact List.Pairwise.nil, by simp⟩
      removed := by simp
      updated := by simp }

theorem newCache_prepare (d : Db) : d.prepareStorage.newCache = d.newCache.prepareStorage := by
  cases ho : d.inOrder <;> simp [Db.prepareStorage, Db.newCache, ho]

/-- The start of a session on a file. -/
theorem start_inv {d : Db} {recs : Recs} (h : Calm d recs) (hd : Disk d recs) (pos : Option Nat) :
    Inv d.prepareStorage.newCache ⟨d.cfg, d.inOrder, recs, [], [], pos⟩ := by
  rw [newCache_prepare]
  obtain ⟨md, hm, hf⟩ := h.file
  exact prepare_inv (d := d.newCache) { h with } ⟨md, hm, hf, cache_new h.valid.ok md recs _ _⟩ hd pos

theorem calm_save {d : Db} {recs : Recs} (h : Calm d recs) (fin : Bool) :
    Calm { (d.saveMetadata d.file fin).1 with file := (d.saveMetadata d.file fin).2 } recs := by
  obtain ⟨md, hm, hf⟩ := h.file
  refine { h with file := ⟨_, encodeMeta_length d.cfg { d.md with cyclic := d.md.cyclic + 1 } fin, ?_⟩, good := ⟨h.good.major, h.good.minor, h.good.dbType⟩ }
  simp only [Db.saveMetadata]
  rw [hf, overwrite_image _ hm (encodeMeta_length _ _ _)]

theorem disk_save {d : Db} {recs : Recs} (h : Calm d recs) (hsize : d.md.fileSize = offs d.cfg recs recs.length) (fin : Bool) :
    Disk { (d.saveMetadata d.file fin).1 with file := (d.saveMetadata d.file fin).2 } recs := by
  obtain ⟨md, hm, hf⟩ := h.file
  refine ⟨{ d.md with cyclic := d.md.cyclic + 1 }, fin, ⟨⟨h.good.major, h.good.minor, h.good.dbType⟩, h.num, h.eff, hsize⟩, rfl, ?_⟩
  simp only [Db.saveMetadata]
  rw [hf, overwrite_image _ hm (encodeMeta_length _ _ _)]

theorem disk_nil {d : Db} {m : Meta} {fin : Bool} (hg : m.Good) (h0 : m.num = 0) (h1 : m.eff = 0) (h2 : m.fileSize = metadataSize)
    (hc : m.cyclic % 256 = d.md.cyclic % 256) (hf : d.file = encodeMeta d.cfg m fin) : Disk d [] :=
  ⟨m, fin, ⟨hg, h0, by rw [h1]; rfl, by rw [h2]; rfl⟩, hc, by rw [image_nil]; exact hf⟩

theorem cache_inv {d : Db} {s : S} (h : Inv d s) {md : Bytes} (hm : md.length = metadataSize) (hf : d.file = image d.cfg md s.stored)
    {cc : Cache} (hcc : CacheOk d.cfg md s.stored cc) : Inv { d with cache := cc } s :=
  { h with file := ⟨md, hm, hf, hcc⟩ }

theorem pos_inv {d : Db} {s : S} (h : Inv d s) (pos : Option Nat) : Inv d { s with pos := pos } :=
  { h with }

end Verif.Skip
