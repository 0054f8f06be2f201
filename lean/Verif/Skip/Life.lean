import Verif.Skip.Finish
/-
The operations which change the stored records or the kept updates.
-/
namespace Verif.Skip
open Verif

theorem valuesOf_self_synced {s : S} (h1 : s.pending = []) (h2 : s.sources = []) (hs : SortedRecs s.stored) : Synced s none s.stored := by
  refine ⟨hs, fun k => ?_⟩
  rw [h1, h2]
  simp [updatesOf, liveAfter, reduceBy, valuesOf_nil]

theorem calm_fin {d d' : Db} {s : S} (h : Inv d s) {new : Recs} (hf : Fin d d' new) (hs : SortedRecs new) (hfit : Fits d.cfg new)
    (hc : ∀ r ∈ new, r.2 ≠ removingValue) : Calm d' new where
  valid := by rw [hf.cfg]; exact h.valid
  file := ⟨_, encodeMeta_length _ _ _, by rw [hf.file, hf.cfg]⟩
  stored := hs
  fits := by rw [hf.cfg]; exact hfit
  clean := hc
  mode := by rw [hf.mode.1, hf.mode.2]; exact h.mode
  good := hf.good
  num := hf.num
  eff := hf.eff
  sorted := fun _ => hf.clear.2.1

/-- Synchronize. -/
theorem sync_inv {d : Db} {s : S} (h : Inv d s) (hp : s.PendFits) (now : Nat) (reducer : Option Reducer)
    (hr : ∀ f, reducer = some f → ∀ key values, removingValue ∉ f key values) (hfit : ∀ new, Synced s reducer new → Fits s.cfg new) :
    ∃ new d', Synced s reducer new ∧ d.synchronize now reducer = .ok d' ∧ Inv d' ⟨s.cfg, s.inOrder, new, [], [], none⟩ := by
  obtain ⟨new, d1, hn, e1, hf⟩ := finish_ok h hp now reducer
  have hc := calm_fin h hf hn.1 (by rw [h.cfg]; exact hfit new hn) (synced_clean h hr hn)
  have := start_inv (calm_save hc false) (disk_save hc (by rw [hf.size, hf.file, hf.cfg, image_length h.valid.ok.w (encodeMeta_length _ _ _)]) false) none
  refine ⟨new, _, hn, ?_, by
    have e1 : d1.cfg = s.cfg := by rw [hf.cfg, h.cfg]
    have e2 : d1.inOrder = s.inOrder := by rw [hf.inOrder, h.inOrder]
    rw [← e1, ← e2]
    exact this⟩
  rw [Db.synchronize, e1]
  rfl

/-- Clear. -/
theorem clear_inv {d : Db} {s : S} (h : Inv d s) (hp : s.PendFits) (now : Nat) :
    ∃ d', d.clear now = .ok d' ∧ Inv d' ⟨s.cfg, s.inOrder, [], [], [], none⟩ := by
  -- the first two steps
  have key : ∃ d1, d.flushed now = Rd.ok d1 ∧ d1.updated = false ∧ d1.cfg = s.cfg ∧
      d1.inOrder = s.inOrder ∧ (∃ md recs, md.length = metadataSize ∧ d1.file = image d1.cfg md recs) ∧ d1.md.Good ∧
      (d1.writable = true ∧ d1.healthy = true) ∧ (d1.inOrder = false → d1.sorted = none) := by
    cases hu : d.updated with
    | true =>
      obtain ⟨new, d1, hn, e1, hf⟩ := finish_ok h hp now none
      refine ⟨d1, by simpa [Db.flushed, hu] using e1, hf.clear.2.2, by rw [hf.cfg, h.cfg], by rw [hf.inOrder, h.inOrder],
        ⟨_, new, encodeMeta_length _ _ _, by rw [hf.file, hf.cfg]⟩, hf.good, by rw [hf.mode.1, hf.mode.2]; exact h.mode, fun _ => hf.clear.2.1⟩
    | false =>
      obtain ⟨md, hm, hf, _⟩ := h.file
      refine ⟨d, by simp [Db.flushed, hu], hu, h.cfg, h.inOrder, ⟨md, s.stored, hm, hf⟩, h.good, h.mode, fun ho => ?_⟩
      have hsd := h.sorted
      rw [← h.inOrder, ho] at hsd
      simpa using hsd
  obtain ⟨d1, e1, hu, hcfg, hio, ⟨md, recs, hm, hfile⟩, hgood, hmode, hsd⟩ := key
  have hv : d1.cfg.Valid := by rw [hcfg, ← h.cfg]; exact h.valid
  have htake : d1.file.take metadataSize = md := by rw [hfile, image]; exact List.take_left' hm
  unfold Db.clear
  rw [e1, Rd.bind_ok]
  simp only [Db.cleared, hu, Bool.false_eq_true, if_false, htake, Db.saveMetadata]
  have hov : ∀ b : Bytes, b.length = metadataSize → overwrite md 0 b = b := by
    intro b hb
    have := overwrite_image d1.cfg hm hb []
    rwa [image_nil, image_nil] at this
  rw [hov _ (encodeMeta_length _ _ _)]
  obtain ⟨m', el, r1, r2, r3, r4, r5, r6, r7, r8, r9⟩ := loadMetadata_encode (m := { d1.md with num := 0, eff := 0, fileSize := metadataSize, timestamp := now, cyclic := d1.md.cyclic + 1 }) hv ⟨hgood.major, hgood.minor, hgood.dbType⟩ (by simp) (by simp) (by simp [metadataSize])
    (by simp) false []
  rw [List.append_nil] at el
  rw [el]
  refine ⟨_, rfl, ?_⟩
  simp only at r1 r2 r4 r5 r7
  rw [← hcfg, ← hio]
  refine start_inv (d := { d1 with cfg := d1.cfg, md := m', file := encodeMeta d1.cfg { d1.md with num := 0, eff := 0, fileSize := metadataSize, timestamp := now, cyclic := d1.md.cyclic + 1 } false, updated := false }) (recs := []) ⟨hv, ⟨_, encodeMeta_length _ _ _, (image_nil _ _).symm⟩, List.Pairwise.nil, Fits.nil _ hv, by simp,
    hmode, ⟨by rw [r1]; exact hgood.major, by rw [r2]; exact hgood.minor, by rw [r7]; exact hgood.dbType⟩, by simp [r4], by simp [r5, effOf], hsd⟩
    (disk_nil (m := { d1.md with num := 0, eff := 0, fileSize := metadataSize, timestamp := now, cyclic := d1.md.cyclic + 1 }) (fin := false)
      ⟨hgood.major, hgood.minor, hgood.dbType⟩ rfl rfl rfl (by
        show (d1.md.cyclic + 1) % 256 = m'.cyclic % 256
        rw [r9, Nat.mod_mod]) rfl) none

/-- Revert. -/
theorem revert_inv {d : Db} {s : S} (h : Inv d s) : Inv d.revert { s with sources := [], pending := [] } := by
  have := prepare_inv (d := d.discardStorage) (recs := s.stored) ⟨h.valid, by
    obtain ⟨md, hm, hf, _⟩ := h.file
    exact ⟨md, hm, hf⟩, h.stored, h.fits, h.clean, h.mode, ⟨h.good.major, h.good.minor, h.good.dbType⟩, h.oldNum, h.oldEff, fun _ => rfl⟩
    h.file h.disk s.pos
  have e1 : d.discardStorage.cfg = s.cfg := h.cfg
  have e2 : d.discardStorage.inOrder = s.inOrder := h.inOrder
  rw [e1, e2] at this
  exact this

theorem loadMetadata_valid {F : Bytes} {c : Cfg} {m : Meta} {same : Bool} (h : loadMetadata F = some (c, m, same)) : c.Valid := by
  unfold loadMetadata at h
  split at h
  · cases h
  · split at h
    · cases h
    · split at h
      · cases h
      · split at h
        · cases h
        · split at h
          · cases h
          · split at h
            · cases h
            · cases h
              constructor <;> omega

/-- MergeSkipDatabase. -/
theorem merge_inv {d : Db} {s : S} (h : Inv d s) {src : Bytes} {l : Recs} (hl : Holds src l) (hc : ∀ r ∈ l, r.2 ≠ removingValue) :
    ∃ d', d.mergeSkip src = .ok (d', Out.of .success) ∧ Inv d' { s with sources := s.sources ++ [l] } ∧ d'.cfg = d.cfg := by
  obtain ⟨c, m, same, md, hload, hm, himg, hfit, hs⟩ := hl
  obtain ⟨t, ht, hts, hta, hto⟩ := h.sorter
  unfold Db.mergeSkip
  rw [hload, ht]
  refine ⟨_, rfl, ?_, rfl⟩
  exact { h with
    cleanSrc := by
      intro x hx
      rcases List.mem_append.mp hx with hx | hx
      · exact h.cleanSrc x hx
      · rw [List.mem_singleton.mp hx]; exact hc
    sorter := ⟨_, rfl, hts.append (SourcesOk.one ⟨(loadMetadata_valid hload).ok, ⟨md, hm, himg⟩, hfit, hs⟩), ⟨hta.runs, hta.values⟩, hto⟩
    updated := by intro hu; cases hu }

theorem SortedRecs.snoc {l : Recs} (h : SortedRecs l) {k v : Bytes} (hk : ∀ r ∈ l, bytesLt k r.1 = false) : SortedRecs (l ++ [(k, v)]) := by
  refine List.pairwise_append.mpr ⟨h, List.pairwise_singleton _ _, ?_⟩
  intro a ha b hb
  rw [List.mem_singleton.mp hb]
  exact hk a ha

/-- Keeping an update aside. -/
theorem keep_inv {d : Db} {s : S} (h : Inv d s) (key : Bytes) (u : Option Bytes) (hu : u ≠ some removingValue)
    (hrem : u = none → d.removed = true ∧ s.inOrder = false)
    (hord : s.inOrder = true → ∀ r ∈ s.pending, bytesLt key r.1 = false) :
    ∃ d', d.keepAside key (u.getD removingValue) = .ok d' ∧ Inv d' { s with pending := s.pending ++ [(key, u)] } ∧ d'.cfg = d.cfg ∧ d'.file = d.file := by
  obtain ⟨t, ht, hts, hta, hto⟩ := h.sorter
  have hpend : S.pend { s with pending := s.pending ++ [(key, u)] } = s.pend ++ [(key, u.getD removingValue)] := by simp [S.pend]
  have hclean : ∀ r ∈ s.pending ++ [(key, u)], r.2 ≠ some removingValue := by
    intro r hr
    rcases List.mem_append.mp hr with hr | hr
    · exact h.cleanPend r hr
    · rw [List.mem_singleton.mp hr]; exact hu
  have hremoved : d.removed = false → ∀ r ∈ s.pending ++ [(key, u)], r.2 ≠ none := by
    intro hd r hr
    rcases List.mem_append.mp hr with hr | hr
    · exact h.removed hd r hr
    · rw [List.mem_singleton.mp hr]
      intro e
      rw [(hrem e).1] at hd
      cases hd
  have hsd := h.sorted
  unfold Db.keepAside
  rcases Bool.eq_false_or_eq_true s.inOrder with ho | ho
  rotate_left
  · rw [ho] at hsd hta
    simp only [Bool.false_eq_true, if_false] at hsd hta
    rw [hsd, ht]
    have ha := add_aside hta key (u.getD removingValue)
    refine ⟨_, rfl, ?_, rfl, rfl⟩
    exact { h with
      cleanPend := hclean
      num := by have := h.num; rw [ho] at this; simpa [ho] using this
      eff := by have := h.eff; rw [ho] at this; simpa [ho] using this
      sorter := ⟨_, rfl, by rw [ha.2]; exact hts, by rw [hpend]; simpa [ho] using ha.1, by simp [ho]⟩
      sorted := by simpa [ho] using hsd
      ordered := by simp [ho]
      removed := hremoved
      updated := by intro hu; cases hu }
  · rw [ho] at hsd
    simp only [if_true] at hsd
    obtain ⟨W, hW, hWok⟩ := hsd
    have hc := h.valid.ok
    have hstep : 0 < d.cfg.step := by have := hc.step; omega
    rw [hW]
    refine ⟨_, rfl, ?_, rfl, rfl⟩
    exact { h with
      cleanPend := hclean
      good := ⟨h.good.major, h.good.minor, h.good.dbType⟩
      num := by have := h.num; rw [ho] at this; simp [ho] at this ⊢; omega
      eff := by have := h.eff; rw [ho] at this; rw [hpend, effOf_append]; simp [ho, effOf] at this ⊢; omega
      sorter := ⟨t, ht, hts, by simpa [ho] using hta, hto⟩
      sorted := by rw [hpend]; simpa [ho] using write_spec hc.w hstep zeroMeta_length hWok key (u.getD removingValue)
      ordered := by
        intro _
        rw [hpend]
        refine ⟨(h.ordered ho).1.snoc ?_, ?_⟩
        · intro r hr
          simp only [S.pend, List.mem_map] at hr
          obtain ⟨a, ha, rfl⟩ := hr
          exact hord ho a ha
        · intro r hr
          rcases List.mem_append.mp hr with hr | hr
          · exact (h.ordered ho).2 r hr
          · rw [List.mem_singleton.mp hr]
            intro e
            have := (hrem e).2
            rw [ho] at this
            cases this
      removed := hremoved
      updated := by intro hu; cases hu }

/-- UpdateRecord. -/
theorem update_inv {d : Db} {s : S} (h : Inv d s) (key : Bytes) (a : Action) (ha : s.UpdOk key a) :
    ∃ d', d.updateRecord key a = .ok d' ∧ Inv d' (s.act key a) ∧ d'.cfg = d.cfg ∧ d'.file = d.file := by
  cases a with
  | noop => exact ⟨d, rfl, h, rfl, rfl⟩
  | remove =>
    have ho : s.inOrder = false := ha
    have h' : Inv { d with removed := true } s := { h with removed := by intro hr; cases hr }
    obtain ⟨d', e, hi, e1, e2⟩ := keep_inv h' key none (by simp) (fun _ => ⟨rfl, ho⟩) (by intro hx; rw [ho] at hx; cases hx)
    exact ⟨d', e, hi, e1, e2⟩
  | set v =>
    have hv : v ≠ removingValue := ha.1
    obtain ⟨d', e, hi, e1, e2⟩ := keep_inv h key (some v) (by simpa using hv) (by intro hx; cases hx) ha.2
    exact ⟨d', e, hi, e1, e2⟩

theorem act_stored (s : S) (key : Bytes) (a : Action) : (s.act key a).stored = s.stored ∧ (s.act key a).pos = s.pos ∧ (s.act key a).cfg = s.cfg ∧
    (s.act key a).inOrder = s.inOrder ∧ (s.act key a).sources = s.sources := by
  cases a <;> exact ⟨rfl, rfl, rfl, rfl, rfl⟩

theorem actEach_stored (proc : Bytes → Bytes → Action) : ∀ (l : Recs) (s : S), (s.actEach proc l).stored = s.stored ∧ (s.actEach proc l).pos = s.pos
  | [], s => ⟨rfl, rfl⟩
  | r :: l, s => by
    have := actEach_stored proc l (s.act r.1 (proc r.1 r.2))
    have h2 := act_stored s r.1 (proc r.1 r.2)
    rw [h2.1, h2.2.1] at this
    exact this

theorem updateEach_inv (proc : Bytes → Bytes → Action) : ∀ (l : Recs) {d : Db} {s : S}, Inv d s → S.UpdEachOk proc s l →
    ∃ d', d.updateEach proc l = .ok d' ∧ Inv d' (s.actEach proc l) ∧ d'.cfg = d.cfg ∧ d'.file = d.file
  | [], d, s, h, _ => ⟨d, rfl, h, rfl, rfl⟩
  | r :: l, d, s, h, hok => by
    obtain ⟨d1, e1, h1, c1, f1⟩ := update_inv h r.1 (proc r.1 r.2) hok.1
    obtain ⟨d2, e2, h2, c2, f2⟩ := updateEach_inv proc l h1 hok.2
    refine ⟨d2, ?_, h2, by rw [c2, c1], by rw [f2, f1]⟩
    rw [Db.updateEach, e1, Rd.bind_ok, e2]

theorem setAll_inv : ∀ (l : Recs) {d : Db} {s : S}, Inv d s → (∀ r ∈ l, r.2 ≠ removingValue) → SortedRecs (s.pend ++ l) →
    ∃ d', d.setAll l = .ok d' ∧ Inv d' { s with pending := s.pending ++ l.map fun (r : Bytes × Bytes) => (r.1, some r.2) } ∧ d'.cfg = d.cfg ∧ d'.md.closure = d.md.closure
      ∧ d'.md.dbType = d.md.dbType ∧ d'.md.extra = d.md.extra
  | [], d, s, h, _, _ => ⟨d, rfl, by simpa using h, rfl, rfl, rfl, rfl⟩
  | r :: l, d, s, h, hc, hs => by
    have hk : ∀ q ∈ s.pending, bytesLt r.1 q.1 = false := by
      intro q hq
      have := (List.pairwise_append.mp hs).2.2 (q.1, q.2.getD removingValue) (List.mem_map.mpr ⟨q, hq, rfl⟩) r (by simp)
      exact this
    obtain ⟨d1, e1, h1, c1, f1⟩ := update_inv h r.1 (.set r.2) ⟨hc r (by simp), fun _ => hk⟩
    have hm : d1.md.closure = d.md.closure ∧ d1.md.dbType = d.md.dbType ∧ d1.md.extra = d.md.extra := by
      simp only [Db.updateRecord, Db.keepAside] at e1
      split at e1
      · split at e1
        · cases e1
        · cases e1; exact ⟨rfl, rfl, rfl⟩
      · cases e1; exact ⟨rfl, rfl, rfl⟩
    have hp1 : (s.act r.1 (.set r.2)).pend = s.pend ++ [(r.1, r.2)] := by simp [S.act, S.pend]
    obtain ⟨d2, e2, h2, c2, m2, m3, m4⟩ := setAll_inv l h1 (fun q hq => hc q (List.mem_cons_of_mem _ hq)) (by rw [hp1]; simpa using hs)
    refine ⟨d2, ?_, ?_, by rw [c2, c1], by rw [m2, hm.1], by rw [m3, hm.2.1], by rw [m4, hm.2.2]⟩
    · rw [Db.setAll, e1, Rd.bind_ok, e2]
    · have : { s with pending := s.pending ++ (r :: l).map fun (r : Bytes × Bytes) => (r.1, some r.2) } =
          { s.act r.1 (.set r.2) with pending := (s.act r.1 (.set r.2)).pending ++ l.map fun (r : Bytes × Bytes) => (r.1, some r.2) } := by
        simp [S.act]
      rw [this]
      exact h2

/-- A file as Close leaves it. -/
structure Closed (c : Cfg) (m : Meta) (recs : Recs) (F : Bytes) : Prop where
  file : F = image c (encodeMeta c m true) recs
  good : m.Good
  num : m.num = recs.length
  eff : m.eff = effOf recs
  size : m.fileSize = F.length

/-- Close. -/
theorem close_ok {d : Db} {s : S} (h : Inv d s) (hp : s.PendFits) (now : Nat) :
    ∃ new m F, Synced s none new ∧ d.close now = .ok F ∧ Closed d.cfg m new F ∧ m.closure = d.md.closure ∧ m.dbType = d.md.dbType ∧
      m.extra = d.md.extra := by
  unfold Db.close
  rw [h.mode.1, h.mode.2]
  simp only [Bool.and_self, if_true]
  cases hu : d.updated with
  | true =>
    obtain ⟨new, d1, hn, e1, hf⟩ := finish_ok h hp now none
    refine ⟨new, d1.md, d1.file, hn, ?_, ⟨hf.file, hf.good, hf.num, hf.eff, hf.size⟩, hf.closure, hf.user.1, hf.user.2⟩
    simp [e1, Rd.bind_ok, Rd.pure_eq]
  | false =>
    obtain ⟨h1, h2⟩ := h.updated hu
    obtain ⟨md, hm, hf, _⟩ := h.file
    refine ⟨s.stored, { d.md with num := d.oldNum, eff := d.oldEff, fileSize := d.file.length, timestamp := now, cyclic := d.md.cyclic + 1 },
      _, valuesOf_self_synced h1 h2 h.stored, rfl, ⟨?_, ⟨h.good.major, h.good.minor, h.good.dbType⟩, h.oldNum, h.oldEff, ?_⟩, rfl, rfl, rfl⟩
    · simp only [Db.discarded, Db.saveMetadata, Db.discardStorage, hf]
      rw [overwrite_image _ hm (encodeMeta_length _ _ _)]
    · simp only [Db.discarded, Db.saveMetadata, Db.discardStorage, hf]
      rw [overwrite_image _ hm (encodeMeta_length _ _ _), image_length h.valid.ok.w hm, image_length h.valid.ok.w (encodeMeta_length _ _ _)]

theorem reset_inv {d : Db} {c : Cfg} {b : Bool} {recs : Recs} {pos : Option Nat} (h : Inv d ⟨c, b, recs, [], [], pos⟩) :
    Inv { d with updated := false, removed := false } ⟨c, b, recs, [], [], pos⟩ :=
  { h with removed := by simp, updated := by simp }

/-- The end of Open. -/
theorem openEnd_inv {d : Db} {recs : Recs} (h : Calm d recs) (hsz : d.md.fileSize = offs d.cfg recs recs.length) : Inv d.openEnd ⟨d.cfg, d.inOrder, recs, [], [], none⟩ := by
  unfold Db.openEnd
  rw [h.mode.1, h.mode.2]
  simp only [Bool.and_self, if_true]
  exact reset_inv (start_inv (calm_save h false) (disk_save h hsz false) none)

/-- What opening a file loads. -/
theorem Closed.load {c : Cfg} (hv : c.Valid) {m : Meta} {recs : Recs} {F : Bytes} (h : Closed c m recs F) (hfit : Fits c recs) :
    ∃ m', loadMetadata F = some (c, m', true) ∧ m'.Good ∧ m'.num = recs.length ∧ m'.eff = effOf recs ∧ m'.fileSize = F.length ∧
      m'.closure = (if m.closure % 2 = 1 then 1 else 0) ∧ m'.dbType = m.dbType ∧ m'.extra = storedExtra m ∧ m'.cyclic = m.cyclic % 256 := by
  have hl : F.length = offs c recs recs.length := by rw [h.file, image_length hv.ok.w (encodeMeta_length _ _ _)]
  obtain ⟨s1, s2, s3⟩ := hfit.small hv
  have h128 := offs_pos c recs recs.length
  obtain ⟨m', el, r1, r2, r3, r4, r5, r6, r7, r8, r9⟩ := loadMetadata_encode hv h.good (by rw [h.num]; exact s1) (by rw [h.eff]; exact s2)
    (by rw [h.size, hl]; exact s3) (by rw [h.size, hl]; simp [metadataSize]; omega) true (blocks c (link c recs) recs).flatten
  refine ⟨m', by rw [h.file]; exact el, ⟨by rw [r1]; exact h.good.major, by rw [r2]; exact h.good.minor, by rw [r7]; exact h.good.dbType⟩,
    by rw [r4, h.num], by rw [r5, h.eff], by rw [r6, h.size], by simpa using r3, r7, r8, r9⟩

theorem opened_calm {p : Params} {ar : Bool} {c : Cfg} (hv : c.Valid) {m : Meta} (hg : m.Good) {recs : Recs} {md : Bytes} (hm : md.length = metadataSize)
    (hs : SortedRecs recs) (hfit : Fits c recs) (hc : ∀ r ∈ recs, r.2 ≠ removingValue) (hn : m.num = recs.length) (he : m.eff = effOf recs) :
    Calm (Db.opened p ar c m (image c md recs)) recs :=
  ⟨hv, ⟨md, hm, rfl⟩, hs, hfit, hc, ⟨rfl, rfl⟩, hg, hn, he, fun _ => rfl⟩

/-- Open of a file as Close leaves it. -/
theorem open_ok {c : Cfg} (hv : c.Valid) {m : Meta} {recs : Recs} {F : Bytes} (h : Closed c m recs F) (hfit : Fits c recs) (hs : SortedRecs recs)
    (hc : ∀ r ∈ recs, r.2 ≠ removingValue) (p : Params) (now : Nat) :
    ∃ d, Db.openFile p F now = .ok d ∧ Inv d ⟨c, p.inOrder, recs, [], [], none⟩ ∧ d.autoRestored = decide (m.closure % 2 = 0) ∧
      d.md.closure = 1 ∧ d.md.dbType = m.dbType ∧ d.md.extra = storedExtra m := by
  obtain ⟨m', el, hg, hn, he, hsz, hcl, hty, hex, _⟩ := h.load hv hfit
  have hl : F.length = offs c recs recs.length := by rw [h.file, image_length hv.ok.w (encodeMeta_length _ _ _)]
  have h128 := offs_pos c recs recs.length
  unfold Db.openFile Db.openBase
  rw [if_neg (by omega), el]
  simp only
  rw [if_pos ⟨trivial, hsz⟩, Rd.bind_ok, Rd.pure_eq]
  refine ⟨_, rfl, ?_, ?_, ?_⟩
  · rw [h.file]
    exact openEnd_inv (opened_calm (p := p) hv (m := { m' with closure := 1 }) ⟨hg.major, hg.minor, hg.dbType⟩ (encodeMeta_length _ _ _) hs hfit hc hn he) (hsz.trans hl)
  · cases hio : p.inOrder <;>
    · simp only [Db.openEnd, Db.opened, Db.saveMetadata, Db.prepareStorage, Db.newCache, hcl, Bool.and_self, if_true, hio, Bool.false_eq_true, if_false]
      by_cases hx : m.closure % 2 = 1
      · simp [hx]
      · have : m.closure % 2 = 0 := by omega
        simp [this]
  · cases hio : p.inOrder <;>
    · simp only [Db.openEnd, Db.opened, Db.saveMetadata, Db.prepareStorage, Db.newCache, Bool.and_self, if_true, hio, Bool.false_eq_true, if_false]
      exact ⟨trivial, hty, hex⟩

/-- Open of a new file. -/
theorem create_ok {p : Params} (hv : p.cfg.Valid) (now : Nat) :
    ∃ d, Db.create p now = .ok d ∧ Inv d ⟨p.cfg, p.inOrder, [], [], [], none⟩ ∧ d.cfg = p.cfg ∧ d.md.closure = 1 ∧ d.autoRestored = false ∧ d.updated = false := by
  unfold Db.create
  simp only [Db.saveMetadata]
  have hov : overwrite zeroMeta 0 (encodeMeta p.cfg { newMeta now with cyclic := (newMeta now).cyclic + 1 } true) =
      encodeMeta p.cfg { newMeta now with cyclic := (newMeta now).cyclic + 1 } true := by
    have := overwrite_image p.cfg zeroMeta_length (encodeMeta_length p.cfg { newMeta now with cyclic := (newMeta now).cyclic + 1 } true) []
    rwa [image_nil, image_nil] at this
  simp only [Db.opened] at hov ⊢
  rw [hov]
  obtain ⟨m', el, r1, r2, r3, r4, r5, r6, r7, r8, r9⟩ := loadMetadata_encode (m := { newMeta now with cyclic := (newMeta now).cyclic + 1 }) hv
    ⟨by simp [newMeta], by simp [newMeta], by simp [newMeta]⟩ (by simp [newMeta]) (by simp [newMeta]) (by simp [newMeta, metadataSize])
    (by simp [newMeta]) true []
  rw [List.append_nil] at el
  rw [el]
  refine ⟨_, rfl, ?_, ?_⟩
  · have := openEnd_inv (opened_calm (p := p) (ar := false) hv (m := m') ⟨by rw [r1]; simp [newMeta], by rw [r2]; simp [newMeta], by rw [r7]; simp [newMeta]⟩
      (md := encodeMeta p.cfg { newMeta now with cyclic := (newMeta now).cyclic + 1 } true) (recs := []) (encodeMeta_length _ _ _) List.Pairwise.nil (Fits.nil _ hv) (by simp) (by simp [r4, newMeta]) (by simp [r5, newMeta, effOf])) (by simp [Db.opened, r6, newMeta, Skip.offs])
    rw [image_nil] at this
    exact this
  · have hcl : m'.closure = 1 := by simpa [newMeta] using r3
    cases hio : p.inOrder <;>
    · simp [Db.openEnd, Db.saveMetadata, Db.prepareStorage, Db.newCache, hcl]

theorem pend_map : ∀ (l : Recs), (l.map fun (r : Bytes × Bytes) => (r.1, some r.2)).map (fun r => (r.1, r.2.getD removingValue)) = l
  | [] => rfl
  | r :: l => by
    rw [List.map_cons, List.map_cons, pend_map l]
    rfl

/-- Writing records into a new in-order database and closing it. -/
theorem write_all_ok {c' : Cfg} (hv : c'.Valid) {l : Recs} (hs : SortedRecs l) (hc : ∀ r ∈ l, r.2 ≠ removingValue) (hfit : Fits c' l) {tmp : Db}
    (hi : Inv tmp ⟨c', true, [], [], [], none⟩) (hcl : tmp.md.closure = 1) (now : Nat) :
    ∃ tmp' F m, tmp.setAll l = .ok tmp' ∧ tmp'.close now = .ok F ∧ Closed c' m l F ∧ m.closure = 1 ∧ m.dbType = tmp.md.dbType ∧ m.extra = tmp.md.extra := by
  obtain ⟨tmp', e2, hi2, hcfg2, hcl2, hty2, hex2⟩ := setAll_inv l hi hc (by simpa [S.pend] using hs)
  have hpend : S.pend ⟨c', true, [], [], l.map (fun r => (r.1, some r.2)), none⟩ = l := pend_map l
  simp only [List.nil_append] at hi2
  obtain ⟨new, m, F, hsy, ec, hclosed, hmc, hmt, hme⟩ := close_ok hi2 (fun _ => by rw [hpend]; exact hfit) now
  have := synced_unique hsy (synced_pend hi2 rfl rfl rfl)
  rw [hpend] at this
  subst this
  rw [hi2.cfg] at hclosed
  exact ⟨tmp', F, m, e2, ec, hclosed, by rw [hmc, hcl2, hcl], by rw [hmt, hty2], by rw [hme, hex2]⟩

/-- Rebuild. -/
theorem rebuild_inv {d : Db} {s : S} (h : Inv d s) (hp : s.PendFits) (now : Nat) {c' : Cfg} (hv : c'.Valid)
    (hfit : ∀ new, Synced s none new → Fits s.cfg new ∧ Fits c' new) :
    ∃ new d', Synced s none new ∧ d.rebuild now c' = .ok d' ∧ Inv d' ⟨c', s.inOrder, new, [], [], none⟩ := by
  have key : ∃ new d1, Synced s none new ∧ d.flushed now = Rd.ok d1 ∧ Calm d1 new ∧ d1.inOrder = s.inOrder := by
    cases hu : d.updated with
    | true =>
      obtain ⟨new, d1, hn, e1, hf⟩ := finish_ok h hp now none
      have hc := calm_fin h hf hn.1 (by rw [h.cfg]; exact (hfit new hn).1) (synced_clean h (by intro f hf; cases hf) hn)
      exact ⟨new, d1, hn, by simpa [Db.flushed, hu] using e1, hc, by rw [hf.inOrder, h.inOrder]⟩
    | false =>
      obtain ⟨h1, h2⟩ := h.updated hu
      obtain ⟨md, hm, hf, _⟩ := h.file
      refine ⟨s.stored, d, valuesOf_self_synced h1 h2 h.stored, by simp [Db.flushed, hu], ⟨h.valid, ⟨md, hm, hf⟩, h.stored, h.fits, h.clean, h.mode, h.good, ?_, ?_, ?_⟩, h.inOrder⟩
      · rw [h.num, h1]; simp
      · rw [h.eff]; simp [S.pend, h1, effOf]
      · intro ho
        have hsd := h.sorted
        rw [← h.inOrder, ho] at hsd
        simpa using hsd
  obtain ⟨new, d1, hn, e1, hcalm, hio⟩ := key
  obtain ⟨md, hm, hfile⟩ := hcalm.file
  unfold Db.rebuild Db.rebuilt
  rw [e1, Rd.bind_ok]
  obtain ⟨tmp, et, hi, _, hcl, _, _⟩ := create_ok (p := ⟨c', 2 ^ 28, true, 2 ^ 16⟩) hv now
  rw [et, Rd.bind_ok, hfile, scan_image hcalm.valid.ok hm hcalm.fits, Rd.bind_ok]
  obtain ⟨tmp', F, m, e2, e3, hclosed, hmc, _, _⟩ := write_all_ok hv hn.1 hcalm.clean (hfit new hn).2 hi hcl now
  rw [e2, Rd.bind_ok, e3, Rd.bind_ok]
  obtain ⟨m', el, hg, hnum, heff, hsz, hcl', hty, hex, _⟩ := hclosed.load hv (hfit new hn).2
  rw [el]
  refine ⟨new, _, hn, rfl, ?_⟩
  rw [← hio]
  have hcf : Calm { d1 with cfg := c', md := { m' with dbType := d1.md.dbType, extra := d1.md.extra, fileSize := F.length }, file := F } new :=
    ⟨hv, ⟨_, encodeMeta_length _ _ _, hclosed.file⟩, hn.1, (hfit new hn).2, hcalm.clean, hcalm.mode, ⟨hg.major, hg.minor, hcalm.good.dbType⟩, hnum, heff, hcalm.sorted⟩
  have hl : F.length = offs c' new new.length := by rw [hclosed.file, image_length hv.ok.w (encodeMeta_length _ _ _)]
  have := start_inv (calm_save hcf false) (disk_save hcf hl false) none
  exact this

end Verif.Skip
