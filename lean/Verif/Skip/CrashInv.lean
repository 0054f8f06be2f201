import Verif.Skip.Crash
import Verif.Skip.Keep
/-
Every file which a process may leave behind is one which can be opened.
-/
namespace Verif.Skip
open Verif

/-- SPECIFICATION: the records which may be found after a process has died in a call: those before the call or those
after it. Clear first puts the pending updates into the file. -/
def Survives (s : S) (op : Op) (recs : Recs) : Prop :=
  recs = s.stored ∨ (∃ s' o, Spec s op s' o ∧ recs = s'.stored) ∨ (∃ now, op = .clear now ∧ Synced s none recs)

/-- Whether zeros may follow the file while the call goes on. -/
def Op.tail : Op → Bool
  | .clear _ => false
  | _ => true

/-- The files during a call are as they should be. -/
def MomentsOk (d : Db) (s : S) (op : Op) (l : List Bytes) : Prop :=
  l.head? = some d.file ∧ (∀ it d' it' o, step d it op = .ok (d', it', o) → l.getLast? = some d'.file) ∧
    ∀ X ∈ l, ∃ recs c', Survives s op recs ∧ SortedRecs recs ∧ (∀ r ∈ recs, r.2 ≠ removingValue) ∧ Left op.tail c' recs X ∧
      (c' = s.cfg ∨ c' = defaultCfg ∨ ∃ now, op = .rebuild now c')

theorem inv_left {d : Db} {s : S} (h : Inv d s) : Left true s.cfg s.stored d.file := by
  obtain ⟨m, fin, hm, _, hf⟩ := h.disk
  have := left_whole h.valid h.fits hm fin
  rwa [← hf, h.cfg] at this

theorem torn_full {F b : Bytes} (hb : b.length = metadataSize) : torn (overwrite F 0 b) F metadataSize = overwrite F 0 b := by
  unfold torn overwrite
  rw [List.take_zero, List.nil_append, Nat.zero_add, hb, List.take_left' hb]

theorem saving_last (d : Db) (fin : Bool) : (d.saving fin).getLast? = some (d.saveMetadata d.file fin).2 := by
  unfold Db.saving
  rw [List.range_succ, List.map_append, List.map_singleton, List.getLast?_append]
  simp only [List.getLast?_singleton, Option.or]
  rw [show (d.saveMetadata d.file fin).2 = overwrite d.file 0 (encodeMeta d.cfg { d.md with cyclic := d.md.cyclic + 1 } fin) from rfl,
    torn_full (encodeMeta_length _ _ _)]

theorem saving_head (d : Db) (fin : Bool) : (d.saving fin).head? = some d.file := by
  unfold Db.saving
  rw [List.range_succ_eq_map, List.map_cons, List.head?_cons]
  simp [torn]

theorem saving_cons (d : Db) (fin : Bool) (a : Bytes) : (a :: d.saving fin).getLast? = some (d.saveMetadata d.file fin).2 := by
  rw [List.getLast?_cons, saving_last]
  rfl

theorem fin_header {d d' : Db} {new : Recs} (hv : d.cfg.Valid) (hf : Fin d d' new) : Header d'.cfg d'.md new :=
  ⟨hf.good, hf.num, hf.eff, by rw [hf.size, hf.file, hf.cfg, image_length hv.ok.w (encodeMeta_length _ _ _)]⟩

theorem newCache_file (d : Db) : d.prepareStorage.newCache.file = d.file := by
  unfold Db.prepareStorage Db.newCache
  simp only
  split <;> rfl

/-- Synchronize. -/
theorem moments_sync {d : Db} {s : S} (h : Inv d s) (now : Nat) (reducer : Option Reducer) (ha : Allowed s (.sync now reducer)) :
    ∃ l, d.moments (.sync now reducer) = .ok l ∧ MomentsOk d s (.sync now reducer) l := by
  obtain ⟨hp, hr, hfit⟩ := ha
  obtain ⟨new, d1, hn, e1, hf⟩ := finish_ok h hp now reducer
  have hh := fin_header h.valid hf
  have hv : d1.cfg.Valid := by rw [hf.cfg]; exact h.valid
  have hft : Fits d1.cfg new := by rw [hf.cfg, h.cfg]; exact hfit new hn
  have hcl := synced_clean h hr hn
  have hsv := saving_left hv hft hh (f0 := true) (by rw [hf.file, hf.cfg]) hh rfl false
  refine ⟨d.file :: d1.saving false, by simp only [Db.moments, e1, Rd.bind_ok, Rd.pure_eq], rfl, ?_, ?_⟩
  · intro it d' it' o hst
    simp only [step, Db.synchronize, e1, Rd.bind_ok, Rd.pure_eq, Rd.ok.injEq, Prod.mk.injEq] at hst
    rw [← hst.1, newCache_file, saving_cons]
  · intro X hX
    rcases List.mem_cons.1 hX with rfl | hX
    · exact ⟨s.stored, s.cfg, Or.inl rfl, h.stored, h.clean, inv_left h, Or.inl rfl⟩
    · refine ⟨new, s.cfg, Or.inr (Or.inl ⟨⟨s.cfg, s.inOrder, new, [], [], none⟩, _, ⟨hn, rfl, rfl⟩, rfl⟩), hn.1, hcl, ?_, Or.inl rfl⟩
      have := hsv X hX
      rwa [hf.cfg, h.cfg] at this

/-- The first part of Clear and Rebuild. -/
theorem flushed_ok {d : Db} {s : S} (h : Inv d s) (hp : s.PendFits) (now : Nat) (hfit : ∀ new, Synced s none new → Fits s.cfg new) :
    ∃ new d1 m fin, Synced s none new ∧ d.flushed now = .ok d1 ∧ d1.cfg = s.cfg ∧ d1.updated = false ∧ Header d1.cfg m new ∧
      d1.file = image d1.cfg (encodeMeta d1.cfg m fin) new ∧ m.cyclic % 256 = d1.md.cyclic % 256 ∧ d1.md.Good ∧
      (∀ r ∈ new, r.2 ≠ removingValue) ∧ Fits d1.cfg new := by
  cases hu : d.updated with
  | true =>
    obtain ⟨new, d1, hn, e1, hf⟩ := finish_ok h hp now none
    have hc : d1.cfg = s.cfg := by rw [hf.cfg, h.cfg]
    exact ⟨new, d1, d1.md, true, hn, by simpa [Db.flushed, hu] using e1, hc, hf.clear.2.2, fin_header h.valid hf, by rw [hf.file, hf.cfg], rfl,
      hf.good, synced_clean h (by intro f hf; cases hf) hn, by rw [hc]; exact hfit new hn⟩
  | false =>
    obtain ⟨h1, h2⟩ := h.updated hu
    obtain ⟨m, fin, hm, hcy, hf⟩ := h.disk
    exact ⟨s.stored, d, m, fin, valuesOf_self_synced h1 h2 h.stored, by simp [Db.flushed, hu], h.cfg, hu, hm, hf, hcy, h.good, h.clean, h.fits⟩

/-- Rebuild. -/
theorem moments_rebuild {d : Db} {s : S} (h : Inv d s) (now : Nat) (c' : Cfg) (ha : Allowed s (.rebuild now c')) :
    ∃ l, d.moments (.rebuild now c') = .ok l ∧ MomentsOk d s (.rebuild now c') l := by
  obtain ⟨hp, hv, hfit⟩ := ha
  obtain ⟨new, d1, m, fin, hn, e1, hcfg, hu, hm, hfile, hcy, hg, hcl, hft⟩ := flushed_ok h hp now (fun new hn => (hfit new hn).1)
  have hv1 : d1.cfg.Valid := by rw [hcfg, ← h.cfg]; exact h.valid
  have hft' := (hfit new hn).2
  obtain ⟨tmp, et, hi, _, hc1, _, _⟩ := create_ok (p := ⟨c', 2 ^ 28, true, 2 ^ 16⟩) hv now
  obtain ⟨tmp', F, m1, e2, e3, hclosed, hmc, _, _⟩ := write_all_ok hv hn.1 hcl hft' hi hc1 now
  obtain ⟨m', el, hg', hnum, heff, hsz, hcl', hty, hex, hcyc⟩ := hclosed.load hv hft'
  have hl : F.length = offs c' new new.length := by rw [hclosed.file, image_length hv.ok.w (encodeMeta_length _ _ _)]
  have e4 : d1.rebuilt now c' = .ok { d1 with cfg := c', md := { m' with dbType := d1.md.dbType, extra := d1.md.extra, fileSize := F.length }, file := F } := by
    unfold Db.rebuilt
    rw [et, Rd.bind_ok, hfile, scan_image hv1.ok (encodeMeta_length _ _ _) hft, Rd.bind_ok, e2, Rd.bind_ok, e3, Rd.bind_ok, el]
  have hm0 : Header c' m1 new := ⟨hclosed.good, hclosed.num, hclosed.eff, by rw [hclosed.size, hl]⟩
  have hm2 : Header c' { m' with dbType := d1.md.dbType, extra := d1.md.extra, fileSize := F.length } new :=
    ⟨⟨hg'.major, hg'.minor, hg.dbType⟩, hnum, heff, hl⟩
  have hsv := saving_left (d := { d1 with cfg := c', md := { m' with dbType := d1.md.dbType, extra := d1.md.extra, fileSize := F.length }, file := F })
    hv hft' hm0 (f0 := true) hclosed.file hm2 (by simp only [hcyc]; omega) false
  have hsp : ∀ recs, Synced s none recs → Survives s (.rebuild now c') recs := fun recs hr =>
    Or.inr (Or.inl ⟨⟨c', s.inOrder, recs, [], [], none⟩, _, ⟨hr, rfl, rfl⟩, rfl⟩)
  refine ⟨_, by simp only [Db.moments, e1, e4, Rd.bind_ok, Rd.pure_eq]; rfl, rfl, ?_, ?_⟩
  · intro it d' it' o hst
    simp only [step, Db.rebuild, e1, e4, Rd.bind_ok, Rd.pure_eq, Rd.ok.injEq, Prod.mk.injEq] at hst
    rw [← hst.1, newCache_file, List.getLast?_cons, saving_cons]
    rfl
  · intro X hX
    rcases List.mem_cons.1 hX with rfl | hX
    · exact ⟨s.stored, s.cfg, Or.inl rfl, h.stored, h.clean, inv_left h, Or.inl rfl⟩
    · rcases List.mem_cons.1 hX with rfl | hX
      · refine ⟨new, s.cfg, hsp new hn, hn.1, hcl, ?_, Or.inl rfl⟩
        have := left_whole hv1 hft hm fin
        rwa [← hfile, hcfg] at this
      · exact ⟨new, c', hsp new hn, hn.1, hcl, hsv X hX, Or.inr (Or.inr ⟨now, rfl⟩)⟩

/-- Clear. -/
theorem moments_clear {d : Db} {s : S} (h : Inv d s) (now : Nat) (ha : Allowed s (.clear now)) (hfit : ∀ new, Synced s none new → Fits s.cfg new) :
    ∃ l, d.moments (.clear now) = .ok l ∧ MomentsOk d s (.clear now) l := by
  obtain ⟨new, d1, m, fin, hn, e1, hcfg, hu, hm, hfile, hcy, hg, hcl, hft⟩ := flushed_ok h ha now hfit
  have hv1 : d1.cfg.Valid := by rw [hcfg, ← h.cfg]; exact h.valid
  have hnil : Fits d1.cfg [] := Fits.nil _ hv1
  have htake : d1.file.take metadataSize = encodeMeta d1.cfg m fin := by rw [hfile, image]; exact List.take_left' (encodeMeta_length _ _ _)
  have hov : ∀ b : Bytes, b.length = metadataSize → overwrite (encodeMeta d1.cfg m fin) 0 b = b := by
    intro b hb
    have := overwrite_image d1.cfg (encodeMeta_length d1.cfg m fin) hb []
    rwa [image_nil, image_nil] at this
  have hcf : (d1.cleared now).file = encodeMeta d1.cfg m fin := by
    rw [← htake]
    simp only [Db.cleared, hu, Bool.false_eq_true, if_false]
  have hsave : ((d1.cleared now).saveMetadata (d1.cleared now).file false).2 =
      encodeMeta d1.cfg { d1.md with num := 0, eff := 0, fileSize := metadataSize, timestamp := now, cyclic := d1.md.cyclic + 1 } false := by
    rw [hcf]
    simp only [Db.saveMetadata, Db.cleared, hu, Bool.false_eq_true, if_false]
    exact hov _ (encodeMeta_length _ _ _)
  obtain ⟨s1, s2, s3⟩ := hft.small hv1
  refine ⟨_, by simp only [Db.moments, e1, Rd.bind_ok, Rd.pure_eq]; rfl, rfl, ?_, ?_⟩
  · intro it d' it' o hst
    simp only [step, Db.clear, e1, Rd.bind_ok, Rd.pure_eq] at hst
    simp only [List.getLast?_cons_cons, List.getLast?_singleton]
    generalize hg : (d1.cleared now).saveMetadata (d1.cleared now).file false = sv at *
    obtain ⟨ds, Fs⟩ := sv
    simp only at hst
    split at hst
    · cases hst
    · simp only [Rd.bind_ok, Rd.ok.injEq, Prod.mk.injEq] at hst
      rw [← hst.1, newCache_file]
  · have hafter : Survives s (.clear now) [] := Or.inr (Or.inl ⟨⟨s.cfg, s.inOrder, [], [], [], none⟩, _, ⟨rfl, rfl⟩, rfl⟩)
    intro X hX
    simp only [List.mem_cons, List.not_mem_nil, or_false] at hX
    rcases hX with hX | hX | hX | hX
    · rw [hX]
      exact ⟨s.stored, s.cfg, Or.inl rfl, h.stored, h.clean, (inv_left h).weak, Or.inl rfl⟩
    · refine ⟨new, s.cfg, Or.inr (Or.inr ⟨now, rfl, hn⟩), hn.1, hcl, ?_, Or.inl rfl⟩
      have := left_whole hv1 hft hm fin
      rw [← hfile, hcfg, ← hX] at this
      exact this.weak
    · refine ⟨[], s.cfg, hafter, List.Pairwise.nil, by simp, ?_, Or.inl rfl⟩
      rw [← hcfg, hX, hcf]
      by_cases hne : new = []
      · subst hne
        have := left_whole hv1 hnil hm fin
        rw [image_nil] at this
        exact this.weak
      · refine ⟨hv1, hnil, Or.inr (Or.inr ⟨rfl, rfl, m, fin, hm.good, by rw [hm.num]; exact s1, by rw [hm.eff]; exact s2, by rw [hm.size]; exact s3, ?_, rfl⟩)⟩
        have h0 : 0 < new.length := List.length_pos_iff.2 hne
        have := offs_lt (c := d1.cfg) (recs := new) (i := 0) (j := new.length) h0 h0
        rw [hm.size]
        simpa [offs] using this
    · refine ⟨[], s.cfg, hafter, List.Pairwise.nil, by simp, ?_, Or.inl rfl⟩
      rw [← hcfg, hX, hsave]
      have := left_whole hv1 hnil (m := { d1.md with num := 0, eff := 0, fileSize := metadataSize, timestamp := now, cyclic := d1.md.cyclic + 1 })
        ⟨⟨hg.major, hg.minor, hg.dbType⟩, rfl, rfl, rfl⟩ false
      rw [image_nil] at this
      exact this.weak

/-- Close. -/
theorem closeMoments_ok {d : Db} {s : S} (h : Inv d s) (now : Nat) (hp : s.PendFits) (hfit : ∀ new, Synced s none new → Fits s.cfg new) :
    ∃ l, d.closeMoments now = .ok l ∧ l.head? = some d.file ∧ ∀ X ∈ l, ∃ recs, (recs = s.stored ∨ Synced s none recs) ∧ SortedRecs recs ∧
      (∀ r ∈ recs, r.2 ≠ removingValue) ∧ Left true s.cfg recs X := by
  unfold Db.closeMoments
  cases hu : d.updated with
  | true =>
    obtain ⟨new, m, F, hn, ec, hclosed, _⟩ := close_ok h hp now
    refine ⟨[d.file, F], by simp [ec, Rd.bind_ok, Rd.pure_eq], rfl, ?_⟩
    intro X hX
    simp only [List.mem_cons, List.not_mem_nil, or_false] at hX
    rcases hX with hX | hX
    · rw [hX]
      exact ⟨s.stored, Or.inl rfl, h.stored, h.clean, inv_left h⟩
    · have hft : Fits d.cfg new := by rw [h.cfg]; exact hfit new hn
      have hl : F.length = offs d.cfg new new.length := by rw [hclosed.file, image_length h.valid.ok.w (encodeMeta_length _ _ _)]
      refine ⟨new, Or.inr hn, hn.1, synced_clean h (by intro f hf; cases hf) hn, ?_⟩
      have := left_whole h.valid hft ⟨hclosed.good, hclosed.num, hclosed.eff, by rw [hclosed.size, hl]⟩ true
      rw [← hclosed.file, h.cfg, ← hX] at this
      exact this
  | false =>
    obtain ⟨m, fin, hm, hcy, hf⟩ := h.disk
    have hl : d.file.length = offs d.cfg s.stored s.stored.length := by rw [hf, image_length h.valid.ok.w (encodeMeta_length _ _ _)]
    have hsv := saving_left (d := d.discarded now) h.valid h.fits hm hf ⟨⟨h.good.major, h.good.minor, h.good.dbType⟩, h.oldNum, h.oldEff, hl⟩
      hcy.symm true
    refine ⟨(d.discarded now).saving true, rfl, saving_head _ _, fun X hX => ⟨s.stored, Or.inl rfl, h.stored, h.clean, ?_⟩⟩
    have := hsv X hX
    rwa [show (d.discarded now).cfg = d.cfg from rfl, h.cfg] at this

/-- Close and Open. -/
theorem moments_reopen {d : Db} {s : S} (h : Inv d s) (now : Nat) (p : Params) (now' : Nat) (ha : Allowed s (.reopen now p now'))
    (hdef : ∀ recs, Survives s (.reopen now p now') recs → Fits defaultCfg recs) :
    ∃ l, d.moments (.reopen now p now') = .ok l ∧ MomentsOk d s (.reopen now p now') l := by
  obtain ⟨hp, hfit⟩ := ha
  have hsp : ∀ recs, Synced s none recs → Survives s (.reopen now p now') recs := fun recs hr =>
    Or.inr (Or.inl ⟨⟨s.cfg, p.inOrder, recs, [], [], none⟩, _, ⟨hr, rfl, rfl⟩, rfl⟩)
  obtain ⟨l, e1, hhead, hl1⟩ := closeMoments_ok h now hp hfit
  obtain ⟨new, m, F, hn, ec, hclosed, _⟩ := close_ok h hp now
  have hft : Fits d.cfg new := by rw [h.cfg]; exact hfit new hn
  have hcl := synced_clean h (by intro f hf; cases hf) hn
  have hs : Sound new := ⟨hn.1, hcl, hdef new (hsp new hn)⟩
  have hl : F.length = offs d.cfg new new.length := by rw [hclosed.file, image_length h.valid.ok.w (encodeMeta_length _ _ _)]
  have hleft : Left true d.cfg new F := by
    have := left_whole h.valid hft ⟨hclosed.good, hclosed.num, hclosed.eff, by rw [hclosed.size, hl]⟩ true
    rwa [← hclosed.file] at this
  obtain ⟨d2, l2, c2, eo, hc2, hi2, em, hl2⟩ := left_open hs hleft p now'
  refine ⟨l ++ l2, by simp only [Db.moments, e1, ec, em, Rd.bind_ok, Rd.pure_eq], ?_, ?_, ?_⟩
  · rw [List.head?_append, hhead]
    rfl
  · intro it d' it' o hst
    simp only [step, ec, Rd.bind_ok, Rd.pure_eq, eo, Rd.ok.injEq, Prod.mk.injEq] at hst
    rw [← hst.1]
    have h128 := offs_pos d.cfg new new.length
    unfold Db.openFile at eo
    rw [if_neg (by omega)] at eo
    unfold openMoments at em
    cases hb : Db.openBase p F now' with
    | ok d3 =>
      rw [hb, Rd.bind_ok, Rd.pure_eq, Rd.ok.injEq] at eo em
      rw [← em, ← eo, List.getLast?_append, saving_cons]
      have hmode : d3.writable = true ∧ d3.healthy = true := by
        unfold Db.openBase at hb
        split at hb
        · cases hb
        · split at hb
          · cases hb; exact ⟨rfl, rfl⟩
          · split at hb
            · cases hb; exact ⟨rfl, rfl⟩
            · cases hr : restore F now' with
              | ok F2 =>
                rw [hr, Rd.bind_ok] at hb
                split at hb
                · cases hb
                · cases hb; exact ⟨rfl, rfl⟩
              | broken => rw [hr] at hb; cases hb
              | ub => rw [hr] at hb; cases hb
              | hang => rw [hr] at hb; cases hb
      rw [openEnd_file hmode]
      rfl
    | broken => rw [hb] at eo; cases eo
    | ub => rw [hb] at eo; cases eo
    | hang => rw [hb] at eo; cases eo
  · intro X hX
    rcases List.mem_append.1 hX with hX | hX
    · obtain ⟨recs, h1, h2, h3, h4⟩ := hl1 X hX
      refine ⟨recs, s.cfg, ?_, h2, h3, h4, Or.inl rfl⟩
      rcases h1 with h1 | h1
      · exact Or.inl h1
      · exact hsp recs h1
    · obtain ⟨c'', hc, hlf⟩ := hl2 X hX
      refine ⟨new, c'', hsp new hn, hn.1, hcl, hlf, ?_⟩
      rcases hc with hc | hc
      · exact Or.inl (by rw [hc, h.cfg])
      · exact Or.inr (Or.inl hc)

/-- Every call. -/
theorem moments_ok {d : Db} {s : S} (h : Inv d s) (op : Op) (ha : Allowed s op)
    (hdef : ∀ recs, Survives s op recs → Fits defaultCfg recs) (hclr : ∀ now, op = .clear now → ∀ new, Synced s none new → Fits s.cfg new) :
    ∃ l, d.moments op = .ok l ∧ MomentsOk d s op l := by
  by_cases ht : op.touches = true
  · cases op with
    | clear now => exact moments_clear h now ha (hclr now rfl)
    | sync now reducer => exact moments_sync h now reducer ha
    | rebuild now c' => exact moments_rebuild h now c' ha
    | reopen now p now' => exact moments_reopen h now p now' ha hdef
    | _ => cases ht
  · have hf : op.touches = false := by simpa using ht
    refine ⟨[d.file], ?_, rfl, ?_, ?_⟩
    · cases op <;> first | rfl | cases hf
    · intro it d' it' o hst
      have := step_keeps d it op hf
      rw [hst] at this
      have e : d'.file = d.file := this
      rw [e]
      rfl
    · intro X hX
      rw [List.mem_singleton.1 hX]
      exact ⟨s.stored, s.cfg, Or.inl rfl, h.stored, h.clean, (inv_left h).weak, Or.inl rfl⟩

end Verif.Skip
