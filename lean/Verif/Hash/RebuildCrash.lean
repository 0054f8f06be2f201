import Verif.Hash.CrashProps
import Verif.Hash.RebuildConcProps
/-
C77: HashDBM after a crash during `Rebuild`.

The new database is written to a file of its own, which takes the place of the old file by a renaming: until then a crash leaves the old file, with what
the calls of the other threads have written to it, and from then on the new one.  The renaming is taken to be atomic.
-/
namespace Verif.Hash
open Verif.Codec

variable {e : Env}

/-- The file that takes the place of the old one (tkrzw_dbm_hash.cc 1769-1803): that of the new database, which has been closed. -/
def renamedFile (e : Env) (t : Tune) (sch : Schedule) (d : Db) : Option Bytes :=
  match rebuildCopy e t sch d with
  | none => none
  | some r => closeFile t.stamp { r.new with st := { r.new.st with cfg := { r.new.st.cfg with inPlace := t.cfg.inPlace } } }

/-- What `Rebuild` goes on with is the file that has been renamed. -/
theorem rebuildConc_renamed (t : Tune) (sch : Schedule) (d : Db) {x : Db × List Out} (h : rebuildConc e t sch d = some x) :
    ∃ f y, renamedFile e t sch d = some f ∧ openOld t.cfg.fbpCap f = some y ∧ x.1.st.file = y.1.st.file := by
  unfold rebuildConc at h
  unfold renamedFile
  split at h
  · cases h
  · rename_i r hr
    rw [hr]
    unfold rebuildFinish at h
    dsimp only at h ⊢
    split at h
    · cases h
    · rename_i f hf
      split at h
      · cases h
      · rename_i d1 b ho
        cases h
        exact ⟨f, _, hf, ho, rfl⟩

/-- SPECIFICATION: the files that a crash can leave. `done`: the calls of the other threads that have returned; `cur`: the one that has not;
`new`: the new file has taken the place of the old one. -/
inductive Left (e : Env) (t : Tune) (sch : Schedule) (d : Db) : (new : Bool) → Bytes → (done cur : List Call) → Prop
  | idle (done rest : List Call) (h : sch.calls e d = done ++ rest) : Left e t sch d false (runCalls e (rebuildBegin d).st done).1.file done []
  | inside (done rest : List Call) (a : Call) (n : Nat) (f : Bytes) (h : sch.calls e d = done ++ a :: rest)
      (hf : crashFile e (runCalls e (rebuildBegin d).st done).1 a.key a.writable a.proc n = some f) : Left e t sch d false f done [a]
  | renamed (f : Bytes) (h : renamedFile e t sch d = some f) : Left e t sch d true f (sch.calls e d) []

/-- A series of calls keeps the database one that can be restored. -/
theorem runCalls_ok (he : EnvOk e) (l : List Call) : ∀ {d : Db} {t : LSt}, DbOk e d t → CallsFit t.view l → (runCalls e d.st l).1.Room →
    ∃ t', DbOk e { d with st := (runCalls e d.st l).1 } t' ∧ t'.view = (Dict.calls t.view l).1 := by
  induction l with
  | nil => intro d t h _ _; exact ⟨t, h, rfl⟩
  | cons a l ih =>
    intro d t h hf hr
    simp only [runCalls] at hr ⊢
    have hr0 : d.st.Room := by
      have h1 := process_grow (e := e) d.st a.key a.writable a.proc
      have h2 := runCalls_grow (e := e) l (process e d.st a.key a.writable a.proc).1
      exact room_mono ⟨Nat.le_trans h1.1 h2.1, h2.2.trans h1.2⟩ hr
    have hsim := process_sim he h.inv (by rw [← h.st]; exact hr0) a.key a.writable a.proc hf.1
    rw [← h.st] at hsim
    obtain ⟨h1, h2⟩ := processL_spec he h.inv a.key a.writable a.proc hf.1
    have hv : (processL e t a.key a.writable a.proc).1.view = (t.view.process a.key a.writable a.proc).1 := by rw [h2.view]; rfl
    obtain ⟨t', g1, g2⟩ := ih (d := { d with st := (process e d.st a.key a.writable a.proc).1 }) (t := (processL e t a.key a.writable a.proc).1)
      ⟨⟨by rw [hsim], h2.inv, h.extra⟩, h2.saved h.saved⟩ (by rw [hv]; exact hf.2) hr
    exact ⟨t', g1, by rw [g2, hv]; rfl⟩

/-- A call that only reads writes nothing. -/
theorem crashFile_read (he : EnvOk e) {t : LSt} (h : t.Inv e) (hr : (t.toState e).Room) (k : Bytes) :
    crashFile e (t.toState e) k false Api.getProc 0 = some (t.toState e).file := by
  have hf : ActFits hashFits k (Api.getProc (t.view k)).1 := by cases t.view k <;> simp [Api.getProc, ActFits]
  obtain ⟨m', ws, h1, h2⟩ := plan_spec he h.cfg h.inv k false Api.getProc hf
  have hi : e.hash k t.cfg.nb < t.cfg.nb := he.hash k t.cfg.nb (by have := h.cfg.nb; omega)
  have hpl : plan t.cfg (fileReader t.cfg (render e t.cfg t.pre t.mid t.lay) metaMinReadSize) t.mem k (e.hash k t.cfg.nb) false Api.getProc =
      some (m', ws, (Api.getProc (contents t.lay.recs k)).2) := by
    rw [plan_render he h.cfg h.frame h.inv.base (h.room hr) (Nat.le_refl _) t.mem k hi (h.inv.chainOk hi), h1]
  simp only [crashFile, LSt.toState, hpl, List.take_zero]
  rfl

theorem fwrite_front {f p g : Bytes} (h : fwrite f 0 p = some g) : ∃ r, g = p ++ r := by
  unfold fwrite at h
  split at h
  · cases h; exact ⟨_, rfl⟩
  · cases h

theorem fwrite_keeps {p r g w : Bytes} {off : Nat} (h : fwrite (p ++ r) off w = some g) (ho : p.length ≤ off) : ∃ r', g = p ++ r' := by
  unfold fwrite at h
  split at h
  · cases h
    refine ⟨r.take (off - p.length) ++ (w ++ (p ++ r).drop (off + w.length)), ?_⟩
    rw [List.take_append, List.take_of_length_le ho, List.append_assoc]
  · cases h

/-- A closed file with zeros behind it is opened as one without them. -/
theorem openOld_closed_zeros {t : LSt} (h : t.Inv e) (hr : (t.toState e).Room) {x : Extra} (hx : x.Ok) {stamp : Nat} (hs : stamp < 2 ^ 64)
    {f : Bytes} (hf : closeFile stamp ⟨t.toState e, x⟩ = some f) (z : Nat) :
    (∃ d, ∀ z, loadMetadata (f ++ List.replicate z 0) = some d) ∧ ∀ cap, openOld cap (f ++ List.replicate z 0) = openOld cap f := by
  obtain ⟨n, m, hn, hm, hnl, hfl⟩ := counted_le (c := t.cfg) h.counted
  have hlen := toState_length h
  have h63 : (t.toState e).file.length < 2 ^ 63 := hr.2
  have hbase := recordBase_bounds h.cfg
  have hend : t.lay.end_ t.cfg < 2 ^ 63 := by omega
  have hend2 : recordBase t.cfg ≤ t.lay.end_ t.cfg := by simp only [Lay.end_]; omega
  have hnum : n < 2 ^ 63 := by simp only [Lay.end_] at hend; omega
  have heff : m < 2 ^ 63 := by simp only [Lay.end_] at hend; omega
  have hxs : ({ x.next with stamp := stamp } : Extra).Ok := by
    have := hx.next
    exact ⟨this.cyc, this.major, this.minor, this.version, hs, this.dbType, this.opaq⟩
  obtain ⟨d, hd, hdc, hdx, hdt, hdf, hdn, hde, hdcl⟩ := loadMetadata_meta_all hxs h.cfg true hnum heff hend (by omega)
  obtain ⟨rest, hfr⟩ : ∃ rest, f = metaBytes { x.next with stamp := stamp } t.cfg true n m (t.lay.end_ t.cfg) ++ rest := by
    unfold closeFile at hf
    split at hf
    · cases hf
    · rename_i g hg
      have e1 : (⟨t.toState e, x⟩ : Db).st.mem.num = n := hn
      have e2 : (⟨t.toState e, x⟩ : Db).st.mem.eff = m := hm
      rw [e1, e2] at hg
      simp only [hlen] at hg
      obtain ⟨p, hp⟩ : ∃ p, p = metaBytes { x.next with stamp := stamp } t.cfg true n m (t.lay.end_ t.cfg) := ⟨_, rfl⟩
      have hpl : p.length = 128 := by rw [hp]; exact metaBytes_length _ _ _ _ _ _
      have hg' : fwrite (t.toState e).file 0 p = some g := by rw [hp]; exact hg
      rw [← hp]
      obtain ⟨r, hr⟩ := fwrite_front hg'
      subst hr
      exact fwrite_keeps hf (by rw [hpl]; show 128 ≤ fbpOffset t.cfg; simp only [fbpOffset, recordBaseHeaderSize, fbpSectionSize]; omega)
  have hfl : f.length = t.lay.end_ t.cfg := by
    unfold closeFile at hf
    split at hf
    · cases hf
    · rename_i g hg
      rw [fwrite_length hf, fwrite_length hg, hlen]
  have hdz : ∀ z, loadMetadata (f ++ List.replicate z 0) = some d := fun z => by rw [hfr, List.append_assoc]; exact hd _
  refine ⟨⟨d, hdz⟩, fun cap => ?_⟩
  have h0 := hdz 0
  simp only [List.replicate_zero, List.append_nil] at h0
  have hlz : (f ++ List.replicate z 0).length = t.lay.end_ t.cfg + z := by simp [hfl]
  by_cases hz : z = 0
  · subst hz; simp
  · have n1 : ¬ t.lay.end_ t.cfg = t.lay.end_ t.cfg + z := by omega
    have n2 : ¬ t.lay.end_ t.cfg > t.lay.end_ t.cfg + z := by omega
    have n3 : zeroRegion (f ++ List.replicate z 0) (t.lay.end_ t.cfg) = true := by
      rw [zeroRegion, ← hfl, List.drop_left, List.take_replicate]; simp
    simp only [openOld, hdz, h0, hdt, hdf, hlz, hfl, n1, n2, n3, if_false, if_true, Bool.false_eq_true, take_zeros hfl]

/-- C77 (part): while `Rebuild` is running and other threads make calls of `Process`, the process dies: at any moment of the copying, between two calls
or between two writes of a call, or after the new file has taken the place of the old one.  Opening what is left gives a database in which `Get` of
every key returns what it returns after the calls that had returned, or after these and the one that had not; and if the new file is in place, or the
database was in the in-place mode, or the restoration takes no shortcuts, then the counts are right and all later calls have the results that they have
on a dictionary of these contents.  This is proved for databases in the
appending mode; in the in-place mode, if the file is the new one or no call has been made yet.  Otherwise it is false, see
`C77_hash_rebuild_crash_violated`.  The conditions are those of C07 and C09: the sizes of records and files. -/
theorem C77_hash_rebuild_crash_partial (he : EnvOk e) {tunes : Int → Tune} (ht : ∀ n, (tunes n).Ok) {c : Cfg} (hc : CfgOk c) {x : Extra} (hx : x.Ok)
    {d0 : Db} {healthy : Bool} (h0 : openImpl x c [] = some (d0, healthy)) (ops : List SOp) (hroom : RunRoom e tunes d0 ops)
    (hf : SRunFits Dict.empty ops) {d : Db} (hd : d = (run (step e tunes) d0 ops).1) {tn : Tune} (hn : tn.Ok)
    (sch : Schedule) (hseen : sch.Seen e d) (hcf : CallsFit (run sstep Dict.empty ops).1 (sch.calls e d))
    {s : State} (hs : s = (runCalls e (rebuildBegin d).st (sch.calls e d)).1) (hr : s.Room)
    (hrb : RebuildRoom e tn d.st.cfg.inPlace d.st.file.length { rebuildBegin d with st := s })
    {f : Bytes} {done cur : List Call} {new : Bool} (hleft : Left e tn sch d new f done cur)
    (hmode : d.st.cfg.inPlace = false ∨ done ++ cur = [] ∨ new = true)
    (y : Extra) (stamp cap mr z : Nat) (noShortcuts : Bool) (hy : y.Ok) (hstamp : stamp < 2 ^ 64) (hcap : 1 ≤ cap) (hmr : 48 ≤ mr)
    (hsize : new = true ∨
      (f.length ≤ 2 ^ (8 * d.st.cfg.ow + d.st.cfg.ap) ∧ f.length < 2 ^ 63 ∧ RestoreRoom e y .default f)) :
    ∃ d' dict, openRestore e y stamp cap mr .default noShortcuts (f ++ List.replicate z 0) = some d' ∧
      (dict = (Dict.calls (run sstep Dict.empty ops).1 done).1 ∨ dict = (Dict.calls (run sstep Dict.empty ops).1 (done ++ cur)).1) ∧
      (∀ key, (Api.get (dbImpl e) d' key).2 = match dict key with | some v => (.success, some v) | none => (.notFound, none)) ∧
      d'.st.bad = false ∧
      (new = true ∨ d.st.cfg.inPlace = true ∨ noShortcuts = true → dict.Counted d'.st.mem.num d'.st.mem.eff ∧
        ∀ later : List SOp, RunRoom e tunes d' later → SRunFits dict later →
          (run (step e tunes) d' later).2 = (run sstep dict later).2 ∧ (run (step e tunes) d' later).1.st.bad = false ∧
          (run sstep dict later).1.Counted (run (step e tunes) d' later).1.st.mem.num (run (step e tunes) d' later).1.st.mem.eff) := by
  obtain ⟨_, _, t, h1, h2, h3, _⟩ := session_dictionary he ht hc hx h0 ops hroom hf
  rw [← hd] at h1 h2
  have ev : (run sstep Dict.empty ops).1 = t.view := by rw [← h3]
  rw [ev] at hcf ⊢
  subst hs
  -- a crash before the renaming
  have hbefore : ∀ (done rest : List Call), sch.calls e d = done ++ rest → (d.st.cfg.inPlace = false ∨ done = []) →
      ∃ t', DbOk e { d with st := (runCalls e d.st done).1 } t' ∧ t'.view = (Dict.calls t.view done).1 ∧ (runCalls e d.st done).1.Room ∧
        (d.st.cfg.inPlace = false → runCalls e (rebuildBegin d).st done = runCalls e d.st done) := by
    intro done rest hcalls hm
    rw [hcalls] at hcf hr
    have hcf' := ((callsFit_append _ _ _).1 hcf).1
    have hbeg : d.st.cfg.inPlace = false → rebuildBegin d = d := by
      intro h
      have : ({ d.st.cfg with inPlace := false } : Cfg) = d.st.cfg := by rw [← h]
      simp only [rebuildBegin, this]
    have hr' : (runCalls e d.st done).1.Room := by
      rcases hm with hm | hm
      · rw [hbeg hm, runCalls_append] at hr
        exact room_mono (runCalls_grow _ _) hr
      · rw [hm]; exact h2
    obtain ⟨t', g1, g2⟩ := runCalls_ok he done h1 hcf' hr'
    exact ⟨t', g1, g2, hr', fun h => by rw [hbeg h]⟩
  have hlater : ∀ {d' : Db} {t' : LSt}, DbOk e d' t' → t'.view.Counted d'.st.mem.num d'.st.mem.eff ∧
      ∀ later : List SOp, RunRoom e tunes d' later → SRunFits t'.view later →
        (run (step e tunes) d' later).2 = (run sstep t'.view later).2 ∧ (run (step e tunes) d' later).1.st.bad = false ∧
        (run sstep t'.view later).1.Counted (run (step e tunes) d' later).1.st.mem.num (run (step e tunes) d' later).1.st.mem.eff := by
    intro d' t' o2
    refine ⟨by rw [o2.st]; exact o2.inv.counted, fun later hlr hlf => ?_⟩
    obtain ⟨t'', g1, g2, g3, _⟩ := run_spec he ht later o2 hlr hlf
    refine ⟨by rw [← g2], by rw [g1.st]; exact g1.inv.ok, ?_⟩
    rw [g1.st, show (run sstep t'.view later).1 = t''.view by rw [← g2]]
    exact g1.inv.counted
  have hfin : ∀ {d' : Db} {t' : LSt} {num eff : Int} {P : Prop}, DbOk e (d'.counters num eff) t' → d'.st.Room → (P → d' = d'.counters num eff) →
      (∀ key, (Api.get (dbImpl e) d' key).2 = match t'.view key with | some v => (.success, some v) | none => (.notFound, none)) ∧
      d'.st.bad = false ∧
      (P → t'.view.Counted d'.st.mem.num d'.st.mem.eff ∧ ∀ later : List SOp, RunRoom e tunes d' later → SRunFits t'.view later →
        (run (step e tunes) d' later).2 = (run sstep t'.view later).2 ∧ (run (step e tunes) d' later).1.st.bad = false ∧
        (run sstep t'.view later).1.Counted (run (step e tunes) d' later).1.st.mem.num (run (step e tunes) d' later).1.st.mem.eff) := by
    intro d' t' num eff P o2 o3 o5
    refine ⟨fun key => ?_, ?_, fun h => hlater (by rw [o5 h]; exact o2)⟩
    · rw [← get_counters d' num eff key]
      exact view_get he o2 o3 key
    · have : (d'.counters num eff).st.bad = false := by rw [o2.st]; exact o2.inv.ok
      exact this
  cases hleft with
  | idle done rest hcalls =>
    have hm : d.st.cfg.inPlace = false ∨ done = [] := by
      rcases hmode with h | h | h
      · exact Or.inl h
      · exact Or.inr (by simpa using h)
      · cases h
    obtain ⟨t', g1, g2, g3, g4⟩ := hbefore _ rest hcalls hm
    have hfile : (runCalls e (rebuildBegin d).st done).1.file = (runCalls e d.st done).1.file := by
      rcases hm with h | h
      · rw [g4 h]
      · rw [h]; rfl
    rw [hfile] at hsize ⊢
    obtain ⟨hz1, hz2, hz3⟩ := hsize.resolve_left (by simp)
    have hp : ActFits hashFits [] (Api.getProc (t'.view [])).1 := by cases t'.view [] <;> simp [Api.getProc, ActFits]
    obtain ⟨f, q1, q2⟩ := g1.crash_restore he g3 [] false Api.getProc hp 0
    have q3 := crashFile_read he g1.inv (by rw [← g1.st]; exact g3) []
    rw [← g1.st] at q3
    have hff : f = (runCalls e d.st done).1.file := by rw [q1] at q3; exact Option.some.inj q3
    subst hff
    have hcfg : (runCalls e d.st done).1.cfg = d.st.cfg := (runCalls_grow _ _).2
    obtain ⟨d', t2, num, eff, o1, o2, o3, o4, o5⟩ := q2 y stamp cap mr z noShortcuts hy hstamp hcap hmr (by dsimp only; rw [hcfg]; exact hz1) hz2 hz3
    refine ⟨d', t2.view, o1, Or.inl ?_, hfin o2 o3 fun h => o5 (by
      rcases h with h | h | h
      · cases h
      · exact Or.inl (by dsimp only; rw [hcfg]; exact h)
      · exact Or.inr h)⟩
    rw [← g2]
    rcases o4 with o4 | o4 <;> exact o4
  | inside done rest a n f hcalls hcrash =>
    have hm : d.st.cfg.inPlace = false := by
      rcases hmode with h | h | h
      · exact h
      · simp at h
      · cases h
    obtain ⟨t', g1, g2, g3, g4⟩ := hbefore _ _ hcalls (Or.inl hm)
    rw [g4 hm] at hcrash
    obtain ⟨hz1, hz2, hz3⟩ := hsize.resolve_left (by simp)
    rw [hcalls] at hcf
    have hp := ((callsFit_append _ _ _).1 hcf).2.1
    rw [← g2] at hp
    obtain ⟨f', q1, q2⟩ := g1.crash_restore he g3 a.key a.writable a.proc hp n
    have hff : f' = f := by
      have : some f' = some f := by rw [← q1]; exact hcrash
      exact Option.some.inj this
    subst hff
    have hcfg : (runCalls e d.st done).1.cfg = d.st.cfg := (runCalls_grow _ _).2
    obtain ⟨d', t2, num, eff, o1, o2, o3, o4, o5⟩ := q2 y stamp cap mr z noShortcuts hy hstamp hcap hmr (by dsimp only; rw [hcfg]; exact hz1) hz2 hz3
    refine ⟨d', t2.view, o1, ?_, hfin o2 o3 fun h => o5 (by
      rcases h with h | h | h
      · cases h
      · exact Or.inl (by dsimp only; rw [hcfg]; exact h)
      · exact Or.inr h)⟩
    rw [calls_append, ← g2]
    exact o4
  | renamed f hren =>
    obtain ⟨d1, t1, k1, k2, k3, k4, _, r, t2, k5, k6, k7, k8, k9, k10⟩ := rebuildConc_spec he h1 hn sch hseen hcf hr hrb
    simp only [renamedFile, k5, k6] at hren
    obtain ⟨f', t3, x3, hcl, hop, hre, hx3⟩ := close_open k7 k8 k9 hn.stamp hcap
    have hff : f' = f := by rw [hcl] at hren; exact Option.some.inj hren
    subst hff
    obtain ⟨⟨md, hmd⟩, hzz⟩ := openOld_closed_zeros k7 k8 k9 hn.stamp hcl z
    refine ⟨⟨t3.toState e, x3⟩, t3.view, ?_, Or.inl ?_, ?_⟩
    · simp only [openRestore, hmd, hzz, hop]
    · show contents t3.lay.recs = _
      rw [hre.lay, ← k3, ← k10]; rfl
    · have hok : DbOk e ⟨t3.toState e, x3⟩ t3 := ⟨⟨rfl, hre.inv, hx3⟩, hre.saved⟩
      refine ⟨fun key => view_get he hok ?_ key, hre.inv.ok, fun _ => hlater hok⟩
      have := k8
      unfold State.Room at this ⊢
      have e1 : (t3.toState e).cfg.ow = (t2.toState e).cfg.ow := by show t3.cfg.ow = t2.cfg.ow; rw [hre.cfg]; rfl
      have e2 : (t3.toState e).cfg.ap = (t2.toState e).cfg.ap := by show t3.cfg.ap = t2.cfg.ap; rw [hre.cfg]; rfl
      dsimp only
      rw [hre.len, e1, e2]
      exact this

end Verif.Hash
