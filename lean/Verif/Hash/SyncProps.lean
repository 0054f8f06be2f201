import Verif.Hash.SyncRestore
/-
C66: `RESTORE_SYNC`.
-/
namespace Verif.Hash

variable {e : Env}

/-- SPECIFICATION: the calls on one record, that is all but `Clear` and `Rebuild`. -/
def _root_.Verif.Op.onRecord : Op → Prop
  | .clear => False
  | .rebuild _ => False
  | _ => True

theorem syncAt_step (he : EnvOk e) {tunes : Int → Tune} {d : Db} {t : LSt} (h : DbOk e d t) (hr : d.st.Room) {a : List Rec} (hs : SyncAt t a)
    (op : Op) (ho : op.onRecord) (hf : OpFits hashFits t.view op) :
    ∃ t', DbOk e (step e tunes d (.call op)).1 t' ∧ t'.view = (sstep t.view (.call op)).1 ∧ SyncAt t' a := by
  have P : ∀ {τ : Type} (k : Bytes) (w : Bool) (p : ProcR τ), ActFits hashFits k (p (t.view k)).1 →
      DbOk e ((dbImpl e).process d k w p).1 (processL e t k w p).1 ∧
      (processL e t k w p).1.view = (t.view.process k w p).1 ∧ SyncAt (processL e t k w p).1 a := by
    intro τ k w p hp
    have h1 := dbProcess_ok he h hr k w p hp
    have h2 := processL_spec he h.inv k w p hp
    exact ⟨h1.1, h2.2.view, hs.process he h.inv k w p hp⟩
  cases op with
  | get k =>
    obtain ⟨h1, h2, h3⟩ := P k false Api.getProc (by cases h : t.view k <;> simp [Api.getProc, ActFits])
    refine ⟨_, h1, h2.trans ?_, h3⟩
    simp [sstep, Dict.step, Dict.process]
  | set k v ow =>
    obtain ⟨h1, h2, h3⟩ := P k true (Api.setProc v ow) (by
      cases h : t.view k <;> cases ow <;> simp [Api.setProc, ActFits] <;> exact hf)
    refine ⟨_, h1, h2.trans ?_, h3⟩
    simp only [sstep, Dict.step, Dict.process]
    cases t.view k <;> cases ow <;> simp [Api.setProc, Dict.act]
  | remove k =>
    obtain ⟨h1, h2, h3⟩ := P k true Api.removeProc (by cases h : t.view k <;> simp [Api.removeProc, ActFits])
    refine ⟨_, h1, h2.trans ?_, h3⟩
    simp only [sstep, Dict.step, Dict.process]
    cases hv : t.view k
    · simp only [Api.removeProc, Dict.act, if_true]
      rw [← hv, Dict.upd_same]
    · simp [Api.removeProc, Dict.act]
  | append k v dl =>
    obtain ⟨h1, h2, h3⟩ := P k true (Api.appendProc v dl) (by
      have hf' := hf
      simp only [OpFits] at hf'
      cases h : t.view k <;> simp [Api.appendProc, ActFits] <;> rw [h] at hf' <;> simpa [Api.appended] using hf')
    refine ⟨_, h1, h2.trans ?_, h3⟩
    simp only [sstep, Dict.step, Dict.process]
    cases t.view k <;> simp [Api.appendProc, Dict.act, Api.appended]
  | process k w p =>
    obtain ⟨h1, h2, h3⟩ := P k w p hf
    exact ⟨_, h1, h2, h3⟩
  | clear => exact ho.elim
  | rebuild n => exact ho.elim

theorem syncAt_run (he : EnvOk e) {tunes : Int → Tune} (later : List Op) : ∀ {d : Db} {t : LSt}, DbOk e d t → ∀ {a : List Rec}, SyncAt t a →
    (∀ op ∈ later, op.onRecord) → RunRoom e tunes d (later.map .call) → SRunFits t.view (later.map .call) →
    ∃ t', DbOk e (run (step e tunes) d (later.map .call)).1 t' ∧ t'.view = (run sstep t.view (later.map .call)).1 ∧
      (run (step e tunes) d (later.map .call)).1.st.Room ∧ SyncAt t' a := by
  induction later with
  | nil => intro d t h a hs _ hr _; exact ⟨t, h, rfl, hr, hs⟩
  | cons op later ih =>
    intro d t h a hs ho hr hf
    obtain ⟨t1, h1, h2, h3⟩ := syncAt_step (tunes := tunes) he h hr.1 hs op (ho op (by simp)) hf.1
    obtain ⟨t2, g1, g2, g3, g4⟩ := ih h1 h3 (fun x hx => ho x (by simp [hx])) hr.2.2 (by rw [h2]; exact hf.2)
    exact ⟨t2, g1, by rw [g2, h2]; rfl, g3, g4⟩

/-- C66: take any history of calls on a new HashDBM which is in the appending mode at the end of it, then `Synchronize`, then any
calls on records, and then a call of `Process` with any processor that crashes between any two of its file writes, leaving any
number of zeros behind the end of the file. Opening the file that is left in the mode `RESTORE_SYNC` gives the database at the
time of `Synchronize`: `Get` of every key returns what it would have returned then, the counters are right, and every further
history gives the outcomes of the same history on a dictionary with the contents of that time.

Missing: the in-place mode, where it is false; see `C66_hash_restore_sync_violated`. -/
theorem C66_hash_restore_sync_partial (he : EnvOk e) {tunes : Int → Tune} (ht : ∀ n, (tunes n).Ok) {c : Cfg} (hc : CfgOk c)
    {x : Extra} (hx : x.Ok) {d0 d1 d2 : Db} {healthy : Bool} (h0 : openImpl x c [] = some (d0, healthy)) (ops : List SOp)
    (hroom : RunRoom e tunes d0 ops) (hf : SRunFits Dict.empty ops) (hd1 : d1 = (run (step e tunes) d0 ops).1)
    (hmode : d1.st.cfg.inPlace = false) {s0 : Nat} (hs0 : s0 < 2 ^ 64)
    (later : List Op) (hrec : ∀ op ∈ later, op.onRecord)
    {synced now : Dict} (hsynced : synced = (run sstep Dict.empty ops).1) (hnow : now = (run sstep synced (later.map .call)).1)
    (hroom2 : RunRoom e tunes d1 (.sync s0 :: later.map .call)) (hf2 : SRunFits synced (later.map .call))
    (hd2 : d2 = (run (step e tunes) d1 (.sync s0 :: later.map .call)).1)
    {τ : Type} (k : Bytes) (p : ProcR τ) (hp : ActFits hashFits k (p (now k)).1) (n : Nat) :
    ∃ f, crashFile e d2.st k true p n = some f ∧
      ∀ (y : Extra) (stamp cap mr z : Nat) (noShortcuts : Bool), y.Ok → stamp < 2 ^ 64 → 1 ≤ cap → 48 ≤ mr →
        f.length ≤ 2 ^ (8 * d2.st.cfg.ow + d2.st.cfg.ap) → f.length < 2 ^ 63 → RestoreRoom e y .sync f →
        ∃ d, openRestore e y stamp cap mr .sync noShortcuts (f ++ List.replicate z 0) = some d ∧
          (∀ key, (Api.get (dbImpl e) d key).2 = match synced key with | some v => (.success, some v) | none => (.notFound, none)) ∧
          d.st.bad = false ∧ synced.Counted d.st.mem.num d.st.mem.eff ∧
          ∀ further : List SOp, RunRoom e tunes d further → SRunFits synced further →
            (run (step e tunes) d further).2 = (run sstep synced further).2 ∧ (run (step e tunes) d further).1.st.bad = false := by
  obtain ⟨_, _, t, h1, h2, h3, _⟩ := session_dictionary he ht hc hx h0 ops hroom hf
  rw [← hd1] at h1 h2
  have ev : synced = t.view := by rw [hsynced, ← h3]
  have hm1 : t.cfg.inPlace = false := by rw [h1.st] at hmode; exact hmode
  obtain ⟨ds, ts, xs, num, eff, s1, s2, s3, s4, s5, s6, s7, s8, s9, s10⟩ := synchronize_spec h1 h2 hs0
  have hsc : ts.cfg = t.cfg := by rw [s3]
  have hsl : ts.lay = t.lay := by rw [s3]
  have hsv : ts.view = t.view := by rw [s3]; rfl
  have hstep : (step e tunes d1 (.sync s0)).1 = ds := by simp only [step, s1, Option.getD_some]
  have hat : SyncAt ts t.lay.recs := by
    refine ⟨by rw [hsc]; exact hm1, ⟨xs, num, eff, s4, s5, s6, ?_, ?_, ?_⟩, [], by rw [hsl]; simp⟩
    · rw [hsc]; exact s10
    · rw [hsc]; exact s7
    · rw [← s8, ← s9]; exact h1.inv.counted
  have hr2 : RunRoom e tunes ds (later.map .call) := by have := hroom2.2.2; rwa [hstep] at this
  obtain ⟨t2, g1, g2, g3, g4⟩ := syncAt_run he later s2 hat hrec hr2 (by rw [hsv, ← ev]; exact hf2)
  have hrun : (run (step e tunes) d1 (.sync s0 :: later.map .call)).1 = (run (step e tunes) ds (later.map .call)).1 := by
    simp only [run, hstep]
  rw [← hrun, ← hd2] at g1 g3
  rw [hsv, ← ev, ← hnow] at g2
  obtain ⟨L, rs, c1, c2, c3, c4⟩ := crashFile_grows he g1.inv (by rw [← g1.st]; exact g3) g4.app k true p (by rw [g2]; exact hp) n
  refine ⟨_, by rw [g1.st]; exact c1, ?_⟩
  intro y stamp cap mr z ns hy hs hcap hmr hlen hsmall hrr
  obtain ⟨x0, num', eff', m1, m2, m3, m4, m5, m6⟩ := g4.saved
  obtain ⟨b, hb⟩ := g4.pre
  have ecfg : d2.st.cfg = t2.cfg := by rw [g1.st]; rfl
  have hl := render_length (e := e) g1.inv.cfg g1.inv.frame c2.nb
  rw [hl] at hlen hsmall
  rw [ecfg] at hlen
  have hfr := g1.inv.frame
  rw [m5] at hfr
  obtain ⟨d, t', o1, o2, o3, o4⟩ := openRestore_sync he m1 g1.inv.cfg g4.app m2 m3 c2 hlen hsmall (a := t.lay.recs) (b := b ++ rs)
    (by rw [c3, hb, List.append_assoc]) m4 m6 hfr (f := render e t2.cfg t2.pre t2.mid L) (by rw [m5]) c4
    (by simp only [Lay.end_, hb, totalSize_append]; omega) hy hs hcap hmr ns z hrr
  have ev' : t'.view = synced := by rw [o4, ev]; rfl
  refine ⟨d, o1, fun key => ?_, ?_, ?_, ?_⟩
  · rw [← ev']; exact view_get he o2 o3 key
  · rw [o2.st]; exact o2.inv.ok
  · rw [← ev', o2.st]; exact o2.inv.counted
  · intro further fr ff
    obtain ⟨t3, q1, q2, _⟩ := run_spec he ht further o2 fr (by rw [ev']; exact ff)
    rw [ev'] at q2
    exact ⟨by rw [← q2], by rw [q1.st]; exact q1.inv.ok⟩

end Verif.Hash
