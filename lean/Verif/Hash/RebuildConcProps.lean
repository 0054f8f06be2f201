import Verif.Hash.RebuildConcLemmas
import Verif.Hash.Examples
/-
C09: a rebuild keeps what other threads write while it is running.
-/
namespace Verif.Hash
open Verif.Codec

variable {e : Env}

theorem LSt.Inv.readable {t : LSt} (h : t.Inv e) (hr : (t.toState e).Room) : ∀ r ∈ t.lay.recs, Readable t.cfg r := fun r hm =>
  have hg := h.inv.base.recs r hm
  ⟨hg.1.toFmtRec, Nat.lt_of_lt_of_le hg.2 (h.room hr)⟩

theorem LSt.Inv.offs {t : LSt} (h : t.Inv e) (hr : (t.toState e).Room) : ∀ y1 r y2, t.lay.recs = y1 ++ r :: y2 →
    (recordBase t.cfg + totalSize t.cfg y1) % (1 <<< t.cfg.ap) = 0 ∧ recordBase t.cfg + totalSize t.cfg y1 < 2 ^ (8 * t.cfg.ow + t.cfg.ap) := by
  intro y1 r y2 hL
  have hat : recAt t.cfg (recordBase t.cfg) t.lay.recs (recordBase t.cfg + totalSize t.cfg y1) = some r := by rw [hL]; exact recAt_mid _ _ _ _
  refine ⟨h.inv.base.off_aligned h.cfg hat, ?_⟩
  have := recAt_lt hat
  have h' := h.room hr
  have := size_pos (c := t.cfg) r
  simp only [Hash.Room, Lay.end_] at h'; omega

theorem shows_part {c : Cfg} {f : Bytes} {a b : List Rec} (h : Shows e c f [] (a ++ b)) : Shows e c f a b := by
  intro y1 r y2 hy
  obtain ⟨P, Q, h1, h2⟩ := h (a ++ y1) r y2 (by rw [hy]; simp)
  exact ⟨P, Q, by simpa using h1, h2⟩

theorem Ran.trans {t t1 t2 : LSt} {l1 l2 : List Call} (h1 : Ran e t t1 l1) (h2 : Ran e t1 t2 l2) : Ran e t t2 (l1 ++ l2) := by
  refine ⟨h2.inv, h2.cfg.trans h1.cfg, ?_, ?_, ?_⟩
  · rw [calls_append, h2.view, h1.view]
  · obtain ⟨r1, e1⟩ := h1.grow
    obtain ⟨r2, e2⟩ := h2.grow
    exact ⟨r1 ++ r2, by rw [e2, e1, List.append_assoc]⟩
  · obtain ⟨u1, e1, f1⟩ := h1.log
    obtain ⟨u2, e2, f2⟩ := h2.log
    refine ⟨u1 ++ u2, by rw [e2, e1, List.append_assoc], ?_⟩
    rw [show t.view.replay (u1 ++ u2) = (t.view.replay u1).replay u2 from by simp [Dict.replay], f1, f2]

theorem Ran.refl {t : LSt} (h : t.Inv e) : Ran e t t [] := ⟨h, rfl, rfl, ⟨[], by simp⟩, [], by simp, rfl⟩

theorem importForward_append {σ : Type} (D : DbmImpl σ) (s : σ) (a b : List Ent) : importForward D (importForward D s a) b = importForward D s (a ++ b) := by
  simp [importForward]

/-- The loop of the non-blocking imports. -/
theorem tryLoop_spec (he : EnvOk e) (more : Nat → Window) (last : List Call) : ∀ (n i : Nat) {t : LSt} {a b : List Rec} (tmp : State) (outs : List Out),
    t.lay.recs = a ++ b → t.Inv e → t.cfg.inPlace = false →
    CallsFit t.view (tryCalls e more n i (t.toState e) (recordBase t.cfg + totalSize t.cfg a) ++ last) →
    (runCalls e (t.toState e) (tryCalls e more n i (t.toState e) (recordBase t.cfg + totalSize t.cfg a) ++ last)).1.Room →
    TrySeen e more n i (t.toState e) (recordBase t.cfg + totalSize t.cfg a) →
    ∃ t' m b', tryLoop e more n i ⟨t.toState e, tmp, recordBase t.cfg + totalSize t.cfg a, outs⟩ =
        some ⟨t'.toState e, importForward (impl e) tmp (m.map Rec.ent), recordBase t.cfg + totalSize t.cfg (a ++ m),
          outs ++ (Dict.calls t.view (tryCalls e more n i (t.toState e) (recordBase t.cfg + totalSize t.cfg a))).2⟩ ∧
      t'.lay.recs = a ++ (m ++ b') ∧ Ran e t t' (tryCalls e more n i (t.toState e) (recordBase t.cfg + totalSize t.cfg a)) ∧
      t'.toState e = (runCalls e (t.toState e) (tryCalls e more n i (t.toState e) (recordBase t.cfg + totalSize t.cfg a))).1 := by
  intro n
  induction n with
  | zero =>
    intro i t a b tmp outs hab hi hm _ _ _
    exact ⟨t, [], b, by simp [tryLoop, tryCalls, Dict.calls, importForward], by simpa using hab, Ran.refl hi, rfl⟩
  | succ n ih =>
    intro i t a b tmp outs hab hi hm hf hr hs
    simp only [tryCalls] at hf hr ⊢
    simp only [TrySeen] at hs
    simp only [tryLoop]
    by_cases hz : (t.toState e).file.length ≤ recordBase t.cfg + totalSize t.cfg a + blockingAllowance
    · simp only [if_pos hz] at hf hr ⊢
      exact ⟨t, [], b, by simp [Dict.calls, importForward], by simpa using hab, Ran.refl hi, rfl⟩
    · simp only [if_neg hz] at hf hr hs ⊢
      have hlen : (t.toState e).file.length = recordBase t.cfg + totalSize t.cfg (a ++ b) := by
        rw [toState_length hi, Lay.end_, hab]
      rw [List.append_assoc] at hf hr
      obtain ⟨hf1, hf2⟩ := (callsFit_append _ _ _).1 hf
      rw [runCalls_append] at hr
      have hr1 : (runCalls e (t.toState e) (more i).calls).1.Room := room_mono (runCalls_grow _ _) hr
      have hr0 : (t.toState e).Room := room_mono (runCalls_grow _ _) hr1
      obtain ⟨⟨t1, g1, g2, g3⟩, g4⟩ := runCalls_spec he (more i).calls hi hm hf1 hr1
      obtain ⟨rs, hrs⟩ := g3.grow
      have hscan := scanAt_spec he hi.cfg (snap := (more i).snap) (x := a) (y := b)
        (fun j => shows_part (by rw [← hab]; exact g4 _ (hs.1 j))) (fun r hr' => hi.readable hr0 r (by rw [hab]; simp [hr'])) b []
        ((t.toState e).file.length + 1) 0 rfl (by
          have := length_le_total (c := t.cfg) b
          rw [hlen, totalSize_app]; omega)
      simp only [List.append_nil] at hscan
      rw [← hlen] at hscan
      have hcfg : (t.toState e).cfg = t.cfg := rfl
      rw [hcfg, hscan]
      dsimp only
      rw [g1] at hf2 hr hs ⊢
      rw [← g3.view] at hf2
      rw [hlen, ← g3.cfg] at hf2 hr hs
      have hnext := ih (i + 1) (t := t1) (a := a ++ b) (b := rs) (importForward (impl e) tmp (b.map Rec.ent))
        (outs ++ (runCalls e (t.toState e) (more i).calls).2) (by rw [hrs, hab]) g3.inv (by rw [g3.cfg]; exact hm) hf2 hr hs.2
      rw [hlen, ← g3.cfg]
      obtain ⟨t2, m, b', k1, k2, k3, k4⟩ := hnext
      refine ⟨t2, b ++ m, b', ?_, by rw [k2]; simp, g3.trans k3, ?_⟩
      · rw [k1, importForward_append, calls_append, g2, g3.view]
        simp
      · rw [runCalls_append, g1, k4]

/-- The last import, with all records locked. -/
theorem importLast_spec (he : EnvOk e) {t : LSt} (hi : t.Inv e) (hr : (t.toState e).Room) {a b : List Rec} (hab : t.lay.recs = a ++ b) (tmp : State) :
    importLast e t.cfg (t.toState e).file (recordBase t.cfg + totalSize t.cfg a) tmp = some (importForward (impl e) tmp (b.map Rec.ent)) := by
  have hlen : (t.toState e).file.length = recordBase t.cfg + totalSize t.cfg (a ++ b) := by
    rw [toState_length hi, Lay.end_, hab]
  unfold importLast
  by_cases hz : recordBase t.cfg + totalSize t.cfg a < (t.toState e).file.length
  · rw [if_pos hz]
    have h1 := scan_render he hi.cfg hi.frame hi.inv.base (hi.room hr) b (x := a) (z := []) (n := (t.toState e).file.length + 1) (by simpa using hab) (by
      have := length_le_total (c := t.cfg) b
      rw [hlen, totalSize_app]; omega)
    rw [← hlen] at h1
    have hfile : (t.toState e).file = render e t.cfg t.pre t.mid t.lay := rfl
    rw [← hfile] at h1
    rw [h1]
    rfl
  · rw [if_neg hz]
    have : b = [] := by
      cases b with
      | nil => rfl
      | cons r b =>
        have := size_pos (c := t.cfg) r
        rw [hlen] at hz
        simp only [totalSize_app, totalSize] at hz
        omega
    subst this
    rfl

/-- What a rebuild with calls of other threads in between gives. -/
theorem rebuildConc_spec (he : EnvOk e) {d : Db} {t : LSt} (h : DbOk e d t) {tn : Tune} (hn : tn.Ok) (sch : Schedule) (hseen : sch.Seen e d)
    (hf : CallsFit t.view (sch.calls e d)) (hr : (runCalls e (rebuildBegin d).st (sch.calls e d)).1.Room)
    (hroom : RebuildRoom e tn d.st.cfg.inPlace d.st.file.length { rebuildBegin d with st := (runCalls e (rebuildBegin d).st (sch.calls e d)).1 }) :
    ∃ d' t', rebuildConc e tn sch d = some (d', (Dict.calls t.view (sch.calls e d)).2) ∧ DbOk e d' t' ∧
      t'.view = (Dict.calls t.view (sch.calls e d)).1 ∧ t'.cfg = tn.cfg ∧
      (∃ u, t'.mem.log = t.mem.log ++ u ∧ t.view.replay u = t'.view) ∧
      ∃ (r : Rebuilt) (t2 : LSt), rebuildCopy e tn sch d = some r ∧
        { r.new with st := { r.new.st with cfg := { r.new.st.cfg with inPlace := tn.cfg.inPlace } } } = ⟨t2.toState e, r.new.extra⟩ ∧
        t2.Inv e ∧ (t2.toState e).Room ∧ r.new.extra.Ok ∧ t2.view = t'.view := by
  have hb := rebuildBegin_ok h.toDbInv
  obtain ⟨tb, htb⟩ : ∃ tb : LSt, tb = { t with cfg := t.cfg.re false t.cfg.fbpCap } := ⟨_, rfl⟩
  rw [← htb] at hb
  have hvb : tb.view = t.view := by rw [htb]; rfl
  have hlogb : tb.mem.log = t.mem.log := by rw [htb]
  have hmb : tb.cfg.inPlace = false := by rw [htb]; rfl
  have hlen : d.st.file.length = recordBase tb.cfg + totalSize tb.cfg tb.lay.recs := by
    have h1 : (rebuildBegin d).st.file.length = (tb.toState e).file.length := by rw [hb.st]
    rw [toState_length hb.inv] at h1
    exact h1
  -- the calls
  obtain ⟨h1, h2⟩ := hseen
  simp only [Schedule.calls] at hf hr hroom ⊢
  rw [hb.st] at h1 h2 hf hr hroom ⊢
  rw [hlen] at h2 hf hr hroom ⊢
  rw [← hvb] at hf ⊢
  rw [List.append_assoc] at hf hr
  obtain ⟨hf1, hf2⟩ := (callsFit_append _ _ _).1 hf
  have hr' := hr
  rw [runCalls_append] at hr'
  have hr1 : (runCalls e (tb.toState e) sch.first.calls).1.Room := room_mono (runCalls_grow _ _) hr'
  have hr0 : (tb.toState e).Room := room_mono (runCalls_grow _ _) hr1
  obtain ⟨⟨t1, g1, g2, g3⟩, g4⟩ := runCalls_spec he sch.first.calls hb.inv hmb hf1 hr1
  obtain ⟨rs, hrs⟩ := g3.grow
  rw [g1] at h2 hf2 hr'
  rw [← g3.view] at hf2
  have hc1 := g3.cfg
  rw [← g3.cfg] at h2 hf2 hr'
  -- the new database
  have hcfg1 : CfgOk { tn.cfg with inPlace := true, fbpCap := 2048 } :=
    re_cfgOk (c := tn.cfg) (ip := true) (cap := 2048) hn.cfg (by omega)
  obtain ⟨t0, x0, ho, _⟩ := open_new (e := e) hcfg1 hn.extra
  have hfirst := importFirst_spec he hb.inv.cfg (snap := sch.first.snap) (y := tb.lay.recs) (fun i => g4 _ (h1 i)) (hb.inv.readable hr0)
    (hb.inv.offs hr0) d.st.cfg.inPlace (t0.toState e)
  obtain ⟨s1, hs1⟩ : ∃ s1, s1 = (if d.st.cfg.inPlace then importForward (impl e) (t0.toState e) (tb.lay.recs.map Rec.ent)
    else importBackward (impl e) (t0.toState e) ((tb.lay.recs.filter fun r => r.op ≠ .void).map Rec.ent).reverse) := ⟨_, rfl⟩
  rw [← hs1] at hfirst
  obtain ⟨t2, m, b', k1, k2, k3, k4⟩ := tryLoop_spec he sch.more sch.last maxTries 0 (t := t1) (a := tb.lay.recs) (b := rs) s1
    (runCalls e (tb.toState e) sch.first.calls).2 hrs g3.inv (by rw [g3.cfg]; exact hmb) hf2 hr' h2
  -- the calls after the loop
  obtain ⟨_, hf3⟩ := (callsFit_append _ _ _).1 hf2
  rw [runCalls_append, ← k4] at hr'
  rw [← k3.view] at hf3
  obtain ⟨⟨t3, j1, j2, j3⟩, _⟩ := runCalls_spec he sch.last k3.inv (by rw [k3.cfg, g3.cfg]; exact hmb) hf3 hr'
  obtain ⟨rs3, hrs3⟩ := j3.grow
  dsimp only at hr'
  rw [j1] at hr'
  have hc3 : t3.cfg = tb.cfg := j3.cfg.trans (k3.cfg.trans g3.cfg)
  have hlast := importLast_spec he j3.inv hr' (a := tb.lay.recs ++ m) (b := b' ++ rs3) (by rw [hrs3, k2]; simp)
    (importForward (impl e) s1 (m.map Rec.ent))
  have hall := (g3.trans k3).trans j3
  have hrun : (runCalls e (tb.toState e) (sch.first.calls ++ tryCalls e sch.more maxTries 0 (t1.toState e)
      (recordBase t1.cfg + totalSize t1.cfg tb.lay.recs) ++ sch.last)).1 = t3.toState e := by
    rw [runCalls_append, runCalls_append, g1, ← k4, j1]
  rw [g1, ← hc1] at hroom ⊢
  rw [hrun] at hroom
  -- the rest of the rebuild
  obtain ⟨dz, hdz⟩ : ∃ dz : Db, dz = { rebuildBegin d with st := t3.toState e } := ⟨_, rfl⟩
  have hz : DbInv e dz t3 := by rw [hdz]; exact ⟨rfl, j3.inv, hb.extra⟩
  have hroomz : RebuildRoom e tn d.st.cfg.inPlace (recordBase t3.cfg + totalSize t3.cfg tb.lay.recs) dz := by
    rw [hdz, hc3, ← hc1]; exact hroom
  have hrz : dz.st.Room := by rw [hdz]; exact hr'
  have hab : t3.lay.recs = tb.lay.recs ++ (m ++ (b' ++ rs3)) := by rw [hrs3, k2]; simp
  obtain ⟨d', t', q1, q2, q3, q4, q5⟩ := rebuildEnd_spec he hz hrz hn d.st.cfg.inPlace hab hroomz
  have hents := rebuildEnts_render he j3.inv.cfg j3.inv.frame j3.inv.inv.base (j3.inv.room hr') hab d.st.cfg.inPlace
  obtain ⟨tmp, t5, p1, _, p2, p3, p4, p5, p6, _⟩ := rebuildTmp_spec he hz hrz hn d.st.cfg.inPlace hab hroomz
  obtain ⟨rc, hrc, hfin, hnew⟩ : ∃ rc, rebuildCopy e tn sch d = some rc ∧ rebuildConc e tn sch d =
      some (d', (Dict.calls tb.view (sch.first.calls ++ tryCalls e sch.more maxTries 0 (t1.toState e)
        (recordBase t1.cfg + totalSize t1.cfg tb.lay.recs) ++ sch.last)).2) ∧ rc.new = tmp := by
    have e1 : dz.st.cfg = t3.cfg := by rw [hdz]; rfl
    have e2 : dz.st.file = render e t3.cfg t3.pre t3.mid t3.lay := by rw [hdz]; rfl
    simp only [rebuildEnd, rebuildTmp, e1, e2, hents, ho] at q1
    simp only [rebuildTmp, e1, e2, hents, ho] at p1
    have e3 : rebuildImport (impl e) (t0.toState e) d.st.cfg.inPlace (if d.st.cfg.inPlace then tb.lay.recs.map Rec.ent
        else ((tb.lay.recs.filter fun r => r.op ≠ .void).map Rec.ent).reverse, (m ++ (b' ++ rs3)).map Rec.ent) =
        importForward (impl e) (importForward (impl e) s1 (m.map Rec.ent)) ((b' ++ rs3).map Rec.ent) := by
      rw [importForward_append, ← List.map_append, hs1]
      simp only [rebuildImport]
      cases d.st.cfg.inPlace <;> rfl
    rw [e3] at q1 p1
    have e4 : (rebuildBegin d).st.cfg = tb.cfg := by rw [hb.st]; rfl
    have e5 : recordBase t1.cfg + totalSize t1.cfg (tb.lay.recs ++ m) = recordBase t3.cfg + totalSize t3.cfg (tb.lay.recs ++ m) := by rw [hc1, hc3]
    have e6 : (t3.toState e).cfg = t3.cfg := rfl
    have e7 : (tb.toState e).cfg = tb.cfg := rfl
    rw [← hc1] at hlen
    have hcopy : rebuildCopy e tn sch d = some ⟨dz, tmp, (Dict.calls tb.view (sch.first.calls ++ tryCalls e sch.more maxTries 0 (t1.toState e)
        (recordBase t1.cfg + totalSize t1.cfg tb.lay.recs) ++ sch.last)).2⟩ := by
      simp only [rebuildCopy, ho, hb.st, e7, hlen]
      rw [hc1, hfirst]
      dsimp only
      rw [g1, ← hc1, k1]
      dsimp only
      rw [j1, e6, e5, hlast]
      dsimp only
      rw [← hdz, Option.some.inj p1, calls_append, calls_append, g2, j2, k3.view, g3.view]
    refine ⟨_, hcopy, ?_, rfl⟩
    simp only [rebuildConc, hcopy]
    rw [← Option.some.inj p1, q1, Option.map_some]
  refine ⟨d', t', hfin, q2, by rw [q3, hall.view], q4, ?_, rc, t5, hrc, by rw [hnew]; exact p2, p3, p4, by rw [hnew]; exact p5, by rw [p6, q3]⟩
  obtain ⟨u, hu1, hu2⟩ := hall.log
  exact ⟨u, by rw [q5, hu1, hlogb], by rw [hu2, q3]⟩

/-- C09: while `Rebuild` is running, other threads make any calls of `Process` at any time: before, during and after each part of the
copying.  The rebuilding thread reads each record of the file at a moment of its own, which may lie between two writes of
such a call.  `Rebuild` succeeds nevertheless, each of the calls has the result that it has on a dictionary, and afterwards the database has exactly
the contents that the calls give: no update is lost, none is undone.  The new parameters are in effect, the count is right, and what the calls
wrote to the update log accounts for the new contents. The conditions are those of C09_hash_rebuild: the sizes of records and files. -/
theorem C09_hash_rebuild_concurrent (he : EnvOk e) {tunes : Int → Tune} (ht : ∀ n, (tunes n).Ok) {c : Cfg} (hc : CfgOk c) {x : Extra} (hx : x.Ok)
    {d0 : Db} {healthy : Bool} (h0 : openImpl x c [] = some (d0, healthy)) (ops : List SOp) (hroom : RunRoom e tunes d0 ops)
    (hf : SRunFits Dict.empty ops) {d : Db} (hd : d = (run (step e tunes) d0 ops).1) {tn : Tune} (hn : tn.Ok)
    (sch : Schedule) (hseen : sch.Seen e d) {calls : List Call} (hcalls : calls = sch.calls e d)
    (hcf : CallsFit (run sstep Dict.empty ops).1 calls) {s : State} (hs : s = (runCalls e (rebuildBegin d).st calls).1) (hr : s.Room)
    (hrb : RebuildRoom e tn d.st.cfg.inPlace d.st.file.length { rebuildBegin d with st := s }) :
    ∃ d', rebuildConc e tn sch d = some (d', (Dict.calls (run sstep Dict.empty ops).1 calls).2) ∧ d'.st.bad = false ∧ d'.st.cfg = tn.cfg ∧
      (d'.st.Room → ∀ k, (Api.get (dbImpl e) d' k).2 =
        match (Dict.calls (run sstep Dict.empty ops).1 calls).1 k with | some v => (.success, some v) | none => (.notFound, none)) ∧
      (Dict.calls (run sstep Dict.empty ops).1 calls).1.Counted d'.st.mem.num d'.st.mem.eff ∧
      Dict.empty.replay d'.st.mem.log = (Dict.calls (run sstep Dict.empty ops).1 calls).1 := by
  obtain ⟨_, _, t, h1, h2, h3, h4⟩ := session_dictionary he ht hc hx h0 ops hroom hf
  rw [← hd] at h1 h2
  have ev : (run sstep Dict.empty ops).1 = t.view := by rw [← h3]
  rw [ev] at hcf ⊢
  subst hs
  subst hcalls
  obtain ⟨d', t', g1, g2, g3, g4, ⟨u, g5, g6⟩, _⟩ := rebuildConc_spec he h1 hn sch hseen hcf hr hrb
  refine ⟨d', g1, by rw [g2.st]; exact g2.inv.ok, by rw [g2.st]; exact g4, ?_, ?_, ?_⟩
  · intro hr' k
    rw [view_get he g2 hr', g3]
    cases (Dict.calls t.view (Schedule.calls e sch d)).1 k <;> rfl
  · rw [← g3, g2.st]; exact g2.inv.counted
  · rw [g2.st, ← g3]
    show Dict.empty.replay t'.mem.log = _
    rw [g5, show Dict.empty.replay (t.mem.log ++ u) = (Dict.empty.replay t.mem.log).replay u from by simp [Dict.replay], h4, g6]

/-! ### A case -/
namespace Examples

def concOps : List SOp := [.call (.set [1] [10, 11] true), .call (.set [4] [20] true)]

def concDb (ip : Bool) : Db := (run (step env (fun _ => tune)) (db ip) concOps).1

def putCall (k v : Bytes) : Call := ⟨k, true, fun o => (.set v, (.success, o))⟩

def dropCall (k : Bytes) : Call := ⟨k, true, fun o => (.remove, (.success, o))⟩

def concFile (ip : Bool) : Bytes := (crashFile env (rebuildBegin (concDb ip)).st [1] true (putCall [1] [99]).proc 1).getD []

/-- While the first of two records is read nothing has happened yet; while the second is read, the first of the calls is between its two writes. -/
def concSchedule (ip : Bool) : Schedule where
  first := ⟨[putCall [1] [99], dropCall [4]], fun j => if j = 0 then (rebuildBegin (concDb ip)).st.file else concFile ip⟩
  more := fun _ => ⟨[], fun _ => []⟩
  last := [putCall [5] [6, 7]]

theorem concSeen (ip : Bool) : (concSchedule ip).Seen env (concDb ip) := by
  refine ⟨fun j => ?_, ?_⟩
  · show Moment env _ _ (if j = 0 then _ else _)
    split
    · exact .now _ _
    · refine .during _ _ _ 1 _ ?_
      refine some_getD ?_
      cases ip <;> decide +kernel
  · unfold maxTries TrySeen
    rw [if_pos (by cases ip <;> decide +kernel)]
    trivial

theorem concCalls (ip : Bool) : (concSchedule ip).calls env (concDb ip) = [putCall [1] [99], dropCall [4], putCall [5] [6, 7]] := by
  unfold Schedule.calls maxTries tryCalls
  rw [if_pos (by cases ip <;> decide +kernel)]
  rfl

/-- The calls between the writes of which the records are read do write something. -/
example (ip : Bool) : concFile ip ≠ (rebuildBegin (concDb ip)).st.file := fun h =>
  absurd (congrArg List.length h) (by cases ip <;> decide +kernel)

/-- In both modes the hypotheses of C09 are met, and the rebuilt database has what the calls wrote. -/
example (ip : Bool) : ∃ d', rebuildConc env tune (concSchedule ip) (concDb ip) = some (d', [(.success, some [10, 11]), (.success, some [20]), (.success, none)]) ∧
    d'.st.bad = false := by
  have hroom : RunRoom env (fun _ => tune) (db ip) concOps := by cases ip <;> decide +kernel
  have hfit : SRunFits Dict.empty concOps := by
    refine ⟨?_, ?_, trivial⟩ <;> simp only [SFits, OpFits] <;> decide +kernel
  obtain ⟨d', h1, h2, _⟩ := C09_hash_rebuild_concurrent env_ok (fun _ => tune_ok) (cfg_ok ip) extra_ok (open_db ip) concOps hroom hfit (d := concDb ip) rfl
    tune_ok (concSchedule ip) (concSeen ip) (concCalls ip).symm (by refine ⟨?_, ?_, ?_, trivial⟩ <;> simp only [putCall, dropCall, ActFits] <;> decide +kernel)
    rfl (by cases ip <;> decide +kernel) (by cases ip <;> decide +kernel)
  exact ⟨d', by rw [h1]; congr 2, h2⟩

end Examples
end Verif.Hash
