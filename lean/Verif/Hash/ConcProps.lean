import Verif.Hash.ConcSim
import Verif.Hash.Props
import Verif.Hash.EachLemmas
/-
C73: concurrent calls of HashDBM.
-/
namespace Verif.Hash.Conc
open Verif TwoPhase

section
variable {ρ : Type} {e : Env} {c : Cfg} {lay : Lay}

/-! ### Before the first call -/

theorem str_of_linv (he : EnvOk e) (hc : CfgOk c) {pool : List FB} (h : LInv e c lay pool) :
    ∃ P : Nat → List (Nat × Rec), Str e c lay (poolOf c pool) P (fun _ => none) ∧
      ∀ i, i < c.nb → ∀ k, e.hash k c.nb = i → firstVal (P i) k = contents lay.recs k := by
  have ha := h.appending
  have hch : ∀ i, ∃ p, i < c.nb → AChain e c lay i p := by
    intro i
    by_cases hi : i < c.nb
    · obtain ⟨p, hp⟩ := ha.chain i hi; exact ⟨p, fun _ => hp⟩
    · exact ⟨[], fun h => absurd h hi⟩
  obtain ⟨P, hP⟩ := Classical.axiomOfChoice hch
  have hin : c.inPlace = true → InPlace e c lay pool := by
    intro hm; unfold LInv at h; rw [if_pos hm] at h; exact h
  have hI : c.inPlace = true → ∀ i, i < c.nb → IChain e c lay i (P i) := by
    intro hm i hi
    obtain ⟨p, hp⟩ := (hin hm).chain i hi
    have := hp.path.unique (hP i hi).path
    rw [← this]; exact hp
  refine ⟨P, ⟨h.base, fun i hi => (hP i hi).path, fun i hi => (hP i hi).mem, ?_, fun hm => (hin hm).noRemove, ?_, ?_, by simp, by simp, by simp, by simp, ?_⟩,
    fun i hi k hk => ((hP i hi).newest k hk).symm⟩
  · intro hm i hi
    have hp := (hI hm i hi)
    have hlive : ∀ x ∈ P i, live c lay.recs x.1 = some (x.2.key, x.2.value) := by
      intro x hx
      simp only [live, hp.path.at x hx, Option.bind_some, Rec.kv, if_neg (hp.mem x hx).1]
    have hnd := hp.nodup
    have key : ∀ l : List (Nat × Rec), (∀ x ∈ l, x ∈ P i) → (l.map (·.1)).Nodup → (l.map (·.2.key)).Nodup := by
      intro l
      induction l with
      | nil => intro _ _; simp
      | cons x l ih =>
        intro hs hn
        simp only [List.map_cons, List.nodup_cons] at hn ⊢
        refine ⟨?_, ih (fun y hy => hs y (by simp [hy])) hn.2⟩
        intro hx
        obtain ⟨y, hy, ey⟩ := List.mem_map.1 hx
        have h1 := hlive x (hs x (by simp))
        have h2 := hlive y (hs y (by simp [hy]))
        have ey' : y.2.key = x.2.key := ey
        rw [ey'] at h2
        have := (hin hm).uniq x.1 y.1 _ _ _ h1 h2
        exact hn.1 (List.mem_map.2 ⟨y, hy, this.symm⟩)
    exact key _ (fun _ h => h) hnd
  · intro b hb
    unfold poolOf at hb
    split at hb
    · rename_i hm; exact (hin hm).fbp b hb
    · cases hb
  · unfold poolOf
    split
    · rename_i hm; exact (hin hm).fbpNodup
    · simp
  · intro hm o r hr hv
    refine .inl ⟨e.hash r.key c.nb, he.hash _ _ (by have := hc.nb; omega), ?_⟩
    refine (hI hm _ (he.hash _ _ (by have := hc.nb; omega))).complete o r.key r.value ?_ rfl
    simp only [live, hr, Option.bind_some, Rec.kv, if_neg hv]

/-! ### When no call is under way -/

theorem linv_of_str (hc : CfgOk c) {pool : List FB} {P : Nat → List (Nat × Rec)} (hn : ∀ k, e.hash k c.nb < c.nb)
    {reg : Nat → Dict} (h : Str e c lay (poolOf c pool) P X) (hX : ∀ i, i < c.nb → X i = none) (hfv : ∀ i, i < c.nb → FV e c reg i (P i))
    (hct : ∀ i, i < c.nb → Cont e c lay i (reg i)) : LInv e c lay pool ∧ contents lay.recs = glob e c reg := by
  unfold LInv
  by_cases hm : c.inPlace = true
  · rw [if_pos hm]
    have hpl : poolOf c pool = pool := by simp [poolOf, hm]
    rw [hpl] at h
    have hcov : ∀ o k v, live c lay.recs o = some (k, v) → o ∈ (P (e.hash k c.nb)).map (·.1) := by
      intro o k v hl
      simp only [live, Option.bind_eq_some_iff, Rec.kv] at hl
      obtain ⟨r, hr, hkv⟩ := hl
      split at hkv
      · cases hkv
      · rename_i hv
        injection hkv with hkv
        injection hkv with e1 e2
        rcases h.cover hm o r hr hv with ⟨i, hi, ho⟩ | ⟨i, hi, ho⟩
        · obtain ⟨x, hx, rfl⟩ := List.mem_map.1 ho
          have h1 := (h.path i hi).at x hx
          rw [hr] at h1
          injection h1 with h1
          have h2 := (h.home i hi x hx).2
          rw [← h1, e1] at h2
          rw [h2]; exact List.mem_map.2 ⟨x, hx, rfl⟩
        · rw [hX i hi] at ho; cases ho
    have hch : ∀ i, i < c.nb → IChain e c lay i (P i) := by
      intro i hi
      exact ⟨h.path i hi, (h.path i hi).nodup, h.home i hi, fun o k v hl hk => hk ▸ hcov o k v hl⟩
    have hin : InPlace e c lay pool := by
      refine ⟨h.base, h.noRem hm, ?_, fun i hi => ⟨P i, hch i hi⟩, h.pool, h.poolNodup⟩
      intro o o' k v v' h1 h2
      obtain ⟨x, hx, rfl⟩ := List.mem_map.1 (hcov o k v h1)
      obtain ⟨y, hy, rfl⟩ := List.mem_map.1 (hcov o' k v' h2)
      have hkey : ∀ x ∈ P (e.hash k c.nb), ∀ v, live c lay.recs x.1 = some (k, v) → x.2.key = k := by
        intro x hx v hl
        simp only [live, (h.path _ (hn k)).at x hx, Option.bind_some, Rec.kv] at hl
        split at hl
        · cases hl
        · injection hl with hl; injection hl
      have e1 := hkey x hx v h1
      have e2 := hkey y hy v' h2
      have hnd := h.keys hm _ (hn k)
      have inj : ∀ l : List (Nat × Rec), (l.map (·.2.key)).Nodup → x ∈ l → y ∈ l → x = y := by
        intro l
        induction l with
        | nil => intro _ hx; cases hx
        | cons z l ih =>
          intro hn hx hy
          simp only [List.map_cons, List.nodup_cons] at hn
          rcases List.mem_cons.1 hx with hx | hx
          · rcases List.mem_cons.1 hy with hy | hy
            · rw [hx, hy]
            · exact absurd (List.mem_map.2 ⟨y, hy, by show y.2.key = z.2.key; rw [e2, ← hx, e1]⟩) hn.1
          · rcases List.mem_cons.1 hy with hy | hy
            · exact absurd (List.mem_map.2 ⟨x, hx, by show x.2.key = z.2.key; rw [e1, ← hy, e2]⟩) hn.1
            · exact ih hn.2 hx hy
      rw [inj _ hnd hx hy]
    refine ⟨hin, ?_⟩
    funext k
    have h1 := hfv _ (hn k) k rfl
    rcases hin.find k (hch _ (hn k)) with ⟨h2, h3⟩ | ⟨a, cur, r, b, h2, h3, h4, h5⟩
    · rw [h3, ← firstVal_none h2]; exact h1
    · rw [h5]
      have h6 := h1
      rw [h2, firstVal_some h4 h3] at h6
      have hr := (h.path _ (hn k)).at (cur, r) (by rw [h2]; simp)
      have hv := (h.home _ (hn k) (cur, r) (by rw [h2]; simp)).1
      rw [if_pos (isSet_of hv (h.noRem hm r (recAt_mem hr)))] at h6
      exact h6
  · rw [if_neg hm]
    have hm' : c.inPlace = false := by simpa using hm
    refine ⟨⟨h.base, fun i hi => ⟨P i, h.path i hi, (h.path i hi).nodup, h.home i hi, ?_⟩⟩, ?_⟩
    · intro k hk
      rw [hct i hi hm' k hk, hfv i hi k hk]
    · funext k
      exact hct _ (hn k) hm' k rfl

/-! ### The calls in serial order -/

theorem sp_glob {A : Nat → Dict} {w : Bool} {r0 : ρ} {dn : List (Bytes × ProcS ρ)} {T : Nat → Dict} {r : ρ} {l : List LogOp}
    (h : SP (fun k => e.hash k c.nb) opD A w r0 dn T r l) : (glob e c T, r) = (glob e c A).processMulti dn w r0 := by
  induction h with
  | nil => rfl
  | @snoc dn T r lg k p y _ h2 ih =>
    rw [Tiny.Conc.processMulti_snoc, ← ih]
    simp only [opD, Option.some.injEq] at h2
    subst h2
    simp only [Dict.process]
    have : glob e c T k = T (e.hash k c.nb) k := rfl
    rw [this]
    cases w with
    | false => simp only [Bool.false_eq_true, if_false]; rw [upd_self rfl]
    | true =>
      simp only [if_true]
      cases ha : (p r (T (e.hash k c.nb) k)).1 with
      | noop => simp only [Dict.act]; rw [upd_self rfl]
      | remove => rw [← glob_act T k (by simp)]
      | set v => rw [← glob_act T k (by simp)]

theorem serial_glob {A0 A : Nat → Dict} {ord : List (Nat × Call ρ × ρ)} {l : List LogOp}
    (h : SerialR (fun k => e.hash k c.nb) opD A0 ord A l) : Serial (glob e c A0) ord (glob e c A) := by
  induction h with
  | nil => rfl
  | snoc _ h2 ih =>
    have h3 := sp_glob h2
    rw [show glob e c _ = _ from congrArg Prod.fst h3]
    exact Tiny.Conc.serial_snoc _ _ _ _ _ _ ih (by rw [← h3])

/-! ### The file only grows -/

theorem put_len (m : CMem) (w : Wr) : m.file.length ≤ (put e c m w).file.length := by
  unfold put
  split
  · exact Nat.le_refl _
  · rename_i f hf
    cases w with
    | append r => cases hf; simp
    | record off r => exact Nat.le_of_eq (fwrite_length hf).symm
    | child off ch => exact Nat.le_of_eq (fwrite_length hf).symm
    | bucket i v => exact Nat.le_of_eq (fwrite_length hf).symm

theorem body_len (m : CMem) (a : Unit) (w : Bool) (rest : List (Bytes × ProcS ρ)) (r : ρ) (x : Inner ρ) :
    m.file.length ≤ (bodyStep e c m a w rest r x).1.file.length := by
  unfold bodyStep
  repeat' split
  all_goals first
    | exact Nat.le_refl _
    | exact put_len _ _
    | (dsimp only; repeat' split) <;> exact Nat.le_refl _

theorem step_len {L : Locks ρ} (s : CState ρ) (ev : Nat × Act ρ Unit) :
    s.mem.file.length ≤ (TwoPhase.step L (body e c) s ev).mem.file.length := by
  unfold TwoPhase.step
  repeat' split
  all_goals first
    | exact Nat.le_refl _
    | exact body_len _ _ _ _ _ _

theorem run_len {L : Locks ρ} (es : List (Nat × Act ρ Unit)) (s : CState ρ) :
    s.mem.file.length ≤ (es.foldl (TwoPhase.step L (body e c)) s).mem.file.length := by
  induction es generalizing s with
  | nil => exact Nat.le_refl _
  | cons ev es ih => exact Nat.le_trans (step_len s ev) (ih _)

end

section
variable {ρ : Type} {e : Env}

/-- SPECIFICATION: no call is under way. -/
def Quiet (s : CState ρ) : Prop := ∀ th ∈ s.threads, th.pc = .idle

/-- SPECIFICATION: all calls that are made store values within the size limits. -/
def EventsFit (es : List (Nat × Act ρ Unit)) : Prop := ∀ t c, (t, Act.call c) ∈ es → CallFits c

/-- The open database after the threads have worked. -/
def after (d : Db) (s : CState ρ) : Db := { d with st := ⟨d.st.cfg, s.mem.file, ⟨s.mem.fbp, s.mem.num, s.mem.eff, s.mem.log⟩, s.mem.bad⟩ }

theorem idle_sums {l : List (Thread ρ (Inner ρ))} (h : ∀ th ∈ l, th.pc = .idle) : (l.map pnT).sum = 0 ∧ (l.map peT).sum = 0 := by
  induction l with
  | nil => exact ⟨rfl, rfl⟩
  | cons th l ih =>
    obtain ⟨h1, h2⟩ := ih fun x hx => h x (by simp [hx])
    rw [List.map_cons, List.sum_cons, h1, List.map_cons, List.sum_cons, h2]
    obtain ⟨id, pc⟩ := th
    have : pc = .idle := h _ (List.mem_cons_self ..)
    subst this
    exact ⟨rfl, rfl⟩

theorem idle_work {l : List (Thread ρ (Inner ρ))} (h : ∀ th ∈ l, th.pc = .idle) (i : Nat) : ∀ th ∈ l, workT th ≠ some i := by
  intro th hth
  obtain ⟨id, pc⟩ := th
  have : pc = .idle := h _ hth
  subst this
  intro z; cases z

theorem reach (he : EnvOk e) {slots : Nat} (hs : 0 < slots) {d : Db} {t : LSt} (hd : DbOk e d t) (n : Nat) (es : List (Nat × Act ρ Unit))
    (hf : EventsFit es) (hroom : (after d (run e slots d.st n es)).st.Room) :
    (run e slots d.st n es).mem.bad = false ∧ ∃ ord f, Explains ord (run e slots d.st n es).hist ∧ Serial t.view ord f ∧
      (Quiet (run e slots d.st n es) → ∃ t', DbOk e (after d (run e slots d.st n es)) t' ∧ t'.view = f ∧
        ∃ l, t'.mem.log = t.mem.log ++ l ∧ t.view.replay l = f) := by
  have hi := hd.inv
  have est := hd.st
  have hcf : d.st.cfg = t.cfg := by rw [est]; rfl
  have C : Ctx (locks ρ e d.st.cfg slots) e d.st.cfg t.pre t.mid := ⟨he, hcf ▸ hi.cfg, hcf ▸ hi.frame, fun _ => rfl⟩
  have hok : (locks ρ e d.st.cfg slots).Ok := Tiny.Conc.locks_ok (e := ⟨slots, e.hash⟩) hs _
  obtain ⟨P, hP, hPv⟩ := str_of_linv he hi.cfg hi.inv
  obtain ⟨x, num, eff, a, b, v1, v2, v3, v4, v5, v6⟩ := hd.saved
  have h0 : KRel (locks ρ e d.st.cfg slots) e d.st.cfg t.pre t.mid t.mem.log t.view (totalSize t.cfg a) (ofState d.st) ⟨fun _ => t.view, [], false⟩
      (List.replicate n ⟨0, .idle⟩) := by
    refine ⟨t.lay, P, fun _ => none, ?_, ⟨a, b, v5, by rw [hcf]⟩, ?_, ⟨[], ?_, rfl⟩, ?_, ?_, ?_, ?_⟩
    · show d.st.bad = false; rw [est]; exact hi.ok
    · show d.st.file = _; rw [est]; rfl
    · show d.st.mem.log = _; rw [est]; simp [LSt.toState]
    · show Str e d.st.cfg t.lay (poolOf d.st.cfg d.st.mem.fbp) P _
      rw [est]; exact hP
    · intro i hlt _
      rw [hcf] at hlt ⊢
      refine ⟨rfl, fun k hk => hPv i hlt k hk, fun _ k _ => rfl⟩
    · intro u id cl h rest r x hth
      have := List.eq_of_mem_replicate (List.mem_of_getElem? hth)
      cases this
    · obtain ⟨z1, z2⟩ := idle_sums (l := List.replicate n (⟨0, .idle⟩ : Thread ρ (Inner ρ))) fun th hth => by
        rw [List.eq_of_mem_replicate hth]
      rw [z1, z2, Int.add_zero, Int.add_zero]
      show t.view.Counted d.st.mem.num d.st.mem.eff
      rw [est]; exact hi.counted
  have hfin : Fit d.st.cfg (run e slots d.st n es).mem := hroom.1
  have hG : Good (locks ρ e d.st.cfg slots) opD _ _ (run e slots d.st n es) := (hash_sim C t.mem.log t.view (totalSize t.cfg a)).run hok opD_ok h0 es hf (by
    rintro pre suf rfl
    refine Nat.le_trans ?_ hfin
    show _ ≤ (TwoPhase.run (locks ρ e d.st.cfg slots) (body e d.st.cfg) (ofState d.st) n (pre ++ suf)).mem.file.length
    rw [TwoPhase.run, TwoPhase.run, List.foldl_append]
    exact run_len _ _)
  generalize run e slots d.st n es = s at hG hroom hfin
  obtain ⟨mm, ord, A, lg, ⟨lay, P', X, hK⟩, _, hm⟩ := hG
  refine ⟨hK.bad, ord, _, hm.exp, serial_glob (e := e) (c := d.st.cfg) hm.ser, fun hq => ?_⟩
  have hreg : mm.reg = A := by
    funext i
    refine hm.free i fun j th h => ?_
    simp only [absS, List.getElem?_map] at h
    obtain ⟨th', h1, rfl⟩ := Option.map_eq_some_iff.1 h
    have := hq th' (List.mem_of_getElem? h1)
    simp only [absT, this, absPc, bodyHeld]
    simp
  have hqi := fun i hi => hK.quiet i hi (idle_work hq i)
  obtain ⟨l1, l2⟩ := linv_of_str (pool := s.mem.fbp) C.cfg C.range hK.str (fun i hi => (hqi i hi).1) (fun i hi => (hqi i hi).2.1) (fun i hi => (hqi i hi).2.2)
  obtain ⟨l, hl, hl'⟩ := hK.log
  have hcnt := hK.count
  rw [(idle_sums hq).1, (idle_sums hq).2, Int.add_zero, Int.add_zero] at hcnt
  refine ⟨⟨d.st.cfg, t.pre, t.mid, lay, ⟨s.mem.fbp, s.mem.num, s.mem.eff, s.mem.log⟩, false⟩, ⟨⟨?_, ?_, hd.extra⟩, ?_⟩, ?_, l, hl, ?_⟩
  · simp only [after, LSt.toState, hK.bad, hK.file]
  · exact ⟨rfl, C.cfg, C.frame, l1, by show (contents lay.recs).Counted _ _; rw [l2]; exact hcnt⟩
  · obtain ⟨a', b', w1, w2⟩ := hK.bnd
    refine ⟨x, num, eff, a', b', v1, v2, v3, ?_, w1, ?_⟩
    · show recordBase d.st.cfg + totalSize d.st.cfg a' < _; rw [w2, hcf]; exact v4
    · show t.pre = metaBytes x d.st.cfg false num eff (recordBase d.st.cfg + totalSize d.st.cfg a'); rw [w2, hcf]; exact v6
  · show contents lay.recs = _; rw [l2, hreg]
  · rw [hl', hreg]

/-- C73: on a HashDBM in either update mode, after any history of calls on a new file, let any number of threads call `Process` and
`ProcessMulti` at once, in any schedule of their single accesses to the file, the free block pool, the counters and the update log. The
file is never misread, and there is an order of the calls that agrees with what each of them returned and with which came after which,
such that the calls done one after the other in this order have these outcomes. When no call is under way, the record count, the effective
data size and the update log are those of the records then, and every further history of calls, including `Rebuild` and closing and
reopening the file, has the outcomes of the same history on these records. The conditions: the records are within the size limits and the
files are not too large for the offset width. -/
theorem C73_hash_linearizable (he : EnvOk e) {tunes : Int → Tune} (ht : ∀ n, (tunes n).Ok) {c : Cfg} (hc : CfgOk c) {x : Extra} (hx : x.Ok)
    {d0 : Db} {healthy : Bool} (h0 : openImpl x c [] = some (d0, healthy)) (ops : List SOp) (hroom : RunRoom e tunes d0 ops)
    (hf : SRunFits Dict.empty ops) {d : Db} (hd : (Verif.run (step e tunes) d0 ops).1 = d) {slots : Nat} (hs : 0 < slots) (n : Nat)
    (es : List (Nat × Act ρ Unit)) (hfe : EventsFit es) (hre : (after d (run e slots d.st n es)).st.Room) :
    (run e slots d.st n es).mem.bad = false ∧
    ∃ ord f, Explains ord (run e slots d.st n es).hist ∧ Serial (Verif.run sstep Dict.empty ops).1 ord f ∧
      (Quiet (run e slots d.st n es) →
        f.Counted (run e slots d.st n es).mem.num (run e slots d.st n es).mem.eff ∧
        Dict.empty.replay (run e slots d.st n es).mem.log = f ∧
        (∀ k, (Api.get (dbImpl e) (after d (run e slots d.st n es)) k).2 =
          match f k with | some v => (.success, some v) | none => (.notFound, none)) ∧
        ∀ ops2, RunRoom e tunes (after d (run e slots d.st n es)) ops2 → SRunFits f ops2 →
          (Verif.run (step e tunes) (after d (run e slots d.st n es)) ops2).2 = (Verif.run sstep f ops2).2 ∧
          (Verif.run (step e tunes) (after d (run e slots d.st n es)) ops2).1.st.bad = false) := by
  obtain ⟨_, _, t, h1, _, h2, h3⟩ := session_dictionary he ht hc hx h0 ops hroom hf
  rw [hd] at h1
  obtain ⟨r1, ord, f, r2, r3, r4⟩ := reach (ρ := ρ) he hs h1 n es hfe hre
  rw [show (Verif.run sstep Dict.empty ops).1 = t.view by rw [← h2]]
  refine ⟨r1, ord, f, r2, r3, fun hq => ?_⟩
  obtain ⟨t', g1, rfl, l, g2, g3⟩ := r4 hq
  have est := g1.st
  refine ⟨?_, ?_, view_get he g1 hre, fun ops2 q1 q2 => ?_⟩
  · have := g1.inv.counted
    rwa [show t'.mem = (after d (run e slots d.st n es)).st.mem by rw [est]; rfl] at this
  · rw [show (run e slots d.st n es).mem.log = (after d (run e slots d.st n es)).st.mem.log from rfl, est]
    show Dict.empty.replay t'.mem.log = _
    rw [g2, Verif.OMap.replay_append, h3, g3]
  · obtain ⟨t2, k1, k2, _⟩ := run_spec he ht ops2 g1 q1 q2
    refine ⟨by rw [← k2], ?_⟩
    rw [k1.st]; exact k1.inv.ok

end

end Verif.Hash.Conc
