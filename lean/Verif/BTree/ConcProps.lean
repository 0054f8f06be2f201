import Verif.BTree.ConcStep
/-
C76: concurrent calls of BabyDBM and TreeDBM.
-/
namespace Verif.BTree.Conc
open Verif
open Verif.TwoPhase (Call HEv Locks MInv SP SerialR ThOk OpOk MMem aBody Explains Serial get_set)

section
variable {ρ : Type}

theorem sp_dict {A : Nat → Option Bytes} {w : Bool} {r0 : ρ} {dn : List (Bytes × ProcS ρ)} {T : Nat → Option Bytes} {r : ρ} {l : List LogOp}
    (h : SP enc opT A w r0 dn T r l) : ((fun k => T (enc k)), r) = Dict.processMulti (fun k => A (enc k)) dn w r0 := by
  induction h with
  | nil => rfl
  | @snoc dn T r lg k p y _ h2 ih =>
    rw [Tiny.Conc.processMulti_snoc, ← ih]
    simp only [opT, Option.some.injEq] at h2
    subst h2
    have hself : ∀ x, T (enc k) = x → (fun j => TwoPhase.upd T (enc k) x (enc j)) = fun j => T (enc j) := by
      intro x hx; rw [TwoPhase.upd_self hx.symm]
    have hupd : ∀ x, (fun j => TwoPhase.upd T (enc k) x (enc j)) = Dict.upd (fun j => T (enc j)) k x := by
      intro x
      funext j
      have : enc j = enc k ↔ j = k := ⟨fun h => by rw [← dec_enc j, h, dec_enc], fun h => by rw [h]⟩
      simp only [TwoPhase.upd, Dict.upd, this]
    simp only [Dict.process]
    cases w with
    | false => simp only [Bool.false_eq_true, if_false]; rw [hself _ rfl]
    | true =>
      simp only [if_true]
      cases ha : (p r (T (enc k))).1 with
      | noop => simp only [Dict.act]; rw [hself _ rfl]
      | set v => simp only [Dict.act]; rw [hupd]
      | remove =>
        simp only [Dict.act]
        cases hx : T (enc k) with
        | none => simp only; rw [← hupd]
        | some z => simp only; rw [hupd]

theorem serial_dict {A0 A : Nat → Option Bytes} {ord : List (Nat × Call ρ × ρ)} {l : List LogOp}
    (h : SerialR enc opT A0 ord A l) : Serial (fun k => A0 (enc k)) ord (fun k => A (enc k)) := by
  induction h with
  | nil => rfl
  | snoc _ h2 ih =>
    have h3 := sp_dict h2
    rw [show (fun k => _) = _ from congrArg Prod.fst h3]
    exact Tiny.Conc.serial_snoc _ _ _ _ _ _ ih (by rw [← h3])

theorem cinv_start {P : Par} {t : State} {L : Layer} {u : OMap.St} (hs : Sim P.cfg t L u) (hl : t.lastOk = true) (hg : OMap.Logged P.cfg.lt u) (n : Nat) :
    CInv P (fun i => OMap.dict P.cfg.lt u.recs (dec i)) u.iters (start (ρ := ρ) t n) L [] (fun i => OMap.dict P.cfg.lt u.recs (dec i)) [] := by
  refine ⟨hs.inv, ?_, rfl, fun _ _ _ => rfl, ?_, ?_, hl, hs.iters, ?_⟩
  · have := TwoPhase.minv_start (ρ := ρ) (locks P.cfg L) opT (fun i => OMap.dict P.cfg.lt u.recs (dec i)) n
    unfold absSys
    simp only [start, absMem, hs.recs, List.map_replicate]
    exact this
  · intro _ th hth
    rw [List.eq_of_mem_replicate hth]
    simp [Pc.refs]
  · intro th hth
    rw [List.eq_of_mem_replicate hth]
    trivial
  · show Dict.empty.replay t.log = OMap.dict P.cfg.lt (contents t.leaves L)
    rw [hs.recs, hs.log]; exact hg.2.symm

theorem cinv_run {P : Par} (hc : P.cfg.Ok) (hi : ∀ a b, eqv P.cfg.lt a b = true → a = b) {A0 its : Nat → Option Bytes} (es : List (Nat × Act ρ)) : ∀ {s : Sys ρ} {L : Layer}
    {ord : List (Nat × Call ρ × ρ)} {A : Nat → Option Bytes} {lgA : List LogOp}, CInv P A0 its s L ord A lgA → (P.paged = true → Calm P s es) →
    ∃ L' ord' A' lg', CInv P A0 its (es.foldl (step P) s) L' ord' A' lg' := by
  induction es with
  | nil => intro s L ord A lgA h _; exact ⟨L, ord, A, lgA, h⟩
  | cons ev es ih =>
    intro s L ord A lgA h hcalm
    obtain ⟨L', o, A', l', h1⟩ := cinv_step hc hi h ev fun hp => (hcalm hp).1
    exact ih h1 fun hp => (hcalm hp).2

/-- What is to be shown of the threads `s` that began on the ordered database `u0`. -/
def Linearizable (c : Cfg) (own : Bool) (u0 : OMap.St) (s : Sys ρ) : Prop :=
  s.mem.fault = false ∧ Dict.empty.replay s.mem.tree.log = OMap.dict c.lt (records s.mem.tree) ∧
  ∃ ord f, Explains ord s.hist ∧ Serial (OMap.dict c.lt u0.recs) ord f ∧
    (Quiet s → ∃ u : OMap.St, u.recs = records s.mem.tree ∧ OMap.dict c.lt u.recs = f ∧ OrdMap.Sorted c.lt u.recs ∧ u.iters = u0.iters ∧ u.log = s.mem.tree.log ∧
      s.mem.tree.count = u.recs.length ∧
      ∀ {ω : Type} (l : List (OMap.Call ω)), ∃ t outs u', calls c own s.mem.tree l = some (t, outs) ∧ outs.map (·.1) = l ∧ OMap.History c.lt c.firstWrites u outs u')

theorem linearizable {P : Par} (hc : P.cfg.Ok) (hi : ∀ a b, eqv P.cfg.lt a b = true → a = b) (own : Bool) {t : State} {L : Layer} {u : OMap.St} (hs : Sim P.cfg t L u)
    (hl : t.lastOk = true) (hg : OMap.Logged P.cfg.lt u) (n : Nat) (es : List (Nat × Act ρ)) (hcalm : P.paged = true → Calm P (start t n) es) :
    Linearizable P.cfg own u (run P t n es) := by
  obtain ⟨L', ord, A, lg, h⟩ := cinv_run hc hi es (cinv_start hs hl hg n) hcalm
  have h : CInv P (fun i => OMap.dict P.cfg.lt u.recs (dec i)) u.iters (run P t n es) L' ord A lg := h
  generalize run P t n es = s at h
  have hrec := records_eq h.inv
  refine ⟨h.fault, by rw [hrec]; exact h.logd, ord, fun k => A (enc k), h.minv.exp, ?_, fun hq => ?_⟩
  · have := serial_dict h.minv.ser
    simpa only [dec_enc] using this
  · have hfree : ∀ i, OMap.dict P.cfg.lt (contents s.mem.tree.leaves L') (dec i) = A i := by
      intro i
      refine h.minv.free i fun j th hj => ?_
      simp only [absSys, List.getElem?_map] at hj
      obtain ⟨th', h1, rfl⟩ := Option.map_eq_some_iff.1 hj
      have := hq th' (List.mem_of_getElem? h1)
      simp only [absTh, this, absPc, TwoPhase.bodyHeld]
      simp
    have hsim : Sim P.cfg s.mem.tree L' ⟨records s.mem.tree, u.iters, s.mem.tree.log⟩ := ⟨h.inv, hrec.symm, h.iters, rfl⟩
    refine ⟨⟨records s.mem.tree, u.iters, s.mem.tree.log⟩, rfl, ?_, ?_, rfl, rfl, ?_, fun l => ?_⟩
    · funext k
      rw [← hfree (enc k), dec_enc, ← hrec]
    · show OrdMap.Sorted P.cfg.lt (records s.mem.tree)
      rw [hrec]; exact contents_sorted hc.weak h.inv.lower
    · show s.mem.tree.count = (records s.mem.tree).length
      rw [hrec]; exact h.inv.count.1
    · obtain ⟨s', outs, L2, t2, h1, h2, h3, _⟩ := calls_sim hc own l _ _ _ hsim (fun _ _ _ => h.lastOk)
      exact ⟨s', outs, t2, h1, h2, h3⟩

/-- C76 (BabyDBM): after any history of calls, let any number of threads call `Process` and `ProcessMulti` at once, in any schedule. No thread follows a dangling pointer,
the update log gives the contents at every moment, and there is an order of the calls that agrees with what each of them returned and with which came after which,
such that the calls done one after the other in this order have these outcomes. When no call is under way, the record count is right, the iterators are where they
were, and every further history of calls has the outcomes of the same history on the records that the calls in this order leave. The comparator tells all keys apart. -/
theorem C76_baby_linearizable {lt : Bytes → Bytes → Bool} (hw : StrictWeak lt) (hi : ∀ a b, eqv lt a b = true → a = b) (pick : List (Nat × Bytes) → Nat) {ω : Type}
    (ops : List (OMap.Call ω)) (write : Bool) :
    ∃ t0 outs0 u0, calls (babyCfg lt pick) true (init (babyCfg lt pick)) ops = some (t0, outs0) ∧ outs0.map (·.1) = ops ∧ OMap.History lt true OMap.St.empty outs0 u0 ∧
      ∀ (n : Nat) (es : List (Nat × Act ρ)), Linearizable (babyCfg lt pick) true u0 (run ⟨babyCfg lt pick, false, write⟩ t0 n es) := by
  have hc := babyCfg_ok hw pick
  obtain ⟨s, outs, L, t, h1, h2, h3, h4, hk⟩ := calls_sim hc true ops (init (babyCfg lt pick)) _ _ (init_sim _) (fun _ _ _ => rfl)
  have hg := OMap.history_logged hw hi outs OMap.St.empty t ⟨List.Pairwise.nil, rfl⟩ h3
  exact ⟨s, outs, t, h1, h2, h3, fun n es => linearizable (P := ⟨babyCfg lt pick, false, write⟩) hc hi true h4 (hk rfl) hg n es (by simp)⟩

/-- C76 (TreeDBM, in part): the same for TreeDBM, with any page size and number of branches, whether or not every update is written to its page at once, if no thread
drops a leaf from the cache while another one has read its page and not yet put it into the cache. Without this condition it is false
(`C76_tree_lost_update_violated`). -/
theorem C76_tree_linearizable_partial {lt : Bytes → Bytes → Bool} (hw : StrictWeak lt) (hi : ∀ a b, eqv lt a b = true → a = b) (maxPage branch : Nat)
    (pick : List (Nat × Bytes) → Nat) {ω : Type} (ops : List (OMap.Call ω)) (write : Bool) :
    ∃ t0 outs0 u0, calls (treeCfg lt maxPage branch pick) false (init (treeCfg lt maxPage branch pick)) ops = some (t0, outs0) ∧ outs0.map (·.1) = ops ∧
      OMap.History lt false OMap.St.empty outs0 u0 ∧
      ∀ (n : Nat) (es : List (Nat × Act ρ)), Calm ⟨treeCfg lt maxPage branch pick, true, write⟩ (start t0 n) es →
        Linearizable (treeCfg lt maxPage branch pick) false u0 (run ⟨treeCfg lt maxPage branch pick, true, write⟩ t0 n es) := by
  have hc := treeCfg_ok hw maxPage branch pick
  obtain ⟨s, outs, L, t, h1, h2, h3, h4, hk⟩ := calls_sim hc false ops (init (treeCfg lt maxPage branch pick)) _ _ (init_sim _) (fun _ _ _ => rfl)
  have hg := OMap.history_logged hw hi outs OMap.St.empty t ⟨List.Pairwise.nil, rfl⟩ h3
  exact ⟨s, outs, t, h1, h2, h3, fun n es hcm => linearizable (P := ⟨treeCfg lt maxPage branch pick, true, write⟩) hc hi false h4 (hk rfl) hg n es fun _ => hcm⟩

end

end Verif.BTree.Conc
