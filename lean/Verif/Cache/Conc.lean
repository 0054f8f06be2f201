import Verif.Dbm.Slotted
import Verif.Cache.History
/-
Concurrent calls of `Process` and `ProcessMulti` of CacheDBM.
-/
namespace Verif.Cache
open Verif
open Verif.TwoPhase (Call HEv Sys MMem Explains SP SerialR about about_append upd)
open Verif.Slotted (Slots Act Keyed XInv)

namespace Conc

section
variable {ρ : Type}

/-- `CacheSlot::ProcessImpl` (tkrzw_dbm_cache.cc 303-412) as a step on a slot. -/
def op (E : Env) (s : Slot) (k : Bytes) (w : Bool) (p : ProcR ρ) : Option (Slot × ρ × List LogOp) :=
  (s.process E k w p).map fun y => (y.1, y.2.2, y.2.1)

/-- The slots that a call locks (tkrzw_dbm_cache.cc 673-677, 685-693): those of its keys, each once, in the order of their addresses. -/
def slots (E : Env) : Slots ρ where
  slot := E.slotOf
  order := fun c => (List.range numSlots).filter fun i => c.pairs.any fun kp => E.slotOf kp.1 == i

/-- `n` threads call a database that is in the state `st`. -/
def run (E : Env) (st : State) (n : Nat) (es : List (Nat × Act ρ)) : Sys (MMem Slot) ρ Unit := Slotted.run (slots E) (op E) st.slots n es

/-- The values that calls can store are not larger than 2 GiB. -/
def CallsFit (es : List (Nat × Act ρ)) : Prop :=
  ∀ t c, (t, Act.call c) ∈ es → c.writable = true → ∀ kp ∈ c.pairs, ∀ r o, ActFits recFits kp.1 (kp.2 r o).1

def CallFits (c : Call ρ) : Prop := c.writable = true → ∀ kp ∈ c.pairs, ∀ r o, ActFits recFits kp.1 (kp.2 r o).1

/-- SPECIFICATION: no call is under way. -/
def Quiet {σ : Type} (s : Sys σ ρ Unit) : Prop := ∀ th ∈ s.threads, th.pc = .idle

/-- SPECIFICATION: the processors of one call, one after the other, on the lists of the partitions: each is given the value of its key, and
the list of the partition becomes what the rule of the cache says (`Spec.step`: the record used last is at the end, and records are dropped
from the front as long as the partition is above a limit). -/
def lruPairs (E : Env) (capRec capMem : Int) (w : Bool) : List (Bytes × ProcS ρ) → (Nat → List (Bytes × Bytes)) → ρ → (Nat → List (Bytes × Bytes)) × ρ
  | [], P, r => (P, r)
  | (k, p) :: rest, P, r =>
    lruPairs E capRec capMem w rest
      (setPart P (E.slotOf k) (Spec.step (slotCapRec capRec) (slotCapMem capMem) (P (E.slotOf k)) k w fun o => (p r o).1))
      (p r (Spec.get (P (E.slotOf k)) k)).2

/-- SPECIFICATION: whole calls, one after the other: they have these outcomes and leave the lists `P'`. -/
def SerialLru (E : Env) (capRec capMem : Int) (P : Nat → List (Bytes × Bytes)) : List (Nat × Call ρ × ρ) → (Nat → List (Bytes × Bytes)) → Prop
  | [], P' => P' = P
  | (_, c, r) :: rest, P' => (lruPairs E capRec capMem c.writable c.pairs P c.init).2 = r ∧
      SerialLru E capRec capMem (lruPairs E capRec capMem c.writable c.pairs P c.init).1 rest P'

/-- SPECIFICATION: whole calls, one after the other, on the database itself. -/
def SerialDb (E : Env) (s : State) : List (Nat × Call ρ × ρ) → State → Prop
  | [], s' => s' = s
  | (_, c, r) :: rest, s' => ((impl E).processMulti s c.pairs c.writable c.init).2 = r ∧
      SerialDb E ((impl E).processMulti s c.pairs c.writable c.init).1 rest s'

theorem SerialDb.snoc {E : Env} : ∀ {ord : List (Nat × Call ρ × ρ)} {s s1 : State}, SerialDb E s ord s1 → ∀ id c,
    SerialDb E s (ord ++ [(id, c, ((impl E).processMulti s1 c.pairs c.writable c.init).2)]) ((impl E).processMulti s1 c.pairs c.writable c.init).1
  | [], _, _, h, id, c => by cases h; exact ⟨rfl, rfl⟩
  | (_, c', r) :: ord, s, s1, h, id, c => ⟨h.1, SerialDb.snoc h.2 id c⟩

theorem SerialLru.snoc {E : Env} {a b : Int} : ∀ {ord : List (Nat × Call ρ × ρ)} {P P1}, SerialLru E a b P ord P1 → ∀ id c,
    SerialLru E a b P (ord ++ [(id, c, (lruPairs E a b c.writable c.pairs P1 c.init).2)]) (lruPairs E a b c.writable c.pairs P1 c.init).1
  | [], _, _, h, id, c => by cases h; exact ⟨rfl, rfl⟩
  | (_, c', r) :: ord, P, P1, h, id, c => ⟨h.1, SerialLru.snoc h.2 id c⟩

theorem lruPairs_snoc (E : Env) (a b : Int) (w : Bool) (k : Bytes) (p : ProcS ρ) : ∀ (l : List (Bytes × ProcS ρ)) P r,
    lruPairs E a b w (l ++ [(k, p)]) P r = lruPairs E a b w [(k, p)] (lruPairs E a b w l P r).1 (lruPairs E a b w l P r).2
  | [], _, _ => rfl
  | (k', p') :: l, P, r => lruPairs_snoc E a b w k p l _ _

theorem seqMulti_snoc (E : Env) (w : Bool) (k : Bytes) (p : ProcS ρ) : ∀ (l : List (Bytes × ProcS ρ)) (s : State) r,
    seqMulti (State.process E) s (l ++ [(k, p)]) w r =
      State.process E (seqMulti (State.process E) s l w r).1 k w (p (seqMulti (State.process E) s l w r).2)
  | [], _, _ => rfl
  | (k', p') :: l, s, r => seqMulti_snoc E w k p l _ _

theorem op_some {E : Env} {s : State} {P : Nat → List (Bytes × Bytes)} (h : StateOk E s P) (k : Bytes) (w : Bool) (p : ProcR ρ)
    (hf : w = true → ActFits recFits k (p (Spec.get (P (E.slotOf k)) k)).1) :
    ∃ y, op E (s.slots (E.slotOf k)) k w p = some y ∧ (s.process E k w p).1.slots = upd s.slots (E.slotOf k) y.1 ∧ (s.process E k w p).2 = y.2.1 ∧
      (s.process E k w p).1.log = s.log ++ y.2.2 := by
  obtain ⟨t, h1, h2, h3, h4⟩ := process_spec (h.slot (E.slotOf k)) k w p hf
  refine ⟨_, by unfold op; rw [h1]; rfl, ?_⟩
  unfold State.process State.processAt
  rw [h1]
  exact ⟨rfl, rfl, rfl⟩

/-- Processors run one after the other on slots of a good state. -/
theorem SP_state {E : Env} {st : State} {P : Nat → List (Bytes × Bytes)} (h : StateOk E st P) {w : Bool} {r0 : ρ} {dn : List (Bytes × ProcS ρ)}
    {T : Nat → Slot} {r : ρ} {lg : List LogOp} (hs : SP E.slotOf (op E) st.slots w r0 dn T r lg)
    (hf : w = true → ∀ kp ∈ dn, ∀ r o, ActFits recFits kp.1 (kp.2 r o).1) :
    let x := seqMulti (State.process E) st dn w r0
    let y := lruPairs E st.capRec st.capMem w dn P r0
    x.1.slots = T ∧ x.2 = r ∧ x.1.log = st.log ++ lg ∧ StateOk E x.1 y.1 ∧ y.2 = r ∧ x.1.capRec = st.capRec ∧ x.1.capMem = st.capMem := by
  induction hs with
  | nil => exact ⟨rfl, rfl, by simp [seqMulti], h, rfl, rfl, rfl⟩
  | @snoc dn T r lg k p y hs hop ih =>
    obtain ⟨i1, i2, i3, i4, i5, i6, i7⟩ := ih fun hw kp hk => hf hw kp (by simp [hk])
    have hk := fun hw => hf hw (k, p) (by simp)
    intro x z
    have hx : x = State.process E (seqMulti (State.process E) st dn w r0).1 k w (p (seqMulti (State.process E) st dn w r0).2) := seqMulti_snoc E w k p dn st r0
    have hz : z = _ := lruPairs_snoc E st.capRec st.capMem w k p dn P r0
    rw [hx, hz]
    generalize seqMulti (State.process E) st dn w r0 = x1 at *
    generalize lruPairs E st.capRec st.capMem w dn P r0 = z1 at *
    obtain ⟨y', j1, j2, j3, j4⟩ := op_some i4 k w (p x1.2) fun hw => hk hw _ _
    rw [i1, i2, hop] at j1
    cases j1
    obtain ⟨k1, k2, k3, k4, k5⟩ := i4.processAt k w (p x1.2) fun hw => hk hw _ _
    refine ⟨by rw [j2, i1], j3, by rw [j4, i3, List.append_assoc], ?_, ?_, by exact k3.trans i6, by exact k4.trans i7⟩
    · simp only [lruPairs]
      rw [i6, i7] at k5
      rw [i5, ← i2]
      exact k5
    · simp only [lruPairs]
      rw [← j3, i5, ← i2]
      exact k1.symm

/-- Calls run one after the other on slots of a good state. -/
theorem serial_state {E : Env} {st : State} {P : Nat → List (Bytes × Bytes)} (h : StateOk E st P) {ord : List (Nat × Call ρ × ρ)} {A : Nat → Slot}
    {lg : List LogOp} (hs : SerialR E.slotOf (op E) st.slots ord A lg) (hf : ∀ x ∈ ord, CallFits x.2.1) :
    ∃ st' P', SerialDb E st ord st' ∧ SerialLru E st.capRec st.capMem P ord P' ∧ StateOk E st' P' ∧ st'.slots = A ∧ st'.log = st.log ++ lg ∧
      st'.capRec = st.capRec ∧ st'.capMem = st.capMem := by
  induction hs with
  | nil => exact ⟨st, P, rfl, rfl, h, rfl, by simp, rfl, rfl⟩
  | @snoc ord A lg id c T r l hs hsp ih =>
    obtain ⟨st1, P1, i1, i2, i3, i4, i5, i6, i7⟩ := ih fun x hx => hf x (by simp [hx])
    subst i4
    obtain ⟨j1, j2, j3, j4, j5, j6, j7⟩ := SP_state i3 hsp (hf (id, c, r) (by simp))
    have k1 := i1.snoc id c
    have k2 := i2.snoc id c
    rw [i6, i7] at j4 j5
    rw [show ((impl E).processMulti st1 c.pairs c.writable c.init).2 = r from j2] at k1
    rw [j5] at k2
    exact ⟨_, _, k1, k2, j4, j1, by rw [← List.append_assoc, ← i5]; exact j3, j6.trans i6, j7.trans i7⟩

theorem keyed (E : Env) : Keyed (op (ρ := ρ) E) := by
  intro s k w p y h e he
  unfold op at h
  obtain ⟨z, hz, rfl⟩ := Option.map_eq_some_iff.1 h
  simp only at he
  unfold Slot.process at hz
  obtain ⟨⟨sl, r⟩, _, hz⟩ := Option.bind_eq_some_iff.1 hz
  simp only at hz
  split at hz
  · obtain ⟨m, _, hz⟩ := Option.bind_eq_some_iff.1 hz
    obtain ⟨n, _, hz⟩ := Option.bind_eq_some_iff.1 hz
    split at hz
    · split at hz
      · cases hz; simp at he
      · obtain ⟨_, _, rfl⟩ := Option.map_eq_some_iff.1 hz; simp at he; subst he; rfl
      · obtain ⟨_, _, rfl⟩ := Option.map_eq_some_iff.1 hz; simp at he; subst he; rfl
    · cases hz; simp at he
  · split at hz
    · split at hz
      · obtain ⟨_, _, rfl⟩ := Option.map_eq_some_iff.1 hz; simp at he; subst he; rfl
      · cases hz; simp at he
    · cases hz; simp at he

theorem slots_ok (E : Env) : (slots (ρ := ρ) E).Ok where
  cover := fun c kp h => by
    simp only [slots, List.mem_filter, List.mem_range, List.any_eq_true, beq_iff_eq]
    exact ⟨Nat.mod_lt _ (by decide), kp, h, rfl⟩

theorem run_inv {E : Env} {st : State} {P : Nat → List (Bytes × Bytes)} (h : StateOk E st P) (n : Nat) (es : List (Nat × Act ρ)) (hf : CallsFit es) :
    (run E st n es).mem.big = false ∧ ∃ ord A lg, XInv (slots E) (op E) st.slots (run E st n es) ord A lg := by
  have hist : ∀ (es es' : List (Nat × Act ρ)), CallsFit (es' ++ es) → ∀ id c, HEv.inv id c ∈ (run E st n es').hist → CallFits c := by
    intro es es' hf id c hi
    rcases Slotted.hist_called _ _ es' _ id c hi with h1 | ⟨t, h1⟩
    · simp [TwoPhase.start] at h1
    · exact hf t c (by simp [h1])
  suffices H : ∀ l : List (Nat × Act ρ), CallsFit l.reverse → (run E st n l.reverse).mem.big = false ∧
      ∃ ord A lg, XInv (slots E) (op E) st.slots (run E st n l.reverse) ord A lg by
    have := H es.reverse (by rw [List.reverse_reverse]; exact hf)
    rwa [List.reverse_reverse] at this
  intro l
  induction l with
  | nil => exact fun _ => ⟨rfl, _, _, _, Slotted.xinv_start _ _ _ _⟩
  | cons ev l ih =>
    intro hf
    rw [List.reverse_cons] at hf ⊢
    obtain ⟨h1, ord, A, lg, hx⟩ := ih fun t c hc => hf t c (by simp [hc])
    have e : run E st n (l.reverse ++ [ev]) = Slotted.step (slots E) (op E) (run E st n l.reverse) ev := by simp [run, Slotted.run]
    have hh := hist _ _ hf
    rw [e]
    generalize run E st n l.reverse = s at *
    have hb : (Slotted.step (slots E) (op E) s ev).mem.big = false := by
      unfold Slotted.step
      split
      · exact h1
      rename_i th hth
      split
      · exact h1
      · split <;> exact h1
      · exact h1
      · exact h1
      · rename_i c hd k p rest r _ hpc _
        have ht := hx.thr _ _ hth
        simp only [Slotted.XThOk, hpc] at ht
        obtain ⟨a1, a2, _, dn, T, lg', a4, a5, a6, _⟩ := ht
        have hfc := hh _ _ a2
        obtain ⟨st1, P1, _, _, i3, i4, _, _, _⟩ := serial_state h hx.ser fun x hx' => hh _ _ (hx.exp.called x hx')
        subst i4
        obtain ⟨j1, j2, _, j4, _⟩ := SP_state i3 a5 fun hw kp hk => hfc hw kp (by rw [a4]; simp [hk])
        obtain ⟨y, b1, _⟩ := op_some j4 k c.writable (p r) fun hw => hfc hw (k, p) (by rw [a4]; simp) _ _
        rw [j1] at b1
        have hk : (slots (ρ := ρ) E).slot k ∈ hd := by rw [a1]; exact (slots_ok E).cover c (k, p) (by rw [a4]; simp)
        rw [a6 _ hk]
        rw [show op E (T ((slots (ρ := ρ) E).slot k)) k c.writable (p r) = some y from b1]
        exact h1
      · exact h1
      · exact h1
      · exact h1
    exact ⟨hb, Slotted.xinv_step (slots_ok E) (keyed E) hx ev hb⟩

end

end Conc

open Conc

theorem conc_core {ρ : Type} (E : Env) (capRec capMem : Int) (h : List Op) (hf : Fits h) (n : Nat) (es : List (Nat × Act ρ))
    (hes : CallsFit es) :
    let st := Cache.run E (State.new capRec capMem) h
    let s := Conc.run E st n es
    s.mem.big = false ∧ ∃ ord st' P P', Explains ord s.hist ∧ Reached E h st P ∧ SerialDb E st ord st' ∧ SerialLru E st.capRec st.capMem P ord P' ∧
      StateOk E st' P' ∧ (Quiet s → s.mem.reg = st'.slots ∧ ∀ k, about k (st.log ++ s.mem.log) = about k st'.log) := by
  intro st s
  obtain ⟨P, hP⟩ := reached E capRec capMem h hf
  have hok : StateOk E st P := hP.toStateOk
  obtain ⟨hb, ord, A, lg, hx⟩ := run_inv hok n es hes
  have hcall : ∀ x ∈ ord, CallFits x.2.1 := fun x hx' => by
    rcases Slotted.hist_called _ _ es _ _ _ (hx.exp.called x hx') with h1 | ⟨t, h1⟩
    · simp [TwoPhase.start] at h1
    · exact hes t _ h1
  obtain ⟨st', P', a1, a2, a3, a4, a5, a6, a7⟩ := serial_state hok hx.ser hcall
  refine ⟨hb, ord, st', P, P', hx.exp, hP, a1, a2, a3, fun hq => ?_⟩
  have idle : ∀ (j : Nat) (th : TwoPhase.Thread ρ Unit), s.threads[j]? = some th → TwoPhase.bodyHeld th.pc = [] := fun j th hj => by
    rw [hq th (List.mem_of_getElem? hj)]; rfl
  refine ⟨?_, fun k => ?_⟩
  · funext i
    rw [a4]
    exact hx.free i fun j th hj => by rw [idle j th hj]; simp
  · rw [a5, about_append, about_append, hx.freeLog k fun j th hj => by rw [idle j th hj]; simp]

/-- C78: concurrent calls of CacheDBM: whatever the order of their steps, no memory is misused, and the calls have the outcomes of whole
calls made one after the other on the same database in an order that agrees with the history. When no call is under way, each partition is
as after these calls, and the update log has for each key the same lines in the same order. -/
theorem C78_cache_linearizable {ρ : Type} (E : Env) (capRec capMem : Int) (h : List Op) (hf : Fits h) (n : Nat) (es : List (Nat × Act ρ))
    (hes : CallsFit es) :
    let st := Cache.run E (State.new capRec capMem) h
    let s := Conc.run E st n es
    s.mem.big = false ∧ ∃ ord st', Explains ord s.hist ∧ SerialDb E st ord st' ∧ st'.bad = false ∧
      (Quiet s → s.mem.reg = st'.slots ∧ ∀ k, about k (st.log ++ s.mem.log) = about k st'.log) := by
  obtain ⟨hb, ord, st', P, P', h1, h2, h3, h4, h5, h6⟩ := conc_core E capRec capMem h hf n es hes
  exact ⟨hb, ord, st', h1, h3, h5.good, h6⟩

/-- C78: the outcomes are those of the rule of the cache: there is a serial order of the calls that agrees with the history, and in this
order each processor is given the value that the list of the partition of its key has, beginning with the records that the database had
(`look` is what `Get` gives) in the order of their last use. When no call is under way, `Get` and `Count` give what the lists have then. -/
theorem C78_cache_rule {ρ : Type} (E : Env) (capRec capMem : Int) (h : List Op) (hf : Fits h) (n : Nat) (es : List (Nat × Act ρ))
    (hes : CallsFit es) :
    let st := Cache.run E (State.new capRec capMem) h
    let s := Conc.run E st n es
    ∃ ord P P', Explains ord s.hist ∧ (∀ k, look E st k = Spec.get (P (E.slotOf k)) k) ∧
      (∀ i, ∀ e ∈ P i, E.slotOf e.1 = i ∧ look E st e.1 = some e.2) ∧
      (∀ i, (P i).Pairwise fun a b => UsedBefore h a.1 b.1) ∧ SerialLru E st.capRec st.capMem P ord P' ∧
      (Quiet s → (∀ k, look E { st with slots := s.mem.reg } k = Spec.get (P' (E.slotOf k)) k) ∧
        { st with slots := s.mem.reg }.count = (List.range numSlots).foldl (fun n i => n + (P' i).length) 0) := by
  intro st s
  obtain ⟨hb, ord, st', P, P', h1, h2, h3, h4, h5, h6⟩ := conc_core E capRec capMem h hf n es hes
  refine ⟨ord, P, P', h1, fun k => (look_eq h2.toStateOk k).1, fun i e he => ?_, h2.order, h4, fun hq => ?_⟩
  · have := h2.home i e he
    refine ⟨this, ?_⟩
    rw [(look_eq h2.toStateOk e.1).1, this]
    exact mem_get (h2.slot i).nodup he
  · obtain ⟨e1, _⟩ := h6 hq
    have e2 : ∀ k, look E { st with slots := s.mem.reg } k = look E st' k := by
      intro k
      unfold look Api.get impl
      simp only [State.process, State.processAt]
      rw [show s.mem.reg = st'.slots from e1]
      split <;> rfl
    refine ⟨fun k => by rw [e2, (look_eq h5 k).1], ?_⟩
    unfold State.count
    simp only
    rw [show s.mem.reg = st'.slots from e1]
    congr 1
    funext n i
    rw [(h5.slot i).num]

/-- C78: calls of CacheDBM never wait for one another in a circle: at every moment at which a call is under way, a thread with a call under
way can go on. -/
theorem C78_cache_no_deadlock {ρ : Type} (E : Env) (st : State) (n : Nat) (es : List (Nat × Act ρ)) : Slotted.NoDeadlock (Conc.run E st n es) :=
  Slotted.no_deadlock (Slotted.asc_run (fun _ => List.Pairwise.filter _ List.pairwise_lt_range) _ _ _)

end Verif.Cache
