import Verif.Dbm.TwoPhaseSim
import Verif.Dbm.TwoPhaseLive
import Verif.Tiny.ConcSim
import Verif.Shard.Props
/-
Concurrent calls of ShardDBM (tkrzw_dbm_shard.cc): `ProcessMulti` locks all its keys in the first shard and works through the shards one
record after the other; the methods for one record, and `CompareExchangeMulti`, lock in the shards of their keys only.

The shards are any database `D` of which a call of `Process` or `ProcessMulti` takes effect at once, as C72 and C73 say of TinyDBM and
HashDBM; the first one has the record locks of these classes. The update logs of the shards are left out.
-/
namespace Verif.Shard.Conc
open Verif Verif.TwoPhase

section
variable {σ ρ : Type} (hash : Bytes → Nat → Nat) (D : DbmImpl σ)

/-- What `ProcessMulti` does between locking and unlocking in the first shard (tkrzw_dbm_shard.cc 217-246): the next processor is run, by the
first shard itself or by a `Delegator` that calls `Process` of the shard of its key. -/
def body : Body (State σ) ρ Unit Unit where
  start := ()
  done := fun rest _ => rest.isEmpty
  step := fun m _ w rest r x =>
    match rest with
    | [] => (m, rest, r, x)
    | (k, p) :: rest' =>
      let y := process hash D m k w (p r)
      (y.1, rest', y.2, x)

/-- The calls that lock in the first shard: `ProcessMulti`, and `Process` for a key of the first shard (tkrzw_dbm_shard.cc 152-159). -/
def inFirst (shards : Nat) : Nat × Act ρ Unit → Bool
  | (_, .call c) => c.multi || c.pairs.all fun kp => hash kp.1 shards == 0
  | (_, .go _) => true

/-- The threads that make such calls; the first of the shards has `nb` buckets. -/
def run (e : HashMutex.Env) (nb : Nat) (st : State σ) (n : Nat) (es : List (Nat × Act ρ Unit)) : Sys (State σ) ρ Unit :=
  TwoPhase.run (Tiny.Conc.locks ρ e nb) (body hash D) st n (es.filter (inFirst hash st.shards.length))

/-- A thread makes a call of `ProcessMulti` or goes on, or a thread makes a call that locks in one other shard only. -/
inductive Ev (ρ : Type) where
  | multi (ev : Nat × Act ρ Unit)
  | other (i : Nat) (c : Call ρ)

/-- A call that is done by the shard `i` alone: `Process` for a key of it (tkrzw_dbm_shard.cc 152-159), or `CompareExchangeMulti` for keys of
it (252-378). No thread that is in `ProcessMulti` of the ShardDBM has a lock of this shard between two steps, so nothing is in its way, and it
can begin and return between them. -/
def otherCall (s : Sys (State σ) ρ Unit) (i : Nat) (c : Call ρ) : Sys (State σ) ρ Unit :=
  match s.mem.shards[i]? with
  | none => s
  | some t =>
    let y := D.processMulti t c.pairs c.writable c.init
    { s with mem := { s.mem with shards := s.mem.shards.set i y.1 }, next := s.next + 1, hist := s.hist ++ [.inv s.next c, .ret s.next y.2] }

/-- A step of either kind; `shards` is the number of shards. -/
def mixStep (e : HashMutex.Env) (nb shards : Nat) (s : Sys (State σ) ρ Unit) : Ev ρ → Sys (State σ) ρ Unit
  | .multi ev => if inFirst hash shards ev then TwoPhase.step (Tiny.Conc.locks ρ e nb) (body hash D) s ev else s
  | .other i c => if 0 < i ∧ ∀ kp ∈ c.pairs, hash kp.1 shards = i then otherCall D s i c else s

/-- Both kinds of calls. -/
def mix (e : HashMutex.Env) (nb : Nat) (st : State σ) (n : Nat) (es : List (Ev ρ)) : Sys (State σ) ρ Unit :=
  es.foldl (mixStep hash D e nb st.shards.length) (start st n)

/-- SPECIFICATION: no call is under way. -/
def Quiet (s : Sys (State σ) ρ Unit) : Prop := ∀ th ∈ s.threads, th.pc = .idle

/-- SPECIFICATION: the values that a call can store are within the size limits of the shards. -/
def CallFits (fits : Bytes → Bytes → Prop) (c : Call ρ) : Prop := ∀ kp ∈ c.pairs, ∀ r o, ActFits fits kp.1 (kp.2 r o).1

end

section
variable {σ ρ : Type} {hash : Bytes → Nat → Nat} {D : DbmImpl σ} {inv : σ → Prop} {vw : σ → Dict} {fits : Bytes → Bytes → Prop}

/-- A processor call on the records of one lock. -/
def opD (d : Dict) (k : Bytes) (w : Bool) (p : ProcR ρ) : Option (Dict × ρ × List LogOp) := some ((d.process k w p).1, (d.process k w p).2, [])

theorem opD_ok : OpOk (opD (ρ := ρ)) where
  ro := fun x k p y h => by cases h; exact ⟨rfl, rfl⟩
  keyed := fun x k w p y h e he => by cases h; cases he

/-- The records. -/
def glue (loc : Bytes → Nat) (A : Nat → Dict) : Dict := fun k => A (loc k) k

theorem glue_process (loc : Bytes → Nat) (A : Nat → Dict) (k : Bytes) (w : Bool) (p : ProcR ρ) :
    (glue loc A).process k w p = (glue loc (upd A (loc k) ((A (loc k)).process k w p).1), ((A (loc k)).process k w p).2) := by
  unfold Dict.process
  refine Prod.ext ?_ rfl
  funext k'
  show (if w then (glue loc A).act k (p (A (loc k) k)).1 else glue loc A) k' =
    (if loc k' = loc k then (if w then (A (loc k)).act k (p (A (loc k) k)).1 else A (loc k)) else A (loc k')) k'
  by_cases hl : loc k' = loc k
  · rw [if_pos hl]
    cases w with
    | false => show A (loc k') k' = A (loc k) k'; rw [hl]
    | true =>
      simp only [if_true]
      cases (p (A (loc k) k)).1 <;> simp only [Dict.act, Dict.upd, glue, hl]
  · rw [if_neg hl]
    have hk : k' ≠ k := fun h => hl (by rw [h])
    cases w with
    | false => rfl
    | true =>
      simp only [if_true]
      cases (p (A (loc k) k)).1 <;> simp only [Dict.act, Dict.upd, if_neg hk, glue]

theorem SP_dict {loc : Bytes → Nat} {A : Nat → Dict} {w : Bool} {r0 : ρ} {dn : List (Bytes × ProcS ρ)} {T : Nat → Dict} {r : ρ} {lg : List LogOp}
    (h : SP loc opD A w r0 dn T r lg) : (glue loc A).processMulti dn w r0 = (glue loc T, r) := by
  induction h with
  | nil => rfl
  | @snoc dn T r lg k p y _ h2 ih =>
    rw [Tiny.Conc.processMulti_snoc, ih]
    simp only
    rw [glue_process]
    cases h2
    rfl

theorem serial_dict {loc : Bytes → Nat} {A0 A : Nat → Dict} {ord : List (Nat × Call ρ × ρ)} {lg : List LogOp} (h : SerialR loc opD A0 ord A lg) :
    Serial (glue loc A0) ord (glue loc A) := by
  induction h with
  | nil => rfl
  | @snoc ord A lg id c T r l _ hsp ih =>
    have := Tiny.Conc.serial_snoc _ _ _ id c r ih (by rw [SP_dict hsp])
    rwa [SP_dict hsp] at this

/-- The shards stand for the records of all locks. -/
def K (hash : Bytes → Nat → Nat) (inv : σ → Prop) (vw : σ → Dict) (loc : Bytes → Nat) (m : State σ) (mm : MMem Dict) (_ : List (Thread ρ Unit)) : Prop :=
  Inv hash inv vw m ∧ view hash vw m.shards = glue loc mm.reg

theorem sim (hh : HashOk hash) (hL : Lawful D inv vw fits) (L : Locks ρ) :
    Sim L (body hash D) opD (K hash inv vw L.loc) (fun _ => True) (CallFits fits) where
  done := fun rest x h => by simpa [body] using h
  move := fun h _ _ _ => h
  body := by
    intro mem mm ts t id c h rest r x a hK _ _ hfit hsub hd _ _
    cases rest with
    | nil => simp [body] at hd
    | cons kp rest =>
      obtain ⟨k, p⟩ := kp
      obtain ⟨h1, h2⟩ := hK
      have := process_inv hh hL mem k c.writable (p r) h1 (hfit (k, p) (hsub _ (by simp)) _ _)
      rw [h2, glue_process] at this
      refine .inr ⟨k, p, rest, _, rfl, rfl, ?_, rfl, this.1, ?_⟩
      · exact congrArg Prod.snd this.2
      · exact congrArg Prod.fst this.2

/-- C79: any number of threads call `ProcessMulti` of a ShardDBM, or `Process` for keys of its first shard: there is an order of the calls
that agrees with the history, and the calls done one after the other in this order have these outcomes, whichever shards their keys belong
to. When no call is under way, the shards have the records that this order leaves. -/
theorem C79_multi_linearizable_partial (hh : HashOk hash) (hL : Lawful D inv vw fits) {st : State σ} (h0 : Inv hash inv vw st)
    {e : HashMutex.Env} (he : 0 < e.slots) (nb n : Nat) (es : List (Nat × Act ρ Unit)) (hf : ∀ t c, (t, Act.call c) ∈ es → CallFits fits c) :
    let s := run hash D e nb st n es
    Inv hash inv vw s.mem ∧ ∃ ord f, Explains ord s.hist ∧ Serial (view hash vw st.shards) ord f ∧
      (Quiet s → view hash vw s.mem.shards = f) := by
  intro s
  have hg := (sim (ρ := ρ) hh hL (Tiny.Conc.locks ρ e nb)).run (Tiny.Conc.locks_ok he nb) opD_ok (m0 := st) (n := n)
    (A0 := fun i k => view hash vw st.shards k) ⟨h0, rfl⟩ (es.filter (inFirst hash st.shards.length))
    (fun t c h => hf t c (List.mem_filter.1 h).1) (fun _ _ _ => trivial)
  obtain ⟨mm, ord, A, lg, ⟨k1, k2⟩, hb, hm⟩ := hg
  refine ⟨k1, ord, glue _ A, hm.exp, serial_dict hm.ser, fun hq => ?_⟩
  rw [show view hash vw s.mem.shards = _ from k2]
  funext k
  have := hm.free (e.hash k nb) fun j th hj => by
    simp only [absS, List.getElem?_map, Option.map_eq_some_iff] at hj
    obtain ⟨th', h1, rfl⟩ := hj
    have := hq th' (List.mem_of_getElem? h1)
    simp only [absT, this, absPc, bodyHeld]
    simp
  exact congrFun this k

/-- C79: these calls never wait for one another in a circle. -/
theorem C79_multi_no_deadlock (e : HashMutex.Env) (nb : Nat) (st : State σ) (n : Nat) (es : List (Nat × Act ρ Unit)) (h1 : Single es) :
    NoDeadlock (run hash D e nb st n es) :=
  no_deadlock (asc_run _ _ _ fun t c hc => order_sorted e nb c (h1 t c (List.mem_filter.1 hc).1))

end

end Verif.Shard.Conc
