import Verif.Dbm.Core
/-
Concurrent calls of `Process` and `ProcessMulti` of a database that has a lock for each part of its records: a call locks the slots of
its keys, runs its processors, and unlocks the slots. The threads and the locking are described here once; what a call does between
locking and unlocking is a parameter (`Body`), with as many steps as one likes.

The slots are reader/writer locks with mutual exclusion (C31, C32 are about the locks themselves). The lock of the whole database, which
these calls share, is never in their way; the methods that take it exclusively are not part of this.
-/
namespace Verif.TwoPhase
open Verif

/-- A call of `Process` (`multi = false`, one pair) or `ProcessMulti` (tkrzw_dbm.h 1007, 1369); `init` is what the variables of the
processors hold at first, and the outcome is what they hold at the end. -/
structure Call (ρ : Type) where
  pairs : List (Bytes × ProcS ρ)
  writable : Bool
  multi : Bool
  init : ρ

/-- Where a thread is; `ι` is where it is within the body. -/
inductive Pc (ρ ι : Type) where
  | idle
  | locking (c : Call ρ) (got todo : List Nat)
  | body (c : Call ρ) (held : List Nat) (rest : List (Bytes × ProcS ρ)) (r : ρ) (x : ι)
  | unlocking (c : Call ρ) (held : List Nat) (r : ρ)

/-- A thread and the number of its present call. -/
structure Thread (ρ ι : Type) where
  id : Nat
  pc : Pc ρ ι

/-- SPECIFICATION: what is seen from outside: a call begins, a call returns. -/
inductive HEv (ρ : Type) where
  | inv (id : Nat) (c : Call ρ)
  | ret (id : Nat) (r : ρ)

/-- The locking rule of a database: the part of the records that a key is in, the slot of a part, the slots that a call locks one after
the other, and those of them that it keeps while it works. -/
structure Locks (ρ : Type) where
  loc : Bytes → Nat
  slot : Nat → Nat
  order : Call ρ → List Nat
  keep : Call ρ → List Nat

/-- What a call does while it has its locks, on a memory `σ`: one step, where it begins, and when it is through. `α` is what a step may
choose freely (e.g. an address for a new block). -/
structure Body (σ ρ ι α : Type) where
  start : ι
  done : List (Bytes × ProcS ρ) → ι → Bool
  step : σ → α → Bool → List (Bytes × ProcS ρ) → ρ → ι → σ × List (Bytes × ProcS ρ) × ρ × ι

structure Sys (σ ρ ι : Type) where
  mem : σ
  threads : List (Thread ρ ι)
  next : Nat
  hist : List (HEv ρ)

/-- A thread makes a call, or goes on. -/
inductive Act (ρ α : Type) where
  | call (c : Call ρ)
  | go (a : α)

section
variable {σ ρ ι α : Type}

/-- The slots that a thread has locked. -/
def held : Pc ρ ι → List Nat
  | .locking _ got _ => got
  | .body _ h _ _ _ => h
  | .unlocking _ h _ => h
  | .idle => []

/-- Whether it has them exclusively. -/
def writer : Pc ρ ι → Bool
  | .locking c _ _ | .body c _ _ _ _ | .unlocking c _ _ => c.writable
  | .idle => false

/-- Whether thread `i` can lock the slot `k`: no other thread has it, or all that have it share it and so does `i`. -/
def canLock (ts : List (Thread ρ ι)) (i k : Nat) (w : Bool) : Bool :=
  (List.range ts.length).all fun j => match ts[j]? with
    | some th => j = i || !((held th.pc).contains k) || (!w && !writer th.pc)
    | none => true

/-- One step of one thread: `Process` and `ProcessMulti` around `ProcessImpl` (tkrzw_dbm_tiny.cc 279-285, 295-312); locking and
unlocking tkrzw_thread_util.h 1216-1229, 1246-1250, 1316-1354, where a slot locked only for the order is given up before the body. -/
def step (L : Locks ρ) (B : Body σ ρ ι α) (s : Sys σ ρ ι) (ev : Nat × Act ρ α) : Sys σ ρ ι :=
  match s.threads[ev.1]? with
  | none => s
  | some th =>
    match th.pc, ev.2 with
    | .idle, .call c =>
      { s with threads := s.threads.set ev.1 ⟨s.next, .locking c [] (L.order c)⟩, next := s.next + 1, hist := s.hist ++ [.inv s.next c] }
    | .locking c got (k :: todo), .go _ =>
      if canLock s.threads ev.1 k c.writable then { s with threads := s.threads.set ev.1 ⟨th.id, .locking c (got ++ [k]) todo⟩ } else s
    | .locking c _ [], .go _ => { s with threads := s.threads.set ev.1 ⟨th.id, .body c (L.keep c) c.pairs c.init B.start⟩ }
    | .body c h rest r x, .go a =>
      if B.done rest x then { s with threads := s.threads.set ev.1 ⟨th.id, .unlocking c h r⟩ }
      else
        let y := B.step s.mem a c.writable rest r x
        { s with mem := y.1, threads := s.threads.set ev.1 ⟨th.id, .body c h y.2.1 y.2.2.1 y.2.2.2⟩ }
    | .unlocking c (k :: h) r, .go _ => { s with threads := s.threads.set ev.1 ⟨th.id, .unlocking c (k :: h).dropLast r⟩ }
    | .unlocking _ [] r, .go _ => { s with threads := s.threads.set ev.1 ⟨th.id, .idle⟩, hist := s.hist ++ [.ret th.id r] }
    | _, _ => s

/-- `n` threads. -/
def start (m : σ) (n : Nat) : Sys σ ρ ι := ⟨m, List.replicate n ⟨0, .idle⟩, 0, []⟩

def run (L : Locks ρ) (B : Body σ ρ ι α) (m : σ) (n : Nat) (es : List (Nat × Act ρ α)) : Sys σ ρ ι := es.foldl (step L B) (start m n)

/-- The locks cover the keys of a call. -/
structure Locks.Ok (L : Locks ρ) : Prop where
  keep_order : ∀ c k, k ∈ L.keep c → k ∈ L.order c
  cover : ∀ c : Call ρ, ∀ kp ∈ c.pairs, L.slot (L.loc kp.1) ∈ L.keep c

end

/-! ### Specification: linearizability -/

/-- SPECIFICATION: call `a` has returned before call `b` begins. -/
def Precedes {ρ : Type} (h : List (HEv ρ)) (a b : Nat) : Prop :=
  ∃ h1 h2 r c, h = h1 ++ h2 ∧ HEv.ret a r ∈ h1 ∧ HEv.inv b c ∈ h2

/-- SPECIFICATION: an order of calls with outcomes that agrees with a history: every call is there at most once and has been made, all that
have returned are there with what they returned, and a call that returned before another began comes before it. -/
structure Explains {ρ : Type} (ord : List (Nat × Call ρ × ρ)) (h : List (HEv ρ)) : Prop where
  once : (ord.map (·.1)).Nodup
  called : ∀ x ∈ ord, HEv.inv x.1 x.2.1 ∈ h
  returned : ∀ id r, HEv.ret id r ∈ h → ∃ c, (id, c, r) ∈ ord
  realTime : ∀ o1 x o2, ord = o1 ++ x :: o2 → ∀ a, Precedes h a x.1 → a ∈ o1.map (·.1)

/-- SPECIFICATION: the calls, one after the other, on a dictionary: they have these outcomes and leave `d'`. -/
def Serial {ρ : Type} (d : Dict) : List (Nat × Call ρ × ρ) → Dict → Prop
  | [], d' => d' = d
  | (_, c, r) :: rest, d' => (d.processMulti c.pairs c.writable c.init).2 = r ∧ Serial (d.processMulti c.pairs c.writable c.init).1 rest d'

end Verif.TwoPhase
