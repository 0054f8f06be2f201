import Verif.Dbm.Linear
import Verif.Shard.Cex
import Verif.Thread.HashMutex
/-
Concurrent calls of ShardDBM that lock in the shards of their keys: the methods for one record, and `CompareExchangeMulti`, which runs
`ProcessMulti` of one shard inside a processor of that of another (tkrzw_dbm_shard.cc 252-378).

A call is laid out as the sequence of what it does in all shards: it locks the keys of the first of its shards and checks the records there,
then those of the next one, and so on; then it changes the records and unlocks, from the last shard back to the first. Each processor call
is one step, which the locks of its shard (C72, C73) allow. The update logs of the shards are left out.
-/
namespace Verif.Shard.Nested
open Verif Verif.Api Verif.Linear

/-- The hash function that chooses the shard, the number of shards, the record locks of a shard, and the number of buckets of each shard. -/
structure Cfg where
  hash : Bytes → Nat → Nat
  shards : Nat
  env : HashMutex.Env
  nb : Nat → Nat

/-- A call: `Process` or a method built on it, and `CompareExchangeMulti`. -/
inductive Op (τ : Type) where
  | one (k : Bytes) (w : Bool) (p : ProcR τ)
  | cex (expected desired : List (Bytes × Arg))

/-- The outcome of a call: what the variables of the processor hold, or a status. -/
inductive Out (τ : Type) where
  | begun
  | one (t : τ)
  | cex (c : Code)

/-- What a call does next. Locks are numbered through all shards. -/
inductive Instr (τ : Type) where
  | lock (s : Nat)
  | unlock (s : Nat)
  | check (k : Bytes) (e : Arg)
  | change (k : Bytes) (v : Arg)
  | proc (k : Bytes) (p : ProcR τ)

section
variable {τ σ : Type}

/-- Whether the processors may change records: `Process` is told, `CompareExchangeMulti` passes true (tkrzw_dbm_shard.cc 288, 301, 373). -/
def Op.writable : Op τ → Bool
  | .one _ w _ => w
  | .cex _ _ => true

/-- The number of lock `s` of shard `i`. -/
def lockNo (C : Cfg) (i s : Nat) : Nat := i * C.env.slots + s

/-- The lock of a key: that of its bucket in its shard (tkrzw_dbm_shard.cc 157, tkrzw_thread_util.h 1216-1229). -/
def slotOf (C : Cfg) (k : Bytes) : Nat :=
  let i := C.hash k C.shards
  lockNo C i (C.env.hash k (C.nb i) % C.env.slots)

def keysOf (g : Group) : List Bytes := (g.2.1 ++ g.2.2).map (·.1)

/-- The locks that `ProcessMulti` of a shard keeps (tkrzw_thread_util.h 1316-1354). -/
def kept (C : Cfg) (g : Group) : List Nat := (HashMutex.slotSet C.env (keysOf g) (C.nb g.1)).map (lockNo C g.1)

/-- What `CompareExchangeMulti` does in a shard before it goes on to the next one: it locks as `LockMulti` does, which locks the first slot
in any case and gives it up if it is not needed (tkrzw_thread_util.h 1316-1344), and runs the checkers (tkrzw_dbm_shard.cc 353-361). -/
def downOf (C : Cfg) (g : Group) : List (Instr τ) :=
  (0 :: HashMutex.otherSlots C.env (keysOf g) (C.nb g.1)).map (fun s => .lock (lockNo C g.1 s)) ++
    (if 0 ∈ HashMutex.slotSet C.env (keysOf g) (C.nb g.1) then [] else [.unlock (lockNo C g.1 0)]) ++
    g.2.1.map (fun kv => .check kv.1 kv.2)

/-- What it does when it has come back: it runs the setters (tkrzw_dbm_shard.cc 362-370) and unlocks. If there is no checker, the first
setter calls the next shard, but the change it wants is made after that (319-325, 331-337). -/
def upOf (C : Cfg) (g : Group) : List (Instr τ) :=
  g.2.2.map (fun kv => .change kv.1 kv.2) ++ (kept C g).reverse.map .unlock

/-- What a call does up to the point where its outcome is settled. -/
def downProg (C : Cfg) : Op τ → List (Instr τ)
  | .one k _ _ => [.lock (slotOf C k)]
  | .cex expected desired => (groups C.hash C.shards expected desired).flatMap (downOf C)

/-- What it does then. -/
def upProg (C : Cfg) : Op τ → List (Instr τ)
  | .one k _ p => [.proc k p, .unlock (slotOf C k)]
  | .cex expected desired => (groups C.hash C.shards expected desired).reverse.flatMap (upOf C)

/-- What the status of a call is at first (tkrzw_dbm_shard.cc 345). -/
def Op.start : Op τ → Out τ
  | .one _ _ _ => .begun
  | .cex _ _ => .cex .success

/-- `Checker` (tkrzw_dbm_shard.cc 278-308) while the status is a success: whether it still is after it. -/
def checks (e : Arg) : ProcR Bool
  | some v => (.noop, match e with | .null => false | .any => true | .val w => decide (w = v))
  | none => (.noop, match e with | .null => true | _ => false)

/-- `Setter` (tkrzw_dbm_shard.cc 315-338) while the status is a success. -/
def changes (v : Arg) : ProcR Unit
  | some _ => (if v = .null then .remove else .set v.bytes, ())
  | none => (if v = .null then .noop else .set v.bytes, ())

/-- Where a thread is: before or after the outcome of its call is settled, with the locks it has and what is left to do. -/
inductive Pc (τ : Type) where
  | idle
  | down (op : Op τ) (held : List Nat) (todo : List (Instr τ))
  | up (op : Op τ) (held : List Nat) (todo : List (Instr τ)) (out : Out τ)

/-- A thread and the number of its present call. -/
structure Thread (τ : Type) where
  id : Nat
  pc : Pc τ

structure Sys (σ τ : Type) where
  mem : σ
  threads : List (Thread τ)
  next : Nat
  hist : List (HEv (Op τ) (Out τ))

/-- A thread makes a call, or goes on. -/
inductive Act (τ : Type) where
  | call (op : Op τ)
  | go

/-- The locks that a thread has. -/
def held : Pc τ → List Nat
  | .idle => []
  | .down _ h _ => h
  | .up _ h _ _ => h

/-- Whether it has them exclusively. -/
def writer : Pc τ → Bool
  | .idle => false
  | .down op _ _ => op.writable
  | .up op _ _ _ => op.writable

/-- Whether thread `i` can lock `k`: no other thread has it, or all that have it share it and so does `i`. -/
def canLock (ts : List (Thread τ)) (i k : Nat) (w : Bool) : Bool :=
  (List.range ts.length).all fun j => match ts[j]? with
    | some th => j = i || !((held th.pc).contains k) || (!w && !writer th.pc)
    | none => true

/-- One step of one thread; `D` is the database of all shards. When a check fails, the checkers and setters that follow do nothing (tkrzw_dbm_shard.cc 279-281,
293-295, 316-318, 328-330), so the locks are given up. A call returns when it has no lock any more. -/
def step (C : Cfg) (D : DbmImpl σ) (s : Sys σ τ) (ev : Nat × Act τ) : Sys σ τ :=
  match s.threads[ev.1]? with
  | none => s
  | some th =>
    let goes := fun pc => s.threads.set ev.1 ⟨th.id, pc⟩
    match th.pc, ev.2 with
    | .idle, .call op => { s with threads := s.threads.set ev.1 ⟨s.next, .down op [] (downProg C op)⟩, next := s.next + 1, hist := s.hist ++ [.inv s.next op] }
    | .down op h [], .go => { s with threads := goes (.up op h (upProg C op) op.start) }
    | .down op h (.lock k :: todo), .go =>
      if canLock s.threads ev.1 k op.writable then { s with threads := goes (.down op (h ++ [k]) todo) } else s
    | .down op h (.unlock k :: todo), .go => { s with threads := goes (.down op (h.filter fun x => x ≠ k) todo) }
    | .down op h (.check k e :: todo), .go =>
      let y := D.process s.mem k op.writable (checks e)
      { s with mem := y.1, threads := goes (if y.2 then .down op h todo else .up op h (h.reverse.map .unlock) (.cex .infeasible)) }
    | .up op h (.change k v :: todo) out, .go =>
      { s with mem := (D.process s.mem k op.writable (changes v)).1, threads := goes (.up op h todo out) }
    | .up op h (.proc k p :: todo) _, .go =>
      let y := D.process s.mem k op.writable p
      { s with mem := y.1, threads := goes (.up op h todo (.one y.2)) }
    | .up op h (.unlock k :: todo) out, .go => { s with threads := goes (.up op (h.filter fun x => x ≠ k) todo out) }
    | .up _ [] [] out, .go => { s with threads := goes .idle, hist := s.hist ++ [.ret th.id out] }
    | _, _ => s

/-- `n` threads. -/
def start (m : σ) (n : Nat) : Sys σ τ := ⟨m, List.replicate n ⟨0, .idle⟩, 0, []⟩

def run (C : Cfg) (D : DbmImpl σ) (m : σ) (n : Nat) (es : List (Nat × Act τ)) : Sys σ τ := es.foldl (step C D) (start m n)

/-! ### Specification -/

/-- SPECIFICATION: a call on a dictionary: `Process` lets its processor act on the record; `CompareExchangeMulti` makes all the changes if the
dictionary has all the records as expected, and none otherwise. -/
def Does (d : Dict) (op : Op τ) (d' : Dict) (r : Out τ) : Prop :=
  match op with
  | .one k w p => d' = (d.process k w p).1 ∧ r = .one (d.process k w p).2
  | .cex expected desired =>
    ((∀ kv ∈ expected, Meets kv.2 (d kv.1)) ∧ d' = exchangedAll d desired ∧ r = .cex .success) ∨
    ((¬ ∀ kv ∈ expected, Meets kv.2 (d kv.1)) ∧ d' = d ∧ r = .cex .infeasible)

/-- SPECIFICATION: the values that a call can store are within the size limits of the shards. -/
def OpFits (fits : Bytes → Bytes → Prop) : Op τ → Prop
  | .one k _ p => ∀ o, ActFits fits k (p o).1
  | .cex _ desired => ∀ kv ∈ desired, kv.2 ≠ .null → fits kv.1 kv.2.bytes

/-- SPECIFICATION: no call is under way. -/
def Quiet (s : Sys σ τ) : Prop := ∀ th ∈ s.threads, th.pc = .idle

end

end Verif.Shard.Nested
