import Verif.Prelude.Bytes
/-
The spin locks of tkrzw_thread_util.h: SpinMutex, SpinSharedMutex and SpinWPSharedMutex, as machines whose steps are the
atomic operations of the code. Any number of threads; an event is one atomic operation of one thread, and a schedule is any
list of events. All atomic operations are taken to be sequentially consistent (the code uses that order except for release
stores and the acquire/release flag). The 32-bit counters are numbers below 2^32.
-/
namespace Verif.Spin
open Verif

/-- `INT32MAX` (tkrzw_lib_common.h). -/
def int32max : Nat := 2 ^ 31 - 1

/-- What a `uint32_t` keeps of a sum. -/
def u32 (n : Nat) : Nat := n % 2 ^ 32

/-- What a thread does next: it starts a method, or goes on with the one it is in. `spurious` makes a weak compare-exchange
fail although the values are equal. -/
inductive Act where
  | lock | tryLock | unlock
  | lockShared | tryLockShared | unlockShared
  | tryUpgrade (wait : Bool) | downgrade
  | go (spurious : Bool)
  deriving DecidableEq

/-- An event: a thread and what it does. -/
abbrev Event := Nat × Act

/-! ### SpinMutex -/

namespace Plain

/-- Where a thread is in SpinMutex. -/
inductive Pc where
  | idle
  /-- In the loop of `lock`. -/
  | locking
  | exclusive
  deriving DecidableEq

/-- One atomic operation of a thread of SpinMutex (tkrzw_thread_util.h 63-84): the flag and where the thread is. Starting a method
that its precondition excludes is ignored. -/
def stepPc (flag : Bool) : Pc → Act → Bool × Pc
  | .idle, .lock => (flag, .locking)
  | .locking, .go _ => if flag then (true, .locking) else (true, .exclusive)
  | .idle, .tryLock => if flag then (true, .idle) else (true, .exclusive)
  | .exclusive, .unlock => (false, .idle)
  | pc, _ => (flag, pc)

/-- The flag `lock_` and the threads. -/
structure State where
  flag : Bool
  threads : List Pc

def step (s : State) (e : Event) : State :=
  match s.threads[e.1]? with
  | some pc => ⟨(stepPc s.flag pc e.2).1, s.threads.set e.1 (stepPc s.flag pc e.2).2⟩
  | none => s

def run (n : Nat) (es : List Event) : State := es.foldl step ⟨false, List.replicate n .idle⟩

end Plain

/-! ### SpinSharedMutex -/

namespace Shared

/-- Where a thread is in SpinSharedMutex. The parameter `once` is true in `try_lock_shared` and false in the loop of
`lock_shared`. -/
inductive Pc where
  | idle
  /-- In the loop of `lock`. -/
  | locking
  | exclusive
  /-- Before `fetch_add`. -/
  | sharing (once : Bool)
  /-- After a `fetch_add` that found the lock taken, before `load`. -/
  | loading (once : Bool)
  /-- Before the compare-exchange that sets the counter back. -/
  | resetting (once : Bool) (old : Nat)
  | shared
  /-- In the loop of `try_upgrade`. -/
  | upgrading
  deriving DecidableEq

/-- Where a thread is after an attempt to share that failed. -/
def again : Bool → Pc
  | true => .idle
  | false => .sharing false

/-- One atomic operation of a thread of SpinSharedMutex (tkrzw_thread_util.h 109-205): the counter `count_` and where the thread
is. The two compare-exchanges of the loop of `lock` are the same step here; the second cannot fail spuriously, so this only adds
executions. `try_upgrade` ignores its argument, as in the code. Starting a method that its precondition excludes is ignored. -/
def stepPc (c : Nat) : Pc → Act → Nat × Pc
  | .idle, .lock => (c, .locking)
  | .locking, .go spurious => if c = 0 ∧ spurious = false then (int32max, .exclusive) else (c, .locking)
  | .idle, .tryLock => if c = 0 then (int32max, .exclusive) else (c, .idle)
  | .exclusive, .unlock => (0, .idle)
  | .idle, .lockShared => (c, .sharing false)
  | .idle, .tryLockShared => (c, .sharing true)
  | .sharing once, .go _ => if c ≥ int32max then (u32 (c + 1), .loading once) else (u32 (c + 1), .shared)
  | .loading once, .go _ => if c > int32max then (c, .resetting once c) else (c, again once)
  | .resetting once old, .go spurious => if c = old ∧ spurious = false then (int32max, again once) else (c, again once)
  | .shared, .unlockShared => (u32 (c + (2 ^ 32 - 1)), .idle)
  | .shared, .tryUpgrade _ => (c, .upgrading)
  | .upgrading, .go _ => if c = 1 then (int32max, .exclusive) else if c < int32max then (c, .shared) else (c, .upgrading)
  | .exclusive, .downgrade => (1, .shared)
  | pc, _ => (c, pc)

/-- The counter `count_` and the threads. -/
structure State where
  count : Nat
  threads : List Pc

def step (s : State) (e : Event) : State :=
  match s.threads[e.1]? with
  | some pc => ⟨(stepPc s.count pc e.2).1, s.threads.set e.1 (stepPc s.count pc e.2).2⟩
  | none => s

/-- `n` threads that do not own a new lock (tkrzw_thread_util.h 98). -/
def start (n : Nat) : State := ⟨0, List.replicate n .idle⟩

def run (n : Nat) (es : List Event) : State := es.foldl step (start n)

end Shared

/-! ### SpinWPSharedMutex -/

namespace Wp

/-- Where a thread is in SpinWPSharedMutex. -/
inductive Pc where
  | idle
  /-- In `lock`, before the increment of `wannabe_count_`. -/
  | lockEnter
  /-- In the loop of `lock`. -/
  | locking
  /-- In `lock`, which has the ownership, before the decrement of `wannabe_count_`. -/
  | lockLeave
  | exclusive
  /-- Before the load of `wannabe_count_`. -/
  | asking (once : Bool)
  /-- Before `fetch_add`. -/
  | sharing (once : Bool)
  | loading (once : Bool)
  | resetting (once : Bool) (old : Nat)
  | shared
  /-- In `try_upgrade`, before the increment of `wannabe_count_`. -/
  | upEnter (wait : Bool)
  /-- In `try_upgrade`, before the compare-exchange. -/
  | upgrading (wait : Bool)
  /-- In `try_upgrade` with waiting, after a compare-exchange that found other owners, before the load of `wannabe_count_`. -/
  | upAsking
  /-- In `try_upgrade`, before the decrement of `wannabe_count_`; the argument tells whether it was successful. -/
  | upLeave (got : Bool)
  deriving DecidableEq

/-- Where a thread is after an attempt to share that failed. -/
def again : Bool → Pc
  | true => .idle
  | false => .asking false

/-- `count_` and `wannabe_count_`. -/
structure Vars where
  count : Nat
  wannabe : Nat
  deriving DecidableEq

/-- One atomic operation of a thread of SpinWPSharedMutex (tkrzw_thread_util.h 229-335). As for `Shared.stepPc`. -/
def stepPc (x : Vars) : Pc → Act → Vars × Pc
  | .idle, .lock => (x, .lockEnter)
  | .lockEnter, .go _ => ({ x with wannabe := u32 (x.wannabe + 1) }, .locking)
  | .locking, .go spurious => if x.count = 0 ∧ spurious = false then ({ x with count := int32max }, .lockLeave) else (x, .locking)
  | .lockLeave, .go _ => ({ x with wannabe := u32 (x.wannabe + (2 ^ 32 - 1)) }, .exclusive)
  | .idle, .tryLock => if x.count = 0 then ({ x with count := int32max }, .exclusive) else (x, .idle)
  | .exclusive, .unlock => ({ x with count := 0 }, .idle)
  | .idle, .lockShared => (x, .asking false)
  | .idle, .tryLockShared => (x, .asking true)
  | .asking once, .go _ => if x.wannabe ≠ 0 then (x, if once then .idle else .loading false) else (x, .sharing once)
  | .sharing once, .go _ =>
    if x.count ≥ int32max then ({ x with count := u32 (x.count + 1) }, .loading once) else ({ x with count := u32 (x.count + 1) }, .shared)
  | .loading once, .go _ => if x.count > int32max then (x, .resetting once x.count) else (x, again once)
  | .resetting once old, .go spurious =>
    if x.count = old ∧ spurious = false then ({ x with count := int32max }, again once) else (x, again once)
  | .shared, .unlockShared => ({ x with count := u32 (x.count + (2 ^ 32 - 1)) }, .idle)
  | .shared, .tryUpgrade wait => (x, .upEnter wait)
  | .upEnter wait, .go _ => ({ x with wannabe := u32 (x.wannabe + 1) }, .upgrading wait)
  | .upgrading wait, .go _ =>
    if x.count = 1 then ({ x with count := int32max }, .upLeave true)
    else if wait = false then (x, .upLeave false)
    else if x.count < int32max then (x, .upAsking)
    else (x, .upgrading true)
  | .upAsking, .go _ => if x.wannabe > 1 then (x, .upLeave false) else (x, .upgrading true)
  | .upLeave got, .go _ => ({ x with wannabe := u32 (x.wannabe + (2 ^ 32 - 1)) }, if got then .exclusive else .shared)
  | .exclusive, .downgrade => ({ x with count := 1 }, .shared)
  | pc, _ => (x, pc)

/-- The counters and the threads. -/
structure State where
  vars : Vars
  threads : List Pc

def step (s : State) (e : Event) : State :=
  match s.threads[e.1]? with
  | some pc => ⟨(stepPc s.vars pc e.2).1, s.threads.set e.1 (stepPc s.vars pc e.2).2⟩
  | none => s

/-- `n` threads that do not own a new lock (tkrzw_thread_util.h 218). -/
def start (n : Nat) : State := ⟨⟨0, 0⟩, List.replicate n .idle⟩

def run (n : Nat) (es : List Event) : State := es.foldl step (start n)

end Wp

end Verif.Spin
