import Verif.Prelude.Bytes
/-
SignalBroker and KeySignalBroker (tkrzw_thread_util.h 857-986, 1583-1692).

The two classes are the same code, with a counter or with a map from keys to counters in which an absent key counts zero: the model is
KeySignalBroker, and SignalBroker is the case of one key. A schedule is any list of events, each one step of one thread. Simplified: taking the
notification lock exclusively, notifying and releasing it is one step; so is taking the mutex after waking together with the shared lock.
-/
namespace Verif.Broker

/-- Where a thread is that may wait (tkrzw_thread_util.h 1655-1692). -/
inductive Pc where
  /-- has no `Waiter` object -/
  | out
  /-- has a `Waiter`: it holds the notification lock shared -/
  | ready
  /-- in `Wait`, before locking the mutex -/
  | enter
  /-- has the mutex and the shared lock, before looking at the counter -/
  | loop
  /-- has the mutex and has released the shared lock, before releasing the mutex and sleeping -/
  | sleepy
  | asleep
  /-- woken, before locking the mutex again -/
  | wake
  /-- woken by the deadline, before locking the mutex again -/
  | late
  /-- `Wait` has returned; the `Waiter` still holds the shared lock -/
  | back (result : Bool)
  deriving DecidableEq

/-- A thread that may wait. `sig` is a history: a `Send` with its key has found threads waiting since this thread began to wait. -/
structure Waiter (K : Type) where
  key : K
  pc : Pc
  sig : Bool
  deriving DecidableEq

/-- Where a thread is that may send (tkrzw_thread_util.h 1637-1652). -/
inductive Sender (K : Type) where
  | idle
  /-- before locking the mutex -/
  | begin (key : K) (all : Bool)
  /-- the counter was cleared, before locking the notification lock -/
  | notify (key : K) (all : Bool)
  | sent (result : Bool)
  deriving DecidableEq

structure State (K : Type) where
  counts : K → Nat
  waiters : List (Waiter K)
  senders : List (Sender K)

inductive Event (K : Type) where
  /-- `Waiter::Waiter` -/
  | construct (i : Nat) (key : K)
  /-- `Waiter::~Waiter` -/
  | destroy (i : Nat)
  /-- `Wait` is called -/
  | wait (i : Nat)
  /-- a step in `Wait` -/
  | work (i : Nat)
  /-- the deadline passes while the thread sleeps -/
  | timeout (i : Nat)
  | spurious (i : Nat)
  /-- `Send` is called -/
  | send (j : Nat) (key : K) (all : Bool)
  /-- a step in `Send`; the thread that `notify_one` wakes -/
  | sendStep (j i : Nat)

/-- Whether the thread has the mutex. -/
def Pc.locks : Pc → Bool
  | .loop | .sleepy => true
  | _ => false

/-- Whether the thread has the notification lock (shared). -/
def Pc.holds : Pc → Bool
  | .ready | .enter | .loop | .back _ => true
  | _ => false

variable {K : Type} [DecidableEq K]

def free (s : State K) : Bool := s.waiters.all fun w => !w.pc.locks

def quiet (s : State K) : Bool := s.waiters.all fun w => !w.pc.holds

def put (f : K → Nat) (k : K) (n : Nat) : K → Nat := fun x => if x = k then n else f x

/-- A step in `Wait` (tkrzw_thread_util.h 1666-1692): registering 1672-1673; the loop 1674-1676; waking 1676-1678; the end of the time
1678-1690. -/
def work (s : State K) (i : Nat) : State K :=
  match s.waiters[i]? with
  | none => s
  | some w =>
    let set := fun (pc : Pc) => s.waiters.set i { w with pc := pc }
    match w.pc with
    | .enter => if free s then { s with counts := put s.counts w.key (s.counts w.key + 1), waiters := s.waiters.set i ⟨w.key, .loop, false⟩ } else s
    | .loop => if s.counts w.key ≠ 0 then { s with waiters := set .sleepy } else { s with waiters := set (.back true) }
    | .sleepy => { s with waiters := set .asleep }
    | .wake => if free s then { s with waiters := set .loop } else s
    | .late =>
      if free s then
        if s.counts w.key = 0 then { s with waiters := set (.back true) }
        else { s with counts := put s.counts w.key (s.counts w.key - 1), waiters := set (.back false) }
      else s
    | _ => s

/-- What the critical section of `Send` means for a thread that waits. -/
def Waiter.signal (k : K) (w : Waiter K) : Waiter K :=
  if w.key = k ∧ (w.pc = .asleep ∨ w.pc = .wake ∨ w.pc = .late) then { w with sig := true } else w

def Waiter.awake (w : Waiter K) : Waiter K := if w.pc = .asleep then { w with pc := .wake } else w

/-- A step in `Send` (tkrzw_thread_util.h 1637-1652). -/
def sendStep (s : State K) (j i : Nat) : State K :=
  match s.senders[j]? with
  | some (.begin k all) =>
    if free s then
      if s.counts k = 0 then { s with senders := s.senders.set j (.sent false) }
      else { counts := put s.counts k 0, waiters := s.waiters.map (Waiter.signal k), senders := s.senders.set j (.notify k all) }
    else s
  | some (.notify _ all) =>
    if quiet s then
      let senders := s.senders.set j (.sent true)
      if all then { s with waiters := s.waiters.map Waiter.awake, senders := senders }
      else if s.waiters.all (·.pc ≠ .asleep) then { s with senders := senders }
      else match s.waiters[i]? with
        | some w => if w.pc = .asleep then { s with waiters := s.waiters.set i { w with pc := .wake }, senders := senders } else s
        | none => s
    else s
  | _ => s

def step (s : State K) : Event K → State K
  | .construct i k => match s.waiters[i]? with
    | some w => if w.pc = .out then { s with waiters := s.waiters.set i ⟨k, .ready, false⟩ } else s
    | none => s
  | .destroy i => match s.waiters[i]? with
    | some w => match w.pc with
      | .ready | .back _ => { s with waiters := s.waiters.set i ⟨w.key, .out, false⟩ }
      | _ => s
    | none => s
  | .wait i => match s.waiters[i]? with
    | some w => match w.pc with
      | .ready | .back _ => { s with waiters := s.waiters.set i ⟨w.key, .enter, false⟩ }
      | _ => s
    | none => s
  | .work i => work s i
  | .timeout i => match s.waiters[i]? with
    | some w => if w.pc = .asleep then { s with waiters := s.waiters.set i { w with pc := .late } } else s
    | none => s
  | .spurious i => match s.waiters[i]? with
    | some w => if w.pc = .asleep then { s with waiters := s.waiters.set i { w with pc := .wake } } else s
    | none => s
  | .send j k all => match s.senders[j]? with
    | some .idle | some (.sent _) => { s with senders := s.senders.set j (.begin k all) }
    | _ => s
  | .sendStep j i => sendStep s j i

/-- `KeySignalBroker::KeySignalBroker` (tkrzw_thread_util.h 1633-1635), with threads that may wait and threads that may send. -/
def start (k : K) (n m : Nat) : State K := ⟨fun _ => 0, List.replicate n ⟨k, .out, false⟩, List.replicate m .idle⟩

def run (s : State K) (es : List (Event K)) : State K := es.foldl step s

end Verif.Broker
