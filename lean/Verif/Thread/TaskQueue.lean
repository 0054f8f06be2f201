import Verif.Prelude.Bytes
/-
TaskQueue (tkrzw_thread_util.h 710-806, 1475-1547): worker threads that run the tasks of a queue.

A schedule is any list of events; an event is one step of one thread. A critical section in which a thread only reads or changes
the queue is one step; the waiting on the condition variable is split into the check of the condition, the falling asleep and the
waking, because `Stop` changes `running_` and notifies without the mutex. Tasks are numbers. `Start` makes all its threads in one
step. `Stop` is called by one thread at a time.
-/
namespace Verif.TaskQueue
open Verif

/-- Where a worker thread is (the loop at tkrzw_thread_util.h 1490-1506). -/
inductive Worker where
  /-- before `running_.load()` -/
  | top
  /-- before locking the mutex -/
  | enter
  /-- has the mutex, before evaluating the condition of `cond_.wait` -/
  | pred
  /-- has the mutex, the condition was false, before releasing the mutex and sleeping -/
  | sleepy
  | asleep
  /-- woken, before locking the mutex again -/
  | wake
  | doing (task : Nat)
  | exited
  deriving DecidableEq

/-- Where the thread that calls `Stop` is (tkrzw_thread_util.h 1511-1530). -/
inductive Stopper where
  | idle
  /-- at the head of the loop -/
  | polling
  /-- in the loop, before `notify_all` -/
  | pollNotify
  /-- before `running_.store(false)` -/
  | clearing
  /-- before the second `notify_all` -/
  | notifying
  | joining
  deriving DecidableEq

/-- The members of the class, the threads, and three histories: the tasks added, taken out of the queue, and done. `pending` is the
number of callers of `Add` that have pushed and not yet notified. -/
structure State where
  queue : List Nat
  num : Nat
  running : Bool
  workers : List Worker
  pending : Nat
  stop : Stopper
  added : List Nat
  taken : List Nat
  done : List Nat

inductive Event where
  | start (n : Nat)
  /-- the critical section of `Add` -/
  | push (task : Nat)
  /-- `notify_one` of `Add`; the worker that is woken, if any sleeps -/
  | notify (i : Nat)
  /-- a step of a worker -/
  | work (i : Nat)
  /-- a worker wakes without a notification -/
  | spurious (i : Nat)
  /-- `Stop` is called -/
  | stop
  /-- a step of `Stop`; whether the time is up -/
  | stopStep (expired : Bool)

/-- `TaskQueue::TaskQueue` (tkrzw_thread_util.h 1475-1476). -/
def init : State := ⟨[], 0, false, [], 0, .idle, [], [], []⟩

/-- Whether a worker has the mutex. -/
def Worker.locks : Worker → Bool
  | .pred | .sleepy => true
  | _ => false

def free (s : State) : Bool := s.workers.all fun w => !w.locks

/-- `cond_.notify_all()` (tkrzw_thread_util.h 1520, 1524). -/
def wakeAll (ws : List Worker) : List Worker := ws.map fun w => if w = .asleep then .wake else w

/-- A step of a worker (tkrzw_thread_util.h 1490-1506). -/
def work (s : State) (i : Nat) : State :=
  let set := fun (w : Worker) => { s with workers := s.workers.set i w }
  match s.workers[i]? with
  | some .top => if s.running then set .enter else set .exited
  | some .enter =>
    if free s then
      match s.queue with
      | [] => set .pred
      | t :: q => { s with queue := q, num := q.length, taken := s.taken ++ [t], workers := s.workers.set i (.doing t) }
    else s
  | some .pred => if !s.running || !s.queue.isEmpty then set .top else set .sleepy
  | some .sleepy => set .asleep
  | some .wake => if free s then set .pred else s
  | some (.doing t) => { s with done := s.done ++ [t], workers := s.workers.set i .top }
  | _ => s

/-- A step of `Stop` (tkrzw_thread_util.h 1511-1530). -/
def stopStep (s : State) (expired : Bool) : State :=
  match s.stop with
  | .idle => s
  | .polling =>
    if expired then { s with stop := .clearing }
    else if free s then if s.queue.isEmpty then { s with stop := .clearing } else { s with stop := .pollNotify } else s
  | .pollNotify => { s with stop := .polling, workers := wakeAll s.workers }
  | .clearing => { s with stop := .notifying, running := false }
  | .notifying => { s with stop := .joining, workers := wakeAll s.workers }
  | .joining => if s.workers.all (· = .exited) then { s with stop := .idle, workers := [], num := 0 } else s

/-- One event. `Start` (1484-1509) is called when there are no workers and `Stop` is not running; `Add` 1532-1543 (tkrzw_thread_util.h). -/
def step (s : State) : Event → State
  | .start n => if s.workers = [] ∧ s.stop = .idle then { s with running := true, workers := List.replicate n .top } else s
  | .push t => if free s then { s with queue := s.queue ++ [t], num := s.queue.length + 1, pending := s.pending + 1, added := s.added ++ [t] } else s
  | .notify i =>
    if s.pending = 0 then s
    else if s.workers.all (· ≠ .asleep) then { s with pending := s.pending - 1 }
    else if s.workers[i]? = some .asleep then { s with pending := s.pending - 1, workers := s.workers.set i .wake }
    else s
  | .work i => work s i
  | .spurious i => if s.workers[i]? = some .asleep then { s with workers := s.workers.set i .wake } else s
  | .stop => if s.stop = .idle then { s with stop := .polling } else s
  | .stopStep x => stopStep s x

def run (es : List Event) : State := es.foldl step init

/-- `TaskQueue::GetSize` (tkrzw_thread_util.h 1545-1547). -/
def getSize (s : State) : Nat := s.num

end Verif.TaskQueue
