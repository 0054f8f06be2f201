import Verif.Thread.TaskQueue
import Verif.Dbm.History
/-
AsyncDBM (tkrzw_dbm_async.cc): calls that are put into a task queue, and futures for their outcomes.

Simplified: a call of the database below is one step, which the thread-safe classes provide; the task, which is the call, the
postprocessor and `promise.set_value`, is one step. Exceptions are left out.
-/
namespace Verif.Async
open Verif

/-- An asynchronous database over one with states `σ`, calls `ω` and outcomes `β` (tkrzw_dbm_async.h, members of AsyncDBM). `calls` are
the calls so far, the task of the n-th one has the number n; `futures` are the promises that have their values, `posts` the calls of the
postprocessor, if there is one. -/
structure State (σ ω β : Type) where
  queue : TaskQueue.State
  db : σ
  post : Bool
  calls : List ω
  futures : List (Nat × β)
  posts : List (ω × Code)

inductive Event (ω : Type) where
  /-- some thread calls a method -/
  | call (op : ω)
  /-- a step of a worker -/
  | work (i : Nat)
  /-- `notify_one` in `queue_.Add` -/
  | notify (i : Nat)
  | spurious (i : Nat)
  /-- the destructor is called -/
  | destroy
  | destroyStep (expired : Bool)

/-- The database below: what a call does to it and the status of an outcome. -/
structure Below (σ ω β : Type) where
  exec : σ → ω → σ × β
  status : β → Code

/-- `AsyncDBM::AsyncDBM`, perhaps with `SetCommonPostprocessor` (tkrzw_dbm_async.cc 25-37). -/
def start {σ ω β : Type} (db : σ) (workers : Nat) (post : Bool) : State σ ω β :=
  ⟨TaskQueue.step TaskQueue.init (.start workers), db, post, [], [], []⟩

/-- `Do` of a task: the call, the postprocessor and the promise (tkrzw_dbm_async.cc 45-52, and likewise in every method up to 863). -/
def runTask {σ ω β : Type} (B : Below σ ω β) (s : State σ ω β) (t : Nat) : State σ ω β :=
  match s.calls[t]? with
  | none => s
  | some op =>
    let x := B.exec s.db op
    { s with db := x.1, posts := if s.post then s.posts ++ [(op, B.status x.2)] else s.posts, futures := s.futures ++ [(t, x.2)] }

/-- One event. A method makes a task with copies of the parameters and adds it to the queue (tkrzw_dbm_async.cc 54-60, and likewise in every
method); it waits while the mutex of the queue is taken. The destructor is `queue_.Stop(INT32MAX)` (tkrzw_dbm_async.cc 31-33). -/
def step {σ ω β : Type} (B : Below σ ω β) (s : State σ ω β) : Event ω → State σ ω β
  | .call op =>
    if TaskQueue.free s.queue then { s with queue := TaskQueue.step s.queue (.push s.calls.length), calls := s.calls ++ [op] } else s
  | .work i =>
    let s' := { s with queue := TaskQueue.step s.queue (.work i) }
    match s.queue.workers[i]? with
    | some (.doing t) => runTask B s' t
    | _ => s'
  | .notify i => { s with queue := TaskQueue.step s.queue (.notify i) }
  | .spurious i => { s with queue := TaskQueue.step s.queue (.spurious i) }
  | .destroy => { s with queue := TaskQueue.step s.queue .stop }
  | .destroyStep x => { s with queue := TaskQueue.step s.queue (.stopStep x) }

def run {σ ω β : Type} (B : Below σ ω β) (s : State σ ω β) (es : List (Event ω)) : State σ ω β := es.foldl (step B) s

end Verif.Async
