import Verif.Prelude.Bytes
/-
HashMutex (tkrzw_thread_util.h 458-606, 1184-1394): a lock per bucket over a fixed number of reader/writer locks ("slots").

The slots are taken to be reader/writer locks with mutual exclusion (C31 is about the spin locks that the databases use for
them): a slot can be locked exclusively when no other thread has it, and shared when no other thread has it exclusively.
Any number of threads; an event is one step of one thread, and a schedule is any list of events. `Rehash` is called, as by
all the callers in the code, by a thread that has all the slots exclusively (tkrzw_dbm_tiny.cc 524 under an exclusive lock of
the database, tkrzw_dbm_hash.cc 1758 with 1230) or when no thread is using the mutex.
-/
namespace Verif.HashMutex
open Verif

/-- `num_slots_` and `hash_func_` (tkrzw_thread_util.h 1184-1189). -/
structure Env where
  slots : Nat
  hash : Bytes → Nat → Nat

/-- Where a thread is. `sh` tells whether it locks in the shared mode; `nb` is the number of buckets it has read. -/
inductive Pc where
  | idle
  /-- `LockOne` of a key: before reading the number of buckets, before locking the slot, before reading the number again, before
  unlocking the slot to begin again, and the lock obtained. -/
  | oneStart (key : Bytes) (sh : Bool)
  | oneLock (key : Bytes) (sh : Bool) (nb : Nat)
  | oneCheck (key : Bytes) (sh : Bool) (nb : Nat)
  | oneBack (key : Bytes) (sh : Bool) (nb : Nat)
  | oneHeld (key : Bytes) (sh : Bool) (nb : Nat)
  /-- `LockOne` of a bucket. -/
  | bktStart (b : Nat) (sh : Bool)
  | bktLock (b : Nat) (sh : Bool) (nb : Nat)
  | bktCheck (b : Nat) (sh : Bool) (nb : Nat)
  | bktBack (b : Nat) (sh : Bool)
  | bktHeld (b : Nat) (sh : Bool)
  /-- `LockMulti`: before locking slot 0, before reading the number of buckets, with `m` of the other slots locked, before the
  unlocking of slot 0 if it is not needed, and the locks obtained. -/
  | multiStart (keys : List Bytes) (sh : Bool)
  | multiLoad (keys : List Bytes) (sh : Bool)
  | multiLock (keys : List Bytes) (sh : Bool) (nb : Nat) (m : Nat)
  | multiEnd (keys : List Bytes) (sh : Bool) (nb : Nat)
  | multiHeld (keys : List Bytes) (sh : Bool) (nb : Nat)
  /-- `UnlockMulti`, with `m` slots left to unlock. -/
  | multiUnlock (keys : List Bytes) (sh : Bool) (nb : Nat) (m : Nat)
  /-- `LockAll` and `UnlockAll`, with the first `m` slots locked. -/
  | allLock (sh : Bool) (m : Nat)
  | allHeld (sh : Bool)
  | allUnlock (sh : Bool) (m : Nat)
  deriving DecidableEq

/-- What a thread does next: it calls a method, or goes on with the one it is in. -/
inductive Act where
  | lockOne (key : Bytes) (sh : Bool)
  | lockBucket (b : Nat) (sh : Bool)
  | lockMulti (keys : List Bytes) (sh : Bool)
  | lockAll (sh : Bool)
  | unlock
  | rehash (nb : Nat)
  | go

/-- `slot_indices`, the slots of some keys in ascending order (tkrzw_thread_util.h 1322-1328, 1346-1350). -/
def slotSet (e : Env) (keys : List Bytes) (nb : Nat) : List Nat :=
  (List.range e.slots).filter fun s => keys.any fun k => e.hash k nb % e.slots == s

/-- The slots that `LockMulti` locks after slot 0 (tkrzw_thread_util.h 1330-1336). -/
def otherSlots (e : Env) (keys : List Bytes) (nb : Nat) : List Nat := (slotSet e keys nb).filter fun s => s ≠ 0

/-- The slot that a thread has to lock in its next step. -/
def waits (e : Env) : Pc → Option Nat
  | .oneLock key _ nb => some (e.hash key nb % e.slots)
  | .bktLock b _ _ => some (b % e.slots)
  | .multiStart _ _ => some 0
  | .multiLock keys _ nb m => (otherSlots e keys nb)[m]?
  | .allLock _ m => if m < e.slots then some m else none
  | _ => none

/-- The slots that a thread has locked. -/
def holds (e : Env) : Pc → List Nat
  | .oneCheck key _ nb | .oneBack key _ nb | .oneHeld key _ nb => [e.hash key nb % e.slots]
  | .bktCheck b _ _ | .bktBack b _ | .bktHeld b _ => [b % e.slots]
  | .multiLoad _ _ => [0]
  | .multiLock keys _ nb m => 0 :: (otherSlots e keys nb).take m
  | .multiEnd keys _ nb => 0 :: otherSlots e keys nb
  | .multiHeld keys _ nb => slotSet e keys nb
  | .multiUnlock keys _ nb m => (slotSet e keys nb).take m
  | .allLock _ m | .allUnlock _ m => List.range m
  | .allHeld _ => List.range e.slots
  | _ => []

/-- Whether the thread locks in the shared mode. -/
def shared : Pc → Bool
  | .oneStart _ sh | .oneLock _ sh _ | .oneCheck _ sh _ | .oneBack _ sh _ | .oneHeld _ sh _ => sh
  | .bktStart _ sh | .bktLock _ sh _ | .bktCheck _ sh _ | .bktBack _ sh | .bktHeld _ sh => sh
  | .multiStart _ sh | .multiLoad _ sh | .multiLock _ sh _ _ | .multiEnd _ sh _ | .multiHeld _ sh _ | .multiUnlock _ sh _ _ => sh
  | .allLock sh _ | .allHeld sh | .allUnlock sh _ => sh
  | .idle => false

/-- One step of a thread. `ok` tells whether the slot that the thread waits for can be locked; if not, the thread stays where it
is. `quiet` tells whether all threads are idle. The result is the number of buckets and where the thread is. For the shared mode
the code is the same with the shared methods of the slots.
`LockOne` of a key 1216-1229, of a bucket 1231-1244, `UnlockOne` 1246-1250, `LockMulti` 1316-1342, `UnlockMulti` 1344-1354, `LockAll`
1288-1293, `UnlockAll` 1295-1300, `Rehash` 1206-1209 (tkrzw_thread_util.h). -/
def stepPc (e : Env) (nb : Nat) (ok quiet : Bool) : Pc → Act → Nat × Pc
  | .idle, .lockOne key sh => (nb, .oneStart key sh)
  | .oneStart key sh, .go => (nb, .oneLock key sh nb)
  | .oneLock key sh n, .go => if ok then (nb, .oneCheck key sh n) else (nb, .oneLock key sh n)
  | .oneCheck key sh n, .go => if nb = n then (nb, .oneHeld key sh n) else (nb, .oneBack key sh n)
  | .oneBack key sh _, .go => (nb, .oneStart key sh)
  | .oneHeld _ _ _, .unlock => (nb, .idle)
  | .idle, .lockBucket b sh => (nb, .bktStart b sh)
  | .bktStart b sh, .go => if b ≥ nb then (nb, .idle) else (nb, .bktLock b sh nb)
  | .bktLock b sh n, .go => if ok then (nb, .bktCheck b sh n) else (nb, .bktLock b sh n)
  | .bktCheck b sh n, .go => if nb = n then (nb, .bktHeld b sh) else (nb, .bktBack b sh)
  | .bktBack _ _, .go => (nb, .idle)
  | .bktHeld _ _, .unlock => (nb, .idle)
  | .idle, .lockMulti keys sh => (nb, .multiStart keys sh)
  | .multiStart keys sh, .go => if ok then (nb, .multiLoad keys sh) else (nb, .multiStart keys sh)
  | .multiLoad keys sh, .go => (nb, .multiLock keys sh nb 0)
  | .multiLock keys sh n m, .go =>
    if m < (otherSlots e keys n).length then if ok then (nb, .multiLock keys sh n (m + 1)) else (nb, .multiLock keys sh n m)
    else (nb, .multiEnd keys sh n)
  | .multiEnd keys sh n, .go => (nb, .multiHeld keys sh n)
  | .multiHeld keys sh n, .unlock => (nb, .multiUnlock keys sh n (slotSet e keys n).length)
  | .multiUnlock keys sh n m, .go => if m = 0 then (nb, .idle) else (nb, .multiUnlock keys sh n (m - 1))
  | .idle, .lockAll sh => (nb, .allLock sh 0)
  | .allLock sh m, .go => if m < e.slots then if ok then (nb, .allLock sh (m + 1)) else (nb, .allLock sh m) else (nb, .allHeld sh)
  | .allHeld sh, .unlock => (nb, .allUnlock sh e.slots)
  | .allUnlock sh m, .go => if m = 0 then (nb, .idle) else (nb, .allUnlock sh (m - 1))
  | .allHeld false, .rehash n => (n, .allHeld false)
  | .idle, .rehash n => if quiet then (n, .idle) else (nb, .idle)
  | pc, _ => (nb, pc)

/-- The number of buckets and the threads. -/
structure State where
  nb : Nat
  threads : List Pc

/-- Whether thread `i` can lock the slot `k` in the mode: no other thread has it, or all that have it share it and so does `i`. -/
def canLock (e : Env) (s : State) (i k : Nat) (sh : Bool) : Bool :=
  (List.range s.threads.length).all fun j => match s.threads[j]? with
    | some pc => j = i || !((holds e pc).contains k) || (sh && shared pc)
    | none => true

/-- Whether the next step of the thread can be done. -/
def ready (e : Env) (s : State) (i : Nat) (pc : Pc) : Bool :=
  match waits e pc with
  | some k => canLock e s i k (shared pc)
  | none => true

abbrev Event := Nat × Act

def step (e : Env) (s : State) (ev : Event) : State :=
  match s.threads[ev.1]? with
  | some pc =>
    let r := stepPc e s.nb (ready e s ev.1 pc) (s.threads.all (· = .idle)) pc ev.2
    ⟨r.1, s.threads.set ev.1 r.2⟩
  | none => s

/-- `n` threads and a new mutex (tkrzw_thread_util.h 1184-1189). -/
def start (n nb : Nat) : State := ⟨nb, List.replicate n .idle⟩

def run (e : Env) (n nb : Nat) (es : List Event) : State := es.foldl (step e) (start n nb)

end Verif.HashMutex
