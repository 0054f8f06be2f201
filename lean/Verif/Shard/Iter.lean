import Verif.Containers.StdHeap
/-
ShardDBM::Iterator (tkrzw_dbm_shard.cc 632-914) over ordered shards: C30.

A shard is the list of its records in the order of its keys, and the iterator of a shard is at the key of a record or
nowhere. `First`, `Last`, `Jump`, `JumpLower`, `JumpUpper`, `Next`, `Previous` and `Process` of a shard do what is proved of
StdTreeDBM (C14). Failures other than NOT_FOUND_ERROR do not happen. Between the calls on the iterator the shards are
changed by nobody else.
-/
namespace Verif.ShardIter
open Verif

abbrev Recs := List (Bytes × Bytes)

/-- `ShardSlot` (tkrzw_dbm_shard.h 174-183) without its iterator: the number of the shard and the last retrieved record. -/
structure Slot where
  idx : Nat
  key : Bytes
  value : Bytes
deriving DecidableEq, Repr

/-- `a` comes before `b` in the direction of the traversal. -/
def before (lt : Bytes → Bytes → Bool) (asc : Bool) (a b : Bytes) : Bool := if asc then lt a b else lt b a

/-- `ShardSlotComparator` (tkrzw_dbm_shard.h 188-208): `comp(lhs, rhs) > 0` for the ascending order, `< 0` for the
descending order. -/
def slotLt (lt : Bytes → Bytes → Bool) (asc : Bool) (l r : Slot) : Bool := if asc then lt r.key l.key else lt l.key r.key

/-- The iterator with the shards: the records, the position of the iterator of each shard, `heap_`, `asc_`; `bad` is set by
a use of a heap function on a range that is not a heap, or of `back` on an empty vector. -/
structure State where
  ms : List Recs
  pos : List (Option Bytes)
  heap : List Slot
  asc : Bool
  bad : Bool := false

variable {lt : Bytes → Bytes → Bool} (S : (asc : Bool) → StdHeap.Fns (slotLt lt asc))

/-- The position of an ordered iterator: the first record, in the direction, whose key meets the condition. -/
def seekPos (asc : Bool) (P : Bytes → Bool) (m : Recs) : Option Bytes :=
  ((if asc then m else m.reverse).find? fun r => P r.1).map (·.1)

/-- `Get` of the iterator of a shard. -/
def getRec (m : Recs) (p : Option Bytes) : Option (Bytes × Bytes) := p.bind fun k => m.find? fun r => r.1 = k

/-- `heap_.emplace_back(&slot); std::push_heap(...)`. -/
def pushSlot (asc : Bool) (x : List Slot × Bool) (s : Slot) : List Slot × Bool :=
  ((S asc).push (x.1 ++ [s]), x.2 || !StdHeap.isHeap (slotLt lt asc) x.1)

/-- The loops of `First` (tkrzw_dbm_shard.cc 665-674) and of the other ways to jump: `Get` of each shard, and the slot pushed
if there is a record. -/
def fill (asc : Bool) : Nat → List Recs → List (Option Bytes) → List Slot × Bool → List Slot × Bool
  | i, m :: ms, p :: ps, x =>
    match getRec m p with
    | some r => fill asc (i + 1) ms ps (pushSlot S asc x ⟨i, r.1, r.2⟩)
    | none => fill asc (i + 1) ms ps x
  | _, _, _, x => x

/-- The common form of `First`, `Last`, `Jump`, `JumpLower` and `JumpUpper` (tkrzw_dbm_shard.cc 657-768): the iterator of
each shard goes to the first key in the direction that meets the condition. -/
def seek (asc : Bool) (P : Bytes → Bool) (it : State) : State :=
  let pos := it.ms.map (seekPos asc P)
  let h := fill S asc 0 it.ms pos ([], false)
  { it with pos, heap := h.1, asc, bad := it.bad || h.2 }

/-- `First` (tkrzw_dbm_shard.cc 657-677). -/
def first (it : State) : State := seek S true (fun _ => true) it

/-- `Last` (tkrzw_dbm_shard.cc 679-699). -/
def last (it : State) : State := seek S false (fun _ => true) it

/-- `Jump` (tkrzw_dbm_shard.cc 701-722). -/
def jump (it : State) (key : Bytes) : State := seek S true (fun k => !lt k key) it

/-- `JumpLower` (tkrzw_dbm_shard.cc 724-745). -/
def jumpLower (it : State) (key : Bytes) (inclusive : Bool) : State :=
  seek S false (fun k => if inclusive then !lt key k else lt k key) it

/-- `JumpUpper` (tkrzw_dbm_shard.cc 747-768). -/
def jumpUpper (it : State) (key : Bytes) (inclusive : Bool) : State :=
  seek S true (fun k => if inclusive then !lt k key else lt key k) it

/-- `std::pop_heap(...)` and `heap_.back()` (tkrzw_dbm_shard.cc 782-783): the slot, and the heap without it. -/
def popSlot (asc : Bool) (it : State) : Option (Slot × State) :=
  let l := (S asc).pop it.heap
  match l.getLast? with
  | some s => some (s, { it with heap := l.dropLast, bad := it.bad || !StdHeap.isHeap (slotLt lt asc) it.heap })
  | none => none

/-- `Get` of the slot popped, and `std::push_heap` or `heap_.pop_back()` (tkrzw_dbm_shard.cc 785-796). -/
def reload (asc : Bool) (i : Nat) (it : State) : State :=
  match (it.ms[i]?).bind fun m => (it.pos[i]?).bind fun p => getRec m p with
  | some r =>
    let x := pushSlot S asc (it.heap, it.bad) ⟨i, r.1, r.2⟩
    { it with heap := x.1, bad := x.2 }
  | none => it

/-- The position after `Next` (ascending) or `Previous` of the iterator of a shard. -/
def stepPos (asc : Bool) (m : Recs) (p : Option Bytes) : Option Bytes :=
  p.bind fun k => seekPos asc (before lt asc k) m

/-- The part of `Next` (tkrzw_dbm_shard.cc 782-797) and `Previous` (812-827) after the change of direction. -/
def advance (asc : Bool) (it : State) : State × Code :=
  match popSlot S asc it with
  | none => ({ it with bad := true }, .success)
  | some (s, it) =>
    let p := (it.ms[s.idx]?).bind fun m => (it.pos[s.idx]?).bind fun p => stepPos (lt := lt) asc m p
    (reload S asc s.idx { it with pos := it.pos.set s.idx p }, .success)

/-- `Next` (tkrzw_dbm_shard.cc 770-798). -/
def next (it : State) : State × Code :=
  match it.heap with
  | [] => (it, .notFound)
  | f :: _ =>
    let it := if it.asc then it else jump S it f.key
    if it.heap.isEmpty then (it, .notFound) else advance S true it

/-- `Previous` (tkrzw_dbm_shard.cc 800-828). -/
def previous (it : State) : State × Code :=
  match it.heap with
  | [] => (it, .notFound)
  | f :: _ =>
    let it := if it.asc then jumpLower S it f.key true else it
    if it.heap.isEmpty then (it, .notFound) else advance S false it

/-- `Get` (tkrzw_dbm_shard.cc 869-881). -/
def get (it : State) : Option (Bytes × Bytes) := it.heap.head?.map fun s => (s.key, s.value)

/-- `Process` of the iterator of the shard `i`: the record is changed as the processor says; after a removal the iterator is
at the record after it. `none`: NOT_FOUND_ERROR. -/
def shardProcess {τ : Type} (it : State) (i : Nat) (w : Bool) (p : Bytes → Bytes → Action × τ) : Option (State × Action × τ) :=
  match it.ms[i]?, it.pos[i]? with
  | some m, some q =>
    match getRec m q with
    | none => none
    | some r =>
      let a := p r.1 r.2
      let it' := match (if w then a.1 else .noop) with
        | .noop => it
        | .set v => { it with ms := it.ms.set i (m.map fun x => if x.1 = r.1 then (r.1, v) else x) }
        | .remove => { it with ms := it.ms.set i (m.filter fun x => x.1 ≠ r.1), pos := it.pos.set i (stepPos (lt := lt) true m q) }
      some (it', a)
  | _, _ => none

/-- What `Process` and `Remove` do after a removal (tkrzw_dbm_shard.cc 857-865, 903-911): always in the ascending order. -/
def afterRemove (it : State) : State :=
  match popSlot S true it with
  | none => { it with bad := true }
  | some (s, it) => reload S true s.idx it

/-- `Process` (tkrzw_dbm_shard.cc 830-867). -/
def process {τ : Type} (it : State) (w : Bool) (p : Bytes → Bytes → Action × τ) : State × Code × Option τ :=
  match it.heap with
  | [] => (it, .notFound, none)
  | f :: _ =>
    match shardProcess (lt := lt) it f.idx w p with
    | none => (it, .notFound, none)
    | some (it', a, t) => (if w ∧ a = .remove then afterRemove S it' else it', .success, some t)

/-- `Set` (tkrzw_dbm_shard.cc 883-894): the value is kept in the slot too. -/
def set (it : State) (v : Bytes) : State × Code :=
  match it.heap with
  | [] => (it, .notFound)
  | f :: l =>
    match shardProcess (lt := lt) it f.idx true (fun _ _ => (.set v, ())) with
    | none => (it, .notFound)
    | some (it', _) => ({ it' with heap := { f with value := v } :: l }, .success)

/-- `Remove` (tkrzw_dbm_shard.cc 896-914). -/
def remove (it : State) : State × Code :=
  match it.heap with
  | [] => (it, .notFound)
  | f :: _ =>
    match shardProcess (lt := lt) it f.idx true (fun _ _ => (.remove, ())) with
    | none => (it, .notFound)
    | some (it', _) => (afterRemove S it', .success)

/-- A new iterator (tkrzw_dbm_shard.cc 632-649). -/
def make (ms : List Recs) : State := ⟨ms, ms.map fun _ => none, [], false, false⟩

end Verif.ShardIter
