import Verif.Dbm.History
import Verif.Dbm.QueueProps
/-
Model of StdHashDBM and StdTreeDBM (tkrzw_dbm_std.cc): the class template StdDBMImpl over std::unordered_map and
std::map, and its iterators.

The container is the list of its records in the order of its own iterators. An iterator of the container is the key of
the record it refers to, or the end. Locks, the file and the timestamp are not modelled here.
-/
namespace Verif.Std

/-- The two instances of the template (tkrzw_dbm_std.cc 28-33). For std::unordered_map the standard leaves open where a
new record goes in the order of iteration (`place`) and which order a rehash gives (`perm`). -/
inductive Kind where
  | tree
  | hash (place : List (Bytes × Bytes) → Bytes → Nat) (perm : List (Bytes × Bytes) → List (Bytes × Bytes))

/-- An iterator of the container: at the record of a key, or at the end. -/
abbrev Pos := Option Bytes

/-- `map.find(key)`: the value found. Equivalence of keys is equality for both containers
(tkrzw_dbm_std.cc 177, 210). -/
def lookup (k : Bytes) : List (Bytes × Bytes) → Option Bytes
  | [] => none
  | (a, v) :: m => if a = k then some v else lookup k m

/-- `map.emplace(key, value)`: no effect if the key is there (tkrzw_dbm_std.cc 185, 568). -/
def Kind.emplace (K : Kind) (k v : Bytes) (m : List (Bytes × Bytes)) : List (Bytes × Bytes) :=
  match K with
  | .tree => OrdMap.emplace bytesLt k v m
  | .hash place _ => if (lookup k m).isSome then m else m.take (place m k) ++ (k, v) :: m.drop (place m k)

/-- `map.erase(it)` for the record of a key (tkrzw_dbm_std.cc 199). -/
def eraseKey (k : Bytes) : List (Bytes × Bytes) → List (Bytes × Bytes)
  | [] => []
  | (a, v) :: m => if a = k then m else (a, v) :: eraseKey k m

/-- `it->second = value` for the record of a key (tkrzw_dbm_std.cc 204). -/
def assign (k v : Bytes) : List (Bytes × Bytes) → List (Bytes × Bytes)
  | [] => []
  | (a, w) :: m => if a = k then (a, v) :: m else (a, w) :: assign k v m

/-- `map.begin()` (tkrzw_dbm_std.cc 283, 632). -/
def begin (m : List (Bytes × Bytes)) : Pos := m.head?.map (·.1)

/-- `++it` for an iterator at a record; `none` if there is no such record, which is undefined behaviour
(tkrzw_dbm_std.cc 196, 725). -/
def inc (k : Bytes) : List (Bytes × Bytes) → Option Pos
  | [] => none
  | (a, _) :: m => if a = k then some (begin m) else inc k m

/-- `--it` for an iterator at a record; `none` for undefined behaviour (tkrzw_dbm_std.cc 696, 745). -/
def dec (k : Bytes) : List (Bytes × Bytes) → Option Pos
  | [] => none
  | [_] => none
  | (a, _) :: (b, w) :: m => if b = k then some (some a) else dec k ((b, w) :: m)

/-- `--it` at the end; `none` for an empty map, which is undefined behaviour (tkrzw_dbm_std.cc 647, 686). -/
def decEnd (m : List (Bytes × Bytes)) : Option Pos := m.getLast?.map fun r => some r.1

/-- The database object (tkrzw_dbm_std.cc 33-76): the map, the registered iterators (`iterators_`, each with the
identity of the iterator object) and what the update logger was told. `bad` records undefined behaviour. -/
structure State where
  map : List (Bytes × Bytes) := []
  iters : List (Nat × Pos) := []
  log : List LogOp := []
  bad : Bool := false

/-- The loop `for (iterator : iterators_) if (iterator->it_ == it) ++iterator->it_` (tkrzw_dbm_std.cc 194-198). -/
def moveOff (k : Bytes) (next : Pos) (iters : List (Nat × Pos)) : List (Nat × Pos) :=
  iters.map fun x => if x.2 = some k then (x.1, next) else x

/-- REMOVE of an existing record: log, move the iterators off, erase (tkrzw_dbm_std.cc 190-199). -/
def State.removeAt (s : State) (k : Bytes) : State :=
  match inc k s.map with
  | none => { s with bad := true }
  | some next => { s with log := s.log ++ [.remove k], iters := moveOff k next s.iters, map := eraseKey k s.map }

/-- A new value for an existing record (tkrzw_dbm_std.cc 200-204). -/
def State.assignAt (s : State) (k v : Bytes) : State :=
  { s with log := s.log ++ [.set k v], map := assign k v s.map }

/-- What is done with the answer of `ProcessFull` (tkrzw_dbm_std.cc 188-205). -/
def State.actFull (s : State) (k : Bytes) : Action → State
  | .noop => s
  | .remove => s.removeAt k
  | .set v => s.assignAt k v

/-- What is done with the answer of `ProcessEmpty` (tkrzw_dbm_std.cc 179-186). -/
def State.actEmpty (K : Kind) (s : State) (k : Bytes) : Action → State
  | .set v => { s with log := s.log ++ [.set k v], map := K.emplace k v s.map }
  | _ => s

/-- `StdDBMImpl::Process` (tkrzw_dbm_std.cc 172-219). -/
def State.process {τ : Type} (K : Kind) (s : State) (k : Bytes) (w : Bool) (p : ProcR τ) : State × τ :=
  if w then
    match lookup k s.map with
    | none => (s.actEmpty K k (p none).1, (p none).2)
    | some v => (s.actFull k (p (some v)).1, (p (some v)).2)
  else (s, (p (lookup k s.map)).2)

/-- `StdDBMImpl::ProcessMulti` (tkrzw_dbm_std.cc 221-278): the body of `Process` for each pair under one lock. -/
def State.processMulti {ρ : Type} (K : Kind) (s : State) : List (Bytes × ProcS ρ) → Bool → ρ → State × ρ
  | [], _, r => (s, r)
  | (k, p) :: rest, w, r =>
    let x := s.process K k w (p r)
    State.processMulti K x.1 rest w x.2

/-- `StdDBMImpl::ProcessFirst` (tkrzw_dbm_std.cc 280-315); `none` is NOT_FOUND_ERROR. -/
def State.processFirst {τ : Type} (s : State) (w : Bool) (p : Bytes → Bytes → Action × τ) : State × Option τ :=
  match s.map with
  | [] => (s, none)
  | (k, v) :: _ => (if w then s.actFull k (p k v).1 else s, some (p k v).2)

/-- The loop of `ProcessEach` from the iterator `it`. The first argument bounds the number of steps (the size of the map);
running out of it is recorded as an error. `next` is taken before the record is erased (tkrzw_dbm_std.cc 321-343,
348-353). -/
def eachLoop {ρ : Type} (w : Bool) (p : Bytes → ρ → Bytes → Action × ρ) : Nat → Pos → State → ρ → State × ρ
  | _, none, s, r => (s, r)
  | 0, some _, s, r => ({ s with bad := true }, r)
  | n + 1, some k, s, r =>
    match lookup k s.map, inc k s.map with
    | some v, some next => eachLoop w p n next (if w then s.actFull k (p k r v).1 else s) (p k r v).2
    | _, _ => ({ s with bad := true }, r)

/-- `StdDBMImpl::ProcessEach` (tkrzw_dbm_std.cc 317-357); `e` is `ProcessEmpty(NOOP)`. -/
def State.processEach {ρ : Type} (s : State) (w : Bool) (p : Bytes → ρ → Bytes → Action × ρ) (e : ρ → ρ) (r : ρ) :
    State × ρ :=
  let x := eachLoop w p s.map.length (begin s.map) s (e r)
  (x.1, e x.2)

/-- `StdDBMImpl::Count` (tkrzw_dbm_std.cc 359-364). -/
def State.count (s : State) : Nat := s.map.length

/-- `CancelIterators`: every iterator to the end (tkrzw_dbm_std.cc 518-523). -/
def cancel (iters : List (Nat × Pos)) : List (Nat × Pos) := iters.map fun x => (x.1, none)

/-- `StdDBMImpl::Clear` (tkrzw_dbm_std.cc 396-405). -/
def State.clear (s : State) : State := { s with log := s.log ++ [.clear], map := [], iters := cancel s.iters }

/-- `StdDBMImpl::Rebuild` (tkrzw_dbm_std.cc 407-420): the hash map is rehashed; the iterators are cancelled. -/
def State.rebuild (K : Kind) (s : State) : State :=
  match K with
  | .tree => { s with iters := cancel s.iters }
  | .hash _ perm => { s with map := perm s.map, iters := cancel s.iters }

/-! ### Iterators -/

/-- Where iterator `i` is. -/
def State.at (s : State) (i : Nat) : Pos := ((s.iters.find? fun x => x.1 = i).map (·.2)).getD none

/-- `it_ = pos` in iterator `i`. -/
def State.move (s : State) (i : Nat) (pos : Pos) : State :=
  { s with iters := s.iters.map fun x => if x.1 = i then (i, pos) else x }

/-- The constructor of an iterator object (tkrzw_dbm_std.cc 612-618). -/
def State.makeIter (s : State) (i : Nat) : State := { s with iters := s.iters ++ [(i, none)] }

/-- The destructor (tkrzw_dbm_std.cc 620-626). -/
def State.freeIter (s : State) (i : Nat) : State := { s with iters := s.iters.filter fun x => x.1 ≠ i }

/-- `First` (tkrzw_dbm_std.cc 628-634). -/
def State.first (s : State) (i : Nat) : State × Code := (s.move i (begin s.map), .success)

/-- `it_ = pos` where computing `pos` may be undefined behaviour. -/
def State.moveOpt (s : State) (i : Nat) : Option Pos → State
  | none => { s with bad := true }
  | some pos => s.move i pos

/-- `Last` (tkrzw_dbm_std.cc 636-650). -/
def State.last (K : Kind) (s : State) (i : Nat) : State × Code :=
  match K with
  | .hash _ _ => (s, .notImplemented)
  | .tree => (if begin s.map = none then s.move i none else s.moveOpt i (decEnd s.map), .success)

/-- `map.lower_bound(key)` (tkrzw_dbm_std.cc 667). -/
def lowerBound (k : Bytes) (m : List (Bytes × Bytes)) : Pos := begin (OrdMap.lowerBound bytesLt k m)

/-- `map.upper_bound(key)` (tkrzw_dbm_std.cc 713). -/
def upperBound (k : Bytes) (m : List (Bytes × Bytes)) : Pos := begin (OrdMap.upperBound bytesLt k m)

/-- `Jump` (tkrzw_dbm_std.cc 652-669). -/
def State.jump (K : Kind) (s : State) (i : Nat) (k : Bytes) : State × Code :=
  match K with
  | .hash _ _ => if (lookup k s.map).isSome then (s.move i (some k), .success) else (s.move i none, .notFound)
  | .tree => (s.move i (lowerBound k s.map), .success)

/-- The test of the loop of `JumpLower` (tkrzw_dbm_std.cc 689). -/
def lowerOk (key : Bytes) (inclusive : Bool) (k : Bytes) : Bool := if inclusive then !bytesLt key k else bytesLt k key

/-- The backward loop of `JumpLower` from a record. `none` is undefined behaviour (tkrzw_dbm_std.cc 688-698). -/
def lowerLoop (m : List (Bytes × Bytes)) (key : Bytes) (inclusive : Bool) : Nat → Bytes → Option Pos
  | 0, _ => none
  | n + 1, k =>
    if lowerOk key inclusive k then some (some k)
    else if begin m = some k then some none
    else match dec k m with
      | some (some k') => lowerLoop m key inclusive n k'
      | _ => none

/-- The target of `JumpLower` (tkrzw_dbm_std.cc 679-700). -/
def jumpLowerPos (m : List (Bytes × Bytes)) (key : Bytes) (inclusive : Bool) : Option Pos :=
  match lowerBound key m with
  | some k => lowerLoop m key inclusive m.length k
  | none =>
    if begin m = none then some none
    else match decEnd m with
      | some (some k) => lowerLoop m key inclusive m.length k
      | _ => none

/-- `JumpLower` (tkrzw_dbm_std.cc 671-701). -/
def State.jumpLower (K : Kind) (s : State) (i : Nat) (k : Bytes) (inclusive : Bool) : State × Code :=
  match K with
  | .hash _ _ => (s, .notImplemented)
  | .tree => (s.moveOpt i (jumpLowerPos s.map k inclusive), .success)

/-- `JumpUpper` (tkrzw_dbm_std.cc 702-715). -/
def State.jumpUpper (K : Kind) (s : State) (i : Nat) (k : Bytes) (inclusive : Bool) : State × Code :=
  match K with
  | .hash _ _ => (s, .notImplemented)
  | .tree => (s.move i (if inclusive then lowerBound k s.map else upperBound k s.map), .success)

/-- `Next` (tkrzw_dbm_std.cc 717-728). -/
def State.next (s : State) (i : Nat) : State × Code :=
  match s.at i with
  | none => (s, .notFound)
  | some k => (s.moveOpt i (inc k s.map), .success)

/-- `Previous` (tkrzw_dbm_std.cc 730-748). -/
def State.previous (K : Kind) (s : State) (i : Nat) : State × Code :=
  match K with
  | .hash _ _ => (s, .notImplemented)
  | .tree =>
    match s.at i with
    | none => (s, .notFound)
    | some k => (if begin s.map = some k then s.move i none else s.moveOpt i (dec k s.map), .success)

/-- REMOVE through iterator `i` at `k`: the other iterators at the record are moved, the record is erased and the
iterator itself goes on (`erase(it_++)`) (tkrzw_dbm_std.cc 759-768). -/
def State.iterRemove (s : State) (i : Nat) (k : Bytes) : State :=
  match inc k s.map with
  | none => { s with bad := true }
  | some next =>
    { s with
      log := s.log ++ [.remove k],
      iters := s.iters.map fun x => if x.1 = i then (i, next) else if x.2 = some k then (x.1, next) else x,
      map := eraseKey k s.map }

/-- `Process` of an iterator (tkrzw_dbm_std.cc 750-782); `none` is NOT_FOUND_ERROR. -/
def State.iterProcess {τ : Type} (s : State) (i : Nat) (w : Bool) (p : Bytes → Bytes → Action × τ) :
    State × Option τ :=
  match s.at i with
  | none => (s, none)
  | some k =>
    match lookup k s.map with
    | none => ({ s with bad := true }, none)
    | some v =>
      (if w then
        match (p k v).1 with
        | .noop => s
        | .remove => s.iterRemove i k
        | .set v' => s.assignAt k v'
       else s, some (p k v).2)

/-- `Process` and `ProcessMulti` together, for the default methods of DBM. -/
def impl (K : Kind) : DbmImpl State := ⟨State.process K, State.processMulti K⟩

/-- With `ProcessFirst`. -/
def firstImpl (K : Kind) : Api.FirstImpl State := ⟨impl K, State.processFirst⟩

end Verif.Std
