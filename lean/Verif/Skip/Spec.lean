import Verif.Skip.Merge
import Verif.Skip.Read
import Verif.Skip.Db
/-
SPECIFICATION of class SkipDBM: a sorted sequence of records, on which all reading works, and the updates since the
last synchronization, which become visible at the next one.
-/
namespace Verif.Skip
open Verif

/-- SPECIFICATION: the state a user has in mind. `stored` are the visible records, `sources` the databases given to
MergeSkipDatabase, `pending` the updates (no value means removal), `pos` the place of the iterator; `cfg` and `inOrder`
are the tuning parameters in force. -/
structure S where
  cfg : Cfg
  inOrder : Bool
  stored : Recs
  sources : List Recs
  pending : List (Bytes × Option Bytes)
  pos : Option Nat

/-- SPECIFICATION: the updates of a key in the order of the calls. -/
def updatesOf (key : Bytes) (pending : List (Bytes × Option Bytes)) : List (Option Bytes) :=
  (pending.filter fun r => r.1 = key).map (·.2)

/-- SPECIFICATION: the values of a key after updates: a new value is put at the end, a removal drops all. -/
def liveAfter (values : List Bytes) : List (Option Bytes) → List Bytes
  | [] => values
  | none :: rest => liveAfter [] rest
  | some v :: rest => liveAfter (values ++ [v]) rest

/-- SPECIFICATION: the effect of the reducer on the values of a key. -/
def reduceBy (reducer : Option Reducer) (key : Bytes) (values : List Bytes) : List Bytes :=
  match reducer with
  | none => values
  | some f => if values = [] then [] else f key values

/-- SPECIFICATION: `new` are the records after a synchronization: in the order of the keys, and for each key the
reduction of the values of the merged databases, the stored values and the updates, in this order. -/
def Synced (s : S) (reducer : Option Reducer) (new : Recs) : Prop :=
  SortedRecs new ∧ ∀ key, valuesOf key new =
    reduceBy reducer key (liveAfter (valuesOf key s.sources.flatten ++ valuesOf key s.stored) (updatesOf key s.pending))

/-- SPECIFICATION: the value which is shown for a key: that of its first record. -/
def S.get (s : S) (key : Bytes) : Option Bytes := (s.stored.find? fun r => r.1 = key).map (·.2)

/-- SPECIFICATION: an action becomes a pending update. -/
def S.act (s : S) (key : Bytes) : Action → S
  | .noop => s
  | .remove => { s with pending := s.pending ++ [(key, none)] }
  | .set v => { s with pending := s.pending ++ [(key, some v)] }

/-- SPECIFICATION: the actions for a list of records. -/
def S.actEach (s : S) (proc : Bytes → Bytes → Action) (l : Recs) : S :=
  l.foldl (fun s r => s.act r.1 (proc r.1 r.2)) s

/-- SPECIFICATION: the place of the first record whose key is greater. -/
def upperIndex (recs : Recs) (key : Bytes) : Nat := (recs.takeWhile fun r => !bytesLt key r.1).length

/-- SPECIFICATION: a place if there is a record there. -/
def place (recs : Recs) (i : Nat) : Option Nat := if i < recs.length then some i else none

/-- SPECIFICATION: JumpLower goes to the last record whose key is less, or to the first record of the key itself. -/
def lowerPlace (recs : Recs) (key : Bytes) (inclusive : Bool) : Option Nat :=
  if inclusive = true ∧ (recs[lowerIndex recs key]?).map (·.1) = some key then some (lowerIndex recs key)
  else if lowerIndex recs key = 0 then none
  else some (lowerIndex recs key - 1)

/-- SPECIFICATION: JumpUpper goes to the first record whose key is greater, or not less. -/
def upperPlace (recs : Recs) (key : Bytes) (inclusive : Bool) : Option Nat :=
  place recs (if inclusive then lowerIndex recs key else upperIndex recs key)

/-- SPECIFICATION: the record at the place of the iterator. -/
def S.cur (s : S) : Option (Bytes × Bytes) := s.pos.bind fun i => s.stored[i]?

/-- SPECIFICATION: a record file with good metadata which holds the given records. -/
def Holds (F : Bytes) (recs : Recs) : Prop :=
  ∃ c m same md, loadMetadata F = some (c, m, same) ∧ md.length = metadataSize ∧ F = image c md recs ∧ Fits c recs ∧
    SortedRecs recs

/-- The calls on an opened database and one iterator of it. -/
inductive Op where
  | process (key : Bytes) (proc : Proc) (writable : Bool)
  | insert (key : Bytes) (a : Action)
  | getByIndex (i : Nat)
  | processFirst (proc : Bytes → Bytes → Action) (writable : Bool)
  | processEach (proc : Bytes → Bytes → Action) (writable : Bool)
  | count
  | effSize
  | clear (now : Nat)
  | sync (now : Nat) (reducer : Option Reducer)
  | revert
  | merge (src : Bytes)
  | rebuild (now : Nat) (c : Cfg)
  | reopen (now : Nat) (p : Params) (now' : Nat)
  | first
  | last
  | jump (key : Bytes)
  | jumpLower (key : Bytes) (inclusive : Bool)
  | jumpUpper (key : Bytes) (inclusive : Bool)
  | next
  | previous
  | iter (proc : Bytes → Bytes → Action) (writable : Bool)

/-- The calls on the model: the database and the iterator; Close, Synchronize, Clear and Rebuild clear the position
of every iterator (CancelIterators, tkrzw_dbm_skip.cc 361, 700, 806 and 876). -/
def step (d : Db) (it : Iter) : Op → Rd (Db × Iter × Out)
  | .process key proc w => do let (d, o) ← d.process key proc w; pure (d, it, o)
  | .insert key a => do let (d, o) ← d.insert key a; pure (d, it, o)
  | .getByIndex i => do let (d, o) ← d.getByIndex i; pure (d, it, o)
  | .processFirst proc w => do let (d, o) ← d.processFirst proc w; pure (d, it, o)
  | .processEach proc w => do let (d, o) ← d.processEach proc w; pure (d, it, o)
  | .count => .ok (d, it, ⟨.success, [], d.count⟩)
  | .effSize => .ok (d, it, ⟨.success, [], d.effSize⟩)
  | .clear now => do let d ← d.clear now; pure (d, none, Out.of .success)
  | .sync now reducer => do let d ← d.synchronize now reducer; pure (d, none, Out.of .success)
  | .revert => .ok (d.revert, it, Out.of .success)
  | .merge src => do let (d, o) ← d.mergeSkip src; pure (d, it, o)
  | .rebuild now c => do let d ← d.rebuild now c; pure (d, none, Out.of .success)
  | .reopen now p now' => do
    let F ← d.close now
    let d ← Db.openFile p F now'
    pure (d, none, Out.of .success)
  | .first => .ok (d, Iter.first, Out.of .success)
  | .last => Iter.last it d
  | .jump key => Iter.jump d key
  | .jumpLower key inclusive => Iter.jumpLower it d key inclusive
  | .jumpUpper key inclusive => Iter.jumpUpper d key inclusive
  | .next => Iter.next it d
  | .previous => Iter.previous it d
  | .iter proc w => Iter.process it d proc w

/-- SPECIFICATION: what a call may do: the state after it and what it gives back. -/
def Spec (s : S) : Op → S → Out → Prop
  | .process key proc w, s', o =>
    s' = (if w then s.act key (proc (s.get key)) else s) ∧ o = ⟨.success, [(key, s.get key)], 0⟩
  | .insert key a, s', o => s' = s.act key a ∧ o = Out.of .success
  | .getByIndex i, s', o =>
    s' = s ∧ o = (match s.stored[i]? with | some r => ⟨.success, [(r.1, some r.2)], 0⟩ | none => Out.of .notFound)
  | .processFirst proc w, s', o =>
    match s.stored.head? with
    | some r => s' = (if w then s.act r.1 (proc r.1 r.2) else s) ∧ o = ⟨.success, [(r.1, some r.2)], 0⟩
    | none => s' = s ∧ o = Out.of .notFound
  | .processEach proc w, s', o =>
    s' = (if w then s.actEach proc s.stored else s) ∧ o = ⟨.success, s.stored.map fun r => (r.1, some r.2), 0⟩
  | .count, s', o => s' = s ∧ o = ⟨.success, [], s.stored.length⟩
  | .effSize, s', o => s' = s ∧ o = ⟨.success, [], (s.stored.map fun r => r.1.length + r.2.length).sum⟩
  | .clear _, s', o => s' = ⟨s.cfg, s.inOrder, [], [], [], none⟩ ∧ o = Out.of .success
  | .sync _ reducer, s', o =>
    Synced s reducer s'.stored ∧ s' = ⟨s.cfg, s.inOrder, s'.stored, [], [], none⟩ ∧ o = Out.of .success
  | .revert, s', o => s' = { s with sources := [], pending := [] } ∧ o = Out.of .success
  | .merge src, s', o => (∃ l, Holds src l ∧ s' = { s with sources := s.sources ++ [l] }) ∧ o = Out.of .success
  | .rebuild _ c, s', o => Synced s none s'.stored ∧ s' = ⟨c, s.inOrder, s'.stored, [], [], none⟩ ∧ o = Out.of .success
  | .reopen _ p _, s', o => Synced s none s'.stored ∧ s' = ⟨s.cfg, p.inOrder, s'.stored, [], [], none⟩ ∧ o = Out.of .success
  | .first, s', o => s' = { s with pos := some 0 } ∧ o = Out.of .success
  | .last, s', o => s' = { s with pos := some (s.stored.length - 1) } ∧ o = Out.of .success
  | .jump key, s', o => s' = { s with pos := place s.stored (lowerIndex s.stored key) } ∧ o = Out.of .success
  | .jumpLower key inclusive, s', o => s' = { s with pos := lowerPlace s.stored key inclusive } ∧ o = Out.of .success
  | .jumpUpper key inclusive, s', o => s' = { s with pos := upperPlace s.stored key inclusive } ∧ o = Out.of .success
  | .next, s', o =>
    match s.cur with
    | some _ => s' = { s with pos := s.pos.map (· + 1) } ∧ o = Out.of .success
    | none => s' = s ∧ o = Out.of .notFound
  | .previous, s', o =>
    match s.cur with
    | some _ => s' = { s with pos := s.pos.bind fun i => if i = 0 then none else some (i - 1) } ∧ o = Out.of .success
    | none => s' = s ∧ o = Out.of .notFound
  | .iter proc w, s', o =>
    match s.cur with
    | some r =>
      s' = (if w then
          { s.act r.1 (proc r.1 r.2) with pos := if proc r.1 r.2 = .remove then s.pos.map (· + 1) else s.pos }
        else s) ∧ o = ⟨.success, [(r.1, some r.2)], 0⟩
    | none => s' = s ∧ o = Out.of .notFound

/-- SPECIFICATION: the ranges of the parameters of the record format (tkrzw_dbm_skip.cc 48-53). -/
structure Cfg.Valid (c : Cfg) : Prop where
  w : 3 ≤ c.w ∧ c.w ≤ 6
  step : 2 ≤ c.step ∧ c.step ≤ 64
  maxLevel : 1 ≤ c.maxLevel ∧ c.maxLevel ≤ 32

/-- The pending updates as records, with the value that stands for removal. -/
def S.pend (s : S) : Recs := s.pending.map fun r => (r.1, r.2.getD removingValue)

/-- SPECIFICATION: the updates which the theorems cover: the value is not the one which stands for removal, and in the
in-order mode the keys are in order and nothing is removed. -/
def S.UpdOk (s : S) (key : Bytes) : Action → Prop
  | .noop => True
  | .remove => s.inOrder = false
  | .set v => v ≠ removingValue ∧ (s.inOrder = true → ∀ r ∈ s.pending, bytesLt key r.1 = false)

/-- SPECIFICATION: the same for a list of records. -/
def S.UpdEachOk (proc : Bytes → Bytes → Action) : S → Recs → Prop
  | _, [] => True
  | s, r :: rest => s.UpdOk r.1 (proc r.1 r.2) ∧ S.UpdEachOk proc (s.act r.1 (proc r.1 r.2)) rest

/-- SPECIFICATION: in the in-order mode, the pending records fit in a file. -/
def S.PendFits (s : S) : Prop := s.inOrder = true → Fits s.cfg s.pend

/-- SPECIFICATION: the calls which the theorems cover: see `UpdOk`; the resulting files fit in the offset width and each
record has less than 2^31 bytes (`Fits`); the counting and the positioning by number are not called in the in-order
mode while updates are pending. -/
def Allowed (s : S) : Op → Prop
  | .process key proc w => w = true → s.UpdOk key (proc (s.get key))
  | .insert key a => s.UpdOk key a
  | .processFirst proc w => w = true → ∀ r, s.stored.head? = some r → s.UpdOk r.1 (proc r.1 r.2)
  | .processEach proc w => w = true → S.UpdEachOk proc s s.stored
  | .count | .effSize | .last | .jumpLower _ _ | .jumpUpper _ _ => s.inOrder = true → s.pending = []
  | .clear _ => s.PendFits
  | .sync _ reducer => s.PendFits ∧ (∀ f, reducer = some f → ∀ key values, removingValue ∉ f key values) ∧
      ∀ new, Synced s reducer new → Fits s.cfg new
  | .merge src => ∃ l, Holds src l ∧ ∀ r ∈ l, r.2 ≠ removingValue
  | .rebuild _ c => s.PendFits ∧ c.Valid ∧ ∀ new, Synced s none new → Fits s.cfg new ∧ Fits c new
  | .reopen _ _ _ => s.PendFits ∧ ∀ new, Synced s none new → Fits s.cfg new
  | .iter proc w => w = true → ∀ r, s.cur = some r → s.UpdOk r.1 (proc r.1 r.2)
  | _ => True

/-- SPECIFICATION: a series of calls each of which is covered. -/
def AllowedRun : S → List Op → Prop
  | _, [] => True
  | s, op :: rest => Allowed s op ∧ ∀ s' o, Spec s op s' o → AllowedRun s' rest

/-- SPECIFICATION: a series of calls. -/
def SpecRun : S → List Op → S → List Out → Prop
  | s, [], s', os => s' = s ∧ os = []
  | s, op :: rest, s', os => ∃ s1 o os', Spec s op s1 o ∧ SpecRun s1 rest s' os' ∧ os = o :: os'

/-- A series of calls on the model. -/
def run (d : Db) (it : Iter) : List Op → Rd (Db × Iter × List Out)
  | [] => .ok (d, it, [])
  | op :: rest => do
    let (d, it, o) ← step d it op
    let (d, it, os) ← run d it rest
    pure (d, it, o :: os)

end Verif.Skip
