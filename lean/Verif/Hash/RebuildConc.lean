import Verif.Hash.Restore
import Verif.Hash.Session
/-
Model of `RebuildImpl` of HashDBM while other threads update the database (tkrzw_dbm_hash.cc 1656-1835).

`Rebuild` holds the lock of the database in the shared mode, as `Process` does, so that calls of `Process` go on; `Clear`, `Synchronize` and `Close`
take it exclusively and wait, and a second `Rebuild` returns at once.  The calls of the other threads take the locks of the records they use; the model
lets them run one after the other.  The lengths of the file are read with all records locked, that is between calls.  The records are read
while the calls are running: which bytes the file has when a record is read is up to the schedule.
-/
namespace Verif.Hash
open Verif.Codec

/-- A call of `Process` by another thread; every method on a single record is such a call (C58). -/
structure Call where
  key : Bytes
  writable : Bool
  proc : ProcR Out

/-- The calls of `Process` one after the other (tkrzw_dbm_hash.cc 397-415). -/
def runCalls (e : Env) : State → List Call → State × List Out
  | s, [] => (s, [])
  | s, a :: l =>
    let x := process e s a.key a.writable a.proc
    let y := runCalls e x.1 l
    (y.1, x.2 :: y.2)

/-- What happens while the rebuilding thread reads a part of the file: the calls, and the bytes of the file when the `i`-th record is read. -/
structure Window where
  calls : List Call
  snap : Nat → Bytes

/-- `scan` where each record is read from the file of its moment (tkrzw_dbm_hash_impl.cc 366-432). -/
def scanAt (e : Env) (c : Cfg) (snap : Nat → Bytes) (endOff : Nat) : Nat → Nat → Nat → Option (List Ent)
  | 0, _, _ => none
  | n + 1, i, off =>
    if off < endOff then
      match readMeta c (snap i) off metaMinReadSize with
      | none => none
      | some m =>
        if checkCrc e c (snap i) off m then
          match readValue (snap i) off m with
          | none => none
          | some v => (scanAt e c snap endOff n (i + 1) (off + m.whole)).map ((m.op, m.key, v) :: ·)
        else none
    else some []

/-- `extractOffsets` likewise (tkrzw_dbm_hash_impl.cc 434-483); the number of the next moment is handed on. -/
def extractAt (c : Cfg) (snap : Nat → Bytes) (endOff : Nat) : Nat → Nat → Nat → Option (List Nat × Nat)
  | 0, _, _ => none
  | n + 1, i, off =>
    if off < endOff then
      match readMeta c (snap i) off metaMinReadSize with
      | none => none
      | some m =>
        match extractAt c snap endOff n (i + 1) (off + m.whole) with
        | none => none
        | some (l, j) => some (if m.op = .void then l else readFixNum (writeFixNum (off >>> c.ap) c.ow) c.ow <<< c.ap :: l, j)
    else some ([], i)

/-- `readEnts` likewise (tkrzw_dbm_hash.cc 2009-2046). -/
def readEntsAt (e : Env) (c : Cfg) (snap : Nat → Bytes) : Nat → List Nat → Option (List Ent)
  | _, [] => some []
  | i, off :: offs =>
    match readMeta c (snap i) off metaMinReadSize with
    | none => none
    | some m =>
      if checkCrc e c (snap i) off m then
        match readValue (snap i) off m with
        | none => none
        | some v => (readEntsAt e c snap (i + 1) offs).map ((m.op, m.key, v) :: ·)
      else none

/-- The first import: the records before the offset at which the rebuild began (tkrzw_dbm_hash.cc 1724-1728). -/
def importFirst (e : Env) (c : Cfg) (snap : Nat → Bytes) (wasInPlace : Bool) (endOff : Nat) (tmp : State) : Option State :=
  if wasInPlace then
    (scanAt e c snap endOff (endOff + 1) 0 (recordBase c)).map (importForward (impl e) tmp)
  else
    match extractAt c snap endOff (endOff + 1) 0 (recordBase c) with
    | none => none
    | some (offs, j) => (readEntsAt e c snap j offs.reverse).map (importBackward (impl e) tmp)

/-- `REBUILD_NONBLOCKING_MAX_TRIES` (tkrzw_dbm_hash.cc 62). -/
def maxTries : Nat := 3

/-- `REBUILD_BLOCKING_ALLOWANCE` (tkrzw_dbm_hash.cc 63). -/
def blockingAllowance : Nat := 65536

/-- What the loop of the non-blocking imports hands on: the database, the new database, `begin_offset`, and the results of the calls. -/
structure Trying where
  db : State
  tmp : State
  begin : Nat
  outs : List Out

/-- The loop of the non-blocking imports (tkrzw_dbm_hash.cc 1739-1758). `i` is the number of the window. -/
def tryLoop (e : Env) (more : Nat → Window) : Nat → Nat → Trying → Option Trying
  | 0, _, x => some x
  | n + 1, i, x =>
    let stop := x.db.file.length
    if stop ≤ x.begin + blockingAllowance then some x
    else
      match scanAt e x.db.cfg (more i).snap stop (stop + 1) 0 x.begin with
      | none => none
      | some l =>
        let y := runCalls e x.db (more i).calls
        tryLoop e more n (i + 1) ⟨y.1, importForward (impl e) x.tmp l, stop, x.outs ++ y.2⟩

/-- The blocking import with all records locked (tkrzw_dbm_hash.cc 1760-1768). -/
def importLast (e : Env) (c : Cfg) (file : Bytes) (start : Nat) (tmp : State) : Option State :=
  if start < file.length then (scan e c file file.length (file.length + 1) start).map (importForward (impl e) tmp)
  else some tmp

/-- A schedule of the other threads: during the first import, during the imports of the loop, and between the loop and the last lock. -/
structure Schedule where
  first : Window
  more : Nat → Window
  last : List Call

/-- What the thread of the rebuild has before it closes the new database: the old database, the new one, and the results of the calls. -/
structure Rebuilt where
  old : Db
  new : Db
  outs : List Out

/-- `RebuildImpl` (tkrzw_dbm_hash.cc 1656-1768) while other threads make calls, until all records have been imported. -/
def rebuildCopy (e : Env) (t : Tune) (sch : Schedule) (d : Db) : Option Rebuilt :=
  match openImpl t.extra { t.cfg with inPlace := true, fbpCap := 2048 } [] with
  | none => none
  | some (tmp, _) =>
    let b := rebuildBegin d
    match importFirst e b.st.cfg sch.first.snap d.st.cfg.inPlace d.st.file.length tmp.st with
    | none => none
    | some s =>
      let x := runCalls e b.st sch.first.calls
      match tryLoop e sch.more maxTries 0 ⟨x.1, s, d.st.file.length, x.2⟩ with
      | none => none
      | some y =>
        let z := runCalls e y.db sch.last
        match importLast e z.1.cfg z.1.file y.begin y.tmp with
        | none => none
        | some s => some ⟨{ b with st := z.1 }, { tmp with st := s }, y.outs ++ z.2⟩

/-- `RebuildImpl` (tkrzw_dbm_hash.cc 1656-1835) while other threads make calls; with the results of these. -/
def rebuildConc (e : Env) (t : Tune) (sch : Schedule) (d : Db) : Option (Db × List Out) :=
  match rebuildCopy e t sch d with
  | none => none
  | some r => (rebuildFinish t.stamp t.cfg r.old r.new).map fun d' => (d', r.outs)

/-- The bytes that the file of a database can have while a series of calls is running: between two calls, or between two writes of a call. -/
inductive Moment (e : Env) : State → List Call → Bytes → Prop
  | now (s : State) (l : List Call) : Moment e s l s.file
  | during (s : State) (a : Call) (l : List Call) (n : Nat) (f : Bytes) (h : crashFile e s a.key a.writable a.proc n = some f) : Moment e s (a :: l) f
  | later (s : State) (a : Call) (l : List Call) (f : Bytes) (h : Moment e (process e s a.key a.writable a.proc).1 l f) : Moment e s (a :: l) f

/-- The bytes read in the loop are bytes of the file at moments of the windows. -/
def TrySeen (e : Env) (more : Nat → Window) : Nat → Nat → State → Nat → Prop
  | 0, _, _, _ => True
  | n + 1, i, s, start =>
    if s.file.length ≤ start + blockingAllowance then True
    else (∀ j, Moment e s (more i).calls ((more i).snap j)) ∧ TrySeen e more n (i + 1) (runCalls e s (more i).calls).1 s.file.length

/-- What the rebuilding thread reads is what the file contains at some moment of the time in which it reads. -/
def Schedule.Seen (e : Env) (sch : Schedule) (d : Db) : Prop :=
  (∀ j, Moment e (rebuildBegin d).st sch.first.calls (sch.first.snap j)) ∧
  TrySeen e sch.more maxTries 0 (runCalls e (rebuildBegin d).st sch.first.calls).1 d.st.file.length

/-- The calls made in the loop, which ends when little is left to read. -/
def tryCalls (e : Env) (more : Nat → Window) : Nat → Nat → State → Nat → List Call
  | 0, _, _, _ => []
  | n + 1, i, s, start =>
    if s.file.length ≤ start + blockingAllowance then []
    else (more i).calls ++ tryCalls e more n (i + 1) (runCalls e s (more i).calls).1 s.file.length

/-- All calls made during the rebuild, in their order. -/
def Schedule.calls (e : Env) (sch : Schedule) (d : Db) : List Call :=
  sch.first.calls ++ tryCalls e sch.more maxTries 0 (runCalls e (rebuildBegin d).st sch.first.calls).1 d.st.file.length ++ sch.last

end Verif.Hash
