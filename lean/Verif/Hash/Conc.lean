import Verif.Hash.Model
import Verif.Dbm.TwoPhase
import Verif.Tiny.Conc
/-
HashDBM (tkrzw_dbm_hash.cc) used by many threads, down to the bytes of the file: `ProcessImpl` with one step for each read of a bucket
or record, each file write, each access to the free block pool, each counter and the update log.

An error status, a read or write outside the file and undefined behaviour set the flag `bad`. Simplified: one file access is one step, and
so is an append (`File::Append` first reserves the region and then writes it); the call of a processor is one step with the read of its
record. `UpdateLogger`, the pool and the counters lock for themselves (tkrzw_dbm_hash_impl.cc 555, 565). Not modelled: I/O failures,
compression, calls of `Process` that do not need the value (`readable` = false), other methods at the same time.
-/
namespace Verif.Hash.Conc
open Verif TwoPhase

/-- What the threads share: the file, the free block pool, `num_records_`, `eff_data_size_` and the log (tkrzw_dbm_hash.cc 208-249). -/
structure CMem where
  file : Bytes
  fbp : List FB
  num : Int
  eff : Int
  log : List LogOp
  bad : Bool

/-- What the walk of `ProcessImpl` has come to: a record (`top`, `parent_offset`, `current_offset`, `rec`), or the end
(tkrzw_dbm_hash.cc 1432-1447). -/
inductive Pos where
  | hit (top parent cur : Nat) (old : RecR)
  | miss (top : Nat)

/-- What is to be added to `num_records_` and to `eff_data_size_`. -/
abbrev Acct := Int × Int

/-- The offset and the size of the block that an update leaves behind. -/
abbrev Old := Option (Nat × Nat)

/-- Where a thread is in `ProcessImpl` (tkrzw_dbm_hash.cc 1427-1636). -/
inductive Inner (ρ : Type) where
  /-- 1432: before the read of the bucket -/
  | enter
  /-- 1440: before the test of `current_offset` -/
  | at (top parent cur : Nat)
  /-- 1474, 1599: the processor wants an update; before the log. `r` is what the processor leaves behind. -/
  | log (a : Action) (pos : Pos) (r : ρ)
  /-- 1515: before the record is overwritten by one of the same size -/
  | over (bi off : Nat) (nr : Rec) (acc : Acct)
  /-- 1500: before a removed record is unlinked -/
  | unlink (bi parent child cur size : Nat) (acc : Acct)
  /-- 1533, 1611: before a free block is looked for -/
  | alloc (bi parent : Nat) (op opFb : OpType) (k v : Bytes) (child : Nat) (old : Old) (acc : Acct)
  /-- 1550, 1623: before the write into a free block -/
  | wnew (bi parent off : Nat) (nr : Rec) (old : Old) (acc : Acct)
  /-- 1548, 1621: before the append -/
  | app (bi parent : Nat) (nr : Rec) (old : Old) (acc : Acct)
  /-- 1555, 1628: before the new record is linked -/
  | lnk (bi parent new : Nat) (old : Old) (acc : Acct)
  /-- 1509, 1563: before the old record is made void -/
  | void (bi cur size : Nat) (acc : Acct)
  /-- 1513, 1569: before its block is given to the pool -/
  | pool (bi cur size : Nat) (acc : Acct)
  /-- 1572, 1632: before `num_records_` is changed -/
  | num (acc : Acct)
  /-- 1572-1585, 1633: before `eff_data_size_` is changed -/
  | eff (de : Int)

/-- `update_logger_->WriteRemove` and `WriteSet` (tkrzw_dbm_hash.cc 1474-1484, 1599-1606). -/
def logged (k : Bytes) : Action → List LogOp
  | .set v => [.set k v]
  | .remove => [.remove k]
  | .noop => []

/-- What an update of a found record does to the counters (tkrzw_dbm_hash.cc 1572-1585). -/
def acctHit (k : Bytes) (old : RecR) : Action → Acct
  | .noop => (0, 0)
  | .remove => if old.op.isSet then (-1, -((k.length + (old.value.getD []).length : Nat) : Int)) else (0, 0)
  | .set v =>
    if old.op.isSet then (0, (v.length : Int) - ((old.value.getD []).length : Int)) else (1, ((k.length + v.length : Nat) : Int))

/-- Where the new version of a record that does not fit its block will be linked, and what becomes of the old one
(tkrzw_dbm_hash.cc 1520-1559). -/
def moveTo {ρ : Type} (c : Cfg) (bi top parent cur : Nat) (old : RecR) (op opFb : OpType) (k v : Bytes) (acc : Acct) : Inner ρ :=
  .alloc bi (if c.inPlace then parent else 0) op opFb k v (if c.inPlace || parent = 0 then old.child else top)
    (if c.inPlace then some (cur, old.size) else none) acc

/-- What is to be done after the log (tkrzw_dbm_hash.cc 1485-1531, 1607-1608). -/
def todo {ρ : Type} (c : Cfg) (bi : Nat) (k : Bytes) (a : Action) : Pos → Inner ρ
  | .hit top parent cur old =>
    match a with
    | .noop => .enter
    | .remove =>
      if c.inPlace && (setData c .void old.size [] [] 0).size c = old.size then .unlink bi parent old.child cur old.size (acctHit k old .remove)
      else moveTo c bi top parent cur old .remove .remove k [] (acctHit k old .remove)
    | .set v =>
      if c.inPlace && (setData c (if old.op.isSet then .set else .add) old.size k v old.child).size c = old.size then
        .over bi cur (setData c (if old.op.isSet then .set else .add) old.size k v old.child) (acctHit k old (.set v))
      else moveTo c bi top parent cur old (if old.op.isSet then .set else .add) .set k v (acctHit k old (.set v))
  | .miss top =>
    match a with
    | .set v => .alloc bi 0 .add .add k v top none (1, ((k.length + v.length : Nat) : Int))
    | _ => .enter

/-- `WriteChildOffset` of the parent, or `SetBucketValue` (tkrzw_dbm_hash.cc 1500-1508, 1555-1559, 1628). -/
def linkWrite (bi parent off : Nat) : Wr := if parent > 0 then .child parent off else .bucket bi off

/-- A file write. -/
def put (e : Env) (c : Cfg) (m : CMem) (w : Wr) : CMem :=
  match applyWr e c m.file w with
  | none => { m with bad := true }
  | some f => { m with file := f }

/-- What comes after the linking (tkrzw_dbm_hash.cc 1560-1570). -/
def afterLink {ρ : Type} (bi : Nat) (old : Old) (acc : Acct) : Inner ρ :=
  match old with
  | some (cur, size) => .void bi cur size acc
  | none => .num acc

/-- One step of `ProcessImpl` (tkrzw_dbm_hash.cc 1427-1636). -/
def bodyStep {ρ : Type} (e : Env) (c : Cfg) (m : CMem) (_ : Unit) (w : Bool) (rest : List (Bytes × ProcS ρ)) (r : ρ) :
    Inner ρ → CMem × List (Bytes × ProcS ρ) × ρ × Inner ρ
  | .enter =>
    match rest with
    | [] => (m, rest, r, .enter)
    | (k, _) :: _ =>
      match getBucket c m.file (e.hash k c.nb) with
      | none => ({ m with bad := true }, rest, r, .enter)
      | some top => (m, rest, r, .at top 0 top)
  | .at top parent cur =>
    match rest with
    | [] => (m, rest, r, .enter)
    | (k, p) :: rest' =>
      if cur = 0 then
        let x := p r none
        match w, x.1 with
        | true, .set v => (m, rest, r, .log (.set v) (.miss top) x.2)
        | _, _ => (m, rest', x.2, .enter)
      else
        match (fileReader c m.file metaMinReadSize).record cur with
        | none => ({ m with bad := true }, rest, r, .enter)
        | some old =>
          if k = old.key then
            match (if old.op.isSet then old.value.map some else some none) with
            | none => ({ m with bad := true }, rest, r, .enter)
            | some ov =>
              let x := p r ov
              if w && x.1 != .noop then (m, rest, r, .log x.1 (.hit top parent cur old) x.2) else (m, rest', x.2, .enter)
          else (m, rest, r, .at top cur old.child)
  | .log a pos r' =>
    match rest with
    | [] => (m, rest, r, .enter)
    | (k, _) :: rest' => ({ m with log := m.log ++ logged k a }, rest', r', todo c (e.hash k c.nb) k a pos)
  | .over _ off nr acc => (put e c m (.record off nr), rest, r, .num acc)
  | .unlink bi parent child cur size acc => (put e c m (linkWrite bi parent child), rest, r, .void bi cur size acc)
  | .alloc bi parent op opFb k v child old acc =>
    if c.inPlace then
      match fbpFetch ((setData c op 0 k v child).size c) m.fbp with
      | some (fb, fbp) =>
        ({ m with fbp := fbp }, rest, r,
          if fb.off = 0 then .app bi parent (setData c opFb fb.size k v child) old acc
          else .wnew bi parent fb.off (setData c opFb fb.size k v child) old acc)
      | none => (m, rest, r, .app bi parent (setData c op 0 k v child) old acc)
    else (m, rest, r, .app bi parent (setData c op 0 k v child) old acc)
  | .wnew bi parent off nr old acc => (put e c m (.record off nr), rest, r, .lnk bi parent off old acc)
  | .app bi parent nr old acc => (put e c m (.append nr), rest, r, .lnk bi parent m.file.length old acc)
  | .lnk bi parent new old acc => (put e c m (linkWrite bi parent new), rest, r, afterLink bi old acc)
  | .void bi cur size acc => (put e c m (.record cur (setData c .void size [] [] 0)), rest, r, .pool bi cur size acc)
  | .pool _ cur size acc =>
    match fbpInsert c.fbpCap m.fbp ⟨cur, size⟩ with
    | none => ({ m with bad := true }, rest, r, .num acc)
    | some fbp => ({ m with fbp := fbp }, rest, r, .num acc)
  | .num acc => ({ m with num := m.num + acc.1 }, rest, r, .eff acc.2)
  | .eff de => ({ m with eff := m.eff + de }, rest, r, .enter)

def isEnter {ρ : Type} : Inner ρ → Bool
  | .enter => true
  | _ => false

/-- `ProcessImpl` for the pairs of a call in order (tkrzw_dbm_hash.cc 397-448). -/
def body {ρ : Type} (e : Env) (c : Cfg) : Body CMem ρ (Inner ρ) Unit where
  start := .enter
  done := fun rest x => rest.isEmpty && isEnter x
  step := bodyStep e c

/-- The locks of `record_mutex_` (tkrzw_dbm_hash.cc 411, 436), a `HashMutex` with this number of slots. -/
def locks (ρ : Type) (e : Env) (c : Cfg) (slots : Nat) : Locks ρ := Tiny.Conc.locks ρ ⟨slots, e.hash⟩ c.nb

abbrev CState (ρ : Type) := Sys CMem ρ (Inner ρ)

/-- The shared part of an open database. -/
def ofState (s : State) : CMem := ⟨s.file, s.mem.fbp, s.mem.num, s.mem.eff, s.mem.log, s.bad⟩

/-- `n` threads work on an open database. -/
def run {ρ : Type} (e : Env) (slots : Nat) (s : State) (n : Nat) (es : List (Nat × Act ρ Unit)) : CState ρ :=
  TwoPhase.run (locks ρ e s.cfg slots) (body e s.cfg) (ofState s) n es

end Verif.Hash.Conc
