import Verif.Hash.Rebuild
import Verif.Dbm.History
/-
Histories of calls on a HashDBM, including closing and opening it again.
-/
namespace Verif.Hash

/-- The methods on a database with its saved members. -/
def dbImpl (e : Env) : DbmImpl Db where
  process d k w p := let x := process e d.st k w p; ({ d with st := x.1 }, x.2)
  processMulti d l w r := let x := (impl e).processMulti d.st l w r; ({ d with st := x.1 }, x.2)

/-- An error status or undefined behaviour in the middle of a call. -/
def Db.fail (d : Db) : Db := { d with st := d.st.fail }

/-- A call on a database: a method, or `Close` followed by `Open` with a capacity of the free block pool, or `Synchronize`. -/
inductive SOp where
  | call (op : Op)
  | reopen (stamp cap : Nat)
  | sync (stamp : Nat)

/-- `Close` at the time `stamp` and `Open` as writable (tkrzw_dbm_hash.cc 257-300, 382-393): the file must be found healthy. -/
def reopen (stamp cap : Nat) (d : Db) : Option Db :=
  match closeFile stamp d with
  | none => none
  | some f =>
    match openOld cap f with
    | some (n, true) => some { n with st := { n.st with mem := { n.st.mem with log := d.st.mem.log }, bad := d.st.bad } }
    | _ => none

/-- The bytes a file processor sees during `Synchronize` of a healthy writable database (tkrzw_dbm_hash.cc 747-764): the metadata
are saved as closed, the section of the free block pool stays what it was. `stamp` is the wall time. -/
def copyFile (stamp : Nat) (d : Db) : Option Bytes :=
  fwrite d.st.file 0 (metaBytes { d.extra.next with stamp := stamp } d.st.cfg true d.st.mem.num d.st.mem.eff d.st.file.length)

/-- `Synchronize` of a healthy writable database (tkrzw_dbm_hash.cc 736-767) at the time `stamp`: the metadata are saved as closed,
and then as not closed. -/
def synchronize (stamp : Nat) (d : Db) : Option Db :=
  match copyFile stamp d with
  | none => none
  | some f =>
    match fwrite f 0 (metaBytes { d.extra.next.next with stamp := stamp } d.st.cfg false d.st.mem.num d.st.mem.eff d.st.file.length) with
    | none => none
    | some g => some
        { st := { d.st with file := g }
          extra := { d.extra.next.next with stamp := stamp } }

/-- One call. `tunes` interprets the parameter of `rebuild`. -/
def step (e : Env) (tunes : Int → Tune) (d : Db) : SOp → Db × Out
  | .call op =>
    apiStep (dbImpl e) (Api.append (dbImpl e)) (fun d => (clear d).getD d.fail) (fun d n => (rebuild e (tunes n) d).getD d.fail) d op
  | .reopen stamp cap => ((reopen stamp cap d).getD d.fail, .success, none)
  | .sync stamp => ((synchronize stamp d).getD d.fail, .success, none)

end Verif.Hash
