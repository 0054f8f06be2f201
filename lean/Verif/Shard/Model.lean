import Verif.Dbm.Api
import Verif.Dbm.Each
import Verif.Hashing.Real
/-
ShardDBM (tkrzw_dbm_shard.cc) as a map over any class of shards: C29.

The shards are given by any implementation `D` of the common interface. `hash` is the function that chooses the shard
(`SecondaryHash`). Statuses of I/O failures of the shards are not modelled: the interface `DbmImpl` has none.
-/
namespace Verif.Shard
open Verif Verif.Api

/-- The databases `dbms_` (tkrzw_dbm_shard.h). `bad` is set by an access outside the vector. -/
structure State (σ : Type) where
  shards : List σ
  bad : Bool := false

variable {σ : Type} (hash : Bytes → Nat → Nat) (D : DbmImpl σ)

/-- `Process` (tkrzw_dbm_shard.cc 152-159). -/
def process {τ : Type} (s : State σ) (k : Bytes) (w : Bool) (p : ProcR τ) : State σ × τ :=
  let i := hash k s.shards.length
  match s.shards[i]? with
  | some t =>
    let x := D.process t k w p
    ({ s with shards := s.shards.set i x.1 }, x.2)
  | none => ({ s with bad := true }, (p none).2)

/-- `Get`, `Set`, `Remove` and `Append` (tkrzw_dbm_shard.cc 161-196): the method `f` of the shard. -/
def routed {α : Type} (s : State σ) (k : Bytes) (f : σ → σ × α) (dflt : α) : State σ × α :=
  let i := hash k s.shards.length
  match s.shards[i]? with
  | some t =>
    let x := f t
    ({ s with shards := s.shards.set i x.1 }, x.2)
  | none => ({ s with bad := true }, dflt)

/-- The variables reached by the processors that `ProcessMulti` passes to the first shard: those of the caller's
processors, the other shards, and the flag of an access outside the vector. -/
structure Shared (σ ρ : Type) where
  vars : ρ
  others : List σ
  bad : Bool

/-- The pair passed on for one pair of the caller (tkrzw_dbm_shard.cc 233-246): the processor itself for the first shard,
a `Delegator` (217-230) for the others. -/
def wrap {ρ : Type} (n : Nat) (w : Bool) (kp : Bytes × ProcS ρ) : Bytes × ProcS (Shared σ ρ) :=
  let i := hash kp.1 n
  if i = 0 then (kp.1, fun x v => ((kp.2 x.vars v).1, { x with vars := (kp.2 x.vars v).2 }))
  else (kp.1, fun x _ =>
    match x.others[i - 1]? with
    | some t =>
      let y := D.process t kp.1 w (kp.2 x.vars)
      (.noop, { x with vars := y.2, others := x.others.set (i - 1) y.1 })
    | none => (.noop, { x with bad := true }))

/-- `ProcessMulti` (tkrzw_dbm_shard.cc 208-250). -/
def processMulti {ρ : Type} (s : State σ) (l : List (Bytes × ProcS ρ)) (w : Bool) (r : ρ) : State σ × ρ :=
  match s.shards with
  | [] => ({ s with bad := true }, r)
  | t :: others =>
    let x := D.processMulti t (l.map (wrap hash D s.shards.length w)) w ⟨r, others, s.bad⟩
    (⟨x.1 :: x.2.others, x.2.bad⟩, x.2.vars)

/-- The common interface of ShardDBM. -/
def impl : DbmImpl (State σ) := ⟨process hash D, processMulti hash D⟩

/-- `ProcessEach` (tkrzw_dbm_shard.cc 380-402); `each` is that of the shards. -/
def processEach (each : {ρ : Type} → σ → Bool → (Bytes → ρ → Bytes → Action × ρ) → ρ → σ × ρ) {ρ : Type} (s : State σ) (w : Bool)
    (p : Bytes → ρ → Bytes → Action × ρ) (r : ρ) : State σ × ρ :=
  let rec loop : List σ → ρ → List σ × ρ
    | [], r => ([], r)
    | t :: ts, r =>
      let x := each t w p r
      let y := loop ts x.2
      (x.1 :: y.1, y.2)
  let x := loop s.shards r
  ({ s with shards := x.1 }, x.2)

/-- `Count` (tkrzw_dbm_shard.cc 404-418). -/
def count (cnt : σ → Int) (s : State σ) : Int := s.shards.foldl (fun c t => c + cnt t) 0

/-- `Clear` (tkrzw_dbm_shard.cc 461-470) and `RebuildAdvanced` (472-481): the method `f` of every shard. -/
def mapAll (f : σ → σ) (s : State σ) : State σ := { s with shards := s.shards.map f }

/-! ### CompareExchangeMulti -/

/-- The conditions of one shard: the index, the expectations and the desired changes (tkrzw_dbm_shard.cc 257-265). -/
abbrev Group := Nat × List (Bytes × Arg) × List (Bytes × Arg)

/-- The conditions by shards, in the order of the indices of the shards, as in a `std::map` (tkrzw_dbm_shard.cc 257-265). -/
def groups (n : Nat) (expected desired : List (Bytes × Arg)) : List Group :=
  ((List.range n).map fun i => (i, expected.filter (fun kv => hash kv.1 n = i), desired.filter (fun kv => hash kv.1 n = i))).filter
    fun g => g.2.1 ≠ [] ∨ g.2.2 ≠ []

/-- The variables reached by the processors: the shards and `proc_status`. -/
structure Vars (σ : Type) where
  shards : List σ
  status : Code
  bad : Bool

/-- `Checker` (tkrzw_dbm_shard.cc 274-309). `next` runs the next command, or does nothing if there is none. -/
def checker (expected : Arg) (next : Vars σ → Vars σ) : ProcS (Vars σ) := fun x cur =>
  if x.status ≠ .success then (.noop, x)
  else
    match cur with
    | some v =>
      match expected with
      | .null => (.noop, { x with status := .infeasible })
      | .any => (.noop, next x)
      | .val e => if e ≠ v then (.noop, { x with status := .infeasible }) else (.noop, next x)
    | none =>
      match expected with
      | .null => (.noop, next x)
      | _ => (.noop, { x with status := .infeasible })

/-- `Setter` (tkrzw_dbm_shard.cc 311-343). -/
def setter (desired : Arg) (next : Vars σ → Vars σ) : ProcS (Vars σ) := fun x cur =>
  if x.status ≠ .success then (.noop, x)
  else
    let x := next x
    if x.status ≠ .success then (.noop, x)
    else
      match cur with
      | some _ => (if desired = .null then .remove else .set desired.bytes, x)
      | none => (if desired = .null then .noop else .set desired.bytes, x)

/-- The checkers of a command (tkrzw_dbm_shard.cc 353-361): the last one runs the next command. -/
def checkers (next : Vars σ → Vars σ) : List (Bytes × Arg) → List (Bytes × ProcS (Vars σ))
  | [] => []
  | [kv] => [(kv.1, checker kv.2 next)]
  | kv :: kv' :: rest => (kv.1, checker kv.2 id) :: checkers next (kv' :: rest)

/-- The setters of a command (tkrzw_dbm_shard.cc 362-370): the first one runs the next command if there is no checker. -/
def setters (next : Vars σ → Vars σ) (noChecker : Bool) : List (Bytes × Arg) → List (Bytes × ProcS (Vars σ))
  | [] => []
  | kv :: rest => (kv.1, setter kv.2 (if noChecker then next else id)) :: rest.map fun kv => (kv.1, setter kv.2 id)

/-- The commands, each run by the one before (tkrzw_dbm_shard.cc 345-373). A shard is changed in its place when its
`ProcessMulti` returns; the commands run inside of it are for other shards. -/
def runCommands : List Group → Vars σ → Vars σ
  | [], x => x
  | (i, ex, de) :: rest, x =>
    match x.shards[i]? with
    | none => { x with bad := true }
    | some t =>
      let y := D.processMulti t (checkers (runCommands rest) ex ++ setters (runCommands rest) ex.isEmpty de) true x
      { y.2 with shards := y.2.shards.set i y.1 }

/-- `CompareExchangeMulti` (tkrzw_dbm_shard.cc 252-378). -/
def compareExchangeMulti (s : State σ) (expected desired : List (Bytes × Arg)) : State σ × Code :=
  let gs := groups hash s.shards.length expected desired
  if gs.isEmpty then (s, .success)
  else
    let x := runCommands D gs ⟨s.shards, .success, s.bad⟩
    (⟨x.shards, x.bad⟩, x.status)

end Verif.Shard
