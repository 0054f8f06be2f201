import Verif.Dbm.Core
import Verif.Codec.Num
/-
The default methods of class `DBM` (tkrzw_dbm.h), on top of `Process`, `ProcessMulti` and `ProcessFirst`.
Output pointers are modelled as results.  `Process` itself is taken to succeed (opened writable database, no I/O
error); the status shown is the one put together by the method and its processors.
-/
namespace Verif.Api
open Verif.Codec

/-- An argument `std::string_view` whose data pointer matters: `nullptr`, `DBM::ANY_DATA`, or a string. -/
inductive Arg where
  | null
  | any
  | val (b : Bytes)
deriving DecidableEq, Repr

/-- The bytes of `DBM::ANY_DATA` (tkrzw_dbm.cc 23). -/
def anyData : Bytes := [0x00, 0xBA, 0xBE, 0x02, 0x11]

/-- `Status::operator|=` on codes (tkrzw_lib_common.h 420-456). -/
def Code.or (a b : Code) : Code := if a = .success ∧ b ≠ .success then b else a

/-- `RecordProcessorGet` (tkrzw_dbm.h 132-164). Result: the status and `*value`, if assigned. -/
def getProc : ProcR (Code × Option Bytes)
  | some v => (.noop, .success, some v)
  | none => (.noop, .notFound, none)

/-- `RecordProcessorSet` (tkrzw_dbm.h 169-212). Result: the status and `*old_value`, if assigned. -/
def setProc (value : Bytes) (overwrite : Bool) : ProcR (Code × Option Bytes)
  | some old => if overwrite then (.set value, .success, some old) else (.noop, .duplication, some old)
  | none => (.set value, .success, none)

/-- `RecordProcessorRemove` (tkrzw_dbm.h 217-250). -/
def removeProc : ProcR (Code × Option Bytes)
  | some old => (.remove, .success, some old)
  | none => (.noop, .notFound, none)

/-- `RecordProcessorAppend` (tkrzw_dbm.h 255-296). -/
def appendProc (value delim : Bytes) : ProcR Unit
  | some old => (.set (old ++ delim ++ value), ())
  | none => (.set value, ())

/-- `RecordProcessorCompareExchange` (tkrzw_dbm.h 301-366). Result: status, `*actual`, `*found`. -/
def cexProc (expected desired : Arg) : ProcR (Code × Bytes × Bool)
  | some v =>
    match expected with
    | .null => (.noop, .infeasible, v, true)
    | .any => (match desired with | .null => .remove | .any => .noop | .val d => .set d, .success, v, true)
    | .val e =>
      if e = v then (match desired with | .null => .remove | .any => .noop | .val d => .set d, .success, v, true)
      else (.noop, .infeasible, v, true)
  | none =>
    match expected with
    | .null => (match desired with | .null => .noop | .any => .noop | .val d => .set d, .success, [], false)
    | _ => (.noop, .infeasible, [], false)

/-- `INT64MIN`. -/
def int64min : Int := -(2 ^ 63)

/-- Conversion of an integer to `int64_t` (two's complement wrap-around). -/
def toInt64 (x : Int) : Int := Int.bmod x (2 ^ 64)

/-- Conversion of an `int64_t` to `uint64_t`. -/
def toUInt64 (x : Int) : Nat := (x % 2 ^ 64).toNat

/-- `RecordProcessorIncrement` (tkrzw_dbm.h 371-427). Result: `*current`, or `none` where the C++ code has
undefined behaviour: `initial_ + increment_` (line 405) is a signed addition that overflows. -/
def incProc (increment initial : Int) : ProcR (Option Int)
  | some v =>
    if increment = int64min then (.noop, some (toInt64 (strToIntBigEndian v)))
    else
      let num := toInt64 ((strToIntBigEndian v : Int) + increment)
      (.set (intToStrBigEndian (toUInt64 num) 8), some num)
  | none =>
    if increment = int64min then (.noop, some initial)
    else
      let num := initial + increment
      if num < -(2 ^ 63) ∨ 2 ^ 63 ≤ num then (.noop, none)
      else (.set (intToStrBigEndian (toUInt64 num) 8), some num)

/-- `RecordCheckerCompareExchangeMulti` (tkrzw_dbm.h 432-468); the shared variable is `noop`. -/
def cexChecker (expected : Arg) : ProcS Bool := fun noop cur =>
  match cur with
  | some v =>
    match expected with
    | .null => (.noop, true)
    | .any => (.noop, noop)
    | .val e => if e = v then (.noop, noop) else (.noop, true)
  | none =>
    match expected with
    | .null => (.noop, noop)
    | _ => (.noop, true)

/-- The bytes behind a non-null argument. -/
def Arg.bytes : Arg → Bytes
  | .null => []
  | .any => anyData
  | .val b => b

/-- `RecordSetterCompareExchangeMulti` (tkrzw_dbm.h 473-508). `ANY_DATA` is not special here: it is stored. -/
def cexSetter (desired : Arg) : ProcS Bool := fun noop cur =>
  if noop then (.noop, noop)
  else match cur with
    | some _ => (if desired = .null then .remove else .set desired.bytes, noop)
    | none => (if desired = .null then .noop else .set desired.bytes, noop)

/-- The variables shared by the processors of `Rekey`: `proc_status` and `rec_value`. -/
structure RekeyVars where
  status : Code
  value : Bytes

/-- `RecordCheckerRekey` (tkrzw_dbm.h 513-539). -/
def rekeyChecker : ProcS RekeyVars := fun r cur =>
  match cur with
  | some _ => (.noop, { r with status := .duplication })
  | none => (.noop, r)

/-- `RecordRemoverRekey` (tkrzw_dbm.h 544-581). `ProcessEmpty` sets NOT_FOUND_ERROR unconditionally. -/
def rekeyRemover (copying : Bool) : ProcS RekeyVars := fun r cur =>
  match cur with
  | some v =>
    if r.status ≠ .success then (.noop, r)
    else (if copying then .noop else .remove, { r with value := v })
  | none => (.noop, { r with status := .notFound })

/-- `RecordSetterRekey` (tkrzw_dbm.h 586-621). -/
def rekeySetter : ProcS RekeyVars := fun r _ =>
  if r.status ≠ .success then (.noop, r) else (.set r.value, r)

variable {σ : Type} (D : DbmImpl σ)

/-- `DBM::Get` (tkrzw_dbm.h 1038-1046). -/
def get (s : σ) (k : Bytes) : σ × Code × Option Bytes := D.process s k false getProc

/-- `DBM::GetSimple` (tkrzw_dbm.h 1054-1057). -/
def getSimple (s : σ) (k dflt : Bytes) : σ × Bytes :=
  let x := get D s k
  (x.1, if x.2.1 = .success then x.2.2.getD [] else dflt)

/-- `DBM::GetMulti` (tkrzw_dbm.h 1068-1081). The result map is a function from keys; `emplace` keeps the first. -/
def getMulti (s : σ) (records : Dict) : List Bytes → Code → σ × Code × Dict
  | [], st => (s, st, records)
  | k :: ks, st =>
    let x := get D s k
    if x.2.1 = .success then
      getMulti x.1 (if (records k).isSome then records else records.upd k x.2.2) ks st
    else getMulti x.1 records ks (Code.or st x.2.1)

/-- `DBM::Set` (tkrzw_dbm.h 1123-1132). -/
def set (s : σ) (k v : Bytes) (overwrite : Bool) : σ × Code × Option Bytes :=
  D.process s k true (setProc v overwrite)

/-- `DBM::SetMulti` (tkrzw_dbm.h 1143-1153). -/
def setMulti (s : σ) (overwrite : Bool) : List (Bytes × Bytes) → Code → σ × Code
  | [], st => (s, st)
  | (k, v) :: rest, st =>
    let x := set D s k v overwrite
    let st := Code.or st x.2.1
    if st ≠ .success ∧ st ≠ .duplication then (x.1, st) else setMulti x.1 overwrite rest st

/-- `DBM::Remove` (tkrzw_dbm.h 1196-1204). -/
def remove (s : σ) (k : Bytes) : σ × Code × Option Bytes := D.process s k true removeProc

/-- `DBM::RemoveMulti` (tkrzw_dbm.h 1211-1220). -/
def removeMulti (s : σ) : List Bytes → Code → σ × Code
  | [], st => (s, st)
  | k :: rest, st =>
    let x := remove D s k
    let st := Code.or st x.2.1
    if st ≠ .success ∧ st ≠ .notFound then (x.1, st) else removeMulti x.1 rest st

/-- `DBM::Append` (tkrzw_dbm.h 1249-1253). -/
def append (s : σ) (k v delim : Bytes) : σ := (D.process s k true (appendProc v delim)).1

/-- `DBM::AppendMulti` (tkrzw_dbm.h 1262-1272); `Append` succeeds. -/
def appendMulti (s : σ) (delim : Bytes) : List (Bytes × Bytes) → σ
  | [] => s
  | (k, v) :: rest => appendMulti (append D s k v delim) delim rest

/-- `DBM::CompareExchange` (tkrzw_dbm.h 1317-1327). -/
def compareExchange (s : σ) (k : Bytes) (expected desired : Arg) : σ × Code × Bytes × Bool :=
  D.process s k (desired != .any) (cexProc expected desired)

/-- `DBM::Increment` (tkrzw_dbm.h 1341-1345). -/
def increment (s : σ) (k : Bytes) (inc initial : Int) : σ × Option Int :=
  D.process s k (inc != int64min) (incProc inc initial)

/-- `DBM::CompareExchangeMulti` (tkrzw_dbm.h 1405-1429). -/
def compareExchangeMulti (s : σ) (expected desired : List (Bytes × Arg)) : σ × Code :=
  let pairs := expected.map (fun kv => (kv.1, cexChecker kv.2)) ++ desired.map (fun kv => (kv.1, cexSetter kv.2))
  let x := D.processMulti s pairs true false
  (x.1, if x.2 then .infeasible else .success)

/-- `DBM::Rekey` (tkrzw_dbm.h 1444-1468). Result: status and `*value` if assigned. -/
def rekey (s : σ) (oldKey newKey : Bytes) (overwrite copying : Bool) : σ × Code × Option Bytes :=
  let pairs := (if overwrite then [] else [(newKey, rekeyChecker)]) ++
    [(oldKey, rekeyRemover copying), (newKey, rekeySetter)]
  let x := D.processMulti s pairs true { status := .success, value := [] }
  (x.1, x.2.status, if x.2.status = .success then some x.2.value else none)

/-- A database with `ProcessFirst` (tkrzw_dbm.h 1479): the processor is shown the key and the value of the first
record; `none` is NOT_FOUND_ERROR. -/
structure FirstImpl (σ : Type) extends DbmImpl σ where
  processFirst : {τ : Type} → σ → Bool → (Bytes → Bytes → Action × τ) → σ × Option τ

/-- `DBM::PopFirst` with `RecordProcessorPopFirst` (tkrzw_dbm.h 1502-1505, 626-654). -/
def popFirst (D : FirstImpl σ) (s : σ) : σ × Option (Bytes × Bytes) :=
  D.processFirst s true (fun k v => (.remove, (k, v)))

/-- `DBM::PushLast` (tkrzw_dbm.h 1519-1534). `stamp seq` is the value of `timestamp` at attempt `seq`; it depends
on the clock and on `double` rounding, so it is an arbitrary function.  `fuel` bounds the number of attempts that
the model runs (the loop of the C++ code has no bound); `none` means not finished within it. -/
def pushLast (s : σ) (v : Bytes) (stamp : Nat → Nat) : (fuel seq : Nat) → Option (σ × Bytes)
  | 0, _ => none
  | fuel + 1, seq =>
    let key := intToStrBigEndian (stamp seq) 8
    let x := set D s key v false
    if x.2.1 ≠ .duplication then some (x.1, key) else pushLast x.1 v stamp fuel (seq + 1)

end Verif.Api
