/-
Bytes, byte strings and the abstract dictionary used as the specification of every database class.
-/
namespace Verif

/-- A byte string (`std::string` / `std::string_view`). -/
abbrev Bytes := List UInt8

/-- What a record processor asks for: `DBM::RecordProcessor::NOOP`, `REMOVE` or a new value
(tkrzw_dbm.h 47-89). The C++ code tells them apart by the data pointer; here they are constructors. -/
inductive Action where
  | noop
  | remove
  | set (v : Bytes)
deriving DecidableEq, Repr

/-- SPECIFICATION: a dictionary maps each key to its value, or to nothing. -/
abbrev Dict := Bytes → Option Bytes

namespace Dict

/-- SPECIFICATION: the empty dictionary. -/
def empty : Dict := fun _ => none

/-- SPECIFICATION: change one key. -/
def upd (d : Dict) (k : Bytes) (o : Option Bytes) : Dict := fun k' => if k' = k then o else d k'

/-- SPECIFICATION: the effect of an action on the record of a key. -/
def act (d : Dict) (k : Bytes) : Action → Dict
  | .noop => d
  | .remove => d.upd k none
  | .set v => d.upd k (some v)

theorem upd_self (d : Dict) (k o) : d.upd k o k = o := by simp [upd]
theorem upd_other (d : Dict) {k k'} (o) (h : k' ≠ k) : d.upd k o k' = d k' := by simp [upd, h]
theorem upd_same (d : Dict) (k) : d.upd k (d k) = d := by
  funext k'; by_cases h : k' = k <;> simp [upd, h]

end Dict

/-- A record processor: a function of the current value (`none` for `ProcessEmpty`). The key is fixed by the
call. (tkrzw_dbm.h 75-88) -/
abbrev Proc := Option Bytes → Action

/-- Status codes (tkrzw_lib_common.h 301-330). Messages are not modelled. -/
inductive Code where
  | success | unknown | system | notImplemented | precondition | invalidArgument | canceled | notFound
  | permission | infeasible | duplication | brokenData | network | application
deriving DecidableEq, Repr

end Verif
