import Verif.File.Std
/-
SPECIFICATION of `StdFile`: the files by path, and which of them is open. A file is a sequence of bytes and nothing else.
-/
namespace Verif.StdFile
open Verif

/-- SPECIFICATION: a file that is open: where it is, whether it may be changed, and whether it still knows its path. -/
structure Handle where
  node : Bytes
  writable : Bool
  named : Bool

/-- SPECIFICATION: the files by path, and the file that is open. -/
structure View where
  files : Files
  cur : Option Handle

/-- SPECIFICATION: a file is made longer: what it had stays, and the rest is zeros, unless `fake` allows anything. -/
structure Grows (fake : Bool) (f : Bytes) (n : Nat) (f' : Bytes) : Prop where
  len : f'.length = n
  old : ∀ pos : Nat, pos < f.length → f'[pos]? = f[pos]?
  zero : fake = false → ∀ pos : Nat, f.length ≤ pos → pos < n → f'[pos]? = some 0

/-- SPECIFICATION: bytes are put at an offset: they are there, the file is as long as it must be, everything before the old end that is not
overwritten stays, and a gap after the old end is zeros, unless `fake` allows anything. -/
structure Puts (fake : Bool) (f : Bytes) (off : Nat) (data : Bytes) (f' : Bytes) : Prop where
  len : f'.length = max f.length (off + data.length)
  new : ∀ i : Nat, i < data.length → f'[off + i]? = data[i]?
  old : ∀ pos : Nat, pos < f.length → pos < off ∨ off + data.length ≤ pos → f'[pos]? = f[pos]?
  zero : fake = false → ∀ pos : Nat, f.length ≤ pos → pos < off → f'[pos]? = some 0

/-- SPECIFICATION: a call without an open file. -/
def DoesClosed (fs : Files) (c : Call) (v' : View) (r : Out) : Prop :=
  match c with
  | .open_ p true noCreate trunc =>
    match (if p = [] then none else fs p) with
    | some f => v' = ⟨fs.set p (some (if trunc then [] else f)), some ⟨p, true, true⟩⟩ ∧ r = .done
    | none =>
      if noCreate then v' = ⟨fs, none⟩ ∧ r = .err .notFound
      else if p = [] then v' = ⟨fs, none⟩ ∧ r = .err .system
      else v' = ⟨fs.set p (some []), some ⟨p, true, true⟩⟩ ∧ r = .done
  | .open_ p false _ _ =>
    match (if p = [] then none else fs p) with
    | some _ => v' = ⟨fs, some ⟨p, false, true⟩⟩ ∧ r = .done
    | none => v' = ⟨fs, none⟩ ∧ r = .err .notFound
  | .isOpen => v' = ⟨fs, none⟩ ∧ r = .flag false
  | _ => v' = ⟨fs, none⟩ ∧ r = .err .precondition

/-- SPECIFICATION: what is left of a file when the object lets go of it: the file itself. If it has been cut with `TruncateFakely`, and the
object may not change it or no longer knows where it is, what follows can still be there. -/
def Left (fake : Bool) (h : Handle) (f f' : Bytes) : Prop :=
  f' = f ∨ (fake = true ∧ (h.writable = false ∨ h.named = false) ∧ f <+: f')

/-- SPECIFICATION: a call while the file `f` is open with `h`. -/
def DoesOpen (fake : Bool) (fs : Files) (h : Handle) (f : Bytes) (c : Call) (v' : View) (r : Out) : Prop :=
  let same := v' = ⟨fs, some h⟩
  let becomes := fun f' : Bytes => v' = ⟨fs.set h.node (some f'), some h⟩
  match c with
  | .open_ _ _ _ _ => same ∧ r = .err .precondition
  | .close => r = .done ∧ ∃ f', Left fake h f f' ∧ v' = ⟨fs.set h.node (some f'), none⟩
  | .read off n => same ∧ if off + n ≤ f.length
      then ∃ b, r = .got b ∧ b.length = n ∧ ∀ i : Nat, i < n → b[i]? = f[off + i]?
      else r = .err .infeasible
  | .write off data => if h.writable then r = .done ∧ ∃ f', Puts fake f off data f' ∧ becomes f' else same ∧ r = .err .precondition
  | .append data => if h.writable then r = .num f.length ∧ becomes (f ++ data) else same ∧ r = .err .precondition
  | .expand n => if h.writable then r = .num f.length ∧ ∃ f', Grows fake f (f.length + n) f' ∧ becomes f'
      else same ∧ r = .err .precondition
  | .truncate n =>
    if h.writable then
      if f.length ≤ n then r = .done ∧ ∃ f', Grows fake f n f' ∧ becomes f'
      else if h.named then r = .done ∧ becomes (f.take n)
      else same ∧ r = .err .infeasible
    else same ∧ r = .err .precondition
  | .truncateFakely n => if n ≤ f.length then r = .done ∧ becomes (f.take n) else same ∧ r = .err .infeasible
  | .synchronize => same ∧ r = .done
  | .getSize => same ∧ r = .num f.length
  | .getPath => same ∧ r = if h.named then .path h.node else .err .precondition
  | .rename new ok =>
    if h.named then
      if ok then r = .done ∧ ∃ f', Left fake h f f' ∧ v' = ⟨(fs.set h.node none).set new (some f'), some { h with node := new }⟩
      else same ∧ ∃ code, r = .err code
    else same ∧ r = .err .precondition
  | .disablePath => v' = ⟨fs, some { h with named := false }⟩ ∧ r = .done
  | .isOpen => same ∧ r = .flag true

/-- SPECIFICATION: a call. -/
def Does (fake : Bool) (v : View) (c : Call) (v' : View) (r : Out) : Prop :=
  match v.cur with
  | none => DoesClosed v.files c v' r
  | some h => ∃ f, v.files h.node = some f ∧ DoesOpen fake v.files h f c v' r

/-- SPECIFICATION: a sequence of calls and what they return. -/
inductive Trace (fake : Bool) : View → List Call → View → List Out → Prop
  | nil (v) : Trace fake v [] v []
  | cons {v c v' r cs w rs} : Does fake v c v' r → Trace fake v' cs w rs → Trace fake v (c :: cs) w (r :: rs)

/-- SPECIFICATION: the calls that a sequence may have: `TruncateFakely` only with `fake`, no `Expand` by nothing, no `Rename` that the file system refuses. -/
def Kept (fake : Bool) : Call → Prop
  | .truncateFakely _ => fake = true
  | .expand n => n ≠ 0
  | .rename p ok => p ≠ [] ∧ ok = true
  | _ => True

end Verif.StdFile
