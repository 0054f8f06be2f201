import Verif.Prelude.Bytes
/-
The file on a C++ stream, `StdFile` (tkrzw_file_std.cc), and the files it works on, by path.

Simplified: the stream does what it is asked to and the file system does not refuse, but for `rename`, whose answer is part of the call. Nobody
else changes the files. A path that is empty names nothing, and any other path can be created. Sizes do not overflow 64 bits.
Every method holds one mutex from beginning to end (tkrzw_file_std.cc 76-285), so a method is one step.
-/
namespace Verif.StdFile
open Verif

/-- `TruncateFile` on the content of a file: cut, or filled up with zeros (tkrzw_file_util.cc 351-378). -/
def resize (b : Bytes) (n : Nat) : Bytes := (b ++ List.replicate (n - b.length) 0).take n

/-- `seekp` and `write` on the content of a file: a gap is filled with zeros (tkrzw_file_std.cc 390-398). -/
def put (b : Bytes) (off : Nat) (data : Bytes) : Bytes :=
  resize b off ++ data ++ b.drop (off + data.length)

/-- The files by path. -/
abbrev Files := Bytes → Option Bytes

def Files.set (fs : Files) (p : Bytes) (b : Option Bytes) : Files := fun q => if q = p then b else fs q

/-- SPECIFICATION: the calls. `rename` comes with the answer of the file system, `expand` with `old_size` as in `ExpandSimple` (tkrzw_file.h 153-156). -/
inductive Call where
  | open_ (p : Bytes) (writable noCreate trunc : Bool)
  | close
  | read (off n : Nat)
  | write (off : Nat) (data : Bytes)
  | append (data : Bytes)
  | expand (n : Nat)
  | truncate (n : Nat)
  | truncateFakely (n : Nat)
  | synchronize
  | getSize
  | getPath
  | rename (p : Bytes) (ok : Bool)
  | disablePath
  | isOpen
  deriving DecidableEq

inductive Code where
  | precondition | infeasible | notFound | system
  deriving DecidableEq

/-- SPECIFICATION: what calls return. -/
inductive Out where
  | got (b : Bytes)
  | num (n : Nat)
  | path (p : Bytes)
  | flag (b : Bool)
  | done
  | err (c : Code)
  deriving DecidableEq

/-- The files; the file that the stream `file_` is on, if there is one; `path_`, `writable_`, `OPEN_NO_CREATE` in `open_options_`, and
`file_size_` (tkrzw_file_std.cc 59-64). -/
structure St where
  fs : Files
  file : Option Bytes
  path : Bytes
  writable : Bool
  noCreate : Bool
  size : Nat

/-- The constructor (tkrzw_file_std.cc 67-68). -/
def St.init (fs : Files) : St := ⟨fs, none, [], false, false, 0⟩

/-- `PathIsFile` (tkrzw_file_util.cc 249-252). -/
def pathIsFile (fs : Files) (p : Bytes) : Bool := p ≠ [] && (fs p).isSome

/-- `StdFileImpl::OpenImpl` (tkrzw_file_std.cc 287-345). A stream that is opened with `trunc` empties or creates the file. -/
def openImpl (s : St) (p : Bytes) (writable noCreate trunc : Bool) : St × Out :=
  let existed := pathIsFile s.fs p
  if writable then
    if !existed && noCreate then (s, .err .notFound)
    else if p = [] then ({ s with file := none }, .err .system)
    else
      let fs := if !existed || trunc then s.fs.set p (some []) else s.fs
      ({ fs := fs, file := some p, path := p, writable := true, noCreate := noCreate, size := ((fs p).getD []).length }, .done)
  else if !existed then (s, .err .notFound)
  else ({ s with file := some p, path := p, writable := false, noCreate := noCreate, size := ((s.fs p).getD []).length }, .done)

/-- `StdFileImpl::CloseImpl` (tkrzw_file_std.cc 347-363). -/
def closeImpl (s : St) : St :=
  let fs := if s.writable && s.path ≠ [] && pathIsFile s.fs s.path
    then s.fs.set s.path (some (resize ((s.fs s.path).getD []) s.size)) else s.fs
  { s with fs := fs, file := none, path := [], writable := false, noCreate := false }

/-- Bytes are written through the stream on the file `p` (tkrzw_file_std.cc 390-398). -/
def poke (s : St) (p : Bytes) (off : Nat) (data : Bytes) : St :=
  { s with fs := s.fs.set p (some (put ((s.fs p).getD []) off data)) }

/-- `StdFileImpl::ReadImpl` (tkrzw_file_std.cc 365-379). -/
def readImpl (s : St) (p : Bytes) (off n : Nat) : Out :=
  if off + n > s.size then .err .infeasible
  else .got ((((s.fs p).getD []).drop off).take n)

/-- `StdFileImpl::WriteImpl` (tkrzw_file_std.cc 381-402). -/
def writeImpl (s : St) (p : Bytes) (off : Nat) (data : Bytes) : St :=
  if data = [] then
    if off > s.size then
      { poke s p (off - 1) [0] with size := max s.size (off - 1 + 1) }
    else s
  else { poke s p off data with size := max s.size (off + data.length) }

/-- `StdFileImpl::AppendImpl` (tkrzw_file_std.cc 404-418). -/
def appendImpl (s : St) (p : Bytes) (data : Bytes) : St × Out :=
  if data = [] then (s, .num s.size)
  else ({ poke s p s.size data with size := s.size + data.length }, .num s.size)

/-- `StdFileImpl::ExpandImpl` (tkrzw_file_std.cc 420-438), with 0 in `old_size` before. -/
def expandImpl (s : St) (p : Bytes) (n : Nat) : St × Out :=
  if n = 0 then (s, .num 0)
  else ({ poke s p (s.size + n - 1) [0] with size := s.size + n }, .num s.size)

/-- `StdFileImpl::Truncate` of a writable file (tkrzw_file_std.cc 139-166). -/
def truncateImpl (s : St) (p : Bytes) (n : Nat) : St × Out :=
  if n = s.size then (s, .done)
  else if n > s.size then ({ poke s p (n - 1) [0] with size := n }, .done)
  else if !pathIsFile s.fs s.path then (s, .err .infeasible)
  else
    let c := closeImpl s
    let c := { c with fs := c.fs.set s.path (some (resize ((c.fs s.path).getD []) n)) }
    openImpl c s.path true s.noCreate false

/-- `RenameFile` that succeeds (tkrzw_file_util.cc 386-414). -/
def renamed (fs : Files) (old new : Bytes) : Files := (fs.set old none).set new (fs old)

/-- `StdFileImpl::Rename` with a path (tkrzw_file_std.cc 229-243): the file at the new path is opened also if it has not been renamed. -/
def renameImpl (s : St) (new : Bytes) (ok : Bool) : St × Out :=
  let c := closeImpl s
  if ok && new ≠ [] then openImpl { c with fs := renamed c.fs s.path new } new s.writable s.noCreate false
  else ((openImpl c new s.writable s.noCreate false).1, .err .system)

/-- The methods (tkrzw_file_std.cc 75-285). -/
def step (s : St) (c : Call) : St × Out :=
  match s.file with
  | none => match c with
    | .open_ p w nc tr => openImpl s p w nc tr
    | .isOpen => (s, .flag false)
    | _ => (s, .err .precondition)
  | some p => match c with
    | .open_ _ _ _ _ => (s, .err .precondition)
    | .close => (closeImpl s, .done)
    | .read off n => (s, readImpl s p off n)
    | .write off data => if s.writable then (writeImpl s p off data, .done) else (s, .err .precondition)
    | .append data => if s.writable then appendImpl s p data else (s, .err .precondition)
    | .expand n => if s.writable then expandImpl s p n else (s, .err .precondition)
    | .truncate n => if s.writable then truncateImpl s p n else (s, .err .precondition)
    | .truncateFakely n => if n > s.size then (s, .err .infeasible) else ({ s with size := n }, .done)
    | .synchronize => (s, .done)
    | .getSize => (s, .num s.size)
    | .getPath => if s.path = [] then (s, .err .precondition) else (s, .path s.path)
    | .rename new ok => if s.path = [] then (s, .err .precondition) else renameImpl s new ok
    | .disablePath => ({ s with path := [] }, .done)
    | .isOpen => (s, .flag true)

/-- A sequence of calls, and what they return. -/
def run (s : St) : List Call → St × List Out
  | [] => (s, [])
  | c :: cs => let (s', r) := step s c; let (t, rs) := run s' cs; (t, r :: rs)

end Verif.StdFile
