import Verif.Hash.File
import Verif.Dbm.Api
/-
Model of `Clear` and `Rebuild` of HashDBM (tkrzw_dbm_hash.cc 655-716, 1654-1835, 1888-2105) and of the scan of the record
section (tkrzw_dbm_hash_impl.cc 357-525).  `skip_broken_records` is false.  The record base and the format of the file being
read are those of the open database, which is what `FindRecordBase` finds in its metadata.  Files and renames are assumed to
work.  `DbmImpl` is the interface, so that the same import runs on the bytes and on the structured file.
-/
namespace Verif.Hash
open Verif.Codec

/-- What the scan hands over for a record: operation, key and value. -/
abbrev Ent := OpType × Bytes × Bytes

/-- The loop of `ReplayOperations` up to the calls of the processor (tkrzw_dbm_hash_impl.cc 366-432). `none`: an error
status. The first argument bounds the number of turns. -/
def scan (e : Env) (c : Cfg) (file : Bytes) (endOff : Nat) : Nat → Nat → Option (List Ent)
  | 0, _ => none
  | n + 1, off =>
    if off < endOff then
      match readMeta c file off metaMinReadSize with
      | none => none
      | some m =>
        if checkCrc e c file off m then
          match readValue file off m with
          | none => none
          | some v => (scan e c file endOff n (off + m.whole)).map ((m.op, m.key, v) :: ·)
        else none
    else some []

/-- `Importer` of `ImportFromFileForward` (tkrzw_dbm_hash.cc 1918-1939). -/
def importEnt {σ : Type} (D : DbmImpl σ) (s : σ) : Ent → σ
  | (.void, _, _) => s
  | (.remove, k, _) => (Api.remove D s k).1
  | (_, k, v) => (Api.set D s k v true).1

/-- `ImportFromFileForward` on the records read (tkrzw_dbm_hash.cc 1888-1943). -/
def importForward {σ : Type} (D : DbmImpl σ) (s : σ) (l : List Ent) : σ := l.foldl (importEnt D) s

/-- `ExtractOffsets` (tkrzw_dbm_hash_impl.cc 434-483): the offsets of the records that are not void, as they are read back
from the file of offsets. -/
def extractOffsets (c : Cfg) (file : Bytes) (endOff : Nat) : Nat → Nat → Option (List Nat)
  | 0, _ => none
  | n + 1, off =>
    if off < endOff then
      match readMeta c file off metaMinReadSize with
      | none => none
      | some m =>
        match extractOffsets c file endOff n (off + m.whole) with
        | none => none
        | some l => if m.op = .void then some l else some (readFixNum (writeFixNum (off >>> c.ap) c.ow) c.ow <<< c.ap :: l)
    else some []

/-- Reading the records at the offsets (tkrzw_dbm_hash.cc 2009-2046). -/
def readEnts (e : Env) (c : Cfg) (file : Bytes) : List Nat → Option (List Ent)
  | [] => some []
  | off :: offs =>
    match readMeta c file off metaMinReadSize with
    | none => none
    | some m =>
      if checkCrc e c file off m then
        match readValue file off m with
        | none => none
        | some v => (readEnts e c file offs).map ((m.op, m.key, v) :: ·)
      else none

/-- One record in `ImportFromFileBackward` (tkrzw_dbm_hash.cc 2029-2094). The database of removed keys `dead_dbm` is
modelled by the list of its keys. -/
def importBack {σ : Type} (D : DbmImpl σ) (x : σ × List Bytes) : Ent → σ × List Bytes
  | (.void, _, _) => x
  | (.remove, k, _) =>
    let y := Api.get D x.1 k
    if y.2.1 = .success then (y.1, x.2) else (y.1, if k ∈ x.2 then x.2 else k :: x.2)
  | (_, k, v) => if k ∈ x.2 then x else ((Api.set D x.1 k v false).1, x.2)

/-- `ImportFromFileBackward` on the records read, the last one first (tkrzw_dbm_hash.cc 1945-2105). -/
def importBackward {σ : Type} (D : DbmImpl σ) (s : σ) (l : List Ent) : σ := (l.foldl (importBack D) (s, [])).1

/-- The records for the two imports of `RebuildImpl` (tkrzw_dbm_hash.cc 1717-1765): those before the offset `mid` at which
the rebuild began, and those after. -/
def rebuildEnts (e : Env) (c : Cfg) (file : Bytes) (wasInPlace : Bool) (mid : Nat) : Option (List Ent × List Ent) :=
  let n := file.length + 1
  match (if wasInPlace then scan e c file mid n (recordBase c)
    else match extractOffsets c file mid n (recordBase c) with
      | none => none
      | some offs => readEnts e c file offs.reverse) with
  | none => none
  | some a =>
    match scan e c file file.length n mid with
    | none => none
    | some b => some (a, b)

/-- The two imports into the new database (tkrzw_dbm_hash.cc 1724-1765). -/
def rebuildImport {σ : Type} (D : DbmImpl σ) (s : σ) (wasInPlace : Bool) (x : List Ent × List Ent) : σ :=
  importForward D (if wasInPlace then importForward D s x.1 else importBackward D s x.1) x.2

/-- The new database just before it is closed (tkrzw_dbm_hash.cc 1655-1774): made with the parameters `tune` in the in-place
mode with the default capacity (2048) of the free block pool. -/
def rebuildTmp (e : Env) (x : Extra) (tune : Cfg) (c : Cfg) (file : Bytes) (wasInPlace : Bool) (mid : Nat) : Option Db :=
  match rebuildEnts e c file wasInPlace mid with
  | none => none
  | some l =>
    match openImpl x { tune with inPlace := true, fbpCap := 2048 } [] with
    | none => none
    | some (d, _) => some { d with st := rebuildImport (impl e) d.st wasInPlace l }

/-- The end of `RebuildImpl` (tkrzw_dbm_hash.cc 1766-1832): the update mode, closing the new database, taking its file in
place of the old one, opening it, and the members that survive. -/
def rebuildFinish (stamp : Nat) (tune : Cfg) (old : Db) (tmp : Db) : Option Db :=
  match closeFile stamp { tmp with st := { tmp.st with cfg := { tmp.st.cfg with inPlace := tune.inPlace } } } with
  | none => none
  | some f =>
    match openOld tune.fbpCap f with
    | none => none
    | some (d, _) => some
        { st := { d.st with mem := { d.st.mem with log := old.st.mem.log }, bad := old.st.bad || tmp.st.bad }
          extra := { d.extra with dbType := old.extra.dbType, opaq := old.extra.opaq } }

/-- What a rebuild takes from outside: the members of a new database, the parameters of the new file (`inPlace`, `fbpCap`:
those after the rebuild) and the wall time. -/
structure Tune where
  extra : Extra
  cfg : Cfg
  stamp : Nat

/-- The beginning of a rebuild: the database goes into the appending mode (tkrzw_dbm_hash.cc 1718-1723). -/
def rebuildBegin (d : Db) : Db := { d with st := { d.st with cfg := { d.st.cfg with inPlace := false } } }

/-- The rest of a rebuild of a database which was in the mode `wasInPlace` and had `mid` bytes when it began. -/
def rebuildEnd (e : Env) (t : Tune) (wasInPlace : Bool) (mid : Nat) (d : Db) : Option Db :=
  match rebuildTmp e t.extra t.cfg d.st.cfg d.st.file wasInPlace mid with
  | none => none
  | some tmp => rebuildFinish t.stamp t.cfg d tmp

/-- `RebuildImpl` without other calls at the same time. -/
def rebuild (e : Env) (t : Tune) (d : Db) : Option Db :=
  rebuildEnd e t d.st.cfg.inPlace d.st.file.length (rebuildBegin d)

/-- `Clear` (tkrzw_dbm_hash.cc 655-692): the file is truncated and made anew with the same parameters. -/
def clear (d : Db) : Option Db :=
  match openImpl d.extra d.st.cfg [] with
  | none => none
  | some (n, _) => some { n with st := { n.st with mem := { n.st.mem with log := d.st.mem.log ++ [.clear] }, bad := d.st.bad } }

end Verif.Hash
