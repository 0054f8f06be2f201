import Verif.Skip.Sorter
import Verif.Skip.Layout
/-
Model of class SkipDBM (tkrzw_dbm_skip.cc): the database file with its metadata, the updates kept aside until the
next synchronization, and the iterators.

Simplifications: one thread; the operations on files succeed; the temporary files are values, so their paths, their
removal and the renaming are not visible (the crash model is in `Skip/Crash.lean`); the wall clock is an argument;
direct I/O, update loggers and file properties are left out; `ReadMetadata` gives natural numbers, so `int64_t` values
are read as negative when they are at least 2^63.
-/
namespace Verif.Skip
open Verif

/-- The members which SaveMetadata stores, apart from the tuning parameters (tkrzw_dbm_skip.cc 120-145). -/
structure Meta where
  cyclic : Nat
  major : Nat
  minor : Nat
  closure : Nat
  num : Nat
  eff : Nat
  fileSize : Nat
  timestamp : Nat
  dbType : Nat
  extra : Bytes
deriving DecidableEq, Repr

/-- META_MAGIC_DATA (tkrzw_dbm_skip.cc 33). -/
def metaMagic : Bytes := [0x54, 0x6B, 0x72, 0x7A, 0x77, 0x53, 0x44, 0x42, 0x0A]

/-- The metadata bytes of SkipDBMImpl::SaveMetadata (tkrzw_dbm_skip.cc 1118-1142). The fields follow each other with
zeros between them; the opaque data is cut to 64 bytes or filled with zeros. -/
def encodeMeta (c : Cfg) (m : Meta) (finish : Bool) : Bytes :=
  metaMagic ++ Codec.writeFixNum m.cyclic 1 ++ Codec.writeFixNum m.major 1 ++ Codec.writeFixNum m.minor 1 ++
    Codec.writeFixNum c.w 1 ++ Codec.writeFixNum c.step 1 ++ Codec.writeFixNum c.maxLevel 1 ++
    Codec.writeFixNum (if m.closure % 2 = 1 ∧ finish = true then 1 else 0) 1 ++ List.replicate 8 0 ++
    Codec.writeFixNum m.num 8 ++ Codec.writeFixNum m.eff 8 ++ Codec.writeFixNum m.fileSize 8 ++
    Codec.writeFixNum m.timestamp 8 ++ Codec.writeFixNum m.dbType 4 ++ List.replicate 2 0 ++
    (m.extra.take 64 ++ List.replicate (64 - m.extra.length) 0) ++ [0] ++ Codec.writeFixNum m.cyclic 1

/-- SkipDBM::ReadMetadata (tkrzw_dbm_skip.cc 2062-2102). The last component tells whether the two cyclic magic numbers
agree; if not, the code stores -1, which is 255 in one byte. -/
def readMetadata (F : Bytes) : Option (Cfg × Meta × Bool) :=
  if F.length < metadataSize then none
  else if F.take 9 ≠ metaMagic then none
  else
    let front := Codec.readFixNum (F.drop 9) 1
    let back := Codec.readFixNum (F.drop 127) 1
    some (⟨Codec.readFixNum (F.drop 12) 1, Codec.readFixNum (F.drop 13) 1, Codec.readFixNum (F.drop 14) 1⟩,
      { cyclic := if front = back then front else 255
        major := Codec.readFixNum (F.drop 10) 1
        minor := Codec.readFixNum (F.drop 11) 1
        closure := Codec.readFixNum (F.drop 15) 1
        num := Codec.readFixNum (F.drop 24) 8
        eff := Codec.readFixNum (F.drop 32) 8
        fileSize := Codec.readFixNum (F.drop 40) 8
        timestamp := Codec.readFixNum (F.drop 48) 8
        dbType := Codec.readFixNum (F.drop 56) 4
        extra := (F.drop 62).take 64 },
      front = back)

/-- SkipDBMImpl::LoadMetadata (tkrzw_dbm_skip.cc 1145-1177). -/
def loadMetadata (F : Bytes) : Option (Cfg × Meta × Bool) :=
  match readMetadata F with
  | none => none
  | some (c, m, same) =>
    if m.major < 1 ∧ m.minor < 1 then none
    else if c.w < 3 ∨ 6 < c.w then none
    else if c.step < 2 ∨ 64 < c.step then none
    else if c.maxLevel < 1 ∨ 32 < c.maxLevel then none
    else if 2 ^ 63 ≤ m.num ∨ 2 ^ 63 ≤ m.eff ∨ 2 ^ 63 ≤ m.fileSize ∨ m.fileSize < metadataSize then none
    else some (c, m, same)

/-- An opened database (tkrzw_dbm_skip.cc 120-175). `sorter` and `sorted` are `record_sorter_` and `sorted_file_` with
`record_index_` and `past_offsets_`. -/
structure Db where
  cfg : Cfg
  md : Meta
  file : Bytes
  writable : Bool
  healthy : Bool
  autoRestored : Bool
  oldNum : Nat
  oldEff : Nat
  sortMem : Nat
  inOrder : Bool
  cap : Nat
  sorter : Option Sorter
  sorted : Option Writer
  removed : Bool
  updated : Bool
  cache : Cache

/-- The position of an iterator: `record_offset_`, `record_index_` and `record_size_`; `none` is an offset of -1
(tkrzw_dbm_skip.cc 1477-1481 and 1755-1759). -/
abbrev Iter := Option (Nat × Nat × Nat)

/-- SkipDBMImpl::SaveMetadata (tkrzw_dbm_skip.cc 1118-1143) to the given file. -/
def Db.saveMetadata (d : Db) (F : Bytes) (finish : Bool) : Db × Bytes :=
  let m := { d.md with cyclic := d.md.cyclic + 1 }
  ({ d with md := m }, overwrite F 0 (encodeMeta d.cfg m finish))

/-- The 128 zero bytes which Truncate leaves in a new file (tkrzw_dbm_skip.cc 249, 1239 and 1294). -/
def zeroMeta : Bytes := List.replicate metadataSize 0

/-- SkipDBMImpl::PrepareStorage (tkrzw_dbm_skip.cc 1228-1250). -/
def Db.prepareStorage (d : Db) : Db :=
  let d := { d with sorter := some (Sorter.new d.sortMem), oldNum := d.md.num, oldEff := d.md.eff }
  if d.inOrder then { d with sorted := some (Writer.new d.cfg zeroMeta) } else d

/-- SkipDBMImpl::DiscardStorage (tkrzw_dbm_skip.cc 1382-1396). -/
def Db.discardStorage (d : Db) : Db :=
  { d with sorted := none, sorter := none, updated := false, md := { d.md with num := d.oldNum, eff := d.oldEff } }

/-- The sum of the sizes of the keys and the values (`eff_data_size_`, tkrzw_dbm_skip.cc 1444). -/
def effOf (recs : List (Bytes × Bytes)) : Nat := (recs.map fun r => r.1.length + r.2.length).sum

/-- The records of the in-order file are merged as a source (tkrzw_dbm_skip.cc 1279-1283). -/
def addSorted (c : Cfg) (s : Sorter) : Option Writer → Sorter
  | none => s
  | some W => if metadataSize < W.file.length then s.addSource c W.file else s

/-- SkipDBMImpl::FinishStorage (tkrzw_dbm_skip.cc 1252-1380). -/
def Db.finishStorage (d : Db) (now : Nat) (reducer : Option Reducer) : Rd Db :=
  match d.sorter with
  | none => .ub
  | some s =>
    match (if reducer.isNone && d.file.length == metadataSize && !s.isUpdated then d.sorted else none) with
    | some W =>
      let d := { d with md := { d.md with fileSize := W.file.length, timestamp := now } }
      let (d, F) := d.saveMetadata W.file true
      .ok { d with file := F, sorted := none, sorter := none, updated := false }
    | none => do
      let s := if metadataSize < d.file.length then s.addSource d.cfg d.file else s
      let s := addSorted d.cfg s d.sorted
      let slots ← s.finish
      let out := reduceLoop d.removed reducer (merged slots) [] []
      let W := (Writer.new d.cfg zeroMeta).writeAll d.cfg out
      let d := { d with md := { d.md with num := out.length, eff := effOf out, fileSize := W.file.length, timestamp := now } }
      let (d, F) := d.saveMetadata W.file true
      pure { d with file := F, sorted := none, sorter := none, updated := false }

/-- The updates, if there are any, go to the file first (tkrzw_dbm_skip.cc 688-693 and 722-727). -/
def Db.flushed (d : Db) (now : Nat) : Rd Db := if d.updated then d.finishStorage now none else .ok d

/-- A new record cache (tkrzw_dbm_skip.cc 347, 709, 844 and 888). -/
def Db.newCache (d : Db) : Db := { d with cache := Cache.new d.cfg.step d.cap d.md.num }

/-- The parts of SkipDBM::TuningParameters which remain after the record format: `sort_mem_size`, `insert_in_order` and
`max_cached_records` (tkrzw_dbm_skip.cc 231-239). -/
structure Params where
  cfg : Cfg
  sortMem : Nat
  inOrder : Bool
  cap : Nat

/-- Clamping a parameter: a negative one leaves the default (tkrzw_dbm_skip.cc 219-230). -/
def clamp (lo hi dflt : Nat) (n : Int) : Nat := if 0 ≤ n then min (max n.toNat lo) hi else dflt

/-- The parameters of the record format at Open (tkrzw_dbm_skip.cc 219-230, tkrzw_dbm_skip.h 60-65). -/
def clampCfg (w step maxLevel : Int) : Cfg := ⟨clamp 3 6 4 w, clamp 2 64 4 step, clamp 1 32 14 maxLevel⟩

/-- The version stored in a new file (tkrzw_dbm_skip.cc 250-252); the numbers come from the build. -/
def newMeta (now : Nat) : Meta := ⟨0, 1, 0, 1, 0, 0, metadataSize, now, 0, []⟩

/-- CheckZeroRegion (tkrzw_dbm_skip.cc 1194-1212): at most 128 KiB are looked at. -/
def zeroRegion (F : Bytes) (off stop : Nat) : Bool :=
  ((F.drop off).take (min (off + 131072) stop - off)).all (· == 0)

/-- The end of SkipDBMImpl::Open (tkrzw_dbm_skip.cc 334-352). -/
def Db.openEnd (d : Db) : Db :=
  let d := if d.writable && d.healthy then
      let (d, F) := d.saveMetadata d.file false
      { d with file := F }.prepareStorage
    else d
  { d.newCache with updated := false, removed := false }

/-- A database object opened for writing after its file has been read (tkrzw_dbm_skip.cc 240-265). -/
def Db.opened (p : Params) (autoRestored : Bool) (c : Cfg) (m : Meta) (F : Bytes) : Db where
  cfg := c
  md := m
  file := F
  writable := true
  healthy := true
  autoRestored := autoRestored
  oldNum := 0
  oldEff := 0
  sortMem := p.sortMem
  inOrder := p.inOrder
  cap := p.cap
  sorter := none
  sorted := none
  removed := false
  updated := false
  cache := ⟨1, []⟩

/-- Opening a path without a file, or an empty file, for writing (tkrzw_dbm_skip.cc 248-260 and the rest of Open). -/
def Db.create (p : Params) (now : Nat) : Rd Db :=
  let (_, F) := (Db.opened p false p.cfg (newMeta now) zeroMeta).saveMetadata zeroMeta true
  match loadMetadata F with
  | none => .broken
  | some (c, m, _) => .ok (Db.opened p false c m F).openEnd

/-- SkipDBMImpl::UpdateRecord, the part which keeps the record aside (tkrzw_dbm_skip.cc 1415-1426, with WriteRecord
1431-1447). -/
def Db.keepAside (d : Db) (key value : Bytes) : Rd Db :=
  match d.sorted with
  | none =>
    match d.sorter with
    | none => .ub
    | some s => .ok { d with sorter := some (s.add key value), updated := true }
  | some W =>
    .ok { d with sorted := some (W.write d.cfg key value), updated := true,
                 md := { d.md with num := d.md.num + 1, eff := d.md.eff + (key.length + value.length) } }

/-- SkipDBMImpl::UpdateRecord (tkrzw_dbm_skip.cc 1398-1429). -/
def Db.updateRecord (d : Db) (key : Bytes) : Action → Rd Db
  | .noop => .ok d
  | .remove => { d with removed := true }.keepAside key removingValue
  | .set v => d.keepAside key v

/-- The same if the processor may write (tkrzw_dbm_skip.cc 537-539, 1468-1470). -/
def Db.updateIf (d : Db) (writable : Bool) (key : Bytes) (a : Action) : Rd Db :=
  if writable then d.updateRecord key a else .ok d

/-- Giving a list of records to Set, one after the other (the loop of tkrzw_dbm_skip.cc 777-800 and 2170-2189, whose
Set goes to Insert 432-444). -/
def Db.setAll (d : Db) : List (Bytes × Bytes) → Rd Db
  | [] => .ok d
  | r :: rest => do
    let d ← d.updateRecord r.1 (.set r.2)
    d.setAll rest

/-- What Close does before it saves the metadata of a database without updates (tkrzw_dbm_skip.cc 366-369). -/
def Db.discarded (d : Db) (now : Nat) : Db :=
  let d := d.discardStorage
  { d with md := { d.md with fileSize := d.file.length, timestamp := now } }

/-- SkipDBMImpl::Close (tkrzw_dbm_skip.cc 356-401): the file it leaves. -/
def Db.close (d : Db) (now : Nat) : Rd Bytes :=
  if d.writable && d.healthy then
    if d.updated then do
      let d ← d.finishStorage now none
      pure d.file
    else .ok ((d.discarded now).saveMetadata (d.discarded now).file true).2
  else .ok d.file

/-- Reading records as long as it succeeds (tkrzw_dbm_skip.cc 2167-2189). -/
def salvageFrom (c : Cfg) (F : Bytes) : Nat → Nat → Nat → Rd (List (Bytes × Bytes))
  | 0, _, _ => .hang
  | n + 1, off, index =>
    if F.length ≤ off then .ok []
    else
      match readMetadataKey c F off index with
      | .ok r =>
        match loadValue F r with
        | .ok v => do
          let rest ← salvageFrom c F n (off + r.whole) (index + 1)
          pure ((r.key, v) :: rest)
        | .broken => .ok []
        | .ub => .ub
        | .hang => .hang
      | .broken => .ok []
      | .ub => .ub
      | .hang => .hang

/-- SkipDBM::RestoreDatabase (tkrzw_dbm_skip.cc 2104-2193) to a path without a file: the new file. -/
def restore (F : Bytes) (now : Nat) : Rd Bytes :=
  if F.length < metadataSize then .broken
  else
    let (old, m, good) := match readMetadata F with
      | some (c, m, same) => (c, m, same)
      | none => (⟨0, 0, 0⟩, newMeta now, false)
    let c := if good then clampCfg old.w old.step old.maxLevel else clampCfg (-1) (-1) (-1)
    do
      let d ← Db.create ⟨c, 2 ^ 28, true, 2 ^ 16⟩ now
      let l ← salvageFrom old F (F.length + 1) metadataSize 0
      let d ← { d with md := { d.md with dbType := m.dbType, extra := m.extra } }.setAll l
      d.close now

/-- SkipDBMImpl::Open of an existing file for writing with RESTORE_DEFAULT, up to the point where the metadata are
saved (tkrzw_dbm_skip.cc 261-333). -/
def Db.openBase (p : Params) (F : Bytes) (now : Nat) : Rd Db :=
  match loadMetadata F with
  | none => .broken
  | some (c, m, same) =>
    if same ∧ m.fileSize = F.length then
      .ok (Db.opened p (m.closure % 2 = 0) c { m with closure := 1 } F)
    else if same ∧ m.fileSize < F.length ∧ zeroRegion F m.fileSize F.length = true then
      .ok (Db.opened p (m.closure % 2 = 0) c { m with closure := 1 } (F.take m.fileSize))
    else do
      let F' ← restore F now
      match loadMetadata F' with
      | none => .broken
      | some (c, m, _) => .ok (Db.opened p true c m F')

/-- SkipDBMImpl::Open of a file for writing with RESTORE_DEFAULT (tkrzw_dbm_skip.cc 212-354). -/
def Db.openFile (p : Params) (F : Bytes) (now : Nat) : Rd Db :=
  if F.length < 1 then Db.create p now
  else do
    let d ← Db.openBase p F now
    pure d.openEnd

/-- What a call gives back: the status, the records it showed (a missing record has no value) and a number. -/
structure Out where
  code : Code
  seen : List (Bytes × Option Bytes)
  num : Nat
deriving DecidableEq, Repr

/-- A status alone. -/
def Out.of (c : Code) : Out := ⟨c, [], 0⟩

/-- SkipRecord::Search on the file of the database (as called in tkrzw_dbm_skip.cc 1451). -/
def Db.search (d : Db) (key : Bytes) (upper : Bool) : Rd (Db × Option Rec) :=
  match Skip.search d.cfg d.file d.cache key upper with
  | (cc, .ok o) => .ok ({ d with cache := cc }, o)
  | (_, .broken) => .broken
  | (_, .ub) => .ub
  | (_, .hang) => .hang

/-- SkipRecord::SearchByIndex on the file of the database (as called in tkrzw_dbm_skip.cc 452). -/
def Db.searchByIndex (d : Db) (index : Nat) : Rd (Db × Option Rec) :=
  match Skip.searchByIndex d.cfg d.file d.cache index with
  | (cc, .ok o) => .ok ({ d with cache := cc }, o)
  | (_, .broken) => .broken
  | (_, .ub) => .ub
  | (_, .hang) => .hang

/-- SkipDBMImpl::ProcessImpl (tkrzw_dbm_skip.cc 1449-1475). -/
def Db.process (d : Db) (key : Bytes) (proc : Proc) (writable : Bool) : Rd (Db × Out) := do
  let (d, o) ← d.search key false
  match o with
  | some r =>
    let v ← loadValue d.file r
    let d ← d.updateIf writable key (proc (some v))
    pure (d, ⟨.success, [(key, some v)], 0⟩)
  | none =>
    let d ← d.updateIf writable key (proc none)
    pure (d, ⟨.success, [(key, none)], 0⟩)

/-- SkipDBMImpl::Insert (tkrzw_dbm_skip.cc 432-444). -/
def Db.insert (d : Db) (key : Bytes) (a : Action) : Rd (Db × Out) := do
  let d ← d.updateRecord key a
  pure (d, Out.of .success)

/-- SkipDBMImpl::GetByIndex (tkrzw_dbm_skip.cc 446-471). -/
def Db.getByIndex (d : Db) (index : Nat) : Rd (Db × Out) := do
  let (d, o) ← d.searchByIndex index
  match o with
  | some r =>
    let v ← loadValue d.file r
    pure (d, ⟨.success, [(r.key, some v)], 0⟩)
  | none => pure (d, Out.of .notFound)

/-- SkipDBMImpl::ProcessFirst (tkrzw_dbm_skip.cc 508-563). -/
def Db.processFirst (d : Db) (proc : Bytes → Bytes → Action) (writable : Bool) : Rd (Db × Out) :=
  if d.file.length ≤ metadataSize then .ok (d, Out.of .notFound)
  else do
    let r ← readMetadataKey d.cfg d.file metadataSize 0
    let v ← loadValue d.file r
    let d ← d.updateIf writable r.key (proc r.key v)
    pure (d, ⟨.success, [(r.key, some v)], 0⟩)

/-- The updates of ProcessEach (tkrzw_dbm_skip.cc 596-600). -/
def Db.updateEach (d : Db) (proc : Bytes → Bytes → Action) : List (Bytes × Bytes) → Rd Db
  | [] => .ok d
  | r :: rest => do
    let d ← d.updateRecord r.1 (proc r.1 r.2)
    d.updateEach proc rest

/-- SkipDBMImpl::ProcessEach (tkrzw_dbm_skip.cc 565-636). The updates go elsewhere than to the file being read, so
they are done after the reading here. -/
def Db.processEach (d : Db) (proc : Bytes → Bytes → Action) (writable : Bool) : Rd (Db × Out) := do
  let l ← scan d.cfg d.file
  let d ← if writable then d.updateEach proc l else .ok d
  pure (d, ⟨.success, l.map fun r => (r.1, some r.2), 0⟩)

/-- SkipDBMImpl::Count (tkrzw_dbm_skip.cc 638-645). -/
def Db.count (d : Db) : Nat := d.md.num

/-- SkipDBMImpl::GetEffectiveDataSize (tkrzw_dbm_skip.cc 964-970). -/
def Db.effSize (d : Db) : Nat := d.md.eff

/-- Clear between its first part and the saving of the metadata (tkrzw_dbm_skip.cc 694-702). -/
def Db.cleared (d : Db) (now : Nat) : Db :=
  let d := if d.updated then d.discardStorage else d
  let d := { d with file := d.file.take metadataSize }
  { d with md := { d.md with num := 0, eff := 0, fileSize := metadataSize, timestamp := now } }

/-- SkipDBMImpl::Clear (tkrzw_dbm_skip.cc 674-711). -/
def Db.clear (d : Db) (now : Nat) : Rd Db := do
  let d ← d.flushed now
  let d := d.cleared now
  let (d, F) := d.saveMetadata d.file false
  match loadMetadata F with
  | none => .broken
  | some (c, m, _) => pure { d with cfg := c, md := m, file := F }.prepareStorage.newCache

/-- SkipDBMImpl::Synchronize (tkrzw_dbm_skip.cc 864-890). -/
def Db.synchronize (d : Db) (now : Nat) (reducer : Option Reducer) : Rd Db := do
  let d ← d.finishStorage now reducer
  let (d, F) := d.saveMetadata d.file false
  pure { d with file := F }.prepareStorage.newCache

/-- SkipDBMImpl::Revert (tkrzw_dbm_skip.cc 1012-1026). -/
def Db.revert (d : Db) : Db := d.discardStorage.prepareStorage

/-- SkipDBMImpl::MergeSkipDatabase (tkrzw_dbm_skip.cc 1033-1072): the file at the path is opened for reading (241-265)
and then read as it is. -/
def Db.mergeSkip (d : Db) (src : Bytes) : Rd (Db × Out) :=
  match loadMetadata src with
  | none => .ok (d, Out.of .brokenData)
  | some (c, _, _) =>
    match d.sorter with
    | none => .ub
    | some s => .ok ({ d with sorter := some (s.addSource c src), updated := true }, Out.of .success)

/-- Rebuild between its first part and the saving of the metadata (tkrzw_dbm_skip.cc 728-836). -/
def Db.rebuilt (d : Db) (now : Nat) (c' : Cfg) : Rd Db := do
  let tmp ← Db.create ⟨c', 2 ^ 28, true, 2 ^ 16⟩ now
  let l ← scan d.cfg d.file
  let tmp ← tmp.setAll l
  let F ← tmp.close now
  match loadMetadata F with
  | none => .broken
  | some (c, m, _) =>
    .ok { d with
      cfg := c
      md := { m with dbType := d.md.dbType, extra := d.md.extra, fileSize := F.length }
      file := F }

/-- SkipDBMImpl::Rebuild (tkrzw_dbm_skip.cc 713-846). The parameters of the new file are an argument: the code takes
them from the caller or computes them from the number of records (728-755). -/
def Db.rebuild (d : Db) (now : Nat) (c' : Cfg) : Rd Db := do
  let d ← d.flushed now
  let d ← d.rebuilt now c'
  let (d, F) := d.saveMetadata d.file false
  pure { d with file := F }.prepareStorage.newCache

/-! Iterators -/

/-- Whether the iterator is at a record (tkrzw_dbm_skip.cc 1632, 1652, 1674, 1704 and 1729). -/
def Iter.at (it : Iter) (d : Db) : Option (Nat × Nat × Nat) :=
  match it with
  | some (o, i, s) => if d.file.length ≤ o then none else some (o, i, s)
  | none => none

/-- The position of a record (tkrzw_dbm_skip.cc 1537-1539). -/
def Iter.of (r : Rec) : Iter := some (r.offset, r.index, r.whole)

/-- SkipDBMIteratorImpl::First (tkrzw_dbm_skip.cc 1490-1499). -/
def Iter.first : Iter := some (metadataSize, 0, 0)

/-- SkipDBMIteratorImpl::Last (tkrzw_dbm_skip.cc 1501-1521). -/
def Iter.last (it : Iter) (d : Db) : Rd (Db × Iter × Out) :=
  if 0 < d.md.num then do
    let (d, o) ← d.searchByIndex (d.md.num - 1)
    match o with
    | some r => pure (d, Iter.of r, Out.of .success)
    | none => pure (d, it, Out.of .notFound)
  else .ok (d, Iter.first, Out.of .success)

/-- SkipDBMIteratorImpl::Jump (tkrzw_dbm_skip.cc 1523-1541). -/
def Iter.jump (d : Db) (key : Bytes) : Rd (Db × Iter × Out) := do
  let (d, o) ← d.search key true
  match o with
  | some r => pure (d, Iter.of r, Out.of .success)
  | none => pure (d, none, Out.of .success)

/-- The loop of SkipDBMIteratorImpl::JumpLower (tkrzw_dbm_skip.cc 1566-1584); `rec_key` is the key of the record at the
position. -/
def lowerLoop (key : Bytes) (inclusive : Bool) : Nat → Db → Rec → Nat × Nat × Nat → Rd (Db × Iter × Out)
  | 0, _, _, _ => .hang
  | n + 1, d, r, (o, i, s) =>
    if (if inclusive then !bytesLt key r.key else bytesLt r.key key) then .ok (d, some (o, i, s), Out.of .success)
    else if i = 0 then .ok (d, none, Out.of .success)
    else do
      let (d, x) ← d.searchByIndex (i - 1)
      match x with
      | none => pure (d, none, Out.of .notFound)
      | some r => lowerLoop key inclusive n d r (r.offset, i - 1, r.whole)

/-- SkipDBMIteratorImpl::JumpLower (tkrzw_dbm_skip.cc 1543-1587). -/
def Iter.jumpLower (it : Iter) (d : Db) (key : Bytes) (inclusive : Bool) : Rd (Db × Iter × Out) := do
  let (d, o) ← d.search key true
  match o with
  | some r => lowerLoop key inclusive (r.index + 1) d r (r.offset, r.index, r.whole)
  | none =>
    if d.md.num < 1 then pure (d, none, Out.of .success)
    else
      let (d, o) ← d.searchByIndex (d.md.num - 1)
      match o with
      | none => pure (d, it, Out.of .notFound)
      | some r => lowerLoop key inclusive (r.index + 1) d r (r.offset, r.index, r.whole)

/-- The loop of SkipDBMIteratorImpl::JumpUpper (tkrzw_dbm_skip.cc 1606-1625). An error of the reading clears the
position and is the status. -/
def upperLoop (key : Bytes) (inclusive : Bool) (d : Db) : Nat → Rec → Rd (Db × Iter × Out)
  | 0, _ => .hang
  | n + 1, r =>
    if (if inclusive then !bytesLt r.key key else bytesLt key r.key) then .ok (d, Iter.of r, Out.of .success)
    else if r.index + 1 = d.md.num then .ok (d, none, Out.of .success)
    else
      match readMetadataKey d.cfg d.file (r.offset + r.whole) (r.index + 1) with
      | .ok r => upperLoop key inclusive d n r
      | .broken => .ok (d, none, Out.of .brokenData)
      | .ub => .ub
      | .hang => .hang

/-- SkipDBMIteratorImpl::JumpUpper (tkrzw_dbm_skip.cc 1589-1628). -/
def Iter.jumpUpper (d : Db) (key : Bytes) (inclusive : Bool) : Rd (Db × Iter × Out) := do
  let (d, o) ← d.search key true
  match o with
  | some r => upperLoop key inclusive d (d.file.length + 1) r
  | none => pure (d, none, Out.of .success)

/-- SkipDBMIteratorImpl::Next (tkrzw_dbm_skip.cc 1630-1648). -/
def Iter.next (it : Iter) (d : Db) : Rd (Db × Iter × Out) :=
  match it.at d with
  | none => .ok (d, it, Out.of .notFound)
  | some (o, i, s) => do
    let size ← if s < 1 then do
        let r ← readMetadataKey d.cfg d.file o i
        pure r.whole
      else pure s
    pure (d, some (o + size, i + 1, 0), Out.of .success)

/-- SkipDBMIteratorImpl::Previous (tkrzw_dbm_skip.cc 1650-1669). -/
def Iter.previous (it : Iter) (d : Db) : Rd (Db × Iter × Out) :=
  match it.at d with
  | none => .ok (d, it, Out.of .notFound)
  | some (_, i, _) =>
    if 0 < i then do
      let (d, o) ← d.searchByIndex (i - 1)
      match o with
      | none => pure (d, none, Out.of .notFound)
      | some r => pure (d, some (r.offset, i - 1, r.whole), Out.of .success)
    else .ok (d, none, Out.of .success)

/-- SkipDBMIteratorImpl::Process (tkrzw_dbm_skip.cc 1671-1725); Get (1727-1753) is the read-only case. -/
def Iter.process (it : Iter) (d : Db) (proc : Bytes → Bytes → Action) (writable : Bool) : Rd (Db × Iter × Out) :=
  match it.at d with
  | none => .ok (d, it, Out.of .notFound)
  | some (o, i, _) => do
    let r ← readMetadataKey d.cfg d.file o i
    let v ← loadValue d.file r
    let out := ⟨.success, [(r.key, some v)], 0⟩
    if writable then
      let d ← d.updateRecord r.key (proc r.key v)
      if proc r.key v = .remove then pure (d, some (o + r.whole, i + 1, 0), out)
      else pure (d, some (o, i, r.whole), out)
    else pure (d, some (o, i, r.whole), out)

/-! The methods of class SkipDBM which differ from the defaults of class DBM -/

/-- DBM::RecordProcessorSet (tkrzw_dbm.h 173-218): the action, and whether the status becomes DUPLICATION_ERROR. -/
def setProc (value : Bytes) (overwrite : Bool) : Proc := fun old =>
  match old with
  | some _ => if overwrite then .set value else .noop
  | none => .set value

/-- SkipDBM::Set (tkrzw_dbm_skip.cc 1789-1795): the status and the old value, if it was asked for. -/
def Db.set (d : Db) (key value : Bytes) (overwrite askOld : Bool) : Rd (Db × Code × Option Bytes) :=
  if overwrite && !askOld then do
    let (d, _) ← d.insert key (.set value)
    pure (d, .success, none)
  else do
    let (d, o) ← d.process key (setProc value false) true
    match o.seen with
    | [(_, some v)] => pure (d, .duplication, some v)
    | _ => pure (d, .success, none)

/-- SkipDBM::Remove (tkrzw_dbm_skip.cc 1797-1802). -/
def Db.remove (d : Db) (key : Bytes) (askOld : Bool) : Rd (Db × Code × Option Bytes) :=
  if !askOld then do
    let (d, _) ← d.insert key .remove
    pure (d, .success, none)
  else do
    let (d, o) ← d.process key (fun old => match old with | some _ => .remove | none => .noop) true
    match o.seen with
    | [(_, some v)] => pure (d, .success, some v)
    | _ => pure (d, .notFound, none)

end Verif.Skip
