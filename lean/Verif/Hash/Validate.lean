import Verif.Hash.Rebuild
/-
Model of what `Open` does with a file that was not closed: the validation of the hash table and of the records, and
the scan that skips broken records (tkrzw_dbm_hash.cc 257-380, 2108-2283; tkrzw_dbm_hash_impl.cc 312-483).  `mr` is
`min_read_size_`.  Not modelled: compressors.
-/
namespace Verif.Hash
open Verif.Codec

/-! ### Skipping broken records -/

/-- A record that can be read and whose checksum is right (the two conditions that stand together at
tkrzw_dbm_hash_impl.cc 325-326, 329-331, 367-370 and tkrzw_dbm_hash.cc 2010-2013). -/
def readSound (e : Env) (c : Cfg) (file : Bytes) (mr off : Nat) : Option Meta :=
  match readMeta c file off mr with
  | none => none
  | some m => if checkCrc e c file off m then some m else none

/-- The look at the records behind a candidate (tkrzw_dbm_hash_impl.cc 327-342): three sound records, or sound records up to
the end of the file. The argument is `VALIDATION_COUNT - count`. The size is a 32-bit number there (simplification). -/
def soundAhead (e : Env) (c : Cfg) (file : Bytes) (mr : Nat) : Nat → Nat → Bool
  | 0, _ => true
  | n + 1, off =>
    if off < file.length then
      match readSound e c file mr off with
      | none => false
      | some m =>
        if m.whole ≤ 2 ^ 20 ∧ m.whole % (1 <<< c.ap) ≠ 0 then false
        else if off + m.whole = file.length then true
        else soundAhead e c file mr n (off + m.whole)
    else false

/-- The loop of `FindNextOffset` (tkrzw_dbm_hash_impl.cc 324-348); the argument is `num_shift_tries`. -/
def findNextLoop (e : Env) (c : Cfg) (file : Bytes) (mr : Nat) : Nat → Nat → Option Nat
  | 0, _ => none
  | n + 1, off =>
    if off < file.length then
      if (match readSound e c file mr off with
        | none => false
        | some m => soundAhead e c file mr 3 (off + m.whole)) then some off
      else findNextLoop e c file mr n (off + (1 <<< c.ap))
    else none

/-- `FindNextOffset` (tkrzw_dbm_hash_impl.cc 312-350). -/
def findNext (e : Env) (c : Cfg) (file : Bytes) (mr off : Nat) : Option Nat :=
  findNextLoop e c file mr 1000 (alignNumber (off + (1 + c.ow + 3 + c.cw)) (1 <<< c.ap))

/-- `ReplayOperations` with `skip_broken_records` (tkrzw_dbm_hash_impl.cc 352-432). `none`: more turns than bytes. -/
def scanSkip (e : Env) (c : Cfg) (file : Bytes) (mr endOff : Nat) : Nat → Nat → Option (List Ent)
  | 0, _ => none
  | n + 1, off =>
    if off < endOff then
      match readSound e c file mr off with
      | none =>
        match findNext e c file mr off with
        | none => some []
        | some next => scanSkip e c file mr endOff n next
      | some m =>
        match readValue file off m with
        | none => scanSkip e c file mr endOff n (off + m.whole)
        | some v => (scanSkip e c file mr endOff n (off + m.whole)).map ((m.op, m.key, v) :: ·)
    else some []

/-- `ExtractOffsets` with `skip_broken_records` (tkrzw_dbm_hash_impl.cc 434-483); the offsets as they are read back. -/
def extractSkip (e : Env) (c : Cfg) (file : Bytes) (endOff : Nat) : Nat → Nat → Option (List Nat)
  | 0, _ => none
  | n + 1, off =>
    if off < endOff then
      match readMeta c file off metaMinReadSize with
      | none =>
        match findNext e c file metaMinReadSize off with
        | none => some []
        | some next => extractSkip e c file endOff n next
      | some m =>
        match extractSkip e c file endOff n (off + m.whole) with
        | none => none
        | some l => if m.op = .void then some l else some (readFixNum (writeFixNum (off >>> c.ap) c.ow) c.ow <<< c.ap :: l)
    else some []

/-- Reading the records at the offsets with `skip_broken_records` (tkrzw_dbm_hash.cc 2000-2034). -/
def readEntsSkip (e : Env) (c : Cfg) (file : Bytes) (mr : Nat) : List Nat → List Ent
  | [] => []
  | off :: offs =>
    match readSound e c file mr off with
    | none => readEntsSkip e c file mr offs
    | some m =>
      match readValue file off m with
      | none => readEntsSkip e c file mr offs
      | some v => (m.op, m.key, v) :: readEntsSkip e c file mr offs

/-- The records that `RestoreDatabase` hands to the new database, in the order in which it does (tkrzw_dbm_hash.cc 2976-2986,
1888-2034). -/
def restoreEnts (e : Env) (c : Cfg) (file : Bytes) (mr endOff : Nat) : Option (List Ent) :=
  if c.inPlace then scanSkip e c file mr endOff (file.length + 1) (recordBase c)
  else (extractSkip e c file endOff (file.length + 1) (recordBase c)).map fun offs => readEntsSkip e c file mr offs.reverse

/-! ### Validation -/

/-- The check of one bucket in `ValidateHashBucketsImpl` (tkrzw_dbm_hash.cc 2122-2141, 2145-2150). -/
def bucketOk (e : Env) (c : Cfg) (file : Bytes) (mr i : Nat) : Bool :=
  match getBucket c file i with
  | none => false
  | some off =>
    if off = 0 then true
    else match readSound e c file mr off with
      | none => false
      | some m => e.hash m.key c.nb = i

/-- `ValidateHashBucketsImpl` (tkrzw_dbm_hash.cc 2108-2165) succeeds. The batches only change the order of the checks. -/
def bucketsOk (e : Env) (c : Cfg) (file : Bytes) (mr : Nat) : Bool := (List.range c.nb).all (bucketOk e c file mr)

/-- The loop of `CheckHashChain` (tkrzw_dbm_hash.cc 2262-2281) for the record `key` at `off`, whose bucket is `bi`: whether it
returns success. `none`: it does not end. -/
def checkChain (e : Env) (c : Cfg) (file : Bytes) (off : Nat) (key : Bytes) (bi : Nat) : Nat → Nat → Option Bool
  | 0, cur => if cur = 0 then some false else none
  | fuel + 1, cur =>
    if cur = 0 then some false
    else if cur = off then some true
    else match readMeta c file cur metaMinReadSize with
      | none => some false
      | some m =>
        if e.hash m.key c.nb ≠ bi then some false
        else if !c.inPlace && cur > off && m.key = key then some true
        else checkChain e c file off key bi fuel m.child

/-- `CheckHashChain` (tkrzw_dbm_hash.cc 2256-2283). -/
def checkHashChain (e : Env) (c : Cfg) (file : Bytes) (off : Nat) (key : Bytes) : Option Bool :=
  match getBucket c file (e.hash key c.nb) with
  | none => some false
  | some top => checkChain e c file off key (e.hash key c.nb) file.length top

/-- The check of the child of a record (tkrzw_dbm_hash.cc 2199-2209). -/
def childOk (e : Env) (c : Cfg) (file : Bytes) (m : Meta) : Bool :=
  if m.child > 0 then
    match readMeta c file m.child 48 with
    | none => false
    | some ch => e.hash ch.key c.nb = e.hash m.key c.nb
  else true

/-- What `ValidateRecordsImpl` finds: `null_end_offset`, `act_count`, `act_eff_data_size`. -/
structure Valid where
  nullEnd : Option Nat
  count : Int
  eff : Int
deriving Repr, DecidableEq

/-- What a record adds to the count (tkrzw_dbm_hash.cc 2210-2227). -/
def OpType.weight (inPlace : Bool) : OpType → Int
  | .set => if inPlace then 1 else 0
  | .add => 1
  | .remove => -1
  | .void => 0

/-- The counters with one more record (tkrzw_dbm_hash.cc 2210-2227). -/
def Valid.add (c : Cfg) (m : Meta) (v : Valid) : Valid :=
  { v with
    count := m.op.weight c.inPlace + v.count
    eff := m.op.weight c.inPlace * (m.key.length + m.valueSize : Nat) + v.eff }

/-- The loop of `ValidateRecordsImpl` (tkrzw_dbm_hash.cc 2167-2233). `none`: it does not end; `some none`: an error status. -/
def validateRecords (e : Env) (c : Cfg) (file : Bytes) (mr : Nat) : Nat → Nat → Option (Option Valid)
  | 0, _ => none
  | n + 1, off =>
    if off < file.length then
      match readMeta c file off mr with
      | none => some (if zeroRegion file off then some ⟨some off, 0, 0⟩ else none)
      | some m =>
        if checkCrc e c file off m then
          if m.op = .void then validateRecords e c file mr n (off + m.whole)
          else
            match checkHashChain e c file off m.key with
            | none => none
            | some false => some none
            | some true =>
              if childOk e c file m then (validateRecords e c file mr n (off + m.whole)).map (·.map (Valid.add c m))
              else some none
        else some (if !c.inPlace && zeroRegion file (off + m.whole) then some ⟨some off, 0, 0⟩ else none)
    else some (if off = file.length then some ⟨none, 0, 0⟩ else none)

/-! ### Restoration in `Open` -/

/-- `RestoreMode` (tkrzw_dbm_hash.h): `RESTORE_READ_ONLY` is left out. -/
inductive RestoreMode where
  | default | sync | noop
deriving DecidableEq, Repr

/-- The members after the records have been validated (tkrzw_dbm_hash.cc 301-302, 320). -/
def Mem.validated (c : Cfg) (m : Mem) (v : Valid) : Mem :=
  if c.inPlace then { m with num := v.count, eff := v.eff } else { m with num := m.num + v.count }

/-- The truncation of the zeros behind the records (tkrzw_dbm_hash.cc 303-309, 321-327). -/
def Valid.cut (v : Valid) (file : Bytes) : Bytes :=
  match v.nullEnd with
  | none => file
  | some o => file.take o

/-- The shortcuts of `Open` (tkrzw_dbm_hash.cc 287-330) for an unhealthy database whose metadata say `size`. `none`: the
validation does not end; `some none`: no shortcut applies. -/
def shortcut (e : Env) (mr : Nat) (mode : RestoreMode) (size : Nat) (s : State) : Option (Option State) :=
  if !s.cfg.inPlace && size == s.file.length && bucketsOk e s.cfg s.file mr then some (some s)
  else if mode = .default && decide (size ≤ s.file.length) && bucketsOk e s.cfg s.file mr then
    match validateRecords e s.cfg s.file mr (s.file.length + 1) (if s.cfg.inPlace then recordBase s.cfg else size) with
    | none => none
    | some none => some none
    | some (some v) => some (some
        { s with
          mem := s.mem.validated s.cfg v
          file := v.cut s.file })
  else some none

/-- The offset up to which `RestoreDatabase` reads: the end of the file, or in the mode `RESTORE_SYNC` the size at the last
synchronization if that is sensible (tkrzw_dbm_hash.cc 335, 1908-1914, 2724-2727). -/
def restoreEnd (d : Md) (mode : RestoreMode) (file : Bytes) : Nat :=
  let last := if d.torn then 0 else d.fileSize
  if mode = .sync then
    if last < recordBase (d.cfg 2048) ∨ last % (1 <<< d.ap) ≠ 0 then file.length else min last file.length
  else file.length

/-- The members that `RestoreDatabase` gives to the new database: when the two copies of the cyclic magic differ, the number
of buckets is computed from the record base, and the type and the opaque metadata are lost (tkrzw_dbm_hash.cc 2854,
2887-2922). A number of buckets that is not of the sizes which `GetHashBucketSize` gives is rounded up there (simplification). -/
def Md.restored (d : Md) : Md :=
  if d.torn then { d with nb := (recordBase (d.cfg 2048) - metadataSize) / d.ow, dbType := 0, opaq := [] } else d

/-- The new database of `RestoreDatabase` just before it is closed (tkrzw_dbm_hash.cc 2922-2988): the same parameters and
update mode as those in the metadata of the old file, and the records of the old file. -/
def restoreTmp (e : Env) (x : Extra) (d : Md) (mode : RestoreMode) (file : Bytes) : Option Db :=
  match restoreEnts e (d.cfg 2048) file (max 48 (1 <<< d.ap)) (restoreEnd d mode file) with
  | none => none
  | some l =>
    match openImpl x (d.restored.cfg 2048) [] with
    | none => none
    | some (n, _) => some
        { st := if d.restored.cfg 2048 |>.inPlace then importForward (impl e) n.st l else importBackward (impl e) n.st l
          extra := { n.extra with dbType := d.restored.dbType, opaq := d.restored.opaq } }

/-- `RestoreDatabase` (tkrzw_dbm_hash.cc 2824-2990): the bytes of the new file. `x`: the members of a new database; `stamp`:
the wall time. Only files with readable metadata are restored here: `Open` calls it for no others. -/
def restoreDatabase (e : Env) (x : Extra) (stamp : Nat) (mode : RestoreMode) (file : Bytes) : Option Bytes :=
  if file.length < recordBaseAlign then none
  else
    match loadMetadata file with
    | none => none
    | some d =>
      match restoreTmp e x d mode file with
      | none => none
      | some n => closeFile stamp n

/-- What is done with an unhealthy database `b` (tkrzw_dbm_hash.cc 282-375). -/
def restoreUnhealthy (e : Env) (x : Extra) (stamp cap mr : Nat) (mode : RestoreMode) (noShortcuts : Bool) (size : Nat) (b : Db) :
    Option Db :=
  if mode = .noop then some b
  else
    match (if noShortcuts then some none else shortcut e mr mode size b.st) with
    | none => none
    | some (some s) => some { b with st := s }
    | some none =>
      match restoreDatabase e x stamp mode b.st.file with
      | none => none
      | some f =>
        match openOld cap f with
        | none => none
        | some (d, _) => some d

/-- `Open` of an existing file as writable (tkrzw_dbm_hash.cc 257-380) with a restore mode and the option
`RESTORE_NO_SHORTCUTS`. -/
def openRestore (e : Env) (x : Extra) (stamp cap mr : Nat) (mode : RestoreMode) (noShortcuts : Bool) (file : Bytes) : Option Db :=
  match loadMetadata file with
  | none => none
  | some d =>
    match openOld cap file with
    | none => none
    | some (b, true) => some b
    | some (b, false) =>
      restoreUnhealthy e x stamp cap mr mode noShortcuts (if d.torn then 2 ^ 63 - 1 else d.fileSize) b

end Verif.Hash
