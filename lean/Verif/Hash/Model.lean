import Verif.Dbm.Api
import Verif.Codec.Num
/-
HashDBM (tkrzw_dbm_hash.cc, tkrzw_dbm_hash_impl.cc): the file hash database, down to the bytes of the file.

A method first reads (buckets, chains of records) and then performs at most four file writes.  `plan` computes these
writes from what is read; `processImpl` performs them.  A crash of the process between two writes is then a prefix of
the planned writes.  I/O failures, record compression and the locks are not modelled here; the hash function, the 6-bit
checksum and the CRC are parameters.  A read outside the file, a broken record, an overlong chain and undefined
behaviour set the flag `bad`.
-/
namespace Verif.Hash
open Verif.Codec

/-- `HashRecord::OperationType` (tkrzw_dbm_hash_impl.h 52-61). -/
inductive OpType where
  | void | set | remove | add
deriving DecidableEq, Repr

/-- The functions the file format depends on: `PrimaryHash(key, num_buckets)` (tkrzw_dbm_common_impl.h 36),
`MagicChecksum(key, value)` (tkrzw_dbm_hash_impl.h 425-428) and the CRC of key and value for a CRC width
(tkrzw_dbm_hash_impl.cc 228-242). -/
structure Env where
  hash : Bytes → Nat → Nat
  sum : Bytes → Bytes → Nat
  crc : Nat → Bytes → Bytes → Nat

/-- The static properties of a database file: offset width, alignment power, CRC width, number of buckets, the update
mode, and the capacity of the free block pool (tkrzw_dbm_hash.cc 213-236). -/
structure Cfg where
  ow : Nat
  ap : Nat
  cw : Nat
  nb : Nat
  inPlace : Bool
  fbpCap : Nat
deriving Repr, DecidableEq

/-- `AlignNumber` (tkrzw_sys_config.h 378-384). -/
def alignNumber (num alignment : Nat) : Nat :=
  if num % alignment > 0 then num + (alignment - num % alignment) else num

/-! ### Records (tkrzw_dbm_hash_impl.cc 21-340) -/

/-- The contents of a record: `padding` is `padding_size_`. -/
structure Rec where
  op : OpType
  child : Nat
  key : Bytes
  value : Bytes
  pad : Nat
deriving Repr, DecidableEq

/-- The size of a record without padding (tkrzw_dbm_hash_impl.cc 217-219). -/
def baseSize (c : Cfg) (k v : Bytes) : Nat :=
  1 + c.ow + sizeVarNum k.length + sizeVarNum v.length + 1 + c.cw + k.length + v.length

/-- The whole size of a record. -/
def Rec.size (c : Cfg) (r : Rec) : Nat := baseSize c r.key r.value + r.pad

/-- `SetData` (tkrzw_dbm_hash_impl.cc 213-247). -/
def setData (c : Cfg) (op : OpType) (ideal : Nat) (k v : Bytes) (child : Nat) : Rec :=
  { op := op, child := child, key := k, value := v,
    pad := alignNumber (max (baseSize c k v) ideal) (1 <<< c.ap) - baseSize c k v }

/-- The magic bits of an operation type (tkrzw_dbm_hash_impl.cc 255-267, tkrzw_dbm_hash_impl.h). -/
def OpType.magic : OpType → Nat
  | .void => 0xC0
  | .set => 0x80
  | .remove => 0x40
  | .add => 0

/-- The padding region (tkrzw_dbm_hash_impl.cc 282-285). -/
def padBytes (pad : Nat) : Bytes :=
  if pad > 0 then 0xDD :: List.replicate (pad - sizeVarNum pad) 0 else []

/-- The bytes before the key (tkrzw_dbm_hash_impl.cc 253-277). -/
def headBytes (e : Env) (c : Cfg) (r : Rec) : Bytes :=
  byte (e.sum r.key r.value ||| r.op.magic) :: (writeFixNum (r.child >>> c.ap) c.ow ++
    (writeVarNum r.key.length ++ (writeVarNum r.value.length ++ (writeVarNum r.pad ++
      (if c.cw > 0 then writeFixNum (e.crc c.cw r.key r.value) c.cw else [])))))

/-- The bytes written by `HashRecord::Write` (tkrzw_dbm_hash_impl.cc 249-298). -/
def recBytes (e : Env) (c : Cfg) (r : Rec) : Bytes :=
  headBytes e c r ++ (r.key ++ (r.value ++ padBytes r.pad))

/-- `File::Read`: fails when the region is not inside the file. -/
def fread (file : Bytes) (off n : Nat) : Option Bytes :=
  if off + n ≤ file.length then some ((file.drop off).take n) else none

/-- `File::Write` inside the file. (A write beyond the end would extend the file; no caller needs that here, so it is
treated as a failure.) -/
def fwrite (file : Bytes) (off : Nat) (data : Bytes) : Option Bytes :=
  if off + data.length ≤ file.length then some (file.take off ++ (data ++ file.drop (off + data.length))) else none

/-- What `ReadMetadataKey` leaves in the record object. `value` is `none` if the value was not in the buffer. -/
structure Meta where
  op : OpType
  sum : Nat
  child : Nat
  keySize : Nat
  valueSize : Nat
  padSize : Nat
  crc : Nat
  headerSize : Nat
  whole : Nat
  key : Bytes
  value : Option Bytes
deriving Repr, DecidableEq

/-- `MAX_KEY_SIZE`, `MAX_VALUE_SIZE`, `META_MIN_READ_SIZE` (tkrzw_dbm_hash_impl.h 43-47). -/
def maxKeySize : Nat := 8 * 2 ^ 20 - 1
def maxValueSize : Nat := 2 * 2 ^ 30 - 1
def metaMinReadSize : Nat := 48

/-- A varnum field with the limit `lim` and the remaining file size `maxRead` (tkrzw_dbm_hash_impl.cc 96-131). Returns
the number, the rest of the buffer and the consumed size. -/
def readField (buf : Bytes) (lim maxRead : Nat) : Option (Nat × Bytes × Nat) :=
  match readVarNum buf with
  | none => none
  | some (n, step) => if n > lim ∨ n > maxRead then none else some (n, buf.drop step, step)

/-- The type from the magic byte (tkrzw_dbm_hash_impl.cc 79-88). -/
def opOfMagic (m : Nat) : OpType :=
  if m &&& 0xC0 = 0xC0 then .void else if m &&& 0xC0 = 0x80 then .set
  else if m &&& 0xC0 = 0x40 then .remove else .add

/-- The checks of the padding that is in the buffer (tkrzw_dbm_hash_impl.cc 151-160). `rest` is the buffer behind the
value. -/
def padOk (pad : Nat) (rest : Bytes) : Bool :=
  match rest with
  | [] => true
  | b :: rest =>
    pad = 0 || (b == 0xDD && (match rest with
      | [] => true
      | b2 :: _ => pad ≤ 1 || b2 == 0))

/-- `ReadMetadataKey` (tkrzw_dbm_hash_impl.cc 53-172) with `ReadBody` (tkrzw_dbm_hash_impl.cc 174-184) where it is
called. -/
def readMeta (c : Cfg) (file : Bytes) (off minRead : Nat) : Option Meta :=
  if file.length < off + (1 + c.ow + 3 + c.cw) then none
  else
    let maxRead := file.length - off
    let buf := (file.drop off).take (min maxRead minRead)
    match buf with
    | [] => none
    | magic :: buf =>
      if magic.toNat &&& 0x3F < 3 then none
      else if buf.length < c.ow then none
      else
        let child := readFixNum buf c.ow <<< c.ap
        match readField (buf.drop c.ow) maxKeySize maxRead with
        | none => none
        | some (ks, buf, s1) =>
          match readField buf maxValueSize maxRead with
          | none => none
          | some (vs, buf, s2) =>
            match readField buf maxValueSize maxRead with
            | none => none
            | some (ps, buf, s3) =>
              if buf.length < c.cw then none
              else
                let crc := if c.cw > 0 then readFixNum buf c.cw else 0
                let buf := buf.drop c.cw
                let header := 1 + c.ow + s1 + s2 + s3 + c.cw
                let whole := header + ks + vs + ps - (s3 - 1)
                let res := fun (key : Bytes) (value : Option Bytes) => some
                  { op := opOfMagic magic.toNat, sum := magic.toNat &&& 0x3F, child := child, keySize := ks,
                    valueSize := vs, padSize := ps, crc := crc, headerSize := header, whole := whole,
                    key := key, value := value : Meta }
                if buf.length ≥ ks then
                  let key := buf.take ks
                  let buf := buf.drop ks
                  if padOk ps (buf.drop vs) then
                    res key (if buf.length ≥ vs then some (buf.take vs) else none)
                  else none
                else if off + whole > file.length then none
                else
                  match fread file (off + header) (ks + vs) with
                  | none => none
                  | some body => res (body.take ks) (some (body.drop ks))

/-- The value of a record whose metadata has been read, reading the body if needed (tkrzw_dbm_hash.cc 1451-1459,
tkrzw_dbm_hash_impl.cc 174-184). -/
def readValue (file : Bytes) (off : Nat) (m : Meta) : Option Bytes :=
  match m.value with
  | some v => some v
  | none => (fread file (off + m.headerSize) (m.keySize + m.valueSize)).map (·.drop m.keySize)

/-- `CheckCRC` (tkrzw_dbm_hash_impl.cc 186-211). -/
def checkCrc (e : Env) (c : Cfg) (file : Bytes) (off : Nat) (m : Meta) : Bool :=
  match readValue file off m with
  | none => false
  | some v => m.sum = e.sum m.key v && (c.cw = 0 || m.crc = e.crc c.cw m.key v)

/-! ### Free block pool (tkrzw_dbm_hash_impl.cc 539-617) -/

/-- `FreeBlock`, ordered by size and offset (tkrzw_dbm_hash_impl.h). -/
structure FB where
  off : Nat
  size : Nat
deriving Repr, DecidableEq

/-- `FreeBlock::operator<`. -/
def FB.lt (a b : FB) : Bool := a.size < b.size || (a.size == b.size && a.off < b.off)

/-- `std::set<FreeBlock>::emplace`. -/
def fbpIns (b : FB) : List FB → List FB
  | [] => [b]
  | x :: xs => if b.lt x then b :: x :: xs else if x.lt b then x :: fbpIns b xs else x :: xs

/-- `InsertFreeBlock` (tkrzw_dbm_hash_impl.cc 554-562). `none`: the smallest block of an empty pool is looked at. -/
def fbpInsert (cap : Nat) (l : List FB) (b : FB) : Option (List FB) :=
  if l.length ≥ cap then
    match l with
    | [] => none
    | x :: xs => if b.size ≤ x.size then some (x :: xs) else some (fbpIns b xs)
  else some (fbpIns b l)

/-- `FetchFreeBlock` (tkrzw_dbm_hash_impl.cc 564-573): the smallest block of at least the size. -/
def fbpFetch (need : Nat) : List FB → Option (FB × List FB)
  | [] => none
  | b :: bs =>
    if need ≤ b.size then some (b, bs)
    else match fbpFetch need bs with
      | none => none
      | some (x, r) => some (x, b :: r)

/-! ### Processing a record -/

/-- The members of `HashDBMImpl` that record operations change, other than the file (tkrzw_dbm_hash.cc 213-236). -/
structure Mem where
  fbp : List FB
  num : Int
  eff : Int
  log : List LogOp
deriving Repr, DecidableEq

/-- A file write of a record operation. -/
inductive Wr where
  /-- `rec.Write(-1, &new_offset)` -/
  | append (r : Rec)
  /-- `rec.Write(off, nullptr)` -/
  | record (off : Nat) (r : Rec)
  /-- `WriteChildOffset(off, child)` (tkrzw_dbm_hash_impl.cc 300-305) -/
  | child (off child : Nat)
  /-- `SetBucketValue(bi, value)` (tkrzw_dbm_hash.cc 1626-1631) -/
  | bucket (bi value : Nat)
deriving Repr, DecidableEq

/-- A record as read from the file: the value may fail to be read. -/
structure RecR where
  op : OpType
  child : Nat
  key : Bytes
  value : Option Bytes
  size : Nat
deriving Repr, DecidableEq

/-- How a record operation reads the file: its size, `GetBucketValue` (tkrzw_dbm_hash.cc 1615-1624) and
`ReadMetadataKey`. -/
structure Reader where
  size : Nat
  bucket : Nat → Option Nat
  record : Nat → Option RecR

/-- The walk along a bucket chain (tkrzw_dbm_hash.cc 1436-1447, 1569-1572). `some none`: no such key;
`some (some (parent, current, rec))`. `none`: a broken record, or a chain longer than the fuel. -/
def findRec (rd : Reader) (k : Bytes) : (fuel parent cur : Nat) → Option (Option (Nat × Nat × RecR))
  | 0, _, cur => if cur = 0 then some none else none
  | fuel + 1, parent, cur =>
    if cur = 0 then some none
    else match rd.record cur with
      | none => none
      | some r => if k = r.key then some (some (parent, cur, r)) else findRec rd k fuel cur r.child

/-- `old_is_set` (tkrzw_dbm_hash.cc 1449-1450). -/
def OpType.isSet : OpType → Bool
  | .set => true
  | .add => true
  | _ => false

/-- The log entry, count and effective size of a performed action on a found record (tkrzw_dbm_hash.cc 1472-1481,
1553-1566). `old` is the size of the old value. -/
def account (m : Mem) (k : Bytes) (oldIsSet : Bool) (old : Nat) : Action → Mem
  | .noop => m
  | .remove =>
    { m with
      log := m.log ++ [.remove k]
      num := if oldIsSet then m.num - 1 else m.num
      eff := if oldIsSet then m.eff - (k.length + old : Nat) else m.eff }
  | .set v =>
    { m with
      log := m.log ++ [.set k v]
      num := if oldIsSet then m.num else m.num + 1
      eff := if oldIsSet then m.eff + ((v.length : Int) - (old : Int)) else m.eff + (k.length + v.length : Nat) }

/-- Choosing a place for a new record: a free block in the in-place mode if there is one, else the end of the file
(tkrzw_dbm_hash.cc 1520-1541, 1589-1604). `mk` makes the record of an ideal size; `mkFb` does so for a free block.
Returns the offset, the write and the pool. -/
def place (c : Cfg) (size : Nat) (fbp : List FB) (r : Rec) (mkFb : Nat → Rec) : Nat × Wr × List FB :=
  if c.inPlace then
    match fbpFetch (r.size c) fbp with
    | some (fb, rest) =>
      if fb.off = 0 then (size, .append (mkFb fb.size), rest) else (fb.off, .record fb.off (mkFb fb.size), rest)
    | none => (size, .append r, fbp)
  else (size, .append r, fbp)

/-- Writing a new version elsewhere (tkrzw_dbm_hash.cc 1508-1552). `isRemove`, `v`: the action. -/
def relocate (c : Cfg) (size : Nat) (fbp : List FB) (bi top parent cur : Nat) (old : RecR) (k : Bytes)
    (isRemove : Bool) (v : Bytes) : Option (List FB × List Wr) :=
  let newChild := if c.inPlace || parent = 0 then old.child else top
  let op := if isRemove then .remove else if old.op.isSet then .set else .add
  let opFb := if isRemove then .remove else .set
  let x := place c size fbp (setData c op 0 k v newChild) (fun ideal => setData c opFb ideal k v newChild)
  let link := if c.inPlace && parent > 0 then Wr.child parent x.1 else Wr.bucket bi x.1
  if c.inPlace then
    match fbpInsert c.fbpCap x.2.2 ⟨cur, old.size⟩ with
    | none => none
    | some fbp => some (fbp, [x.2.1, link, .record cur (setData c .void old.size [] [] 0)])
  else some (x.2.2, [x.2.1, link])

/-- The file writes for a found record (tkrzw_dbm_hash.cc 1482-1552). -/
def hitWrites (c : Cfg) (size : Nat) (fbp : List FB) (bi top parent cur : Nat) (old : RecR) (k : Bytes) :
    Action → Option (List FB × List Wr)
  | .noop => some (fbp, [])
  | .remove =>
    let r := setData c .void old.size [] [] 0
    if c.inPlace && r.size c = old.size then
      let unlink := if parent > 0 then Wr.child parent old.child else Wr.bucket bi old.child
      match fbpInsert c.fbpCap fbp ⟨cur, old.size⟩ with
      | none => none
      | some fbp => some (fbp, [unlink, .record cur r])
    else relocate c size fbp bi top parent cur old k true []
  | .set v =>
    let r := setData c (if old.op.isSet then .set else .add) old.size k v old.child
    if c.inPlace && r.size c = old.size then some (fbp, [.record cur r])
    else relocate c size fbp bi top parent cur old k false v

/-- The file writes for a new record (tkrzw_dbm_hash.cc 1586-1609). -/
def missWrites (c : Cfg) (size : Nat) (fbp : List FB) (bi top : Nat) (k v : Bytes) : List FB × List Wr :=
  let x := place c size fbp (setData c .add 0 k v top) (fun ideal => setData c .add ideal k v top)
  (x.2.2, [x.2.1, .bucket bi x.1])

/-- `ProcessImpl` (tkrzw_dbm_hash.cc 1427-1613) up to the file writes: the members, the writes and what the processor
leaves behind. -/
def plan {τ : Type} (c : Cfg) (rd : Reader) (m : Mem) (k : Bytes) (bi : Nat) (w : Bool) (p : ProcR τ) :
    Option (Mem × List Wr × τ) :=
  match rd.bucket bi with
  | none => none
  | some top =>
    match findRec rd k rd.size 0 top with
    | none => none
    | some (some (parent, cur, r)) =>
      match (if r.op.isSet then r.value.map some else some none) with
      | none => none
      | some old =>
        let x := p old
        if w = false ∨ x.1 = .noop then some (m, [], x.2)
        else
          match hitWrites c rd.size m.fbp bi top parent cur r k x.1 with
          | none => none
          | some (fbp, ws) => some ({ account m k r.op.isSet (old.getD []).length x.1 with fbp := fbp }, ws, x.2)
    | some none =>
      let x := p none
      match w, x.1 with
      | true, .set v =>
        let y := missWrites c rd.size m.fbp bi top k v
        some ({ account m k false 0 (.set v) with fbp := y.1 }, y.2, x.2)
      | _, _ => some (m, [], x.2)

/-! ### The database on the bytes of the file -/

/-- `METADATA_SIZE`, `FBP_SECTION_SIZE`, `RECORD_BASE_HEADER_SIZE`, `RECORD_BASE_ALIGN` (tkrzw_dbm_hash.cc 33-56). -/
def metadataSize : Nat := 128
def fbpSectionSize : Nat := 1008
def recordBaseHeaderSize : Nat := 16
def recordBaseAlign : Nat := 4096

/-- `SetRecordBase` (tkrzw_dbm_hash.cc 1351-1356). -/
def recordBase (c : Cfg) : Nat :=
  alignNumber (metadataSize + c.nb * c.ow + fbpSectionSize + recordBaseHeaderSize) (max recordBaseAlign (1 <<< c.ap))

/-- `GetBucketValue` (tkrzw_dbm_hash.cc 1615-1624). -/
def getBucket (c : Cfg) (file : Bytes) (bi : Nat) : Option Nat :=
  (fread file (metadataSize + bi * c.ow) c.ow).map fun b => readFixNum b c.ow <<< c.ap

/-- One file write. -/
def applyWr (e : Env) (c : Cfg) (file : Bytes) : Wr → Option Bytes
  | .append r => some (file ++ recBytes e c r)
  | .record off r => fwrite file off (recBytes e c r)
  | .child off ch => fwrite file (off + 1) (writeFixNum (ch >>> c.ap) c.ow)
  | .bucket bi v => fwrite file (metadataSize + bi * c.ow) (writeFixNum (v >>> c.ap) c.ow)

/-- File writes one after the other. -/
def applyWrs (e : Env) (c : Cfg) : Bytes → List Wr → Option Bytes
  | file, [] => some file
  | file, w :: ws =>
    match applyWr e c file w with
    | none => none
    | some file => applyWrs e c file ws

/-- How `ProcessImpl` reads the file; `minRead` is 48 if the value is needed and `min_read_size_` otherwise
(tkrzw_dbm_hash.cc 1440). -/
def fileReader (c : Cfg) (file : Bytes) (minRead : Nat) : Reader :=
  { size := file.length
    bucket := getBucket c file
    record := fun off => (readMeta c file off minRead).map fun m =>
      { op := m.op, child := m.child, key := m.key, value := readValue file off m, size := m.whole } }

/-- The state of `HashDBMImpl` (tkrzw_dbm_hash.cc 208-249) as far as it is modelled. -/
structure State where
  cfg : Cfg
  file : Bytes
  mem : Mem
  bad : Bool
deriving Repr, DecidableEq

/-- An error status or undefined behaviour. -/
def State.fail (s : State) : State := { s with bad := true }

/-- `ProcessImpl` (tkrzw_dbm_hash.cc 1427-1613). -/
def processImpl {τ : Type} (e : Env) (minRead : Nat) (s : State) (k : Bytes) (bi : Nat) (w : Bool) (p : ProcR τ) :
    State × τ :=
  match plan s.cfg (fileReader s.cfg s.file minRead) s.mem k bi w p with
  | none => (s.fail, (p none).2)
  | some (m, ws, t) =>
    match applyWrs e s.cfg s.file ws with
    | none => (s.fail, t)
    | some f => ({ s with file := f, mem := m }, t)

/-- `Process` (tkrzw_dbm_hash.cc 395-411); the bucket comes from the hash mutex (tkrzw_thread_util.h 1211). -/
def process {τ : Type} (e : Env) (s : State) (k : Bytes) (w : Bool) (p : ProcR τ) : State × τ :=
  processImpl e metaMinReadSize s k (e.hash k s.cfg.nb) w p

/-- The database as seen by the default methods of `DBM`; `ProcessMulti` (tkrzw_dbm_hash.cc 413-445) runs
`ProcessImpl` for each pair in order. -/
def impl (e : Env) : DbmImpl State := ⟨process e, seqMulti (process e)⟩

end Verif.Hash
