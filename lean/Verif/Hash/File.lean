import Verif.Hash.Model
/-
Model of how HashDBM creates, closes and opens a database file: the metadata section, the section of the free block pool,
the hash table and the header of the record section (tkrzw_dbm_hash.cc 33-66, 1172-1425, 2647-2780).  The file is its
list of bytes.  Not modelled: compressors (a file with a compressor flag is refused) and the I/O options.
-/
namespace Verif.Hash
open Verif.Codec

/-- `META_MAGIC_DATA` "TkrzwHDB\n" (tkrzw_dbm_hash.cc 34). -/
def metaMagic : Bytes := [0x54, 0x6b, 0x72, 0x7a, 0x77, 0x48, 0x44, 0x42, 0x0a]

/-- `RECORD_BASE_MAGIC_DATA` "TkrzwREC\n" (tkrzw_dbm_hash.cc 52). -/
def recMagic : Bytes := [0x54, 0x6b, 0x72, 0x7a, 0x77, 0x52, 0x45, 0x43, 0x0a]

/-- The members that are saved in the metadata and do not matter for the records: `cyclic_magic_`, the package version,
`timestamp_`, `db_type_`, `opaque_` (tkrzw_dbm_hash.cc 213-236). -/
structure Extra where
  cyc : Nat
  major : Nat
  minor : Nat
  stamp : Nat
  dbType : Nat
  opaq : Bytes
deriving Repr, DecidableEq

/-- `static_flags_` (tkrzw_dbm_hash.cc 66-80, SetTuning 1122-1138). -/
def staticFlags (c : Cfg) : Nat :=
  (if c.inPlace then 1 else 2) + (if c.cw = 1 then 4 else if c.cw = 2 then 8 else if c.cw = 4 then 12 else 0)

/-- `SaveMetadata` (tkrzw_dbm_hash.cc 1283-1311): the 128 bytes, for the values after the cyclic magic is advanced. -/
def metaBytes (x : Extra) (c : Cfg) (closed : Bool) (num eff : Int) (fileSize : Nat) : Bytes :=
  metaMagic ++ (writeFixNum x.cyc 1 ++ (writeFixNum x.major 1 ++ (writeFixNum x.minor 1 ++
  (writeFixNum (staticFlags c) 1 ++ (writeFixNum c.ow 1 ++ (writeFixNum c.ap 1 ++ (writeFixNum (if closed then 1 else 0) 1 ++
  (writeFixNum c.nb 8 ++ (writeFixNum (max 0 num).toNat 8 ++ (writeFixNum (max 0 eff).toNat 8 ++
  (writeFixNum fileSize 8 ++ (writeFixNum x.stamp 8 ++ (writeFixNum x.dbType 4 ++ ([0, 0] ++
  (x.opaq.take 64 ++ (List.replicate (64 - x.opaq.length) 0 ++ ([0] ++ writeFixNum x.cyc 1)))))))))))))))))

/-- `cyclic_magic_ % 255 + 1` (tkrzw_dbm_hash.cc 1284). -/
def Extra.next (x : Extra) : Extra := { x with cyc := x.cyc % 255 + 1 }

/-- `InitializeBuckets` (tkrzw_dbm_hash.cc 1394-1421): zeros up to the record base, and the header of the record
section. -/
def recHeader (c : Cfg) : Bytes :=
  recMagic ++ (writeFixNum (staticFlags c) 1 ++ (writeFixNum c.ow 1 ++ (writeFixNum c.ap 1 ++ List.replicate 4 0)))

/-- The file made by `OpenImpl` for an empty file (tkrzw_dbm_hash.cc 1173-1191). -/
def newFile (x : Extra) (c : Cfg) : Bytes :=
  metaBytes x.next c true 0 0 (recordBase c) ++
    (List.replicate (recordBase c - metadataSize - recordBaseHeaderSize) 0 ++ recHeader c)

/-- What `ReadMetadata` gets from the file (tkrzw_dbm_hash.cc 2647-2698). `torn`: the two copies of the cyclic magic
differ. -/
structure Md where
  cyc : Nat
  major : Nat
  minor : Nat
  static : Nat
  ow : Nat
  ap : Nat
  closure : Nat
  nb : Nat
  num : Nat
  eff : Nat
  fileSize : Nat
  stamp : Nat
  dbType : Nat
  opaq : Bytes
  torn : Bool
deriving Repr, DecidableEq

/-- A number of the metadata. -/
def numAt (file : Bytes) (off w : Nat) : Nat := readFixNum (file.drop off) w

/-- `ReadMetadata` (tkrzw_dbm_hash.cc 2647-2698). -/
def readMetadata (file : Bytes) : Option Md :=
  if file.length < metadataSize then none
  else if file.take 9 ≠ metaMagic then none
  else some
    { cyc := numAt file 9 1, major := numAt file 10 1, minor := numAt file 11 1, static := numAt file 12 1,
      ow := numAt file 13 1, ap := numAt file 14 1, closure := numAt file 15 1, nb := numAt file 16 8,
      num := numAt file 24 8, eff := numAt file 32 8, fileSize := numAt file 40 8, stamp := numAt file 48 8,
      dbType := numAt file 56 4, opaq := (file.drop 62).take 64, torn := numAt file 9 1 ≠ numAt file 127 1 }

/-- `GetCRCWidthFromStaticFlags` (tkrzw_dbm_hash.cc 2767-2778). -/
def crcWidth (static : Nat) : Nat :=
  if static &&& 12 = 4 then 1 else if static &&& 12 = 8 then 2 else if static &&& 12 = 12 then 4 else 0

/-- `LoadMetadata` (tkrzw_dbm_hash.cc 1313-1356): the checks. The numbers are signed in C++, so those of 2^63 or more are
refused as negative. A compressor is refused (simplification). -/
def loadMetadata (file : Bytes) : Option Md :=
  match readMetadata file with
  | none => none
  | some d =>
    if d.major < 1 ∧ d.minor < 1 then none
    else if d.static &&& 1 = 0 ∧ d.static &&& 2 = 0 then none
    else if d.static &&& 112 ≠ 0 then none
    else if d.ow < 3 ∨ d.ow > 6 then none
    else if d.ap > 16 then none
    else if d.num ≥ 2 ^ 63 ∨ d.eff ≥ 2 ^ 63 then none
    else if d.fileSize < metadataSize ∨ d.fileSize ≥ 2 ^ 63 then none
    else if d.nb < 1 ∨ d.nb > 1099511627689 then none
    else some d

/-- The configuration of an opened file. -/
def Md.cfg (d : Md) (cap : Nat) : Cfg :=
  { ow := d.ow, ap := d.ap, cw := crcWidth d.static, nb := d.nb, inPlace := d.static &&& 1 ≠ 0, fbpCap := cap }

def Md.extra (d : Md) : Extra :=
  { cyc := d.cyc, major := d.major, minor := d.minor, stamp := d.stamp, dbType := d.dbType, opaq := d.opaq }

/-- `CheckZeroRegion` (tkrzw_dbm_hash.cc 2215-2235): at most 128 KiB are looked at. -/
def zeroRegion (file : Bytes) (off : Nat) : Bool := ((file.drop off).take (128 * 1024)).all (· == 0)

/-- `Serialize` of the free block pool (tkrzw_dbm_hash_impl.cc 582-599). -/
def fbpSerialize (c : Cfg) (l : List FB) : Bytes :=
  let body := (l.reverse.take (fbpSectionSize / (c.ow + 4))).flatMap fun b =>
    writeFixNum (b.off >>> c.ap) c.ow ++ writeFixNum b.size 4
  body ++ List.replicate (fbpSectionSize - body.length) 0

/-- The loop of `Deserialize` (tkrzw_dbm_hash_impl.cc 607-616); the size is a signed 32-bit number. -/
def fbpLoop (c : Cfg) : Nat → Bytes → List FB → List FB
  | 0, _, acc => acc
  | n + 1, buf, acc =>
    let off := readFixNum buf c.ow <<< c.ap
    let size := readFixNum (buf.drop c.ow) 4
    if size < 1 ∨ size ≥ 2 ^ 31 then acc else fbpLoop c n (buf.drop (c.ow + 4)) (fbpIns ⟨off, size⟩ acc)

/-- `Deserialize` (tkrzw_dbm_hash_impl.cc 601-617). -/
def fbpDeserialize (c : Cfg) (buf : Bytes) : List FB := fbpLoop c (min (buf.length / (c.ow + 4)) c.fbpCap) buf []

/-- The offset of the section of the free block pool (tkrzw_dbm_hash.cc 1417-1433). -/
def fbpOffset (c : Cfg) : Nat := recordBase c - recordBaseHeaderSize - fbpSectionSize

/-- An opened database. -/
structure Db where
  st : State
  extra : Extra
deriving Repr, DecidableEq

/-- The part of `OpenImpl` for an existing file (tkrzw_dbm_hash.cc 1192-1237), opened as writable. `none`: an error
status. The flag says whether the database is healthy. -/
def openOld (cap : Nat) (file : Bytes) : Option (Db × Bool) :=
  match loadMetadata file with
  | none => none
  | some d =>
    let c := d.cfg cap
    let size := if d.torn then 2 ^ 63 - 1 else d.fileSize
    let closed : Bool := d.closure &&& 1 ≠ 0
    let y : Bool × Bytes :=
      if size = file.length then (closed, file)
      else if size > file.length then (false, file)
      else if zeroRegion file size then (closed, file.take size) else (false, file)
    if y.1 then
      match fwrite y.2 0 (metaBytes d.extra.next c false d.num d.eff size) with
      | none => none
      | some file =>
        if c.inPlace then
          match fread file (fbpOffset c) fbpSectionSize with
          | none => none
          | some buf => some (⟨⟨c, file, ⟨fbpDeserialize c buf, d.num, d.eff, []⟩, false⟩, d.extra.next⟩, true)
        else some (⟨⟨c, file, ⟨[], d.num, d.eff, []⟩, false⟩, d.extra.next⟩, true)
    else some (⟨⟨c, y.2, ⟨[], d.num, d.eff, []⟩, false⟩, d.extra⟩, false)

/-- `OpenImpl` as writable, with the parameters `t` for a new file (tkrzw_dbm_hash.cc 1172-1237). -/
def openImpl (x : Extra) (t : Cfg) (file : Bytes) : Option (Db × Bool) :=
  openOld t.fbpCap (if file = [] then newFile x t else file)

/-- `CloseImpl` of a healthy writable database (tkrzw_dbm_hash.cc 1239-1247): the bytes of the file afterwards. `stamp` is
the wall time. -/
def closeFile (stamp : Nat) (d : Db) : Option Bytes :=
  match fwrite d.st.file 0 (metaBytes { d.extra.next with stamp := stamp } d.st.cfg true d.st.mem.num d.st.mem.eff d.st.file.length) with
  | none => none
  | some f => fwrite f (fbpOffset d.st.cfg) (fbpSerialize d.st.cfg d.st.mem.fbp)

end Verif.Hash
