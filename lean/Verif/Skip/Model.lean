import Verif.Prelude.OrdMap
import Verif.Codec.Num
import Verif.Codec.Serial
/-
Model of the SkipDBM record file: the bytes of a record, appending records with their skip links, reading records
back, the search over the skip links and the record cache (tkrzw_dbm_skip_impl.cc, tkrzw_dbm_skip_impl.h).

Simplifications of the whole directory: a file is its byte string; reading inside it always succeeds; the sizes which
the code keeps in 32-bit or 64-bit integers are natural numbers, except that the conversion of the stored sizes to
`int32_t` and the overflow of the whole size are kept (they give the outcome `ub`); buffers are values, so the choice
between the stack buffer, the read buffer and the heap buffer is not visible, except in whether a value is loaded.
Locks are not modelled: every function here runs under the mutex of the database.
-/
namespace Verif.Skip
open Verif

/-- The tuning parameters a record depends on: `offset_width_`, `step_unit_`, `max_level_`
(tkrzw_dbm_skip_impl.h 201-205). -/
structure Cfg where
  w : Nat
  step : Nat
  maxLevel : Nat
deriving DecidableEq, Repr

/-- The outcome of reading: a result, BROKEN_DATA_ERROR or the error of a short read, undefined behaviour, or a loop
which does not end. -/
inductive Rd (α : Type) where
  | ok (a : α)
  | broken
  | ub
  | hang
deriving DecidableEq, Repr

namespace Rd
/-- Go on if the result is good (the `if (status != Status::SUCCESS) return status;` idiom,
e.g. tkrzw_dbm_skip_impl.cc 85-88). -/
def bind {α β : Type} : Rd α → (α → Rd β) → Rd β
  | .ok a, f => f a
  | .broken, _ => .broken
  | .ub, _ => .ub
  | .hang, _ => .hang

instance : Monad Rd where
  pure := .ok
  bind := bind

@[simp] theorem bind_ok {α β : Type} (a : α) (f : α → Rd β) : (Rd.ok a >>= f) = f a := rfl
@[simp] theorem pure_eq {α : Type} (a : α) : (pure a : Rd α) = .ok a := rfl
end Rd

/-- METADATA_SIZE (tkrzw_dbm_skip.cc 32). -/
def metadataSize : Nat := 128

/-- RECORD_MAGIC (tkrzw_dbm_skip_impl.h 197). -/
def recordMagic : UInt8 := 0xFF

/-- READ_DATA_SIZE (tkrzw_dbm_skip_impl.h 193). -/
def readDataSize : Nat := 32

/-- MAX_MEMORY_SIZE (tkrzw_lib_common.h 125). -/
def maxMemorySize : Nat := 2 ^ 40

/-- The level of a record: how often its index can be divided by the step unit, at most the maximum level
(tkrzw_dbm_skip_impl.cc 69-74 and 199-204, also 245-249; the first argument is the room left up to the maximum level). -/
def levelOf (step : Nat) : Nat → Nat → Nat
  | 0, _ => 0
  | m + 1, index => if index % step = 0 then levelOf step m (index / step) + 1 else 0

/-- SkipRecord::level_ of the record at an index (tkrzw_dbm_skip_impl.cc 69-74). -/
def Cfg.level (c : Cfg) (index : Nat) : Nat := levelOf c.step c.maxLevel index

/-- A record in memory (tkrzw_dbm_skip_impl.h 199-230). `skips` holds the first `level_` skip offsets, the rest is
never used; `value` is `none` while the value is not loaded. -/
structure Rec where
  offset : Nat
  index : Nat
  level : Nat
  skips : List Nat
  whole : Nat
  keySize : Nat
  valueSize : Nat
  key : Bytes
  value : Option Bytes
  bodyOffset : Nat
deriving DecidableEq, Repr

/-- The bytes of a record with given skip offsets (tkrzw_dbm_skip_impl.cc 217-226, with the offsets which
UpdatePastRecords 235-265 puts in). -/
def recBytes (w : Nat) (skips : List Nat) (key value : Bytes) : Bytes :=
  recordMagic :: (skips.flatMap (fun o => Codec.writeFixNum o w) ++ Codec.writeVarNum key.length ++
    Codec.writeVarNum value.length ++ key ++ value)

/-- The whole size of a record (tkrzw_dbm_skip_impl.cc 205-206). -/
def wholeSize (c : Cfg) (index : Nat) (key value : Bytes) : Nat :=
  1 + c.w * c.level index + Codec.sizeVarNum key.length + Codec.sizeVarNum value.length + key.length + value.length

/-- Reading `n` fixed-width numbers (tkrzw_dbm_skip_impl.cc 100-104). -/
def readFields (w : Nat) : Nat → Bytes → List Nat
  | 0, _ => []
  | n + 1, s => Codec.readFixNum s w :: readFields w n (s.drop w)

/-- File::Read: the bytes of a region of the file, or an error if the region is not inside it
(as used in tkrzw_dbm_skip_impl.cc 88 and 160). -/
def readAt (F : Bytes) (off n : Nat) : Rd Bytes :=
  if off + n ≤ F.length then .ok ((F.drop off).take n) else .broken

/-- SkipRecord::ReadBody (tkrzw_dbm_skip_impl.cc 156-167): the record with the key and the value loaded. -/
def readBody (F : Bytes) (r : Rec) : Rd Rec := do
  let b ← readAt F r.bodyOffset (r.keySize + r.valueSize)
  pure { r with key := b.take r.keySize, value := some (b.drop r.keySize) }

/-- The end of SkipRecord::ReadMetadataKey (tkrzw_dbm_skip_impl.cc 132-153), once the sizes are known: the key and
the value are in the window that was read, or the body is read separately. `s` is what is left of the window. -/
def loadBody (F : Bytes) (r : Rec) (s : Bytes) : Rd Rec :=
  if r.keySize ≤ s.length then
    .ok { r with
      key := s.take r.keySize
      value := if r.valueSize ≤ (s.drop r.keySize).length then some ((s.drop r.keySize).take r.valueSize) else none }
  else if F.length < r.offset + r.whole then .broken
  else readBody F r

/-- The middle of SkipRecord::ReadMetadataKey (tkrzw_dbm_skip_impl.cc 108-134): the sizes. A stored size is converted
to `int32_t`; a negative size or a sum which does not fit makes the later uses undefined. -/
def loadSizes (c : Cfg) (F : Bytes) (off index level maxRead : Nat) (skips : List Nat) (s : Bytes) : Rd Rec :=
  match Codec.readVarNum s with
  | none => .broken
  | some (kn, st) =>
    if (maxRead : Int) < Codec.toInt32 kn then .broken
    else match Codec.readVarNum (s.drop st) with
      | none => .broken
      | some (vn, st2) =>
        if (maxRead : Int) < Codec.toInt32 vn then .broken
        else if Codec.toInt32 kn < 0 ∨ Codec.toInt32 vn < 0 then .ub
        else
          let ks := (Codec.toInt32 kn).toNat
          let vs := (Codec.toInt32 vn).toNat
          let header := 1 + c.w * level + Codec.sizeVarNum ks + Codec.sizeVarNum vs
          if 2 ^ 31 ≤ header + ks + vs then .ub
          else loadBody F (Rec.mk off index level skips (header + ks + vs) ks vs [] none (off + header))
            ((s.drop st).drop st2)

/-- SkipRecord::ReadMetadataKey (tkrzw_dbm_skip_impl.cc 68-154). -/
def readMetadataKey (c : Cfg) (F : Bytes) (off index : Nat) : Rd Rec :=
  let level := c.level index
  let minSize := 1 + c.w * level + 2
  let maxRead := min (F.length - off) maxMemorySize
  if maxRead < minSize then .broken
  else
    let win := (F.drop off).take (min maxRead (minSize + readDataSize))
    if win.head? ≠ some recordMagic then .broken
    else if (win.drop 1).length < c.w * level then .broken
    else loadSizes c F off index level maxRead (readFields c.w level (win.drop 1)) ((win.drop 1).drop (c.w * level))

/-- SkipRecord::GetValue with ReadBody when the value is not loaded (the idiom of tkrzw_dbm_skip.cc 1454-1461). -/
def loadValue (F : Bytes) (r : Rec) : Rd Bytes :=
  match r.value with
  | some v => .ok v
  | none => do
    let r' ← readBody F r
    pure (r'.value.getD [])

/-- File::Write inside the file. -/
def overwrite (F : Bytes) (pos : Nat) (b : Bytes) : Bytes := F.take pos ++ b ++ F.drop (pos + b.length)

/-- The loop of SkipRecord::UpdatePastRecords (tkrzw_dbm_skip_impl.cc 237-260). The arguments are the number of levels
left, the level `i`, `past_index_diff` before its multiplication, and the file. -/
def patchPast (c : Cfg) (index offset : Nat) (past : List Nat) : Nat → Nat → Nat → Bytes → Bytes
  | 0, _, _, F => F
  | n + 1, i, diff, F =>
    if past.getD i 0 = 0 then patchPast c index offset past n (i + 1) (diff * c.step) F
    else if c.level (index - diff * c.step) < i then F
    else patchPast c index offset past n (i + 1) (diff * c.step)
      (overwrite F (past.getD i 0 + 1 + i * c.w) (Codec.writeFixNum offset c.w))

/-- A file to which records are being appended, with `record_index_` and `past_offsets_`
(tkrzw_dbm_skip.cc 1431-1447). -/
structure Writer where
  file : Bytes
  index : Nat
  past : List Nat
deriving DecidableEq, Repr

/-- A new record file: the metadata and nothing else (tkrzw_dbm_skip.cc 1239-1245 and 1291-1301). -/
def Writer.new (c : Cfg) (md : Bytes) : Writer := ⟨md, 0, List.replicate c.maxLevel 0⟩

/-- SkipDBMImpl::WriteRecord with SkipRecord::SetData, Write and UpdatePastRecords (tkrzw_dbm_skip.cc 1431-1447,
tkrzw_dbm_skip_impl.cc 197-265), without the counters of the database. -/
def Writer.write (c : Cfg) (W : Writer) (key value : Bytes) : Writer :=
  let level := c.level W.index
  let offset := W.file.length
  { file := patchPast c W.index offset W.past level 0 1
      (W.file ++ recBytes c.w (List.replicate level 0) key value)
    index := W.index + 1
    past := List.replicate level offset ++ W.past.drop level }

/-- The end of a serialized record: whether the value is there, the key, and the value (tkrzw_dbm_skip_impl.cc
418-429). -/
def serializedTail (key : Bytes) : Option Bytes → Bytes
  | none => 0 :: key
  | some v => 1 :: (key ++ v)

/-- SkipRecord::Serialize (tkrzw_dbm_skip_impl.cc 404-431). The skip offsets are copied as memory; here they are
written as 8-byte numbers. -/
def Rec.serialize (c : Cfg) (r : Rec) : Bytes :=
  Codec.writeFixNum r.offset c.w ++ Codec.writeVarNum r.level ++ r.skips.flatMap (fun o => Codec.writeFixNum o 8) ++
    Codec.writeVarNum r.keySize ++ Codec.writeVarNum r.valueSize ++ serializedTail r.key r.value

/-- ReadVarNum with the limit of six bytes and the number it leaves at failure
(tkrzw_dbm_skip_impl.cc 437-448). -/
def readVar6 (s : Bytes) : Nat × Bytes :=
  match Codec.readVarNum (s.take 6) with
  | some (n, st) => (n, s.drop st)
  | none => (0, s)

/-- SkipRecord::Deserialize (tkrzw_dbm_skip_impl.cc 433-485). -/
def deserialize (c : Cfg) (index : Nat) (s : Bytes) : Rec :=
  let offset := Codec.readFixNum s c.w
  let (level, s1) := readVar6 (s.drop c.w)
  let skips := readFields 8 level s1
  let (ks, s2) := readVar6 (s1.drop (8 * level))
  let (vs, s3) := readVar6 s2
  let body := s3.drop 1
  let header := 1 + c.w * level + Codec.sizeVarNum ks + Codec.sizeVarNum vs
  { offset := offset
    index := index
    level := level
    skips := skips
    whole := header + ks + vs
    keySize := ks
    valueSize := vs
    key := body.take ks
    value := if s3.head? = some 0 then none else some ((body.drop ks).take vs)
    bodyOffset := offset + header }

/-- SkipRecordCache (tkrzw_dbm_skip_impl.h 232-271): a slot for every `unit`-th record. -/
structure Cache where
  unit : Nat
  slots : List (Option Bytes)
deriving DecidableEq, Repr

/-- The loop of the constructor (tkrzw_dbm_skip_impl.cc 492-495); the first argument bounds the number of rounds. -/
def cacheUnit (step capacity num : Nat) : Nat → Nat → Nat
  | 0, unit => unit
  | n + 1, unit => if capacity < num / unit then cacheUnit step capacity num n (unit * step) else unit

/-- SkipRecordCache::SkipRecordCache (tkrzw_dbm_skip_impl.cc 490-501). -/
def Cache.new (step capacity num : Nat) : Cache :=
  let unit := cacheUnit step capacity num num 1
  ⟨unit, List.replicate (max (num / unit) 1) none⟩

/-- SkipRecordCache::PrepareRecord (tkrzw_dbm_skip_impl.cc 510-521). -/
def Cache.prepare (c : Cfg) (cc : Cache) (index : Nat) : Option Rec :=
  if index % cc.unit ≠ 0 ∨ cc.slots.length ≤ index / cc.unit then none
  else match cc.slots[index / cc.unit]? with
    | some (some s) => some (deserialize c index s)
    | _ => none

/-- SkipRecordCache::Add (tkrzw_dbm_skip_impl.cc 523-533). -/
def Cache.add (c : Cfg) (cc : Cache) (r : Rec) : Cache :=
  if r.index % cc.unit ≠ 0 ∨ cc.slots.length ≤ r.index / cc.unit then cc
  else match cc.slots[r.index / cc.unit]? with
    | some none => { cc with slots := cc.slots.set (r.index / cc.unit) (some (r.serialize c)) }
    | _ => cc

/-- PrepareRecord, or ReadMetadataKey followed by Add (the idiom of tkrzw_dbm_skip_impl.cc 275-281, 303-309 and
330-336). -/
def fetch (c : Cfg) (F : Bytes) (cc : Cache) (off index : Nat) : Cache × Rd Rec :=
  match cc.prepare c index with
  | some r => (cc, .ok r)
  | none =>
    match readMetadataKey c F off index with
    | .ok r => (cc.add c r, .ok r)
    | e => (cc, e)

/-- What to do at a record which a skip link points to: go there, cut the range before it, or neither. -/
inductive Move where
  | go
  | narrow
  | stay
deriving DecidableEq, Repr

/-- What to do at the current record: return it, leave the loop, or go on. -/
inductive Stop where
  | found
  | leave
  | next
deriving DecidableEq, Repr

/-- The questions in which SkipRecord::Search and SkipRecord::SearchByIndex differ. -/
structure Probe where
  move : Nat → Rec → Move
  stop : Nat → Rec → Stop

/-- The comparisons of SkipRecord::Search (tkrzw_dbm_skip_impl.cc 283-289 and 310-322). -/
def probeKey (key : Bytes) : Probe where
  move := fun _ r => if bytesLt r.key key then .go else if bytesLt key r.key then .narrow else .stay
  stop := fun _ r => if r.key = key then .found else if bytesLt key r.key then .leave else .next

/-- The comparisons of SkipRecord::SearchByIndex (tkrzw_dbm_skip_impl.cc 357-359 and 380-389). -/
def probeIndex (index : Nat) : Probe where
  move := fun i _ => if i ≤ index then .go else .narrow
  stop := fun i _ => if i = index then .found else .next

/-- The loop over the levels of the current record (tkrzw_dbm_skip_impl.cc 292-323 and 362-390), from the given level
down: the new end of the range and, if a link was taken, the offset, the index and the
record it leads to. -/
def tryLevels (c : Cfg) (F : Bytes) (p : Probe) (index : Nat) (skips : List Nat) :
    Nat → Cache → Nat → Cache × Rd (Nat × Option (Nat × Nat × Rec))
  | 0, cc, e => (cc, .ok (e, none))
  | l + 1, cc, e =>
    let next := skips.getD l 0
    if next = 0 ∨ e ≤ next then tryLevels c F p index skips l cc e
    else
      match fetch c F cc next (index + c.step ^ (l + 1)) with
      | (cc, .ok r) =>
        match p.move (index + c.step ^ (l + 1)) r with
        | .go => (cc, .ok (e, some (next, index + c.step ^ (l + 1), r)))
        | .narrow => tryLevels c F p index skips l cc next
        | .stay => tryLevels c F p index skips l cc e
      | (cc, .broken) => (cc, .broken)
      | (cc, .ub) => (cc, .ub)
      | (cc, .hang) => (cc, .hang)

/-- The record the main loop looks at: the one which is already read (`rec_ready`), or a new one
(tkrzw_dbm_skip_impl.cc 274-282 and 348-356). -/
def current (c : Cfg) (F : Bytes) (cc : Cache) (off index : Nat) : Option Rec → Cache × Rd Rec
  | some r => (cc, .ok r)
  | none => fetch c F cc off index

/-- How the main loop of a search ends: with a record, or at a position. -/
inductive LoopEnd where
  | hit (r : Rec)
  | out (off index : Nat)
deriving DecidableEq, Repr

/-- The main loop of SkipRecord::Search and SkipRecord::SearchByIndex (tkrzw_dbm_skip_impl.cc 269-328 and 343-395).
A link may lead backwards in a broken file, so the number
of rounds is bounded and running out of rounds is the outcome `hang`. -/
def searchLoop (c : Cfg) (F : Bytes) (p : Probe) : Nat → Cache → Nat → Nat → Nat → Option Rec → Cache × Rd LoopEnd
  | 0, cc, _, _, _, _ => (cc, .hang)
  | n + 1, cc, off, index, e, ready =>
    if e ≤ off then (cc, .ok (.out off index))
    else
      match current c F cc off index ready with
      | (cc, .ok r) =>
        match p.stop index r with
        | .found => (cc, .ok (.hit r))
        | .leave => (cc, .ok (.out off index))
        | .next =>
          match tryLevels c F p index r.skips r.level cc e with
          | (cc, .ok (e, some (noff, nindex, nr))) => searchLoop c F p n cc noff nindex e (some nr)
          | (cc, .ok (e, none)) => searchLoop c F p n cc (off + r.whole) (index + 1) e none
          | (cc, .broken) => (cc, .broken)
          | (cc, .ub) => (cc, .ub)
          | (cc, .hang) => (cc, .hang)
      | (cc, .broken) => (cc, .broken)
      | (cc, .ub) => (cc, .ub)
      | (cc, .hang) => (cc, .hang)

/-- SkipRecord::Search (tkrzw_dbm_skip_impl.cc 267-340): the record, or `none` for NOT_FOUND_ERROR. -/
def search (c : Cfg) (F : Bytes) (cc : Cache) (key : Bytes) (upper : Bool) : Cache × Rd (Option Rec) :=
  match searchLoop c F (probeKey key) (F.length + 1) cc metadataSize 0 F.length none with
  | (cc, .ok (.hit r)) => (cc, .ok (some r))
  | (cc, .ok (.out off index)) =>
    if upper ∧ off < F.length then
      match fetch c F cc off index with
      | (cc, .ok r) => (cc, .ok (some r))
      | (cc, .broken) => (cc, .broken)
      | (cc, .ub) => (cc, .ub)
      | (cc, .hang) => (cc, .hang)
    else (cc, .ok none)
  | (cc, .broken) => (cc, .broken)
  | (cc, .ub) => (cc, .ub)
  | (cc, .hang) => (cc, .hang)

/-- SkipRecord::SearchByIndex (tkrzw_dbm_skip_impl.cc 342-397). -/
def searchByIndex (c : Cfg) (F : Bytes) (cc : Cache) (index : Nat) : Cache × Rd (Option Rec) :=
  match searchLoop c F (probeIndex index) (F.length + 1) cc metadataSize 0 F.length none with
  | (cc, .ok (.hit r)) => (cc, .ok (some r))
  | (cc, .ok (.out _ _)) => (cc, .ok none)
  | (cc, .broken) => (cc, .broken)
  | (cc, .ub) => (cc, .ub)
  | (cc, .hang) => (cc, .hang)

/-- Reading all the records of a file in order, from an offset and an index (the loop of ProcessEach,
tkrzw_dbm_skip.cc 610-630; the same loop is in Rebuild 767-791, RestoreDatabase 2165-2186 and, step by step, in
RecordSorter::Get). -/
def scanFrom (c : Cfg) (F : Bytes) : Nat → Nat → Nat → Rd (List (Bytes × Bytes))
  | 0, _, _ => .hang
  | n + 1, off, index =>
    if F.length ≤ off then .ok []
    else do
      let r ← readMetadataKey c F off index
      let v ← loadValue F r
      let rest ← scanFrom c F n (off + r.whole) (index + 1)
      pure ((r.key, v) :: rest)

/-- All the records of a file (tkrzw_dbm_skip.cc 610-630). -/
def scan (c : Cfg) (F : Bytes) : Rd (List (Bytes × Bytes)) := scanFrom c F (F.length + 1) metadataSize 0

end Verif.Skip
