import Verif.Codec.NumProps
import Verif.Hashing.Checksum
import Verif.File.Flat
/-
The message queue (tkrzw_message_queue.h, tkrzw_message_queue.cc).

All methods of a queue and of its readers hold one mutex, so the calls are atomic steps.  The files of a queue are the
list of their contents in the order of the file ids, which start at 0 (ids up to 10^10 - 1: `FindFiles` sorts the names
as text).  I/O failures are not modelled.  A `Read` that waits is modelled by its attempts: an attempt that finds nothing
has the outcome INFEASIBLE_ERROR.
-/
namespace Verif.Mq
open Verif Verif.Codec Verif.Checksum

/-- The header of a record: magic, timestamp, size (tkrzw_message_queue.cc 422-426). -/
def header (ts : Nat) (msg : Bytes) : Bytes := 0xFF :: (writeFixNum ts 6 ++ writeFixNum msg.length 4)

/-- A record as written by `WriteImpl` (tkrzw_message_queue.cc 418-434): the header, the message and the checksum. -/
def record (ts : Nat) (msg : Bytes) : Bytes :=
  header ts msg ++ msg ++ [byte (checksum8 (header ts msg ++ msg) true 0 + 1)]

/-- The metadata block of `SaveMetadata` (tkrzw_message_queue.cc 318-331). -/
def metaBlock (cyclic id ts size : Nat) : Bytes :=
  [0x54, 0x6B, 0x72, 0x7A, 0x77, 0x4D, 0x51, 0x58, 0x0A] ++ writeFixNum cyclic 1 ++ writeFixNum id 6 ++
    writeFixNum ts 6 ++ writeFixNum size 6 ++ [0, 0, 0] ++ writeFixNum cyclic 1

/-- `SaveMetadata` (tkrzw_message_queue.cc 318-331): the first 32 bytes are overwritten. -/
def saveMeta (file : Bytes) (cyclic id ts : Nat) : Bytes :=
  metaBlock cyclic id ts (max file.length 32) ++ file.drop 32

/-- The numbers read by `LoadMetadata`. `cyclic` is `none` if the two copies differ (-1 in the code). -/
structure Info where
  cyclic : Option Nat
  id : Nat
  ts : Nat
  size : Nat
deriving DecidableEq, Repr

/-- `LoadMetadata` (tkrzw_message_queue.cc 333-354). -/
def loadMeta (file : Bytes) : Except Code Info :=
  match Flat.readAt file 0 32 with
  | none => .error .infeasible
  | some m =>
    if m.take 9 ≠ [0x54, 0x6B, 0x72, 0x7A, 0x77, 0x4D, 0x51, 0x58, 0x0A] then .error .brokenData
    else
      .ok {
        cyclic := if readFixNum (m.drop 9) 1 ≠ readFixNum (m.drop 31) 1 then none else some (readFixNum (m.drop 9) 1)
        id := readFixNum (m.drop 10) 6
        ts := readFixNum (m.drop 16) 6
        size := readFixNum (m.drop 22) 6 }

/-- `CheckFileZeroRegion` (tkrzw_message_queue.cc 101-120): only the first 128 KiB are checked. -/
def zeroRegion (file : Bytes) (off end_ : Nat) : Bool :=
  ((file.drop off).take (min (off + 128 * 1024) end_ - off)).all (· = 0)

/-- The outcome of `ReadNextMessage`: the timestamp, and the message unless it was passed over because the timestamp is
lower than the minimum. -/
abbrev Got := Except Code (Nat × Option Bytes)

/-- `MessageQueue::ReadNextMessage` (tkrzw_message_queue.cc 663-723). Result: the new offset and the outcome. -/
def readNext (file : Bytes) (off : Nat) (minTs : Int) : Nat × Got :=
  let off := if off ≤ 32 then 32 else off
  match Flat.readAt file off 11 with
  | none => (off, .error .infeasible)
  | some h =>
    if h.head? ≠ some 0xFF then
      if h.all (· = 0) then
        if file.length > off ∧ zeroRegion file off file.length = false then (off, .error .brokenData)
        else (off, .error .canceled)
      else (off, .error .brokenData)
    else
      let ts := readFixNum (h.drop 1) 6
      let size := readFixNum (h.drop 7) 4
      if size = 2 ^ 32 - 1 then (off, .error .brokenData)
      else if (ts : Int) ≥ minTs then
        match Flat.readAt file (off + 11) (size + 1) with
        | none => (off + 11, .error .infeasible)
        | some b =>
          let msg := b.take size
          if (b.drop size).map (·.toNat) ≠ [checksum8Pair h msg 0 + 1] then
            (off + 11 + (size + 1), .error .brokenData)
          else (off + 11 + (size + 1), .ok (ts, some msg))
      else (off + 11 + (size + 1), .ok (ts, none))

/-- The state of an opened, writable `MessageQueueImpl`. -/
structure State where
  files : List Bytes
  ts : Nat
  cyclic : Nat
  maxSize : Int
  hard : Bool
deriving DecidableEq, Repr

def State.lastId (q : State) : Nat := q.files.length - 1

/-- `SynchronizeImpl` (tkrzw_message_queue.cc 362-371): the metadata of the last file are saved. -/
def State.sync (q : State) : State :=
  let c := q.cyclic % 255 + 1
  { q with cyclic := c
           files := q.files.dropLast ++ [saveMeta (q.files.getLastD []) c q.lastId q.ts] }

/-- `Open` when there is no file (tkrzw_message_queue.cc 133-180). -/
def State.new (maxSize : Int) (hard : Bool) : State := State.sync ⟨[[]], 0, 0, maxSize, hard⟩

/-- `WriteImpl` (tkrzw_message_queue.cc 383-440), and the synchronization in `Write` (280-286). -/
def State.writeImpl (q : State) (ts : Nat) (msg : Bytes) : State :=
  let q :=
    if ((q.files.getLastD []).length : Int) ≥ q.maxSize then
      let q := q.sync
      State.sync { q with files := q.files ++ [[]] }
    else q
  let q := { q with ts := max ts q.ts }
  let q := { q with files := q.files.dropLast ++ [q.files.getLastD [] ++ record q.ts msg] }
  if q.hard then q.sync else q

/-- `Write` (tkrzw_message_queue.cc 266-291). `now` is the wall time in milliseconds. -/
def State.write (q : State) (ts : Int) (now : Nat) (msg : Bytes) : State × Code :=
  let ts := if ts < 0 then (now : Int) else ts
  if ts ≥ 2 ^ 48 - 1 then (q, .invalidArgument) else (q.writeImpl ts.toNat msg, .success)

/-- `UpdateTimestamp` (tkrzw_message_queue.cc 293-303). -/
def State.updateTimestamp (q : State) (ts : Int) (now : Nat) : State × Code :=
  let ts := if ts < 0 then (now : Int) else ts
  if ts ≥ 2 ^ 48 - 1 then (q, .invalidArgument) else ({ q with ts := max ts.toNat q.ts }, .success)

/-- `MessageQueueReaderImpl` (tkrzw_message_queue.cc 80-99): `file` is `file_id_`, `offset` is `file_offset_` if the file
is opened. -/
structure Reader where
  minTs : Int
  file : Option Nat
  offset : Option Nat
deriving DecidableEq, Repr

def Reader.new (minTs : Int) : Reader := ⟨minTs, none, none⟩

/-- The search for the first file in `Read` (tkrzw_message_queue.cc 472-491). -/
def findFile (minTs : Int) : List Bytes → Except Code (Option Nat)
  | [] => .ok none
  | f :: fs =>
    match loadMeta f with
    | .error c => .error c
    | .ok i => if (i.ts : Int) ≥ minTs then .ok (some i.id) else findFile minTs fs

/-- The loop of `MessageQueueReaderImpl::Read` (tkrzw_message_queue.cc 462-552) behind the search for the file. `none`
would be a loop that does not end within the fuel. Reading a file that does not exist gives NOT_FOUND_ERROR. -/
def readLoop (q : State) : Nat → Reader → Nat → Option (Reader × Except Code (Nat × Bytes))
  | 0, _, _ => none
  | fuel + 1, r, id =>
    match q.files[id]? with
    | none => some (r, .error .notFound)
    | some f =>
      let off := r.offset.getD 32
      let r := { r with offset := some off }
      if off + 11 > f.length then
        if id = q.lastId then some (r, .error .infeasible)
        else readLoop q fuel { r with file := some (id + 1), offset := none } (id + 1)
      else
        match readNext f off r.minTs with
        | (off, .error c) => some ({ r with offset := some off }, .error c)
        | (off, .ok (ts, msg)) =>
          let r := { r with offset := some off }
          if (ts : Int) ≥ r.minTs then some (r, .ok (ts, msg.getD [])) else readLoop q fuel r id

/-- The total size of the files bounds the number of iterations. -/
def State.fuel (q : State) : Nat := (q.files.map List.length).sum + q.files.length + 1

/-- One attempt of `MessageQueueReaderImpl::Read` (tkrzw_message_queue.cc 462-552), with a queue that is not cancelled
nor closed. -/
def Reader.read (q : State) (r : Reader) : Option (Reader × Except Code (Nat × Bytes)) :=
  match r.file with
  | some id => readLoop q q.fuel r id
  | none =>
    match findFile r.minTs q.files with
    | .error c => some (r, .error c)
    | .ok i =>
      let id := i.getD q.lastId
      readLoop q q.fuel { r with file := some id } id

/-- The scan of the last file in `Open` (tkrzw_message_queue.cc 216-222): the offset behind the last message found. -/
def scanEnd (file : Bytes) : Nat → Nat → Nat
  | 0, off => off
  | fuel + 1, off =>
    match readNext file off (2 ^ 63 - 1) with
    | (off, .ok _) => scanEnd file fuel off
    | (off, .error _) => off

/-- `Truncate` (File): cut, or extended by zeros. -/
def truncate (file : Bytes) (size : Nat) : Bytes := file.take size ++ List.replicate (size - file.length) 0

/-- `Open` of existing files for writing (tkrzw_message_queue.cc 133-245). The retries on an inconsistent cyclic magic
(made for other processes that are writing) are not modelled. -/
def openQueue (files : List Bytes) (maxSize : Int) (hard ignoreBroken : Bool) : Except Code State :=
  let f := files.getLastD []
  match loadMeta f with
  | .error c => .error c
  | .ok i =>
    let bad := i.cyclic = none ∨ i.id ≠ files.length - 1
    if bad ∧ ignoreBroken = false then .error .brokenData
    else
      let q (f : Bytes) : State := ⟨files.dropLast ++ [f], i.ts, i.cyclic.getD 0, maxSize, hard⟩
      if ¬ bad ∧ i.size = f.length then .ok (q f)
      else
        let n := scanEnd f f.length 32
        if n = f.length ∨ ignoreBroken ∨ (n < f.length ∧ zeroRegion f n f.length) then .ok (q (truncate f n))
        else .error .brokenData

/-- `MessageQueue::RemoveOldFiles` (tkrzw_message_queue.cc 631-661): the files that remain. -/
def removeOld (threshold : Int) (excludeLatest : Bool) : List Bytes → Except Code (List Bytes)
  | [] => .ok []
  | f :: fs =>
    if excludeLatest ∧ fs = [] then .ok [f]
    else
      match loadMeta f with
      | .error c => .error c
      | .ok i =>
        match removeOld threshold excludeLatest fs with
        | .error c => .error c
        | .ok rest => .ok (if (i.ts : Int) < threshold then rest else f :: rest)

end Verif.Mq
