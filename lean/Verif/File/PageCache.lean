import Verif.Prelude.Bytes
/-
The page cache of the positional-access file (tkrzw_file_util.cc 711-1160, tkrzw_file_util.h 307-500).

One thread at a time. The map of a slot (`LinkedHashMap`, C42) is the list of its records in its own order. `read_func_` fails
when the region goes beyond the end of the file, as `PReadSequence` does (tkrzw_sys_util_posix.h 39-57); `write_func_` succeeds.
Memory that the code leaves uninitialised is filled by the parameter `junk`.
-/
namespace Verif.PageCache
open Verif

/-- The file under the cache: its size and its bytes. -/
structure Disk where
  len : Nat
  data : Nat → UInt8

/-- The bytes of a region. -/
def bytes (f : Nat → UInt8) (off size : Nat) : Bytes := (List.range size).map fun i => f (off + i)

/-- `read_func_` (tkrzw_sys_util_posix.h 39-57). -/
def Disk.read (d : Disk) (off size : Nat) : Option Bytes :=
  if size = 0 ∨ off + size ≤ d.len then some (bytes d.data off size) else none

/-- `write_func_` (tkrzw_sys_util_posix.h 67-84). -/
def Disk.write (d : Disk) (off : Nat) (bs : Bytes) : Disk :=
  ⟨if bs.length = 0 then d.len else max d.len (off + bs.length),
   fun p => if off ≤ p ∧ p < off + bs.length then (bs[p - off]?).getD 0 else d.data p⟩

/-- `PageCache::Page`; its size is the length of the buffer (tkrzw_file_util.h 399-406). -/
structure Page where
  buf : Bytes
  dirty : Bool

/-- The pages of a slot in the order of the linked map, by offset. -/
abbrev Pages := List (Nat × Page)

/-- `LinkedHashMap::Get` without moving (tkrzw_containers.h 940-990). -/
def get : Pages → Nat → Option Page
  | [], _ => none
  | (k, p) :: r, x => if k = x then some p else get r x

/-- `LinkedHashMap::Remove`. -/
def del (ps : Pages) (k : Nat) : Pages := ps.filter fun r => r.1 ≠ k

/-- `LinkedHashMap::Get` with `MOVE_LAST`. -/
def moveLast (ps : Pages) (k : Nat) : Pages :=
  match get ps k with
  | some p => del ps k ++ [(k, p)]
  | none => ps

/-- `LinkedHashMap::Set`, and the updating of a page by its address. -/
def set (ps : Pages) (k : Nat) (p : Page) : Pages :=
  match get ps k with
  | some _ => ps.map fun r => if r.1 = k then (k, p) else r
  | none => ps ++ [(k, p)]

/-- `page_size_`, `slot_capacity_` (the constructor, tkrzw_file_util.cc 711-719), and the content of fresh memory. -/
structure Env where
  page : Nat
  cap : Nat
  junk : Nat → UInt8

/-- `PageCache::PageCache` (tkrzw_file_util.cc 711-719): 16 slots share the capacity. -/
def Env.make (page capacity : Nat) (junk : Nat → UInt8) : Env := ⟨page, max (capacity / 16) 1, junk⟩

/-- The slots, the region size and the file. -/
structure State where
  slots : Nat → Pages
  region : Nat
  disk : Disk

/-- A new cache over a file (tkrzw_file_util.cc 711-719). -/
def init (d : Disk) : State := ⟨fun _ => [], 0, d⟩

/-- `PageCache::GetSlotIndex` (tkrzw_file_util.cc 988-990). -/
def slotIndex (e : Env) (off : Nat) : Nat := off / e.page / 32 % 16

def State.setSlot (s : State) (i : Nat) (ps : Pages) : State := { s with slots := fun j => if j = i then ps else s.slots j }

/-- `PageCache::PageRequest` (tkrzw_file_util.h 385-394). -/
structure Req where
  off : Nat
  pre : Nat
  size : Nat
  copy : Nat

/-- The loop of `MakePageRequest` (tkrzw_file_util.cc 977-984). `fuel` bounds the number of rounds. -/
def pageRequests (e : Env) (region : Nat) : Nat → Nat → Nat → List Req
  | 0, _, _ => []
  | fuel + 1, off, size =>
    if size = 0 then []
    else
      let copy := min size e.page
      ⟨off, 0, max copy (min (region - off) e.page), copy⟩ :: pageRequests e region fuel (off + copy) (size - copy)

/-- `PageCache::MakePageRequest` (tkrzw_file_util.cc 962-986). -/
def makeRequests (e : Env) (region off size : Nat) : List Req :=
  let rem := off % e.page
  if rem ≠ 0 then
    let copy := min size (e.page - rem)
    ⟨off - rem, rem, e.page, copy⟩ :: pageRequests e region (size - copy) (off + copy) (size - copy)
  else pageRequests e region size off size

/-- The pages right before a page that are dirty and full, at most `n` (tkrzw_file_util.cc 1097-1112). -/
def prevRun (e : Env) (ps : Pages) : Nat → Nat → Pages
  | 0, _ => []
  | n + 1, off =>
    if off < e.page then []
    else match get ps (off - e.page) with
      | some p => if p.dirty && p.buf.length == e.page then prevRun e ps n (off - e.page) ++ [(off - e.page, p)] else []
      | none => []

/-- The dirty pages from an offset on, at most `n`, up to one that is not full (tkrzw_file_util.cc 1113-1133). -/
def nextRun (e : Env) (ps : Pages) : Nat → Nat → Pages
  | 0, _ => []
  | n + 1, off =>
    match get ps off with
    | some p => if p.dirty then if p.buf.length = e.page then (off, p) :: nextRun e ps n (off + e.page) else [(off, p)] else []
    | none => []

/-- The dirty flags of some pages are cleared. -/
def clean (ps : Pages) : Pages → Pages
  | [] => ps
  | (k, p) :: run => clean (set ps k { p with dirty := false }) run

/-- The offset of the first page of a run that ends before `off` (tkrzw_file_util.cc 1111, 1134-1137). -/
def runStart (off : Nat) : Pages → Nat
  | (k, _) :: _ => k
  | [] => off

/-- `PageCache::WritePages` (tkrzw_file_util.cc 1094-1161). The case of a single page is written in the same way. -/
def writePages (e : Env) (ps : Pages) (d : Disk) (off : Nat) (p : Page) : Pages × Disk :=
  let prev := prevRun e ps 16 off
  let next := if p.buf.length = e.page then nextRun e ps 16 (off + e.page) else []
  let run := prev ++ (off, p) :: next
  (clean ps run, d.write (runStart off prev) (run.flatMap fun r => r.2.buf))

/-- The loop of `PageCache::ReduceCache`, removing `n` pages (tkrzw_file_util.cc 1076-1092). -/
def reduceN (e : Env) : Nat → Pages → Disk → Pages × Disk
  | 0, ps, d => (ps, d)
  | n + 1, ps, d =>
    match ps with
    | [] => (ps, d)
    | (k, p) :: _ =>
      let r := if p.dirty then writePages e ps d k p else (ps, d)
      reduceN e n (del r.1 k) r.2

/-- `PageCache::ReduceCache` (tkrzw_file_util.cc 1076-1092). -/
def reduce (e : Env) (s : State) (i : Nat) : State :=
  let r := reduceN e ((s.slots i).length - e.cap) (s.slots i) s.disk
  { s.setSlot i r.1 with disk := r.2 }

/-- The bytes that `PreparePage` gets from the batch, from the file or from fresh memory (tkrzw_file_util.cc 1036-1041, 1053-1062). -/
def fresh (e : Env) (d : Disk) (off size : Nat) (load : Bool) (batch : Option Bytes) : Option Bytes :=
  match batch with
  | some b => some (b.take size)
  | none => if load then d.read off size else some (bytes e.junk 0 size)

/-- `PageCache::PreparePage` (tkrzw_file_util.cc 1030-1074); `none` if the loading fails. -/
def prepare (e : Env) (ps : Pages) (d : Disk) (off size : Nat) (load : Bool) (batch : Option Bytes) : Option (Pages × Page) :=
  match get ps off with
  | none => (fresh e d off size load batch).map fun b => (set ps off ⟨b, false⟩, ⟨b, false⟩)
  | some p =>
    let ps := moveLast ps off
    if p.buf.length < size then
      (fresh e d off size load batch).map fun b =>
        let p' : Page := ⟨if p.dirty then p.buf ++ b.drop p.buf.length else b, p.dirty⟩
        (set ps off p', p')
    else some (ps, p)

/-- `memcpy` from a page. -/
def slice (b : Bytes) (off size : Nat) : Bytes := (b.drop off).take size

/-- `memcpy` into a page. -/
def overwrite (b : Bytes) (off : Nat) (data : Bytes) : Bytes := b.take off ++ data ++ b.drop (off + data.length)

/-- The first loop of `PageCache::Read`: the requests that the cache has (tkrzw_file_util.cc 742-757). -/
def readCached (e : Env) : State → List Req → Bytes → State × Bytes × List Req
  | s, [], acc => (s, acc, [])
  | s, r :: rs, acc =>
    let i := slotIndex e r.off
    let s' := s.setSlot i (moveLast (s.slots i) r.off)
    match get (s.slots i) r.off with
    | some p => if r.size ≤ p.buf.length then readCached e s' rs (acc ++ slice p.buf r.pre r.copy) else (s', acc, r :: rs)
    | none => (s', acc, r :: rs)

/-- The loop of `PageCache::Read` over the pages loaded together (tkrzw_file_util.cc 784-800). -/
def readBatch (e : Env) : State → List Req → Bytes → Bytes → State × Bytes
  | s, [], _, acc => (s, acc)
  | s, r :: rs, area, acc =>
    let i := slotIndex e r.off
    match prepare e (s.slots i) s.disk r.off r.size false (some area) with
    | some (ps, p) => readBatch e (s.setSlot i ps) rs (area.drop r.size) (acc ++ slice p.buf r.pre r.copy)
    | none => (s, acc)

/-- `LockSlots`: the slots of some requests, in ascending order (tkrzw_file_util.cc 1000-1022). -/
def slotsOf (e : Env) (rs : List Req) : List Nat := (List.range 16).filter fun i => rs.any fun r => slotIndex e r.off == i

/-- The size of the area of some requests (tkrzw_file_util.cc 778-781, 857-860). -/
def areaSize (rs : List Req) : Nat :=
  match rs.head?, rs.getLast? with
  | some a, some b => b.off + b.size - a.off
  | _, _ => 0

/-- `PageCache::Read` (tkrzw_file_util.cc 736-812); `none` if the status is not success. -/
def read (e : Env) (s : State) (off size : Nat) : State × Option Bytes :=
  let (s, acc, rest) := readCached e s (makeRequests e s.region off size) []
  match rest with
  | [] => (s, some acc)
  | [r] =>
    let i := slotIndex e r.off
    match prepare e (s.slots i) s.disk r.off r.size true none with
    | none => (s, none)
    | some (ps, p) => (reduce e (s.setSlot i ps) i, some (acc ++ slice p.buf r.pre r.copy))
  | r :: _ =>
    match s.disk.read r.off (areaSize rest) with
    | none => (s, none)
    | some area =>
      let (s', acc) := readBatch e s rest area acc
      ((slotsOf e rest).foldl (reduce e) s', some acc)

/-- The first loop of `PageCache::Write` (tkrzw_file_util.cc 820-836). -/
def writeCached (e : Env) : State → List Req → Bytes → State × Bytes × List Req
  | s, [], data => (s, data, [])
  | s, r :: rs, data =>
    let i := slotIndex e r.off
    let ps := moveLast (s.slots i) r.off
    match get (s.slots i) r.off with
    | some p =>
      if r.size ≤ p.buf.length then
        writeCached e (s.setSlot i (set ps r.off ⟨overwrite p.buf r.pre (data.take r.copy), true⟩)) rs (data.drop r.copy)
      else (s.setSlot i ps, data, r :: rs)
    | none => (s.setSlot i ps, data, r :: rs)

/-- The loop of `PageCache::Write` over the pages prepared together (tkrzw_file_util.cc 880-897). -/
def writeBatch (e : Env) : State → List Req → Bytes → Bytes → State
  | s, [], _, _ => s
  | s, r :: rs, area, data =>
    let i := slotIndex e r.off
    match prepare e (s.slots i) s.disk r.off r.size false (some area) with
    | some (ps, p) =>
      writeBatch e (s.setSlot i (set ps r.off ⟨overwrite p.buf r.pre (data.take r.copy), true⟩)) rs (area.drop r.size) (data.drop r.copy)
    | none => s

/-- The size of the leading requests that fill whole pages, which need not be loaded (tkrzw_file_util.cc 862-875). -/
def fullSize (e : Env) : List Req → Nat → Nat
  | [], _ => 0
  | r :: rs, area => if r.copy = e.page ∧ e.page ≤ area then e.page + fullSize e rs (area - e.page) else 0

/-- The content of the area before the pages are made of it (tkrzw_file_util.cc 857-879); `none` if the loading fails. -/
def loadArea (e : Env) (d : Disk) (rs : List Req) (off size : Nat) : Option Bytes :=
  let area := areaSize rs
  if off % e.page ≠ 0 ∨ size % e.page ≠ 0 then
    let skip := fullSize e rs area
    let begin_ := match rs with
      | r :: _ => r.off
      | [] => 0
    if area - skip > 0 then (d.read (begin_ + skip) (area - skip)).map fun b => bytes e.junk 0 skip ++ b
    else some (bytes e.junk 0 area)
  else some (bytes e.junk 0 area)

/-- `PageCache::Write` (tkrzw_file_util.cc 814-918) and whether it succeeded. -/
def write (e : Env) (s : State) (off : Nat) (data : Bytes) : State × Bool :=
  let (s, rdata, rest) := writeCached e s (makeRequests e s.region off data.length) data
  let done := data.length - rdata.length
  let finish := fun (s : State) (n : Nat) => { s with region := if off + n ≤ s.region then s.region else off + n }
  match rest with
  | [] => (finish s done, true)
  | [r] =>
    let i := slotIndex e r.off
    match prepare e (s.slots i) s.disk r.off r.size (r.copy ≠ r.size) none with
    | none => (finish s done, false)
    | some (ps, p) =>
      let s := s.setSlot i (set ps r.off ⟨overwrite p.buf r.pre (rdata.take r.copy), true⟩)
      (finish (reduce e s i) (done + r.copy), true)
  | _ =>
    match loadArea e s.disk rest (off + done) rdata.length with
    | none => (finish s done, false)
    | some area =>
      let s' := writeBatch e s rest area rdata
      (finish ((slotsOf e rest).foldl (reduce e) s') data.length, true)

/-- `AlignNumber` (tkrzw_sys_config.h 378-384). -/
def align (num a : Nat) : Nat := if num % a > 0 then num + (a - num % a) else num

/-- The loop over the pages of a slot, given by their offsets, that writes those dirty pages that are selected (tkrzw_file_util.cc
724-731, 931-937). -/
def flushKeys (e : Env) (sel : Nat → Bool) : List Nat → Pages → Disk → Pages × Disk
  | [], ps, d => (ps, d)
  | k :: ks, ps, d =>
    match get ps k with
    | some p =>
      if p.dirty && sel k then
        let r := writePages e ps d k p
        flushKeys e sel ks r.1 r.2
      else flushKeys e sel ks ps d
    | none => flushKeys e sel ks ps d

/-- The writing of one slot (tkrzw_file_util.cc 722-733, 928-938). -/
def flushSlot (e : Env) (sel : Nat → Bool) (s : State) (i : Nat) : State :=
  let r := flushKeys e sel ((s.slots i).map (·.1)) (s.slots i) s.disk
  { s.setSlot i r.1 with disk := r.2 }

/-- `PageCache::Flush` (tkrzw_file_util.cc 920-940). -/
def flush (e : Env) (s : State) (off size : Nat) : State :=
  let size := if size = 0 then s.region - off else size
  let hi := align (off + size) e.page
  let lo := off - off % e.page
  (List.range 16).foldl (flushSlot e fun k => decide (lo ≤ k ∧ k < hi)) s

/-- `PageCache::Clear` (tkrzw_file_util.cc 942-952). -/
def clear (s : State) : State := { s with slots := fun _ => [] }

/-- The destructor: all dirty pages are written (tkrzw_file_util.cc 721-734). -/
def destroy (e : Env) (s : State) : Disk := ((List.range 16).foldl (flushSlot e fun _ => true) s).disk

/-- `PageCache::SetRegionSize` (tkrzw_file_util.cc 958-960). -/
def setRegion (s : State) (n : Nat) : State := { s with region := n }

end Verif.PageCache
