import Verif.Dbm.Linear
import Verif.File.Mmap
/-
The memory-mapped file for atomic access, `MemoryMapAtomicFile` (tkrzw_file_mmap.cc 621-1174), with any number of calls of any kind at a time.

A call is a sequence of steps; the steps of all calls are interleaved in any order. Simplified: memory is sequentially consistent and a byte is
copied in one step, in ascending order (`memcpy`); `mutex_` is a reader/writer lock (C31 is about the lock itself), and what is done with it
besides copying is one step. Sizes do not overflow 64 bits, and system calls do not fail. The file is writable.
-/
namespace Verif.MmapAtomic
open Verif Verif.Linear
open Verif.PageCache (Disk align)
open Verif.Positional (truncateDisk)
open Verif.Mmap (Cfg poke)

/-- The file on the disk, `file_size_`, `map_size_`, which of the mappings made so far `map_` is, the calls that share `mutex_`, the call
that has it exclusively, and whether memory outside the present mapping or beyond the end of the file has been touched (tkrzw_file_mmap.cc 642-651). -/
structure Mem where
  disk : Disk
  size : Nat
  map : Nat
  base : Nat
  readers : List Nat
  writer : Option Nat
  fault : Bool

/-- `MemoryMapAtomicFileImpl::Open` for writing (tkrzw_file_mmap.cc 666-756). -/
def open_ (c : Cfg) (d : Disk) : Mem :=
  let t := align (max 1 (max d.len c.init)) c.page
  ⟨truncateDisk d t, d.len, t, 0, [], none, false⟩

/-- `MemoryMapAtomicFileImpl::Close`: what is left on the disk (tkrzw_file_mmap.cc 758-809). -/
def close (m : Mem) : Disk := truncateDisk m.disk m.size

/-- `MemoryMapAtomicFileImpl::Truncate` (tkrzw_file_mmap.cc 811-838). -/
def truncate (c : Cfg) (m : Mem) (n : Nat) : Mem :=
  let t := align (max (max n c.page) c.init) c.page
  { m with disk := truncateDisk m.disk t, map := t, base := m.base + 1, size := n }

/-- `MemoryMapAtomicFileImpl::Synchronize` (tkrzw_file_mmap.cc 852-889); `msync` changes nothing that can be seen. -/
def synchronize (m : Mem) : Mem :=
  let m := if m.size ≠ m.map then { m with map := m.size, base := m.base + 1 } else m
  { m with disk := truncateDisk m.disk m.size }

/-- `AllocateSpace` (tkrzw_file_mmap.cc 956-979). -/
def grow (c : Cfg) (m : Mem) (need : Nat) : Mem :=
  if need ≤ m.map then m
  else
    let t := align (max (max need (c.scale m.map)) c.page) c.page
    { m with disk := truncateDisk m.disk t, map := t, base := m.base + 1 }

/-- SPECIFICATION: the calls. -/
inductive Call where
  | read (off n : Nat)
  | write (off : Nat) (data : Bytes)
  | append (data : Bytes)
  | expand (n : Nat)
  | truncate (n : Nat)
  | truncateFakely (n : Nat)
  | synchronize
  | getSize
  deriving DecidableEq

/-- SPECIFICATION: what calls return: bytes, an offset or a size, success, failure. -/
inductive Out where
  | got (b : Bytes)
  | num (n : Nat)
  | done
  | failed
  deriving DecidableEq

/-- Where a call is: before it has the lock, with the lock, copying at an offset through a mapping, about to give up the lock, returned. -/
inductive Pc where
  | wait
  | zone
  | copy (base off k : Nat) (buf : Bytes)
  | leave (out : Out)
  | fin
  deriving DecidableEq

structure Job where
  call : Call
  pc : Pc
  deriving DecidableEq

/-- The calls made so far, by number, and the history. -/
structure Sys where
  mem : Mem
  jobs : List Job
  hist : List (HEv Call Out)

/-- Another call is made, or a call goes on. -/
inductive Ev where
  | call (c : Call)
  | go (id : Nat)
  deriving DecidableEq

/-- Whether a call locks exclusively: a zone for writing does (tkrzw_file_mmap.cc 1117-1121), as do `Truncate` (812), `TruncateFakely` (841) and
`Synchronize` (853); `GetSize` shares the lock (892). -/
def exclusive : Call → Bool
  | .read _ _ | .getSize => false
  | _ => true

/-- The bytes that a call copies to or from the mapping (tkrzw_file_mmap.cc 1014, 1036, 1047). -/
def amount : Call → Nat
  | .read _ n => n
  | .write _ data | .append data => data.length
  | _ => 0

/-- The constructor of a zone for writing, with the lock: the room and the size (tkrzw_file_mmap.cc 1131-1140). -/
def reserve (c : Cfg) (m : Mem) (off n : Nat) : Mem :=
  let m := grow c m (off + n)
  { m with size := max m.size (off + n) }

/-- What a call does with the lock before it copies: `Read` (tkrzw_file_mmap.cc 1004-1013, 1141-1153), `Write` (1029-1035), `Append` (1040-1046),
`Expand` (1054-1065), `Truncate` (811-838), `TruncateFakely` (840-850), `Synchronize` (852-889), `GetSize` (891-898). -/
def inside (c : Cfg) (m : Mem) : Call → Mem × Pc
  | .read off n =>
    if off > m.size then (m, .leave .failed)
    else if min n (m.size - off) ≠ n then (m, .leave .failed)
    else (m, .copy m.base off 0 [])
  | .write off data => let m := reserve c m off data.length; (m, .copy m.base off 0 [])
  | .append data => let off := m.size; let m := reserve c m off data.length; (m, .copy m.base off 0 [])
  | .expand n => (reserve c m m.size n, .leave (.num m.size))
  | .truncate n => (truncate c m n, .leave .done)
  | .truncateFakely n => if n > m.map then (m, .leave .failed) else ({ m with size := n }, .leave .done)
  | .synchronize => (synchronize m, .leave .done)
  | .getSize => (m, .leave (.num m.size))

/-- What a call returns when all bytes are copied (tkrzw_file_mmap.cc 1014-1015, 1036-1037, 1047-1051). -/
def result (off : Nat) (buf : Bytes) : Call → Out
  | .read _ _ => .got buf
  | .append _ => .num off
  | _ => .done

/-- Whether a byte of a mapping can be touched. -/
def Mem.mapped (m : Mem) (base pos : Nat) : Bool := base == m.base && decide (pos < m.map) && decide (pos < m.disk.len)

/-- One byte of `memcpy`, from or to the mapping (tkrzw_file_mmap.cc 1014, 1036, 1047). -/
def copyByte (m : Mem) (cl : Call) (base off k : Nat) (buf : Bytes) : Mem × Pc :=
  if m.mapped base (off + k) then
    match cl with
    | .read _ _ => (m, .copy base off (k + 1) (buf ++ [m.disk.data (off + k)]))
    | .write _ data | .append data => ({ m with disk := poke m.disk (off + k) ((data[k]?).getD 0) }, .copy base off (k + 1) buf)
    | _ => (m, .copy base off (k + 1) buf)
  else ({ m with fault := true }, .copy base off k buf)

/-- One step of a call: locking (tkrzw_file_mmap.cc 1117-1121), the work, and unlocking (1156-1162). The last component is what the call returns, when it does. -/
def go (c : Cfg) (m : Mem) (id : Nat) (cl : Call) : Pc → Mem × Pc × Option Out
  | .wait =>
    if exclusive cl then
      if m.writer = none ∧ m.readers = [] then ({ m with writer := some id }, .zone, none) else (m, .wait, none)
    else if m.writer = none then ({ m with readers := id :: m.readers }, .zone, none)
    else (m, .wait, none)
  | .zone => let r := inside c m cl; (r.1, r.2, none)
  | .copy base off k buf =>
    if k = amount cl then (m, .leave (result off buf cl), none)
    else let r := copyByte m cl base off k buf; (r.1, r.2, none)
  | .leave out =>
    if exclusive cl then ({ m with writer := none }, .fin, some out) else ({ m with readers := m.readers.filter (· ≠ id) }, .fin, some out)
  | .fin => (m, .fin, none)

def step (c : Cfg) (s : Sys) : Ev → Sys
  | .call cl => { s with jobs := s.jobs ++ [⟨cl, .wait⟩], hist := s.hist ++ [.inv s.jobs.length cl] }
  | .go id => match s.jobs[id]? with
    | none => s
    | some j =>
      let r := go c s.mem id j.call j.pc
      ⟨r.1, s.jobs.set id ⟨j.call, r.2.1⟩, s.hist ++ (r.2.2.toList.map (HEv.ret id))⟩

def start (m : Mem) : Sys := ⟨m, [], []⟩

def run (c : Cfg) (m : Mem) (es : List Ev) : Sys := es.foldl (step c) (start m)

/-! ### Specification -/

/-- SPECIFICATION: all calls have returned. -/
def Quiet (s : Sys) : Prop := ∀ j ∈ s.jobs, j.pc = .fin

/-- SPECIFICATION: the bytes of a file on the disk. -/
def bytesOf (d : Disk) : Bytes := (List.range d.len).map d.data

/-- SPECIFICATION: `f'` has the size `n`, and the bytes of `f` as far as they go. Other bytes can be anything. -/
def Resized (f : Bytes) (n : Nat) (f' : Bytes) : Prop := f'.length = n ∧ ∀ pos, pos < n → pos < f.length → f'[pos]? = f[pos]?

/-- SPECIFICATION: a call on a file that is a sequence of bytes: the file before and after, and what is returned. Bytes between the old end of the
file and the offset of `Write`, and those that `Expand`, `Truncate` and `TruncateFakely` add, can be anything. -/
def Does (f : Bytes) (c : Call) (f' : Bytes) (r : Out) : Prop :=
  match c with
  | .read off n => f' = f ∧ r = if off + n ≤ f.length then .got ((f.drop off).take n) else .failed
  | .write off data =>
    r = .done ∧ f'.length = max f.length (off + data.length) ∧ (∀ i, i < data.length → f'[off + i]? = data[i]?) ∧
      ∀ pos, pos < f.length → ¬ (off ≤ pos ∧ pos < off + data.length) → f'[pos]? = f[pos]?
  | .append data => r = .num f.length ∧ f' = f ++ data
  | .expand n => r = .num f.length ∧ ∃ more, more.length = n ∧ f' = f ++ more
  | .truncate n => r = .done ∧ Resized f n f'
  | .truncateFakely n => (r = .done ∧ Resized f n f') ∨ (r = .failed ∧ f.length < n ∧ f' = f)
  | .synchronize => r = .done ∧ f' = f
  | .getSize => r = .num f.length ∧ f' = f

end Verif.MmapAtomic
