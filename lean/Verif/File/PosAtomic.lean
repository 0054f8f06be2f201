import Verif.File.MmapAtomic
/-
The positional file for atomic access, `PositionalAtomicFile` (tkrzw_file_pos.cc 759-1357), with any number of calls of any kind at a time. The calls, what they
return and the specification are those of `MemoryMapAtomicFile` (Verif.File.MmapAtomic).

A call is a sequence of steps; the steps of all calls are interleaved in any order. `pread` and `pwrite` transfer as many bytes as they like at a time, so each
byte is a step. Simplified: the access strategy is the default one (blocks of one byte, no cache of pages, no direct access), there is no head buffer; `mutex_` is a reader/writer lock (C31 is about the lock itself), and what is done with it besides reading and
writing bytes is one step. Sizes do not overflow 64 bits, and system calls do not fail, except that reading beyond the end of the file does. The file is writable.
-/
namespace Verif.PosAtomic
open Verif Verif.Linear
open Verif.PageCache (Disk align)
open Verif.Positional (truncateDisk)
open Verif.Mmap (Cfg)
open Verif.MmapAtomic (Call Out Ev Resized Does bytesOf)

/-- The size of a page, `alloc_init_size_`, how `alloc_inc_factor_` multiplies, and whether it is zero or less (tkrzw_file_pos.cc 801-802, 1051, 1165-1173). -/
structure Conf extends Cfg where
  fit : Bool

/-- The file on the disk, `file_size_`, `trunc_size_`, the calls that share `mutex_` and the call that has it exclusively (tkrzw_file_pos.cc 791-804). -/
structure Mem where
  disk : Disk
  size : Nat
  map : Nat
  readers : List Nat
  writer : Option Nat

/-- `PositionalAtomicFileImpl::Open` for writing (tkrzw_file_pos.cc 821-923). -/
def open_ (c : Conf) (d : Disk) : Mem :=
  let t := align (max d.len c.init) c.page
  ⟨truncateDisk d t, d.len, t, [], none⟩

/-- `PositionalAtomicFileImpl::Close`: what is left on the disk (tkrzw_file_pos.cc 925-986). -/
def close (m : Mem) : Disk := truncateDisk m.disk m.size

/-- `PositionalAtomicFileImpl::Truncate` (tkrzw_file_pos.cc 1037-1066). -/
def truncate (c : Conf) (m : Mem) (n : Nat) : Mem :=
  let t := if c.fit then max n c.init else align (max (max n c.page) c.init) c.page
  { m with disk := truncateDisk m.disk t, map := t, size := n }

/-- `PositionalAtomicFileImpl::Synchronize` (tkrzw_file_pos.cc 1080-1114); `fsync` changes nothing that can be seen. -/
def synchronize (m : Mem) : Mem := { m with map := m.size, disk := truncateDisk m.disk m.size }

/-- `PositionalAtomicFileImpl::AllocateSpace` (tkrzw_file_pos.cc 1236-1256). -/
def grow (c : Conf) (m : Mem) (need : Nat) : Mem :=
  if need ≤ m.map then m
  else if c.fit then { m with map := need }
  else
    let t := align (max need (c.scale m.map)) c.page
    { m with disk := truncateDisk m.disk t, map := t }

/-- Where a call is: before it has the lock, with the lock, reading or writing at an offset, about to give up the lock, returned. -/
inductive Pc where
  | wait
  | zone
  | copy (off k : Nat) (buf : Bytes)
  | leave (out : Out)
  | fin
  deriving DecidableEq

structure Job where
  call : Call
  pc : Pc
  deriving DecidableEq

/-- The calls made so far, by number, and the history. -/
structure Sys where
  mem : Mem
  jobs : List Job
  hist : List (HEv Call Out)

/-- Whether a call locks exclusively: `Write` (tkrzw_file_pos.cc 997), `Append` and `Expand` (1014), `Truncate` (1038), `TruncateFakely` (1069) and
`Synchronize` (1081) do; `Read` (989) and `GetSize` (1117) share the lock. -/
def exclusive : Call → Bool
  | .read _ _ | .getSize => false
  | _ => true

/-- The bytes that a call reads or writes (tkrzw_file_pos.cc 994, 1010, 1034). -/
def amount : Call → Nat
  | .read _ n => n
  | .write _ data | .append data => data.length
  | _ => 0

/-- `Write` and `Append` before they write: the room and the size (tkrzw_file_pos.cc 1004-1009, 1021-1027). -/
def reserve (c : Conf) (m : Mem) (off n : Nat) : Mem :=
  let m := grow c m (off + n)
  { m with size := max m.size (off + n) }

/-- What a call does with the lock before it reads or writes: `Read` (tkrzw_file_pos.cc 988-994, 1258-1261), `Write` (996-1009), `Append` (1013-1028),
`Expand` (1029-1031), `Truncate` (1037-1066), `TruncateFakely` (1068-1078), `Synchronize` (1080-1114), `GetSize` (1116-1123). -/
def inside (c : Conf) (m : Mem) : Call → Mem × Pc
  | .read off n => if off + n > m.size then (m, .leave .failed) else (m, .copy off 0 [])
  | .write off data => (reserve c m off data.length, .copy off 0 [])
  | .append data => (reserve c m m.size data.length, .copy m.size 0 [])
  | .expand n => (reserve c m m.size n, .leave (.num m.size))
  | .truncate n => (truncate c m n, .leave .done)
  | .truncateFakely n => if n > m.map then (m, .leave .failed) else ({ m with size := n }, .leave .done)
  | .synchronize => (synchronize m, .leave .done)
  | .getSize => (m, .leave (.num m.size))

/-- What a call returns when all bytes are read or written (tkrzw_file_pos.cc 994, 1010, 1023-1034). -/
def result (off : Nat) (buf : Bytes) : Call → Out
  | .read _ _ => .got buf
  | .append _ => .num off
  | _ => .done

/-- One byte of `pwrite`; the file grows if need be, with zeros. -/
def putByte (d : Disk) (pos : Nat) (v : UInt8) : Disk :=
  ⟨max d.len (pos + 1), fun p => if p = pos then v else if p < d.len then d.data p else 0⟩

/-- One byte of `PReadSequence` or `PWriteSequence` (tkrzw_sys_util_posix.h 39-82). -/
def copyByte (m : Mem) (cl : Call) (off k : Nat) (buf : Bytes) : Mem × Pc :=
  match cl with
  | .read _ _ => if off + k < m.disk.len then (m, .copy off (k + 1) (buf ++ [m.disk.data (off + k)])) else (m, .leave .failed)
  | .write _ data | .append data => ({ m with disk := putByte m.disk (off + k) ((data[k]?).getD 0) }, .copy off (k + 1) buf)
  | _ => (m, .copy off (k + 1) buf)

/-- One step of a call: locking, the work, and unlocking (tkrzw_file_pos.cc 988-1035). The last component is what the call returns, when it does. -/
def go (c : Conf) (m : Mem) (id : Nat) (cl : Call) : Pc → Mem × Pc × Option Out
  | .wait =>
    if exclusive cl then
      if m.writer = none ∧ m.readers = [] then ({ m with writer := some id }, .zone, none) else (m, .wait, none)
    else if m.writer = none then ({ m with readers := id :: m.readers }, .zone, none)
    else (m, .wait, none)
  | .zone => let r := inside c m cl; (r.1, r.2, none)
  | .copy off k buf =>
    if k = amount cl then (m, .leave (result off buf cl), none)
    else let r := copyByte m cl off k buf; (r.1, r.2, none)
  | .leave out =>
    if exclusive cl then ({ m with writer := none }, .fin, some out) else ({ m with readers := m.readers.filter (· ≠ id) }, .fin, some out)
  | .fin => (m, .fin, none)

def step (c : Conf) (s : Sys) : Ev → Sys
  | .call cl => { s with jobs := s.jobs ++ [⟨cl, .wait⟩], hist := s.hist ++ [.inv s.jobs.length cl] }
  | .go id => match s.jobs[id]? with
    | none => s
    | some j =>
      let r := go c s.mem id j.call j.pc
      ⟨r.1, s.jobs.set id ⟨j.call, r.2.1⟩, s.hist ++ (r.2.2.toList.map (HEv.ret id))⟩

def start (m : Mem) : Sys := ⟨m, [], []⟩

def run (c : Conf) (m : Mem) (es : List Ev) : Sys := es.foldl (step c) (start m)

/-- SPECIFICATION: all calls have returned. -/
def Quiet (s : Sys) : Prop := ∀ j ∈ s.jobs, j.pc = .fin

end Verif.PosAtomic
