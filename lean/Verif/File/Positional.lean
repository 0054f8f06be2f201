import Verif.File.PageCacheProps
/-
The positional-access file (tkrzw_file_pos.cc 42-760; the class for exclusive access, 770-1460, has the same code under a mutex).

One thread at a time, and a file that no other process changes. Opening, closing and locking by the system succeed, and so do `pwrite` and
`ftruncate`. The paths, `ACCESS_PADDING`, `ACCESS_SYNC` and the hard synchronization are not modelled. The growing factor is positive, and
the growing by it is the parameter `scale`.
-/
namespace Verif.Positional
open Verif
open Verif.PageCache (Disk bytes slice overwrite align)

/-- The parameters given by `SetAccessStrategy` and `SetAllocationStrategy` (tkrzw_file_pos.cc 460-469): the block size, the page cache if it is
used, `alloc_init_size_`, the growing by `alloc_inc_factor_`, and the content of fresh memory. -/
structure Cfg where
  block : Nat
  cached : Bool
  initSize : Nat
  scale : Nat → Nat
  junk : Nat → UInt8

/-- `max(PAGE_SIZE, block_size_)`, with the common page size of the system. -/
def Cfg.unit (c : Cfg) : Nat := max 4096 c.block

/-- The page cache of a file (tkrzw_file_pos.cc 220). -/
def Cfg.env (c : Cfg) : PageCache.Env := PageCache.Env.make c.block 256 c.junk

/-- An open file (tkrzw_file_pos.cc 95-107): the cache with the file under it, `file_size_`, `trunc_size_`, `writable_` and `head_buffer_`. -/
structure Pos where
  pc : PageCache.State
  size : Nat
  trunc : Nat
  writable : Bool
  head : Option Bytes

/-- `ftruncate` (tkrzw_sys_util_posix.h 92-100); bytes beyond the end are zero when the file gets longer. -/
def truncateDisk (d : Disk) (n : Nat) : Disk := ⟨n, fun p => if p < d.len ∧ p < n then d.data p else 0⟩

/-- `PositionalParallelFileImpl::Open` (tkrzw_file_pos.cc 123-227). -/
def open_ (c : Cfg) (d : Disk) (writable : Bool) : Pos :=
  let trunc := if writable then align (max d.len c.initSize) c.unit else d.len
  let d' := if writable then truncateDisk d trunc else d
  ⟨{ PageCache.init d' with region := trunc }, d.len, trunc, writable, none⟩

/-- `AllocateSpace` (tkrzw_file_pos.cc 533-558). -/
def allocate (c : Cfg) (p : Pos) (minSize : Nat) : Pos :=
  if minSize ≤ p.trunc then p
  else
    let t := align (max minSize (c.scale p.trunc)) c.unit
    { p with pc := { p.pc with disk := truncateDisk p.pc.disk t, region := t }, trunc := t }

def headSize (p : Pos) : Nat := match p.head with
  | some h => h.length
  | none => 0

/-- The part of `ReadImpl` without cache, of whole blocks (tkrzw_file_pos.cc 580-609). -/
def blockRead (c : Cfg) (d : Disk) (trunc off size : Nat) : Option Bytes :=
  let end_ := off + size
  let offRem := off % c.block
  let endRem := end_ % c.block
  if offRem > 0 ∨ endRem > 0 then
    let modOff := off - offRem
    let endLen := if endRem > 0 then c.block - endRem else 0
    let endLen := if end_ + endLen > trunc then trunc - end_ else endLen
    (d.read modOff (end_ + endLen - modOff)).map fun b => slice b offRem size
  else d.read off size

/-- The part of `ReadImpl` after the head buffer (tkrzw_file_pos.cc 574-609). -/
def restRead (c : Cfg) (pc : PageCache.State) (trunc off size : Nat) : PageCache.State × Option Bytes :=
  if c.block = 1 then (pc, pc.disk.read off size)
  else if c.cached then PageCache.read c.env pc off size
  else (pc, blockRead c pc.disk trunc off size)

/-- The bytes that `ReadImpl` copies from the head buffer (tkrzw_file_pos.cc 564-573). -/
def frontBytes (p : Pos) (off pre : Nat) : Bytes := match p.head with
  | some h => slice h off pre
  | none => []

/-- `ReadImpl` (tkrzw_file_pos.cc 560-610); `none` if the status is not success. -/
def readImpl (c : Cfg) (p : Pos) (off size : Nat) : Pos × Option Bytes :=
  if off + size > p.size then (p, none)
  else
    let pre := if off < headSize p then min size (headSize p - off) else 0
    let front := frontBytes p off pre
    let off := if off < headSize p then headSize p else off
    let size := size - pre
    if size < 1 then (p, some front)
    else
      let r := restRead c p.pc p.trunc off size
      ({ p with pc := r.1 }, r.2.map fun b => front ++ b)

/-- A block read into fresh memory, and whether that succeeded. -/
def readBlock (c : Cfg) (d : Disk) (off : Nat) : Bytes × Bool :=
  match d.read off c.block with
  | some b => (b, true)
  | none => (bytes c.junk 0 c.block, false)

/-- The part of `WriteImpl` without cache, of whole blocks (tkrzw_file_pos.cc 625-663), and whether it succeeded. -/
def blockWrite (c : Cfg) (d : Disk) (off : Nat) (data : Bytes) : Disk × Bool :=
  let end_ := off + data.length
  let offRem := off % c.block
  let endRem := end_ % c.block
  if offRem > 0 ∨ endRem > 0 then
    let modOff := off - offRem
    let endLen := if endRem > 0 then c.block - endRem else 0
    let modEnd := end_ + endLen
    let first := if offRem > 0 then readBlock c d modOff else (bytes c.junk 0 c.block, true)
    let endOff := modEnd - c.block
    let last := if endLen > 0 then (if offRem = 0 ∨ endOff ≠ modOff then readBlock c d endOff else (first.1, true)) else ([], true)
    (d.write modOff (first.1.take offRem ++ data ++ slice last.1 endRem endLen), first.2 && last.2)
  else (d.write off data, true)

/-- The part of `WriteImpl` after the head buffer (tkrzw_file_pos.cc 619-664). -/
def restWrite (c : Cfg) (pc : PageCache.State) (off : Nat) (data : Bytes) : PageCache.State × Bool :=
  if c.block = 1 then ({ pc with disk := pc.disk.write off data }, true)
  else if c.cached then PageCache.write c.env pc off data
  else
    let r := blockWrite c pc.disk off data
    ({ pc with disk := r.1 }, r.2)

/-- `WriteImpl` (tkrzw_file_pos.cc 612-665) and whether it succeeded. -/
def writeImpl (c : Cfg) (p : Pos) (off : Nat) (data : Bytes) : Pos × Bool :=
  let pre := if off < headSize p then min data.length (headSize p - off) else 0
  let p' := { p with head := p.head.map fun h => overwrite h off (data.take pre) }
  let off := if off < headSize p then headSize p else off
  let data := data.drop pre
  if data.length < 1 then (p', true)
  else
    let r := restWrite c p.pc off data
    ({ p' with pc := r.1 }, r.2)

/-- `Read` (tkrzw_file_pos.cc 291-296). -/
def read (c : Cfg) (p : Pos) (off size : Nat) : Pos × Option Bytes := readImpl c p off size

/-- `Write` (tkrzw_file_pos.cc 298-319). -/
def write (c : Cfg) (p : Pos) (off : Nat) (data : Bytes) : Pos × Bool :=
  if !p.writable then (p, false)
  else
    let p := allocate c p (align (off + data.length) c.block)
    writeImpl c { p with size := if off + data.length ≤ p.size then p.size else off + data.length } off data

/-- `Append` of bytes (tkrzw_file_pos.cc 321-347): the result has the offset of the bytes. -/
def append (c : Cfg) (p : Pos) (data : Bytes) : Pos × Option Nat :=
  if !p.writable then (p, none)
  else
    let off := p.size
    let p := allocate c p (align (off + data.length) c.block)
    let r := writeImpl c { p with size := off + data.length } off data
    (r.1, if r.2 then some off else none)

/-- `Truncate` (tkrzw_file_pos.cc 349-376). -/
def truncate (c : Cfg) (p : Pos) (n : Nat) : Pos × Bool :=
  if !p.writable then (p, false)
  else
    let pc := if c.cached then PageCache.clear (PageCache.flush c.env p.pc 0 n) else p.pc
    let t := align (max (max n 4096) c.initSize) c.unit
    ({ p with pc := { pc with disk := truncateDisk pc.disk t, region := t }, size := n, trunc := t }, true)

/-- `TruncateFakely` (tkrzw_file_pos.cc 378-387). -/
def truncateFakely (p : Pos) (n : Nat) : Pos × Bool := if n > p.trunc then (p, false) else ({ p with size := n }, true)

/-- The head buffer is written to the file. -/
def writeHead (p : Pos) : Disk := match p.head with
  | some h => p.pc.disk.write 0 h
  | none => p.pc.disk

/-- `Synchronize` (tkrzw_file_pos.cc 389-422). -/
def synchronize (c : Cfg) (p : Pos) (off size : Nat) : Pos × Bool :=
  if !p.writable then (p, false)
  else
    let p := { p with pc := if c.cached then PageCache.flush c.env p.pc off size else p.pc }
    let t := align p.size c.block
    ({ p with pc := { p.pc with disk := truncateDisk (writeHead p) t, region := t }, trunc := t }, true)

/-- `SetHeadBuffer` (tkrzw_file_pos.cc 432-458) of a writable file. -/
def setHead (c : Cfg) (p : Pos) (n : Nat) : Pos × Bool :=
  let p := { p with pc := if c.cached then PageCache.clear (PageCache.flush c.env p.pc 0 0) else p.pc }
  let p := { p with pc := { p.pc with disk := writeHead p } }
  if n < 1 then ({ p with head := none }, true)
  else
    let hs := max 8 (align n c.block)
    let rs := min hs p.size
    match p.pc.disk.read 0 rs with
    | some b => ({ p with head := some (b ++ List.replicate (hs - rs) 0) }, true)
    | none => ({ p with head := some (List.replicate hs 0) }, false)

/-- `Close` (tkrzw_file_pos.cc 229-289): the file that is left. -/
def close (c : Cfg) (p : Pos) : Disk :=
  if p.writable then
    let p := { p with pc := if c.cached then PageCache.flush c.env p.pc 0 0 else p.pc }
    truncateDisk (writeHead p) p.size
  else p.pc.disk

end Verif.Positional
