import Verif.File.PositionalProps
/-
The memory-mapped file for parallel access, `MemoryMapParallelFile` (tkrzw_file_mmap.cc 55-619), with any number of calls of `Read`,
`Write`, `Append` and `Expand` at a time.

A call is a sequence of steps, each of which touches shared memory at most once; the steps of all calls are interleaved in any order.
Simplified: memory is sequentially consistent and a byte is copied in one step, in ascending order (`memcpy`); `mutex_` is a reader/writer
lock (C31 is about the lock itself), and what is done under its exclusive side is one step, since the other calls look at one word of
it only, `map_size_`. Sizes do not overflow 64 bits, and system calls do not fail. The file is writable.
-/
namespace Verif.Mmap
open Verif
open Verif.PageCache (Disk align)
open Verif.Positional (File truncateDisk)

/-- The page size, `alloc_init_size_`, and the growth of the map, `static_cast<int64_t>(map_size_.load() * alloc_inc_factor_)`
(tkrzw_file_mmap.cc 76-85, 388-390). -/
structure Cfg where
  page : Nat
  init : Nat
  scale : Nat → Nat

/-- The file on the disk, `file_size_`, `map_size_`, which of the mappings made so far `map_` is, the calls that share `mutex_`, and
whether memory outside the present mapping or beyond the end of the file has been touched. -/
structure Mem where
  disk : Disk
  size : Nat
  map : Nat
  base : Nat
  holders : List Nat
  fault : Bool

/-- `MemoryMapParallelFileImpl::Open` for writing (tkrzw_file_mmap.cc 100-189). -/
def open_ (c : Cfg) (d : Disk) : Mem :=
  let t := align (max 1 (max d.len c.init)) c.page
  ⟨truncateDisk d t, d.len, t, 0, [], false⟩

/-- `MemoryMapParallelFileImpl::Close`: what is left on the disk (tkrzw_file_mmap.cc 191-241). -/
def close (m : Mem) : Disk := truncateDisk m.disk m.size

/-- `MemoryMapParallelFileImpl::Truncate` (tkrzw_file_mmap.cc 243-270). -/
def truncate (c : Cfg) (m : Mem) (n : Nat) : Mem :=
  let t := align (max (max n c.page) c.init) c.page
  { m with disk := truncateDisk m.disk t, map := t, base := m.base + 1, size := n }

/-- `MemoryMapParallelFileImpl::TruncateFakely` (tkrzw_file_mmap.cc 272-281), and whether it succeeded. -/
def truncateFakely (m : Mem) (n : Nat) : Mem × Bool := if n > m.map then (m, false) else ({ m with size := n }, true)

/-- `MemoryMapParallelFileImpl::Synchronize` (tkrzw_file_mmap.cc 283-320); `msync` changes nothing that can be seen. -/
def synchronize (m : Mem) : Mem :=
  let m := if m.size ≠ m.map then { m with map := m.size, base := m.base + 1 } else m
  { m with disk := truncateDisk m.disk m.size }

/-- `AllocateSpace` from where it has the lock (tkrzw_file_mmap.cc 384-408). -/
def grow (c : Cfg) (m : Mem) (need : Nat) : Mem :=
  if need ≤ m.map then m
  else
    let t := align (max (max need (c.scale m.map)) c.page) c.page
    { m with disk := truncateDisk m.disk t, map := t, base := m.base + 1 }

/-- SPECIFICATION: the calls. -/
inductive Call where
  | read (off n : Nat)
  | write (off : Nat) (data : Bytes)
  | append (data : Bytes)
  | expand (n : Nat)
  deriving DecidableEq

/-- SPECIFICATION: what calls return: bytes, an offset, success, failure. -/
inductive Out where
  | got (b : Bytes)
  | at_ (off : Nat)
  | done
  | failed
  deriving DecidableEq

/-- Where a call is. Up to `enter` it is in the constructor of `Zone`. -/
inductive Pc where
  | appLoad
  | appAlloc (old : Nat)
  | appGrow (old : Nat)
  | appCas (old : Nat)
  | wrAlloc
  | wrGrow
  | wrLoad
  | wrCas (old : Nat)
  | rdFirst
  | rdSecond
  | enter (off n : Nat)
  | copy (base off k : Nat) (buf : Bytes)
  | leave (out : Out)
  | refused
  | fin
  deriving DecidableEq

structure Job where
  call : Call
  pc : Pc
  deriving DecidableEq

/-- SPECIFICATION: what is seen from outside: a call begins, a call returns. -/
inductive HEv where
  | inv (id : Nat) (c : Call)
  | ret (id : Nat) (out : Out)
  deriving DecidableEq

/-- The calls made so far, by number, and the history. -/
structure Sys where
  mem : Mem
  jobs : List Job
  hist : List HEv

/-- Another call is made, or a call goes on; `weak` says that `compare_exchange_weak` fails without a reason. -/
inductive Ev where
  | call (c : Call)
  | go (id : Nat) (weak : Bool)
  deriving DecidableEq

/-- Where a call begins (tkrzw_file_mmap.cc 433-494, 543-596). -/
def firstPc : Call → Pc
  | .read _ _ => .rdFirst
  | .write _ _ => .wrAlloc
  | .append _ | .expand _ => .appLoad

/-- SPECIFICATION: the bytes that a call brings. -/
def payload : Call → Bytes
  | .write _ data | .append data => data
  | .read _ _ | .expand _ => []

/-- SPECIFICATION: the size of the region that a call asks for. -/
def want : Call → Nat
  | .read _ n | .expand n => n
  | .write _ data | .append data => data.length

/-- The end of the region of a `Write` (tkrzw_file_mmap.cc 572). -/
def wrEnd : Call → Nat
  | .write off data => off + data.length
  | _ => 0

/-- The offset given to a call. -/
def offOf : Call → Nat
  | .read off _ | .write off _ => off
  | _ => 0

/-- What a call does once it has the zone, at the offset `off` and of `n` bytes (`Read` 433-445, `Write` 458-467, `Append` 469-481, `Expand` 483-494
of tkrzw_file_mmap.cc); `base` is the mapping, as `Pointer` gives it (613-615). -/
def within (base off n : Nat) : Call → Pc
  | .read _ want => if n ≠ want then .leave .failed else .copy base off 0 []
  | .write _ _ | .append _ => .copy base off 0 []
  | .expand _ => .leave (.at_ off)

/-- What a call returns when all bytes are copied (tkrzw_file_mmap.cc 443-444, 465-466, 476-480). -/
def result (off : Nat) (buf : Bytes) : Call → Out
  | .read _ _ => .got buf
  | .write _ _ => .done
  | .append _ | .expand _ => .at_ off

/-- Whether a byte of a mapping can be touched. -/
def Mem.mapped (m : Mem) (base pos : Nat) : Bool := base == m.base && decide (pos < m.map) && decide (pos < m.disk.len)

/-- One byte is stored. -/
def poke (d : Disk) (pos : Nat) (v : UInt8) : Disk := ⟨d.len, fun p => if p = pos then v else d.data p⟩

/-- One byte of `memcpy`, from or to the mapping (tkrzw_file_mmap.cc 443, 465, 476). -/
def copyByte (m : Mem) (cl : Call) (base off k : Nat) (buf : Bytes) : Mem × Pc :=
  if m.mapped base (off + k) then
    match cl with
    | .read _ _ => (m, .copy base off (k + 1) (buf ++ [m.disk.data (off + k)]))
    | .write _ data | .append data => ({ m with disk := poke m.disk (off + k) ((data[k]?).getD 0) }, .copy base off (k + 1) buf)
    | .expand _ => (m, .copy base off (k + 1) buf)
  else ({ m with fault := true }, .copy base off k buf)

/-- One step of a call: the constructor of `Zone` (tkrzw_file_mmap.cc 543-601) with `AllocateSpace` (380-408), the copying, the destructor (603-607).
The last component is what the call returns, when it does. -/
def go (c : Cfg) (m : Mem) (id : Nat) (cl : Call) (weak : Bool) : Pc → Mem × Pc × Option Out
  | .appLoad => (m, .appAlloc m.size, none)
  | .appAlloc old => if old + want cl ≤ m.map then (m, .appCas old, none) else (m, .appGrow old, none)
  | .appGrow old => if m.holders = [] then (grow c m (old + want cl), .appCas old, none) else (m, .appGrow old, none)
  | .appCas old =>
    if weak = false ∧ m.size = old then ({ m with size := old + want cl }, .enter old (want cl), none) else (m, .appLoad, none)
  | .wrAlloc => if wrEnd cl ≤ m.map then (m, .wrLoad, none) else (m, .wrGrow, none)
  | .wrGrow => if m.holders = [] then (grow c m (wrEnd cl), .wrLoad, none) else (m, .wrGrow, none)
  | .wrLoad => if wrEnd cl ≤ m.size then (m, .enter (offOf cl) (want cl), none) else (m, .wrCas m.size, none)
  | .wrCas old =>
    if weak = false ∧ m.size = old then ({ m with size := wrEnd cl }, .enter (offOf cl) (want cl), none) else (m, .wrLoad, none)
  | .rdFirst => if offOf cl > m.size then (m, .refused, none) else (m, .rdSecond, none)
  | .rdSecond => (m, .enter (offOf cl) (min (want cl) (m.size - offOf cl)), none)
  | .enter off n => ({ m with holders := id :: m.holders }, within m.base off n cl, none)
  | .copy base off k buf =>
    if k = want cl then (m, .leave (result off buf cl), none)
    else let r := copyByte m cl base off k buf; (r.1, r.2, none)
  | .leave out => ({ m with holders := m.holders.filter (· ≠ id) }, .fin, some out)
  | .refused => (m, .fin, some .failed)
  | .fin => (m, .fin, none)

def step (c : Cfg) (s : Sys) : Ev → Sys
  | .call cl => { s with jobs := s.jobs ++ [⟨cl, firstPc cl⟩], hist := s.hist ++ [.inv s.jobs.length cl] }
  | .go id weak => match s.jobs[id]? with
    | none => s
    | some j =>
      let r := go c s.mem id j.call weak j.pc
      ⟨r.1, s.jobs.set id ⟨j.call, r.2.1⟩, s.hist ++ (r.2.2.toList.map (HEv.ret id))⟩

/-- Calls from now on. -/
def start (m : Mem) : Sys := ⟨m, [], []⟩

def run (c : Cfg) (m : Mem) (es : List Ev) : Sys := es.foldl (step c) (start m)

/-- All calls have returned. -/
def Sys.quiet (s : Sys) : Bool := s.jobs.all fun j => j.pc == .fin

/-! ### SPECIFICATION: concurrent calls on a file -/

/-- SPECIFICATION: call `a` has returned before call `b` begins. -/
def Precedes (h : List HEv) (a b : Nat) : Prop := ∃ h1 h2 r c, h = h1 ++ h2 ∧ HEv.ret a r ∈ h1 ∧ HEv.inv b c ∈ h2

/-- SPECIFICATION: the offset that a call gets from a file of this size; a read that goes beyond the end gets none. -/
def placeAt (size : Nat) : Call → Option Nat
  | .read off n => if off + n ≤ size then some off else none
  | .write off _ => some off
  | .append _ => some size
  | .expand _ => some size

/-- SPECIFICATION: the size of the file after a call. -/
def sizeAfter (size : Nat) : Call → Nat
  | .read _ _ => size
  | .write off data => max size (off + data.length)
  | .append data => size + data.length
  | .expand n => size + n

/-- SPECIFICATION: the calls one after the other, each with the offset it gets: the size of the file goes from `s` to `s'`. -/
def Sizes : Nat → List (Nat × Call × Option Nat) → Nat → Prop
  | s, [], s' => s' = s
  | s, (_, c, p) :: rest, s' => p = placeAt s c ∧ Sizes (sizeAfter s c) rest s'

/-- SPECIFICATION: what a call returns when it got this offset, but for the bytes that are read. -/
def Fits : Call → Option Nat → Out → Prop
  | .read _ n, some _, .got b => b.length = n
  | .read _ _, none, .failed => True
  | .write _ _, some _, .done => True
  | .append _, some o, .at_ o' => o' = o
  | .expand _, some o, .at_ o' => o' = o
  | _, _, _ => False

/-- SPECIFICATION: an order of calls with the offsets they get agrees with a history. -/
structure Explains (ord : List (Nat × Call × Option Nat)) (h : List HEv) : Prop where
  once : (ord.map (·.1)).Nodup
  called : ∀ x ∈ ord, HEv.inv x.1 x.2.1 ∈ h
  returned : ∀ id out, HEv.ret id out ∈ h → ∃ c p, (id, c, p) ∈ ord ∧ Fits c p out
  realTime : ∀ o1 x o2, ord = o1 ++ x :: o2 → ∀ a, Precedes h a x.1 → a ∈ o1.map (·.1)

/-- SPECIFICATION: call `id` stores the byte `v` at the position `pos`. -/
def Puts (ord : List (Nat × Call × Option Nat)) (id pos : Nat) (v : UInt8) : Prop :=
  ∃ c off, (id, c, some off) ∈ ord ∧ off ≤ pos ∧ (payload c)[pos - off]? = some v

/-- SPECIFICATION: the byte `v` can be read at `pos` by call `rd`: a call that did not begin after the end of `rd` stores it, and no call stored another one
there between the two; or it is the byte of the file before all calls, and no call stored one there before `rd`. A byte that is not specified can be anything. -/
def MayRead (f : File) (h : List HEv) (ord : List (Nat × Call × Option Nat)) (rd pos : Nat) (v : UInt8) : Prop :=
  (∃ id, Puts ord id pos v ∧ ¬ Precedes h rd id ∧ ∀ id' v', Puts ord id' pos v' → Precedes h id id' → ¬ Precedes h id' rd) ∨
    ((∀ w, f.data pos = some w → v = w) ∧ ∀ id' v', Puts ord id' pos v' → ¬ Precedes h id' rd)

/-- SPECIFICATION: the byte `v` can be at `pos` when all calls have returned. -/
def MayStay (f : File) (h : List HEv) (ord : List (Nat × Call × Option Nat)) (pos : Nat) (v : UInt8) : Prop :=
  (∃ id, Puts ord id pos v ∧ ∀ id' v', Puts ord id' pos v' → ¬ Precedes h id id') ∨
    ((∀ w, f.data pos = some w → v = w) ∧ ∀ id' v', ¬ Puts ord id' pos v')

/-- SPECIFICATION: a history of calls that have all returned, on a file that is `f` before and `f'` after: there is an order of the calls, which respects real time,
that explains the sizes and offsets, and every byte read, and every byte left, is one that was stored there last. -/
def Phase (f : File) (h : List HEv) (f' : File) : Prop :=
  ∃ ord, Explains ord h ∧ (∀ id c, HEv.inv id c ∈ h → ∃ out, HEv.ret id out ∈ h) ∧ Sizes f.size ord f'.size ∧
    (∀ id off n b, HEv.inv id (.read off n) ∈ h → HEv.ret id (.got b) ∈ h → ∀ i v, b[i]? = some v → MayRead f h ord id (off + i) v) ∧
    (∀ pos v, f'.data pos = some v → pos < f'.size ∧ MayStay f h ord pos v) ∧
    ∀ pos, pos < f'.size → f'.data pos = none → f.data pos = none ∧ ∀ id v, ¬ Puts ord id pos v

end Verif.Mmap
