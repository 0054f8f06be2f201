import Verif.Dbm.Api
import Verif.Common.Prime
/-
TinyDBM (tkrzw_dbm_tiny.cc): an on-memory hash table with chaining.

A record block is modelled byte for byte after its 8-byte child pointer; the chain of child pointers of a bucket
is modelled as a list of blocks, head first.  Sizes are `int32_t` in the code; a request whose block size does not
fit, and any access outside a block, sets the flag `bad` (undefined behaviour in C++).  Locks are not modelled
here: the model runs one method at a time.
-/
namespace Verif.Tiny
open Verif.Codec

/-- A record block without its child pointer: size of the key, key, size of the value, value, and whatever is left
behind it in the allocated block (tkrzw_dbm_tiny.cc 34-45, 122-135). -/
abbrev Blk := Bytes

/-- The size of a block for a key and a value (tkrzw_dbm_tiny.cc 123-124). -/
def blkSize (k v : Bytes) : Nat := 8 + sizeVarNum k.length + k.length + sizeVarNum v.length + v.length

/-- The block size fits in `int32_t`. -/
def recFits (k v : Bytes) : Prop := blkSize k v < 2 ^ 31

instance (k v : Bytes) : Decidable (recFits k v) := inferInstanceAs (Decidable (_ < _))

/-- `TinyRecord::Serialize` (tkrzw_dbm_tiny.cc 122-135). -/
def serialize (k v : Bytes) : Option Blk :=
  if recFits k v then some (writeVarNum k.length ++ k ++ writeVarNum v.length ++ v) else none

/-- `memcpy` into a block at an offset; `none` if it would leave the block. -/
def writeAt (b : Blk) (off : Nat) (data : Bytes) : Option Blk :=
  if off + data.length ≤ b.length then some (b.take off ++ data ++ b.drop (off + data.length)) else none

/-- `xrealloc`/`xreallocappend` (tkrzw_lib_common.cc): the common prefix is kept; the contents of the new tail are
unspecified, here zeros. `size` includes the child pointer, which the model leaves out. -/
def realloc (b : Blk) (size : Nat) : Blk := b.take (size - 8) ++ List.replicate (size - 8 - b.length) 0

/-- `TinyRecord::Reserialize` (tkrzw_dbm_tiny.cc 137-154). -/
def reserialize (b : Blk) (k v : Bytes) (oldValueSize : Nat) : Option Blk :=
  if ¬ recFits k v then none
  else if sizeVarNum v.length > sizeVarNum oldValueSize then serialize k v
  else
    let b := if v.length > oldValueSize then realloc b (blkSize k v) else b
    let off := sizeVarNum k.length + k.length
    (writeAt b off (writeVarNum v.length)).bind fun b => writeAt b (off + sizeVarNum v.length) v

/-- `TinyRecord::ReserializeAppend` (tkrzw_dbm_tiny.cc 156-190). `v` is the present value of the record. -/
def reserializeAppend (b : Blk) (k v cat delim : Bytes) : Option Blk :=
  let newSize := v.length + delim.length + cat.length
  let size := 8 + sizeVarNum k.length + k.length + sizeVarNum newSize + newSize
  if ¬ size < 2 ^ 31 then none
  else if sizeVarNum newSize > sizeVarNum v.length then
    some (writeVarNum k.length ++ k ++ writeVarNum newSize ++ v ++ delim ++ cat)
  else
    let b := realloc b size
    let off := sizeVarNum k.length + k.length
    (writeAt b off (writeVarNum newSize)).bind fun b =>
    (writeAt b (off + sizeVarNum newSize + v.length) delim).bind fun b =>
    writeAt b (off + sizeVarNum newSize + v.length + delim.length) cat

/-- `TinyRecord::Deserialize` (tkrzw_dbm_tiny.cc 192-204): the key and the value; `none` if it would read outside
the block. -/
def deserialize (b : Blk) : Option (Bytes × Bytes) :=
  match readVarNum b with
  | none => none
  | some (ks, n) =>
    let b := b.drop n
    if b.length < ks then none
    else
      match readVarNum (b.drop ks) with
      | none => none
      | some (vs, m) =>
        let c := (b.drop ks).drop m
        if c.length < vs then none else some (b.take ks, c.take vs)

/-- The state of `TinyDBMImpl` (tkrzw_dbm_tiny.cc 89-101). -/
structure State where
  buckets : List (List Blk)
  count : Int
  log : List LogOp
  bad : Bool
deriving Repr

/-- The outcome of walking a bucket chain. -/
inductive Found where
  | absent
  | bad
  | hit (pre : List Blk) (blk : Blk) (value : Bytes) (post : List Blk)

/-- The walk shared by `ProcessImpl` and `AppendImpl` (tkrzw_dbm_tiny.cc 631-673, 693-717): `pre` are the records
before the match (the last of them is `parent`), `post` is what `rec.child` leads to. -/
def walk (k : Bytes) : List Blk → Found
  | [] => .absent
  | b :: rest =>
    match deserialize b with
    | none => .bad
    | some (rk, rv) =>
      if k = rk then .hit [] b rv rest
      else match walk k rest with
        | .hit pre blk v post => .hit (b :: pre) blk v post
        | x => x

/-- Whether something happened that is undefined behaviour in C++. -/
def State.fail (s : State) : State := { s with bad := true }

/-- `ProcessImpl` (tkrzw_dbm_tiny.cc 628-688). -/
def processImpl {τ : Type} (s : State) (k : Bytes) (bi : Nat) (w : Bool) (p : ProcR τ) : State × τ :=
  let chain := s.buckets.getD bi []
  match walk k chain with
  | .bad => (s.fail, (p none).2)
  | .hit pre blk v post =>
    let r := p (some v)
    if w then
      match r.1 with
      | .noop => (s, r.2)
      | .remove =>
        ({ s with log := s.log ++ [LogOp.remove k], buckets := s.buckets.set bi (pre ++ post), count := s.count - 1 }, r.2)
      | .set v' =>
        let s : State := { s with log := s.log ++ [LogOp.set k v'] }
        match reserialize blk k v' v.length with
        | none => (s.fail, r.2)
        | some blk' => ({ s with buckets := s.buckets.set bi (pre ++ blk' :: post) }, r.2)
    else (s, r.2)
  | .absent =>
    let r := p none
    if w then
      match r.1 with
      | .set v' =>
        let s : State := { s with log := s.log ++ [LogOp.set k v'] }
        match serialize k v' with
        | none => (s.fail, r.2)
        | some b => ({ s with buckets := s.buckets.set bi (b :: chain), count := s.count + 1 }, r.2)
      | _ => (s, r.2)
    else (s, r.2)

/-- `AppendImpl` (tkrzw_dbm_tiny.cc 690-728). -/
def appendImpl (s : State) (k : Bytes) (bi : Nat) (value delim : Bytes) : State :=
  let chain := s.buckets.getD bi []
  match walk k chain with
  | .bad => s.fail
  | .hit pre blk v post =>
    match reserializeAppend blk k v value delim with
    | none => s.fail
    | some blk' =>
      match deserialize blk' with
      | none => s.fail
      | some (_, v') =>
        { s with log := s.log ++ [LogOp.set k v'], buckets := s.buckets.set bi (pre ++ blk' :: post) }
  | .absent =>
    let s : State := { s with log := s.log ++ [LogOp.set k value] }
    match serialize k value with
    | none => s.fail
    | some b => { s with buckets := s.buckets.set bi (b :: chain), count := s.count + 1 }

section
variable (hash : Bytes → Nat → Nat)

/-- `HashMutex::GetBucketIndex` (tkrzw_thread_util.h 1211): the hash of the key modulo the number of buckets. The
hash function is a parameter: `PrimaryHash` (tkrzw_dbm_common_impl.h 36-44) in the code. -/
def State.bucketOf (s : State) (k : Bytes) : Nat := hash k s.buckets.length

/-- `Process` (tkrzw_dbm_tiny.cc 279-285). -/
def process {τ : Type} (s : State) (k : Bytes) (w : Bool) (p : ProcR τ) : State × τ :=
  processImpl s k (s.bucketOf hash k) w p

/-- `Append` (tkrzw_dbm_tiny.cc 287-293). -/
def append (s : State) (k value delim : Bytes) : State := appendImpl s k (s.bucketOf hash k) value delim

/-- The database as seen by the default methods of `DBM`; `ProcessMulti` (tkrzw_dbm_tiny.cc 295-312) runs
`ProcessImpl` for each pair in order. -/
def impl : DbmImpl State := ⟨process hash, seqMulti (process hash)⟩

/-- The index of the first bucket that is not empty, and its first record. -/
def firstRec : List (List Blk) → Nat → Option (Nat × Blk)
  | [], _ => none
  | [] :: rest, i => firstRec rest (i + 1)
  | (b :: _) :: _, i => some (i, b)

/-- A processor whose `ProcessEmpty` is the inherited one, which does nothing (tkrzw_dbm.h 86-88). -/
def fullOnly {τ : Type} (f : Bytes → Action × τ) (dflt : τ) : ProcR τ
  | some v => f v
  | none => (.noop, dflt)

/-- `ProcessFirst` (tkrzw_dbm_tiny.cc 314-342). -/
def processFirst {τ : Type} (s : State) (w : Bool) (p : Bytes → Bytes → Action × τ) : State × Option τ :=
  match firstRec s.buckets 0 with
  | none => (s, none)
  | some (bi, b) =>
    match deserialize b with
    | none => (s.fail, none)
    | some (k, v) =>
      if w then
        processImpl s k bi true (fullOnly (fun v => ((p k v).1, some (p k v).2)) none)
      else (s, some (p k v).2)

/-- The inner loop of `ProcessEach` (tkrzw_dbm_tiny.cc 351-356, 365-371): the rest of the chain is read from the
record before it is processed. The processor object has state `ρ`; `p` is its `ProcessFull`. -/
def eachChain {ρ : Type} (w : Bool) (p : Bytes → ρ → Bytes → Action × ρ) (bi : Nat) : List Blk → State → ρ → State × ρ
  | [], s, r => (s, r)
  | b :: rest, s, r =>
    match deserialize b with
    | none => (s.fail, r)
    | some (k, v) =>
      if w then
        let x := processImpl s k bi true (fullOnly (p k r) r)
        eachChain w p bi rest x.1 x.2
      else eachChain w p bi rest s (p k r v).2

/-- The outer loop of `ProcessEach` (tkrzw_dbm_tiny.cc 349-357, 363-372); `n` buckets are left. -/
def eachBucket {ρ : Type} (w : Bool) (p : Bytes → ρ → Bytes → Action × ρ) : (n bi : Nat) → State → ρ → State × ρ
  | 0, _, s, r => (s, r)
  | n + 1, bi, s, r =>
    let x := eachChain w p bi (s.buckets.getD bi []) s r
    eachBucket w p n (bi + 1) x.1 x.2

/-- `ProcessEach` (tkrzw_dbm_tiny.cc 344-376). `e` is the effect of `ProcessEmpty` on the processor object; it is
called once before and once after the traversal. -/
def processEach {ρ : Type} (s : State) (w : Bool) (p : Bytes → ρ → Bytes → Action × ρ) (e : ρ → ρ) (r : ρ) : State × ρ :=
  let x := eachBucket w p s.buckets.length 0 s (e r)
  (x.1, e x.2)

/-- `InitializeBuckets` (tkrzw_dbm_tiny.cc 522-525). -/
def emptyBuckets (n : Nat) : List (List Blk) := List.replicate n []

/-- The state after construction with `num_buckets` (tkrzw_dbm_tiny.cc 206-219); 1048583 is
`TinyDBM::DEFAULT_NUM_BUCKETS` (tkrzw_dbm_tiny.h 42). -/
def init (numBuckets : Int) : State :=
  { buckets := emptyBuckets
      (if numBuckets > 0 then Common.getHashBucketSize (min numBuckets 1099511627689) else 1048583),
    count := 0, log := [], bad := false }

/-- `Clear` (tkrzw_dbm_tiny.cc 411-422). -/
def clear (s : State) : State :=
  { s with log := s.log ++ [LogOp.clear], buckets := emptyBuckets s.buckets.length, count := 0 }

/-- The inner loop of `Rebuild` (tkrzw_dbm_tiny.cc 434-442): each record is pushed at the head of its new bucket. -/
def relink : List Blk → List (List Blk) → Option (List (List Blk))
  | [], nb => some nb
  | b :: rest, nb =>
    match deserialize b with
    | none => none
    | some (k, _) =>
      let bi := hash k nb.length
      relink rest (nb.set bi (b :: nb.getD bi []))

/-- The outer loop of `Rebuild` (tkrzw_dbm_tiny.cc 432-443). -/
def relinkAll : List (List Blk) → List (List Blk) → Option (List (List Blk))
  | [], nb => some nb
  | c :: rest, nb => (relink hash c nb).bind fun nb => relinkAll rest nb

/-- `Rebuild` (tkrzw_dbm_tiny.cc 424-447). -/
def rebuild (s : State) (numBuckets : Int) : State :=
  let n : Int := if numBuckets > 0 then numBuckets else s.count * 2 + 1
  let nb := emptyBuckets (Common.getHashBucketSize (min n 1099511627689))
  match relinkAll hash s.buckets nb with
  | none => s.fail
  | some nb => { s with buckets := nb }

end

/-! ### Iterator -/

/-- `TinyDBMIteratorImpl` (tkrzw_dbm_tiny.cc 103-120): the next bucket to read (−1: not positioned) and the keys
read from the present bucket. -/
structure Iter where
  bucketIndex : Int
  keys : List Bytes
deriving Repr

/-- The keys of a chain (tkrzw_dbm_tiny.cc 743-749). -/
def chainKeys : List Blk → List Bytes
  | [] => []
  | b :: rest => ((deserialize b).map (·.1)).toList ++ chainKeys rest

/-- `ReadNextBucketRecords` (tkrzw_dbm_tiny.cc 730-756); `n` bounds the buckets still to look at. -/
def readNext (s : State) : (n : Nat) → Iter → Iter × Bool
  | 0, _ => ({ bucketIndex := -1, keys := [] }, false)
  | n + 1, it =>
    if it.bucketIndex < 0 ∨ it.bucketIndex ≥ s.buckets.length then ({ it with bucketIndex := -1 }, false)
    else
      let ks := it.keys ++ chainKeys (s.buckets.getD it.bucketIndex.toNat [])
      let it := { bucketIndex := it.bucketIndex + 1, keys := ks }
      if ks.isEmpty then readNext s n it else (it, true)

/-- `First` (tkrzw_dbm_tiny.cc 771-776). -/
def Iter.first : Iter := { bucketIndex := 0, keys := [] }

/-- `ReadKeys` (tkrzw_dbm_tiny.cc 847-862). -/
def readKeys (s : State) (it : Iter) : Iter × Bool :=
  if it.bucketIndex < 0 then (it, false)
  else if it.keys.isEmpty then
    let x := readNext s (s.buckets.length + 1) it
    if x.2 then (x.1, !x.1.keys.isEmpty) else x
  else (it, true)

/-- `Jump` (tkrzw_dbm_tiny.cc 778-798). -/
def jump (hash : Bytes → Nat → Nat) (s : State) (k : Bytes) : Iter × Code :=
  let x := readNext s (s.buckets.length + 1) { bucketIndex := s.bucketOf hash k, keys := [] }
  if !x.2 then (x.1, .notFound)
  else if k ∈ x.1.keys then ({ x.1 with keys := x.1.keys.dropWhile (fun k' => k' != k) }, .success)
  else ({ bucketIndex := -1, keys := [] }, .notFound)

/-- `Next` (tkrzw_dbm_tiny.cc 800-808). -/
def next (s : State) (it : Iter) : Iter × Code :=
  let x := readKeys s it
  if x.2 then ({ x.1 with keys := x.1.keys.tail }, .success) else (x.1, .notFound)

/-- `Process` of the iterator (tkrzw_dbm_tiny.cc 810-845). The wrapped processor has no `ProcessEmpty`, so an absent
record leaves no value and gives NOT_FOUND_ERROR. -/
def iterProcess {τ : Type} (hash : Bytes → Nat → Nat) (s : State) (it : Iter) (w : Bool)
    (p : Bytes → Bytes → Action × τ) : State × Iter × Code × Option τ :=
  let x := readKeys s it
  if !x.2 then (s, x.1, .notFound, none)
  else
    match x.1.keys with
    | [] => (s, x.1, .notFound, none)
    | k :: rest =>
      let y := process hash s k w (fullOnly (fun v => ((p k v).1, some (p k v))) none)
      match y.2 with
      | none => (y.1, x.1, .notFound, none)
      | some (a, t) => (y.1, if a = .remove then { x.1 with keys := rest } else x.1, .success, some t)

end Verif.Tiny
