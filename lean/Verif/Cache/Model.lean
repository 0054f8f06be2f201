import Verif.Dbm.Api
import Verif.Containers.Linked
import Verif.Common.Prime
import Verif.Hashing.Real
/-
CacheDBM (tkrzw_dbm_cache.cc): an on-memory database of 32 partitions, each a hash table with a list of the records in the order of use.

The memory of a partition is that of `Linked`: numbered cells with the child, previous and next pointers, the key and the value. The
bytes of a block behind its three pointers (tkrzw_dbm_cache.cc 160-216) are those of a block of TinyDBM, which are modelled in
`Tiny.serialize`, `Tiny.reserialize` and `Tiny.deserialize`; here a cell has the key and the value that the bytes stand for. Following a
null or dangling pointer, and a block size that does not fit in `int32_t`, make an operation return `none`. Locks are not modelled here.
-/
namespace Verif.Cache
open Verif.Codec
open Verif.Linked (Map Node)

/-- What the code takes from outside: `hash` is `PrimaryHash(key, UINT64MAX)` (tkrzw_dbm_common_impl.h 36-44); `moves p size` says whether
`xrealloc` of the block `p` to a size gives a new block. -/
structure Env where
  hash : Bytes → Nat
  moves : Nat → Nat → Bool

/-- The environment with the real hash function and an `xrealloc` that never moves. -/
def realEnv : Env := ⟨fun k => Hashing.primaryHash k (2 ^ 64 - 1), fun _ _ => false⟩

/-- `NUM_CACHE_SLOTS` (tkrzw_dbm_cache.cc 30). -/
def numSlots : Nat := 32

/-- The partition of a key (tkrzw_dbm_cache.cc 675). -/
def Env.slotOf (E : Env) (k : Bytes) : Nat := E.hash k % 256 % numSlots

/-- The hash value within the partition (tkrzw_dbm_cache.cc 676). -/
def Env.inner (E : Env) (k : Bytes) : Nat := E.hash k / 256

/-- `CacheSlot` (tkrzw_dbm_cache.cc 76-85). The number of buckets, the buckets, `first_`, `last_` and `num_records_` are in `map`. -/
structure Slot where
  map : Map Bytes Bytes
  eff : Int
  capRec : Int
  capMem : Int

/-- The number of buckets for a capacity (tkrzw_dbm_cache.cc 263, 507). The product with 1.2 is exact here, in `double` in the code. -/
def bucketNum (capRec : Int) : Nat := Common.getHashBucketSize (min (capRec * 6 / 5) (2 ^ 31 - 1))

/-- `CacheSlot::Init` (tkrzw_dbm_cache.cc 259-269). -/
def Slot.init (capRec capMem : Int) : Slot :=
  { map := { nb := bucketNum capRec, buckets := fun _ => none, mem := fun _ => none, fresh := 0, first := none, last := none, num := 0 },
    eff := 0, capRec := capRec, capMem := capMem }

/-- `GetMemoryUsageImpl` (tkrzw_dbm_cache.cc 495-501). -/
def Slot.memUsage (s : Slot) : Int := s.map.nb * 8 + s.map.num * (8 * 3 + 1 * 2 + 8) + s.eff

/-- The size of a block (tkrzw_dbm_cache.cc 161-163). -/
def blkSize (k v : Bytes) : Nat := 8 + 8 + 8 + sizeVarNum k.length + k.length + sizeVarNum v.length + v.length

/-- The block size fits in `int32_t`. -/
def recFits (k v : Bytes) : Prop := blkSize k v < 2 ^ 31

instance (k v : Bytes) : Decidable (recFits k v) := inferInstanceAs (Decidable (_ < _))

/-- The record, which is at the end of the list, leaves the list (tkrzw_dbm_cache.cc 348-354). -/
def unlinkLast (m : Map Bytes Bytes) (n : Node Bytes Bytes) : Option (Map Bytes Bytes) :=
  match n.prev with
  | none => some { m with first := none, last := none }
  | some q => (m.modify q (fun x => { x with next := none })).map (fun m => { m with last := some q })

/-- Removal of the record found (tkrzw_dbm_cache.cc 342-356); `sl` is the pointer that refers to it. The order of the independent
assignments is changed. -/
def dropHit (s : Slot) (sl : Linked.Slot) (p : Nat) (n : Node Bytes Bytes) : Option Slot := do
  let m ← unlinkLast s.map n
  let m ← m.store sl n.child
  some { s with map := { m.write p none with num := m.num - 1 }, eff := s.eff - (n.key.length + n.value.length) }

/-- Whether `Reserialize` gives a new block (tkrzw_dbm_cache.cc 180-198). -/
def Env.relocates (E : Env) (p : Nat) (k old v : Bytes) : Bool :=
  if sizeVarNum v.length > sizeVarNum old.length then true
  else if v.length > old.length then E.moves p (blkSize k v)
  else false

/-- The new value of the record found (tkrzw_dbm_cache.cc 357-377). If the block is a new one, it takes the place of the old one in the
list and in the chain. -/
def updateHit (E : Env) (s : Slot) (sl : Linked.Slot) (p : Nat) (n : Node Bytes Bytes) (v : Bytes) : Option Slot :=
  if ¬ recFits n.key v then none
  else if E.relocates p n.key n.value v then
    (Linked.replace s.map sl p n.key v).map fun x => { s with map := x.2, eff := s.eff + (v.length - n.value.length) }
  else
    (s.map.modify p (fun x => { x with value := v })).map fun m => { s with map := m, eff := s.eff + (v.length - n.value.length) }

/-- The walk of a chain until a block (tkrzw_dbm_cache.cc 565-590): the pointer that refers to it. -/
def searchPtr (m : Map Bytes Bytes) (p : Nat) : Nat → Linked.Slot → Option (Option Linked.Slot)
  | 0, _ => none
  | fuel + 1, sl =>
    match m.load sl with
    | none => none
    | some none => some none
    | some (some q) => if q = p then some (some sl) else searchPtr m p fuel (.child q)

/-- The first record leaves the list (tkrzw_dbm_cache.cc 577-583). -/
def unlinkFirst (m : Map Bytes Bytes) (p : Nat) (n : Node Bytes Bytes) : Option (Map Bytes Bytes) := do
  let m ← m.modifyOpt n.next (fun x => { x with prev := none })
  let m := { m with first := n.next }
  some (if m.last = some p then { m with last := none } else m)

/-- `RemoveLRU` (tkrzw_dbm_cache.cc 558-591). -/
def removeLRU (E : Env) (s : Slot) : Option Slot := do
  let p ← s.map.first
  let n ← s.map.mem p
  match ← searchPtr s.map p (s.map.num + 1) (.bucket (s.map.bucket E.inner n.key)) with
  | none => some s
  | some sl =>
    let m ← unlinkFirst s.map p n
    let m ← m.store sl n.child
    some { s with map := { m.write p none with num := m.num - 1 }, eff := s.eff - (n.key.length + n.value.length) }

/-- The test of the limits after a new record (tkrzw_dbm_cache.cc 408-410). -/
def evict (E : Env) (s : Slot) : Option Slot :=
  if (s.map.num : Int) > s.capRec ∨ s.memUsage > s.capMem then removeLRU E s else some s

/-- A new record (tkrzw_dbm_cache.cc 390-410), at the head of the chain and at the end of the list. -/
def insertNew (E : Env) (s : Slot) (k v : Bytes) : Option Slot :=
  if ¬ recFits k v then none
  else do
    let m ← Linked.create E.inner s.map k v .last
    evict E { s with map := m, eff := s.eff + (k.length + v.length) }

/-- `CacheSlot::ProcessImpl` (tkrzw_dbm_cache.cc 303-412): the new state, what the update logger is told, and the result of the processor.
The record is moved to the end of the list before the processor is called (315-331). -/
def Slot.process {τ : Type} (E : Env) (s : Slot) (k : Bytes) (w : Bool) (p : ProcR τ) : Option (Slot × List LogOp × τ) := do
  let (sl, r) ← s.map.find E.inner k
  match r with
  | some ptr =>
    let m ← Linked.move s.map ptr .last
    let n ← m.mem ptr
    let s := { s with map := m }
    let r := p (some n.value)
    if w then
      match r.1 with
      | .noop => some (s, [], r.2)
      | .remove => (dropHit s sl ptr n).map fun s => (s, [LogOp.remove k], r.2)
      | .set v => (updateHit E s sl ptr n v).map fun s => (s, [LogOp.set k v], r.2)
    else some (s, [], r.2)
  | none =>
    let r := p none
    if w then
      match r.1 with
      | .set v => (insertNew E s k v).map fun s => (s, [LogOp.set k v], r.2)
      | _ => some (s, [], r.2)
    else some (s, [], r.2)

/-- The loop of `CleanUp` (tkrzw_dbm_cache.cc 275-280): `none` if it frees a block twice. -/
def freeLoop : Nat → Map Bytes Bytes → Option Nat → Option Unit
  | _, _, none => some ()
  | 0, _, some _ => none
  | fuel + 1, m, some p =>
    match m.mem p with
    | none => none
    | some n => freeLoop fuel (m.write p none) n.next

/-- The loop of `CacheSlot::Rebuild` (tkrzw_dbm_cache.cc 514-531). -/
def rebuildLoop (E : Env) : Nat → Slot → Option Nat → Option Slot
  | _, s, none => some s
  | 0, _, some _ => none
  | fuel + 1, s, some p =>
    match s.map.mem p with
    | none => none
    | some n =>
      if (s.map.num : Int) < s.capRec ∧ s.memUsage < s.capMem then do
        let b := s.map.bucket E.inner n.key
        let m ← s.map.modify p (fun x => { x with child := s.map.buckets b })
        let m ← m.store (.bucket b) (some p)
        rebuildLoop E fuel { s with map := { m with num := m.num + 1, last := some p }, eff := s.eff + (n.key.length + n.value.length) } n.next
      else rebuildLoop E fuel { s with map := s.map.write p none } n.next

/-- The last record kept by `Rebuild` becomes the end of the list (tkrzw_dbm_cache.cc 532-536). -/
def closeList (m : Map Bytes Bytes) : Option (Map Bytes Bytes) :=
  match m.last with
  | none => some { m with first := none }
  | some q => m.modify q (fun x => { x with next := none })

/-- `CacheSlot::Rebuild` (tkrzw_dbm_cache.cc 503-537). -/
def Slot.rebuild (E : Env) (s : Slot) (capRec capMem : Int) : Option Slot := do
  let s' : Slot := { map := { s.map with nb := bucketNum capRec, buckets := fun _ => none, num := 0, last := none }, eff := 0,
                     capRec := capRec, capMem := capMem }
  let s' ← rebuildLoop E s.map.num s' s.map.first
  (closeList s'.map).map fun m => { s' with map := m }

/-- The state of `CacheDBMImpl` (tkrzw_dbm_cache.cc 126-140); `bad` is set by undefined behaviour. -/
structure State where
  slots : Nat → Slot
  capRec : Int
  capMem : Int
  log : List LogOp
  bad : Bool

/-- Assignment to a partition. -/
def State.setSlot (s : State) (i : Nat) (t : Slot) : State := { s with slots := fun j => if j = i then t else s.slots j }

/-- `INT64MAX`. -/
def int64max : Int := 2 ^ 63 - 1

/-- The share of a partition in the capacity (tkrzw_dbm_cache.cc 787, 893). -/
def slotCapRec (capRec : Int) : Int := capRec / numSlots + 1

/-- The share of a partition in the memory (tkrzw_dbm_cache.cc 788, 894). -/
def slotCapMem (capMem : Int) : Int := capMem / numSlots + 1

/-- The constructor (tkrzw_dbm_cache.cc 607-614) and `InitAllSlots` (892-898). 1048576 is `DEFAULT_CAP_REC_NUM` (tkrzw_dbm_cache.h 42). -/
def State.new (capRec capMem : Int) : State :=
  let capRec := if capRec > 0 then capRec else 1048576
  let capMem := if capMem > 0 then capMem else int64max
  { slots := fun _ => Slot.init (slotCapRec capRec) (slotCapMem capMem), capRec := capRec, capMem := capMem, log := [], bad := false }

/-- `CacheDBMImpl::Process` (tkrzw_dbm_cache.cc 672-679), after the hash is computed; it goes to partition `i`. -/
def State.processAt {τ : Type} (E : Env) (s : State) (i : Nat) (k : Bytes) (w : Bool) (p : ProcR τ) : State × τ :=
  match (s.slots i).process E k w p with
  | none => ({ s with bad := true }, (p none).2)
  | some (t, log, r) => ({ s.setSlot i t with log := s.log ++ log }, r)

/-- `CacheDBMImpl::Process` (tkrzw_dbm_cache.cc 672-679). -/
def State.process {τ : Type} (E : Env) (s : State) (k : Bytes) (w : Bool) (p : ProcR τ) : State × τ := s.processAt E (E.slotOf k) k w p

/-- The database as seen by the default methods; `ProcessMulti` (tkrzw_dbm_cache.cc 681-705) runs `ProcessImpl` for each pair in order. -/
def impl (E : Env) : DbmImpl State := ⟨State.process E, seqMulti (State.process E)⟩

/-- A processor whose `ProcessEmpty` does nothing (tkrzw_dbm.h 86-88). -/
def fullOnly {τ : Type} (f : Bytes → Action × τ) (dflt : τ) : ProcR τ
  | some v => f v
  | none => (.noop, dflt)

/-- The record at the head of the list of a partition. -/
def Slot.front (s : Slot) : Option (Bytes × Bytes) := Linked.front s.map

/-- `ProcessFirst` (tkrzw_dbm_cache.cc 414-446, 707-715): `n` partitions from `i` on are left. -/
def processFirstFrom {τ : Type} (E : Env) (s : State) (w : Bool) (p : Bytes → Bytes → Action × τ) : (n i : Nat) → State × Option τ
  | 0, _ => (s, none)
  | n + 1, i =>
    match (s.slots i).front with
    | none => processFirstFrom E s w p n (i + 1)
    | some (k, v) =>
      if w then s.processAt E i k true (fullOnly (fun v => ((p k v).1, some (p k v).2)) none)
      else (s, some (p k v).2)

/-- `ProcessFirst` (tkrzw_dbm_cache.cc 707-715). -/
def processFirst {τ : Type} (E : Env) (s : State) (w : Bool) (p : Bytes → Bytes → Action × τ) : State × Option τ :=
  processFirstFrom E s w p numSlots 0

/-- The loop over the keys of a partition (tkrzw_dbm_cache.cc 462-465). -/
def eachKeys {ρ : Type} (E : Env) (p : Bytes → ρ → Bytes → Action × ρ) (i : Nat) : List Bytes → State → ρ → State × ρ
  | [], s, r => (s, r)
  | k :: ks, s, r =>
    let x := s.processAt E i k true (fullOnly (p k r) r)
    eachKeys E p i ks x.1 x.2

/-- The processor applied to the records of a list, which it does not change (tkrzw_dbm_cache.cc 467-476). -/
def eachRead {ρ : Type} (p : Bytes → ρ → Bytes → Action × ρ) (l : List (Bytes × Bytes)) (r : ρ) : ρ := l.foldl (fun r e => (p e.1 r e.2).2) r

/-- `CacheSlot::ProcessEach` (tkrzw_dbm_cache.cc 448-478). -/
def eachSlot {ρ : Type} (E : Env) (w : Bool) (p : Bytes → ρ → Bytes → Action × ρ) (s : State) (i : Nat) (r : ρ) : State × ρ :=
  match Linked.toList (s.slots i).map with
  | none => ({ s with bad := true }, r)
  | some l => if w then eachKeys E p i (l.map (·.1)) s r else (s, eachRead p l r)

/-- The loop over the partitions (tkrzw_dbm_cache.cc 720-722). -/
def eachFrom {ρ : Type} (E : Env) (w : Bool) (p : Bytes → ρ → Bytes → Action × ρ) : (n i : Nat) → State → ρ → State × ρ
  | 0, _, s, r => (s, r)
  | n + 1, i, s, r =>
    let x := eachSlot E w p s i r
    eachFrom E w p n (i + 1) x.1 x.2

/-- `ProcessEach` (tkrzw_dbm_cache.cc 717-725); `e` is the effect of `ProcessEmpty`, called before and after. -/
def processEach {ρ : Type} (E : Env) (s : State) (w : Bool) (p : Bytes → ρ → Bytes → Action × ρ) (e : ρ → ρ) (r : ρ) : State × ρ :=
  let x := eachFrom E w p numSlots 0 s (e r)
  (x.1, e x.2)

/-- `Count` (tkrzw_dbm_cache.cc 727-734). -/
def State.count (s : State) : Nat := (List.range numSlots).foldl (fun n i => n + (s.slots i).map.num) 0

/-- `GetEffectiveDataSize` (tkrzw_dbm_cache.cc 868-875). -/
def State.effSize (s : State) : Int := (List.range numSlots).foldl (fun n i => n + (s.slots i).eff) 0

/-- `CleanUpAllSlots` (tkrzw_dbm_cache.cc 900-904). -/
def State.cleanUp (s : State) : Bool :=
  (List.range numSlots).all fun i => (freeLoop (s.slots i).map.num (s.slots i).map (s.slots i).map.first).isSome

/-- `Clear` (tkrzw_dbm_cache.cc 768-777). -/
def State.clear (s : State) : State :=
  if s.cleanUp then
    { s with slots := fun _ => Slot.init (slotCapRec s.capRec) (slotCapMem s.capMem), log := s.log ++ [LogOp.clear] }
  else { s with bad := true }

/-- The partitions after `Rebuild`; a partition where it fails is left. -/
def State.rebuildSlots (E : Env) (s : State) (capRec capMem : Int) (i : Nat) : Option Slot :=
  (s.slots i).rebuild E (slotCapRec capRec) (slotCapMem capMem)

/-- `Rebuild` (tkrzw_dbm_cache.cc 779-794). -/
def State.rebuild (E : Env) (s : State) (capRec capMem : Int) : State :=
  let capRec := if capRec > 0 then capRec else s.capRec
  let capMem := if capMem > 0 then capMem else s.capMem
  if (List.range numSlots).all fun i => (s.rebuildSlots E capRec capMem i).isSome then
    { s with slots := fun i => (s.rebuildSlots E capRec capMem i).getD (s.slots i), capRec := capRec, capMem := capMem }
  else { s with bad := true }

end Verif.Cache
