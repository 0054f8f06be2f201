import Verif.BTree.Cfgs
import Verif.BTree.Page
/-
TreeDBM with its nodes as pages of a hash database behind a cache.

A node is in the cache or it is read from its page.  A call works on the nodes as they are seen through the cache; afterwards the nodes it made or changed are in the
cache, and any others it happened to load.  Between calls, nodes are saved and thrown out of the cache at any time (`AdjustCaches`, tkrzw_dbm_tree.cc 2077-2126, in an
order that depends on the history of accesses and on other threads).  The hash database is a dictionary (properties C03, C04).
-/
namespace Verif.BTree
open Verif

/-- A node in the cache, with its field `on_disk` (tkrzw_dbm_tree.cc 60-92). -/
structure Cached (α : Type) where
  node : α
  onDisk : Bool
deriving DecidableEq, Repr

/-- The object (tkrzw_dbm_tree.cc 180-215): the caches, the hash database with its opaque metadata, and the fields.  The two memories of nodes in `regs` are not used. -/
structure Paged where
  leafCache : Nat → Option (Cached Leaf)
  innerCache : Nat → Option (Cached Inner)
  disk : Dict
  metaData : Bytes
  regs : State
  maxPage : Nat
  branch : Nat
  comp : Nat
  miniOpaque : Bytes

/-- What is left open: the order that belongs to a comparator type, and the order in which nodes are reorganised. -/
structure Env where
  order : Nat → Bytes → Bytes → Bool
  pick : List (Nat × Bytes) → Nat

/-- LEAF_NODE_ID_BASE and INNER_NODE_ID_BASE (tkrzw_dbm_tree.cc 51-52). -/
def leafIdBase : Nat := 1
def innerIdBase : Nat := 3 * 2 ^ 46

/-- The configuration of the tree. -/
def Paged.cfg (E : Env) (P : Paged) : Cfg := treeCfg (E.order P.comp) P.maxPage P.branch E.pick

/-- `LoadLeafNode` (tkrzw_dbm_tree.cc 1285-1337): from the cache or from the page.  An id is the id of a leaf if it is below INNER_NODE_ID_BASE (1589, 1613). -/
def Paged.leafAt (P : Paged) (i : Nat) : Option Leaf :=
  if leafIdBase ≤ i ∧ i < innerIdBase then
    match P.leafCache i with
    | some n => some n.node
    | none => (P.disk (pageKey i)).bind fun b => (loadLeaf b).toOption
  else none

/-- `LoadInnerNode` (tkrzw_dbm_tree.cc 1440-1484).  Ids have six bytes. -/
def Paged.innerAt (P : Paged) (i : Nat) : Option Inner :=
  if innerIdBase ≤ i ∧ i < 2 ^ 48 then
    match P.innerCache i with
    | some n => some n.node
    | none => (P.disk (pageKey i)).bind fun b => (loadInner b).toOption
  else none

/-- The tree as it is seen through the cache. -/
def Paged.view (P : Paged) : State := { P.regs with leaves := P.leafAt, inners := P.innerAt }

/-- What keeps the code from going on: a number that does not fit in its field, undefined behaviour or an error reading a page, or an error of `Open`. -/
inductive Fault where
  | overflow
  | undefined
  | openFailed
deriving DecidableEq, Repr

/-! ### After a call -/

/-- What is in the cache for one node after a call (`AddToCache`, tkrzw_dbm_tree.cc 240, 253, 263, 275, 1310, 1336): a node that was there stays with its new contents, a node made or changed
is there, and so is one that was only looked at (`touched`).  A new node is not on the disk (237-241, 262-265), a loaded one is (243-251, 267-273). -/
def settleNode {α : Type} (dirty : α → Bool) (old : Option (Cached α)) (was now : Option α) (touched : Bool) : Option (Cached α) :=
  match now with
  | none => none
  | some x =>
    match old with
    | some n => some ⟨x, n.onDisk⟩
    | none => if dirty x || touched then some ⟨x, was.isSome⟩ else none

/-- Was the page of the node removed (`RemoveLeafNode`, `RemoveInnerNode`, tkrzw_dbm_tree.cc 1377-1390, 1519-1532)? -/
def pageGone {α : Type} (old : Option (Cached α)) (was now : Option α) : Bool := was.isSome && now.isNone && (old.map (·.onDisk)).getD true

/-- The object after a call that took the tree to `s`. -/
def Paged.settle (P : Paged) (s : State) (touchLeaf touchInner : Nat → Bool) : Paged :=
  { P with
    leafCache := fun i => settleNode Leaf.dirty (P.leafCache i) (P.leafAt i) (s.leaves i) (touchLeaf i)
    innerCache := fun i => settleNode Inner.dirty (P.innerCache i) (P.innerAt i) (s.inners i) (touchInner i)
    disk := fun b =>
      let i := Codec.readFixNum b 6
      if b.length = 6 ∧ (pageGone (P.leafCache i) (P.leafAt i) (s.leaves i) ∨ pageGone (P.innerCache i) (P.innerAt i) (s.inners i)) then none else P.disk b
    regs := s }

/-- Do the ids made so far fit: leaf ids below INNER_NODE_ID_BASE, inner ids in six bytes (tkrzw_dbm_tree.cc 50-52)? -/
def idsFit (s : State) : Bool := decide (s.numLeaf ≤ innerIdBase) && decide (s.numInner ≤ 2 ^ 48)

/-! ### Saving -/

/-- `SaveLeafNode` (tkrzw_dbm_tree.cc 1339-1375) for the node with an id, if it is in the cache. -/
def Paged.saveLeaf (P : Paged) (i : Nat) : Except Fault Paged :=
  match P.leafCache i with
  | none => .ok P
  | some n =>
    if n.node.dirty then
      match BTree.saveLeaf n.node with
      | some b => .ok { P with leafCache := upd P.leafCache i (some ⟨{ n.node with dirty := false }, true⟩), disk := P.disk.upd (pageKey i) (some b) }
      | none => .error (if 2 ^ 31 ≤ n.node.page then .overflow else .undefined)
    else .ok P

/-- `SaveInnerNode` (tkrzw_dbm_tree.cc 1486-1517). -/
def Paged.saveInner (P : Paged) (i : Nat) : Except Fault Paged :=
  match P.innerCache i with
  | none => .ok P
  | some n =>
    if n.node.dirty then
      match BTree.saveInner n.node with
      | some b => .ok { P with innerCache := upd P.innerCache i (some ⟨{ n.node with dirty := false }, true⟩), disk := P.disk.upd (pageKey i) (some b) }
      | none => .error (if 2 ^ 31 ≤ innerSize n.node then .overflow else .undefined)
    else .ok P

/-- A leaf node leaves the cache: the destructor saves it (tkrzw_dbm_tree.cc 240-256; `FlushLeafCacheOne` 1400-1428, `AdjustCaches` 2077-2126). -/
def Paged.evictLeaf (P : Paged) (i : Nat) : Except Fault Paged :=
  (P.saveLeaf i).map fun P1 => { P1 with leafCache := upd P1.leafCache i none }

/-- An inner node leaves the cache (tkrzw_dbm_tree.cc 262-283; `FlushInnerCacheOne`). -/
def Paged.evictInner (P : Paged) (i : Nat) : Except Fault Paged :=
  (P.saveInner i).map fun P1 => { P1 with innerCache := upd P1.innerCache i none }

/-- Some nodes leave the cache one after the other. -/
def evictAll (f : Paged → Nat → Except Fault Paged) : Paged → List Nat → Except Fault Paged
  | P, [] => .ok P
  | P, i :: l =>
    match f P i with
    | .ok P1 => evictAll f P1 l
    | .error e => .error e

/-- `FlushLeafCacheAll` and `FlushInnerCacheAll` (tkrzw_dbm_tree.cc 1392-1428, 1534-1570): the order does not matter, ids are taken in ascending order. -/
def Paged.flush (P : Paged) : Except Fault Paged :=
  match evictAll Paged.evictLeaf P (List.range' leafIdBase (P.regs.numLeaf - leafIdBase)) with
  | .ok P1 => evictAll Paged.evictInner P1 (List.range' innerIdBase (P.regs.numInner - innerIdBase))
  | .error e => .error e

/-- `ReorganizeTree` if there is something to do (tkrzw_dbm_tree.cc 520-522, 946-948). -/
def Paged.reorg (E : Env) (P : Paged) : Except Fault Paged :=
  match reorgIf (P.cfg E) P.view true with
  | none => .error .undefined
  | some s => if idsFit s then .ok (P.settle s (fun _ => false) fun _ => false) else .error .overflow

/-- The metadata that `SaveMetadata` collects (tkrzw_dbm_tree.cc 1146-1192). -/
def Paged.meta (P : Paged) : Meta where
  numRecords := P.regs.count.toNat
  effDataSize := P.regs.eff.toNat
  root := P.regs.root
  first := P.regs.first
  last := P.regs.last
  numLeaf := P.regs.numLeaf - leafIdBase
  numInner := P.regs.numInner - innerIdBase
  maxPage := P.maxPage
  branch := P.branch
  level := P.regs.level
  comp := P.comp
  opaqueData := P.miniOpaque

/-- `SaveMetadata` (tkrzw_dbm_tree.cc 1143-1194). -/
def Paged.saveMetadata (P : Paged) : Except Fault Paged :=
  if P.regs.count < 0 ∨ P.regs.eff < 0 then .error .undefined
  else if P.regs.count < 2 ^ 48 ∧ P.regs.eff < 2 ^ 48 ∧ P.regs.level < 2 ^ 8 then .ok { P with metaData := saveMeta P.meta }
  else .error .overflow

/-- `Open` of an existing file (tkrzw_dbm_tree.cc 485-500, 1196-1270): the caches are empty and the fields are those of the metadata.  A caller with a comparator of
their own gives it again.  What the update logger was told stays as it is. -/
def openFile (disk : Dict) (metaData : Bytes) (log : List LogOp) (ub : Bool) : Except Fault Paged :=
  match loadMeta true metaData with
  | none => .error .openFailed
  | some m => .ok
    { leafCache := fun _ => none
      innerCache := fun _ => none
      disk := disk
      metaData := metaData
      regs := {
        leaves := fun _ => none, inners := fun _ => none, numLeaf := m.numLeaf + leafIdBase, numInner := m.numInner + innerIdBase
        root := m.root, first := m.first, last := m.last, level := m.level, count := m.numRecords, eff := m.effDataSize, reorg := [], iters := fun _ => Iter.clear
        log := log, ub := ub, lastOk := m.level == 1 }
      maxPage := m.maxPage
      branch := m.branch
      comp := m.comp
      miniOpaque := m.opaqueData }

/-- `Synchronize` (tkrzw_dbm_tree.cc 919-957): the nodes are saved, the tree is reorganised, the nodes are saved again, and the metadata.  What the operating system does with it is
not modelled here. -/
def Paged.synchronize (E : Env) (P : Paged) : Except Fault Paged :=
  match P.flush with
  | .error e => .error e
  | .ok P1 =>
    match P1.reorg E with
    | .error e => .error e
    | .ok P2 =>
      match P2.flush with
      | .error e => .error e
      | .ok P3 => P3.saveMetadata

/-- `Close` (tkrzw_dbm_tree.cc 511-551): the iterators lose their positions, and everything is saved. -/
def Paged.close (E : Env) (P : Paged) : Except Fault Paged :=
  match ({ P with regs := { P.regs with iters := fun _ => Iter.clear } } : Paged).reorg E with
  | .error e => .error e
  | .ok P2 =>
    match P2.flush with
    | .error e => .error e
    | .ok P3 => P3.saveMetadata

/-- `Close` and `Open` again. -/
def Paged.reopen (E : Env) (P : Paged) : Except Fault Paged :=
  match P.close E with
  | .error e => .error e
  | .ok P1 => openFile P1.disk P1.metaData P1.regs.log P1.regs.ub

/-- An empty tree with one leaf node in the cache (tkrzw_dbm_tree.cc 461-474, 826-841). -/
def blank (E : Env) (maxPage branch comp : Nat) (opaqueData : Bytes) : Paged :=
  let c := treeCfg (E.order comp) maxPage branch E.pick
  { leafCache := upd (fun _ => none) leafIdBase (some ⟨c.newLeaf none none, false⟩)
    innerCache := fun _ => none
    disk := Dict.empty
    metaData := []
    regs := init c
    maxPage := maxPage
    branch := branch
    comp := comp
    miniOpaque := opaqueData }

/-- `Clear` (tkrzw_dbm_tree.cc 808-844). -/
def Paged.clear (E : Env) (P : Paged) : Except Fault Paged :=
  let B := blank E P.maxPage P.branch P.comp P.miniOpaque
  ({ B with regs := { B.regs with log := P.regs.log ++ [.clear], ub := P.regs.ub } } : Paged).saveMetadata

/-- `Open` of a new file with tuning parameters (tkrzw_dbm_tree.cc 415-432, 459-490): an empty tree is saved with its metadata, which are then loaded. -/
def create (E : Env) (maxPage branch comp : Nat) (opaqueData : Bytes) : Except Fault Paged :=
  match (blank E maxPage branch comp opaqueData).flush with
  | .error e => .error e
  | .ok P1 =>
    match P1.saveMetadata with
    | .error e => .error e
    | .ok P2 => openFile P2.disk P2.metaData [] false

/-! ### Histories -/

/-- What can happen to the object: a call, which loads the nodes marked in `touchLeaf` and `touchInner`; the saving of a node; a node leaving the cache; `Synchronize`;
`Close` followed by `Open`. -/
inductive Event (ω : Type) where
  | call (x : OMap.Call ω) (touchLeaf touchInner : Nat → Bool)
  | saveLeaf (i : Nat)
  | saveInner (i : Nat)
  | evictLeaf (i : Nat)
  | evictInner (i : Nat)
  | synchronize
  | reopen

/-- A call (tkrzw_dbm_tree.cc 553-844, 2142-2560). -/
def Paged.doCall {ω : Type} (E : Env) (P : Paged) (x : OMap.Call ω) (touchLeaf touchInner : Nat → Bool) : Except Fault (Paged × Option (OMap.Out ω)) :=
  if isClear x then (P.clear E).map fun Q => (Q, some (.code .success))
  else match call (P.cfg E) false P.view x with
    | none => .error .undefined
    | some (s, o) => if idsFit s then .ok (P.settle s touchLeaf touchInner, some o) else .error .overflow

/-- One event, with the result if it is a call. -/
def Paged.step {ω : Type} (E : Env) (P : Paged) : Event ω → Except Fault (Paged × Option (OMap.Out ω))
  | .call x tl ti => P.doCall E x tl ti
  | .saveLeaf i => (P.saveLeaf i).map fun Q => (Q, none)
  | .saveInner i => (P.saveInner i).map fun Q => (Q, none)
  | .evictLeaf i => (P.evictLeaf i).map fun Q => (Q, none)
  | .evictInner i => (P.evictInner i).map fun Q => (Q, none)
  | .synchronize => (P.synchronize E).map fun Q => (Q, none)
  | .reopen => (P.reopen E).map fun Q => (Q, none)

/-- A sequence of events, with their results. -/
def Paged.run {ω : Type} (E : Env) : Paged → List (Event ω) → Except Fault (Paged × List (Event ω × Option (OMap.Out ω)))
  | P, [] => .ok (P, [])
  | P, e :: l =>
    match P.step E e with
    | .error f => .error f
    | .ok (Q, o) =>
      match Q.run E l with
      | .error f => .error f
      | .ok (R, outs) => .ok (R, (e, o) :: outs)

end Verif.BTree
