import Verif.Dbm.Core
import Verif.Prelude.OrdMap
/-
The B+ tree of BabyDBM (tkrzw_dbm_baby.cc, nodes on the heap) and of TreeDBM (tkrzw_dbm_tree.cc, nodes as records of a hash database behind a cache).
The two files have the same functions line by line; the places where they differ are the fields of `Cfg`.

Nodes are in two memories, one for leaf nodes and one for inner nodes, each addressed by number.  BabyDBM addresses nodes by pointer and knows from the level
whether a pointer is a leaf; TreeDBM addresses them by id and knows it from `id >= INNER_NODE_ID_BASE` (tkrzw_dbm_tree.cc 51-52, 237-241, 262-265), which is the
same as long as fewer than 3 * 2^46 leaf nodes have been created (`PageProps`).  A number is not
used again after the node is deleted, while `new` may give the same address again; a deleted node is referred to by nothing, which the invariant shows.

Following a pointer to a node that does not exist, or taking the front of an empty list where the code does so without a check, gives `none` (undefined
behaviour), except for the one place where the code really does that (`frontKey`): there the flag `ub` is raised and the run goes on with the value that
the just erased slot still holds.
-/
namespace Verif.BTree
open Verif

/-- A record: key and value (BabyRecord, tkrzw_dbm_baby.cc 37-50; TreeRecord, tkrzw_dbm_tree_impl.h). -/
abbrev Rec := Bytes × Bytes

/-- A leaf node (tkrzw_dbm_baby.cc 74-81; tkrzw_dbm_tree.cc 60-77).  `page` and `dirty` are the fields `page_size` and
`dirty` of TreeDBM (BabyDBM has neither); `on_disk` is in the model of the page store (`Paged`), and the locks are not modelled here. -/
structure Leaf where
  prev : Option Nat
  next : Option Nat
  recs : List Rec
  page : Int
  dirty : Bool
deriving DecidableEq, Repr

/-- An inner node: the leftmost child and the links, each a key and a child (tkrzw_dbm_baby.cc 83-88; tkrzw_dbm_tree.cc 79-92). -/
structure Inner where
  heir : Nat
  links : List (Bytes × Nat)
  dirty : Bool
deriving DecidableEq, Repr

/-- An iterator object: the stored key and the leaf node where it is, if that is known (tkrzw_dbm_baby.cc 186-213; tkrzw_dbm_tree.cc 233-238). -/
structure Iter where
  key : Option Bytes
  leaf : Option Nat
deriving DecidableEq, Repr

/-- What differs between the two classes, and what is left open. -/
structure Cfg where
  /-- `key_comparator_(a, b) < 0` -/
  lt : Bytes → Bytes → Bool
  /-- `GetSerializedSize` of a record -/
  recSize : Rec → Int
  /-- `page_size` of an empty leaf -/
  base : Int
  /-- `CheckLeafNodeToDivide` -/
  big : Leaf → Bool
  /-- `CheckLeafNodeToMerge` without the test on the root -/
  small : Leaf → Bool
  /-- the test of `MergeNodes` that prefers the previous leaf to the next -/
  lighter : Leaf → Leaf → Bool
  /-- `MAX_INNER_NODE_BRANCHES` / `max_branches_` -/
  branch : Nat
  /-- does a change of a value ask for reorganisation (TreeDBM) -/
  eager : Bool
  /-- does `TraceTree` check the leaf it arrives at (TreeDBM) -/
  check : Bool
  /-- does a read-only `ProcessMulti` reorganise (BabyDBM) -/
  multiReorg : Bool
  /-- does `ProcessFirst`, `ProcessEach` reorganise first (TreeDBM) -/
  firstReorg : Bool
  /-- does a read-only `ProcessFirst` write (BabyDBM) -/
  firstWrites : Bool
  /-- do `Next` and `Previous` store the leaf they had to search for (BabyDBM) -/
  caches : Bool
  /-- the first leaf node and the first inner node: `LEAF_NODE_ID_BASE` and `INNER_NODE_ID_BASE` in TreeDBM, some addresses in BabyDBM -/
  leafBase : Nat
  innerBase : Nat
  /-- which element of the set of nodes to reorganise is the smallest, that is popped next -/
  pick : List (Nat × Bytes) → Nat

/-- The object (tkrzw_dbm_baby.cc 150-183; tkrzw_dbm_tree.cc 180-215): the nodes, the fields, the iterators registered with the object, what the update
logger was told, and the flag of undefined behaviour.  `eff` is `eff_data_size_` of TreeDBM; BabyDBM does not have it.
`lastOk` is not in the code and no function reads it: it is false in an object that was opened from a file whose tree has more than one leaf, because
`ParseMetadata` then gives a wrong `last_id_` (see `PageProps`). -/
structure State where
  leaves : Nat → Option Leaf
  inners : Nat → Option Inner
  numLeaf : Nat
  numInner : Nat
  root : Nat
  first : Nat
  last : Nat
  level : Nat
  count : Int
  eff : Int
  reorg : List (Nat × Bytes)
  iters : Nat → Iter
  log : List LogOp
  ub : Bool
  lastOk : Bool

/-- A write to one of the memories. -/
def upd {α : Type} (f : Nat → Option α) (i : Nat) (v : Option α) : Nat → Option α := fun j => if j = i then v else f j

/-- An iterator without a position: `ClearPosition` (tkrzw_dbm_baby.cc 1260-1267; tkrzw_dbm_tree.cc 2284-2291). -/
def Iter.clear : Iter := ⟨none, none⟩

/-- A new leaf node (tkrzw_dbm_baby.cc 75-76; tkrzw_dbm_tree.cc 237-241). -/
def Cfg.newLeaf (c : Cfg) (prev next : Option Nat) : Leaf := ⟨prev, next, [], c.base, true⟩

/-- An empty tree: `InitializeNodes` (tkrzw_dbm_baby.cc 641-646), the end of `Clear` (tkrzw_dbm_tree.cc 829-841). -/
def init (c : Cfg) : State where
  leaves := upd (fun _ => none) c.leafBase (some (c.newLeaf none none))
  inners := fun _ => none
  numLeaf := c.leafBase + 1
  numInner := c.innerBase
  root := c.leafBase
  first := c.leafBase
  last := c.leafBase
  level := 1
  count := 0
  eff := 0
  reorg := []
  iters := fun _ => Iter.clear
  log := []
  ub := false
  lastOk := true

/-! ### Searching -/

/-- The child to go to: `upper_bound` on the links, then one back, or the heir (tkrzw_dbm_baby.cc 678-685; tkrzw_dbm_tree.cc 1592-1599). -/
def child (lt : Bytes → Bytes → Bool) (n : Inner) (x : Bytes) : Nat :=
  match (n.links.takeWhile fun l => !lt x l.1).getLast? with
  | none => n.heir
  | some l => l.2

/-- `TraceTree` (tkrzw_dbm_baby.cc 691-711; tkrzw_dbm_tree.cc 1604-1630) after `n` rounds of the loop: the node arrived at and the nodes passed, the last one
first.  (The array `hist` has room for 20 or 32 levels; a tree that deep is not modelled as a fault.) -/
def trace (c : Cfg) (s : State) (x : Bytes) : Nat → Option (Nat × List Nat)
  | 0 => some (s.root, [])
  | n + 1 => do
    let r ← trace c s x n
    let nd ← s.inners r.1
    some (child c.lt nd x, r.1 :: r.2)

/-- `SearchTree` (tkrzw_dbm_baby.cc 670-689; tkrzw_dbm_tree.cc 1582-1602): the same loop, without the nodes passed. -/
def search (c : Cfg) (s : State) (x : Bytes) : Option Nat := (trace c s x (s.level - 1)).map (·.1)

/-- The record at `lower_bound` if its key is equivalent (tkrzw_dbm_baby.cc 1079-1080; tkrzw_dbm_tree.cc 2011-2012). -/
def hit (lt : Bytes → Bytes → Bool) (k : Bytes) (recs : List Rec) : Option Rec :=
  match OrdMap.lowerBound lt k recs with
  | [] => none
  | r :: _ => if lt k r.1 then none else some r

/-- The records before `lower_bound`. -/
def below (lt : Bytes → Bytes → Bool) (k : Bytes) (recs : List Rec) : List Rec := recs.takeWhile fun r => lt r.1 k

/-! ### One record -/

/-- `CheckLeafNodeToMerge` (tkrzw_dbm_baby.cc 732-734; tkrzw_dbm_tree.cc 1663-1665). -/
def toMerge (c : Cfg) (s : State) (id : Nat) (l : Leaf) : Bool := c.small l && !(s.level == 1 && s.root == id)

/-- `reorg_nodes_.Insert` (tkrzw_containers.h 1675-1679): a set. -/
def request (s : State) (id : Nat) (k : Bytes) : State := if (id, k) ∈ s.reorg then s else { s with reorg := s.reorg ++ [(id, k)] }

/-- `records.front()->GetKey()` without a check for emptiness (tkrzw_dbm_baby.cc 1096; tkrzw_dbm_tree.cc 2036): after a removal that empties the leaf this is
undefined behaviour; the slot still holds the pointer to the erased record. -/
def frontKey (s : State) (recs : List Rec) (erased : Bytes) : State × Bytes :=
  match recs with
  | [] => ({ s with ub := true }, erased)
  | r :: _ => (s, r.1)

/-- The removal of the record found (tkrzw_dbm_baby.cc 1093-1099; tkrzw_dbm_tree.cc 2031-2041). -/
def removeRec (c : Cfg) (s : State) (id : Nat) (l : Leaf) (k : Bytes) (r : Rec) : State :=
  let recs := below c.lt k l.recs ++ (OrdMap.lowerBound c.lt k l.recs).drop 1
  let l' : Leaf := { l with recs := recs, page := l.page - c.recSize r, dirty := true }
  let s1 := { s with leaves := upd s.leaves id (some l'), log := s.log ++ [.remove k] }
  let s2 := if toMerge c s1 id l' then let f := frontKey s1 recs r.1; request f.1 id f.2 else s1
  { s2 with count := s2.count - 1, eff := s2.eff - (r.1.length + r.2.length : Nat) }

/-- A change of the value of the record found (tkrzw_dbm_baby.cc 1101, `ModifyBabyRecord`; tkrzw_dbm_tree.cc 2042-2060).  The front is safe here. -/
def modifyRec (c : Cfg) (s : State) (id : Nat) (l : Leaf) (k : Bytes) (r : Rec) (v : Bytes) : State :=
  let recs := below c.lt k l.recs ++ (r.1, v) :: (OrdMap.lowerBound c.lt k l.recs).drop 1
  let l' : Leaf := { l with recs := recs, page := l.page + (c.recSize (r.1, v) - c.recSize r), dirty := true }
  let s1 := { s with leaves := upd s.leaves id (some l'), log := s.log ++ [.set k v], eff := s.eff + ((v.length : Int) - (r.2.length : Int)) }
  let f := (recs.head?.map (·.1)).getD r.1
  if c.eager && decide (r.2.length < v.length) then (if c.big l' then request s1 id f else s1)
  else if c.eager && decide (v.length < r.2.length) then (if toMerge c s1 id l' then request s1 id f else s1)
  else s1

/-- The insertion of a new record (tkrzw_dbm_baby.cc 1109-1117; tkrzw_dbm_tree.cc 2066-2078).  The front is safe here. -/
def insertRec (c : Cfg) (s : State) (id : Nat) (l : Leaf) (k v : Bytes) : State :=
  let recs := below c.lt k l.recs ++ (k, v) :: OrdMap.lowerBound c.lt k l.recs
  let l' : Leaf := { l with recs := recs, page := l.page + c.recSize (k, v), dirty := true }
  let s1 := { s with leaves := upd s.leaves id (some l'), log := s.log ++ [.set k v], count := s.count + 1, eff := s.eff + (k.length + v.length : Nat) }
  if c.big l' then request s1 id ((recs.head?.map (·.1)).getD k) else s1

/-- `ProcessImpl` (tkrzw_dbm_baby.cc 1074-1120; tkrzw_dbm_tree.cc 2006-2075) on the leaf `id`.  `p` is shown the key of the record found and its value, or
the key asked for and nothing. -/
def processImpl {τ : Type} (c : Cfg) (s : State) (id : Nat) (k : Bytes) (w : Bool) (p : Bytes → ProcR τ) : Option (State × τ) := do
  let l ← s.leaves id
  match hit c.lt k l.recs with
  | some r =>
    let a := p r.1 (some r.2)
    some (match a.1, w with
      | .remove, true => removeRec c s id l k r
      | .set v, true => modifyRec c s id l k r v
      | _, _ => s, a.2)
  | none =>
    let a := p k none
    some (match a.1, w with
      | .set v, true => insertRec c s id l k v
      | _, _ => s, a.2)

/-- `AppendImpl` (tkrzw_dbm_baby.cc 1122-1146, `AppendBabyRecord` 252-273: the delimiter and the value after the old value). -/
def appendImpl (c : Cfg) (s : State) (id : Nat) (k v delim : Bytes) : Option State := do
  let l ← s.leaves id
  match hit c.lt k l.recs with
  | some r => some (modifyRec { c with eager := false } s id l k r (r.2 ++ delim ++ v))
  | none => some (insertRec c s id l k v)

/-! ### Reorganisation -/

/-- `AddLinkToInnerNode` (tkrzw_dbm_baby.cc 946-951; tkrzw_dbm_tree.cc 1964-1971): insertion at `upper_bound`. -/
def addLink (lt : Bytes → Bytes → Bool) (links : List (Bytes × Nat)) (k : Bytes) (ch : Nat) : List (Bytes × Nat) :=
  (links.takeWhile fun l => !lt k l.1) ++ (k, ch) :: links.dropWhile fun l => !lt k l.1

/-- `JoinPrevLinkInInnerNode` (tkrzw_dbm_baby.cc 953-962; tkrzw_dbm_tree.cc 1973-1983): erases the first link to the child. -/
def joinPrev (links : List (Bytes × Nat)) (ch : Nat) : List (Bytes × Nat) := links.eraseP fun l => l.2 == ch

/-- The loop of `JoinNextLinkInInnerNode` (tkrzw_dbm_baby.cc 971-979; tkrzw_dbm_tree.cc 1993-2001): the link to the child is set to the next child and the
link after it is erased; `none` if there is no link after it. -/
def joinNextLinks (ch nx : Nat) : List (Bytes × Nat) → Option (List (Bytes × Nat))
  | [] => some []
  | l :: rest =>
    if l.2 = ch then
      match rest with
      | [] => none
      | _ :: rest' => some ((l.1, nx) :: rest')
    else (joinNextLinks ch nx rest).map (l :: ·)

/-- `JoinNextLinkInInnerNode` (tkrzw_dbm_baby.cc 964-982; tkrzw_dbm_tree.cc 1985-2004). -/
def joinNext (n : Inner) (ch nx : Nat) : Option Inner :=
  if n.heir = ch then
    match n.links with
    | [] => none
    | _ :: rest => some ⟨nx, rest, true⟩
  else (joinNextLinks ch nx n.links).map fun l => ⟨n.heir, l, true⟩

/-- The loop of `DivideNodes` (tkrzw_dbm_baby.cc 779-813; tkrzw_dbm_tree.cc 1715-1754): the new child is linked in the parent, which is divided in turn if it
has too many links.  The list is the rest of `hist`. -/
def addUp (c : Cfg) : State → List Nat → Nat → Nat → Bytes → Option State
  | s, [], heir, ch, k =>
    some { s with
      inners := upd s.inners s.numInner (some ⟨heir, addLink c.lt [] k ch, true⟩)
      numInner := s.numInner + 1
      root := s.numInner
      level := s.level + 1 }
  | s, id :: hist, _, ch, k => do
    let nd ← s.inners id
    let links := addLink c.lt nd.links k ch
    if links.length ≤ c.branch then
      some { s with inners := upd s.inners id (some { nd with links := links, dirty := true }) }
    else do
      let m ← links[links.length / 2]?
      let newLinks := (links.drop (links.length / 2 + 1)).foldl (fun acc l => addLink c.lt acc l.1 l.2) []
      let nid := s.numInner
      let s' := { s with
        inners := upd (upd s.inners id (some { nd with links := links.take (links.length - (newLinks.length + 1)), dirty := true })) nid (some ⟨m.2, newLinks, true⟩)
        numInner := s.numInner + 1 }
      addUp c s' hist id nid m.1

/-- The sum of the sizes of records. -/
def recsSize (c : Cfg) (l : List Rec) : Int := (l.map c.recSize).sum

/-- Sets the link back of a leaf node, if there is one (`new_leaf_node->next->prev = new_leaf_node`). -/
def setPrev (leaves : Nat → Option Leaf) (id : Option Nat) (p : Option Nat) : Option (Nat → Option Leaf) :=
  match id with
  | none => some leaves
  | some n => (leaves n).map fun l => upd leaves n (some { l with prev := p, dirty := true })

/-- Sets the link forward of a leaf node, if there is one. -/
def setNext (leaves : Nat → Option Leaf) (id : Option Nat) (p : Option Nat) : Option (Nat → Option Leaf) :=
  match id with
  | none => some leaves
  | some n => (leaves n).map fun l => upd leaves n (some { l with next := p, dirty := true })

/-- The iterators at the divided leaf go to the new leaf if their key is not less than the first key there (tkrzw_dbm_baby.cc 765-772; tkrzw_dbm_tree.cc
1700-1707). -/
def divideIter (c : Cfg) (id nid : Nat) (m : Bytes) (it : Iter) : Iter :=
  if it.leaf = some id ∧ c.lt (it.key.getD []) m = false then { it with leaf := some nid } else it

/-- The iterators at a merged leaf go to the leaf that took the records (tkrzw_dbm_baby.cc 866-870; tkrzw_dbm_tree.cc 1834-1838). -/
def mergeIter (id into : Nat) (it : Iter) : Iter := if it.leaf = some id then { it with leaf := some into } else it

/-- The first half of `DivideNodes` (tkrzw_dbm_baby.cc 740-776; tkrzw_dbm_tree.cc 1674-1713): the new leaf takes the second half of the records.  The result
is the state and the first key of the new leaf. -/
def divideLeaf (c : Cfg) (s : State) (id : Nat) : Option (State × Bytes) := do
  let l ← s.leaves id
  let hi := l.recs.drop (l.recs.length / 2)
  let m ← hi.head?
  let nid := s.numLeaf
  let new : Leaf := { c.newLeaf (some id) l.next with recs := hi, page := c.base + recsSize c hi }
  let leaves1 ← setPrev (upd s.leaves nid (some new)) l.next (some nid)
  let l1 ← leaves1 id
  let l2 : Leaf := { l1 with next := some nid, recs := l.recs.take (l.recs.length / 2), page := l.page - recsSize c hi, dirty := true }
  some ({ s with
    leaves := upd leaves1 id (some l2)
    numLeaf := s.numLeaf + 1
    last := if s.last = id then nid else s.last
    iters := fun i => divideIter c id nid m.1 (s.iters i) }, m.1)

/-- `DivideNodes` (tkrzw_dbm_baby.cc 736-814; tkrzw_dbm_tree.cc 1667-1763). -/
def divide (c : Cfg) (s : State) (id : Nat) (x : Bytes) : Option State := do
  let t ← trace c s x (s.level - 1)
  if c.check && t.1 != id then none
  else do
    let r ← divideLeaf c s id
    addUp c r.1 t.2 id s.numLeaf r.2

/-- The loop that finds the neighbours of a child among the links (tkrzw_dbm_baby.cc 831-842; tkrzw_dbm_tree.cc 1786-1795), with the keys of the links to the
child and to the next one (902-914; 1884-1896).  `pv` is the child before the first link. -/
def scanLinks (id : Nat) (pv : Nat) : List (Bytes × Nat) → Option (Nat × Bytes × Option (Bytes × Nat))
  | [] => none
  | l :: rest => if l.2 = id then some (pv, l.1, rest.head?) else scanLinks id l.2 rest

/-- The neighbours of a child: the child before it with the key of its own link, and the link after it (tkrzw_dbm_baby.cc 824-842, 896-915; tkrzw_dbm_tree.cc
1781-1796, 1876-1897). -/
def neighbours (n : Inner) (id : Nat) : Option (Nat × Bytes) × Option (Bytes × Nat) :=
  if n.heir = id then (none, n.links.head?)
  else match scanLinks id n.heir n.links with
    | none => (none, none)
    | some r => (some (r.1, r.2.1), r.2.2)

/-- `MergeNodes` with the previous leaf (tkrzw_dbm_baby.cc 846-872; tkrzw_dbm_tree.cc 1810-1846). -/
def mergePrev (c : Cfg) (s : State) (pid : Nat) (p : Inner) (id a : Nat) (nx : Option Nat) : Option State := do
  let l ← s.leaves id
  let la ← s.leaves a
  let la' : Leaf := { la with recs := la.recs ++ l.recs, page := la.page + (l.page - c.base), next := l.next, dirty := true }
  let leaves1 ← setPrev (upd s.leaves a (some la')) (l.next.map fun n => nx.getD n) (some a)
  some { s with
    leaves := upd leaves1 id none
    inners := upd s.inners pid (some { p with links := joinPrev p.links id, dirty := true })
    last := if s.last = id then a else s.last
    iters := fun i => mergeIter id a (s.iters i) }

/-- `MergeNodes` with the next leaf (tkrzw_dbm_baby.cc 873-894; tkrzw_dbm_tree.cc 1847-1877). -/
def mergeNext (c : Cfg) (s : State) (pid : Nat) (p : Inner) (id b : Nat) (pv : Option Nat) : Option State := do
  let l ← s.leaves id
  let lb ← s.leaves b
  let lb' : Leaf := { lb with recs := l.recs ++ lb.recs, page := lb.page + (l.page - c.base), prev := l.prev, dirty := true }
  let leaves1 ← setNext (upd s.leaves b (some lb')) (l.prev.map fun n => pv.getD n) (some b)
  let p' ← joinNext p id b
  some { s with
    leaves := upd leaves1 id none
    inners := upd s.inners pid (some p')
    first := if s.first = id then b else s.first
    iters := fun i => mergeIter id b (s.iters i) }

/-- The merge of inner nodes: the links of `b`, after a link to its heir under the key `k`, go to the end of the links of `a`, and the link to `b` is erased
from the parent (tkrzw_dbm_baby.cc 918-943; tkrzw_dbm_tree.cc 1913-1941). -/
def mergeInner (s : State) (pid a b : Nat) (k : Bytes) : Option State := do
  let p ← s.inners pid
  let na ← s.inners a
  let nb ← s.inners b
  some { s with
    inners := upd (upd (upd s.inners a (some { na with links := na.links ++ (k, nb.heir) :: nb.links, dirty := true })) pid (some { p with links := joinPrev p.links b, dirty := true })) b none }

/-- Which neighbour takes part (tkrzw_dbm_baby.cc 918-920, 932; tkrzw_dbm_tree.cc 1913-1915, 1928): the previous one if it has no more links than the next. -/
def mergeStep (s : State) (pid id : Nat) : Option State := do
  let p ← s.inners pid
  match neighbours p id with
  | (none, none) => some s
  | (some (a, k), none) => mergeInner s pid a id k
  | (none, some (k, b)) => mergeInner s pid id b k
  | (some (a, k), some (k', b)) => do
    let na ← s.inners a
    let nb ← s.inners b
    if na.links.length ≤ nb.links.length then mergeInner s pid a id k else mergeInner s pid id b k'

/-- The loop at the end of `MergeNodes` (tkrzw_dbm_baby.cc 895-944; tkrzw_dbm_tree.cc 1866-1943): inner nodes with too few links are merged, and the root is
dropped when it has no link. -/
def mergeUp (c : Cfg) : State → Nat → List Nat → Option State
  | s, id, [] => do
    let nd ← s.inners id
    if nd.links.length < c.branch / 2 then
      if nd.links.isEmpty then some { s with root := nd.heir, level := s.level - 1, inners := upd s.inners id none } else some s
    else some s
  | s, id, pid :: up => do
    let nd ← s.inners id
    if nd.links.length < c.branch / 2 then do
      let s' ← mergeStep s pid id
      mergeUp c s' pid up
    else some s

/-- The first half of `MergeNodes`: the choice of the neighbour (tkrzw_dbm_baby.cc 843-846, 873; tkrzw_dbm_tree.cc 1797-1811, 1847). -/
def mergeLeaf (c : Cfg) (s : State) (pid : Nat) (p : Inner) (id : Nat) : Option State :=
  match neighbours p id with
  | (none, none) => some s
  | (some (a, _), none) => mergePrev c s pid p id a none
  | (none, some (_, b)) => mergeNext c s pid p id b none
  | (some (a, _), some (_, b)) => do
    let la ← s.leaves a
    let lb ← s.leaves b
    if c.lighter la lb then mergePrev c s pid p id a (some b) else mergeNext c s pid p id b (some a)

/-- `MergeNodes` (tkrzw_dbm_baby.cc 816-945; tkrzw_dbm_tree.cc 1765-1962). -/
def merge (c : Cfg) (s : State) (id : Nat) (x : Bytes) : Option State := do
  let t ← trace c s x (s.level - 1)
  if c.check && t.1 != id then none
  else match t.2 with
    | [] => none
    | pid :: up => do
      let p ← s.inners pid
      let s' ← mergeLeaf c s pid p id
      mergeUp c s' pid up

/-- One round of `ReorganizeTree` for the popped entry (tkrzw_dbm_baby.cc 716-724; tkrzw_dbm_tree.cc 1639-1654). -/
def reorgOne (c : Cfg) (s : State) (id : Nat) (x : Bytes) : Option State := do
  let l ← s.leaves id
  if c.big l then divide c s id x
  else if toMerge c s id l then merge c s id x
  else some s

/-- `ReorganizeTree` (tkrzw_dbm_baby.cc 713-726; tkrzw_dbm_tree.cc 1632-1657), `n` rounds; `done` are the nodes already handled. -/
def reorgLoop (c : Cfg) : Nat → State → List Nat → Option State
  | 0, s, _ => some s
  | n + 1, s, done =>
    match s.reorg[c.pick s.reorg % s.reorg.length]? with
    | none => some s
    | some e =>
      let s1 := { s with reorg := s.reorg.eraseIdx (c.pick s.reorg % s.reorg.length) }
      if e.1 ∈ done then reorgLoop c n s1 done
      else do
        let s2 ← reorgOne c s1 e.1 e.2
        reorgLoop c n s2 (e.1 :: done)

/-- `ReorganizeTree` until the set is empty; nothing is added to the set meanwhile. -/
def reorganize (c : Cfg) (s : State) : Option State := reorgLoop c s.reorg.length s []

/-- `if (writable && !reorg_nodes_.IsEmpty()) ReorganizeTree()` (tkrzw_dbm_baby.cc 418-421). -/
def reorgIf (c : Cfg) (s : State) (w : Bool) : Option State := if w && !s.reorg.isEmpty then reorganize c s else some s

/-! ### Operations of the database -/

/-- `Process` (tkrzw_dbm_baby.cc 417-433; tkrzw_dbm_tree.cc 553-593) on an open database. -/
def process {τ : Type} (c : Cfg) (s : State) (k : Bytes) (w : Bool) (p : Bytes → ProcR τ) : Option (State × τ) := do
  let s1 ← reorgIf c s w
  let id ← search c s1 k
  processImpl c s1 id k w p

/-- `Append` (tkrzw_dbm_baby.cc 435-445). -/
def append (c : Cfg) (s : State) (k v delim : Bytes) : Option State := do
  let s1 ← reorgIf c s true
  let id ← search c s1 k
  appendImpl c s1 id k v delim

/-- The first loop of `ProcessMulti`: the leaf of every key (tkrzw_dbm_baby.cc 457-461; tkrzw_dbm_tree.cc 618-626). -/
def searchAll (c : Cfg) (s : State) : List Bytes → Option (List Nat)
  | [] => some []
  | k :: rest => do
    let id ← search c s k
    let ids ← searchAll c s rest
    some (id :: ids)

/-- The second loop of `ProcessMulti` (tkrzw_dbm_baby.cc 469-473; tkrzw_dbm_tree.cc 634-643). -/
def processAll {ρ : Type} (c : Cfg) (w : Bool) : State → List Nat → List (Bytes × ProcS ρ) → ρ → Option (State × ρ)
  | s, id :: ids, (k, p) :: rest, r => do
    let x ← processImpl c s id k w (fun _ => p r)
    processAll c w x.1 ids rest x.2
  | s, _, _, r => some (s, r)

/-- `ProcessMulti` (tkrzw_dbm_baby.cc 447-483; tkrzw_dbm_tree.cc 595-655) without the locks. -/
def processMulti {ρ : Type} (c : Cfg) (s : State) (l : List (Bytes × ProcS ρ)) (w : Bool) (r : ρ) : Option (State × ρ) := do
  let s1 ← reorgIf c s (w || c.multiReorg)
  let ids ← searchAll c s1 (l.map (·.1))
  processAll c w s1 ids l r

/-- The walk over the leaves to the first that is not empty (tkrzw_dbm_baby.cc 487-507, `SetPositionFirst` 1269-1281; tkrzw_dbm_tree.cc 674-711, 2293-2310);
`n` bounds the number of steps, which the invariant shows not to matter. -/
def nonEmptyFrom (s : State) : Nat → Option Nat → Option (Option (Nat × Rec))
  | _, none => some none
  | 0, some _ => none
  | n + 1, some id => do
    let l ← s.leaves id
    match l.recs with
    | [] => nonEmptyFrom s n l.next
    | r :: _ => some (some (id, r))

/-- The walk back (`SetPositionLast`, tkrzw_dbm_baby.cc 1283-1295; tkrzw_dbm_tree.cc 2312-2329). -/
def nonEmptyBack (s : State) : Nat → Option Nat → Option (Option (Nat × Rec))
  | _, none => some none
  | 0, some _ => none
  | n + 1, some id => do
    let l ← s.leaves id
    match l.recs.getLast? with
    | none => nonEmptyBack s n l.prev
    | some r => some (some (id, r))

/-- `ProcessFirst` (tkrzw_dbm_baby.cc 485-508; tkrzw_dbm_tree.cc 657-712).  The result is `none` if there is no record. -/
def processFirst {τ : Type} (c : Cfg) (s : State) (w : Bool) (p : Bytes → ProcR τ) : Option (State × Option τ) := do
  let s1 ← reorgIf c s (w && c.firstReorg)
  match ← nonEmptyFrom s1 (s1.numLeaf + 1) (some s1.first) with
  | none => some (s1, none)
  | some (id, r) => do
    let x ← processImpl c s1 id r.1 (w || c.firstWrites) p
    some (x.1, some x.2)

/-- The inner loop of `ProcessEach` with updates (tkrzw_dbm_baby.cc 522-524; tkrzw_dbm_tree.cc 752-754). -/
def eachKeys {ρ : Type} (c : Cfg) (id : Nat) : State → List Bytes → (ρ → Bytes → ProcR ρ) → ρ → Option (State × ρ)
  | s, [], _, r => some (s, r)
  | s, k :: ks, p, r => do
    let x ← processImpl c s id k true (p r)
    eachKeys c id x.1 ks p x.2

/-- The outer loop of `ProcessEach` (tkrzw_dbm_baby.cc 513-533; tkrzw_dbm_tree.cc 736-779). -/
def eachLeaves {ρ : Type} (c : Cfg) (w : Bool) (p : ρ → Bytes → ProcR ρ) : Nat → State → Option Nat → ρ → Option (State × ρ)
  | _, s, none, r => some (s, r)
  | 0, _, some _, _ => none
  | n + 1, s, some id, r => do
    let l ← s.leaves id
    if w then do
      let x ← eachKeys c id s (l.recs.map (·.1)) p r
      let l' ← x.1.leaves id
      eachLeaves c w p n x.1 l'.next x.2
    else
      eachLeaves c w p n s l.next (l.recs.foldl (fun r x => (p r x.1 (some x.2)).2) r)

/-- `ProcessEach` (tkrzw_dbm_baby.cc 510-537; tkrzw_dbm_tree.cc 714-783); the calls of the processor with no record at the start and the end are left out. -/
def processEach {ρ : Type} (c : Cfg) (s : State) (w : Bool) (p : ρ → Bytes → ProcR ρ) (r : ρ) : Option (State × ρ) := do
  let s1 ← reorgIf c s (w && c.firstReorg)
  eachLeaves c w p (s1.numLeaf + 1) s1 (some s1.first) r

/-- `Clear` (tkrzw_dbm_baby.cc 568-581; tkrzw_dbm_tree.cc 808-844). -/
def clear (c : Cfg) (s : State) : State := { init c with log := s.log ++ [.clear], ub := s.ub }

/-! ### Iterators -/

/-- Stores an iterator. -/
def State.setIter (s : State) (i : Nat) (it : Iter) : State := { s with iters := fun j => if j = i then it else s.iters j }

/-- `SetPositionFirst` (tkrzw_dbm_baby.cc 1269-1281; tkrzw_dbm_tree.cc 2293-2310), also the second half of `SyncPosition` (1389-1403; 2451-2470). -/
def setFirst (s : State) (i : Nat) (from_ : Option Nat) : Option (State × Bool) := do
  match ← nonEmptyFrom s (s.numLeaf + 1) from_ with
  | none => some (s, false)
  | some (id, r) => some (s.setIter i ⟨some r.1, some id⟩, true)

/-- `SetPositionLast` (tkrzw_dbm_baby.cc 1283-1295; tkrzw_dbm_tree.cc 2312-2329). -/
def setLast (s : State) (i : Nat) (from_ : Option Nat) : Option (State × Bool) := do
  match ← nonEmptyBack s (s.numLeaf + 1) from_ with
  | none => some (s, false)
  | some (id, r) => some (s.setIter i ⟨some r.1, some id⟩, true)

/-- `First` (tkrzw_dbm_baby.cc 1157-1162; tkrzw_dbm_tree.cc 2142-2153). -/
def first (s : State) (i : Nat) : Option State := (setFirst (s.setIter i Iter.clear) i (some s.first)).map (·.1)

/-- `Last` (tkrzw_dbm_baby.cc 1164-1169; tkrzw_dbm_tree.cc 2155-2166). -/
def last (s : State) (i : Nat) : Option State := (setLast (s.setIter i Iter.clear) i (some s.last)).map (·.1)

/-- `Jump` (tkrzw_dbm_baby.cc 1171-1176; tkrzw_dbm_tree.cc 2168-2176): only stores the key. -/
def jump (s : State) (i : Nat) (x : Bytes) : State := s.setIter i ⟨some x, none⟩

/-- The leaf of the iterator, searched for if it is not known (tkrzw_dbm_baby.cc 1305-1307; tkrzw_dbm_tree.cc 2337-2351). -/
def leafOf (c : Cfg) (s : State) (it : Iter) (x : Bytes) : Option Nat :=
  match it.leaf with
  | some id => some id
  | none => search c s x

/-- What `Next` and `Previous` store as the leaf when they stay in it (tkrzw_dbm_baby.cc 1305-1317; tkrzw_dbm_tree.cc 2360). -/
def keptLeaf (c : Cfg) (it : Iter) (id : Nat) : Option Nat := if c.caches then some id else it.leaf

/-- `NextImpl` (tkrzw_dbm_baby.cc 1304-1329; tkrzw_dbm_tree.cc 2335-2379). -/
def nextImpl (c : Cfg) (s : State) (i : Nat) (x : Bytes) : Option State := do
  let id ← leafOf c s (s.iters i) x
  let l ← s.leaves id
  match OrdMap.upperBound c.lt x l.recs with
  | r :: _ => some (s.setIter i ⟨some r.1, keptLeaf c (s.iters i) id⟩)
  | [] => do
    let t ← setFirst s i l.next
    if t.2 then some t.1 else some (s.setIter i Iter.clear)

/-- `PreviousImpl` (tkrzw_dbm_baby.cc 1331-1358; tkrzw_dbm_tree.cc 2381-2427). -/
def prevImpl (c : Cfg) (s : State) (i : Nat) (x : Bytes) : Option State := do
  let id ← leafOf c s (s.iters i) x
  let l ← s.leaves id
  match OrdMap.lowerBound c.lt x l.recs, (below c.lt x l.recs).getLast? with
  | _ :: _, some r => some (s.setIter i ⟨some r.1, keptLeaf c (s.iters i) id⟩)
  | _, _ => do
    let t ← setLast s i l.prev
    if t.2 then some t.1 else some (s.setIter i Iter.clear)

/-- `Next` (tkrzw_dbm_baby.cc 1235-1242; tkrzw_dbm_tree.cc 2254-2261). -/
def next (c : Cfg) (s : State) (i : Nat) : Option (State × Code) :=
  match (s.iters i).key with
  | none => some (s, .notFound)
  | some x => (nextImpl c s i x).map fun t => (t, .success)

/-- `Previous` (tkrzw_dbm_baby.cc 1244-1251; tkrzw_dbm_tree.cc 2263-2270). -/
def prev (c : Cfg) (s : State) (i : Nat) : Option (State × Code) :=
  match (s.iters i).key with
  | none => some (s, .notFound)
  | some x => (prevImpl c s i x).map fun t => (t, .success)

/-- `SyncPosition` (tkrzw_dbm_baby.cc 1360-1409; tkrzw_dbm_tree.cc 2429-2476) and the search part of the iterator's `ProcessImpl` (tkrzw_dbm_baby.cc
1411-1470; tkrzw_dbm_tree.cc 2478-2554): the iterator goes to the first record whose key is not less; the result is that record and its leaf. -/
def sync (c : Cfg) (s : State) (i : Nat) (x : Bytes) : Option (State × Option (Nat × Rec)) := do
  let id ← leafOf c s (s.iters i) x
  let l ← s.leaves id
  match OrdMap.lowerBound c.lt x l.recs with
  | r :: _ => some (s.setIter i ⟨some r.1, some id⟩, some (id, r))
  | [] => do
    match ← nonEmptyFrom s (s.numLeaf + 1) l.next with
    | some (id', r) => some (s.setIter i ⟨some r.1, some id'⟩, some (id', r))
    | none => some (s.setIter i Iter.clear, none)

/-- `Process` of an iterator (tkrzw_dbm_baby.cc 1253-1264, 1411-1470; tkrzw_dbm_tree.cc 2272-2282, 2478-2554).  The result is `none` if there is no record. -/
def iterProcess {τ : Type} (c : Cfg) (s : State) (i : Nat) (w : Bool) (p : Bytes → ProcR τ) : Option (State × Option τ) := do
  let s1 ← reorgIf c s w
  match (s1.iters i).key with
  | none => some (s1, none)
  | some x => do
    let y ← sync c s1 i x
    match y.2 with
    | none => some (y.1, none)
    | some (id, r) =>
      if w then do
        let z ← processImpl c y.1 id r.1 true p
        some (z.1, some z.2)
      else some (y.1, some (p r.1 (some r.2)).2)

/-- The loop of `JumpUpper` (tkrzw_dbm_baby.cc 1218-1230; tkrzw_dbm_tree.cc 2236-2249); `n` bounds the number of rounds, which are at most two. -/
def upperLoop (c : Cfg) (i : Nat) (x : Bytes) (incl : Bool) : Nat → State → Option State
  | 0, _ => none
  | n + 1, s =>
    match (s.iters i).key with
    | none => some (s.setIter i Iter.clear)
    | some k =>
      if c.lt x k || (incl && eqv c.lt k x) then some s
      else do
        let s' ← nextImpl c s i x
        upperLoop c i x incl n s'

/-- `JumpUpper` (tkrzw_dbm_baby.cc 1207-1233; tkrzw_dbm_tree.cc 2220-2252). -/
def jumpUpper (c : Cfg) (s : State) (i : Nat) (x : Bytes) (incl : Bool) : Option State := do
  let y ← sync c (jump s i x) i x
  match y.2 with
  | none => some y.1
  | some _ => upperLoop c i x incl 2 y.1

/-- The loop of `JumpLower` (tkrzw_dbm_baby.cc 1190-1203; tkrzw_dbm_tree.cc 2199-2214); `n` bounds the number of rounds, which are at most two. -/
def lowerLoop (c : Cfg) (i : Nat) (x : Bytes) (incl : Bool) : Nat → State → Option State
  | 0, _ => none
  | n + 1, s =>
    match (s.iters i).key with
    | none => some (s.setIter i Iter.clear)
    | some k =>
      if c.lt k x || (incl && eqv c.lt k x) then some s
      else do
        let s' ← prevImpl c s i x
        lowerLoop c i x incl n s'

/-- `JumpLower` (tkrzw_dbm_baby.cc 1178-1205; tkrzw_dbm_tree.cc 2178-2218). -/
def jumpLower (c : Cfg) (s : State) (i : Nat) (x : Bytes) (incl : Bool) : Option State := do
  let y ← sync c (jump s i x) i x
  match y.2 with
  | none => do
    let t ← setLast y.1 i (some y.1.last)
    if t.2 then lowerLoop c i x incl 2 t.1 else some t.1
  | some _ => lowerLoop c i x incl 2 y.1

end Verif.BTree
