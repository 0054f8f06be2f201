import Verif.BTree.Model
import Verif.Codec.Serial
import Verif.Codec.NumProps
/-
The pages of TreeDBM: how nodes and the metadata are written as values of the hash database, and how they are read.
-/
namespace Verif.BTree
open Verif

/-- The outcome of reading a page: the node, the error `BROKEN_DATA_ERROR`, or a read outside the page (undefined behaviour). -/
inductive Parse (α : Type) where
  | ok (a : α)
  | broken
  | outOfBounds
deriving DecidableEq, Repr

/-- The same with the value changed. -/
def Parse.map {α β : Type} (f : α → β) : Parse α → Parse β
  | .ok a => .ok (f a)
  | .broken => .broken
  | .outOfBounds => .outOfBounds

/-- The value, if there is one. -/
def Parse.toOption {α : Type} : Parse α → Option α
  | .ok a => some a
  | _ => none

/-- A node id in a field where 0 stands for no node. -/
def idOf (n : Option Nat) : Nat := n.getD 0

/-- The other direction. -/
def ofId (n : Nat) : Option Nat := if n = 0 then none else some n

/-- One record in a leaf page (tkrzw_dbm_tree.cc 1355-1364). -/
def recBytes (r : Rec) : Bytes := Codec.writeVarNum r.1.length ++ r.1 ++ Codec.writeVarNum r.2.length ++ r.2

/-- What `SaveLeafNodeImpl` writes into its buffer (tkrzw_dbm_tree.cc 1350-1364). -/
def leafBytes (l : Leaf) : Bytes := Codec.writeFixNum (idOf l.prev) 6 ++ Codec.writeFixNum (idOf l.next) 6 ++ l.recs.flatMap recBytes

/-- `SaveLeafNodeImpl` (tkrzw_dbm_tree.cc 1347-1375): the value stored.  The buffer has `page_size` bytes, at least WRITE_BUFFER_SIZE, and the first `page_size` bytes
of it are stored: `none` if the writes go beyond the buffer, if bytes are stored that were not written, or if the size does not fit in an `int32_t`. -/
def saveLeaf (l : Leaf) : Option Bytes :=
  if ((leafBytes l).length : Int) ≤ max 16384 l.page ∧ 0 ≤ l.page ∧ l.page ≤ (leafBytes l).length ∧ l.page < 2 ^ 31 then
    some ((leafBytes l).take l.page.toNat)
  else none

/-- One link in the page of an inner node (tkrzw_dbm_tree.cc 1500-1506). -/
def linkBytes (k : Bytes × Nat) : Bytes := Codec.writeVarNum k.1.length ++ k.1 ++ Codec.writeFixNum k.2 6

/-- `TreeLink::GetSerializedSize` (tkrzw_dbm_tree_impl.cc 88-90) with PAGE_ID_WIDTH. -/
def linkSize (k : Bytes × Nat) : Nat := Codec.sizeVarNum k.1.length + k.1.length + 6

/-- What `SaveInnerNode` writes into its buffer (tkrzw_dbm_tree.cc 1497-1506). -/
def innerBytes (n : Inner) : Bytes := Codec.writeFixNum n.heir 6 ++ n.links.flatMap linkBytes

/-- The page size that `SaveInnerNode` computes (tkrzw_dbm_tree.cc 1491-1494). -/
def innerSize (n : Inner) : Nat := 6 + (n.links.map linkSize).sum

/-- `SaveInnerNode` (tkrzw_dbm_tree.cc 1486-1517), as `saveLeaf`. -/
def saveInner (n : Inner) : Option Bytes :=
  if (innerBytes n).length ≤ max 16384 (innerSize n) ∧ innerSize n ≤ (innerBytes n).length ∧ innerSize n < 2 ^ 31 then
    some ((innerBytes n).take (innerSize n))
  else none

/-- The test on a size read from the page, and the bytes (tkrzw_dbm_tree.cc 307-312, 320-325, 351-356): the size is compared after conversion to `int32_t`. -/
def takeSized (s : Bytes) (n : Nat) : Parse (Bytes × Bytes) :=
  if (s.length : Int) < Codec.toInt32 n then .broken
  else if s.length < n then .outOfBounds
  else .ok (s.take n, s.drop n)

/-- A size and that many bytes. -/
def readSized (s : Bytes) : Parse (Bytes × Bytes) :=
  match Codec.readVarNum s with
  | none => .broken
  | some (n, k) => takeSized (s.drop k) n

theorem takeSized_length {s a b : Bytes} {n : Nat} (h : takeSized s n = .ok (a, b)) : b.length ≤ s.length := by
  unfold takeSized at h
  split at h
  · cases h
  · split at h
    · cases h
    · cases h; simp

theorem readSized_length {s a b : Bytes} (h : readSized s = .ok (a, b)) : b.length < s.length := by
  unfold readSized at h
  split at h
  · cases h
  · rename_i n k hk
    have h1 := takeSized_length h
    have h2 := Codec.readVarNum_used hk
    have : 0 < s.length := by
      cases s with
      | nil => simp [Codec.readVarNum, Codec.readVarNumLoop] at hk
      | cons => simp
    simp only [List.length_drop] at h1
    omega

/-- The loop of `DeserializeLeafNode` (tkrzw_dbm_tree.cc 299-328).  The page is shorter than 2^31 bytes (`int32_t record_size`). -/
def loadRecs (s : Bytes) : Parse (List Rec) :=
  if s = [] then .ok []
  else
    match hk : readSized s with
    | .ok (k, s1) =>
      match hv : readSized s1 with
      | .ok (v, s2) => (loadRecs s2).map ((k, v) :: ·)
      | .broken => .broken
      | .outOfBounds => .outOfBounds
    | .broken => .broken
    | .outOfBounds => .outOfBounds
termination_by s.length
decreasing_by
  have := readSized_length hk
  have := readSized_length hv
  omega

/-- `DeserializeLeafNode` (tkrzw_dbm_tree.cc 285-330) and the node made of it (tkrzw_dbm_tree.cc 247-251, 1308-1311, 1332-1333). -/
def loadLeaf (s : Bytes) : Parse Leaf :=
  if s.length < 12 then .broken
  else (loadRecs (s.drop 12)).map fun recs =>
    ⟨ofId (Codec.readFixNum s 6), ofId (Codec.readFixNum (s.drop 6) 6), recs, s.length, false⟩

/-- The loop of `DeserializeInnerNode` (tkrzw_dbm_tree.cc 342-363). -/
def loadLinks (s : Bytes) : Parse (List (Bytes × Nat)) :=
  if s = [] then .ok []
  else
    match hk : readSized s with
    | .ok (k, s1) =>
      if s1.length < 6 then .broken else (loadLinks (s1.drop 6)).map ((k, Codec.readFixNum s1 6) :: ·)
    | .broken => .broken
    | .outOfBounds => .outOfBounds
termination_by s.length
decreasing_by
  have := readSized_length hk
  simp only [List.length_drop]
  omega

/-- `DeserializeInnerNode` (tkrzw_dbm_tree.cc 332-365) and the node made of it (tkrzw_dbm_tree.cc 270-273). -/
def loadInner (s : Bytes) : Parse Inner :=
  if s.length < 6 then .broken
  else (loadLinks (s.drop 6)).map fun links => ⟨Codec.readFixNum s 6, links, false⟩

/-- The key of the page of a node (tkrzw_dbm_tree.cc 1295-1297, 1365-1367, 1450-1452, 1507-1509). -/
def pageKey (id : Nat) : Bytes := Codec.writeFixNum id 6

/-! ### Metadata -/

/-- What is in the opaque metadata of the hash database (tkrzw_dbm_tree.cc 33-45). -/
structure Meta where
  numRecords : Nat
  effDataSize : Nat
  root : Nat
  first : Nat
  last : Nat
  numLeaf : Nat
  numInner : Nat
  maxPage : Nat
  branch : Nat
  level : Nat
  comp : Nat
  opaqueData : Bytes
deriving DecidableEq, Repr

/-- The magic data "TDB" with the terminating zero (tkrzw_dbm_tree.cc 33). -/
def metaMagic : Bytes := [0x54, 0x44, 0x42, 0]

/-- `SaveMetadata` (tkrzw_dbm_tree.cc 1143-1194): 64 bytes, at most ten of which are the opaque data of the user. -/
def saveMeta (m : Meta) : Bytes :=
  metaMagic ++ Codec.writeFixNum m.numRecords 6 ++ Codec.writeFixNum m.effDataSize 6 ++ Codec.writeFixNum m.root 6 ++ Codec.writeFixNum m.first 6 ++
    Codec.writeFixNum m.last 6 ++ Codec.writeFixNum m.numLeaf 6 ++ Codec.writeFixNum m.numInner 6 ++ Codec.writeFixNum m.maxPage 3 ++
    Codec.writeFixNum m.branch 3 ++ Codec.writeFixNum m.level 1 ++ Codec.writeFixNum m.comp 1 ++ (m.opaqueData.take 10 ++ List.replicate (10 - (m.opaqueData.take 10).length) 0)

/-- `ParseMetadata` (tkrzw_dbm_tree.cc 2748-2782).  The last leaf is read from META_OFFSET_FIRST_ID (line 2770). -/
def parseMeta (s : Bytes) : Option Meta :=
  if s.length ≠ 64 then none
  else if s.take 4 ≠ metaMagic then none
  else some
    { numRecords := Codec.readFixNum (s.drop 4) 6
      effDataSize := Codec.readFixNum (s.drop 10) 6
      root := Codec.readFixNum (s.drop 16) 6
      first := Codec.readFixNum (s.drop 22) 6
      last := Codec.readFixNum (s.drop 22) 6
      numLeaf := Codec.readFixNum (s.drop 34) 6
      numInner := Codec.readFixNum (s.drop 40) 6
      maxPage := Codec.readFixNum (s.drop 46) 3
      branch := Codec.readFixNum (s.drop 49) 3
      level := Codec.readFixNum (s.drop 52) 1
      comp := Codec.readFixNum (s.drop 53) 1
      opaqueData := s.drop 54 }

/-- The comparator types of the metadata (tkrzw_dbm_tree.cc 1157-1189, 1242-1265); 255 stands for any other function. -/
def compTypes : List Nat := [1, 2, 3, 4, 5, 6, 7, 101, 102, 103, 104, 105, 106, 107]

/-- `LoadMetadata` (tkrzw_dbm_tree.cc 1196-1270): the checks.  A number of six bytes is never negative.  `custom` says whether the object has a comparator already. -/
def loadMeta (custom : Bool) (s : Bytes) : Option Meta := do
  let m ← parseMeta s
  if m.numLeaf < 1 then none
  else if m.maxPage < 1 then none
  else if m.branch < 2 then none
  else if m.level < 1 then none
  else if compTypes.contains m.comp || (m.comp == 255 && custom) then some m
  else none

end Verif.BTree
