import Verif.Codec.Text
import Verif.Containers.Heap
import Verif.Dbm.Cursor
import Verif.Dbm.Each
import Verif.Text.EditDistance
import Verif.Text.Match
import Verif.Text.Split
/-
`SearchDBM...` (tkrzw_dbm_common_impl.cc 58-378), behind the search methods of PolyDBM, ShardDBM and the command line tools: C56. Searching by a regular
expression, which is the C++ library's, is left out.
-/
namespace Verif.Dbm.Search
open Verif Verif.Codec Verif.Text Verif.Split

/-- `SIZE_MAX` for a capacity of zero (tkrzw_dbm_common_impl.cc 62-64, 91-93, 146-148, 241-243, 282-284). -/
def capOf (capacity : Nat) : Nat := if capacity = 0 then 2 ^ 64 - 1 else capacity

/-- `ProcessEach(processor, false)` of a database: it runs the processor on the records and, with `emp`, on its own before and after them. -/
structure Reader where
  each : {ρ : Type} → (Bytes → ρ → Bytes → Action × ρ) → (ρ → ρ) → ρ → ρ

/-- `Exporter::ProcessFull` (tkrzw_dbm_common_impl.cc 71-76, 101-106). -/
def exporter (matcher : Bytes → Bool) (cap : Nat) (key : Bytes) (matched : List Bytes) (_value : Bytes) : Action × List Bytes :=
  (.noop, if matched.length < cap && matcher key then matched ++ [key] else matched)

/-- `SearchDBMLambda` (tkrzw_dbm_common_impl.cc 86-113), and `SearchDBM` (58-84) with the pattern given to the matcher. -/
def search (R : Reader) (matcher : Bytes → Bool) (capacity : Nat) : List Bytes := R.each (exporter matcher (capOf capacity)) id []

/-- The loop of `SearchDBMForwardMatch` (tkrzw_dbm_common_impl.cc 155-168). -/
def forwardLoop {σ : Type} (C : Cursor.Impl σ) (pat : Bytes) (cap : Nat) : Nat → σ → List Bytes → Code × List Bytes
  | 0, _, matched => (.unknown, matched)
  | fuel + 1, s, matched =>
    if matched.length < cap then
      let (status, key) := C.key s
      if status ≠ .success then
        if status ≠ .notFound then (status, matched) else (.success, matched)
      else if !beginsWith key pat then (.success, matched)
      else forwardLoop C pat cap fuel (C.next s).1 (matched ++ [key])
    else (.success, matched)

/-- `SearchDBMForwardMatch` (tkrzw_dbm_common_impl.cc 140-170). `ordered` is `IsOrdered()`; `s` is the new iterator. -/
def forwardMatch {σ : Type} (R : Reader) (C : Cursor.Impl σ) (ordered : Bool) (fuel : Nat) (s : σ) (pat : Bytes) (capacity : Nat) : Code × List Bytes :=
  if !ordered then (.success, search R (fun k => beginsWith k pat) capacity)
  else
    let (s, status) := C.jump pat s
    if status ≠ .success then (status, []) else forwardLoop C pat (capOf capacity) fuel s []

/-- The loop of `SearchDBMOrder` (tkrzw_dbm_common_impl.cc 124-137). -/
def orderLoop {σ : Type} (C : Cursor.Impl σ) (upper : Bool) (cap : Nat) : Nat → σ → List Bytes → Code × List Bytes
  | 0, _, matched => (.unknown, matched)
  | fuel + 1, s, matched =>
    if matched.length < cap then
      let (status, key) := C.key s
      if status ≠ .success then
        if status ≠ .notFound then (status, matched) else (.success, matched)
      else
        let (s, status) := if upper then C.next s else C.prev s
        if status ≠ .success then (status, matched ++ [key]) else orderLoop C upper cap fuel s (matched ++ [key])
    else (.success, matched)

/-- `SearchDBMOrder` (tkrzw_dbm_common_impl.cc 115-138); `matched` is what the vector held. -/
def searchOrder {σ : Type} (C : Cursor.Impl σ) (fuel : Nat) (s : σ) (pat : Bytes) (upper inclusive : Bool) (matched : List Bytes) (capacity : Nat) : Code × List Bytes :=
  let (s, status) := if upper then C.jumpUpper pat inclusive s else C.jumpLower pat inclusive s
  if status ≠ .success then (status, matched) else orderLoop C upper capacity fuel s matched

/-- `Exporter::ProcessFull` of the searches by edit distance (tkrzw_dbm_common_impl.cc 253-258, 292-296). `none` is undefined behaviour on the way: an overflow
in the distance or an empty heap. -/
def editExporter (S : Heap.StdHeap bytesLt) (dist : Bytes → Option Nat) (cap : Nat) (key : Bytes) (heap : Option (List (Heap.Item Bytes))) (_value : Bytes) :
    Action × Option (List (Heap.Item Bytes)) :=
  (.noop, heap.bind fun h => (dist key).bind fun n => Heap.add S n key cap h)

/-- `SearchDBMEditDistance` and `SearchDBMEditDistanceBinary` (tkrzw_dbm_common_impl.cc 238-277, 279-315), given the distance from the pattern. -/
def searchEdit (R : Reader) (S : Heap.StdHeap bytesLt) (dist : Bytes → Option Nat) (capacity : Nat) : Option (List Bytes) :=
  (R.each (editExporter S dist (capOf capacity)) id (some [])).map fun heap => (Heap.finish S heap).map (·.2)

/-- The distance of characters (tkrzw_dbm_common_impl.cc 244, 254-255). -/
def charDist (pat key : Bytes) : Option Nat := EditDistance.editDistanceLev (utf8ToUcs4 pat) (utf8ToUcs4 key)

/-- The distance of bytes (tkrzw_dbm_common_impl.cc 293). -/
def byteDist (pat key : Bytes) : Option Nat := EditDistance.editDistanceLev pat key

/-- The patterns of the modes with a star: the lines that are not empty (tkrzw_dbm_common_impl.cc 340, 346, 352, 358). -/
def patterns (pat : Bytes) : List Bytes := splitChar pat 10 true

/-- `SearchDBMModal` (tkrzw_dbm_common_impl.cc 317-378), all modes but "regex". `fuel` bounds the loops; `matched` is what the vector held; the result `none` is
undefined behaviour. -/
def modal {σ : Type} (R : Reader) (C : Cursor.Impl σ) (ordered : Bool) (S : Heap.StdHeap bytesLt) (fuel : Nat) (s : σ) (mode pat : Bytes)
    (matched : List Bytes) (capacity : Nat) : Option (Code × List Bytes) :=
  if mode = asc "contain" then some (.success, search R (fun k => contains k pat) capacity)
  else if mode = asc "begin" then some (forwardMatch R C ordered fuel s pat capacity)
  else if mode = asc "end" then some (.success, search R (fun k => endsWith k pat) capacity)
  else if mode = asc "edit" then (searchEdit R S (charDist pat) capacity).map fun l => (.success, l)
  else if mode = asc "editbin" then (searchEdit R S (byteDist pat) capacity).map fun l => (.success, l)
  else if mode = asc "containcase" then some (.success, search R (fun k => caseContains k pat) capacity)
  else if mode = asc "containword" then some (.success, search R (fun k => wordContains k pat) capacity)
  else if mode = asc "containcaseword" then some (.success, search R (fun k => caseWordContains k pat) capacity)
  else if mode = asc "contain*" then some (.success, search R (fun k => containsBatch k (patterns pat)) capacity)
  else if mode = asc "containcase*" then some (.success, search R (fun k => caseContainsBatch k (patterns pat)) capacity)
  else if mode = asc "containword*" then some (.success, search R (fun k => wordContainsBatch k (patterns pat)) capacity)
  else if mode = asc "containcaseword*" then
    some (.success, search R (fun k => caseWordContainsBatchLower k ((patterns pat).map lowerCase)) capacity)
  else if mode = asc "upper" then some (searchOrder C fuel s pat true false matched capacity)
  else if mode = asc "upperinc" then some (searchOrder C fuel s pat true true matched capacity)
  else if mode = asc "lower" then some (searchOrder C fuel s pat false false matched capacity)
  else if mode = asc "lowerinc" then some (searchOrder C fuel s pat false true matched capacity)
  else some (.invalidArgument, matched)

end Verif.Dbm.Search
