import Verif.Skip.Model
/-
Model of the external sorter of SkipDBM (tkrzw_dbm_skip_impl.cc 535-730) and of the merge with the reducers
(tkrzw_dbm_skip.cc 1300-1356 and 1986-2060).

Simplifications: the runs in the temporary files are kept as lists (they are written with SerializeStrPair and
FlatRecord, whose round trips are C35 and C28); `std::stable_sort` and the heap functions are modelled by what the
standard says of them: a stable sort, and a heap whose top is the least slot for (key, id). The slots read their
sources one record at a time; as the sources do not change meanwhile, here a slot holds the list of what is left.
-/
namespace Verif.Skip
open Verif

/-- Insert a record before the first one whose key is not less. -/
def insertRec (r : Bytes × Bytes) : List (Bytes × Bytes) → List (Bytes × Bytes)
  | [] => [r]
  | x :: l => if bytesLt x.1 r.1 then x :: insertRec r l else r :: x :: l

/-- std::stable_sort by the key (tkrzw_dbm_skip_impl.cc 716-719). -/
def stableSort (l : List (Bytes × Bytes)) : List (Bytes × Bytes) := l.foldr insertRec []

/-- RecordSorter (tkrzw_dbm_skip_impl.h 391-417): the records in memory, their size, the runs written so far and the
record files to merge with their parameters. -/
structure Sorter where
  maxMem : Nat
  current : List (Bytes × Bytes)
  mem : Nat
  runs : List (List (Bytes × Bytes))
  sources : List (Cfg × Bytes)

/-- RecordSorter::RecordSorter (tkrzw_dbm_skip_impl.cc 535-537). -/
def Sorter.new (maxMem : Nat) : Sorter := ⟨maxMem, [], 0, [], []⟩

/-- RecordSorter::Flush (tkrzw_dbm_skip_impl.cc 700-730). -/
def Sorter.flush (s : Sorter) : Sorter := { s with runs := s.runs ++ [stableSort s.current], current := [], mem := 0 }

/-- RecordSorter::Add (tkrzw_dbm_skip_impl.cc 550-562); REC_MEM_FOOT is 8 (tkrzw_dbm_skip_impl.h 391). -/
def Sorter.add (s : Sorter) (key value : Bytes) : Sorter :=
  let s' := { s with mem := s.mem + (Codec.serializeStrPair key value).length + 8, current := s.current ++ [(key, value)] }
  if s.maxMem ≤ s'.mem then s'.flush else s'

/-- RecordSorter::AddSkipRecord (tkrzw_dbm_skip_impl.cc 564-566). -/
def Sorter.addSource (s : Sorter) (c : Cfg) (F : Bytes) : Sorter := { s with sources := s.sources ++ [(c, F)] }

/-- RecordSorter::IsUpdated (tkrzw_dbm_skip_impl.cc 572-574). -/
def Sorter.isUpdated (s : Sorter) : Bool := !s.current.isEmpty || !s.runs.isEmpty || !s.sources.isEmpty

/-- Reading all the sources (tkrzw_dbm_skip_impl.cc 587-620 and 671-690). -/
def scanAll : List (Cfg × Bytes) → Rd (List (List (Bytes × Bytes)))
  | [] => .ok []
  | (c, F) :: rest => do
    let l ← scan c F
    let ls ← scanAll rest
    pure (l :: ls)

/-- RecordSorter::Finish (tkrzw_dbm_skip_impl.cc 576-644): the slots in the order of their ids. -/
def Sorter.finish (s : Sorter) : Rd (List (List (Bytes × Bytes))) := do
  let s' := if s.current.isEmpty then s else s.flush
  let ls ← scanAll s'.sources
  pure (ls ++ s'.runs)

/-- The slot with the least (key, id): its first record and the slots after taking it out
(tkrzw_dbm_skip_impl.cc 653-657, tkrzw_dbm_skip_impl.h 376-378). -/
def popMin : List (List (Bytes × Bytes)) → Option ((Bytes × Bytes) × List (List (Bytes × Bytes)))
  | [] => none
  | [] :: rest =>
    match popMin rest with
    | none => none
    | some (r, rest') => some (r, [] :: rest')
  | (x :: xs) :: rest =>
    match popMin rest with
    | none => some (x, xs :: rest)
    | some (r, rest') => if bytesLt r.1 x.1 then some (r, (x :: xs) :: rest') else some (x, xs :: rest)

/-- RecordSorter::Get until NOT_FOUND_ERROR (tkrzw_dbm_skip_impl.cc 646-698); the first argument bounds the number of
calls. -/
def drain : Nat → List (List (Bytes × Bytes)) → List (Bytes × Bytes)
  | 0, _ => []
  | n + 1, slots =>
    match popMin slots with
    | none => []
    | some (r, slots') => r :: drain n slots'

/-- All the records in the merged order (tkrzw_dbm_skip_impl.cc 646-698). -/
def merged (slots : List (List (Bytes × Bytes))) : List (Bytes × Bytes) := drain (slots.flatten.length) slots

/-- SkipDBM::ReducerType (tkrzw_dbm_skip.h 205-206). -/
abbrev Reducer := Bytes → List Bytes → List Bytes

/-- SkipDBM::REMOVING_VALUE (tkrzw_dbm_skip.cc 1765). -/
def removingValue : Bytes := [0xDE, 0xAD, 0x00, 0x19, 0x78, 0x02, 0x11]

/-- SkipDBM::ReduceRemove (tkrzw_dbm_skip.cc 1986-1998). -/
def reduceRemove (values : List Bytes) : List Bytes :=
  values.foldl (fun result v => if v = removingValue then [] else result ++ [v]) []

/-- The records written for a key (tkrzw_dbm_skip.cc 1326-1338 and 1345-1356). -/
def emit (removed : Bool) (reducer : Option Reducer) (key : Bytes) (values : List Bytes) : List (Bytes × Bytes) :=
  let live := if removed then reduceRemove values else values
  if live.isEmpty then []
  else ((match reducer with | none => live | some f => f key live).map fun v => (key, v))

/-- The loop over the merged records (tkrzw_dbm_skip.cc 1302-1357), as the list of the records it writes;
`key` and `values` are `last_key` and `last_values`. -/
def reduceLoop (removed : Bool) (reducer : Option Reducer) : List (Bytes × Bytes) → Bytes → List Bytes → List (Bytes × Bytes)
  | [], key, values => if values.isEmpty then [] else emit removed reducer key values
  | r :: rest, key, values =>
    if reducer.isNone && !removed then r :: reduceLoop removed reducer rest key values
    else if values.isEmpty then reduceLoop removed reducer rest r.1 [r.2]
    else if r.1 = key then reduceLoop removed reducer rest key (values ++ [r.2])
    else emit removed reducer key values ++ reduceLoop removed reducer rest r.1 [r.2]

/-- SkipDBM::ReduceToFirst (tkrzw_dbm_skip.cc 2000-2004). -/
def reduceToFirst : Reducer := fun _ values => [values.head?.getD []]

/-- SkipDBM::ReduceToSecond (tkrzw_dbm_skip.cc 2006-2010). -/
def reduceToSecond : Reducer := fun _ values => [if 1 < values.length then values.getD 1 [] else values.getD 0 []]

/-- SkipDBM::ReduceToLast (tkrzw_dbm_skip.cc 2012-2016). -/
def reduceToLast : Reducer := fun _ values => [values.getLast?.getD []]

/-- StrJoin of the values with a separator (tkrzw_dbm_skip.cc 2018-2040; tkrzw_str_util.h StrJoin). -/
def joinWith (sep : Bytes) : List Bytes → Bytes
  | [] => []
  | [v] => v
  | v :: rest => v ++ sep ++ joinWith sep rest

/-- SkipDBM::ReduceConcat, ReduceConcatWithNull, ReduceConcatWithTab, ReduceConcatWithLine
(tkrzw_dbm_skip.cc 2018-2040) for their separators. -/
def reduceConcat (sep : Bytes) : Reducer := fun _ values => [joinWith sep values]

/-- SkipDBM::ReduceToTotalBigEndian (tkrzw_dbm_skip.cc 2052-2060); the sum is 64 bits wide. -/
def reduceToTotalBigEndian : Reducer := fun _ values =>
  [Codec.intToStrBigEndian ((values.map Codec.strToIntBigEndian).sum % 2 ^ 64) 8]

end Verif.Skip
