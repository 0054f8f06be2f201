import Verif.Poly.Model
import Verif.Text.Edit
import Verif.Text.Split
/-
What the values of parameters mean to PolyDBM (tkrzw_dbm_poly.cc 140-353), `SynchronizeAdvanced`, `RebuildAdvanced` and `RestoreDatabase` of PolyDBM
(tkrzw_dbm_poly.cc 681-886), and PolyFile (tkrzw_file_poly.cc).

Simplified: numbers and booleans among the parameters are left to functions (`StrToInt`, `StrToIntMetric` and `StrToBool` are not part of this model); what
the database or the file inside does is part of the call.
-/
namespace Verif.Poly
open Verif Verif.Codec
open Verif.Text (lowerCase)
open Verif.Split (splitChar)
open Verif.Edit (strStripSpace)

/-- The reducers of SkipDBM (tkrzw_dbm_skip.h, the static methods `Reduce...`). -/
inductive Reducer where
  | remove | toFirst | toSecond | toLast | concat | concatWithNull | concatWithTab | concatWithLine | toTotal | toTotalBigEndian
  deriving DecidableEq

/-- `GetReducerByName` (tkrzw_dbm_poly.cc 140-165): one short name is compared with the name as it is given. -/
def reducerOf (name : Bytes) : Option Reducer :=
  let l := lowerCase name
  if l = asc "reduceremove" ∨ name = asc "remove" then some .remove
  else if l = asc "reducetofirst" ∨ l = asc "first" then some .toFirst
  else if l = asc "reducetosecond" ∨ l = asc "second" then some .toSecond
  else if l = asc "reducetolast" ∨ l = asc "last" then some .toLast
  else if l = asc "reduceconcat" ∨ l = asc "concat" then some .concat
  else if l = asc "reduceconcatwithnull" ∨ l = asc "concatnull" then some .concatWithNull
  else if l = asc "reduceconcatwithtab" ∨ l = asc "concattab" then some .concatWithTab
  else if l = asc "reduceconcatwithline" ∨ l = asc "concatline" then some .concatWithLine
  else if l = asc "reducetototal" ∨ l = asc "total" then some .toTotal
  else if l = asc "reducetototalbigendian" ∨ l = asc "totalbigendian" ∨ l = asc "totalbe" then some .toTotalBigEndian
  else none

/-- `HashDBM::UpdateMode` (tkrzw_dbm_hash.h 169-176). -/
inductive Update where
  | default | inPlace | appending
  deriving DecidableEq

/-- `HashDBM::RecordCRCMode` (tkrzw_dbm_hash.h 181-192). -/
inductive Crc where
  | default | none | crc8 | crc16 | crc32
  deriving DecidableEq

/-- `HashDBM::RecordCompressionMode` (tkrzw_dbm_hash.h 197-214). -/
inductive Compr where
  | default | none | zlib | zstd | lz4 | lzma | rc4 | aes
  deriving DecidableEq

/-- The lower half of `HashDBM::RestoreMode` (tkrzw_dbm_hash.h 219-228). -/
inductive Mode where
  | default | sync | readOnly | noop
  deriving DecidableEq

/-- `restore_mode` (tkrzw_dbm_hash.h 219-232). -/
structure Restore where
  mode : Mode
  noShortcuts : Bool
  hardSync : Bool
  deriving DecidableEq

/-- The update mode (tkrzw_dbm_poly.cc 169-175). No value has two names, so that the series of conditions is a chain, here and below. -/
def updateOf (v : Bytes) : Update :=
  let l := lowerCase v
  if l = asc "update_in_place" ∨ l = asc "in_place" then .inPlace
  else if l = asc "update_appending" ∨ l = asc "appending" then .appending
  else .default

/-- The CRC mode (tkrzw_dbm_poly.cc 176-192). -/
def crcOf (v : Bytes) : Crc :=
  let l := lowerCase v
  if l = asc "record_crc_none" ∨ l = asc "crc_none" ∨ l = asc "none" then .none
  else if l = asc "record_crc_8" ∨ l = asc "crc_8" ∨ l = asc "crc-8" ∨ l = asc "8" then .crc8
  else if l = asc "record_crc_16" ∨ l = asc "crc_16" ∨ l = asc "crc-16" ∨ l = asc "16" then .crc16
  else if l = asc "record_crc_32" ∨ l = asc "crc_32" ∨ l = asc "crc-32" ∨ l = asc "32" then .crc32
  else .default

/-- The compression mode (tkrzw_dbm_poly.cc 193-221). -/
def comprOf (v : Bytes) : Compr :=
  let l := lowerCase v
  if l = asc "record_comp_none" ∨ l = asc "comp_none" ∨ l = asc "none" then .none
  else if l = asc "record_comp_zlib" ∨ l = asc "comp_zlib" ∨ l = asc "zlib" ∨ l = asc "deflate" then .zlib
  else if l = asc "record_comp_zstd" ∨ l = asc "comp_zstd" ∨ l = asc "zstd" then .zstd
  else if l = asc "record_comp_lz4" ∨ l = asc "comp_lz4" ∨ l = asc "lz4" then .lz4
  else if l = asc "record_comp_lzma" ∨ l = asc "comp_lzma" ∨ l = asc "lzma" ∨ l = asc "xz" then .lzma
  else if l = asc "record_comp_rc4" ∨ l = asc "comp_rc4" ∨ l = asc "rc4" ∨ l = asc "arcfour" then .rc4
  else if l = asc "record_comp_aes" ∨ l = asc "comp_aes" ∨ l = asc "aes" ∨ l = asc "rijndael" then .aes
  else .default

/-- One element of the restore mode (tkrzw_dbm_poly.cc 227-244, 296-313). -/
def restoreStep (r : Restore) (expr : Bytes) : Restore :=
  let l := lowerCase (strStripSpace expr)
  let r := if l = asc "restore_sync" ∨ l = asc "sync" then { r with mode := .sync } else r
  let r := if l = asc "restore_read_only" ∨ l = asc "read_only" then { r with mode := .readOnly } else r
  let r := if l = asc "restore_noop" ∨ l = asc "noop" then { r with mode := .noop } else r
  let r := if l = asc "restore_no_shortcuts" ∨ l = asc "no_shortcuts" then { r with noShortcuts := true } else r
  if l = asc "restore_with_hardsync" ∨ l = asc "with_hardsync" then { r with hardSync := true } else r

/-- The restore mode (tkrzw_dbm_poly.cc 225-250, 294-319). -/
def restoreOf (v : Bytes) : Restore := (splitChar v (ch ':') false).foldl restoreStep ⟨.default, false, false⟩

/-- The modes of `HashDBM::TuningParameters` (tkrzw_dbm_hash.h 238-309). -/
structure HashTune where
  update : Update
  crc : Crc
  compr : Compr
  restore : Restore
  deriving DecidableEq

/-- `SetHashTuningParams`, without the numbers (tkrzw_dbm_poly.cc 167-266). -/
def hashTune (m : Params) : HashTune :=
  ⟨updateOf (search m (asc "update_mode") []), crcOf (search m (asc "record_crc_mode") []), comprOf (search m (asc "record_comp_mode") []),
   restoreOf (search m (asc "restore_mode") [])⟩

/-! ### SynchronizeAdvanced, RebuildAdvanced, RestoreDatabase -/

inductive SyncRes where
  | precondition
  | mergeFails (path : Bytes)
  | badReducer
  | unsupported (key : Bytes)
  | ran (reducer : Option Reducer)
  deriving DecidableEq

/-- The loop of `SynchronizeAdvanced` over the paths (tkrzw_dbm_poly.cc 774-779): the databases that have been merged, and the one that could not be. -/
def mergeAll (merges : Bytes → Bool) : List Bytes → List Bytes × Option Bytes
  | [] => ([], none)
  | p :: ps => if merges p then let r := mergeAll merges ps; (p :: r.1, r.2) else ([], some p)

/-- The end of `SynchronizeAdvanced` (tkrzw_dbm_poly.cc 791-803). -/
def endSync (rest : Params) (r : Option Reducer) : SyncRes :=
  match rest with
  | [] => .ran r
  | p :: _ => .unsupported p.1

/-- `PolyDBM::SynchronizeAdvanced` on a database of a class (tkrzw_dbm_poly.cc 765-805): the databases that have been merged, and the result. Whether
`MergeSkipDatabase` succeeds for a path is given. -/
def syncAdvanced (merges : Bytes → Bool) (inner : Option Kind) (params : Params) : List Bytes × SyncRes :=
  match inner with
  | none => ([], .precondition)
  | some k =>
    if k = .skip then
      let m := mergeAll merges (splitChar (search params (asc "merge") []) (ch ':') true)
      match m.2 with
      | some p => (m.1, .mergeFails p)
      | none =>
        let name := search params (asc "reducer") []
        let rest := erase params [asc "merge", asc "reducer"]
        if name = [] then (m.1, endSync rest none)
        else match reducerOf name with
        | none => (m.1, .badReducer)
        | some r => (m.1, endSync rest (some r))
    else ([], endSync params none)

inductive RebuildRes where
  | precondition
  | unsupported (key : Bytes)
  | ran (skip hard : Bool)
  deriving DecidableEq

/-- The end of each branch of `RebuildAdvanced` (tkrzw_dbm_poly.cc 695-699, 709-713, 723-727, 733-737, 745-749, 751-755). -/
def endRebuild (rest : Params) (skip hard : Bool) : RebuildRes :=
  match rest with
  | [] => .ran skip hard
  | p :: _ => .unsupported p.1

/-- `PolyDBM::RebuildAdvanced` on a database of a class (tkrzw_dbm_poly.cc 681-756). -/
def rebuildAdvanced (toBool : Bytes → Bool) (inner : Option Kind) (params : Params) : RebuildRes :=
  let skip := toBool (search params (asc "skip_broken_records") (asc "false"))
  let hard := toBool (search params (asc "sync_hard") (asc "false"))
  let flags := [asc "skip_broken_records", asc "sync_hard"]
  match inner with
  | none => .precondition
  | some .hash => endRebuild (erase (erase params hashKeys) flags) skip hard
  | some .tree => endRebuild (erase (erase (erase params hashKeys) treeKeys) flags) skip hard
  | some .skip => endRebuild (erase (erase params skipKeys) flags) skip hard
  | some .tiny => endRebuild (erase params [asc "num_buckets"]) false false
  | some .cache => endRebuild (erase params [asc "cap_rec_num", asc "cap_mem_size"]) false false
  | some _ => endRebuild params false false

/-- `PolyDBM::RestoreDatabase`: the class whose method is called, if there is one (tkrzw_dbm_poly.cc 871-886). -/
def restoreClass (path name : Bytes) : Option Kind :=
  let l := lowerCase name
  let l := if l = [] then guess path else l
  if l = asc "hash" ∨ l = asc "hashdbm" then some .hash
  else if l = asc "tree" ∨ l = asc "treedbm" then some .tree
  else if l = asc "skip" ∨ l = asc "skipdbm" then some .skip
  else none

/-! ### PolyFile -/

/-- The access options of a positional file (tkrzw_file_pos.h, `AccessOption`). -/
structure Access where
  direct : Bool
  sync : Bool
  padding : Bool
  pagecache : Bool
  deriving DecidableEq

/-- One element of the access options (tkrzw_file_poly.cc 203-215). -/
def accessStep (a : Access) (expr : Bytes) : Access :=
  let l := lowerCase (strStripSpace expr)
  let a := if l = asc "direct" then { a with direct := true } else a
  let a := if l = asc "sync" then { a with sync := true } else a
  let a := if l = asc "padding" then { a with padding := true } else a
  if l = asc "pagecache" then { a with pagecache := true } else a

/-- The access options (tkrzw_file_poly.cc 201-216). -/
def accessOf (v : Bytes) : Access := (splitChar v (ch ':') false).foldl accessStep ⟨false, false, false, false⟩

/-- A file: its class, and for a positional one the block size and the access options. -/
structure Made where
  kind : FileKind
  strategy : Option (Int × Access)
  deriving DecidableEq

/-- `PolyFile::MakeFileInstance` (tkrzw_file_poly.cc 176-221). -/
def makeFile (toInt : Bytes → Int) (params : Params) : Option Made :=
  match fileOf (lowerCase (search params (asc "file") [])) with
  | none => none
  | some f =>
    if f = .posPara ∨ f = .posAtom then
      some ⟨f, some (max (toInt (search params (asc "block_size") (asc "-1"))) 1, accessOf (search params (asc "access_options") []))⟩
    else some ⟨f, none⟩

inductive FileRes where
  | done | precondition | fails | undefined
  deriving DecidableEq

/-- `PolyFile::OpenAdvanced` (tkrzw_file_poly.cc 29-45), given whether the file can be opened; it does not look whether there is a file object. -/
def fileOpen (toInt : Bytes → Int) (opens : Bool) (s : Option Made) (params : Params) : Option Made × FileRes :=
  match s with
  | some _ => (s, .precondition)
  | none =>
    match makeFile toInt params with
    | none => (none, .undefined)
    | some f => if opens then (some f, .done) else (none, .fails)

/-- `PolyFile::Close` (tkrzw_file_poly.cc 47-55), given whether the file inside closes well. -/
def fileClose (closes : Bool) (s : Option Made) : Option Made × FileRes :=
  match s with
  | none => (none, .precondition)
  | some _ => (none, if closes then .done else .fails)

/-- The other methods of `PolyFile`, given what the file inside would return (tkrzw_file_poly.cc 57-145). -/
def fileCall (s : Option Made) (inside : FileRes) : FileRes :=
  match s with
  | none => .precondition
  | some _ => inside

end Verif.Poly
