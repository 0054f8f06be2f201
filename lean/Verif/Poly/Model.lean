import Verif.Codec.Text
import Verif.File.Path
import Verif.Text.Match
/-
The choice of the database by `PolyDBM::OpenAdvanced`, and its life cycle (tkrzw_dbm_poly.cc, tkrzw_file_poly.cc).

Simplified: what the values of parameters mean is modelled for `dbm`, `file`, `key_comparator` and the prefix of the update log only. Whether the
database inside, and the message queue for the update log, can be opened is part of the call.
-/
namespace Verif.Poly
open Verif Verif.Codec
open Verif.Path (pathToBaseName pathToExtension)
open Verif.Text (lowerCase beginsWith)

/-- The classes of databases (tkrzw_dbm_poly.h 255-262). -/
inductive Kind where
  | hash | tree | skip | tiny | baby | cache | stdHash | stdTree
  deriving DecidableEq

/-- The classes of files (tkrzw_dbm_poly.h 266-268). -/
inductive FileKind where
  | std | mmapPara | mmapAtom | posPara | posAtom
  deriving DecidableEq

/-- The key comparators (tkrzw_key_comparators.h). -/
inductive Comp where
  | lexical | lexicalCase | decimal | hexadecimal | realNumber | signedBigEndian | floatBigEndian
  | pairLexical | pairLexicalCase | pairDecimal | pairHexadecimal | pairRealNumber | pairSignedBigEndian | pairFloatBigEndian
  deriving DecidableEq

/-- `std::map` of strings, in the order of the keys. -/
abbrev Params := List (Bytes × Bytes)

/-- `SearchMap` (tkrzw_lib_common.h 261-267). -/
def search (m : Params) (key dflt : Bytes) : Bytes := (m.lookup key).getD dflt

/-- `params->erase` of some keys (tkrzw_dbm_poly.cc 255-265). -/
def erase (m : Params) (keys : List Bytes) : Params := m.filter fun p => !keys.contains p.1

/-- The extension in lower case, without what begins with a hyphen (tkrzw_dbm_poly.cc 67-72). -/
def guessExt (path : Bytes) : Bytes :=
  (pathToExtension (lowerCase (pathToBaseName path))).takeWhile (· ≠ ch '-')

/-- The end of `GuessClassNameFromPath` (tkrzw_dbm_poly.cc 73-90). -/
def extClass (ext : Bytes) : Bytes :=
  if ext = asc "tkh" ∨ ext = asc "hash" then asc "hash"
  else if ext = asc "tkt" ∨ ext = asc "tree" then asc "tree"
  else if ext = asc "tks" ∨ ext = asc "skip" then asc "skip"
  else if ext = asc "tkmt" ∨ ext = asc "tiny" ∨ ext = asc "flat" then asc "tiny"
  else if ext = asc "tkmb" ∨ ext = asc "baby" then asc "baby"
  else if ext = asc "tkmc" ∨ ext = asc "cache" then asc "cache"
  else if ext = asc "tksh" ∨ ext = asc "stdhash" then asc "stdhash"
  else if ext = asc "tkst" ∨ ext = asc "stdtree" then asc "stdtree"
  else []

/-- `GuessClassNameFromPath` (tkrzw_dbm_poly.cc 66-91). -/
def guess (path : Bytes) : Bytes := extClass (guessExt path)

/-- `GetKeyComparatorByName` (tkrzw_dbm_poly.cc 93-138): two of the long names are not in lower case. -/
def compOf (name : Bytes) : Option Comp :=
  let l := lowerCase name
  if l = asc "lexicalkeycomparator" ∨ l = asc "lexical" then some .lexical
  else if l = asc "lexicalCasekeycomparator" ∨ l = asc "lexicalcase" then some .lexicalCase
  else if l = asc "decimalkeycomparator" ∨ l = asc "decimal" then some .decimal
  else if l = asc "hexadecimalkeycomparator" ∨ l = asc "hexadecimal" then some .hexadecimal
  else if l = asc "realnumberkeycomparator" ∨ l = asc "realnumber" then some .realNumber
  else if l = asc "signedbigendiankeycomparator" ∨ l = asc "signedbigendian" then some .signedBigEndian
  else if l = asc "floatbigendiankeycomparator" ∨ l = asc "floatbigendian" then some .floatBigEndian
  else if l = asc "pairlexicalkeycomparator" ∨ l = asc "pairlexical" then some .pairLexical
  else if l = asc "pairlexicalCasekeycomparator" ∨ l = asc "pairlexicalcase" then some .pairLexicalCase
  else if l = asc "pairdecimalkeycomparator" ∨ l = asc "pairdecimal" then some .pairDecimal
  else if l = asc "pairhexadecimalkeycomparator" ∨ l = asc "pairhexadecimal" then some .pairHexadecimal
  else if l = asc "pairrealnumberkeycomparator" ∨ l = asc "pairrealnumber" then some .pairRealNumber
  else if l = asc "pairsignedbigendiankeycomparator" ∨ l = asc "pairsignedbigendian" then some .pairSignedBigEndian
  else if l = asc "pairfloatbigendiankeycomparator" ∨ l = asc "pairfloatbigendian" then some .pairFloatBigEndian
  else none

/-- The class by its name in lower case (tkrzw_dbm_poly.cc 384, 402, 424, 442, 462, 490, 512, 532, 549-551). -/
def classOf (l : Bytes) : Option Kind :=
  if l = asc "hash" ∨ l = asc "hashdbm" then some .hash
  else if l = asc "tree" ∨ l = asc "treedbm" then some .tree
  else if l = asc "skip" ∨ l = asc "skipdbm" then some .skip
  else if l = asc "tiny" ∨ l = asc "tinydbm" then some .tiny
  else if l = asc "baby" ∨ l = asc "babydbm" then some .baby
  else if l = asc "cache" ∨ l = asc "cachedbm" then some .cache
  else if l = asc "stdhash" ∨ l = asc "stdhashdbm" then some .stdHash
  else if l = asc "stdtree" ∨ l = asc "stdtreedbm" then some .stdTree
  else none

/-- The class of the file by its name in lower case (tkrzw_file_poly.cc 180-191). -/
def fileOf (l : Bytes) : Option FileKind :=
  if l = asc "stdfile" ∨ l = asc "std" then some .std
  else if l = [] ∨ l = asc "memorymapparallelfile" ∨ l = asc "mmap-para" then some .mmapPara
  else if l = asc "memorymapatomicfile" ∨ l = asc "mmap-atom" then some .mmapAtom
  else if l = asc "positionalparallelfile" ∨ l = asc "pos-para" then some .posPara
  else if l = asc "positionalatomicfile" ∨ l = asc "pos-atom" then some .posAtom
  else none

/-- The parameters that `MakeFileInstance` takes (tkrzw_file_poly.cc 192, 217-218). -/
def fileKeys : FileKind → List Bytes
  | .posPara | .posAtom => [asc "file", asc "block_size", asc "access_options"]
  | _ => [asc "file"]

/-- The parameters that `SetHashTuningParams` takes (tkrzw_dbm_poly.cc 255-265). -/
def hashKeys : List Bytes :=
  [asc "update_mode", asc "record_crc_mode", asc "record_comp_mode", asc "offset_width", asc "align_pow", asc "num_buckets",
   asc "restore_mode", asc "fbp_capacity", asc "min_read_size", asc "cache_buckets", asc "cipher_key"]

/-- The parameters that `SetTreeTuningParams` takes in addition (tkrzw_dbm_poly.cc 283-287). -/
def treeKeys : List Bytes :=
  [asc "max_page_size", asc "max_branches", asc "max_cached_pages", asc "page_update_mode", asc "key_comparator"]

/-- The parameters that `SetSkipTuningParams` takes (tkrzw_dbm_poly.cc 325-331). -/
def skipKeys : List Bytes :=
  [asc "offset_width", asc "step_unit", asc "max_level", asc "restore_mode", asc "sort_mem_size", asc "insert_in_order",
   asc "max_cached_records"]

/-- The parameters that `MakeOwnedUpdateLogger` takes (tkrzw_dbm_poly.cc 347-350). -/
def ulogKeys : List Bytes := [asc "ulog_prefix", asc "ulog_max_file_size", asc "ulog_server_id", asc "ulog_dbm_index"]

/-- What is opened; the comparator if one is set. -/
structure Choice where
  kind : Kind
  file : FileKind
  comp : Option Comp
  deriving DecidableEq

inductive Err where
  | unknownClass | unknownFile | comparator
  | unsupported (key : Bytes)
  deriving DecidableEq

/-- No parameter may be left (tkrzw_dbm_poly.cc 391-394 and alike). -/
def finish (m : Params) (c : Choice) : Except Err Choice :=
  match m with
  | [] => .ok c
  | p :: _ => .error (.unsupported p.1)

/-- The branches of `OpenAdvanced` by class, up to the opening (tkrzw_dbm_poly.cc 384-551). The comparator of a TreeDBM is checked when its parameter
has been erased (tkrzw_dbm_poly.cc 408-412). -/
def tune (k : Kind) (f : FileKind) (m : Params) : Except Err Choice :=
  let name := search m (asc "key_comparator") []
  match k with
  | .hash => finish (erase m hashKeys) ⟨.hash, f, none⟩
  | .tree =>
    let rest := erase (erase m hashKeys) treeKeys
    if search rest (asc "key_comparator") [] ≠ [] ∧ compOf name = none then .error .comparator
    else finish rest ⟨.tree, f, compOf name⟩
  | .skip => finish (erase m skipKeys) ⟨.skip, f, none⟩
  | .tiny => finish (erase m [asc "num_buckets"]) ⟨.tiny, f, none⟩
  | .baby =>
    if name ≠ [] ∧ compOf name = none then .error .comparator
    else finish (erase m [asc "key_comparator"]) ⟨.baby, f, compOf name⟩
  | .cache => finish (erase m [asc "cap_rec_num", asc "cap_mem_size"]) ⟨.cache, f, none⟩
  | .stdHash => finish (erase m [asc "num_buckets"]) ⟨.stdHash, f, none⟩
  | .stdTree => finish m ⟨.stdTree, f, none⟩

/-- The first part of `OpenAdvanced` (tkrzw_dbm_poly.cc 368-383), and the classes. -/
def choose (path : Bytes) (params : Params) : Except Err Choice :=
  let m := params.filter fun p => !beginsWith p.1 (asc "ulog_")
  let name := lowerCase (search m (asc "dbm") [])
  let name := if name = [] then guess path else name
  let name := if name = [] ∧ path = [] then asc "tiny" else name
  let m := erase m [asc "dbm"]
  match classOf name with
  | none => .error .unknownClass
  | some k =>
    match fileOf (lowerCase (search m (asc "file") [])) with
    | none => .error .unknownFile
    | some f => tune k f (erase m (fileKeys f))

/-- What the rest of the world does: `StrToIntMetric`, and whether the database and the message queue can be opened. -/
structure Env where
  metric : Bytes → Int
  dbmOpens : Bool
  ulogOpens : Bool

/-- The database inside: what it is, whether it has been opened, whether it has a logger. -/
structure Inner where
  choice : Choice
  opened : Bool
  logger : Bool
  deriving DecidableEq

/-- `dbm_`, `open_` (tkrzw_dbm_poly.h, the members of `PolyDBM`), and the paths at which databases have been opened. -/
structure St where
  dbm : Option Inner
  open_ : Bool
  touched : List Bytes
  deriving DecidableEq

inductive Res where
  | done | precondition | dbmFails | ulogFails | undefined
  | invalid (e : Err)
  deriving DecidableEq

/-- The constructor (tkrzw_dbm_poly.cc 354). -/
def St.init : St := ⟨none, false, []⟩

/-- Whether a database of the class is opened at the path: one on memory is not if there is no path (tkrzw_dbm_poly.cc 396, 418, 436, 454, 482, 504, 524, 542). -/
def opens (k : Kind) (path : Bytes) : Bool :=
  match k with
  | .hash | .tree | .skip => true
  | _ => path ≠ []

/-- Whether an update log is asked for (tkrzw_dbm_poly.cc 337-342). -/
def wantsLog (env : Env) (u : Params) : Bool :=
  search u (asc "ulog_prefix") [] ≠ [] && decide (env.metric (search u (asc "ulog_max_file_size") (asc "1Gi")) > 0)

/-- `PolyDBM::OpenAdvanced` (tkrzw_dbm_poly.cc 362-568): `open_` stays set when the logger fails. -/
def openAdvanced (env : Env) (s : St) (path : Bytes) (params : Params) : St × Res :=
  if s.dbm.isSome then (s, .precondition)
  else match choose path params with
  | .error e => (s, .invalid e)
  | .ok c =>
    let o := opens c.kind path
    if o && !env.dbmOpens then (s, .dbmFails)
    else
      let s := if o then { s with open_ := true, touched := s.touched ++ [path] } else s
      let u := params.filter fun p => beginsWith p.1 (asc "ulog_")
      let w := wantsLog env u
      if w && !env.ulogOpens then (s, .ulogFails)
      else match erase u ulogKeys with
      | p :: _ => (s, .invalid (.unsupported p.1))
      | [] => ({ s with dbm := some ⟨c, o, w⟩ }, .done)

/-- `PolyDBM::Close` (tkrzw_dbm_poly.cc 570-588); closing a database that is not open fails. -/
def close (s : St) : St × Res :=
  match s.dbm with
  | none => (s, .precondition)
  | some d => (⟨none, false, s.touched⟩, if s.open_ && !d.opened then .precondition else .done)

/-- The methods that call the same method of the database inside (tkrzw_dbm_poly.cc 590-810). -/
inductive Method where
  | process | get | set | remove | append | processFirst | processMulti | processEach | count | getFileSize | getFilePath | getTimestamp
  | clear | rebuild | shouldBeRebuilt | synchronize
  deriving DecidableEq

/-- A method: `ProcessMulti` does not look whether there is a database (tkrzw_dbm_poly.cc 633-637). -/
def call (s : St) (m : Method) (inside : Res) : Res :=
  match s.dbm with
  | some _ => inside
  | none => if m = .processMulti then .undefined else .precondition

end Verif.Poly
