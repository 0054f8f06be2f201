import Verif.Poly.Model
/-
SPECIFICATION of the choice of the database by PolyDBM, as the documentation of `OpenAdvanced` has it (tkrzw_dbm_poly.h 250-360).
Names are compared without regard to case.
-/
namespace Verif.Poly
open Verif Verif.Codec
open Verif.Text (lowered beginsWith)

/-- SPECIFICATION: the same but for case. -/
def Same (a b : Bytes) : Prop := lowered a = lowered b

/-- SPECIFICATION: the value of a parameter, empty if there is none. -/
def value (params : Params) (key : Bytes) : Bytes := (params.lookup key).getD []

/-- SPECIFICATION: the names of the classes of databases, documented and short. -/
def kindNames : Kind → List Bytes
  | .hash => [asc "HashDBM", asc "Hash"]
  | .tree => [asc "TreeDBM", asc "Tree"]
  | .skip => [asc "SkipDBM", asc "Skip"]
  | .tiny => [asc "TinyDBM", asc "Tiny"]
  | .baby => [asc "BabyDBM", asc "Baby"]
  | .cache => [asc "CacheDBM", asc "Cache"]
  | .stdHash => [asc "StdHashDBM", asc "StdHash"]
  | .stdTree => [asc "StdTreeDBM", asc "StdTree"]

/-- SPECIFICATION: the extensions, documented and long. -/
def kindExts : Kind → List Bytes
  | .hash => [asc "tkh", asc "hash"]
  | .tree => [asc "tkt", asc "tree"]
  | .skip => [asc "tks", asc "skip"]
  | .tiny => [asc "tkmt", asc "tiny", asc "flat"]
  | .baby => [asc "tkmb", asc "baby"]
  | .cache => [asc "tkmc", asc "cache"]
  | .stdHash => [asc "tksh", asc "stdhash"]
  | .stdTree => [asc "tkst", asc "stdtree"]

/-- SPECIFICATION: the names of the classes of files. -/
def fileNames : FileKind → List Bytes
  | .std => [asc "StdFile", asc "std"]
  | .mmapPara => [asc "MemoryMapParallelFile", asc "mmap-para"]
  | .mmapAtom => [asc "MemoryMapAtomicFile", asc "mmap-atom"]
  | .posPara => [asc "PositionalParallelFile", asc "pos-para"]
  | .posAtom => [asc "PositionalAtomicFile", asc "pos-atom"]

/-- SPECIFICATION: the names of the comparators. -/
def compNames : Comp → List Bytes
  | .lexical => [asc "LexicalKeyComparator", asc "Lexical"]
  | .lexicalCase => [asc "LexicalCaseKeyComparator", asc "LexicalCase"]
  | .decimal => [asc "DecimalKeyComparator", asc "Decimal"]
  | .hexadecimal => [asc "HexadecimalKeyComparator", asc "Hexadecimal"]
  | .realNumber => [asc "RealNumberKeyComparator", asc "RealNumber"]
  | .signedBigEndian => [asc "SignedBigEndianKeyComparator", asc "SignedBigEndian"]
  | .floatBigEndian => [asc "FloatBigEndianKeyComparator", asc "FloatBigEndian"]
  | .pairLexical => [asc "PairLexicalKeyComparator", asc "PairLexical"]
  | .pairLexicalCase => [asc "PairLexicalCaseKeyComparator", asc "PairLexicalCase"]
  | .pairDecimal => [asc "PairDecimalKeyComparator", asc "PairDecimal"]
  | .pairHexadecimal => [asc "PairHexadecimalKeyComparator", asc "PairHexadecimal"]
  | .pairRealNumber => [asc "PairRealNumberKeyComparator", asc "PairRealNumber"]
  | .pairSignedBigEndian => [asc "PairSignedBigEndianKeyComparator", asc "PairSignedBigEndian"]
  | .pairFloatBigEndian => [asc "PairFloatBigEndianKeyComparator", asc "PairFloatBigEndian"]

/-- SPECIFICATION: the parameters of a HashDBM. -/
def hashParams : List Bytes :=
  [asc "update_mode", asc "record_crc_mode", asc "record_comp_mode", asc "offset_width", asc "align_pow", asc "num_buckets",
   asc "restore_mode", asc "fbp_capacity", asc "min_read_size", asc "cache_buckets", asc "cipher_key"]

/-- SPECIFICATION: the parameters of a class of databases. -/
def kindParams : Kind → List Bytes
  | .hash => hashParams
  | .tree => hashParams ++ [asc "max_page_size", asc "max_branches", asc "max_cached_pages", asc "page_update_mode", asc "key_comparator"]
  | .skip => [asc "offset_width", asc "step_unit", asc "max_level", asc "restore_mode", asc "sort_mem_size", asc "insert_in_order",
      asc "max_cached_records"]
  | .tiny => [asc "num_buckets"]
  | .baby => [asc "key_comparator"]
  | .cache => [asc "cap_rec_num", asc "cap_mem_size"]
  | .stdHash => [asc "num_buckets"]
  | .stdTree => []

/-- SPECIFICATION: the parameters of a class of files. -/
def fileParams : FileKind → List Bytes
  | .posPara | .posAtom => [asc "block_size", asc "access_options"]
  | _ => []

/-- SPECIFICATION: the parameters of the update log. -/
def ulogParams : List Bytes := [asc "ulog_prefix", asc "ulog_max_file_size", asc "ulog_server_id", asc "ulog_dbm_index"]

/-- SPECIFICATION: the last component of the path has the extension; the path can have slashes at the end, and the extension can be followed by a
hyphen and more, as in the names of shards. -/
def HasExt (path e : Bytes) : Prop :=
  ∃ (pre ext tail : Bytes) (n : Nat), path = pre ++ ch '.' :: (ext ++ tail) ++ List.replicate n (ch '/') ∧ Same ext e ∧
    (tail = [] ∨ tail.head? = some (ch '-')) ∧ ch '.' ∉ tail ∧ ch '/' ∉ tail

/-- SPECIFICATION: the class of databases that is asked for: by the parameter `dbm`, else by the extension, else, without a path, TinyDBM. -/
def Asked (path : Bytes) (params : Params) (k : Kind) : Prop :=
  (∃ n ∈ kindNames k, Same (value params (asc "dbm")) n) ∨
  (value params (asc "dbm") = [] ∧ ((∃ e ∈ kindExts k, HasExt path e) ∨ (path = [] ∧ k = .tiny)))

/-- SPECIFICATION: the class of files that is asked for. For the default see `C82_default_file_violated`. -/
def AskedFile (params : Params) (f : FileKind) : Prop :=
  (∃ n ∈ fileNames f, Same (value params (asc "file")) n) ∨ (value params (asc "file") = [] ∧ f = .mmapPara)

/-- SPECIFICATION: the comparator that is asked for, if one is. -/
def AskedComp (k : Kind) (params : Params) (c : Option Comp) : Prop :=
  if k = .tree ∨ k = .baby then
    (value params (asc "key_comparator") = [] ∧ c = none) ∨ ∃ x, c = some x ∧ ∃ n ∈ compNames x, Same (value params (asc "key_comparator")) n
  else c = none

/-- SPECIFICATION: the parameters make sense and ask for this. -/
structure Chosen (path : Bytes) (params : Params) (c : Choice) : Prop where
  kind : Asked path params c.kind
  file : AskedFile params c.file
  comp : AskedComp c.kind params c.comp
  keys : ∀ p ∈ params, p.1 ∈ asc "dbm" :: asc "file" :: fileParams c.file ++ kindParams c.kind ++ ulogParams

/-- SPECIFICATION: the parameters that are not for the update log are supported. -/
def Plainly (params : Params) (c : Choice) : Prop :=
  ∀ p ∈ params, beginsWith p.1 (asc "ulog_") = false → p.1 ∈ asc "dbm" :: asc "file" :: fileParams c.file ++ kindParams c.kind

/-- SPECIFICATION: a database is opened at the path: always if it is one on files, else if there is a path. -/
def Opens (k : Kind) (path : Bytes) : Prop := k = .hash ∨ k = .tree ∨ k = .skip ∨ path ≠ []

/-- SPECIFICATION: an update log is asked for: there is a prefix for its files, and they may have a size. -/
def LogAsked (metric : Bytes → Int) (params : Params) : Prop :=
  value params (asc "ulog_prefix") ≠ [] ∧ 0 < metric ((params.lookup (asc "ulog_max_file_size")).getD (asc "1Gi"))

/-- SPECIFICATION: `TreeDBM` is not given a comparator that does not exist, and no database is given one of the two comparators that ignore case
by its long name. -/
structure CompKnown (path : Bytes) (params : Params) : Prop where
  tree : Asked path params .tree → ∃ c, AskedComp .tree params c
  lexicalCase : ¬ Same (value params (asc "key_comparator")) (asc "LexicalCaseKeyComparator")
  pairLexicalCase : ¬ Same (value params (asc "key_comparator")) (asc "PairLexicalCaseKeyComparator")

end Verif.Poly
