import Verif.Poly.Spec
import Verif.Poly.Tune
/-
SPECIFICATION of the parameters of PolyDBM and PolyFile, as documented (tkrzw_dbm_poly.h 289-330, 504-551, tkrzw_file_poly.h 65-82).
Names are compared without regard to case.
-/
namespace Verif.Poly
open Verif Verif.Codec

/-- SPECIFICATION: the pieces of a string between colons. -/
inductive Pieces : Bytes → List Bytes → Prop
  | last (s : Bytes) (h : ch ':' ∉ s) : Pieces s [s]
  | cons (s t : Bytes) (l : List Bytes) (h : ch ':' ∉ s) (ht : Pieces t l) : Pieces (s ++ ch ':' :: t) (s :: l)

/-- SPECIFICATION: the elements of a list separated by colons, without white space around them. -/
inductive Elements : Bytes → List Bytes → Prop
  | last (s r : Bytes) (h : ch ':' ∉ s) (hr : Edit.Stripped s r) : Elements s [r]
  | cons (s r t : Bytes) (l : List Bytes) (h : ch ':' ∉ s) (hr : Edit.Stripped s r) (ht : Elements t l) : Elements (s ++ ch ':' :: t) (r :: l)

/-- SPECIFICATION: one of the names, but for case. -/
def OneOf (v : Bytes) (names : List Bytes) : Prop := ∃ n ∈ names, Same v n

/-- SPECIFICATION: the names of the reducers: that of the method, and a short one. -/
def reducerNames : Reducer → List Bytes
  | .remove => [asc "ReduceRemove", asc "Remove"]
  | .toFirst => [asc "ReduceToFirst", asc "First"]
  | .toSecond => [asc "ReduceToSecond", asc "Second"]
  | .toLast => [asc "ReduceToLast", asc "Last"]
  | .concat => [asc "ReduceConcat", asc "Concat"]
  | .concatWithNull => [asc "ReduceConcatWithNull", asc "ConcatNull"]
  | .concatWithTab => [asc "ReduceConcatWithTab", asc "ConcatTab"]
  | .concatWithLine => [asc "ReduceConcatWithLine", asc "ConcatLine"]
  | .toTotal => [asc "ReduceToTotal", asc "Total"]
  | .toTotalBigEndian => [asc "ReduceToTotalBigEndian", asc "TotalBigEndian", asc "TotalBE"]

/-- SPECIFICATION: the names of the update modes. -/
def updateNames : Update → List Bytes
  | .default => []
  | .inPlace => [asc "UPDATE_IN_PLACE", asc "IN_PLACE"]
  | .appending => [asc "UPDATE_APPENDING", asc "APPENDING"]

/-- SPECIFICATION: the names of the CRC modes. -/
def crcNames : Crc → List Bytes
  | .default => []
  | .none => [asc "RECORD_CRC_NONE", asc "CRC_NONE", asc "NONE"]
  | .crc8 => [asc "RECORD_CRC_8", asc "CRC_8", asc "CRC-8", asc "8"]
  | .crc16 => [asc "RECORD_CRC_16", asc "CRC_16", asc "CRC-16", asc "16"]
  | .crc32 => [asc "RECORD_CRC_32", asc "CRC_32", asc "CRC-32", asc "32"]

/-- SPECIFICATION: the names of the compression modes. -/
def comprNames : Compr → List Bytes
  | .default => []
  | .none => [asc "RECORD_COMP_NONE", asc "COMP_NONE", asc "NONE"]
  | .zlib => [asc "RECORD_COMP_ZLIB", asc "COMP_ZLIB", asc "ZLIB", asc "DEFLATE"]
  | .zstd => [asc "RECORD_COMP_ZSTD", asc "COMP_ZSTD", asc "ZSTD"]
  | .lz4 => [asc "RECORD_COMP_LZ4", asc "COMP_LZ4", asc "LZ4"]
  | .lzma => [asc "RECORD_COMP_LZMA", asc "COMP_LZMA", asc "LZMA", asc "XZ"]
  | .rc4 => [asc "RECORD_COMP_RC4", asc "COMP_RC4", asc "RC4", asc "ARCFOUR"]
  | .aes => [asc "RECORD_COMP_AES", asc "COMP_AES", asc "AES", asc "RIJNDAEL"]

/-- SPECIFICATION: the names of the ways to restore. -/
def modeNames : Mode → List Bytes
  | .default => []
  | .sync => [asc "RESTORE_SYNC", asc "SYNC"]
  | .readOnly => [asc "RESTORE_READ_ONLY", asc "READ_ONLY"]
  | .noop => [asc "RESTORE_NOOP", asc "NOOP"]

/-- SPECIFICATION: `x` is the value with that name; if no value has that name, it is the default. -/
def Named {α : Type} (names : α → List Bytes) (dflt : α) (v : Bytes) (x : α) : Prop :=
  OneOf v (names x) ∨ (x = dflt ∧ ∀ y, ¬ OneOf v (names y))

/-- SPECIFICATION: the way to restore: the last one that is named in the list, else `dflt`. -/
inductive LastMode (dflt : Mode) : List Bytes → Mode → Prop
  | none (l : List Bytes) (h : ∀ x ∈ l, ∀ m, ¬ OneOf x (modeNames m)) : LastMode dflt l dflt
  | some (l₁ l₂ : List Bytes) (x : Bytes) (m : Mode) (hx : OneOf x (modeNames m)) (h : ∀ y ∈ l₂, ∀ m', ¬ OneOf y (modeNames m')) :
      LastMode dflt (l₁ ++ x :: l₂) m

/-- SPECIFICATION: what `restore_mode` says. -/
def Restores (v : Bytes) (r : Restore) : Prop :=
  ∃ l, Elements v l ∧ LastMode .default l r.mode ∧
    (r.noShortcuts = true ↔ ∃ x ∈ l, OneOf x [asc "RESTORE_NO_SHORTCUTS", asc "NO_SHORTCUTS"]) ∧
    (r.hardSync = true ↔ ∃ x ∈ l, OneOf x [asc "RESTORE_WITH_HARDSYNC", asc "WITH_HARDSYNC"])

/-- SPECIFICATION: what `access_options` says. -/
def Accesses (v : Bytes) (a : Access) : Prop :=
  ∃ l, Elements v l ∧
    (a.direct = true ↔ ∃ x ∈ l, Same x (asc "direct")) ∧ (a.sync = true ↔ ∃ x ∈ l, Same x (asc "sync")) ∧
    (a.padding = true ↔ ∃ x ∈ l, Same x (asc "padding")) ∧ (a.pagecache = true ↔ ∃ x ∈ l, Same x (asc "pagecache"))

/-- SPECIFICATION: the reducer that is asked for, if one is. -/
def AskedReducer (params : Params) (r : Option Reducer) : Prop :=
  (value params (asc "reducer") = [] ∧ r = none) ∨ ∃ x, r = some x ∧ OneOf (value params (asc "reducer")) (reducerNames x)

/-- SPECIFICATION: the paths of the databases to merge. -/
def AskedPaths (params : Params) (paths : List Bytes) : Prop :=
  ∃ l, Pieces (value params (asc "merge")) l ∧ paths = l.filter fun p => !p.isEmpty

/-- SPECIFICATION: the parameters that `RebuildAdvanced` takes in addition to those of `OpenAdvanced`. -/
def rebuildParams : Kind → List Bytes
  | .hash | .tree | .skip => [asc "skip_broken_records", asc "sync_hard"]
  | _ => []

end Verif.Poly
