import Verif.Dbm.OrderedFacts
import Verif.Codec.SerialProps
import Verif.Text.Comparators
/-
Model of the secondary indexes (tkrzw_index.h). FileIndex, PolyIndex and MemIndex keep each pair of a key and a value
as the key of a record of an ordered database; StdIndex and StdIndexStr keep the pairs in a `std::set`.

Simplifications: the database below is given by its calls (it is a BabyDBM or a TreeDBM, see `Index/Props.lean`); calls
which fail are left out; one thread.
-/
namespace Verif.Index
open Verif Verif.Codec

/-- A pair of a key and a value. -/
abbrev Pair := Bytes × Bytes

/-- `SerializeStrPair` of a pair (tkrzw_index.h 948, 953, 977, 981). -/
def ser (p : Pair) : Bytes := serializeStrPair p.1 p.2

/-- The pair which a record key stands for. -/
def keyOf (a : Bytes) : Option Pair :=
  match deserializeStrPair a with
  | .ok p => some p
  | _ => none

/-- The order of the record keys which a comparator of pairs makes (tkrzw_key_comparators.h 145-297, see `pairCompare`; `first`
compares the keys, and it is the lexical order by default, tkrzw_index.h 329, 924-926 and 1064). On byte strings which are no pairs
the comparator is undefined; they are put first here, and the indexes never use them. -/
def recLt (first : Bytes → Bytes → Int) (a b : Bytes) : Bool :=
  match Cmp.pairCompare (fun x y => some (first x y)) a b with
  | some r => decide (r < 0)
  | none => (keyOf a).isNone && (keyOf b).isSome

/-- The result of a processor: the record it was shown. -/
abbrev Shown := Option OMap.Rec

/-- The processor of Get (tkrzw_dbm.h 132-165). -/
def getProc (key : Bytes) : ProcR Shown := fun old => (.noop, old.map (key, ·))

/-- The processor of Set with overwriting and an empty value (tkrzw_dbm.h 173-218, called in tkrzw_index.h 977, 1101 and
1213). -/
def setProc (_ : Bytes) : ProcR Shown := fun _ => (.set [], none)

/-- The processor of Remove (tkrzw_dbm.h 223-255). -/
def removeProc (_ : Bytes) : ProcR Shown := fun old => (match old with | some _ => .remove | none => .noop, none)

/-- The calls of an ordered database. -/
abbrev Db (σ : Type) := σ → OMap.Call Shown → Option (σ × OMap.Out Shown)

/-- The calls of an index and of its iterators, which are numbered. -/
inductive Call (κ ν : Type) where
  | check (p : κ × ν)
  | getValues (key : κ) (max : Nat)
  | add (p : κ × ν)
  | remove (p : κ × ν)
  | count
  | clear
  | first (i : Nat)
  | last (i : Nat)
  | jump (i : Nat) (p : κ × ν)
  | next (i : Nat)
  | previous (i : Nat)
  | get (i : Nat)

/-- What a call gives back. -/
inductive Out (κ ν : Type) where
  | done
  | flag (b : Bool)
  | values (l : List ν)
  | num (n : Int)
  | pair (p : Option (κ × ν))
deriving DecidableEq

/-- The loop of GetValues (tkrzw_index.h 956-972, 1080-1096 and 1192-1208) with iterator 0; the first argument bounds the
number of rounds, and `none` means that it was not enough or that a record key is no pair. -/
def valuesLoop {σ : Type} (db : Db σ) (key : Bytes) (max : Nat) : Nat → σ → List Bytes → Option (σ × List Bytes)
  | 0, _, _ => none
  | n + 1, s, values =>
    if 0 < max ∧ max ≤ values.length then some (s, values)
    else do
      let x ← db s (.iterProcess 0 false getProc)
      match x.2 with
      | .res (some (some r)) =>
        let p ← keyOf r.1
        if p.1 ≠ key then some (x.1, values)
        else do
          let y ← db x.1 (.iterNext 0)
          valuesLoop db key max n y.1 (values ++ [p.2])
      | _ => some (x.1, values)

/-- Iterator::Get (tkrzw_index.h 1029-1043, 1171-1185 and 1261-1275): the pair the iterator is at. `none` outside means that
a record key is no pair. -/
def pairOf : OMap.Out Shown → Option (Option Pair)
  | .res (some (some r)) => (keyOf r.1).map some
  | _ => some none

/-- A call of FileIndex (tkrzw_index.h 947-1043), PolyIndex (1069-1185) or MemIndex (1187-1275). Iterator 0 of the database
is the one that GetValues makes. -/
def call {σ : Type} (db : Db σ) (fuel : Nat) (s : σ) : Call Bytes Bytes → Option (σ × Out Bytes Bytes)
  | .check p => do
    let x ← db s (.process (ser p) false getProc)
    some (x.1, .flag (match x.2 with | .res (some (some _)) => true | _ => false))
  | .getValues key max => do
    let x ← db s (.iterJump 0 (ser (key, [])))
    let y ← valuesLoop db key max fuel x.1 []
    some (y.1, .values y.2)
  | .add p => do
    let x ← db s (.process (ser p) true setProc)
    some (x.1, .done)
  | .remove p => do
    let x ← db s (.process (ser p) true removeProc)
    some (x.1, .done)
  | .count => do
    let x ← db s .count
    some (x.1, match x.2 with | .num n => .num n | _ => .done)
  | .clear => do
    let x ← db s .clear
    some (x.1, .done)
  | .first i => do
    let x ← db s (.iterFirst (i + 1))
    some (x.1, .done)
  | .last i => do
    let x ← db s (.iterLast (i + 1))
    some (x.1, .done)
  | .jump i p => do
    let x ← db s (.iterJump (i + 1) (ser p))
    some (x.1, .done)
  | .next i => do
    let x ← db s (.iterNext (i + 1))
    some (x.1, .done)
  | .previous i => do
    let x ← db s (.iterPrevious (i + 1))
    some (x.1, .done)
  | .get i => do
    let x ← db s (.iterProcess (i + 1) false getProc)
    let p ← pairOf x.2
    some (x.1, .pair p)

/-- A series of calls with their results. -/
def calls {σ : Type} (db : Db σ) (fuel : Nat) : σ → List (Call Bytes Bytes) → Option (σ × List (Out Bytes Bytes))
  | s, [] => some (s, [])
  | s, c :: l => do
    let x ← call db fuel s c
    let y ← calls db fuel x.1 l
    some (y.1, x.2 :: y.2)

/-! ### SPECIFICATION -/

section
variable {κ ν : Type} [DecidableEq κ] [DecidableEq ν]

/-- SPECIFICATION: an index is a list of pairs in ascending order; an iterator is at a pair, or nowhere. -/
structure S (κ ν : Type) where
  pairs : List (κ × ν)
  iters : Nat → Option (κ × ν)

/-- SPECIFICATION: the empty index. -/
def S.empty : S κ ν := ⟨[], fun _ => none⟩

/-- SPECIFICATION: an iterator is moved. -/
def S.move (s : S κ ν) (i : Nat) (p : Option (κ × ν)) : S κ ν := { s with iters := fun j => if j = i then p else s.iters j }

/-- SPECIFICATION: the values of a key in ascending order, at most `max` unless it is 0. -/
def valuesOf (pairs : List (κ × ν)) (key : κ) (max : Nat) : List ν :=
  let l := (pairs.filter fun p => p.1 = key).map (·.2)
  if max = 0 then l else l.take max

variable (lt : κ × ν → κ × ν → Bool)

/-- SPECIFICATION: the pairs with a further one. -/
def added (p : κ × ν) (l : List (κ × ν)) : List (κ × ν) := (l.filter (lt · p)) ++ p :: l.filter (lt p ·)

/-- SPECIFICATION: the least pair which is not less. -/
def notLess (p : κ × ν) (l : List (κ × ν)) : Option (κ × ν) := l.find? fun q => !lt q p

/-- SPECIFICATION: the next pair. -/
def after (p : κ × ν) (l : List (κ × ν)) : Option (κ × ν) := l.find? fun q => lt p q

/-- SPECIFICATION: the pair before. -/
def before (p : κ × ν) (l : List (κ × ν)) : Option (κ × ν) := (l.filter fun q => lt q p).getLast?

/-- SPECIFICATION: whether a pair is in the index after a series of calls, if `b` says so of before: it is if it was added and
neither removed nor cleared since. -/
def present (p : κ × ν) (b : Bool) : List (Call κ ν) → Bool
  | [] => b
  | .add q :: l => present p (b || p = q) l
  | .remove q :: l => present p (b && p ≠ q) l
  | .clear :: l => present p false l
  | _ :: l => present p b l

/-- SPECIFICATION of the calls which do not concern iterators. -/
def Base (s : S κ ν) : Call κ ν → S κ ν → Out κ ν → Prop
  | .check p, s', o => s' = s ∧ ∃ b, o = .flag b ∧ (b = true ↔ p ∈ s.pairs)
  | .getValues key max, s', o => s' = s ∧ o = .values (valuesOf s.pairs key max)
  | .add p, s', o => s' = { s with pairs := added lt p s.pairs } ∧ o = .done
  | .count, s', o => s' = s ∧ o = .num s.pairs.length
  | .clear, s', o => s' = S.empty ∧ o = .done
  | _, _, _ => False

omit [DecidableEq κ] [DecidableEq ν] in
/-- SPECIFICATION: a series of calls, if each is as `Sp` says. -/
def RunOf (Sp : S κ ν → Call κ ν → S κ ν → Out κ ν → Prop) : S κ ν → List (Call κ ν) → S κ ν → List (Out κ ν) → Prop
  | s, [], s', os => s' = s ∧ os = []
  | s, c :: l, s', os => ∃ s1 o os', Sp s c s1 o ∧ RunOf Sp s1 l s' os' ∧ os = o :: os'

omit [DecidableEq κ] [DecidableEq ν] in
/-- SPECIFICATION: a set of pairs, which is what an index is to those who do not use its iterators. `outs` gives the results of a series of calls on a new
object, if the pairs are `ok`. -/
structure Answers [DecidableEq κ] [DecidableEq ν] (ok : Call κ ν → Prop) (outs : List (Call κ ν) → Option (List (Out κ ν))) : Prop where
  check : ∀ (l : List (Call κ ν)) p, (∀ c ∈ l, ok c) → ok (.check p) → ∃ os, outs (l ++ [.check p]) = some (os ++ [.flag (present p false l)]) ∧ os.length = l.length
  getValues : ∀ (l : List (Call κ ν)) key max, (∀ c ∈ l, ok c) → ok (.getValues key max) → ∃ os all, os.length = l.length ∧
    outs (l ++ [.getValues key max]) = some (os ++ [.values (if max = 0 then all else all.take max)]) ∧
    (all.Pairwise fun v w => lt (key, v) (key, w) = true) ∧ ∀ v, v ∈ all ↔ present (key, v) false l = true
  count : ∀ l : List (Call κ ν), (∀ c ∈ l, ok c) → ∃ os all, os.length = l.length ∧ outs (l ++ [.count]) = some (os ++ [.num (all : List (κ × ν)).length]) ∧
    all.Nodup ∧ ∀ p, p ∈ all ↔ present p false l = true
end

/-- SPECIFICATION: the order of the pairs of byte strings: by the keys, then by the values. -/
def pairLt (p q : Pair) : Bool := bytesLt p.1 q.1 || (p.1 = q.1 && bytesLt p.2 q.2)

/-- SPECIFICATION of the calls. An iterator remembers a pair, which need not be there; Get goes to the first pair from there on.
Previous from a pair which is not there may go to any lesser pair or nowhere. -/
def Spec (s : S Bytes Bytes) : Call Bytes Bytes → S Bytes Bytes → Out Bytes Bytes → Prop
  | .remove p, s', o => s' = { s with pairs := s.pairs.filter (· ≠ p) } ∧ o = .done
  | .first i, s', o => s' = s.move i s.pairs.head? ∧ o = .done
  | .last i, s', o => s' = s.move i s.pairs.getLast? ∧ o = .done
  | .jump i p, s', o => s' = s.move i (some p) ∧ o = .done
  | .next i, s', o => s' = s.move i ((s.iters i).bind fun p => after pairLt p s.pairs) ∧ o = .done
  | .previous i, s', o =>
    (∃ y, s' = s.move i y ∧ (∀ p, s.iters i = some p → p ∈ s.pairs → y = before pairLt p s.pairs) ∧
      ∀ q, y = some q → q ∈ s.pairs ∧ ∃ p, s.iters i = some p ∧ pairLt q p = true) ∧ o = .done
  | .get i, s', o =>
    s' = s.move i ((s.iters i).bind fun p => notLess pairLt p s.pairs) ∧ o = .pair ((s.iters i).bind fun p => notLess pairLt p s.pairs)
  | c, s', o => Base pairLt s c s' o

/-- SPECIFICATION: a series of calls. -/
abbrev SpecRun := RunOf Spec

/-- SPECIFICATION: the sizes for which the serialization is defined. -/
def Small (p : Pair) : Prop := p.1.length < 2 ^ 64 ∧ p.2.length < 2 ^ 64

/-- SPECIFICATION: the pairs given to a call have such sizes. -/
def Call.Small : Call Bytes Bytes → Prop
  | .check p | .add p | .remove p | .jump _ p => Index.Small p
  | .getValues key _ => Index.Small (key, [])
  | _ => True

end Verif.Index
