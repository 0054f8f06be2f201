import Verif.Index.Model
/-
Model of StdIndex and StdIndexStr (tkrzw_index.h 1277-1565), which keep the pairs in a `std::set`.

A `std::set` is the list of its elements in ascending order, and an iterator of it is the element it points at, or nothing for the
end. The elements are pairs in StdIndex and serialized pairs in StdIndexStr; the functions are otherwise the same. One thread.
-/
namespace Verif.Index
open Verif

/-- What differs between the instances: the order of the elements, how an element is made from a pair, how it is read
(`none` is undefined behaviour), and the value which GetValues begins with (`VALUETYPE()`, tkrzw_index.h 1296, or an empty string, 1448). -/
structure StdCfg (ε κ ν : Type) where
  lt : ε → ε → Bool
  enc : κ × ν → ε
  dec : ε → Option (κ × ν)
  dflt : ν

/-- The set and the iterators (`records_`, `iterators_` and `it_`, tkrzw_index.h 678, 745-747, 825 and 907-909). -/
structure StdState (ε : Type) where
  elems : List ε
  iters : Nat → Option ε

/-- A new object (tkrzw_index.h 1353-1359 and 1501-1505 for new iterators, which are at the end). -/
def StdState.empty {ε : Type} : StdState ε := ⟨[], fun _ => none⟩

section
variable {ε κ ν : Type} [DecidableEq ε] [DecidableEq κ]

/-- `std::set::lower_bound` (called in tkrzw_index.h 1296, 1393, 1448 and 1532): the elements from there on. -/
def lowerBound (lt : ε → ε → Bool) (x : ε) (l : List ε) : List ε := l.dropWhile (lt · x)

/-- `std::set::find` (called in tkrzw_index.h 1287, 1321, 1440 and 1471). -/
def findElem (lt : ε → ε → Bool) (x : ε) (l : List ε) : Option ε :=
  match lowerBound lt x l with
  | [] => none
  | e :: _ => if lt x e then none else some e

/-- `std::set::emplace` (called in tkrzw_index.h 1314 and 1466): nothing happens if an equivalent element is there. -/
def emplaceElem (lt : ε → ε → Bool) (x : ε) (l : List ε) : List ε :=
  match findElem lt x l with
  | some _ => l
  | none => l.takeWhile (lt · x) ++ x :: lowerBound lt x l

/-- `std::set::erase` of the element that an iterator points at (called in tkrzw_index.h 1330 and 1480). -/
def eraseElem (lt : ε → ε → Bool) (x : ε) (l : List ε) : List ε := l.takeWhile (lt · x) ++ (lowerBound lt x l).tail

/-- `++it` from an element. -/
def nextElem (lt : ε → ε → Bool) (x : ε) (l : List ε) : Option ε := (lowerBound lt x l).tail.head?

/-- `--it`, not from the first element. -/
def prevElem (lt : ε → ε → Bool) (it : Option ε) (l : List ε) : Option ε :=
  match it with
  | none => l.getLast?
  | some x => (l.takeWhile (lt · x)).getLast?

/-- The loop of GetValues (tkrzw_index.h 1297-1306 and 1449-1460) over the elements from the lower bound on. -/
def stdLoop (c : StdCfg ε κ ν) (key : κ) (max : Nat) : List ε → List ν → Option (List ν)
  | [], values => some values
  | e :: l, values =>
    if 0 < max ∧ max ≤ values.length then some values
    else do
      let p ← c.dec e
      if p.1 ≠ key then some values else stdLoop c key max l (values ++ [p.2])

/-- Sets where an iterator is. -/
def StdState.setIter (s : StdState ε) (i : Nat) (x : Option ε) : StdState ε := { s with iters := fun j => if j = i then x else s.iters j }

/-- A call of StdIndex (tkrzw_index.h 1282-1433) or StdIndexStr (1437-1563). -/
def stdCall (c : StdCfg ε κ ν) (s : StdState ε) : Call κ ν → Option (StdState ε × Out κ ν)
  | .check p => some (s, .flag (findElem c.lt (c.enc p) s.elems).isSome)
  | .getValues key max => do
    let l ← stdLoop c key max (lowerBound c.lt (c.enc (key, c.dflt)) s.elems) []
    some (s, .values l)
  | .add p => some ({ s with elems := emplaceElem c.lt (c.enc p) s.elems }, .done)
  | .remove p =>
    match findElem c.lt (c.enc p) s.elems with
    | none => some (s, .done)
    | some e =>
      some ({ elems := eraseElem c.lt e s.elems
              iters := fun i => if s.iters i = some e then nextElem c.lt e s.elems else s.iters i }, .done)
  | .count => some (s, .num s.elems.length)
  | .clear => some (⟨[], fun _ => none⟩, .done)
  | .first i => some (s.setIter i s.elems.head?, .done)
  | .last i => some (s.setIter i (if s.elems.head?.isSome then prevElem c.lt none s.elems else none), .done)
  | .jump i p => some (s.setIter i (lowerBound c.lt (c.enc p) s.elems).head?, .done)
  | .next i =>
    match s.iters i with
    | none => some (s, .done)
    | some e => some (s.setIter i (nextElem c.lt e s.elems), .done)
  | .previous i => some (s.setIter i (if s.iters i = s.elems.head? then none else prevElem c.lt (s.iters i) s.elems), .done)
  | .get i =>
    match s.iters i with
    | none => some (s, .pair none)
    | some e => do
      let p ← c.dec e
      some (s, .pair (some p))

/-- A series of calls with their results. -/
def stdCalls (c : StdCfg ε κ ν) : StdState ε → List (Call κ ν) → Option (StdState ε × List (Out κ ν))
  | s, [] => some (s, [])
  | s, x :: l => do
    let y ← stdCall c s x
    let z ← stdCalls c y.1 l
    some (z.1, y.2 :: z.2)
end

/-- StdIndex (tkrzw_index.h 606-750): `std::set<std::pair<KEYTYPE, VALUETYPE>, CMPTYPE>`. -/
def stdIndex {κ ν : Type} (lt : κ × ν → κ × ν → Bool) (dflt : ν) : StdCfg (κ × ν) κ ν := ⟨lt, id, some, dflt⟩

/-- StdIndexStr (tkrzw_index.h 758-912): `std::set<std::string, RecordComparator>`. -/
def stdIndexStr : StdCfg Bytes Bytes Bytes := ⟨recLt Cmp.lexCompare, ser, keyOf, []⟩

/-! ### SPECIFICATION -/

section
variable {κ ν : Type} [DecidableEq κ] [DecidableEq ν] (lt : κ × ν → κ × ν → Bool)

/-- SPECIFICATION of the calls. An iterator is at a pair which is there, or at the end; when its pair is removed, it goes to the next one.
Previous goes from the end to the last pair, and from the first pair to the end. -/
def StdSpec (s : S κ ν) : Call κ ν → S κ ν → Out κ ν → Prop
  | .remove p, s', o =>
    s' = { pairs := s.pairs.filter (· ≠ p)
           iters := fun i => if s.iters i = some p then after lt p s.pairs else s.iters i } ∧ o = .done
  | .first i, s', o => s' = s.move i s.pairs.head? ∧ o = .done
  | .last i, s', o => s' = s.move i s.pairs.getLast? ∧ o = .done
  | .jump i p, s', o => s' = s.move i (notLess lt p s.pairs) ∧ o = .done
  | .next i, s', o => s' = s.move i ((s.iters i).bind fun p => after lt p s.pairs) ∧ o = .done
  | .previous i, s', o => s' = s.move i (match s.iters i with | none => s.pairs.getLast? | some p => before lt p s.pairs) ∧ o = .done
  | .get i, s', o => s' = s ∧ o = .pair (s.iters i)
  | c, s', o => Base lt s c s' o

/-- SPECIFICATION: a series of calls. -/
abbrev StdSpecRun := RunOf (StdSpec lt)

/-- SPECIFICATION: what the index needs of an order of the pairs: it is a total order, the pairs of one key stand together, and the value that
GetValues begins with is the least one. -/
structure KeyOrder (dflt : ν) : Prop where
  weak : StrictWeak lt
  total : ∀ p q, lt p q = false → lt q p = false → p = q
  together : ∀ p q r, p.1 = r.1 → lt p q = true → lt q r = true → q.1 = p.1
  least : ∀ k v, lt (k, v) (k, dflt) = false
end

end Verif.Index
