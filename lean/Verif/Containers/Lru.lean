import Verif.Containers.LinkedOps

/-
`LRUCache` and `DoubleLRUCache` (tkrzw_containers.h 562-904, 1426-1651) over `LinkedHashMap`. Identifiers are integers; the hash function is
arbitrary; `none` is undefined behaviour. Shared pointers are their values.
-/
namespace Verif.Linked

/-- The hash-table part of the operations that DBM classes use, on an identifier. -/
structure Lru (V : Type) where
  capacity : Nat
  map : Map Int V

namespace Lru
variable {V : Type} (hash : Int → Nat)

/-- The constructor (tkrzw_containers.h 1427). -/
def new (capacity : Nat) : Lru V := ⟨capacity, Map.new 0⟩

/-- `Add` (tkrzw_containers.h 1429-1432). -/
def add (c : Lru V) (id : Int) (v : V) : Option (V × Lru V) := do
  let (v, m) ← set hash c.map id v false .last
  some (v, { c with map := m })

/-- `GiveBack` (tkrzw_containers.h 1434-1437). -/
def giveBack (c : Lru V) (id : Int) (v : V) : Option (Lru V) := do
  let (_, m) ← set hash c.map id v false .last
  some { c with map := m }

/-- `Get` (tkrzw_containers.h 1439-1446). -/
def get (c : Lru V) (id : Int) : Option (Option V × Lru V) := do
  let (v, m) ← Linked.get hash c.map id .last
  some (v, { c with map := m })

/-- `Remove` (tkrzw_containers.h 1448-1451). -/
def remove (c : Lru V) (id : Int) : Option (Lru V) := do
  let (_, m) ← Linked.remove hash c.map id
  some { c with map := m }

/-- `RemoveLRU` (tkrzw_containers.h 1453-1465): the identifier and the value. -/
def removeLRU (c : Lru V) : Option (Option (Int × V) × Lru V) :=
  if c.map.num = 0 then some (none, c)
  else do
    let e ← front c.map
    let (_, m) ← Linked.remove hash c.map e.1
    some (some e, { c with map := m })

/-- `Size` (tkrzw_containers.h 1467-1470). -/
def size (c : Lru V) : Nat := c.map.num

/-- `IsEmpty` (tkrzw_containers.h 1472-1475). -/
def isEmpty (c : Lru V) : Bool := c.map.num == 0

/-- `IsSaturated` (tkrzw_containers.h 1477-1480). -/
def isSaturated (c : Lru V) : Bool := decide (c.capacity < c.map.num)

/-- `Clear` (tkrzw_containers.h 1482-1485). -/
def clear (c : Lru V) : Option (Lru V) := (Linked.clear c.map).map (fun m => { c with map := m })

/-- All entries by `MakeIterator`, `Iterator::Get` and `Next` (tkrzw_containers.h 1487-1510). -/
def items (c : Lru V) : Option (List (Int × V)) := toList c.map

end Lru

/-- `DoubleLRUCache` (tkrzw_containers.h 880-904). -/
structure DLru (V : Type) where
  hotCapacity : Nat
  warmCapacity : Nat
  hot : Map Int V
  warm : Map Int V

namespace DLru
variable {V : Type} (hash : Int → Nat)

/-- The constructor (tkrzw_containers.h 1512-1515). -/
def new (hotCapacity warmCapacity : Nat) : DLru V := ⟨hotCapacity, warmCapacity, Map.new (hotCapacity * 2 + 1), Map.new (warmCapacity * 2 + 1)⟩

/-- `Add` (tkrzw_containers.h 1517-1525). -/
def add (c : DLru V) (id : Int) (v : V) : Option (V × DLru V) := do
  let (o, hot) ← Linked.get hash c.hot id .current
  match o with
  | some v0 => some (v0, { c with hot := hot })
  | none =>
    let (v, warm) ← set hash c.warm id v false .last
    some (v, { c with hot := hot, warm := warm })

/-- `GiveBack` (tkrzw_containers.h 1527-1530). -/
def giveBack (c : DLru V) (id : Int) (v : V) : Option (DLru V) := do
  let (_, warm) ← set hash c.warm id v false .last
  some { c with warm := warm }

/-- Making room in the hot part (tkrzw_containers.h 1539-1541). -/
def demote (c : DLru V) : Option (DLru V) :=
  if c.hotCapacity ≤ c.hot.num then do
    let e ← front c.hot
    let (_, hot, warm) ← migrate hash c.hot c.warm e.1 .last
    some { c with hot := hot, warm := warm }
  else some c

/-- `Get` (tkrzw_containers.h 1532-1554). -/
def get (c : DLru V) (id : Int) (promotion : Bool) : Option (Option V × DLru V) := do
  let (o, hot) ← Linked.get hash c.hot id .last
  let c := { c with hot := hot }
  match o with
  | some v => some (some v, c)
  | none =>
    if promotion then
      let c ← demote hash c
      let (v, warm, hot) ← migrate hash c.warm c.hot id .last
      some (v, { c with hot := hot, warm := warm })
    else
      let (v, warm) ← Linked.get hash c.warm id .last
      some (v, { c with warm := warm })

/-- `Remove` (tkrzw_containers.h 1556-1561). -/
def remove (c : DLru V) (id : Int) : Option (DLru V) := do
  let (b, hot) ← Linked.remove hash c.hot id
  let c := { c with hot := hot }
  if b then some c
  else
    let (_, warm) ← Linked.remove hash c.warm id
    some { c with warm := warm }

/-- `RemoveLRU` (tkrzw_containers.h 1563-1584). -/
def removeLRU (c : DLru V) : Option (Option (Int × V) × DLru V) :=
  if c.warm.num ≠ 0 then do
    let e ← front c.warm
    let (_, m) ← Linked.remove hash c.warm e.1
    some (some e, { c with warm := m })
  else if c.hot.num ≠ 0 then do
    let e ← front c.hot
    let (_, m) ← Linked.remove hash c.hot e.1
    some (some e, { c with hot := m })
  else some (none, c)

/-- `Size` (tkrzw_containers.h 1586-1589). -/
def size (c : DLru V) : Nat := c.hot.num + c.warm.num

/-- `IsEmpty` (tkrzw_containers.h 1591-1594). -/
def isEmpty (c : DLru V) : Bool := c.hot.num == 0 && c.warm.num == 0

/-- `IsSaturated` (tkrzw_containers.h 1596-1599). -/
def isSaturated (c : DLru V) : Bool := decide (c.warmCapacity < c.warm.num)

/-- `Clear` (tkrzw_containers.h 1601-1605). -/
def clear (c : DLru V) : Option (DLru V) := do
  let hot ← Linked.clear c.hot
  let warm ← Linked.clear c.warm
  some { c with hot := hot, warm := warm }

/-- All entries by `MakeIterator`, `Iterator::Get` and `Next` (tkrzw_containers.h 1607-1651). -/
def items (c : DLru V) : Option (List (Int × V)) := do
  let a ← toList c.hot
  let b ← toList c.warm
  some (a ++ b)

end DLru
end Verif.Linked
