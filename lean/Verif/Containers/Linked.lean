/-
`LinkedHashMap` (tkrzw_containers.h 40-560, 906-1424): a hash table whose records are also linked in a list, with pointers.

Records live in a memory of numbered cells; a cell that is not allocated is `none`, so that following a null or dangling pointer is
undefined behaviour, which makes an operation return `none`. The C++ code repeats the linking code in each function; the model has it
once. `Migrate` is modelled between two maps of separate memories: the record takes a new cell in the destination.
-/
namespace Verif.Linked

/-- `Record` (tkrzw_containers.h 48-74). -/
structure Node (K V : Type) where
  key : K
  value : V
  prev : Option Nat
  next : Option Nat
  child : Option Nat

/-- The fields of `LinkedHashMap` (tkrzw_containers.h 548-560), with the memory of the records. -/
structure Map (K V : Type) where
  nb : Nat
  buckets : Nat → Option Nat
  mem : Nat → Option (Node K V)
  fresh : Nat
  first : Option Nat
  last : Option Nat
  num : Nat

/-- `MoveMode` (tkrzw_containers.h 353-360). -/
inductive Mode where
  | current | first | last
  deriving DecidableEq

variable {K V : Type} [DecidableEq K] (hash : K → Nat)

/-- The default number of buckets (tkrzw_containers.h 44). -/
def defaultBuckets : Nat := 101

/-- The constructor (tkrzw_containers.h 914-922). -/
def Map.new (nb : Nat) : Map K V :=
  { nb := if nb < 1 then defaultBuckets else nb, buckets := fun _ => none, mem := fun _ => none, fresh := 0, first := none, last := none, num := 0 }

/-- Assignment to a record. -/
def Map.write (m : Map K V) (p : Nat) (n : Option (Node K V)) : Map K V := { m with mem := fun q => if q = p then n else m.mem q }

/-- Assignment to a field of the record at `p`. -/
def Map.modify (m : Map K V) (p : Nat) (f : Node K V → Node K V) : Option (Map K V) :=
  match m.mem p with
  | none => none
  | some n => some (m.write p (some (f n)))

/-- The same if the pointer is not null. -/
def Map.modifyOpt (m : Map K V) (p : Option Nat) (f : Node K V → Node K V) : Option (Map K V) :=
  match p with
  | none => some m
  | some p => m.modify p f

/-- Takes a record out of the list (tkrzw_containers.h 941-950, 959-968, 1011-1020, 1029-1038, 1089-1101, 1122-1133). The record itself
keeps its links. Moving a record to the front or the back leaves out the one test that cannot succeed there. -/
def unlink (m : Map K V) (p : Nat) : Option (Map K V) :=
  match m.mem p with
  | none => none
  | some n => do
    let m ← m.modifyOpt n.prev (fun q => { q with next := n.next })
    let m ← m.modifyOpt n.next (fun q => { q with prev := n.prev })
    let m := if m.first = some p then { m with first := n.next } else m
    let m := if m.last = some p then { m with last := n.prev } else m
    some m

/-- Puts a record at the end of the list (tkrzw_containers.h 969-972, 1039-1042, 1051-1060, 1217-1226). -/
def linkLast (m : Map K V) (p : Nat) : Option (Map K V) := do
  let m ← m.modify p (fun q => { q with prev := m.last, next := none })
  let m := if m.first = none then { m with first := some p } else m
  let m ← m.modifyOpt m.last (fun q => { q with next := some p })
  some { m with last := some p }

/-- Puts a record at the beginning of the list (tkrzw_containers.h 951-954, 1021-1024, 1061-1070, 1227-1236). -/
def linkFirst (m : Map K V) (p : Nat) : Option (Map K V) := do
  let m ← m.modify p (fun q => { q with prev := none, next := m.first })
  let m := if m.last = none then { m with last := some p } else m
  let m ← m.modifyOpt m.first (fun q => { q with prev := some p })
  some { m with first := some p }

/-- Moving a record according to the mode (tkrzw_containers.h 936-976, 1006-1046). -/
def move (m : Map K V) (p : Nat) : Mode → Option (Map K V)
  | .current => some m
  | .first => if m.first = some p then some m else (unlink m p).bind (linkFirst · p)
  | .last => if m.last = some p then some m else (unlink m p).bind (linkLast · p)

/-- Linking a new record (tkrzw_containers.h 1051-1071, 1217-1236). -/
def linkNew (m : Map K V) (p : Nat) (mode : Mode) : Option (Map K V) := if mode = .first then linkFirst m p else linkLast m p

/-- The pointer followed to a record of a chain: that of the bucket or that of another record. -/
inductive Slot where
  | bucket (i : Nat)
  | child (p : Nat)

/-- The value of the pointer. -/
def Map.load (m : Map K V) : Slot → Option (Option Nat)
  | .bucket i => some (m.buckets i)
  | .child p => (m.mem p).map (·.child)

/-- Assignment to the pointer. -/
def Map.store (m : Map K V) (s : Slot) (v : Option Nat) : Option (Map K V) :=
  match s with
  | .bucket i => some { m with buckets := fun j => if j = i then v else m.buckets j }
  | .child p => m.modify p (fun q => { q with child := v })

/-- The search of a chain (tkrzw_containers.h 932-980, 1086-1109 and others): the pointer that refers to the record found, or to nothing,
with the record. The loop ends within `fuel` steps. -/
def search (m : Map K V) (k : K) : Nat → Slot → Option (Slot × Option Nat)
  | 0, _ => none
  | fuel + 1, s =>
    match m.load s with
    | none => none
    | some none => some (s, none)
    | some (some p) =>
      match m.mem p with
      | none => none
      | some n => if n.key = k then some (s, some p) else search m k fuel (.child p)

/-- The bucket of a key. -/
def Map.bucket (m : Map K V) (k : K) : Nat := hash k % m.nb

/-- The search for a key. -/
def Map.find (m : Map K V) (k : K) : Option (Slot × Option Nat) := search m k (m.num + 1) (.bucket (m.bucket hash k))

/-- `Get` (tkrzw_containers.h 930-983): the value of the record. -/
def get (m : Map K V) (k : K) (mode : Mode) : Option (Option V × Map K V) := do
  let (_, r) ← m.find hash k
  match r with
  | none => some (none, m)
  | some p =>
    let n ← m.mem p
    let m ← move m p mode
    some (some n.value, m)

/-- A new record (tkrzw_containers.h 1050-1079 and 1347-1360) at the end of the list or the beginning, and at the head of the chain. -/
def create (m : Map K V) (k : K) (v : V) (mode : Mode) : Option (Map K V) := do
  let p := m.fresh
  let b := m.bucket hash k
  let m := { m.write p (some ⟨k, v, none, none, none⟩) with fresh := m.fresh + 1 }
  let m ← linkNew m p mode
  let m ← m.modify p (fun q => { q with child := m.buckets b })
  let m ← m.store (.bucket b) (some p)
  some { m with num := m.num + 1 }

/-- `Set` (tkrzw_containers.h 994-1080): the value of the record that remains. -/
def set (m : Map K V) (k : K) (v : V) (overwrite : Bool) (mode : Mode) : Option (V × Map K V) := do
  let (_, r) ← m.find hash k
  match r with
  | some p =>
    let n ← m.mem p
    if overwrite then
      let m ← m.modify p (fun q => { q with value := v })
      let m ← move m p mode
      some (v, m)
    else some (n.value, m)
  | none =>
    let m ← create hash m k v mode
    some (v, m)

/-- Taking a record out of the map, the common part of `Remove` and `Migrate` (tkrzw_containers.h 1083-1112, 1117-1136, 1240-1245). -/
def takeOut (m : Map K V) (k : K) : Option (Option (Node K V) × Map K V) := do
  let (s, r) ← m.find hash k
  match r with
  | none => some (none, m)
  | some p =>
    let n ← m.mem p
    let m ← unlink m p
    let m ← m.store s n.child
    some (some n, { m.write p none with num := m.num - 1 })

/-- `Remove` (tkrzw_containers.h 1083-1112). -/
def remove (m : Map K V) (k : K) : Option (Bool × Map K V) := do
  let (n, m) ← takeOut hash m k
  some (n.isSome, m)

/-- Taking the place of a record in the destination (tkrzw_containers.h 1144-1165). -/
def replace (m : Map K V) (s : Slot) (d : Nat) (k : K) (v : V) : Option (Nat × Map K V) := do
  let n ← m.mem d
  let p := m.fresh
  let m := { m.write p (some ⟨k, v, n.prev, n.next, n.child⟩) with fresh := m.fresh + 1 }
  let m ← m.modifyOpt n.prev (fun q => { q with next := some p })
  let m ← m.modifyOpt n.next (fun q => { q with prev := some p })
  let m := if m.first = some d then { m with first := some p } else m
  let m := if m.last = some d then { m with last := some p } else m
  let m ← m.store s (some p)
  some (p, m.write d none)

/-- `Migrate` (tkrzw_containers.h 1115-1245): the value of the record. -/
def migrate (m dest : Map K V) (k : K) (mode : Mode) : Option (Option V × Map K V × Map K V) := do
  let (n, m) ← takeOut hash m k
  match n with
  | none => some (none, m, dest)
  | some n =>
    let (s, r) ← dest.find hash k
    match r with
    | some d =>
      let (p, dest) ← replace dest s d n.key n.value
      let dest ← move dest p mode
      some (some n.value, m, dest)
    | none =>
      let p := dest.fresh
      let dest := { dest.write p (some ⟨n.key, n.value, none, none, none⟩) with fresh := dest.fresh + 1 }
      let dest ← linkNew dest p mode
      let dest ← dest.store s (some p)
      some (some n.value, m, { dest with num := dest.num + 1 })

/-- The loop of `clear` and of the destructor (tkrzw_containers.h 1250-1255, 1417-1422). -/
def deleteLoop : Nat → Map K V → Option Nat → Option (Map K V)
  | _, m, none => some m
  | 0, _, some _ => none
  | fuel + 1, m, some p =>
    match m.mem p with
    | none => none
    | some n => deleteLoop fuel (m.write p none) n.prev

/-- `clear` (tkrzw_containers.h 1248-1262). -/
def clear (m : Map K V) : Option (Map K V) :=
  if m.num < 1 then some m
  else do
    let m ← deleteLoop m.num m m.last
    some { m with buckets := fun _ => none, first := none, last := none, num := 0 }

/-- `operator[]` (tkrzw_containers.h 1331-1334): the value referred to. -/
def subscript (dflt : V) (m : Map K V) (k : K) : Option (V × Map K V) := set hash m k dflt true .current

/-- `insert` (tkrzw_containers.h 1337-1361): whether the record is new. -/
def insert (m : Map K V) (k : K) (v : V) : Option (Bool × Map K V) := do
  let (_, r) ← m.find hash k
  match r with
  | some _ => some (false, m)
  | none =>
    let m ← create hash m k v .current
    some (true, m)

/-- The loop of `rehash` (tkrzw_containers.h 1397-1401). -/
def rehashLoop : Nat → Map K V → Option Nat → Option (Map K V)
  | _, m, none => some m
  | 0, _, some _ => none
  | fuel + 1, m, some p =>
    match m.mem p with
    | none => none
    | some n => do
      let b := m.bucket hash n.key
      let m ← m.modify p (fun q => { q with child := m.buckets b })
      let m ← m.store (.bucket b) (some p)
      rehashLoop fuel m n.next

/-- `rehash` (tkrzw_containers.h 1394-1402); the number of buckets is positive. -/
def rehash (m : Map K V) (nb : Nat) : Option (Map K V) :=
  if nb = 0 then none else rehashLoop hash m.num { m with nb := nb, buckets := fun _ => none } m.first

/-- Iteration from the first record by the links forward (tkrzw_containers.h 195-343, 1274-1296). -/
def walk (m : Map K V) : Nat → Option Nat → Option (List (K × V))
  | _, none => some []
  | 0, some _ => none
  | fuel + 1, some p =>
    match m.mem p with
    | none => none
    | some n => (walk m fuel n.next).map ((n.key, n.value) :: ·)

/-- The records in the order of iteration. -/
def toList (m : Map K V) : Option (List (K × V)) := walk m m.num m.first

/-- The records in the order of iteration backward from the last. -/
def walkBack (m : Map K V) : Nat → Option Nat → Option (List (K × V))
  | _, none => some []
  | 0, some _ => none
  | fuel + 1, some p =>
    match m.mem p with
    | none => none
    | some n => (walkBack m fuel n.prev).map ((n.key, n.value) :: ·)

/-- `front` (tkrzw_containers.h 1370-1378). -/
def front (m : Map K V) : Option (K × V) := do
  let p ← m.first
  let n ← m.mem p
  some (n.key, n.value)

/-- `back` (tkrzw_containers.h 1382-1390). -/
def back (m : Map K V) : Option (K × V) := do
  let p ← m.last
  let n ← m.mem p
  some (n.key, n.value)

/-! ### SPECIFICATION: an ordered association list -/

namespace Spec
variable {K V : Type} [DecidableEq K]

/-- The value of a key. -/
def lookup (l : List (K × V)) (k : K) : Option V := (l.find? (fun e => e.1 = k)).map (·.2)

/-- The list without a key. -/
def without (l : List (K × V)) (k : K) : List (K × V) := l.filter (fun e => e.1 ≠ k)

/-- The list after a record, which it has, is moved and given a value. -/
def place (l : List (K × V)) (k : K) (v : V) : Mode → List (K × V)
  | .current => l.map (fun e => if e.1 = k then (k, v) else e)
  | .first => (k, v) :: without l k
  | .last => without l k ++ [(k, v)]

/-- The list after a new record is put. -/
def enter (l : List (K × V)) (k : K) (v : V) : Mode → List (K × V)
  | .first => (k, v) :: l
  | _ => l ++ [(k, v)]

end Spec
end Verif.Linked
