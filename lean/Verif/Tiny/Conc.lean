import Verif.Tiny.Model
import Verif.Dbm.TwoPhase
import Verif.Thread.HashMutex
/-
TinyDBM (tkrzw_dbm_tiny.cc) used by many threads, down to the single pointers: the bucket array, the blocks on the heap with their child
pointers, and `ProcessImpl` step by step.

An access to a block that is not allocated sets the flag `uaf` (undefined behaviour in C++). A value whose block does not fit in
`int32_t` sets the flag `big`, and the thread stays where it is. The update log is a list; `UpdateLogger` locks for itself.
Simplified: the call of a processor, and everything done with the contents of one block, is one step.
-/
namespace Verif.Tiny.Conc
open Verif TwoPhase

abbrev Addr := Nat

/-- A block: the child pointer (`none` = nullptr) and the rest (tkrzw_dbm_tiny.cc 34-45). -/
structure Node where
  child : Option Addr
  blk : Blk

/-- What the threads share: `buckets_`, the heap, `num_records_`, the log (tkrzw_dbm_tiny.cc 89-101). -/
structure Mem where
  heads : Nat → Option Addr
  heap : Addr → Option Node
  count : Int
  log : List LogOp
  big : Bool
  uaf : Bool

def setHead (m : Mem) (bi : Nat) (p : Option Addr) : Mem := { m with heads := upd' m.heads bi p }
where upd' (f : Nat → Option Addr) (i : Nat) (p : Option Addr) : Nat → Option Addr := fun j => if j = i then p else f j

def setNode (m : Mem) (a : Addr) (n : Option Node) : Mem := { m with heap := fun b => if b = a then n else m.heap b }

/-- The store of a pointer behind `parent`, or into the bucket if there is no parent (tkrzw_dbm_tiny.cc 653-657, 664-668). -/
def link (m : Mem) (bi : Nat) (parent : Option Addr) (p : Option Addr) : Mem :=
  match parent with
  | none => setHead m bi p
  | some a =>
    match m.heap a with
    | none => { m with uaf := true }
    | some nd => setNode m a (some { nd with child := p })

/-- What the walk of `ProcessImpl` has come to: a record (`parent`, `ptr`, `rec.child`, the size of its value) or the end. -/
inductive Pos where
  | hit (parent : Option Addr) (ptr : Addr) (child : Option Addr) (old : Nat)
  | miss (top : Option Addr)

/-- Where a thread is in `ProcessImpl` (tkrzw_dbm_tiny.cc 628-688). -/
inductive Inner (ρ : Type) where
  /-- 632: before the read of the bucket -/
  | enter
  /-- 635: before the test of `ptr` -/
  | at (top parent ptr : Option Addr)
  /-- 642, 678: the processor wants an update; before the log. `r` is what the processor leaves behind. -/
  | log (a : Action) (pos : Pos) (r : ρ)
  /-- 651: before `xfree` of a removed record -/
  | rem1 (bi : Nat) (parent : Option Addr) (ptr : Addr) (child : Option Addr)
  /-- 652: before it is unlinked -/
  | rem2 (bi : Nat) (parent child : Option Addr)
  /-- 663: before `Reserialize` -/
  | upd1 (bi : Nat) (k : Bytes) (parent : Option Addr) (ptr : Addr) (child : Option Addr) (v : Bytes) (old : Nat)
  /-- 664: before the new block is linked -/
  | upd2 (bi : Nat) (parent : Option Addr) (ptr new : Addr)
  /-- 686: before `Serialize` -/
  | add1 (bi : Nat) (k v : Bytes) (top : Option Addr)
  /-- 686: before the block is put into the bucket -/
  | add2 (bi : Nat) (new : Addr)
  /-- 658, 687: before `num_records_` is changed -/
  | cnt (d : Int)

/-- What is told to the logger (tkrzw_dbm_tiny.cc 643-649, 679-681). -/
def logged (k : Bytes) : Action → List LogOp
  | .set v => [.set k v]
  | .remove => [.remove k]
  | .noop => []

/-- The block does not fit. -/
def tooBig (k : Bytes) : Action → Bool
  | .set v => !decide (recFits k v)
  | _ => false

/-- What there is to do after the log. -/
def todo {ρ : Type} (bi : Nat) (k : Bytes) : Action → Pos → Inner ρ
  | .remove, .hit parent ptr child _ => .rem1 bi parent ptr child
  | .set v, .hit parent ptr child old => .upd1 bi k parent ptr child v old
  | .set v, .miss top => .add1 bi k v top
  | _, _ => .enter

/-- `TinyRecord::Reserialize` (tkrzw_dbm_tiny.cc 137-154) of the block at `ptr`; `a` is the address that `xmalloc` or `xrealloc` gives, if
one of them is called. `none`: it cannot give this address. -/
def reserializeAt (m : Mem) (a : Addr) (k : Bytes) (ptr : Addr) (child : Option Addr) (v : Bytes) (old : Nat) : Option (Mem × Addr) :=
  match m.heap ptr with
  | none => some ({ m with uaf := true }, ptr)
  | some nd =>
    match reserialize nd.blk k v old with
    | none => some ({ m with uaf := true }, ptr)
    | some b =>
      if Codec.sizeVarNum v.length > Codec.sizeVarNum old then
        if (m.heap a).isNone then some (setNode (setNode m a (some ⟨child, b⟩)) ptr none, a) else none
      else if v.length > old then
        if a = ptr ∨ (m.heap a).isNone then some (setNode (setNode m ptr none) a (some ⟨nd.child, b⟩), a) else none
      else some (setNode m ptr (some ⟨nd.child, b⟩), ptr)

/-- One step of `ProcessImpl` (tkrzw_dbm_tiny.cc 628-688) for the first of the remaining pairs; `loc` gives the bucket of a key. -/
def bodyStep {ρ : Type} (loc : Bytes → Nat) (m : Mem) (a : Addr) (w : Bool) (rest : List (Bytes × ProcS ρ)) (r : ρ) (x : Inner ρ) :
    Mem × List (Bytes × ProcS ρ) × ρ × Inner ρ :=
  match x, rest with
  | .enter, [] => (m, rest, r, x)
  | .enter, (k, _) :: _ => (m, rest, r, .at (m.heads (loc k)) none (m.heads (loc k)))
  | .at top _ none, (_, p) :: rest' =>
    let y := p r none
    if w then
      match y.1 with
      | .set v => (m, rest, r, .log (.set v) (.miss top) y.2)
      | _ => (m, rest', y.2, .enter)
    else (m, rest', y.2, .enter)
  | .at top parent (some ptr), (k, p) :: rest' =>
    match m.heap ptr with
    | none => ({ m with uaf := true }, rest, r, x)
    | some nd =>
      match deserialize nd.blk with
      | none => ({ m with uaf := true }, rest, r, x)
      | some (rk, rv) =>
        if k = rk then
          let y := p r (some rv)
          if w && y.1 != .noop then (m, rest, r, .log y.1 (.hit parent ptr nd.child rv.length) y.2)
          else (m, rest', y.2, .enter)
        else (m, rest, r, .at top (some ptr) nd.child)
  | .log act pos r', (k, _) :: rest' =>
    if tooBig k act then ({ m with big := true }, rest, r, x)
    else ({ m with log := m.log ++ logged k act }, rest', r', todo (loc k) k act pos)
  | .rem1 bi parent ptr child, _ =>
    match m.heap ptr with
    | none => ({ m with uaf := true }, rest, r, .rem2 bi parent child)
    | some _ => (setNode m ptr none, rest, r, .rem2 bi parent child)
  | .rem2 bi parent child, _ => (link m bi parent child, rest, r, .cnt (-1))
  | .upd1 bi k parent ptr child v old, _ =>
    match reserializeAt m a k ptr child v old with
    | none => (m, rest, r, x)
    | some (m', new) => (m', rest, r, .upd2 bi parent ptr new)
  | .upd2 bi parent ptr new, _ => (if new ≠ ptr then link m bi parent (some new) else m, rest, r, .enter)
  | .add1 bi k v top, _ =>
    match serialize k v with
    | none => ({ m with uaf := true }, rest, r, x)
    | some b => if (m.heap a).isNone then (setNode m a (some ⟨top, b⟩), rest, r, .add2 bi a) else (m, rest, r, x)
  | .add2 bi new, _ => (setHead m bi (some new), rest, r, .cnt 1)
  | .cnt d, _ => ({ m with count := m.count + d }, rest, r, .enter)
  | _, [] => (m, rest, r, x)

/-- The loop over the pairs is through (tkrzw_dbm_tiny.cc 306-311). -/
def isEnter {ρ : Type} : Inner ρ → Bool
  | .enter => true
  | _ => false

def body {ρ : Type} (loc : Bytes → Nat) : Body Mem ρ (Inner ρ) Addr where
  start := .enter
  done := fun rest x => rest.isEmpty && isEnter x
  step := bodyStep loc

/-- The locks of `record_mutex_` (tkrzw_dbm_tiny.cc 101, 281, 304) with `nb` buckets: `LockOne` for `Process`, `LockMulti` for
`ProcessMulti`, which locks slot 0 first in any case. -/
def locks (ρ : Type) (e : HashMutex.Env) (nb : Nat) : Locks ρ where
  loc := fun k => e.hash k nb
  slot := fun b => b % e.slots
  order := fun c =>
    if c.multi then 0 :: HashMutex.otherSlots e (c.pairs.map (·.1)) nb else c.pairs.map fun kp => e.hash kp.1 nb % e.slots
  keep := fun c => if c.multi then HashMutex.slotSet e (c.pairs.map (·.1)) nb else c.pairs.map fun kp => e.hash kp.1 nb % e.slots

/-- A new database (tkrzw_dbm_tiny.cc 206-219). -/
def empty : Mem := ⟨fun _ => none, fun _ => none, 0, [], false, false⟩

abbrev CState (ρ : Type) := Sys Mem ρ (Inner ρ)

def run {ρ : Type} (e : HashMutex.Env) (nb n : Nat) (es : List (Nat × Act ρ Addr)) : CState ρ :=
  TwoPhase.run (locks ρ e nb) (body fun k => e.hash k nb) empty n es

/-! ### Read-only traversals, which take no record lock -/

/-- A thread in `ProcessEach` with `writable = false` (tkrzw_dbm_tiny.cc 359-374): the bucket, the pointer, and the records given to the
processor so far. -/
structure Walker where
  bi : Nat
  ptr : Option Addr
  seen : List (Bytes × Bytes)

/-- The traversal begins (tkrzw_dbm_tiny.cc 363-364). -/
def walkStart (m : Mem) : Walker := ⟨0, m.heads 0, []⟩

/-- One step of the loops (tkrzw_dbm_tiny.cc 363-372). -/
def walkStep (nb : Nat) (m : Mem) (x : Walker) : Mem × Walker :=
  match x.ptr with
  | none => if x.bi + 1 < nb then (m, ⟨x.bi + 1, m.heads (x.bi + 1), x.seen⟩) else (m, { x with bi := nb })
  | some ptr =>
    match m.heap ptr with
    | none => ({ m with uaf := true }, x)
    | some nd =>
      match deserialize nd.blk with
      | none => ({ m with uaf := true }, x)
      | some kv => (m, ⟨x.bi, nd.child, x.seen ++ [kv]⟩)

end Verif.Tiny.Conc
