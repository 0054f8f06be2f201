import Verif.Cache.Conc
/-
Examples for C78: two threads, two keys in different partitions.
-/
namespace Verif.Cache.ConcExamples
open Verif Verif.Cache
open Verif.TwoPhase (Call HEv)
open Verif.Slotted (Act)

def E0 : Env := ⟨fun k => (k.headD 0).toNat, fun _ _ => false⟩

/-- Keeps the value it is given and stores one. -/
def put (v : Bytes) : ProcS (List (Option Bytes)) := fun r o => (.set v, r ++ [o])
/-- Keeps the value it is given. -/
def look : ProcS (List (Option Bytes)) := fun r o => (.noop, r ++ [o])

def writes : Call (List (Option Bytes)) := ⟨[([1], put [7]), ([2], put [8])], true, true, []⟩
def reads : Call (List (Option Bytes)) := ⟨[([2], look), ([1], look)], false, true, []⟩

def es : List (Nat × Act (List (Option Bytes))) :=
  [(0, .call writes), (1, .call reads), (1, .go), (0, .go), (1, .go), (1, .go), (0, .go), (1, .go), (1, .go), (1, .go), (1, .go), (0, .go), (1, .go), (0, .go),
   (0, .go), (1, .go), (0, .go), (0, .go), (0, .go), (0, .go), (0, .go), (0, .go), (0, .go)]

/-- A history before: `[1]` has the value `[5]`. -/
def hist0 : List Op := [.process [1] true (fun _ => (.set [5], (.success, none)))]

example : Fits hist0 := by
  intro k p hm o
  simp only [hist0, List.mem_singleton, Op.process.injEq] at hm
  obtain ⟨rfl, _, rfl⟩ := hm
  simp [ActFits, recFits, blkSize]; decide

example : Conc.CallsFit es := by
  intro t c hc hw kp hk r o
  simp only [es, List.mem_cons, Prod.mk.injEq, reduceCtorEq, and_false, or_false, List.not_mem_nil, Act.call.injEq] at hc
  rcases hc with ⟨_, rfl⟩ | ⟨_, rfl⟩
  · simp only [writes, List.mem_cons, List.not_mem_nil, or_false] at hk
    rcases hk with rfl | rfl <;> simp [put, ActFits, recFits, blkSize] <;> decide
  · simp [reads] at hw

def st0 : State := Cache.run E0 (State.new 64 (-1)) hist0

/-- What the calls returned, in the order of their returns. -/
def rets (h : List (HEv (List (Option Bytes)))) : List (Nat × List (Option Bytes)) :=
  h.filterMap fun
    | .ret id r => some (id, r)
    | .inv _ _ => none

/-- The reading call has the locks first: it sees neither store, and the writing call returns after it. -/
example : rets (Conc.run E0 st0 2 es).hist = [(1, [none, some [5]]), (0, [some [5], none])] := by decide +kernel

example : Conc.Quiet (Conc.run E0 st0 2 es) := by
  intro th hth
  have : ((Conc.run E0 st0 2 es).threads.all fun th => match th.pc with | .idle => true | _ => false) = true := by decide +kernel
  have := List.all_eq_true.1 this th hth
  split at this
  · assumption
  · cases this

/-- A thread that has to wait. -/
example : Slotted.Stuck (Conc.run E0 st0 2 (es.take 4)) 0 :=
  ⟨⟨0, .locking writes [] [1, 2]⟩, writes, [], 1, [2], rfl, rfl, rfl⟩

end Verif.Cache.ConcExamples
