import Verif.Shard.NestedProps
import Verif.Shard.ConcExamples
/-
C79: concurrent calls of `CompareExchangeMulti` on two shards: examples. The shards are TinyDBM.
-/
namespace Verif.Shard.NestedExamples
open Verif Verif.Api Verif.Shard Verif.Linear Verif.Shard.Nested Verif.Shard.ConcExamples

def cfg : Cfg := ⟨sampleHash, 2, ConcExamples.env, fun _ => 7⟩

/-- Two calls that want the records of the keys 1 and 2, of different shards, named in opposite orders, and `Get` for the key 1. -/
def first : Nested.Op (Option Bytes) := .cex [([1], .null), ([2], .null)] [([1], .val [8]), ([2], .val [8])]
def second : Nested.Op (Option Bytes) := .cex [([2], .null), ([1], .null)] [([2], .val [9]), ([1], .val [9])]
def read (k : Bytes) : Nested.Op (Option Bytes) := .one k false fun o => (.noop, o)

def crossing : List (Nat × Nested.Act (Option Bytes)) :=
  [(0, .call first), (1, .call second), (2, .call (read [1])), (2, .go)] ++ (List.replicate 17 [(0, Nested.Act.go), (1, Nested.Act.go), (2, Nested.Act.go)]).flatten

set_option maxRecDepth 4000 in
/-- One of them succeeds and the other does not; `Get` finds the record of neither. -/
example : (Nested.run cfg (impl cfg.hash tiny) new 3 crossing).hist =
    [.inv 0 first, .inv 1 second, .inv 2 (read [1]), .ret 2 (.one none), .ret 0 (.cex .success), .ret 1 (.cex .infeasible)] := by
  with_unfolding_all rfl

/-- The locks of keys in different shards are not the same. -/
example : slotOf cfg [1] ≠ slotOf cfg [2] := by decide

theorem crossing_fits : ∀ t op, (t, Nested.Act.call op) ∈ crossing → Nested.OpFits Tiny.recFits op := by
  intro t op h
  simp [crossing] at h
  rcases h with ⟨_, rfl⟩ | ⟨_, rfl⟩ | ⟨_, rfl⟩
  · intro kv hkv _
    simp at hkv
    rcases hkv with rfl | rfl <;> decide
  · intro kv hkv _
    simp at hkv
    rcases hkv with rfl | rfl <;> decide
  · intro o; trivial

example : ∃ ord f, Explains ord (Nested.run cfg (impl cfg.hash tiny) new 3 crossing).hist ∧
    Linear.Serial Does (view sampleHash (Tiny.view tinyHash) new.shards) ord f := by
  obtain ⟨_, ord, f, h1, h2, _⟩ := C79_compare_exchange_linearizable (C := cfg) sampleHash_ok (by decide) (Tiny.C01_lawful tinyHash_ok) new_inv rfl 3
    crossing crossing_fits
  exact ⟨ord, f, h1, h2⟩
example : ∃ ts : List Nat, Quiet (Nested.run cfg (impl cfg.hash tiny) new 3 (crossing.take 12 ++ ts.map fun t => (t, .go))) :=
  C79_compare_exchange_completes (C := cfg) sampleHash_ok (by decide) (Tiny.C01_lawful tinyHash_ok) new_inv rfl 3 (crossing.take 12)
    fun t op h => crossing_fits t op (List.mem_of_mem_take h)

def alone : List (Nat × Nested.Act (Option Bytes)) := (0, .call first) :: List.replicate 16 (0, .go)

/-- A thread alone does what `CompareExchangeMulti` does, when all is as expected and when it is not. -/
example : (Nested.run cfg (impl cfg.hash tiny) new 1 alone).mem =
      (compareExchangeMulti sampleHash tiny new [([1], .null), ([2], .null)] [([1], .val [8]), ([2], .val [8])]).1 ∧
    (compareExchangeMulti sampleHash tiny new [([1], .null), ([2], .null)] [([1], .val [8]), ([2], .val [8])]).2 = .success := by
  constructor <;> with_unfolding_all rfl
example : (Nested.run cfg (impl cfg.hash tiny) both 1 alone).mem =
      (compareExchangeMulti sampleHash tiny both [([1], .null), ([2], .null)] [([1], .val [8]), ([2], .val [8])]).1 ∧
    (compareExchangeMulti sampleHash tiny both [([1], .null), ([2], .null)] [([1], .val [8]), ([2], .val [8])]).2 = .infeasible := by
  constructor <;> with_unfolding_all rfl

end Verif.Shard.NestedExamples
