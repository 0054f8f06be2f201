import Verif.Shard.Cex
import Verif.Shard.IterUpdate
import Verif.Std.EachProps
/-
ShardDBM over shards of StdTreeDBM with the real hash function (C29), and histories of its iterator (C30).
-/
namespace Verif.Shard
open Verif Verif.Api

/-- C29 for shards of StdTreeDBM or StdHashDBM and the hash function of the code: a dictionary, whatever the number of
shards. -/
theorem C29_std (K : Std.Kind) :
    Lawful (impl Hashing.secondaryHash (Std.impl K)) (Inv Hashing.secondaryHash (Std.Inv K) Std.view)
      (fun s => view Hashing.secondaryHash Std.view s.shards) Std.anyFits :=
  C29_lawful secondaryHash_ok (Std.C14_lawful K)

/-- `ProcessEach` of the shards of StdTreeDBM or StdHashDBM. -/
theorem std_each (K : Std.Kind) : LawfulEach (fun s w p r => s.processEach w p id r) (Std.Inv K) Std.view Std.anyFits := by
  intro ρ t w p r hi _
  obtain ⟨rs, h1, _, h2, h3, h4⟩ := Std.C10_std_each hi w p id r
  exact ⟨h2, rs, h1, Prod.ext h3 h4⟩

/-- C29: `ProcessEach` over shards of StdTreeDBM or StdHashDBM shows every record exactly once. -/
theorem C29_std_each (K : Std.Kind) : LawfulEach (σ := State Std.State) (fun s w p r => processEach (fun s w p r => s.processEach w p id r) s w p r)
    (Inv Hashing.secondaryHash (Std.Inv K) Std.view) (fun s => view Hashing.secondaryHash Std.view s.shards) Std.anyFits :=
  C29_each (std_each K)

/-- C29: `Count` over shards of StdTreeDBM or StdHashDBM is the number of records. -/
theorem C29_std_count (K : Std.Kind) {s : State Std.State} (h : Inv Hashing.secondaryHash (Std.Inv K) Std.view s) :
    ∃ l, (view Hashing.secondaryHash Std.view s.shards).Lists l ∧ count (fun t => (t.count : Int)) s = l.length := by
  refine C29_count h _ ?_
  intro t hi
  obtain ⟨rs, h1, h2, _⟩ := Std.C10_std_each hi (ρ := Unit) false (fun _ r _ => (.noop, r)) id ()
  exact ⟨rs, h1, by rw [h2]; rfl⟩

/-! ### Examples -/

/-- A hash function for the examples. -/
def sampleHash (k : Bytes) (n : Nat) : Nat := (k.foldl (fun h b => h + b.toNat) 0) % n

theorem sampleHash_ok : HashOk sampleHash := fun _ _ h => Nat.mod_lt _ h

def sampleNew : State Std.State := ⟨List.replicate 3 {}, false⟩

theorem sampleNew_inv : Inv sampleHash (Std.Inv .tree) Std.view sampleNew :=
  (C29_new (by decide) (Std.init_inv .tree) (by funext k; rfl)).1

example : Inv Hashing.secondaryHash (Std.Inv .tree) Std.view sampleNew :=
  (C29_new (by decide) (Std.init_inv .tree) (by funext k; rfl)).1

/-- Stores the values one by one. -/
def put (s : State Std.State) (k v : Bytes) : State Std.State := (process sampleHash (Std.impl .tree) s k true fun _ => (.set v, ())).1

def sample : State Std.State := put (put (put (put sampleNew [1] [10]) [2] [20]) [3] [30]) [4] [40]

theorem put_inv {s : State Std.State} (h : Inv sampleHash (Std.Inv .tree) Std.view s) (k v : Bytes) : Inv sampleHash (Std.Inv .tree) Std.view (put s k v) :=
  (C29_lawful sampleHash_ok (Std.C14_lawful .tree)).process_inv s k true _ h trivial

theorem sample_inv : Inv sampleHash (Std.Inv .tree) Std.view sample := put_inv (put_inv (put_inv (put_inv sampleNew_inv _ _) _ _) _ _) _ _

example : sample.shards.map (·.map) = [[([3], [30])], [([1], [10]), ([4], [40])], [([2], [20])]] := by decide +kernel
example : count (fun t => (t.count : Int)) sample = 4 := by decide +kernel

/-- A condition over three shards that is met, and one that is not. -/
example : (compareExchangeMulti sampleHash (Std.impl .tree) sample [([1], .val [10]), ([3], .any), ([5], .null)] [([5], .val [50]), ([1], .null)]).2 = .success ∧
    (compareExchangeMulti sampleHash (Std.impl .tree) sample [([1], .val [10]), ([3], .any), ([5], .null)] [([5], .val [50]), ([1], .null)]).1.shards.map (·.map)
      = [[([3], [30])], [([4], [40])], [([2], [20]), ([5], [50])]] ∧
    (compareExchangeMulti sampleHash (Std.impl .tree) sample [([1], .val [10]), ([2], .null)] [([5], .val [50])]).2 = .infeasible := by
  decide +kernel

end Verif.Shard

namespace Verif.ShardIter
open Verif

/-- A call of a method of the iterator. -/
inductive Call where
  | first | last
  | jump (k : Bytes) | jumpLower (k : Bytes) (inclusive : Bool) | jumpUpper (k : Bytes) (inclusive : Bool)
  | next | previous
  | set (v : Bytes) | remove
  /-- `Process` with a processor that reads. -/
  | look

variable {lt : Bytes → Bytes → Bool}

def call (S : (asc : Bool) → StdHeap.Fns (slotLt lt asc)) (it : State) : Call → State
  | .first => first S it
  | .last => last S it
  | .jump k => jump S it k
  | .jumpLower k i => jumpLower S it k i
  | .jumpUpper k i => jumpUpper S it k i
  | .next => (next S it).1
  | .previous => (previous S it).1
  | .set v => (set (lt := lt) it v).1
  | .remove => (remove S it).1
  | .look => (process S it true fun _ v => (Action.noop, v)).1

/-- SPECIFICATION: what a call shows afterwards and does to the records; `o` and `rs` before it, `o'` and `rs'` after it. -/
def Spec (lt : Bytes → Bytes → Bool) (o : Option (Bytes × Bytes)) (rs : Recs) (o' : Option (Bytes × Bytes)) (rs' : Recs) : Call → Prop
  | .first => rs' = rs ∧ LeastRec lt (fun _ => True) rs o'
  | .last => rs' = rs ∧ GreatestRec lt (fun _ => True) rs o'
  | .jump key => rs' = rs ∧ LeastRec lt (fun k => lt k key = false) rs o'
  | .jumpLower key i => rs' = rs ∧ GreatestRec lt (fun k => lt k key = true ∨ (i = true ∧ k = key)) rs o'
  | .jumpUpper key i => rs' = rs ∧ LeastRec lt (fun k => lt key k = true ∨ (i = true ∧ k = key)) rs o'
  | .next => rs' = rs ∧ ∀ r, o = some r → LeastRec lt (fun k => lt r.1 k = true) rs o'
  | .previous => rs' = rs ∧ ∀ r, o = some r → GreatestRec lt (fun k => lt k r.1 = true) rs o'
  | .set v => ∀ k v0, o = some (k, v0) → o' = some (k, v) ∧ ∀ r, r ∈ rs' ↔ (r ∈ rs ∧ r.1 ≠ k) ∨ r = (k, v)
  | .remove => ∀ k v0, o = some (k, v0) → (∀ r, r ∈ rs' ↔ r ∈ rs ∧ r.1 ≠ k) ∧ LeastRec lt (fun k' => lt k k' = true) rs o'
  | .look => o' = o ∧ rs' = rs

/-- C30: in every state an iterator can be in, each call does what `Spec` says and leaves the iterator in order. Missing:
`Remove` in the descending direction (`C30_remove_backward_violated`). -/
theorem C30_call_partial (ho : KeyOrder lt) (S : (asc : Bool) → StdHeap.Fns (slotLt lt asc)) {it : State} (h : Ok lt it) (c : Call)
    (hc : c = .remove → it.asc = true) :
    Ok lt (call S it c) ∧ Spec lt (get it) (recs it) (get (call S it c)) (recs (call S it c)) c ∧ (get it = none → c = .next ∨ c = .previous ∨ c = .remove ∨
      (∃ v, c = .set v) ∨ c = .look → get (call S it c) = none ∧ recs (call S it c) = recs it) := by
  have hr : ∀ it' : State, it'.ms = it.ms → recs it' = recs it := by intro it' e; unfold recs; rw [e]
  cases c with
  | first => obtain ⟨a, b, c⟩ := C30_first ho S h; exact ⟨a, ⟨hr _ b, c⟩, by simp⟩
  | last => obtain ⟨a, b, c⟩ := C30_last ho S h; exact ⟨a, ⟨hr _ b, c⟩, by simp⟩
  | jump k => obtain ⟨a, b, c⟩ := C30_jump ho S h k; exact ⟨a, ⟨hr _ b, c⟩, by simp⟩
  | jumpLower k i => obtain ⟨a, b, c⟩ := C30_jump_lower ho S h k i; exact ⟨a, ⟨hr _ b, c⟩, by simp⟩
  | jumpUpper k i => obtain ⟨a, b, c⟩ := C30_jump_upper ho S h k i; exact ⟨a, ⟨hr _ b, c⟩, by simp⟩
  | next =>
    obtain ⟨a, b, c, d⟩ := C30_next ho S h
    exact ⟨a, ⟨hr _ b, fun r e => (c r.1 r.2 e).2⟩, fun e _ => ⟨(d e).2, hr _ b⟩⟩
  | previous =>
    obtain ⟨a, b, c, d⟩ := C30_previous ho S h
    exact ⟨a, ⟨hr _ b, fun r e => (c r.1 r.2 e).2⟩, fun e _ => ⟨(d e).2, hr _ b⟩⟩
  | set v =>
    cases hg : get it with
    | none =>
      have e : call S it (.set v) = it := by
        show (set (lt := lt) it v).1 = it
        rw [(C30_none (τ := Unit) S hg v true (fun _ _ => (.noop, ()))).1]
      rw [e]
      exact ⟨h, (by intro _ _ h; cases h), fun _ _ => ⟨hg, rfl⟩⟩
    | some r =>
      obtain ⟨k, v0⟩ := r
      obtain ⟨a, _, _, b, c⟩ := C30_set ho h hg v
      refine ⟨a, ?_, by simp⟩
      intro k' v0' e
      cases e
      exact ⟨b, c⟩
  | remove =>
    cases hg : get it with
    | none =>
      have e : call S it .remove = it := by
        show (remove S it).1 = it
        rw [(C30_none (τ := Unit) S hg [] true (fun _ _ => (.noop, ()))).2.1]
      rw [e]
      exact ⟨h, (by intro _ _ h; cases h), fun _ _ => ⟨hg, rfl⟩⟩
    | some r =>
      obtain ⟨k, v0⟩ := r
      obtain ⟨a, _, _, b, c⟩ := C30_remove_partial ho S h (hc rfl) hg
      refine ⟨a, ?_, by simp⟩
      intro k' v0' e
      cases e
      exact ⟨b, c⟩
  | look =>
    have e : call S it .look = it := by
      show (process S it true fun _ v => (Action.noop, v)).1 = it
      cases hg : get it with
      | none => rw [(C30_none S hg [] true _).2.2]
      | some r => rw [C30_process_noop ho S h hg true _ (.inr rfl)]
    rw [e]
    exact ⟨h, ⟨rfl, rfl⟩, fun hg _ => ⟨hg, rfl⟩⟩

/-- The calls of a history, one after another. -/
def calls (S : (asc : Bool) → StdHeap.Fns (slotLt lt asc)) (it : State) (cs : List Call) : State := cs.foldl (call S) it

/-- No call of the history is `Remove` in the descending direction. -/
def NoBack (S : (asc : Bool) → StdHeap.Fns (slotLt lt asc)) (it : State) (cs : List Call) : Prop :=
  ∀ pre post, cs = pre ++ .remove :: post → (calls S it pre).asc = true

/-- C30: after every history of calls on a new iterator, the iterator is in order, hence the next call does what `Spec`
says; no step of the history has undefined behaviour. -/
theorem C30_history_partial (ho : KeyOrder lt) (S : (asc : Bool) → StdHeap.Fns (slotLt lt asc)) {ms : List Recs} (hms : Shards lt ms) (cs : List Call)
    (hb : NoBack S (make ms) cs) : Ok lt (calls S (make ms) cs) ∧ (calls S (make ms) cs).bad = false := by
  have key : Ok lt (calls S (make ms) cs) := by
    induction cs using List.reverseRecOn with
    | nil => exact (C30_make hms).1
    | append_singleton cs c ih =>
      have hb' : NoBack S (make ms) cs := by
        intro pre post e
        exact hb pre (post ++ [c]) (by rw [e]; simp)
      have e : calls S (make ms) (cs ++ [c]) = call S (calls S (make ms) cs) c := by simp [calls]
      rw [e]
      refine (C30_call_partial ho S (ih hb') c ?_).1
      rintro rfl
      exact hb cs [] rfl
  obtain ⟨P, hP⟩ := key
  exact ⟨⟨P, hP⟩, hP.ok⟩

/-- The histories without `Last`, `JumpLower` and `Previous` meet the condition once the first record has been sought. -/
example : (calls sampleHeap (make sampleShards) [.first, .next, .remove, .set [33], .next, .remove]).asc = true ∧
    get (calls sampleHeap (make sampleShards) [.first, .next, .remove, .set [33], .next, .remove]) = some ([5], [50]) ∧
    recs (calls sampleHeap (make sampleShards) [.first, .next, .remove, .set [33], .next, .remove]) = [([1], [10]), ([3], [33]), ([5], [50])] := by
  decide +kernel

end Verif.ShardIter
