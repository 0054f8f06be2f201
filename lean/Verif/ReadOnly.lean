import Verif.Tiny.IterProps
import Verif.Cache.Examples
import Verif.Std.EachProps
import Verif.Skip.Examples
/-
C54 for TinyDBM, CacheDBM, StdTreeDBM, StdHashDBM and SkipDBM: calls with writable = false change nothing, whatever the processor answers.
HashDBM is in Hash/Props and Hash/EachProps, TreeDBM and BabyDBM in BTree/Props.
-/
namespace Verif

/-- A loop of calls none of which changes what `f` observes. -/
theorem seqMulti_keeps {σ α : Type} (proc : {τ : Type} → σ → Bytes → Bool → ProcR τ → σ × τ) (f : σ → α) (I : σ → Prop)
    (h : ∀ {τ : Type} (s : σ) (k : Bytes) (p : ProcR τ), I s → I (proc s k false p).1 ∧ f (proc s k false p).1 = f s) {ρ : Type} :
    ∀ (l : List (Bytes × ProcS ρ)) (s : σ) (r : ρ), I s → f (seqMulti proc s l false r).1 = f s := by
  intro l
  induction l with
  | nil => intro s r _; rfl
  | cons x l ih =>
    intro s r hi
    obtain ⟨k, p⟩ := x
    rw [seqMulti]
    obtain ⟨h1, h2⟩ := h s k (p r) hi
    rw [ih _ _ h1, h2]

/-! ### TinyDBM -/

namespace Tiny

/-- C54 (TinyDBM): Process, ProcessMulti, ProcessFirst and ProcessEach of a read-only call leave the whole state as it is, for processors with any
state and any answers. -/
theorem C54_tiny_calls_read_only {hash : Bytes → Nat → Nat} (hr : InRange hash) (s : State) (hi : Inv hash s) {τ ρ : Type} :
    (∀ (k : Bytes) (p : ProcR τ), ((impl hash).process s k false p).1 = s) ∧
    (∀ (l : List (Bytes × ProcS ρ)) (r : ρ), ((impl hash).processMulti s l false r).1 = s) ∧
    (∀ p : Bytes → Bytes → Action × τ, (processFirst s false p).1 = s) ∧
    (∀ (p : Bytes → ρ → Bytes → Action × ρ) (e : ρ → ρ) (r : ρ), (processEach s false p e r).1 = s) := by
  refine ⟨fun k p => C54_tiny_read_only hr s hi k p, fun l r => ?_, fun p => ?_, fun p e r => ?_⟩
  · exact seqMulti_keeps (process hash) id (Inv hash) (fun s k p hi => by
      rw [C54_tiny_read_only hr s hi k p]; exact ⟨hi, rfl⟩) l s r hi
  · unfold processFirst
    cases hf : firstRec s.buckets 0 with
    | none => rfl
    | some x =>
      obtain ⟨j, b⟩ := x
      obtain ⟨_, t, h⟩ := firstRec_some s.buckets 0 j b hf
      have hc := hi.chain j
      simp only [State.bk, Nat.sub_zero] at h hc
      rw [h] at hc
      generalize recs (b :: t) = rs at hc
      cases hc with
      | @cons _ k v _ rs h1 h2 =>
        dsimp only
        rw [deserialize_holds h1]
        rfl
  · have hb : ∀ (n bi : Nat) (r : ρ), (eachBucket false p n bi s r).1 = s := by
      intro n
      induction n with
      | zero => intro bi r; rfl
      | succ n ih =>
        intro bi r
        have hc : ∀ {c : List Blk} {rs : List (Bytes × Bytes)}, Chain c rs → ∀ r : ρ, (eachChain false p bi c s r).1 = s := by
          intro c rs hc
          induction hc with
          | nil => intro r; rfl
          | @cons b k v bs rs h1 h2 ih =>
            intro r
            simp only [eachChain, deserialize_holds h1, Bool.false_eq_true, if_false]
            exact ih _
        rw [eachBucket]
        rw [hc (hi.chain bi)]
        exact ih _ _
    exact hb _ _ _

/-- Such a state, with two records, and processors that ask for removals. -/
example : let s := (run (step sampleHash) (init 1) sampleOps).1
    s.count = 2 ∧ (processEach s false (fun k (r : List Bytes) _ => (.remove, r ++ [k])) id []).2.length = 2 ∧
    (processFirst s false fun k _ => (.remove, k)).2.isSome = true := by
  decide +kernel

end Tiny

/-! ### CacheDBM -/

namespace Cache

/-- C54 (CacheDBM): after any history, read-only calls of Process and ProcessMulti leave every record and the update log as they are (they only
count as uses of the records), and ProcessFirst and ProcessEach leave the whole state as it is. -/
theorem C54_cache_read_only (E : Env) (capRec capMem : Int) (h : List Op) (hh : Fits h) {τ ρ : Type} :
    let s := run E (State.new capRec capMem) h
    (∀ (k : Bytes) (p : ProcR τ), look E ((impl E).process s k false p).1 = look E s ∧ ((impl E).process s k false p).1.log = s.log) ∧
    (∀ (l : List (Bytes × ProcS ρ)) (r : ρ), look E ((impl E).processMulti s l false r).1 = look E s ∧
      ((impl E).processMulti s l false r).1.log = s.log) ∧
    (∀ p : Bytes → Bytes → Action × τ, (processFirst E s false p).1 = s) ∧
    (∀ (p : Bytes → ρ → Bytes → Action × ρ) (e : ρ → ρ) (r : ρ), (processEach E s false p e r).1 = s) := by
  intro s
  obtain ⟨P, rch⟩ := reached E capRec capMem h hh
  have hstep : ∀ {τ : Type} (s : State) (k : Bytes) (p : ProcR τ), (∃ P, StateOk E s P) →
      (∃ P, StateOk E (s.process E k false p).1 P) ∧
      (look E (s.process E k false p).1, (s.process E k false p).1.log) = (look E s, s.log) := by
    intro τ s k p ⟨P, hP⟩
    obtain ⟨_, h2, _, _, h5⟩ := hP.processAt k false p (by intro h; cases h)
    refine ⟨⟨_, h5⟩, Prod.ext (processAt_read hP k p) ?_⟩
    show (s.processAt E (E.slotOf k) k false p).1.log = s.log
    rw [h2]
    simp [Spec.logOf]
  refine ⟨fun k p => ?_, fun l r => ?_, fun p => ?_, fun p e r => ?_⟩
  · exact Prod.ext_iff.1 (hstep s k p ⟨P, rch.toStateOk⟩).2
  · exact Prod.ext_iff.1 (seqMulti_keeps (State.process E) (fun s => (look E s, s.log)) (fun s => ∃ P, StateOk E s P) hstep l s r ⟨P, rch.toStateOk⟩)
  · have : ∀ n i, (processFirstFrom E s false p n i).1 = s := by
      intro n
      induction n with
      | zero => intro i; rfl
      | succ n ih =>
        intro i
        unfold processFirstFrom
        split
        · exact ih _
        · rfl
    exact this _ _
  · have h := eachFrom_read p rch.toStateOk numSlots 0 (e r)
    unfold processEach
    generalize eachFrom E false p numSlots 0 s (e r) = y at h
    exact h

/-- A cache with three records; the processor would remove the one it is shown. -/
example : Fits (hist.map Plain.op) ∧
    (processFirst realEnv (run realEnv (State.new 64 (-1)) (hist.map Plain.op)) false fun k v => (.remove, (k, v))).2 = some (kC, [3]) ∧
    look realEnv ((impl realEnv).process (run realEnv (State.new 64 (-1)) (hist.map Plain.op)) kC false fun _ => (.remove, ())).1 kC = some [3] :=
  ⟨hist_fits.1, by decide +kernel, by decide +kernel⟩

end Cache

/-! ### StdTreeDBM and StdHashDBM -/

namespace Std

/-- C54 (StdTreeDBM, StdHashDBM): read-only calls, also through an iterator, leave the records, the iterators and the log as they are. -/
theorem C54_std_read_only {K : Kind} {s : State} (hi : Inv K s) {τ ρ : Type} :
    (∀ (k : Bytes) (p : ProcR τ), ((impl K).process s k false p).1 = s) ∧
    (∀ (l : List (Bytes × ProcS ρ)) (r : ρ), ((impl K).processMulti s l false r).1 = s) ∧
    (∀ p : Bytes → Bytes → Action × τ, (s.processFirst false p).1 = s) ∧
    (∀ (p : Bytes → ρ → Bytes → Action × ρ) (e : ρ → ρ) (r : ρ), (s.processEach false p e r).1 = s) ∧
    (∀ (i : Nat) (p : Bytes → Bytes → Action × τ), (s.iterProcess i false p).1 = s) := by
  refine ⟨fun k p => rfl, fun l => ?_, fun p => ?_, fun p e r => ?_, fun i p => ?_⟩
  · induction l with
    | nil => intro r; rfl
    | cons x l ih =>
      intro r
      exact ih _
  · unfold State.processFirst
    split
    · rfl
    · rfl
  · have : ∀ (todo done : List (Bytes × Bytes)) (n : Nat) (r : ρ), s.map = done ++ todo → todo.length ≤ n →
        (eachLoop false p n (begin todo) s r).1 = s := by
      intro todo
      induction todo with
      | nil => intro done n r _ _; cases n <;> rfl
      | cons x t ih =>
        intro done n r e hn
        obtain ⟨k, v⟩ := x
        cases n with
        | zero => simp at hn
        | succ n =>
          have hnd := hi.nodup
          rw [e, keys_append, List.nodup_append] at hnd
          have ha : k ∉ keys done := fun hx => hnd.2.2 k hx k (by simp [keys]) rfl
          have hl : lookup k s.map = some v := by rw [e]; exact lookup_at ha
          have hinc : inc k s.map = some (begin t) := by rw [e]; exact inc_split ha
          show (eachLoop false p (n + 1) (some k) s r).1 = s
          simp only [eachLoop, hl, hinc, Bool.false_eq_true, if_false]
          exact ih (done ++ [(k, v)]) n _ (by simp [e]) (by simpa using hn)
    exact this s.map [] _ _ rfl (Nat.le_refl _)
  · unfold State.iterProcess
    split
    · rfl
    · rename_i k hk
      obtain ⟨v, hv⟩ := hi.at_lookup hk
      rw [hv]
      rfl

/-- Two records and an iterator; the processor would remove the record it is shown. -/
example : let s := evRun .tree {} [.db (.set [2] [20] true), .db (.set [1] [10] true), .make 0, .first 0]
    s.map = [([1], [10]), ([2], [20])] ∧ (s.iterProcess 0 false fun k v => (.remove, (k, v))).2 = some ([1], [10]) := by
  decide +kernel

end Std

/-! ### SkipDBM -/

namespace Skip

/-- C54 (SkipDBM): a read-only call that comes to an end changes nothing but the memory of the records read lately: neither the records nor the
updates kept for the next synchronization. -/
theorem C54_skip_read_only (d d' : Db) (it it' : Iter) (o : Out) :
    (∀ key proc, d.process key proc false = .ok (d', o) → d' = { d with cache := d'.cache }) ∧
    (∀ proc, d.processFirst proc false = .ok (d', o) → d' = d) ∧
    (∀ proc, d.processEach proc false = .ok (d', o) → d' = d) ∧
    (∀ proc, it.process d proc false = .ok (d', it', o) → d' = d) := by
  have bind_eq : ∀ {α β : Type} {a : Rd α} {f : α → Rd β} {b : β}, (a >>= f) = .ok b → ∃ x, a = .ok x ∧ f x = .ok b := by
    intro α β a f b h
    cases a with
    | ok x => exact ⟨x, rfl, h⟩
    | broken => cases h
    | ub => cases h
    | hang => cases h
  refine ⟨fun key proc h => ?_, fun proc h => ?_, fun proc h => ?_, fun proc h => ?_⟩
  · obtain ⟨⟨d1, r⟩, e1, h⟩ := bind_eq h
    have h1 : d1 = { d with cache := d1.cache } := by
      unfold Db.search at e1
      split at e1
      · cases e1; rfl
      all_goals cases e1
    dsimp only at h
    cases r with
    | some r =>
      obtain ⟨v, _, h⟩ := bind_eq h
      obtain ⟨d2, e2, h⟩ := bind_eq h
      cases e2
      cases h
      exact h1
    | none =>
      obtain ⟨d2, e2, h⟩ := bind_eq h
      cases e2
      cases h
      exact h1
  · unfold Db.processFirst at h
    split at h
    · cases h; rfl
    · obtain ⟨r, _, h⟩ := bind_eq h
      obtain ⟨v, _, h⟩ := bind_eq h
      obtain ⟨d2, e2, h⟩ := bind_eq h
      cases e2
      cases h
      rfl
  · obtain ⟨l, _, h⟩ := bind_eq h
    obtain ⟨d2, e2, h⟩ := bind_eq h
    cases e2
    cases h
    rfl
  · unfold Iter.process at h
    split at h
    · cases h; rfl
    · obtain ⟨r, _, h⟩ := bind_eq h
      obtain ⟨v, _, h⟩ := bind_eq h
      cases h
      rfl

/-- One stored record, one update waiting, and read-only calls which ask for more; the next synchronization brings only the update. -/
example : demo (exParams false) [.insert [2] (.set [20]), .sync 1 none, .insert [1] (.set [10]), .process [2] (fun _ => .remove) false,
      .processEach (fun _ _ => .remove) false, .processFirst (fun _ _ => .set [7]) false, .sync 2 none, .processEach (fun _ _ => .noop) false] =
    some [Out.of .success, Out.of .success, Out.of .success, ⟨.success, [([2], some [20])], 0⟩, ⟨.success, [([2], some [20])], 0⟩,
      ⟨.success, [([2], some [20])], 0⟩, Out.of .success, ⟨.success, [([1], some [10]), ([2], some [20])], 0⟩] := by
  decide +kernel

end Skip
end Verif
