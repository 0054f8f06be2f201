import Verif.Tiny.Inv
import Verif.Dbm.QueueProps
import Verif.Dbm.Each
/-
The properties of TinyDBM: C01 (dictionary), C02 (count), C10/C59 (ProcessEach), C25 (update log), C54 (read-only calls),
C09 (Rebuild).
-/
namespace Verif.Tiny
open Verif.Codec

variable {hash : Bytes → Nat → Nat}

/-- TinyDBM meets the specification of `Process` and `ProcessMulti`, so the theorems on the default methods of
`DBM` (C19, C20, C21, C22, C58) hold for it. -/
theorem C01_lawful (hr : InRange hash) : Lawful (impl hash) (Inv hash) (view hash) recFits := by
  apply Lawful.ofProcess
  · intro τ s k w p hi hf
    exact (processImpl_spec hr s k w p hi hf).1
  · intro τ s k w p hi hf
    obtain ⟨_, e, r, _⟩ := processImpl_spec hr s k w p hi hf
    simp only [process, Dict.process]
    rw [e, r]

theorem init_spec (numBuckets : Int) :
    Inv hash (init numBuckets) ∧ view hash (init numBuckets) = Dict.empty := by
  apply inv_empty
  split
  · exact Common.C50_bucket_size_pos _
  · omega

theorem clear_spec (s : State) (hi : Inv hash s) :
    Inv hash (clear s) ∧ view hash (clear s) = Dict.empty := by
  have := inv_empty (hash := hash) s.buckets.length hi.pos (s.log ++ [LogOp.clear])
  have e : clear s = { buckets := emptyBuckets s.buckets.length, count := 0, log := s.log ++ [LogOp.clear], bad := false } := by
    simp only [clear, hi.ok]
  rw [e]; exact this

/-- The calls of a history on TinyDBM, which overrides `Append`. -/
def step (hash : Bytes → Nat → Nat) : State → Op → State × Out := apiStep (impl hash) (append hash) clear (rebuild hash)

theorem step_sim (hr : InRange hash) (s : State) (op : Op) (hi : Inv hash s) (hf : OpFits recFits (view hash s) op) :
    Inv hash (step hash s op).1 ∧ (view hash (step hash s op).1, (step hash s op).2) = (view hash s).step op :=
  apiStep_sim (C01_lawful hr)
    (fun s k v d hi hf => let h := append_spec hr s k v d hi hf; ⟨h.1, h.2.1⟩)
    (fun s hi => clear_spec s hi)
    (fun s n hi => let h := rebuild_spec hr s n hi; ⟨h.1, h.2.1⟩) s op hi hf

/-- C01: on a new TinyDBM with any number of buckets and any hash function, every history of calls gives the
outcomes of the same history on a dictionary, as long as the records fit in the size limit; and nothing
undefined happens. -/
theorem C01_tiny_dictionary (hr : InRange hash) (numBuckets : Int) (ops : List Op)
    (hf : RunFits recFits Dict.empty ops) :
    (run (step hash) (init numBuckets) ops).2 = (Dict.empty.run ops).2 ∧
    (run (step hash) (init numBuckets) ops).1.bad = false ∧
    ∀ k, (Api.get (impl hash) (run (step hash) (init numBuckets) ops).1 k).2.2 = (Dict.empty.run ops).1 k := by
  have h0 := init_spec (hash := hash) numBuckets
  have h := run_sim (step hash) (Inv hash) (view hash) recFits (step_sim hr) ops (init numBuckets) h0.1
    (by rw [h0.2]; exact hf)
  rw [h0.2] at h
  refine ⟨by rw [← h.2], h.1.ok, ?_⟩
  intro k
  have g := Api.C58_get (C01_lawful hr) _ k h.1
  rw [← h.2]
  simp only
  cases hv : view hash (run (step hash) (init numBuckets) ops).1 k with
  | none => rw [g.2.2.2 hv]
  | some v => rw [g.2.2.1 v hv]

/-- A history in which two keys share a bucket, a value grows past a size class and a record is removed from the middle of
a chain. The hypotheses hold for it, and the outcomes are as expected. -/
def sampleOps : List Op :=
  [.set [1] [10] true, .set [2] [20] true, .set [3] [30] false, .append [2] [21] [0x2c], .remove [2], .set [1] [] false,
   .rebuild 7, .get [1], .get [2], .process [3] true (fun o => (.set [9, 9], o)), .get [3]]

def sampleHash : Bytes → Nat → Nat := fun _ _ => 0

theorem sampleHash_inRange : InRange sampleHash := fun _ _ h => h

example : RunFits recFits Dict.empty sampleOps := by
  simp only [sampleOps, RunFits, OpFits, Dict.step, recFits, blkSize, sizeVarNum, ActFits, Api.appended]
  decide +kernel

example : (run (step sampleHash) (init 1) sampleOps).2 =
    [(.success, none), (.success, none), (.success, none), (.success, none), (.success, some [20, 0x2c, 21]),
     (.duplication, some [10]), (.success, none), (.success, some [10]), (.notFound, none), (.success, some [30]),
     (.success, some [9, 9])] := by decide +kernel

/-! ### C02 Count -/

/-- SPECIFICATION: `n` is the number of records of the dictionary. -/
def HasCount (d : Dict) (n : Int) : Prop :=
  ∃ ks : List Bytes, ks.Nodup ∧ (∀ k, k ∈ ks ↔ (d k).isSome) ∧ n = ks.length

/-- C02: after every history, `Count` is the number of keys for which `Get` succeeds. -/
theorem C02_tiny_count (hr : InRange hash) (numBuckets : Int) (ops : List Op) (hf : RunFits recFits Dict.empty ops) :
    HasCount (Dict.empty.run ops).1 (run (step hash) (init numBuckets) ops).1.count := by
  have h0 := init_spec (hash := hash) numBuckets
  have h := run_sim (step hash) (Inv hash) (view hash) recFits (step_sim hr) ops (init numBuckets) h0.1
    (by rw [h0.2]; exact hf)
  rw [h0.2] at h
  have e : (Dict.empty.run ops).1 = view hash (run (step hash) (init numBuckets) ops).1 := by rw [← h.2]
  rw [e]
  generalize (run (step hash) (init numBuckets) ops).1 = s at *
  refine ⟨(s.buckets.flatMap recs).map (·.1), all_keys_nodup h.1, ?_, ?_⟩
  · intro k
    rw [List.mem_map, Option.isSome_iff_exists]
    constructor
    · rintro ⟨⟨k', v⟩, hm, rfl⟩; exact ⟨v, (mem_view h.1 _ _).2 hm⟩
    · rintro ⟨v, hv⟩; exact ⟨(k, v), (mem_view h.1 _ _).1 hv, rfl⟩
  · rw [List.length_map, recs_length h.1]; exact h.1.count

example : (run (step sampleHash) (init 1) sampleOps).1.count = 2 := by decide +kernel

/-! ### C25 Update log -/

theorem replay_append (d : Dict) (a b : List LogOp) : d.replay (a ++ b) = (d.replay a).replay b := by
  simp [Dict.replay, List.foldl_append]

/-- What one call adds to the log brings a dictionary from the contents before to the contents after. -/
theorem step_log (hr : InRange hash) (s : State) (op : Op) (hi : Inv hash s) (hf : OpFits recFits (view hash s) op) :
    ∃ ops, (step hash s op).1.log = s.log ++ ops ∧ view hash (step hash s op).1 = (view hash s).replay ops := by
  have P : ∀ {τ : Type} (k : Bytes) (w : Bool) (p : ProcR τ), ActFits recFits k (p (view hash s k)).1 →
      ∃ ops, (process hash s k w p).1.log = s.log ++ ops ∧
        view hash (process hash s k w p).1 = (view hash s).replay ops :=
    fun k w p h => (processImpl_spec hr s k w p hi h).2.2.2.2.2
  cases op with
  | get k => exact P k false Api.getProc (by cases h : view hash s k <;> simp [Api.getProc, ActFits])
  | set k v ow =>
    exact P k true (Api.setProc v ow) (by
      cases h : view hash s k <;> cases ow <;> simp [Api.setProc, ActFits] <;> exact hf)
  | remove k => exact P k true Api.removeProc (by cases h : view hash s k <;> simp [Api.removeProc, ActFits])
  | append k v d => exact (append_spec hr s k v d hi hf).2.2
  | process k w p => exact P k w p hf
  | clear =>
    refine ⟨[.clear], rfl, ?_⟩
    exact (clear_spec s hi).2
  | rebuild n =>
    have h := rebuild_spec hr s n hi
    exact ⟨[], by simpa [step, apiStep] using h.2.2, by simpa [step, apiStep, Dict.replay] using h.2.1⟩

/-- C25 (TinyDBM as the source): after every history, replaying the update log on an empty dictionary gives the
contents of the database. -/
theorem C25_tiny_log (hr : InRange hash) (numBuckets : Int) (ops : List Op) (hf : RunFits recFits Dict.empty ops) :
    Dict.empty.replay (run (step hash) (init numBuckets) ops).1.log = (Dict.empty.run ops).1 := by
  have key : ∀ (ops : List Op) (s : State), Inv hash s → RunFits recFits (view hash s) ops →
      Dict.empty.replay s.log = view hash s →
      Dict.empty.replay (run (step hash) s ops).1.log = view hash (run (step hash) s ops).1 := by
    intro ops
    induction ops with
    | nil => intro s _ _ h; exact h
    | cons op ops ih =>
      intro s hi hf h
      obtain ⟨l, e1, e2⟩ := step_log hr s op hi hf.1
      have st := step_sim hr s op hi hf.1
      have ev : view hash (step hash s op).1 = ((view hash s).step op).1 := by rw [← st.2]
      simp only [run]
      apply ih _ st.1
      · rw [ev]; exact hf.2
      · rw [e1, replay_append, h, e2]
  have h0 := init_spec (hash := hash) numBuckets
  have h := run_sim (step hash) (Inv hash) (view hash) recFits (step_sim hr) ops (init numBuckets) h0.1
    (by rw [h0.2]; exact hf)
  rw [h0.2] at h
  rw [key ops (init numBuckets) h0.1 (by rw [h0.2]; exact hf) (by rw [h0.2]; rfl), ← h.2]

example : (run (step sampleHash) (init 1) sampleOps).1.log =
    [.set [1] [10], .set [2] [20], .set [3] [30], .set [2] [20, 0x2c, 21], .remove [2], .set [3] [9, 9]] := by
  decide +kernel

/-! ### C54 Read-only calls -/

/-- C54 (TinyDBM): a call of `Process` with writable=false leaves the whole state as it is, whatever the processor
returns. -/
theorem C54_tiny_read_only {τ : Type} (hr : InRange hash) (s : State) (hi : Inv hash s) (k : Bytes) (p : ProcR τ) :
    (process hash s k false p).1 = s := by
  simp only [process, processImpl]
  have hc := hi.chain (s.bucketOf hash k)
  cases hk : assoc k (recs (s.bk (s.bucketOf hash k))) with
  | none => rw [walk_absent hc hk]; rfl
  | some v =>
    obtain ⟨pre, blk, post, rpre, rpost, hw, _⟩ := walk_hit hc hk
    rw [hw]; rfl

/-! ### C09 Rebuild -/

/-- C09 (TinyDBM): `Rebuild` with any number of buckets keeps every record and the count, and writes no log. -/
theorem C09_tiny_rebuild (hr : InRange hash) (s : State) (n : Int) (hi : Inv hash s) :
    Inv hash (rebuild hash s n) ∧ view hash (rebuild hash s n) = view hash s ∧
    (rebuild hash s n).count = s.count ∧ (rebuild hash s n).log = s.log := by
  have h := rebuild_spec hr s n hi
  refine ⟨h.1, h.2.1, ?_, h.2.2⟩
  simp only [rebuild]
  split <;> rfl

/-! ### ProcessFirst -/

theorem firstRec_none : ∀ (bs : List (List Blk)) (i : Nat), firstRec bs i = none → ∀ c ∈ bs, c = []
  | [], _, _ => by simp
  | [] :: rest, i, h => by
    simp only [firstRec] at h
    intro c hc
    rcases List.mem_cons.1 hc with h' | h'
    · exact h'
    · exact firstRec_none rest (i + 1) h c h'
  | (b :: c) :: rest, i, h => by simp [firstRec] at h

theorem firstRec_some : ∀ (bs : List (List Blk)) (i j : Nat) (b : Blk), firstRec bs i = some (j, b) →
    i ≤ j ∧ ∃ t, bs.getD (j - i) [] = b :: t
  | [], _, _, _, h => by simp [firstRec] at h
  | [] :: rest, i, j, b, h => by
    simp only [firstRec] at h
    obtain ⟨h1, t, h2⟩ := firstRec_some rest (i + 1) j b h
    refine ⟨by omega, t, ?_⟩
    rw [show j - i = (j - (i + 1)) + 1 by omega, List.getD_cons_succ]; exact h2
  | (b' :: c) :: rest, i, j, b, h => by
    simp only [firstRec, Option.some.injEq, Prod.mk.injEq] at h
    obtain ⟨rfl, rfl⟩ := h
    exact ⟨Nat.le_refl _, c, by simp⟩

/-- `ProcessFirst` of TinyDBM as part of the interface. -/
def implFirst (hash : Bytes → Nat → Nat) : Api.FirstImpl State := { impl hash with processFirst := processFirst }

/-- C10 (`ProcessFirst`): it runs the processor on some existing record, and fails only on an empty database. -/
theorem C10_tiny_first (hr : InRange hash) :
    Api.LawfulFirst (implFirst hash) (Inv hash) (view hash) recFits (fun _ _ => False) where
  toLawful := C01_lawful hr
  first_none := by
    intro τ s w p hi hn
    have e : firstRec s.buckets 0 = none := by
      cases hf : firstRec s.buckets 0 with
      | none => rfl
      | some x =>
        exfalso
        obtain ⟨j, b⟩ := x
        obtain ⟨_, t, h⟩ := firstRec_some s.buckets 0 j b hf
        have hc := hi.chain j
        simp only [State.bk, Nat.sub_zero] at h hc
        rw [h] at hc
        cases hrs : recs (b :: t) with
        | nil => rw [hrs] at hc; cases hc
        | cons r rs =>
          have hm : (r.1, r.2) ∈ s.buckets.flatMap recs := by
            rw [List.mem_flatMap]
            refine ⟨b :: t, ?_, by rw [hrs]; simp⟩
            rw [← h]
            rcases Nat.lt_or_ge j s.buckets.length with hl | hl
            · simp [List.getD_eq_getElem?_getD, hl]
            · rw [List.getD_eq_getElem?_getD, List.getElem?_eq_none hl] at h; simp at h
          have := (mem_view hi _ _).2 hm
          rw [hn] at this; simp at this
    simp only [implFirst, processFirst, e]
    exact ⟨hi, trivial, trivial⟩
  first_some := by
    intro τ s w p hi ⟨k0, hk0⟩
    cases hf : firstRec s.buckets 0 with
    | none =>
      exfalso
      have hz := firstRec_none s.buckets 0 hf
      obtain ⟨v0, hv0⟩ := Option.ne_none_iff_exists'.1 hk0
      obtain ⟨c, hc, hm⟩ := List.mem_flatMap.1 ((mem_view hi _ _).1 hv0)
      rw [hz c hc] at hm; simp [recs] at hm
    | some x =>
      obtain ⟨j, b⟩ := x
      obtain ⟨_, t, h⟩ := firstRec_some s.buckets 0 j b hf
      have hc := hi.chain j
      have hh := hi.home j
      have hnd := hi.nodup j
      simp only [State.bk, Nat.sub_zero] at h hc hh hnd
      rw [h] at hc hh hnd
      generalize hrs : recs (b :: t) = rs at *
      cases hc with
      | @cons _ k v _ rs' h1 h2 =>
        have hbk : hash k s.buckets.length = j := hh (k, v) (by simp)
        have hv : view hash s k = some v := by
          simp only [view, State.bucketOf]
          rw [hbk, State.bk, h, hrs]
          simp [assoc]
        refine ⟨k, v, hv, by simp, ?_⟩
        intro hfit
        simp only [implFirst, processFirst, hf, deserialize_holds h1]
        cases w with
        | false => exact ⟨hi, rfl, rfl⟩
        | true =>
          simp only [if_true]
          have := processImpl_spec hr s k true (τ := Option τ) (fullOnly (fun v => ((p k v).1, some (p k v).2)) none) hi (by rw [hv]; exact hfit)
          rw [show s.bucketOf hash k = j from hbk, hv] at this
          exact ⟨this.1, this.2.1, this.2.2.1⟩

/-! ### ProcessEach -/

theorem eachChain_spec (hr : InRange hash) {ρ : Type} (w : Bool) (p : Bytes → ρ → Bytes → Action × ρ) (bi : Nat)
    (hf : ∀ k r v, ActFits recFits k (p k r v).1) {c : List Blk} {rs : List (Bytes × Bytes)} (hc : Chain c rs) :
    ∀ (s : State) (r : ρ), Inv hash s → (∀ x ∈ rs, view hash s x.1 = some x.2 ∧ hash x.1 s.buckets.length = bi) →
    (rs.map (·.1)).Nodup →
    Inv hash (eachChain w p bi c s r).1 ∧
    (view hash (eachChain w p bi c s r).1, (eachChain w p bi c s r).2) = Dict.eachFold w p rs (view hash s) r ∧
    (eachChain w p bi c s r).1.buckets.length = s.buckets.length ∧
    (∀ i, i ≠ bi → (eachChain w p bi c s r).1.bk i = s.bk i) := by
  induction hc with
  | nil => intro s r hi _ _; exact ⟨hi, rfl, rfl, fun _ _ => rfl⟩
  | @cons b k v bs rs h1 h2 ih =>
    intro s r hi hx hn
    rw [List.forall_mem_cons] at hx
    rw [List.map_cons, List.nodup_cons] at hn
    simp only [eachChain, deserialize_holds h1, Dict.eachFold]
    cases w with
    | false =>
      simp only [Bool.false_eq_true, if_false]
      exact ih s _ hi hx.2 hn.2
    | true =>
      simp only [if_true]
      have sp := processImpl_spec hr s k true (τ := ρ) (fullOnly (p k r) r) hi (by rw [hx.1.1]; exact hf k r v)
      rw [show s.bucketOf hash k = bi from hx.1.2, hx.1.1] at sp
      obtain ⟨i1, e1, e2, e3, e4, _⟩ := sp
      simp only [if_true, fullOnly] at e1 e2
      have := ih _ (p k r v).2 i1 (by
        intro x hm
        have hne : x.1 ≠ k := fun e => hn.1 (List.mem_map.2 ⟨x, hm, e⟩)
        rw [e1, e3, Dict.act_other _ _ hne]
        exact hx.2 x hm) hn.2
      rw [e1] at this
      rw [e2]
      refine ⟨this.1, this.2.1, by rw [this.2.2.1, e3], ?_⟩
      intro i hi'
      rw [this.2.2.2 i hi', e4 i hi']

theorem drop_eq_of_getD {a b : List (List Blk)} {n : Nat} (hl : a.length = b.length)
    (h : ∀ i, n ≤ i → a.getD i [] = b.getD i []) : a.drop n = b.drop n := by
  apply List.ext_getElem?
  intro j
  rw [List.getElem?_drop, List.getElem?_drop]
  have := h (n + j) (by omega)
  rw [List.getD_eq_getElem?_getD, List.getD_eq_getElem?_getD] at this
  rcases Nat.lt_or_ge (n + j) b.length with h1 | h1
  · have h2 : n + j < a.length := by rw [hl]; exact h1
    simp only [List.getElem?_eq_getElem h1, List.getElem?_eq_getElem h2, Option.getD_some] at this ⊢
    rw [this]
  · rw [List.getElem?_eq_none h1, List.getElem?_eq_none (by rw [hl]; exact h1)]

theorem eachBucket_spec (hr : InRange hash) {ρ : Type} (w : Bool) (p : Bytes → ρ → Bytes → Action × ρ)
    (hf : ∀ k r v, ActFits recFits k (p k r v).1) (n : Nat) :
    ∀ (bi : Nat) (s : State) (r : ρ), Inv hash s → bi + n = s.buckets.length →
    Inv hash (eachBucket w p n bi s r).1 ∧
    (view hash (eachBucket w p n bi s r).1, (eachBucket w p n bi s r).2) =
      Dict.eachFold w p ((s.buckets.drop bi).flatMap recs) (view hash s) r := by
  induction n with
  | zero =>
    intro bi s r hi hb
    refine ⟨hi, ?_⟩
    rw [List.drop_of_length_le (by omega)]
    rfl
  | succ n ih =>
    intro bi s r hi hb
    have hlt : bi < s.buckets.length := by omega
    have hd : s.buckets.drop bi = s.bk bi :: s.buckets.drop (bi + 1) := by
      rw [List.drop_eq_getElem_cons hlt]
      simp [List.getD_eq_getElem?_getD, hlt]
    have c := eachChain_spec hr w p bi hf (hi.chain bi) s r hi (by
      intro x hx
      have h1 := hi.home bi x hx
      refine ⟨?_, h1⟩
      apply (mem_view hi _ _).2
      rw [List.mem_flatMap]
      exact ⟨s.bk bi, List.mem_of_mem_drop (i := bi) (by rw [hd]; simp), hx⟩) (hi.nodup bi)
    obtain ⟨i1, e1, l1, o1⟩ := c
    simp only [eachBucket]
    have := ih (bi + 1) _ (eachChain w p bi (s.bk bi) s r).2 i1 (by rw [l1]; omega)
    refine ⟨this.1, ?_⟩
    rw [this.2]
    have ev : view hash (eachChain w p bi (s.bk bi) s r).1 = (Dict.eachFold w p (recs (s.bk bi)) (view hash s) r).1 := by rw [← e1]
    have er : (eachChain w p bi (s.bk bi) s r).2 = (Dict.eachFold w p (recs (s.bk bi)) (view hash s) r).2 := by rw [← e1]
    have es : (eachChain w p bi (s.bk bi) s r).1.buckets.drop (bi + 1) = s.buckets.drop (bi + 1) := by
      exact drop_eq_of_getD l1 (fun i hi' => o1 i (by omega))
    rw [es, ev, er, hd, List.flatMap_cons, Dict.eachFold_append]

/-- C10: `ProcessEach` calls the processor exactly once for each record, in some order, each time with the value the
record has, and performs its actions (only if writable); an empty call is made before and after. -/
theorem C10_tiny_each (hr : InRange hash) {ρ : Type} (s : State) (w : Bool) (p : Bytes → ρ → Bytes → Action × ρ)
    (e : ρ → ρ) (r : ρ) (hi : Inv hash s) (hf : ∀ k r v, ActFits recFits k (p k r v).1) :
    Inv hash (processEach s w p e r).1 ∧
    ∃ rs, (view hash s).Lists rs ∧
      view hash (processEach s w p e r).1 = (Dict.eachFold w p rs (view hash s) (e r)).1 ∧
      (processEach s w p e r).2 = e (Dict.eachFold w p rs (view hash s) (e r)).2 := by
  have h := eachBucket_spec hr w p hf s.buckets.length 0 s (e r) hi (by omega)
  rw [List.drop_zero] at h
  refine ⟨h.1, s.buckets.flatMap recs, ⟨all_keys_nodup hi, fun k v => (mem_view hi k v).symm⟩, ?_, ?_⟩
  · simp only [processEach, ← h.2]
  · simp only [processEach, ← h.2]

/-- With one bucket holding two records: both are visited, one is removed on the way. -/
example : (processEach (run (step sampleHash) (init 1) sampleOps).1 true
    (fun k (r : List Bytes) v => (if k = [3] then .remove else .noop, r ++ [k, v])) id []).2 =
    [[1], [10], [3], [9, 9]] := by decide +kernel

end Verif.Tiny
