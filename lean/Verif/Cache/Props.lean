import Verif.Cache.History
/-
The properties of CacheDBM: what `Get` can give, how many records a partition holds, which record is evicted, how long a record stays.
-/
namespace Verif.Cache

/-! ### C11: what `Get` gives -/

/-- The plain calls. -/
inductive Plain where
  | get (k : Bytes)
  | set (k v : Bytes)
  | remove (k : Bytes)
  | clear
  | rebuild (capRec capMem : Int)

/-- The plain calls as calls with processors: `Get`, `Set` with overwriting, `Remove`. -/
def Plain.op : Plain → Op
  | .get k => .process k false Api.getProc
  | .set k v => .process k true (Api.setProc v true)
  | .remove k => .process k true Api.removeProc
  | .clear => .clear
  | .rebuild a b => .rebuild a b

/-- SPECIFICATION: the last value set for a key, if it was not removed since; the latest call is first in the list. -/
def lastSet (k : Bytes) : List Plain → Option Bytes
  | [] => none
  | .set k' v :: h => if k' = k then some v else lastSet k h
  | .remove k' :: h => if k' = k then none else lastSet k h
  | .clear :: _ => none
  | _ :: h => lastSet k h

/-- The update logger is told of each change that a processor makes (nothing of evictions), and `Get` gives nothing or what the log says. -/
theorem C11_get_logged (E : Env) (capRec capMem : Int) (h : List Op) (hf : Fits h) (k : Bytes) :
    look E (run E (State.new capRec capMem) h) k = none ∨
    look E (run E (State.new capRec capMem) h) k = Dict.replay Dict.empty (run E (State.new capRec capMem) h).log k := by
  obtain ⟨P, r⟩ := reached E capRec capMem h hf
  rw [(look_eq r.toStateOk k).1]
  cases hg : Spec.get (P (E.slotOf k)) k with
  | none => exact .inl rfl
  | some v => exact .inr (r.logged _ k v hg).symm

/-- One call: the processor is shown what `Get` would give; the update logger is told of the change that the processor makes; and the values
of all keys are those of a dictionary, except that one other record, or the one set, may be gone. -/
theorem C11_process (E : Env) (capRec capMem : Int) (h : List Op) (k : Bytes) (w : Bool) (p : ProcR (Code × Option Bytes)) (hf : Fits (h ++ [.process k w p])) :
    let s := run E (State.new capRec capMem) h
    let t := s.process E k w p
    t.2 = (p (look E s k)).2 ∧ t.1.bad = false ∧
    (∀ x, look E t.1 x = (Dict.process (look E s) k w p).1 x ∨ look E t.1 x = none) ∧
    (∀ x y, look E t.1 x ≠ (Dict.process (look E s) k w p).1 x → look E t.1 y ≠ (Dict.process (look E s) k w p).1 y → x = y) ∧
    t.1.log = s.log ++ (if w then (match (p (look E s k)).1 with
      | .noop => [] | .remove => if (look E s k).isSome then [.remove k] else [] | .set v => [.set k v]) else []) := by
  intro s t
  obtain ⟨P, r⟩ := reached E capRec capMem h hf.left
  obtain ⟨h1, h2, h3, h4, h5⟩ := r.toStateOk.processAt k w p (by rintro rfl; exact hf.right k p (by simp) _)
  have hl : ∀ x, look E s x = Spec.get (P (E.slotOf x)) x := fun x => (look_eq r.toStateOk x).1
  have hl' : ∀ x, look E t.1 x = _ := fun x => (look_eq h5 x).1
  have key : ∀ x, look E t.1 x = (Dict.process (look E s) k w p).1 x ∨ (look E t.1 x = none ∧
      ∃ v, acted w (fun o => (p o).1) none = .set v ∧ (((P (E.slotOf k)) ++ [(k, v)]).head?.map (·.1)) = some x) := by
    intro x
    have hp : (Dict.process (look E s) k w p).1 x = Dict.act (look E s) k (acted w (fun o => (p o).1) (look E s k)) x := by
      cases w <;> rfl
    rw [hl', hp]
    simp only [setPart]
    split
    · rename_i hx
      rcases step_get (slotCapRec (run E (State.new capRec capMem) h).capRec) (slotCapMem (run E (State.new capRec capMem) h).capMem) (P (E.slotOf k))
        (r.slot _).nodup k w (fun o => (p o).1) x with g | ⟨g, _, v, g1, _, g2⟩
      · left
        rw [g, hl k]
        generalize acted w (fun o => (p o).1) (Spec.get (P (E.slotOf k)) k) = a
        by_cases e : x = k
        · subst e; cases a <;> simp [Dict.act, Dict.upd, hl]
        · cases a <;> simp [Dict.act, Dict.upd, e, hl, hx]
      · exact .inr ⟨g, v, g1, g2⟩
    · rename_i hx
      left
      have : x ≠ k := fun e => hx (by rw [e])
      rw [Dict.act_other _ _ this, hl]
  refine ⟨?_, h5.good, fun x => (key x).imp_right (·.1), ?_, ?_⟩
  · rw [hl]; exact h1
  · intro x y hx hy
    obtain ⟨_, v, g1, g2⟩ := (key x).resolve_left hx
    obtain ⟨_, v', g1', g2'⟩ := (key y).resolve_left hy
    rw [g1] at g1'
    injection g1' with g1'
    subst g1'
    rw [g2] at g2'
    injection g2'
  · rw [hl]
    refine Eq.trans h2 ?_
    congr 1
    unfold Spec.logOf
    cases w <;> rfl

theorem lastSet_replay (E : Env) (capRec capMem : Int) : ∀ (h : List Plain), Fits (h.map Plain.op) → ∀ (k v : Bytes),
    look E (run E (State.new capRec capMem) (h.map Plain.op)) k = some v → lastSet k h.reverse = some v := by
  intro h
  induction h using List.reverseRecOn with
  | nil =>
    intro _ k v hv
    have hv : look E (State.new capRec capMem) k = some v := hv
    rw [(look_eq (StateOk.new E capRec capMem) k).1] at hv
    cases hv
  | append_singleton h op ih =>
    intro hf k v hv
    rw [List.map_append] at hf hv
    have hf1 := hf.left
    have ih := ih hf1
    rw [List.reverse_append, List.reverse_singleton, List.singleton_append]
    have proc : ∀ k0 w (p : ProcR (Code × Option Bytes)), Op.process k0 w p = op.op →
        (Dict.process (look E (run E (State.new capRec capMem) (h.map Plain.op))) k0 w p).1 k = some v := by
      intro k0 w p e
      rw [List.map_cons, List.map_nil, ← e] at hf hv
      obtain ⟨_, _, h3, _⟩ := C11_process E capRec capMem _ k0 w p hf
      rw [run_snoc] at hv
      have hv : look E (State.process E (run E (State.new capRec capMem) (h.map Plain.op)) k0 w p).1 k = some v := hv
      rcases h3 k with g | g
      · rw [← g]; exact hv
      · rw [hv] at g; cases g
    cases op with
    | get k0 =>
      have := proc k0 false Api.getProc rfl
      exact ih k v this
    | set k0 v0 =>
      have := proc k0 true (Api.setProc v0 true) rfl
      simp only [Dict.process, if_true] at this
      simp only [lastSet]
      generalize hs : look E (run E (State.new capRec capMem) (h.map Plain.op)) = d at this ih
      have ha : (Api.setProc v0 true (d k0)).1 = .set v0 := by cases d k0 <;> rfl
      rw [ha] at this
      simp only [Dict.act, Dict.upd] at this
      by_cases e : k0 = k
      · rw [if_pos e.symm] at this; rw [if_pos e]; exact this
      · rw [if_neg (Ne.symm e)] at this; rw [if_neg e]; exact ih k v this
    | remove k0 =>
      have := proc k0 true Api.removeProc rfl
      simp only [Dict.process, if_true] at this
      simp only [lastSet]
      generalize hs : look E (run E (State.new capRec capMem) (h.map Plain.op)) = d at this ih
      by_cases e : k0 = k
      · subst e
        exfalso
        cases hd : d k0 <;> rw [hd] at this <;> simp [Api.removeProc, Dict.act, Dict.upd, hd] at this
      · rw [if_neg e]
        refine ih k v ?_
        rw [Dict.act_other _ _ (Ne.symm e)] at this
        exact this
    | clear =>
      rw [List.map_cons, List.map_nil, run_snoc] at hv
      obtain ⟨P, r⟩ := reached E capRec capMem _ hf1
      have := r.toStateOk.clear.1
      have hv : look E (run E (State.new capRec capMem) (h.map Plain.op)).clear k = some v := hv
      rw [(look_eq this k).1] at hv
      cases hv
    | rebuild a b =>
      rw [List.map_cons, List.map_nil, run_snoc] at hv
      obtain ⟨P, r⟩ := reached E capRec capMem _ hf1
      have h2 := (r.toStateOk.rebuild a b).1
      have hv : look E ((run E (State.new capRec capMem) (h.map Plain.op)).rebuild E a b) k = some v := hv
      rw [(look_eq h2 k).1] at hv
      obtain ⟨n, hn, _⟩ := keep_prefix (slotCapRec (newCap a (run E (State.new capRec capMem) (h.map Plain.op)).capRec))
        (slotCapMem (newCap b (run E (State.new capRec capMem) (h.map Plain.op)).capMem)) (P (E.slotOf k)) []
      rw [hn, List.nil_append] at hv
      refine ih k v ?_
      rw [(look_eq r.toStateOk k).1]
      exact get_of_sublist (List.take_sublist _ _) (r.slot _).nodup hv

/-- After any history of `Get`, `Set`, `Remove`, `Clear` and `Rebuild`, `Get` says NOT_FOUND or gives the last value set. -/
theorem C11_get (E : Env) (capRec capMem : Int) (h : List Plain) (hf : Fits (h.map Plain.op)) (k : Bytes) :
    (Api.get (impl E) (run E (State.new capRec capMem) (h.map Plain.op)) k).2 = (.notFound, none) ∨
    ∃ v, lastSet k h.reverse = some v ∧ (Api.get (impl E) (run E (State.new capRec capMem) (h.map Plain.op)) k).2 = (.success, some v) := by
  obtain ⟨P, r⟩ := reached E capRec capMem _ hf
  have h1 := (look_eq r.toStateOk k).2
  cases hg : look E (run E (State.new capRec capMem) (h.map Plain.op)) k with
  | none => rw [hg] at h1; exact .inl (Prod.ext h1 hg)
  | some v => rw [hg] at h1; exact .inr ⟨v, lastSet_replay E capRec capMem h hf k v hg, Prod.ext h1 hg⟩

/-! ### C11: how many records there are -/

theorem slotOf_lt (E : Env) (k : Bytes) : E.slotOf k < numSlots := Nat.mod_lt _ (by decide)

/-- The records of all partitions. -/
def allRecs (P : Nat → List (Bytes × Bytes)) : List (Bytes × Bytes) := (List.range numSlots).flatMap P

theorem allRecs_lists {E : Env} {s : State} {P : Nat → List (Bytes × Bytes)} (h : StateOk E s P) : Dict.Lists (look E s) (allRecs P) := by
  have hnd : ∀ (js : List Nat), js.Nodup → ((js.flatMap P).map (·.1)).Nodup := by
    intro js
    induction js with
    | nil => intro _; simp
    | cons j js ih =>
      intro hj
      rw [List.nodup_cons] at hj
      rw [List.flatMap_cons, List.map_append, List.nodup_append]
      refine ⟨(h.slot j).nodup, ih hj.2, ?_⟩
      intro x hx y hy e
      obtain ⟨e1, h1, rfl⟩ := List.mem_map.1 hx
      obtain ⟨e2, h2, rfl⟩ := List.mem_map.1 hy
      obtain ⟨j', hj', h2⟩ := List.mem_flatMap.1 h2
      have g1 := h.home j e1 h1
      have g2 := h.home j' e2 h2
      rw [e, g2] at g1
      exact hj.1 (g1 ▸ hj')
  refine ⟨hnd _ List.nodup_range, ?_⟩
  intro k v
  rw [(look_eq h k).1]
  constructor
  · intro hm
    obtain ⟨j, _, hm⟩ := List.mem_flatMap.1 hm
    have := h.home j _ hm
    simp only at this
    rw [this]
    exact mem_get (h.slot j).nodup hm
  · intro hg
    exact List.mem_flatMap.2 ⟨E.slotOf k, List.mem_range.2 (slotOf_lt E k), get_mem hg⟩

theorem foldl_len (P : Nat → List (Bytes × Bytes)) (f : Nat → Nat) : ∀ (js : List Nat) (n : Nat), (∀ j ∈ js, f j = (P j).length) →
    js.foldl (fun n i => n + f i) n = n + (js.flatMap P).length := by
  intro js
  induction js with
  | nil => intro n _; simp
  | cons j js ih =>
    intro n h
    rw [List.foldl_cons, ih _ (fun x hx => h x (List.mem_cons_of_mem _ hx)), h j (by simp), List.flatMap_cons, List.length_append]; omega

theorem foldl_size (P : Nat → List (Bytes × Bytes)) (f : Nat → Int) : ∀ (js : List Nat) (n : Int), (∀ j ∈ js, f j = Spec.dataSize (P j)) →
    js.foldl (fun n i => n + f i) n = n + Spec.dataSize (js.flatMap P) := by
  intro js
  induction js with
  | nil => intro n _; simp [Spec.dataSize]
  | cons j js ih =>
    intro n h
    rw [List.foldl_cons, ih _ (fun x hx => h x (List.mem_cons_of_mem _ hx)), h j (by simp), List.flatMap_cons, dataSize_append]; omega

theorem counted {E : Env} {s : State} {P : Nat → List (Bytes × Bytes)} (h : StateOk E s P) : Dict.Counted (look E s) s.count s.effSize := by
  refine ⟨allRecs P, allRecs_lists h, ?_, ?_⟩
  · unfold State.count allRecs
    rw [foldl_len P _ _ _ (fun j _ => (h.slot j).num), Nat.zero_add]
  · unfold State.effSize allRecs
    rw [foldl_size P _ _ _ (fun j _ => (h.slot j).eff), Int.zero_add]
    unfold Spec.dataSize
    congr 1

/-- `Count` is the number of records, and `GetEffectiveDataSize` is the total size of them. -/
theorem C11_count (E : Env) (capRec capMem : Int) (h : List Op) (hf : Fits h) :
    Dict.Counted (look E (run E (State.new capRec capMem) h)) (run E (State.new capRec capMem) h).count (run E (State.new capRec capMem) h).effSize := by
  obtain ⟨P, r⟩ := reached E capRec capMem h hf
  exact counted r.toStateOk

/-- SPECIFICATION: the capacity in force after a history. -/
def capAfter (capRec : Int) : List Op → Int
  | [] => if capRec > 0 then capRec else 1048576
  | .rebuild a _ :: h => if a > 0 then a else capAfter capRec h
  | _ :: h => capAfter capRec h

theorem cap_run (E : Env) (capRec capMem : Int) : ∀ (h : List Op), Fits h → (run E (State.new capRec capMem) h).capRec = capAfter capRec h.reverse := by
  intro h
  induction h using List.reverseRecOn with
  | nil => intro _; rfl
  | append_singleton h op ih =>
    intro hf
    obtain ⟨P, r⟩ := reached E capRec capMem h hf.left
    obtain ⟨_, _, h3⟩ := step_ok r.toStateOk op hf.right
    rw [run_snoc]
    have e3 := congrArg Prod.fst h3
    simp only at e3
    rw [e3, List.reverse_append, List.reverse_singleton, List.singleton_append]
    cases op with
    | process k w p => exact ih hf.left
    | clear => exact ih hf.left
    | rebuild a b => simp only [capStep, capAfter, newCap]; rw [ih hf.left]

/-- The keys present in one partition are never more than its share: a 32nd of the capacity, rounded down, and one more. -/
theorem C11_partition (E : Env) (capRec capMem : Int) (h : List Op) (hf : Fits h) (ks : List Bytes) (hn : ks.Nodup) (i : Nat)
    (hk : ∀ k ∈ ks, E.slotOf k = i ∧ (look E (run E (State.new capRec capMem) h) k).isSome) :
    (ks.length : Int) ≤ capAfter capRec h.reverse / 32 + 1 := by
  obtain ⟨P, r⟩ := reached E capRec capMem h hf
  have hb := r.bound i
  rw [cap_run E capRec capMem h hf] at hb
  have hsub : ks ⊆ (P i).map (·.1) := by
    intro k hm
    obtain ⟨h1, h2⟩ := hk k hm
    obtain ⟨v, hv⟩ := Option.isSome_iff_exists.1 h2
    rw [(look_eq r.toStateOk k).1, h1] at hv
    exact List.mem_map.2 ⟨_, get_mem hv, rfl⟩
  have := (List.subperm_of_subset hn hsub).length_le
  rw [List.length_map] at this
  unfold slotCapRec numSlots at hb
  omega

theorem sum_bound (P : Nat → List (Bytes × Bytes)) (c : Int) (h : ∀ i, ((P i).length : Int) ≤ c) : ∀ (js : List Nat),
    ((js.flatMap P).length : Int) ≤ js.length * c := by
  intro js
  induction js with
  | nil => simp
  | cons j js ih =>
    rw [List.flatMap_cons, List.length_append, List.length_cons]
    have := h j
    push_cast
    rw [Int.add_mul]
    omega

/-- The number of records is never more than the capacity and 32. -/
theorem C11_total (E : Env) (capRec capMem : Int) (h : List Op) (hf : Fits h) :
    ((run E (State.new capRec capMem) h).count : Int) ≤ capAfter capRec h.reverse + 32 := by
  obtain ⟨P, r⟩ := reached E capRec capMem h hf
  have hb := sum_bound P _ r.bound (List.range numSlots)
  rw [cap_run E capRec capMem h hf] at hb
  have hc : (run E (State.new capRec capMem) h).count = ((List.range numSlots).flatMap P).length := by
    unfold State.count
    rw [foldl_len P _ _ _ (fun j _ => (r.slot j).num), Nat.zero_add]
  rw [hc]
  unfold slotCapRec numSlots at hb
  simp only [List.length_range] at hb
  unfold numSlots
  omega

/-! ### C11: the evicted record is the least recently used of its partition -/

/-- If a call for `k` makes another record `x` disappear, then `k` was not there, `x` is of the partition of `k`, and every other record of the
partition was used after the last use of `x`. -/
theorem C11_evicts_lru (E : Env) (capRec capMem : Int) (h : List Op) (k : Bytes) (w : Bool) (p : ProcR (Code × Option Bytes)) (hf : Fits (h ++ [.process k w p]))
    (x : Bytes) (hx : x ≠ k) (before : (look E (run E (State.new capRec capMem) h) x).isSome)
    (after : look E (run E (State.new capRec capMem) (h ++ [.process k w p])) x = none) :
    E.slotOf x = E.slotOf k ∧ look E (run E (State.new capRec capMem) h) k = none ∧
    ∀ y, E.slotOf y = E.slotOf x → y ≠ x → (look E (run E (State.new capRec capMem) h) y).isSome → UsedBefore h x y := by
  obtain ⟨P, r⟩ := reached E capRec capMem h hf.left
  rw [run_snoc] at after
  obtain ⟨h1, -, -⟩ := step_ok r.toStateOk (.process k w p) hf.right
  rw [(look_eq h1 x).1] at after
  rw [(look_eq r.toStateOk x).1] at before
  simp only [partStep, setPart] at after
  split at after
  · rename_i hs
    rcases step_get (slotCapRec (run E (State.new capRec capMem) h).capRec) (slotCapMem (run E (State.new capRec capMem) h).capMem) (P (E.slotOf k))
        (r.slot _).nodup k w (fun o => (p o).1) x with g | ⟨_, g1, v, _, _, g2⟩
    · rw [after, Dict.act_other _ _ hx, ← hs] at g
      rw [← g] at before; cases before
    · refine ⟨hs, by rw [(look_eq r.toStateOk k).1]; exact g1, ?_⟩
      intro y hy hyx hpy
      rw [(look_eq r.toStateOk y).1, hy] at hpy
      obtain ⟨vy, hvy⟩ := Option.isSome_iff_exists.1 hpy
      have hm := get_mem hvy
      have ho := r.order (E.slotOf x)
      rw [← hs] at g2
      generalize P (E.slotOf x) = l at hm ho g2
      cases l with
      | nil => cases hm
      | cons e l =>
        simp only [List.cons_append, List.head?_cons, Option.map_some, Option.some.injEq] at g2
        rcases List.mem_cons.1 hm with hm | hm
        · subst hm; exact absurd g2 hyx
        · rw [← g2]; exact (List.pairwise_cons.1 ho).1 _ hm
  · rw [after] at before; cases before

/-! ### C12: how long a record stays -/

/-- SPECIFICATION: the records that a history can store have keys and values of at most `B` bytes in total. -/
def Small (B : Nat) (h : List Op) : Prop := ∀ k p, Op.process k true p ∈ h → ∀ o v, (p o).1 = .set v → k.length + v.length ≤ B

/-- SPECIFICATION: the memory of a partition suffices for its share of records of at most `B` bytes, and one more: the buckets, 34 bytes for each
record, and the data. -/
def Enough (capRec capMem : Int) (B : Nat) : Prop :=
  (bucketNum (capRec / 32 + 1) : Int) * 8 + (capRec / 32 + 2) * (34 + B) ≤ capMem / 32 + 1

/-- All records are small. -/
theorem Small.parts {B : Nat} {E : Env} {capRec capMem : Int} : ∀ {h : List Op}, Fits h → Small B h →
    ∃ P, Reached E h (run E (State.new capRec capMem) h) P ∧ ∀ i, ∀ e ∈ P i, e.1.length + e.2.length ≤ B := by
  intro h
  induction h using List.reverseRecOn with
  | nil => intro _ _; exact ⟨_, Reached.new E capRec capMem, by simp⟩
  | append_singleton h op ih =>
    intro hf hs
    obtain ⟨P, r, hb⟩ := ih hf.left (fun k p hm => hs k p (List.mem_append_left _ hm))
    rw [run_snoc]
    refine ⟨_, r.step op hf.right, ?_⟩
    intro i e he
    cases op with
    | process k w p =>
      simp only [partStep, setPart] at he
      split at he
      · rename_i hi
        subst hi
        have hn := ((r.step (.process k w p) hf.right).slot (E.slotOf k)).nodup
        simp only [partStep, setPart, if_true] at hn
        have hg := mem_get hn he
        rcases step_get (slotCapRec (run E (State.new capRec capMem) h).capRec) (slotCapMem (run E (State.new capRec capMem) h).capMem) (P (E.slotOf k))
          (r.slot _).nodup k w (fun o => (p o).1) e.1 with g | ⟨g, _⟩
        · rw [hg] at g
          by_cases e1 : e.1 = k
          · rw [e1] at g
            cases w with
            | false => exact hb _ e (get_mem (by rw [e1]; exact g.symm))
            | true =>
              have ha : acted true (fun o => (p o).1) (Spec.get (P (E.slotOf k)) k) = (p (Spec.get (P (E.slotOf k)) k)).1 := rfl
              rw [ha] at g
              cases hp : (p (Spec.get (P (E.slotOf k)) k)).1 with
              | noop => rw [hp] at g; exact hb _ e (get_mem (by rw [e1]; exact g.symm))
              | remove => rw [hp] at g; simp [Dict.act, Dict.upd] at g
              | set v =>
                rw [hp] at g
                simp [Dict.act, Dict.upd] at g
                rw [e1, g]
                exact hs k p (by simp) _ v hp
          · rw [Dict.act_other _ _ e1] at g
            exact hb _ e (get_mem g.symm)
        · rw [hg] at g; cases g
      · exact hb i e he
    | clear => simp [partStep] at he
    | rebuild a b =>
      simp only [partStep] at he
      obtain ⟨n, hn, _⟩ := keep_prefix (slotCapRec (newCap a (run E (State.new capRec capMem) h).capRec))
        (slotCapMem (newCap b (run E (State.new capRec capMem) h).capMem)) (P i) []
      rw [hn, List.nil_append] at he
      exact hb i e (List.mem_of_mem_take he)

theorem dataSize_le {B : Nat} : ∀ (l : List (Bytes × Bytes)), (∀ e ∈ l, e.1.length + e.2.length ≤ B) → Spec.dataSize l ≤ l.length * B := by
  intro l
  induction l with
  | nil => intro _; simp [Spec.dataSize]
  | cons e l ih =>
    intro h
    have h1 := ih (fun x hx => h x (List.mem_cons_of_mem _ hx))
    have h2 := h e (by simp)
    rw [dataSize_cons, List.length_cons]
    push_cast
    rw [Int.add_mul]
    omega

/-- With memory enough, the limit of a partition is that of the number of records. -/
theorem over_iff {capRec capMem : Int} {B : Nat} (he : Enough capRec capMem B) {l : List (Bytes × Bytes)} (hb : ∀ e ∈ l, e.1.length + e.2.length ≤ B)
    (hl : (l.length : Int) ≤ slotCapRec capRec + 1) (hc : 0 < capRec) : Spec.Over (slotCapRec capRec) (slotCapMem capMem) l ↔ (l.length : Int) > slotCapRec capRec := by
  unfold Spec.Over
  constructor
  · rintro (h | h)
    · exact h
    · exfalso
      unfold Spec.usage at h
      have h1 := dataSize_le l hb
      unfold Enough at he
      unfold slotCapMem at h
      unfold slotCapRec numSlots at *
      have h2 : (l.length : Int) * (34 + B) ≤ (capRec / 32 + 2) * (34 + B) := Int.mul_le_mul_of_nonneg_right (by omega) (by omega)
      rw [Int.mul_add] at h2
      simp only [Nat.cast_ofNat] at h
      omega
  · exact Or.inl

/-- The list after a call while `k0` stays: it is followed only by keys of `ks`. -/
theorem stays_step {ks : List Bytes} {a b : Int} {l : List (Bytes × Bytes)} (hn : (l.map (·.1)).Nodup) {k0 v0 : Bytes} {pre post : List (Bytes × Bytes)}
    (hl : l = pre ++ (k0, v0) :: post) (hp : ∀ e ∈ post, e.1 ∈ ks) (hks : (ks.length : Int) < a) {k : Bytes} (hk : k ≠ k0) (hkm : k ∈ ks) (w : Bool) (f : Option Bytes → Action)
    (hov : ∀ v, acted w f none = .set v → Spec.Over a b (l ++ [(k, v)]) → ((l ++ [(k, v)]).length : Int) > a) :
    ∃ pre' post', Spec.step a b l k w f = pre' ++ (k0, v0) :: post' ∧ ∀ e ∈ post', e.1 ∈ ks := by
  have hwo : Spec.without l k = Spec.without pre k ++ (k0, v0) :: Spec.without post k := by
    unfold Spec.without
    rw [hl, List.filter_append, List.filter_cons_of_pos (by simpa using Ne.symm hk)]
  have hwp : ∀ e ∈ Spec.without post k, e.1 ∈ ks := fun e he => hp e (List.mem_filter.mp he).1
  have hadd : ∀ (q : List (Bytes × Bytes)) v, (∀ e ∈ q, e.1 ∈ ks) → ∀ e ∈ q ++ [(k, v)], e.1 ∈ ks := by
    intro q v hq e he
    rcases List.mem_append.1 he with he | he
    · exact hq e he
    · simp at he; rw [he]; exact hkm
  obtain ⟨x, hx, hs⟩ := step_shape a b l k w f
  rcases hx with rfl | ⟨v, hne, rfl, hg, ha, ho, he⟩
  · rw [hwo] at hs
    rcases hs with ⟨hs, _⟩ | ⟨v, hs, _⟩
    · exact ⟨_, _, hs, hwp⟩
    · exact ⟨Spec.without pre k, Spec.without post k ++ [(k, v)], by rw [hs]; simp, hadd _ _ hwp⟩
  · cases pre with
    | nil =>
      exfalso
      have hlen := hov v ha ho
      have hn' : (post.map (·.1) ++ [k]).Nodup := by
        rw [List.nodup_append]
        rw [hl] at hn
        simp only [List.nil_append, List.map_cons, List.nodup_cons] at hn
        refine ⟨hn.2, by simp, ?_⟩
        intro y hy z hz e
        simp at hz
        subst hz e
        rw [get_none_iff, hl] at hg
        exact hg (by simp only [List.nil_append, List.map_cons]; exact List.mem_cons_of_mem _ hy)
      have hsub : (post.map (·.1) ++ [k]) ⊆ ks := by
        intro y hy
        rcases List.mem_append.1 hy with hy | hy
        · obtain ⟨e, he, rfl⟩ := List.mem_map.1 hy; exact hp e he
        · simp at hy; rw [hy]; exact hkm
      have := (List.subperm_of_subset hn' hsub).length_le
      rw [hl] at hlen
      simp at hlen this
      omega
    | cons e pre =>
      refine ⟨pre, post ++ [(k, v)], by rw [he, hl]; simp, hadd _ _ hp⟩

/-- SPECIFICATION: the call is for a single record, other than that of `k0`; if it is of the same partition, its key is in `ks`. -/
def Elsewhere (E : Env) (k0 : Bytes) (ks : List Bytes) : Op → Prop
  | .process k _ _ => k ≠ k0 ∧ (E.slotOf k = E.slotOf k0 → k ∈ ks)
  | _ => False

/-- `C12_stays` for capacities given. -/
theorem stays_aux (E : Env) (capRec capMem : Int) (hc : 0 < capRec) (hm : 0 < capMem) (h1 h2 : List Op) (k0 : Bytes) (w : Bool) (p : ProcR (Code × Option Bytes))
    (hf : Fits (h1 ++ [.process k0 w p] ++ h2)) (B : Nat) (hB : Small B (h1 ++ [.process k0 w p] ++ h2)) (hE : Enough capRec capMem B)
    (hnr : ∀ a b, Op.rebuild a b ∉ h1) (v : Bytes) (hv : look E (run E (State.new capRec capMem) (h1 ++ [.process k0 w p])) k0 = some v)
    (ks : List Bytes) (hks : (ks.length : Int) < capRec / 32 + 1) (hh : ∀ op ∈ h2, Elsewhere E k0 ks op) :
    look E (run E (State.new capRec capMem) (h1 ++ [.process k0 w p] ++ h2)) k0 = some v := by
  have hcap : ∀ h : List Op, (∀ a b, Op.rebuild a b ∉ h) → Fits h →
      (run E (State.new capRec capMem) h).capRec = capRec ∧ (run E (State.new capRec capMem) h).capMem = capMem := by
    intro h
    induction h using List.reverseRecOn with
    | nil => intro _ _; simp only [run, List.foldl_nil, State.new]; constructor <;> rw [if_pos (by omega)]
    | append_singleton h op ih =>
      intro hno hf
      obtain ⟨P, r⟩ := reached E capRec capMem h hf.left
      obtain ⟨_, _, h3⟩ := step_ok r.toStateOk op hf.right
      obtain ⟨i1, i2⟩ := ih (fun a b hm => hno a b (List.mem_append_left _ hm)) hf.left
      rw [i1, i2] at h3
      rw [run_snoc]
      cases op with
      | rebuild a b => exact absurd (by simp) (hno a b)
      | process k w p => exact ⟨congrArg Prod.fst h3, congrArg Prod.snd h3⟩
      | clear => exact ⟨congrArg Prod.fst h3, congrArg Prod.snd h3⟩
  have hsplit : ∀ h2 : List Op, Fits (h1 ++ [.process k0 w p] ++ h2) → Small B (h1 ++ [.process k0 w p] ++ h2) → (∀ op ∈ h2, Elsewhere E k0 ks op) →
      ∃ P, Reached E (h1 ++ [.process k0 w p] ++ h2) (run E (State.new capRec capMem) (h1 ++ [.process k0 w p] ++ h2)) P ∧
        ∃ pre post, P (E.slotOf k0) = pre ++ (k0, v) :: post ∧ ∀ e ∈ post, e.1 ∈ ks := by
    intro h2
    induction h2 using List.reverseRecOn with
    | nil =>
      intro hf _ _
      rw [List.append_nil] at hf ⊢
      obtain ⟨P, r⟩ := reached E capRec capMem h1 hf.left
      have r' := r.step (.process k0 w p) hf.right
      rw [← run_snoc] at r'
      refine ⟨_, r', ?_⟩
      rw [(look_eq r'.toStateOk k0).1] at hv
      simp only [partStep, setPart, if_true] at hv ⊢
      obtain ⟨x, hx, hs⟩ := step_shape (slotCapRec (run E (State.new capRec capMem) h1).capRec) (slotCapMem (run E (State.new capRec capMem) h1).capMem)
        (P (E.slotOf k0)) k0 w (fun o => (p o).1)
      rcases hs with ⟨hs, _⟩ | ⟨v', hs, _⟩
      · exfalso
        have hk0 : Spec.get x k0 = none := by
          rcases hx with rfl | ⟨_, _, rfl, hg, _⟩
          · rw [get_without, if_pos rfl]
          · rw [get_none_iff] at hg ⊢
            exact fun hm => hg (((List.tail_sublist _).map _).subset hm)
        rw [hs, hk0] at hv; cases hv
      · have hk0 : Spec.get x k0 = none := by
          rcases hx with rfl | ⟨_, _, rfl, hg, _⟩
          · rw [get_without, if_pos rfl]
          · rw [get_none_iff] at hg ⊢
            exact fun hm => hg (((List.tail_sublist _).map _).subset hm)
        rw [hs, get_snoc _ _ _ _ hk0, if_pos rfl] at hv
        injection hv with hv
        subst hv
        exact ⟨x, [], hs, by simp⟩
    | append_singleton h2 op ih =>
      intro hf hB hh
      rw [← List.append_assoc] at hf hB ⊢
      obtain ⟨P, r, pre, post, hl, hp⟩ := ih hf.left (fun k p hm => hB k p (List.mem_append_left _ hm)) (fun o ho => hh o (List.mem_append_left _ ho))
      have r' := r.step op hf.right
      rw [← run_snoc] at r'
      refine ⟨_, r', ?_⟩
      have hop := hh op (by simp)
      cases op with
      | process k w' p' =>
        obtain ⟨hk, hkm⟩ := hop
        simp only [partStep, setPart]
        split
        · rename_i hs
          have hno : ∀ a b, Op.rebuild a b ∉ h1 ++ [.process k0 w p] ++ h2 := by
            intro a b hm
            rcases List.mem_append.1 hm with hm | hm
            · rcases List.mem_append.1 hm with hm | hm
              · exact hnr a b hm
              · simp at hm
            · exact hh _ (List.mem_append_left _ hm)
          obtain ⟨c1, c2⟩ := hcap _ hno hf.left
          rw [c1, c2, ← hs]
          have hbP : ∀ e ∈ P (E.slotOf k0), e.1.length + e.2.length ≤ B := by
            obtain ⟨P2, r2, hb2⟩ := Small.parts (E := E) (capRec := capRec) (capMem := capMem) hf.left (fun k p hm => hB k p (List.mem_append_left _ hm))
            have : P (E.slotOf k0) = P2 (E.slotOf k0) := by
              have e1 := toList_spec (r.slot (E.slotOf k0))
              have e2 := toList_spec (r2.slot (E.slotOf k0))
              rw [e1] at e2; injection e2
            rw [this]; exact hb2 _
          have hbound := r.bound (E.slotOf k0)
          rw [c1] at hbound
          refine stays_step (r.slot _).nodup hl hp (by unfold slotCapRec numSlots; exact hks) hk (hkm hs.symm) w' (fun o => (p' o).1) ?_
          intro v1 hv1 ho
          rw [over_iff hE ?_ (by rw [List.length_append]; simp; omega) hc] at ho
          · exact ho
          · intro e he
            rcases List.mem_append.1 he with he | he
            · exact hbP e he
            · simp only [List.mem_singleton] at he
              rw [he]
              cases w' with
              | false => cases hv1
              | true => exact hB k p' (by simp) none v1 hv1
        · exact ⟨pre, post, hl, hp⟩
      | clear => exact hop.elim
      | rebuild a b => exact hop.elim
  obtain ⟨P, r, pre, post, hl, _⟩ := hsplit h2 hf hB hh
  rw [(look_eq r.toStateOk k0).1]
  exact mem_get (r.slot _).nodup (by rw [hl]; simp)

/-- SPECIFICATION: the capacity in records, 1048576 if none is given. -/
def capOf (capRec : Int) : Int := if capRec > 0 then capRec else 1048576

/-- SPECIFICATION: the capacity in bytes, unlimited if none is given. -/
def memOf (capMem : Int) : Int := if capMem > 0 then capMem else int64max

theorem new_of (capRec capMem : Int) : State.new capRec capMem = State.new (capOf capRec) (memOf capMem) := by
  have h1 : 0 < capOf capRec := by unfold capOf; split <;> omega
  have h2 : 0 < memOf capMem := by unfold memOf int64max; split <;> omega
  have e1 : (if capOf capRec > 0 then capOf capRec else 1048576) = capOf capRec := if_pos h1
  have e2 : (if memOf capMem > 0 then memOf capMem else int64max) = memOf capMem := if_pos h2
  show _ = State.mk (fun _ => Slot.init (slotCapRec (if capOf capRec > 0 then capOf capRec else 1048576)) (slotCapMem (if memOf capMem > 0 then memOf capMem else int64max)))
    (if capOf capRec > 0 then capOf capRec else 1048576) (if memOf capMem > 0 then memOf capMem else int64max) [] false
  rw [e1, e2]
  rfl

/-- A record just used stays as long as the calls after that are for fewer different keys of its partition than the share of the partition in the
capacity: it is there with its value. The memory limit has to be large enough for so many records. -/
theorem C12_stays (E : Env) (capRec capMem : Int) (h1 h2 : List Op) (k0 : Bytes) (w : Bool) (p : ProcR (Code × Option Bytes))
    (hf : Fits (h1 ++ [.process k0 w p] ++ h2)) (B : Nat) (hB : Small B (h1 ++ [.process k0 w p] ++ h2)) (hE : Enough (capOf capRec) (memOf capMem) B)
    (hnr : ∀ a b, Op.rebuild a b ∉ h1) (v : Bytes) (hv : look E (run E (State.new capRec capMem) (h1 ++ [.process k0 w p])) k0 = some v)
    (ks : List Bytes) (hks : (ks.length : Int) < capOf capRec / 32 + 1) (hh : ∀ op ∈ h2, Elsewhere E k0 ks op) :
    look E (run E (State.new capRec capMem) (h1 ++ [.process k0 w p] ++ h2)) k0 = some v := by
  rw [new_of] at hv ⊢
  exact stays_aux E _ _ (by unfold capOf; split <;> omega) (by unfold memOf int64max; split <;> omega) h1 h2 k0 w p hf B hB hE hnr v hv ks hks hh

/-- SPECIFICATION: a call on a dictionary. -/
def dictStep (d : Dict) : Op → Dict
  | .process k w p => (Dict.process d k w p).1
  | .clear => Dict.empty
  | .rebuild _ _ => d

/-- SPECIFICATION: the history on a dictionary. -/
def dictRun (h : List Op) : Dict := h.foldl dictStep Dict.empty

/-- As long as no more keys are used in each partition than its share of the capacity, and the memory limit is large enough, the database is a
dictionary: nothing is evicted. -/
theorem C12_no_eviction (E : Env) (capRec capMem : Int) (B : Nat) (hE : Enough (capOf capRec) (memOf capMem) B) (ks : Nat → List Bytes)
    (hks : ∀ i, ((ks i).length : Int) ≤ capOf capRec / 32 + 1) (h : List Op) (hf : Fits h) (hB : Small B h) (hnr : ∀ a b, Op.rebuild a b ∉ h)
    (hk : ∀ k w p, Op.process k w p ∈ h → k ∈ ks (E.slotOf k)) :
    look E (run E (State.new capRec capMem) h) = dictRun h := by
  have hc : 0 < capOf capRec := by unfold capOf; split <;> omega
  have hm : 0 < memOf capMem := by unfold memOf int64max; split <;> omega
  have main : ∀ h : List Op, Fits h → Small B h → (∀ a b, Op.rebuild a b ∉ h) → (∀ k w p, Op.process k w p ∈ h → k ∈ ks (E.slotOf k)) →
      ∃ P, StateOk E (run E (State.new capRec capMem) h) P ∧ (∀ i, ∀ e ∈ P i, e.1 ∈ ks i ∧ e.1.length + e.2.length ≤ B) ∧
        (run E (State.new capRec capMem) h).capRec = capOf capRec ∧ (run E (State.new capRec capMem) h).capMem = memOf capMem ∧
        ∀ k, Spec.get (P (E.slotOf k)) k = dictRun h k := by
    intro h
    induction h using List.reverseRecOn with
    | nil => intro _ _ _ _; exact ⟨_, StateOk.new E capRec capMem, by simp, rfl, rfl, fun _ => rfl⟩
    | append_singleton h op ih =>
      intro hf hB hnr hk
      obtain ⟨P, r, hP, c1, c2, hd⟩ := ih hf.left (fun k p hm => hB k p (List.mem_append_left _ hm)) (fun a b hm => hnr a b (List.mem_append_left _ hm))
        (fun k w p hm => hk k w p (List.mem_append_left _ hm))
      obtain ⟨h1, _, h3⟩ := step_ok r op hf.right
      rw [run_snoc]
      rw [c1, c2] at h1 h3
      have hdr : dictRun (h ++ [op]) = dictStep (dictRun h) op := by
        unfold dictRun; rw [List.foldl_append]; rfl
      rw [hdr]
      cases op with
      | process k w p =>
        have c : (step E (run E (State.new capRec capMem) h) (.process k w p)).capRec = capOf capRec ∧
            (step E (run E (State.new capRec capMem) h) (.process k w p)).capMem = memOf capMem := ⟨congrArg Prod.fst h3, congrArg Prod.snd h3⟩
        have hkk := hk k w p (by simp)
        have hnew : ∀ v, acted w (fun o => (p o).1) none = .set v → k.length + v.length ≤ B := by
          intro v hv
          cases w with
          | false => cases hv
          | true => exact hB k p (by simp) none v hv
        have hnoev : ∀ v, acted w (fun o => (p o).1) none = .set v → Spec.get (P (E.slotOf k)) k = none →
            ¬ Spec.Over (slotCapRec (capOf capRec)) (slotCapMem (memOf capMem)) (P (E.slotOf k) ++ [(k, v)]) := by
          intro v hv hg ho
          have hnd : ((P (E.slotOf k) ++ [(k, v)]).map (·.1)).Nodup := by
            rw [List.map_append, List.nodup_append]
            refine ⟨(r.slot _).nodup, by simp, ?_⟩
            intro y hy z hz e
            simp at hz
            subst hz e
            exact get_none_iff.1 hg hy
          have hsub : (P (E.slotOf k) ++ [(k, v)]).map (·.1) ⊆ ks (E.slotOf k) := by
            intro y hy
            obtain ⟨e, he, rfl⟩ := List.mem_map.1 hy
            rcases List.mem_append.1 he with he | he
            · exact (hP _ e he).1
            · simp at he; rw [he]; exact hkk
          have hlen := (List.subperm_of_subset hnd hsub).length_le
          rw [List.length_map] at hlen
          have := hks (E.slotOf k)
          rw [over_iff hE ?_ (by unfold slotCapRec numSlots; omega) hc] at ho
          · unfold slotCapRec numSlots at ho; omega
          · intro e he
            rcases List.mem_append.1 he with he | he
            · exact (hP _ e he).2
            · simp at he; rw [he]; exact hnew v hv
        have hget : ∀ x, Spec.get (Spec.step (slotCapRec (capOf capRec)) (slotCapMem (memOf capMem)) (P (E.slotOf k)) k w (fun o => (p o).1)) x =
            Dict.act (Spec.get (P (E.slotOf k))) k (acted w (fun o => (p o).1) (Spec.get (P (E.slotOf k)) k)) x := by
          intro x
          rcases step_get (slotCapRec (capOf capRec)) (slotCapMem (memOf capMem)) (P (E.slotOf k)) (r.slot _).nodup k w (fun o => (p o).1) x with g | ⟨_, g, v, g1, g2, _⟩
          · exact g
          · exact absurd g2 (hnoev v g1 g)
        refine ⟨_, h1, ?_, c.1, c.2, ?_⟩
        · intro i e he
          have hndi := (h1.slot i).nodup
          simp only [partStep, setPart] at he hndi
          split at he
          · rename_i hi
            subst hi
            simp only [if_true] at hndi
            have hg := mem_get hndi he
            rw [hget] at hg
            by_cases e1 : e.1 = k
            · refine ⟨by rw [e1]; exact hkk, ?_⟩
              rw [e1] at hg
              have hin : ∀ {v}, Spec.get (P (E.slotOf k)) k = some v → k.length + v.length ≤ B := fun hv => (hP _ _ (get_mem hv)).2
              rw [e1]
              cases w with
              | false => exact hin hg
              | true =>
                have ha : acted true (fun o => (p o).1) (Spec.get (P (E.slotOf k)) k) = (p (Spec.get (P (E.slotOf k)) k)).1 := rfl
                rw [ha] at hg
                cases hp : (p (Spec.get (P (E.slotOf k)) k)).1 with
                | noop => rw [hp] at hg; exact hin hg
                | remove => rw [hp] at hg; simp [Dict.act, Dict.upd] at hg
                | set v =>
                  rw [hp] at hg
                  simp [Dict.act, Dict.upd] at hg
                  rw [← hg]
                  exact hB k p (by simp) _ v hp
            · rw [Dict.act_other _ _ e1] at hg
              exact hP _ _ (get_mem hg)
          · exact hP i e he
        · intro x
          have hp : (Dict.process (dictRun h) k w p).1 x = Dict.act (dictRun h) k (acted w (fun o => (p o).1) (dictRun h k)) x := by
            cases w <;> rfl
          simp only [partStep, setPart, dictStep]
          rw [hp]
          split
          · rename_i hx
            rw [hget, ← hd k]
            generalize acted w (fun o => (p o).1) (Spec.get (P (E.slotOf k)) k) = a
            by_cases e : x = k
            · subst e; cases a <;> simp [Dict.act, Dict.upd, hd]
            · rw [Dict.act_other _ _ e, Dict.act_other _ _ e, ← hx]; exact hd x
          · rename_i hx
            rw [Dict.act_other _ _ (fun e => hx (by rw [e]))]
            exact hd x
      | clear => exact ⟨_, h1, by simp [partStep], congrArg Prod.fst h3, congrArg Prod.snd h3, fun _ => rfl⟩
      | rebuild a b => exact absurd (by simp) (hnr a b)
  obtain ⟨P, r, _, _, _, hd⟩ := main h hf hB hnr hk
  funext k
  rw [(look_eq r k).1]
  exact hd k

end Verif.Cache
