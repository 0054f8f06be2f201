import Verif.Cache.RebuildLemmas
import Verif.Dbm.Counted
/-
CacheDBM refines 32 lists of records, each in the order of use.
-/
namespace Verif.Cache

/-! ### Lists of records -/

theorem get_mem {l : List (Bytes × Bytes)} {k v : Bytes} (h : Spec.get l k = some v) : (k, v) ∈ l := by
  unfold Spec.get at h
  rw [Option.map_eq_some_iff] at h
  obtain ⟨⟨a, b⟩, h1, h2⟩ := h
  have := List.find?_some h1
  simp only [decide_eq_true_eq] at this h2
  subst this h2
  exact List.mem_of_find?_eq_some h1

theorem mem_get {l : List (Bytes × Bytes)} (hn : (l.map (·.1)).Nodup) {k v : Bytes} (h : (k, v) ∈ l) : Spec.get l k = some v := by
  induction l with
  | nil => cases h
  | cons e l ih =>
    obtain ⟨a, b⟩ := e
    simp only [List.map_cons, List.nodup_cons] at hn
    rcases List.mem_cons.1 h with h | h
    · cases h; simp [Spec.get]
    · have hne : a ≠ k := fun e => hn.1 (List.mem_map.2 ⟨_, h, e.symm⟩)
      have := ih hn.2 h
      unfold Spec.get at this ⊢
      rw [List.find?_cons_of_neg (by simpa using hne)]
      exact this

theorem get_none_iff {l : List (Bytes × Bytes)} {k : Bytes} : Spec.get l k = none ↔ k ∉ l.map (·.1) := by
  unfold Spec.get
  rw [Option.map_eq_none_iff, List.find?_eq_none]
  simp only [decide_eq_true_eq, List.mem_map, not_exists, not_and]

theorem get_of_sublist {l l' : List (Bytes × Bytes)} (hs : l.Sublist l') (hn : (l'.map (·.1)).Nodup) {k v : Bytes}
    (h : Spec.get l k = some v) : Spec.get l' k = some v := mem_get hn (hs.subset (get_mem h))

theorem keep_prefix (a b : Int) : ∀ (rest done : List (Bytes × Bytes)), ∃ n, Spec.keep a b done rest = done ++ rest.take n ∧
    ((done.length : Int) ≤ a → ((Spec.keep a b done rest).length : Int) ≤ a) := by
  intro rest
  induction rest with
  | nil => intro done; exact ⟨0, by simp [Spec.keep], id⟩
  | cons e rest ih =>
    intro done
    rw [Spec.keep]
    split
    · rename_i h
      obtain ⟨n, h1, h2⟩ := ih (done ++ [e])
      refine ⟨n + 1, by rw [h1]; simp, fun _ => h2 ?_⟩
      rw [List.length_append]; simp; omega
    · exact ⟨0, by simp, id⟩

/-! ### The state -/

/-- The state stands for the lists `P` of the partitions. -/
structure StateOk (E : Env) (s : State) (P : Nat → List (Bytes × Bytes)) : Prop where
  good : s.bad = false
  slot : ∀ i, SlotOk E (s.slots i) (P i)
  capR : ∀ i, (s.slots i).capRec = slotCapRec s.capRec
  capM : ∀ i, (s.slots i).capMem = slotCapMem s.capMem
  home : ∀ i, ∀ e ∈ P i, E.slotOf e.1 = i
  pos : 0 < s.capRec

/-- One list replaced. -/
def setPart (P : Nat → List (Bytes × Bytes)) (i : Nat) (l : List (Bytes × Bytes)) : Nat → List (Bytes × Bytes) := fun j => if j = i then l else P j

theorem step_mem {a b : Int} {l : List (Bytes × Bytes)} {k : Bytes} {w : Bool} {f : Option Bytes → Action} {e : Bytes × Bytes}
    (h : e ∈ Spec.step a b l k w f) : e ∈ l ∨ e.1 = k := by
  have hwo : e ∈ Spec.without l k → e ∈ l := fun h => (List.mem_filter.mp h).1
  unfold Spec.step at h
  split at h
  · split at h
    · rcases List.mem_append.1 h with h | h
      · exact .inl (hwo h)
      · simp at h; exact .inr (by rw [h])
    · exact .inl (hwo h)
    · rcases List.mem_append.1 h with h | h
      · exact .inl (hwo h)
      · simp at h; exact .inr (by rw [h])
  · split at h
    · rename_i v' _
      have : e ∈ l ++ [(k, v')] := by
        split at h
        · exact List.mem_of_mem_tail h
        · exact h
      rcases List.mem_append.1 this with h | h
      · exact .inl h
      · simp at h; exact .inr (by rw [h])
    · exact .inl h

theorem StateOk.processAt {E : Env} {s : State} {P : Nat → List (Bytes × Bytes)} (h : StateOk E s P) {τ : Type} (k : Bytes) (w : Bool) (p : ProcR τ)
    (hf : w = true → ActFits recFits k (p (Spec.get (P (E.slotOf k)) k)).1) :
    let i := E.slotOf k
    let x := s.processAt E i k w p
    x.2 = (p (Spec.get (P i) k)).2 ∧ x.1.log = s.log ++ Spec.logOf (P i) k w (fun o => (p o).1) ∧ x.1.capRec = s.capRec ∧ x.1.capMem = s.capMem ∧
    StateOk E x.1 (setPart P i (Spec.step (slotCapRec s.capRec) (slotCapMem s.capMem) (P i) k w (fun o => (p o).1))) := by
  intro i x
  obtain ⟨t, h1, h2, h3, h4⟩ := process_spec (h.slot i) k w p hf
  have hx : x = ({ s.setSlot i t with log := s.log ++ Spec.logOf (P i) k w (fun o => (p o).1) }, (p (Spec.get (P i) k)).2) := by
    show State.processAt E s i k w p = _
    unfold State.processAt
    rw [h1]
  rw [hx]
  refine ⟨rfl, rfl, rfl, rfl, h.good, ?_, ?_, ?_, ?_, h.pos⟩
  · intro j
    show SlotOk E (if j = i then t else s.slots j) (if j = i then _ else _)
    split
    · rw [h.capR, h.capM] at h2; exact h2
    · exact h.slot j
  · intro j
    show (if j = i then t else s.slots j).capRec = _
    split
    · rw [h3]; exact h.capR i
    · exact h.capR j
  · intro j
    show (if j = i then t else s.slots j).capMem = _
    split
    · rw [h4]; exact h.capM i
    · exact h.capM j
  · intro j e he
    simp only [setPart] at he
    split at he
    · rename_i hj
      subst hj
      rcases step_mem he with he | he
      · exact h.home _ e he
      · rw [he]
    · exact h.home j e he

theorem StateOk.new (E : Env) (capRec capMem : Int) : StateOk E (State.new capRec capMem) (fun _ => []) :=
  ⟨rfl, fun _ => init_spec E _ _, fun _ => rfl, fun _ => rfl, fun _ _ h => (List.not_mem_nil h).elim, by
    simp only [State.new]; split <;> omega⟩

theorem StateOk.clear {E : Env} {s : State} {P : Nat → List (Bytes × Bytes)} (h : StateOk E s P) :
    StateOk E s.clear (fun _ => []) ∧ s.clear.log = s.log ++ [.clear] ∧ s.clear.capRec = s.capRec ∧ s.clear.capMem = s.capMem := by
  have hc : s.cleanUp = true := by
    unfold State.cleanUp
    rw [List.all_eq_true]
    intro i _
    rw [cleanUp_spec (h.slot i)]; rfl
  unfold State.clear
  rw [if_pos hc]
  exact ⟨⟨h.good, fun _ => init_spec E _ _, fun _ => rfl, fun _ => rfl, fun _ _ h => (List.not_mem_nil h).elim, h.pos⟩, rfl, rfl, rfl⟩

/-- The capacities after `Rebuild`. -/
def newCap (c old : Int) : Int := if c > 0 then c else old

theorem StateOk.rebuild {E : Env} {s : State} {P : Nat → List (Bytes × Bytes)} (h : StateOk E s P) (capRec capMem : Int) :
    let r := newCap capRec s.capRec
    let m := newCap capMem s.capMem
    StateOk E (s.rebuild E capRec capMem) (fun i => Spec.keep (slotCapRec r) (slotCapMem m) [] (P i)) ∧
    (s.rebuild E capRec capMem).log = s.log ∧ (s.rebuild E capRec capMem).capRec = r ∧ (s.rebuild E capRec capMem).capMem = m := by
  intro r m
  have hs : ∀ i, ∃ t, s.rebuildSlots E r m i = some t ∧ SlotOk E t (Spec.keep (slotCapRec r) (slotCapMem m) [] (P i)) ∧
      t.capRec = slotCapRec r ∧ t.capMem = slotCapMem m := fun i => rebuild_spec (h.slot i) _ _
  have hall : ((List.range numSlots).all fun i => (s.rebuildSlots E r m i).isSome) = true := by
    rw [List.all_eq_true]
    intro i _
    obtain ⟨t, ht, _⟩ := hs i
    rw [ht]; rfl
  have hb : s.rebuild E capRec capMem = { s with slots := fun i => (s.rebuildSlots E r m i).getD (s.slots i), capRec := r, capMem := m } := if_pos hall
  rw [hb]
  refine ⟨⟨h.good, ?_, ?_, ?_, ?_, ?_⟩, rfl, rfl, rfl⟩
  · intro i; obtain ⟨t, ht, h1, _⟩ := hs i; show SlotOk E ((s.rebuildSlots E r m i).getD _) _; rw [ht]; exact h1
  · intro i; obtain ⟨t, ht, _, h1, _⟩ := hs i; show ((s.rebuildSlots E r m i).getD _).capRec = _; rw [ht]; exact h1
  · intro i; obtain ⟨t, ht, _, _, h1⟩ := hs i; show ((s.rebuildSlots E r m i).getD _).capMem = _; rw [ht]; exact h1
  · intro i e he
    obtain ⟨n, hn, _⟩ := keep_prefix (slotCapRec r) (slotCapMem m) (P i) []
    rw [hn, List.nil_append] at he
    exact h.home i e (List.mem_of_mem_take he)
  · show 0 < newCap capRec s.capRec
    have := h.pos
    unfold newCap; split <;> omega

/-! ### SPECIFICATION of histories -/

/-- A call. `process` is any call for one key: `Get`, `Set`, `Remove`, `Append`, `CompareExchange`, `Increment` are calls with processors of theirs. -/
inductive Op where
  | process (k : Bytes) (w : Bool) (p : ProcR (Code × Option Bytes))
  | clear
  | rebuild (capRec capMem : Int)

/-- A call on the database. -/
def step (E : Env) (s : State) : Op → State
  | .process k w p => (s.process E k w p).1
  | .clear => s.clear
  | .rebuild a b => s.rebuild E a b

/-- The calls of a history in their order. -/
def run (E : Env) (s : State) (h : List Op) : State := h.foldl (step E) s

/-- The values that a history can store are not larger than 2 GiB. -/
def Fits (h : List Op) : Prop := ∀ k p, Op.process k true p ∈ h → ∀ o, ActFits recFits k (p o).1

/-- What `Get` gives. -/
def look (E : Env) (s : State) (k : Bytes) : Option Bytes := (Api.get (impl E) s k).2.2

theorem look_eq {E : Env} {s : State} {P : Nat → List (Bytes × Bytes)} (h : StateOk E s P) (k : Bytes) :
    look E s k = Spec.get (P (E.slotOf k)) k ∧ (Api.get (impl E) s k).2.1 = if (look E s k).isSome then .success else .notFound := by
  have := (h.processAt k false Api.getProc (by simp)).1
  have e : (Api.get (impl E) s k).2 = _ := this
  unfold look
  rw [e]
  cases Spec.get (P (E.slotOf k)) k <;> exact ⟨rfl, rfl⟩

/-- The lists after a call. -/
def partStep (E : Env) (capRec capMem : Int) (P : Nat → List (Bytes × Bytes)) : Op → (Nat → List (Bytes × Bytes))
  | .process k w p => setPart P (E.slotOf k) (Spec.step (slotCapRec capRec) (slotCapMem capMem) (P (E.slotOf k)) k w (fun o => (p o).1))
  | .clear => fun _ => []
  | .rebuild a b => fun i => Spec.keep (slotCapRec (newCap a capRec)) (slotCapMem (newCap b capMem)) [] (P i)

/-- The capacities after a call. -/
def capStep (c : Int × Int) : Op → Int × Int
  | .rebuild a b => (newCap a c.1, newCap b c.2)
  | _ => c

/-- What a call tells the update logger. -/
def logStep (E : Env) (P : Nat → List (Bytes × Bytes)) : Op → List LogOp
  | .process k w p => Spec.logOf (P (E.slotOf k)) k w (fun o => (p o).1)
  | .clear => [.clear]
  | .rebuild _ _ => []

theorem step_ok {E : Env} {s : State} {P : Nat → List (Bytes × Bytes)} (h : StateOk E s P) (op : Op) (hf : Fits [op]) :
    StateOk E (step E s op) (partStep E s.capRec s.capMem P op) ∧ (step E s op).log = s.log ++ logStep E P op ∧
    ((step E s op).capRec, (step E s op).capMem) = capStep (s.capRec, s.capMem) op := by
  cases op with
  | process k w p =>
    obtain ⟨-, h2, h3, h4, h5⟩ := h.processAt k w p (by rintro rfl; exact hf k p (by simp) _)
    exact ⟨h5, h2, Prod.ext h3 h4⟩
  | clear => obtain ⟨h1, h2, h3, h4⟩ := h.clear; exact ⟨h1, h2, Prod.ext h3 h4⟩
  | rebuild a b =>
    obtain ⟨h1, h2, h3, h4⟩ := h.rebuild a b
    exact ⟨h1, by rw [logStep, List.append_nil]; exact h2, Prod.ext h3 h4⟩

end Verif.Cache
