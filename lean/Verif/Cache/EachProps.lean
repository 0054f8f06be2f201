import Verif.Cache.Props
/-
Traversal of CacheDBM, and concrete histories.
-/
namespace Verif.Cache

/-- A call for a record that is there evicts nothing: the values are those of the dictionary. -/
theorem StateOk.hit {E : Env} {s : State} {P : Nat → List (Bytes × Bytes)} (h : StateOk E s P) {τ : Type} {k v : Bytes} (hk : look E s k = some v)
    (p : ProcR τ) (hf : ActFits recFits k (p (some v)).1) :
    (s.processAt E (E.slotOf k) k true p).2 = (p (some v)).2 ∧
    ∃ P', StateOk E (s.processAt E (E.slotOf k) k true p).1 P' ∧ (∀ j, j ≠ E.slotOf k → P' j = P j) ∧
      look E (s.processAt E (E.slotOf k) k true p).1 = Dict.act (look E s) k (p (some v)).1 := by
  have hg := (look_eq h k).1
  rw [hk] at hg
  obtain ⟨h1, _, _, _, h5⟩ := h.processAt k true p (by intro _; rw [← hg]; exact hf)
  rw [← hg] at h1
  refine ⟨h1, _, h5, fun j hj => by simp [setPart, hj], ?_⟩
  funext x
  rw [(look_eq h5 x).1]
  simp only [setPart]
  split
  · rename_i hx
    rcases step_get (slotCapRec s.capRec) (slotCapMem s.capMem) (P (E.slotOf k)) (h.slot _).nodup k true (fun o => (p o).1) x with g | ⟨_, g, _⟩
    · rw [g, ← hg]
      show Dict.act _ k (p (some v)).1 x = _
      generalize (p (some v)).1 = a
      by_cases e : x = k
      · subst e; cases a <;> simp [Dict.act, Dict.upd, (look_eq h x).1]
      · rw [Dict.act_other _ _ e, Dict.act_other _ _ e, (look_eq h x).1, hx]
    · rw [g] at hg; cases hg
  · rename_i hx
    rw [Dict.act_other _ _ (fun e => hx (by rw [e])), (look_eq h x).1]

theorem eachKeys_spec {E : Env} {ρ : Type} (p : Bytes → ρ → Bytes → Action × ρ) (hf : ∀ k r v, ActFits recFits k (p k r v).1) (i : Nat) :
    ∀ (l : List (Bytes × Bytes)) (s : State) (P : Nat → List (Bytes × Bytes)) (r : ρ), StateOk E s P → (l.map (·.1)).Nodup →
    (∀ e ∈ l, E.slotOf e.1 = i ∧ look E s e.1 = some e.2) →
    ∃ P', StateOk E (eachKeys E p i (l.map (·.1)) s r).1 P' ∧ (∀ j, j ≠ i → P' j = P j) ∧
      (look E (eachKeys E p i (l.map (·.1)) s r).1, (eachKeys E p i (l.map (·.1)) s r).2) = Dict.eachFold true p l (look E s) r := by
  intro l
  induction l with
  | nil => intro s P r h _ _; exact ⟨P, h, fun _ _ => rfl, rfl⟩
  | cons e l ih =>
    obtain ⟨k, v⟩ := e
    intro s P r h hn hv
    obtain ⟨hs, hk⟩ := hv (k, v) (by simp)
    simp only at hs hk
    subst hs
    obtain ⟨h1, P', h2, h3, h4⟩ := h.hit hk (fullOnly (p k r) r) (hf k r v)
    simp only [List.map_cons, List.nodup_cons] at hn
    obtain ⟨P'', g1, g2, g3⟩ := ih (s.processAt E (E.slotOf k) k true (fullOnly (p k r) r)).1 P' (p k r v).2 h2 hn.2 (by
      intro e he
      obtain ⟨a, b⟩ := hv e (List.mem_cons_of_mem _ he)
      refine ⟨a, ?_⟩
      rw [h4, Dict.act_other _ _ (fun e' => hn.1 (List.mem_map.2 ⟨e, he, e'⟩))]
      exact b)
    have h1' : (s.processAt E (E.slotOf k) k true (fullOnly (p k r) r)).2 = (p k r v).2 := h1
    simp only [List.map_cons, eachKeys, Dict.eachFold, h1']
    refine ⟨P'', g1, fun j hj => (g2 j hj).trans (h3 j hj), ?_⟩
    rw [g3, h4]
    rfl

theorem eachRead_spec {ρ : Type} (p : Bytes → ρ → Bytes → Action × ρ) (d : Dict) : ∀ (l : List (Bytes × Bytes)) (r : ρ),
    Dict.eachFold false p l d r = (d, eachRead p l r) := by
  intro l
  induction l with
  | nil => intro r; rfl
  | cons e l ih => intro r; exact ih _

theorem eachSlot_spec {E : Env} {ρ : Type} (w : Bool) (p : Bytes → ρ → Bytes → Action × ρ) (hf : ∀ k r v, ActFits recFits k (p k r v).1) {s : State}
    {P : Nat → List (Bytes × Bytes)} (h : StateOk E s P) (i : Nat) (r : ρ) :
    ∃ P', StateOk E (eachSlot E w p s i r).1 P' ∧ (∀ j, j ≠ i → P' j = P j) ∧
      (look E (eachSlot E w p s i r).1, (eachSlot E w p s i r).2) = Dict.eachFold w p (P i) (look E s) r := by
  unfold eachSlot
  rw [toList_spec (h.slot i)]
  cases w with
  | false =>
    refine ⟨P, h, fun _ _ => rfl, ?_⟩
    rw [eachRead_spec]; rfl
  | true =>
    refine eachKeys_spec p hf i (P i) s P r h (h.slot i).nodup ?_
    intro e he
    have := h.home i e he
    refine ⟨this, ?_⟩
    rw [(look_eq h e.1).1, this]
    exact mem_get (h.slot i).nodup he

theorem eachFrom_spec {E : Env} {ρ : Type} (w : Bool) (p : Bytes → ρ → Bytes → Action × ρ) (hf : ∀ k r v, ActFits recFits k (p k r v).1) :
    ∀ (n i : Nat) (s : State) (P : Nat → List (Bytes × Bytes)) (r : ρ), StateOk E s P →
    ∃ P', StateOk E (eachFrom E w p n i s r).1 P' ∧
      (look E (eachFrom E w p n i s r).1, (eachFrom E w p n i s r).2) = Dict.eachFold w p ((List.range' i n).flatMap P) (look E s) r := by
  intro n
  induction n with
  | zero => intro i s P r h; exact ⟨P, h, rfl⟩
  | succ n ih =>
    intro i s P r h
    obtain ⟨P', h1, h2, h3⟩ := eachSlot_spec w p hf h i r
    obtain ⟨P'', g1, g2⟩ := ih (i + 1) (eachSlot E w p s i r).1 P' (eachSlot E w p s i r).2 h1
    refine ⟨P'', g1, ?_⟩
    rw [List.range'_succ, List.flatMap_cons, Dict.eachFold_append, ← h3]
    have : (List.range' (i + 1) n).flatMap P = (List.range' (i + 1) n).flatMap P' := by
      apply List.flatMap_congr
      intro j hj
      rw [List.mem_range'_1] at hj
      rw [h2 j (by omega)]
    rw [this]
    exact g2

theorem eachFrom_read {E : Env} {ρ : Type} (p : Bytes → ρ → Bytes → Action × ρ) {s : State} {P : Nat → List (Bytes × Bytes)} (h : StateOk E s P) :
    ∀ (n i : Nat) (r : ρ), (eachFrom E false p n i s r).1 = s := by
  intro n
  induction n with
  | zero => intro i r; rfl
  | succ n ih =>
    intro i r
    have e : (eachSlot E false p s i r).1 = s := by
      unfold eachSlot
      rw [toList_spec (h.slot i)]
      rfl
    simp only [eachFrom, e]
    exact ih _ _

/-- `ProcessEach` calls the processor once for each record, and once before and once after all; what it does to the records is what it would do in a
dictionary. -/
theorem C10_cache_each (E : Env) (capRec capMem : Int) (h : List Op) (hh : Fits h) {ρ : Type} (w : Bool) (p : Bytes → ρ → Bytes → Action × ρ)
    (hf : ∀ k r v, ActFits recFits k (p k r v).1) (emp : ρ → ρ) (r : ρ) :
    let s := run E (State.new capRec capMem) h
    ∃ l, Dict.Lists (look E s) l ∧ (processEach E s w p emp r).1.bad = false ∧
      look E (processEach E s w p emp r).1 = (Dict.eachFold w p l (look E s) (emp r)).1 ∧
      (processEach E s w p emp r).2 = emp (Dict.eachFold w p l (look E s) (emp r)).2 ∧
      (w = false → (processEach E s w p emp r).1 = s) := by
  intro s
  obtain ⟨P, rch⟩ := reached E capRec capMem h hh
  obtain ⟨P', h1, h2⟩ := eachFrom_spec w p hf numSlots 0 s P (emp r) rch.toStateOk
  have h3 : w = false → (eachFrom E w p numSlots 0 s (emp r)).1 = s := by
    rintro rfl
    exact eachFrom_read p rch.toStateOk _ _ _
  unfold processEach
  generalize eachFrom E w p numSlots 0 s (emp r) = y at h1 h2 h3
  rw [← List.range_eq_range'] at h2
  exact ⟨allRecs P, allRecs_lists rch.toStateOk, h1.good, congrArg Prod.fst h2, congrArg (fun x => emp x.2) h2, h3⟩

theorem firstFrom_spec {E : Env} {τ : Type} (w : Bool) (p : Bytes → Bytes → Action × τ) (hf : ∀ k v, ActFits recFits k (p k v).1) {s : State}
    {P : Nat → List (Bytes × Bytes)} (h : StateOk E s P) : ∀ (n i : Nat),
    ((∀ j, i ≤ j → j < i + n → P j = []) ∧ processFirstFrom E s w p n i = (s, none)) ∨
    ∃ j k v, i ≤ j ∧ j < i + n ∧ (P j).head? = some (k, v) ∧ (∀ j', i ≤ j' → j' < j → P j' = []) ∧ (processFirstFrom E s w p n i).2 = some (p k v).2 ∧
      (processFirstFrom E s w p n i).1.bad = false ∧ (w = false → (processFirstFrom E s w p n i).1 = s) ∧
      look E (processFirstFrom E s w p n i).1 = if w then Dict.act (look E s) k (p k v).1 else look E s := by
  intro n
  induction n with
  | zero => intro i; exact .inl ⟨by intro j h1 h2; omega, rfl⟩
  | succ n ih =>
    intro i
    simp only [processFirstFrom]
    rw [front_spec (h.slot i)]
    cases hp : P i with
    | nil =>
      simp only [List.head?_nil]
      rcases ih (i + 1) with ⟨h1, h2⟩ | ⟨j, k, v, h1, h2, h3, h4, h5⟩
      · refine .inl ⟨?_, h2⟩
        intro j hj1 hj2
        by_cases e : j = i
        · rw [e, hp]
        · exact h1 j (by omega) (by omega)
      · refine .inr ⟨j, k, v, by omega, by omega, h3, ?_, h5⟩
        intro j' hj1 hj2
        by_cases e : j' = i
        · rw [e, hp]
        · exact h4 j' (by omega) hj2
    | cons e l =>
      obtain ⟨k, v⟩ := e
      simp only [List.head?_cons]
      right
      refine ⟨i, k, v, by omega, by omega, by rw [hp]; rfl, by intro j' h1 h2; omega, ?_⟩
      have hm : (k, v) ∈ P i := by rw [hp]; simp
      have hs := h.home i _ hm
      simp only at hs
      cases w with
      | false => simp [h.good]
      | true =>
        simp only [if_true]
        have hl : look E s k = some v := by rw [(look_eq h k).1, hs]; exact mem_get (h.slot i).nodup hm
        obtain ⟨g1, P', g2, _, g4⟩ := h.hit hl (fullOnly (fun v => ((p k v).1, some (p k v).2)) none) (hf k v)
        rw [hs] at g1 g2 g4
        exact ⟨g1, g2.good, by simp, g4⟩

/-- `ProcessFirst` calls the processor for one record, the least recently used of the first partition that has any; if there are no records, it
does nothing and says NOT_FOUND. -/
theorem C10_cache_first (E : Env) (capRec capMem : Int) (h : List Op) (hh : Fits h) {τ : Type} (w : Bool) (p : Bytes → Bytes → Action × τ)
    (hf : ∀ k v, ActFits recFits k (p k v).1) :
    let s := run E (State.new capRec capMem) h
    ((∀ k, look E s k = none) → processFirst E s w p = (s, none)) ∧
    ((∃ k, look E s k ≠ none) → ∃ k v, look E s k = some v ∧ (processFirst E s w p).2 = some (p k v).2 ∧ (processFirst E s w p).1.bad = false ∧
      (∀ y, look E s y ≠ none → E.slotOf k ≤ E.slotOf y ∧ (E.slotOf y = E.slotOf k → y ≠ k → UsedBefore h k y)) ∧
      (w = false → (processFirst E s w p).1 = s) ∧
      look E (processFirst E s w p).1 = if w then Dict.act (look E s) k (p k v).1 else look E s) := by
  intro s
  obtain ⟨P, rch⟩ := reached E capRec capMem h hh
  have hl := fun k => (look_eq rch.toStateOk k).1
  have hmem : ∀ y, look E s y ≠ none → ∃ e ∈ P (E.slotOf y), e.1 = y := by
    intro y hy
    obtain ⟨v, hv⟩ := Option.ne_none_iff_exists'.1 hy
    rw [hl] at hv
    exact ⟨_, get_mem hv, rfl⟩
  rcases firstFrom_spec w p hf rch.toStateOk numSlots 0 with ⟨h1, h2⟩ | ⟨j, k, v, _, h2, h3, h4, h5, h6, h7, h8⟩
  · refine ⟨fun _ => h2, ?_⟩
    rintro ⟨y, hy⟩
    obtain ⟨e, he, _⟩ := hmem y hy
    rw [h1 _ (Nat.zero_le _) (by have := slotOf_lt E y; omega)] at he
    cases he
  · have hm : (k, v) ∈ P j := List.mem_of_mem_head? (by rw [h3]; rfl)
    have hs := rch.home j _ hm
    simp only at hs
    have hlk : look E s k = some v := by rw [hl, hs]; exact mem_get (rch.slot j).nodup hm
    refine ⟨fun hno => (by rw [hno k] at hlk; cases hlk), fun _ => ⟨k, v, hlk, h5, h6, ?_, h7, h8⟩⟩
    intro y hy
    obtain ⟨e, he, hey⟩ := hmem y hy
    constructor
    · by_contra hc
      rw [h4 _ (Nat.zero_le _) (by omega)] at he
      cases he
    · intro hsy hyk
      have ho := rch.order j
      rw [hsy, hs] at he
      generalize P j = l at ho he h3
      cases l with
      | nil => cases he
      | cons a l =>
        injection h3 with h3
        subst h3
        rcases List.mem_cons.1 he with he | he
        · subst he; exact absurd hey.symm hyk
        · rw [← hey]; exact (List.pairwise_cons.1 ho).1 _ he

end Verif.Cache
