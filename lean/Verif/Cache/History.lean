import Verif.Cache.Db
/-
What every history of calls on CacheDBM keeps: the bound of a partition, the log, the order of use.
-/
namespace Verif.Cache

/-! ### Lists of records -/

theorem get_without (l : List (Bytes × Bytes)) (k k' : Bytes) : Spec.get (Spec.without l k) k' = if k' = k then none else Spec.get l k' := by
  induction l with
  | nil => simp [Spec.get, Spec.without]
  | cons e l ih =>
    unfold Spec.get Spec.without at ih ⊢
    by_cases h1 : e.1 = k
    · rw [List.filter_cons_of_neg (by simpa using h1), ih]
      split
      · rfl
      · rename_i h2
        rw [List.find?_cons_of_neg (by simp only [decide_eq_true_eq]; exact fun e' => h2 (by rw [← e', h1]))]
    · rw [List.filter_cons_of_pos (by simpa using h1)]
      by_cases h2 : e.1 = k'
      · rw [List.find?_cons_of_pos (by simpa using h2), List.find?_cons_of_pos (by simpa using h2), if_neg (fun e' => h1 (by rw [h2, e']))]
      · rw [List.find?_cons_of_neg (by simpa using h2), List.find?_cons_of_neg (by simpa using h2), ih]

theorem get_snoc (l : List (Bytes × Bytes)) (k v k' : Bytes) (hk : Spec.get l k = none) :
    Spec.get (l ++ [(k, v)]) k' = if k' = k then some v else Spec.get l k' := by
  unfold Spec.get at hk ⊢
  rw [List.find?_append]
  by_cases h : k' = k
  · subst h
    rw [if_pos rfl, Option.map_eq_none_iff.1 hk]; simp
  · rw [if_neg h, List.find?_cons_of_neg (by simp only [decide_eq_true_eq]; exact fun e => h e.symm)]
    simp

theorem without_absent {l : List (Bytes × Bytes)} {k : Bytes} (h : Spec.get l k = none) : Spec.without l k = l := by
  unfold Spec.without
  rw [List.filter_eq_self]
  intro e he
  rw [get_none_iff] at h
  simp only [ne_eq, decide_eq_true_eq]
  exact fun e' => h (List.mem_map.2 ⟨e, he, e'⟩)

/-- The action performed by a call. -/
def acted (w : Bool) (a : Option Bytes → Action) (o : Option Bytes) : Action := if w then a o else .noop

/-- The list after a call, up to eviction: the others keep their order, and the record called for is at the end. -/
theorem step_shape (a b : Int) (l : List (Bytes × Bytes)) (k : Bytes) (w : Bool) (f : Option Bytes → Action) :
    ∃ x, (x = Spec.without l k ∨
        (∃ v, l ≠ [] ∧ x = l.tail ∧ Spec.get l k = none ∧ acted w f none = .set v ∧ Spec.Over a b (l ++ [(k, v)]) ∧ Spec.step a b l k w f = x ++ [(k, v)])) ∧
      ((Spec.step a b l k w f = x ∧ ((∃ v, l = [] ∧ Spec.get l k = none ∧ acted w f none = .set v ∧ Spec.Over a b (l ++ [(k, v)])) ∨ Dict.act (Spec.get l) k (acted w f (Spec.get l k)) k = none)) ∨
        ∃ v, Spec.step a b l k w f = x ++ [(k, v)] ∧ Dict.act (Spec.get l) k (acted w f (Spec.get l k)) k = some v) := by
  unfold Spec.step
  cases hg : Spec.get l k with
  | some v =>
    have hh : (if w = true then f (some v) else Action.noop) = acted w f (some v) := rfl
    simp only [hh]
    cases acted w f (some v) with
    | noop => exact ⟨_, .inl rfl, .inr ⟨v, rfl, hg⟩⟩
    | remove => exact ⟨_, .inl rfl, .inl ⟨rfl, .inr (by simp [Dict.act, Dict.upd])⟩⟩
    | set v' => exact ⟨_, .inl rfl, .inr ⟨v', rfl, by simp [Dict.act, Dict.upd]⟩⟩
  | none =>
    have hh : (if w = true then f none else Action.noop) = acted w f none := rfl
    simp only [hh]
    have hw := without_absent hg
    cases ha : acted w f none with
    | noop => exact ⟨l, .inl hw.symm, .inl ⟨rfl, .inr hg⟩⟩
    | remove => exact ⟨l, .inl hw.symm, .inl ⟨rfl, .inr (by simp [Dict.act, Dict.upd])⟩⟩
    | set v' =>
      simp only
      split
      · rename_i ho
        cases l with
        | nil => exact ⟨[], .inl rfl, .inl ⟨rfl, .inl ⟨v', rfl, trivial, rfl, ho⟩⟩⟩
        | cons e l =>
          refine ⟨l, .inr ⟨v', by simp, rfl, trivial, rfl, ho, rfl⟩, .inr ⟨v', rfl, ?_⟩⟩
          simp [Dict.act, Dict.upd]
      · exact ⟨l, .inl hw.symm, .inr ⟨v', rfl, by simp [Dict.act, Dict.upd]⟩⟩

theorem tail_get {m : List (Bytes × Bytes)} (hnd : (m.map (·.1)).Nodup) (x : Bytes) :
    Spec.get m.tail x = Spec.get m x ∨ (Spec.get m.tail x = none ∧ m.head?.map (·.1) = some x) := by
  cases m with
  | nil => exact .inl rfl
  | cons e m =>
    simp only [List.map_cons, List.nodup_cons] at hnd
    by_cases e1 : e.1 = x
    · right
      refine ⟨?_, by simp [e1]⟩
      rw [List.tail_cons, get_none_iff, ← e1]; exact hnd.1
    · left
      unfold Spec.get
      rw [List.tail_cons, List.find?_cons_of_neg (by simpa using e1)]

/-- The values after a call: those of the dictionary, except that the record at the head of the list may be gone. -/
theorem step_get (a b : Int) (l : List (Bytes × Bytes)) (hn : (l.map (·.1)).Nodup) (k : Bytes) (w : Bool) (f : Option Bytes → Action) (x : Bytes) :
    Spec.get (Spec.step a b l k w f) x = Dict.act (Spec.get l) k (acted w f (Spec.get l k)) x ∨
    (Spec.get (Spec.step a b l k w f) x = none ∧ Spec.get l k = none ∧
      ∃ v, acted w f none = .set v ∧ Spec.Over a b (l ++ [(k, v)]) ∧ ((l ++ [(k, v)]).head?.map (·.1)) = some x) := by
  unfold Spec.step
  cases hg : Spec.get l k with
  | some v =>
    have hh : (if w = true then f (some v) else Action.noop) = acted w f (some v) := rfl
    simp only [hh]
    have hwk : Spec.get (Spec.without l k) k = none := by rw [get_without, if_pos rfl]
    left
    cases acted w f (some v) with
    | noop =>
      simp only [Dict.act]
      rw [get_snoc _ _ _ _ hwk, get_without]
      by_cases e : x = k
      · simp [e, hg]
      · simp [e]
    | remove => simp only [Dict.act, Dict.upd]; rw [get_without]
    | set v' =>
      simp only [Dict.act, Dict.upd]
      rw [get_snoc _ _ _ _ hwk, get_without]
      by_cases e : x = k <;> simp [e]
  | none =>
    have hh : (if w = true then f none else Action.noop) = acted w f none := rfl
    simp only [hh]
    cases ha : acted w f none with
    | noop => exact .inl rfl
    | remove =>
      left
      simp only [Dict.act, Dict.upd]
      split
      · rename_i e; rw [e, hg]
      · rfl
    | set v' =>
      simp only [Dict.act, Dict.upd]
      have hs := get_snoc l k v' x hg
      split
      · rename_i ho
        have hnd : ((l ++ [(k, v')]).map (·.1)).Nodup := by
          rw [List.map_append, List.nodup_append]
          refine ⟨hn, by simp, ?_⟩
          intro y hy z hz e
          simp at hz
          subst hz e
          exact get_none_iff.1 hg hy
        rw [← hs]
        rcases tail_get hnd x with h | ⟨h1, h2⟩
        · exact .inl h
        · exact .inr ⟨h1, trivial, v', rfl, ho, h2⟩
      · exact .inl hs

theorem step_len (a b : Int) (l : List (Bytes × Bytes)) (k : Bytes) (w : Bool) (f : Option Bytes → Action) (h : (l.length : Int) ≤ a) :
    ((Spec.step a b l k w f).length : Int) ≤ a := by
  unfold Spec.step
  have hlt : ∀ v, Spec.get l k = some v → (Spec.without l k).length + 1 ≤ l.length := by
    intro v hv
    have hm := get_mem hv
    have : (Spec.without l k).length < l.length := by
      unfold Spec.without
      apply List.length_filter_lt_length_iff_exists.2
      exact ⟨_, hm, by simp⟩
    omega
  split
  · rename_i v hv
    have := hlt v hv
    split <;> (try simp only [List.length_append, List.length_cons, List.length_nil]) <;> omega
  · split
    · split
      · simp only [List.length_tail, List.length_append, List.length_cons, List.length_nil]; omega
      · rename_i ho
        unfold Spec.Over at ho
        omega
    · exact h

theorem step_logged (a b : Int) (l : List (Bytes × Bytes)) (hn : (l.map (·.1)).Nodup) (k : Bytes) (w : Bool) (f : Option Bytes → Action) (d : Dict)
    {k' v : Bytes} (h : Spec.get l k' = some v → d k' = some v) (hg : Spec.get (Spec.step a b l k w f) k' = some v) :
    d.replay (Spec.logOf l k w f) k' = some v := by
  rcases step_get a b l hn k w f k' with e | ⟨e, _⟩
  · rw [hg] at e
    unfold Spec.logOf
    have hh : (if w = true then f (Spec.get l k) else Action.noop) = acted w f (Spec.get l k) := rfl
    rw [hh]
    cases ha : acted w f (Spec.get l k) with
    | noop => rw [ha] at e; exact h e.symm
    | remove =>
      rw [ha] at e
      simp only [Dict.act, Dict.upd] at e
      simp only
      split at e
      · cases e
      · rename_i hne
        split
        · simp [Dict.replay, Dict.applyLog, Dict.upd, hne, h e.symm]
        · exact h e.symm
    | set v' =>
      rw [ha] at e
      simp only [Dict.act, Dict.upd] at e
      simp only [Dict.replay, List.foldl_cons, List.foldl_nil, Dict.applyLog, Dict.upd]
      split at e
      · rename_i he; rw [if_pos he]; exact e.symm
      · rename_i he; rw [if_neg he]; exact h e.symm
  · rw [hg] at e; cases e

/-! ### Histories -/

/-- The key of a call for one record. -/
def Op.key : Op → Option Bytes
  | .process k _ _ => some k
  | _ => none

/-- The call number `t` of the history is for the key `k`. -/
def UsedAt (h : List Op) (k : Bytes) (t : Nat) : Prop := ∃ op, h[t]? = some op ∧ op.key = some k

/-- `y` was used after the last use of `x`. -/
def UsedBefore (h : List Op) (x y : Bytes) : Prop := ∃ t, UsedAt h y t ∧ ∀ t', UsedAt h x t' → t' < t

theorem usedAt_snoc {h : List Op} {op : Op} {k : Bytes} {t : Nat} : UsedAt (h ++ [op]) k t ↔ UsedAt h k t ∨ (t = h.length ∧ op.key = some k) := by
  unfold UsedAt
  constructor
  · rintro ⟨o, h1, h2⟩
    rw [List.getElem?_append] at h1
    split at h1
    · exact .inl ⟨o, h1, h2⟩
    · rename_i hl
      have : t - h.length = 0 := by
        by_contra hc
        rw [List.getElem?_eq_none (by simp; omega)] at h1; cases h1
      rw [this] at h1
      simp at h1
      subst h1
      exact .inr ⟨by omega, h2⟩
  · rintro (⟨o, h1, h2⟩ | ⟨rfl, h2⟩)
    · obtain ⟨hl, _⟩ := List.getElem?_eq_some_iff.1 h1
      exact ⟨o, by rw [List.getElem?_append_left hl]; exact h1, h2⟩
    · exact ⟨op, by simp, h2⟩

theorem usedAt_lt {h : List Op} {k : Bytes} {t : Nat} (hu : UsedAt h k t) : t < h.length := by
  obtain ⟨o, h1, _⟩ := hu
  exact (List.getElem?_eq_some_iff.1 h1).1

theorem usedBefore_snoc {h : List Op} {op : Op} {x y : Bytes} (hu : UsedBefore h x y) (hx : op.key ≠ some x) : UsedBefore (h ++ [op]) x y := by
  obtain ⟨t, h1, h2⟩ := hu
  refine ⟨t, usedAt_snoc.2 (.inl h1), fun t' ht => ?_⟩
  rcases usedAt_snoc.1 ht with ht | ⟨_, ht⟩
  · exact h2 t' ht
  · exact absurd ht hx

theorem usedBefore_now {h : List Op} {op : Op} {x y : Bytes} (hy : op.key = some y) (hx : x ≠ y) : UsedBefore (h ++ [op]) x y := by
  refine ⟨h.length, usedAt_snoc.2 (.inr ⟨rfl, hy⟩), fun t' ht => ?_⟩
  rcases usedAt_snoc.1 ht with ht | ⟨_, ht⟩
  · exact usedAt_lt ht
  · rw [hy] at ht; injection ht with ht; exact absurd ht.symm hx

/-- What holds in every state that a history leads to. -/
structure Reached (E : Env) (h : List Op) (s : State) (P : Nat → List (Bytes × Bytes)) : Prop extends StateOk E s P where
  bound : ∀ i, ((P i).length : Int) ≤ slotCapRec s.capRec
  logged : ∀ i k v, Spec.get (P i) k = some v → Dict.replay Dict.empty s.log k = some v
  order : ∀ i, (P i).Pairwise (fun a b => UsedBefore h a.1 b.1)

theorem slotCap_pos {c : Int} (h : 0 < c) : 1 ≤ slotCapRec c := by
  unfold slotCapRec numSlots; omega

theorem replay_append (d : Dict) (a b : List LogOp) : d.replay (a ++ b) = (d.replay a).replay b := by
  simp [Dict.replay]

theorem Reached.step {E : Env} {h : List Op} {s : State} {P : Nat → List (Bytes × Bytes)} (r : Reached E h s P) (op : Op) (hf : Fits [op]) :
    Reached E (h ++ [op]) (step E s op) (partStep E s.capRec s.capMem P op) := by
  obtain ⟨h1, h2, h3⟩ := step_ok r.toStateOk op hf
  refine ⟨h1, ?_, ?_, ?_⟩
  · intro i
    have e3 : (Cache.step E s op).capRec = (capStep (s.capRec, s.capMem) op).1 := by rw [← h3]
    rw [e3]
    cases op with
    | process k w p =>
      simp only [partStep, setPart, capStep]
      split
      · exact step_len _ _ _ _ _ _ (r.bound _)
      · exact r.bound i
    | clear => have := slotCap_pos r.pos; simp only [partStep, capStep, List.length_nil]; omega
    | rebuild a b =>
      obtain ⟨_, _, hb⟩ := keep_prefix (slotCapRec (newCap a s.capRec)) (slotCapMem (newCap b s.capMem)) (P i) []
      apply hb
      have : 0 < newCap a s.capRec := by have := r.pos; unfold newCap; split <;> omega
      have := slotCap_pos this
      simp only [List.length_nil]; omega
  · intro i k v hg
    rw [h2, replay_append]
    cases op with
    | process k' w p =>
      simp only [partStep, setPart] at hg
      simp only [logStep]
      split at hg
      · rename_i hi
        subst hi
        exact step_logged _ _ _ (r.slot _).nodup _ _ _ _ (r.logged _ k v) hg
      · rename_i hi
        have hne : k ≠ k' := by
          intro e
          exact hi (by rw [← e]; exact (r.home i _ (get_mem hg)).symm)
        have := r.logged i k v hg
        revert this
        generalize Dict.replay Dict.empty s.log = d
        intro this
        unfold Spec.logOf
        split
        · exact this
        · split
          · simp [Dict.replay, Dict.applyLog, Dict.upd, hne, this]
          · exact this
        · simp [Dict.replay, Dict.applyLog, Dict.upd, hne, this]
    | clear => simp [partStep, Spec.get] at hg
    | rebuild a b =>
      simp only [partStep] at hg
      obtain ⟨n, hn, _⟩ := keep_prefix (slotCapRec (newCap a s.capRec)) (slotCapMem (newCap b s.capMem)) (P i) []
      rw [hn, List.nil_append] at hg
      exact r.logged i k v (get_of_sublist (List.take_sublist _ _) (r.slot i).nodup hg)
  · intro i
    cases op with
    | process k w p =>
      simp only [partStep, setPart]
      split
      · rename_i hi
        subst hi
        obtain ⟨x, hx, hs⟩ := step_shape (slotCapRec s.capRec) (slotCapMem s.capMem) (P (E.slotOf k)) k w (fun o => (p o).1)
        have hxs : x.Sublist (P (E.slotOf k)) ∧ k ∉ x.map (·.1) := by
          rcases hx with rfl | ⟨v, _, rfl, hg, _⟩
          · exact ⟨List.filter_sublist, get_none_iff.1 (by rw [get_without, if_pos rfl])⟩
          · exact ⟨List.tail_sublist _, fun hm => get_none_iff.1 hg (((List.tail_sublist _).map _).subset hm)⟩
        have hxp : x.Pairwise (fun a b => UsedBefore (h ++ [Op.process k w p]) a.1 b.1) := by
          refine ((r.order (E.slotOf k)).sublist hxs.1).imp_of_mem ?_
          intro a b ha _ hab
          refine usedBefore_snoc hab ?_
          simp only [Op.key, ne_eq, Option.some.injEq]
          exact fun e => hxs.2 (List.mem_map.2 ⟨a, ha, e.symm⟩)
        rcases hs with ⟨hs, _⟩ | ⟨v, hs, _⟩
        · rw [hs]; exact hxp
        · rw [hs, List.pairwise_append]
          refine ⟨hxp, by simp, ?_⟩
          intro a ha b hb
          simp only [List.mem_singleton] at hb
          subst hb
          exact usedBefore_now rfl (fun e => hxs.2 (List.mem_map.2 ⟨a, ha, e⟩))
      · rename_i hi
        refine (r.order i).imp_of_mem ?_
        intro a b ha _ hab
        refine usedBefore_snoc hab ?_
        simp only [Op.key, ne_eq, Option.some.injEq]
        intro e
        exact hi (by rw [e]; exact (r.home i a ha).symm)
    | clear => simp [partStep]
    | rebuild a b =>
      simp only [partStep]
      obtain ⟨n, hn, _⟩ := keep_prefix (slotCapRec (newCap a s.capRec)) (slotCapMem (newCap b s.capMem)) (P i) []
      rw [hn, List.nil_append]
      refine ((r.order i).sublist (List.take_sublist _ _)).imp ?_
      intro a b hab
      exact usedBefore_snoc hab (by simp [Op.key])

theorem Reached.new (E : Env) (capRec capMem : Int) : Reached E [] (State.new capRec capMem) (fun _ => []) :=
  ⟨StateOk.new E capRec capMem, fun i => by
    have := slotCap_pos (StateOk.new E capRec capMem).pos
    simp only [List.length_nil]; omega, by simp [Spec.get], by simp⟩

theorem Fits.left {a b : List Op} (h : Fits (a ++ b)) : Fits a := fun k p hm => h k p (List.mem_append_left _ hm)

theorem Fits.right {a b : List Op} (h : Fits (a ++ b)) : Fits b := fun k p hm => h k p (List.mem_append_right _ hm)

theorem run_snoc (E : Env) (s : State) (h : List Op) (op : Op) : run E s (h ++ [op]) = step E (run E s h) op := by
  simp [run]

theorem reached (E : Env) (capRec capMem : Int) : ∀ (h : List Op), Fits h → ∃ P, Reached E h (run E (State.new capRec capMem) h) P := by
  intro h
  induction h using List.reverseRecOn with
  | nil => exact fun _ => ⟨_, Reached.new E capRec capMem⟩
  | append_singleton h op ih =>
    intro hf
    obtain ⟨P, r⟩ := ih hf.left
    rw [run_snoc]
    exact ⟨_, r.step op hf.right⟩

end Verif.Cache
