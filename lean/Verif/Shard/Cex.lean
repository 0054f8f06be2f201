import Verif.Shard.Props
/-
C29, C20: CompareExchangeMulti of ShardDBM.
-/
namespace Verif.Shard
open Verif Verif.Api

variable {σ : Type} {hash : Bytes → Nat → Nat} {D : DbmImpl σ} {inv : σ → Prop} {vw : σ → Dict} {fits : Bytes → Bytes → Prop}

theorem checker_meets (e : Arg) (next : Vars σ → Vars σ) (x : Vars σ) (o : Option Bytes) (hx : x.status = .success) :
    (Meets e o → checker e next x o = (.noop, next x)) ∧ (¬ Meets e o → checker e next x o = (.noop, { x with status := .infeasible })) := by
  unfold checker
  rw [if_neg (by simp [hx])]
  cases o with
  | none => cases e <;> simp [Meets]
  | some v =>
    cases e with
    | null => simp [Meets]
    | any => simp [Meets]
    | val e =>
      simp only [Meets, Option.some.injEq]
      constructor
      · intro h; rw [if_neg (by simp [h])]
      · intro h; rw [if_pos (fun h' => h h'.symm)]

theorem checker_off (e : Arg) (next : Vars σ → Vars σ) (x : Vars σ) (o : Option Bytes) (hx : x.status ≠ .success) :
    checker e next x o = (.noop, x) := by
  unfold checker; rw [if_pos hx]

theorem checkers_off (next : Vars σ → Vars σ) (es : List (Bytes × Arg)) (d : Dict) (x : Vars σ) (hx : x.status ≠ .success) :
    d.processMulti (checkers next es) true x = (d, x) ∧ MultiFits fits d (checkers next es) true x := by
  induction es with
  | nil => exact ⟨rfl, trivial⟩
  | cons kv es ih =>
    cases es with
    | nil => simp [checkers, Dict.processMulti, Dict.process, checker_off _ _ _ _ hx, MultiFits, ActFits, Dict.act]
    | cons kv' es =>
      simp only [checkers, Dict.processMulti, Dict.process, checker_off _ _ _ _ hx, MultiFits, ActFits, Dict.act, if_true]
      exact ⟨ih.1, trivial, ih.2⟩

theorem checkers_on (next : Vars σ → Vars σ) (es : List (Bytes × Arg)) (hes : es ≠ []) (d : Dict) (x : Vars σ) (hx : x.status = .success) :
    ((∀ kv ∈ es, Meets kv.2 (d kv.1)) → d.processMulti (checkers next es) true x = (d, next x)) ∧
    ((¬ ∀ kv ∈ es, Meets kv.2 (d kv.1)) → d.processMulti (checkers next es) true x = (d, { x with status := .infeasible })) ∧
    MultiFits fits d (checkers next es) true x := by
  induction es with
  | nil => exact absurd rfl hes
  | cons kv es ih =>
    obtain ⟨k, e⟩ := kv
    cases es with
    | nil =>
      have hc := checker_meets e next x (d k) hx
      by_cases hm : Meets e (d k)
      · simp [checkers, Dict.processMulti, Dict.process, hc.1 hm, MultiFits, ActFits, Dict.act, hm]
      · simp [checkers, Dict.processMulti, Dict.process, hc.2 hm, MultiFits, ActFits, Dict.act, hm]
    | cons kv' es =>
      have hc := checker_meets e id x (d k) hx
      by_cases hm : Meets e (d k)
      · have := ih (by simp)
        simp only [checkers, Dict.processMulti, Dict.process, hc.1 hm, MultiFits, ActFits, Dict.act, if_true, id]
        refine ⟨fun h => this.1 (fun kv hkv => h kv (by simp [hkv])), fun h => this.2.1 (fun h' => h ?_), trivial, this.2.2⟩
        intro kv hkv
        rcases List.mem_cons.1 hkv with rfl | hkv
        · exact hm
        · exact h' kv hkv
      · simp only [checkers, Dict.processMulti, Dict.process, hc.2 hm, MultiFits, ActFits, Dict.act, if_true]
        have := checkers_off (fits := fits) next (kv' :: es) d { x with status := .infeasible } (by simp)
        exact ⟨fun h => absurd (h (k, e) (by simp)) hm, fun _ => this.1, trivial, this.2⟩

theorem plain_off (ds : List (Bytes × Arg)) (d : Dict) (x : Vars σ) (hx : x.status ≠ .success) :
    d.processMulti (ds.map fun kv => (kv.1, setter kv.2 id)) true x = (d, x) ∧
    MultiFits fits d (ds.map fun kv => (kv.1, setter (σ := σ) kv.2 id)) true x := by
  induction ds with
  | nil => exact ⟨rfl, trivial⟩
  | cons kv ds ih =>
    have hs : setter kv.2 id x (d kv.1) = (.noop, x) := by unfold setter; rw [if_pos hx]
    simp only [List.map_cons, Dict.processMulti, Dict.process, hs, MultiFits, ActFits, Dict.act, if_true]
    exact ⟨ih.1, trivial, ih.2⟩

theorem exchangedAll_cons (d : Dict) (kv : Bytes × Arg) (ds : List (Bytes × Arg)) :
    exchangedAll d (kv :: ds) = exchangedAll (exchangedAll d [kv]) ds := by
  obtain ⟨k, e⟩ := kv
  cases e <;> simp [exchangedAll]

/-- One setter, with the next command or not. -/
theorem setter_one (next : Vars σ → Vars σ) (kv : Bytes × Arg) (d : Dict) (x : Vars σ) (hx : x.status = .success) (hy : (next x).status = .success)
    (hf : kv.2 ≠ .null → fits kv.1 kv.2.bytes) :
    d.act kv.1 (setter kv.2 next x (d kv.1)).1 = exchangedAll d [kv] ∧ (setter kv.2 next x (d kv.1)).2 = next x ∧
    ActFits fits kv.1 (setter kv.2 next x (d kv.1)).1 := by
  obtain ⟨k, e⟩ := kv
  simp only at hf ⊢
  unfold setter
  rw [if_neg (by simp [hx])]
  simp only
  rw [if_neg (by simp [hy])]
  cases hk : d k with
  | none =>
    cases e <;> simp [Dict.act, exchangedAll, Arg.bytes, ActFits, anyData] at hf ⊢
    · rw [← hk, Dict.upd_same]
    · exact hf
    · exact hf
  | some v =>
    cases e <;> simp [Dict.act, exchangedAll, Arg.bytes, ActFits, anyData] at hf ⊢
    · exact hf
    · exact hf

theorem plain_on (ds : List (Bytes × Arg)) (d : Dict) (x : Vars σ) (hx : x.status = .success)
    (hf : ∀ kv ∈ ds, kv.2 ≠ .null → fits kv.1 kv.2.bytes) :
    d.processMulti (ds.map fun kv => (kv.1, setter kv.2 id)) true x = (exchangedAll d ds, x) ∧
    MultiFits fits d (ds.map fun kv => (kv.1, setter (σ := σ) kv.2 id)) true x := by
  induction ds generalizing d with
  | nil => exact ⟨rfl, trivial⟩
  | cons kv ds ih =>
    have h1 := setter_one (fits := fits) id kv d x hx hx (hf kv (by simp))
    have h2 := ih (exchangedAll d [kv]) (fun kv' h => hf kv' (by simp [h]))
    simp only [List.map_cons, Dict.processMulti, Dict.process, MultiFits, if_true, h1.1, h1.2.1, id]
    rw [exchangedAll_cons d kv ds]
    exact ⟨h2.1, h1.2.2, h2.2⟩

theorem setters_off (next : Vars σ → Vars σ) (b : Bool) (ds : List (Bytes × Arg)) (d : Dict) (x : Vars σ) (hx : x.status ≠ .success) :
    d.processMulti (setters next b ds) true x = (d, x) ∧ MultiFits fits d (setters next b ds) true x := by
  cases ds with
  | nil => exact ⟨rfl, trivial⟩
  | cons kv ds =>
    have hs : setter kv.2 (if b then next else id) x (d kv.1) = (.noop, x) := by unfold setter; rw [if_pos hx]
    simp only [setters, Dict.processMulti, Dict.process, hs, MultiFits, ActFits, Dict.act, if_true]
    have := plain_off (fits := fits) ds d x hx
    exact ⟨this.1, trivial, this.2⟩

theorem setters_on (next : Vars σ → Vars σ) (ds : List (Bytes × Arg)) (d : Dict) (x : Vars σ) (hx : x.status = .success)
    (hf : ∀ kv ∈ ds, kv.2 ≠ .null → fits kv.1 kv.2.bytes) :
    d.processMulti (setters next false ds) true x = (exchangedAll d ds, x) ∧ MultiFits fits d (setters next false ds) true x := by
  have : setters next false ds = ds.map fun kv => (kv.1, setter kv.2 id) := by cases ds <;> simp [setters]
  rw [this]
  exact plain_on ds d x hx hf

theorem setters_first (next : Vars σ → Vars σ) (ds : List (Bytes × Arg)) (hds : ds ≠ []) (d : Dict) (x : Vars σ) (hx : x.status = .success)
    (hf : ∀ kv ∈ ds, kv.2 ≠ .null → fits kv.1 kv.2.bytes) :
    ((next x).status = .success → d.processMulti (setters next true ds) true x = (exchangedAll d ds, next x)) ∧
    ((next x).status ≠ .success → d.processMulti (setters next true ds) true x = (d, next x)) ∧
    MultiFits fits d (setters next true ds) true x := by
  cases ds with
  | nil => exact absurd rfl hds
  | cons kv ds =>
    by_cases hy : (next x).status = .success
    · have h1 := setter_one (fits := fits) next kv d x hx hy (hf kv (by simp))
      have h2 := plain_on (fits := fits) ds (exchangedAll d [kv]) (next x) hy (fun kv' h => hf kv' (by simp [h]))
      simp only [setters, Dict.processMulti, Dict.process, MultiFits, if_true, h1.1, h1.2.1]
      rw [exchangedAll_cons d kv ds]
      exact ⟨fun _ => h2.1, fun h => absurd hy h, h1.2.2, h2.2⟩
    · have hs : setter kv.2 next x (d kv.1) = (.noop, next x) := by
        unfold setter; rw [if_neg (by simp [hx])]; simp only; rw [if_pos hy]
      have h2 := plain_off (fits := fits) ds d (next x) hy
      simp only [setters, Dict.processMulti, Dict.process, MultiFits, if_true, hs, Dict.act, ActFits]
      exact ⟨fun h => absurd h hy, fun _ => h2.1, trivial, h2.2⟩

/-- One command on the dictionary of its shard. -/
theorem command (next : Vars σ → Vars σ) (es ds : List (Bytes × Arg)) (hne : es ≠ [] ∨ ds ≠ []) (d : Dict) (x : Vars σ) (hx : x.status = .success)
    (hf : ∀ kv ∈ ds, kv.2 ≠ .null → fits kv.1 kv.2.bytes) :
    ((∀ kv ∈ es, Meets kv.2 (d kv.1)) → (next x).status = .success →
      d.processMulti (checkers next es ++ setters next es.isEmpty ds) true x = (exchangedAll d ds, next x)) ∧
    ((∀ kv ∈ es, Meets kv.2 (d kv.1)) → (next x).status ≠ .success →
      d.processMulti (checkers next es ++ setters next es.isEmpty ds) true x = (d, next x)) ∧
    ((¬ ∀ kv ∈ es, Meets kv.2 (d kv.1)) →
      d.processMulti (checkers next es ++ setters next es.isEmpty ds) true x = (d, { x with status := .infeasible })) ∧
    MultiFits fits d (checkers next es ++ setters next es.isEmpty ds) true x := by
  by_cases hes : es = []
  · subst hes
    have := setters_first (fits := fits) next ds (by simpa using hne) d x hx hf
    simp only [checkers, List.nil_append, List.isEmpty_nil]
    exact ⟨fun _ => this.1, fun _ => this.2.1, fun h => absurd (by simp) h, this.2.2⟩
  · have hem : es.isEmpty = false := by cases es <;> simp at hes ⊢
    have hc := checkers_on (fits := fits) next es hes d x hx
    rw [hem, multi_append, fits_append]
    by_cases hm : ∀ kv ∈ es, Meets kv.2 (d kv.1)
    · rw [hc.1 hm]
      by_cases hy : (next x).status = .success
      · have := setters_on (fits := fits) next ds d (next x) hy hf
        exact ⟨fun _ _ => this.1, fun _ h => absurd hy h, fun h => absurd hm h, hc.2.2, this.2⟩
      · have := setters_off (fits := fits) next false ds d (next x) hy
        exact ⟨fun _ h => absurd h hy, fun _ _ => this.1, fun h => absurd hm h, hc.2.2, this.2⟩
    · rw [hc.2.1 hm]
      have := setters_off (fits := fits) next false ds d { x with status := .infeasible } (by simp)
      exact ⟨fun h => absurd h hm, fun h => absurd h hm, fun _ => this.1, hc.2.2, this.2⟩

/-- The changes wanted of the shard `j`. -/
def want (gs : List Group) (j : Nat) : List (Bytes × Arg) := (gs.filter (fun g => g.1 = j)).flatMap (·.2.2)

/-- The expectations of the groups hold in the shards. -/
def AllMet (vw : σ → Dict) (gs : List Group) (ts : List σ) : Prop :=
  ∀ g ∈ gs, ∀ t, ts[g.1]? = some t → ∀ kv ∈ g.2.1, Meets kv.2 (vw t kv.1)

theorem run_spec (L : Lawful D inv vw fits) (gs : List Group) : ∀ (x : Vars σ), (gs.map (·.1)).Nodup →
    (∀ g ∈ gs, g.1 < x.shards.length ∧ (g.2.1 ≠ [] ∨ g.2.2 ≠ []) ∧ ∀ kv ∈ g.2.2, kv.2 ≠ .null → fits kv.1 kv.2.bytes) →
    x.status = .success → x.bad = false → (∀ t ∈ x.shards, inv t) →
    (runCommands D gs x).bad = false ∧ (runCommands D gs x).shards.length = x.shards.length ∧ (∀ t ∈ (runCommands D gs x).shards, inv t) ∧
    (AllMet vw gs x.shards → (runCommands D gs x).status = .success ∧
      ∀ (j : Nat) (t' : σ), (runCommands D gs x).shards[j]? = some t' → ∃ t, x.shards[j]? = some t ∧ vw t' = exchangedAll (vw t) (want gs j)) ∧
    (¬ AllMet vw gs x.shards → (runCommands D gs x).status = .infeasible ∧
      ∀ (j : Nat) (t' : σ), (runCommands D gs x).shards[j]? = some t' → ∃ t, x.shards[j]? = some t ∧ vw t' = vw t) := by
  induction gs with
  | nil =>
    intro x _ _ hx hb hi
    simp only [runCommands]
    exact ⟨hb, trivial, hi, fun _ => ⟨hx, fun j t' h => ⟨t', h, rfl⟩⟩, fun h => absurd (by intro g hg; cases hg) h⟩
  | cons g gs ih =>
    obtain ⟨i, es, ds⟩ := g
    intro x hnd hg hx hb hi
    obtain ⟨hlt, hne, hf⟩ := hg _ (List.mem_cons_self)
    simp only [List.map_cons, List.nodup_cons] at hnd
    simp only at hlt hne hf
    have hti : x.shards[i]? = some x.shards[i] := List.getElem?_eq_getElem hlt
    have hit := hi _ (List.mem_of_getElem? hti)
    generalize x.shards[i] = t at hti hit
    obtain ⟨n1, n2, n3, n4, n5⟩ := ih x hnd.2 (fun g h => hg g (by simp [h])) hx hb hi
    obtain ⟨c1, c2, c3, c4⟩ := command (fits := fits) (runCommands D gs) es ds hne (vw t) x hx hf
    have e := L.multi_view t _ true x hit c4
    have hi' := L.multi_inv t _ true x hit c4
    simp only [runCommands, hti]
    generalize D.processMulti t (checkers (runCommands D gs) es ++ setters (runCommands D gs) es.isEmpty ds) true x = y at e hi'
    obtain ⟨y1, y2⟩ := y
    simp only at e hi' ⊢
    have hmet : AllMet vw ((i, es, ds) :: gs) x.shards ↔ (∀ kv ∈ es, Meets kv.2 (vw t kv.1)) ∧ AllMet vw gs x.shards := by
      unfold AllMet
      constructor
      · intro h
        exact ⟨h _ List.mem_cons_self t hti, fun g hg => h g (by simp [hg])⟩
      · rintro ⟨h1, h2⟩ g hg u hu
        rcases List.mem_cons.1 hg with rfl | hg
        · simp only at hu; rw [hti] at hu; cases hu; exact h1
        · exact h2 g hg u hu
    have hwant : ∀ j, want ((i, es, ds) :: gs) j = if i = j then ds else want gs j := by
      intro j
      unfold want
      by_cases h : i = j
      · subst h
        have : gs.filter (fun g => g.1 = i) = [] := by
          rw [List.filter_eq_nil_iff]
          intro g hg hh
          simp only [decide_eq_true_eq] at hh
          exact hnd.1 (List.mem_map.2 ⟨g, hg, hh⟩)
        simp [this]
      · simp [h]
    have hset : ∀ (l : List σ), l.length = x.shards.length → ∀ (j : Nat) (t' : σ), (l.set i y1)[j]? = some t' → (j = i ∧ t' = y1) ∨ (j ≠ i ∧ l[j]? = some t') := by
      intro l hl j t' h
      by_cases hj : j = i
      · subst hj; rw [List.getElem?_set_self (by omega)] at h; cases h; exact .inl ⟨rfl, rfl⟩
      · rw [List.getElem?_set_ne (Ne.symm hj)] at h; exact .inr ⟨hj, h⟩
    have hinv : ∀ (l : List σ), l.length = x.shards.length → (∀ t ∈ l, inv t) → ∀ t ∈ l.set i y1, inv t := by
      intro l hl h t ht
      obtain ⟨j, hj⟩ := List.getElem?_of_mem ht
      rcases hset l hl j t hj with ⟨_, rfl⟩ | ⟨_, h'⟩
      · exact hi'
      · exact h t (List.mem_of_getElem? h')
    by_cases hm : ∀ kv ∈ es, Meets kv.2 (vw t kv.1)
    · by_cases hy : (runCommands D gs x).status = .success
      · rw [c1 hm hy] at e
        simp only [Prod.mk.injEq] at e
        obtain ⟨e1, rfl⟩ := e
        have hall : AllMet vw gs x.shards := by
          refine Classical.byContradiction fun h => ?_
          rw [(n5 h).1] at hy; cases hy
        refine ⟨n1, by simpa using n2, hinv _ n2 n3, fun _ => ⟨hy, ?_⟩, fun h => absurd (hmet.2 ⟨hm, hall⟩) h⟩
        intro j t' h
        rw [hwant]
        rcases hset _ n2 j t' h with ⟨rfl, rfl⟩ | ⟨hj, h⟩
        · exact ⟨t, hti, by rw [if_pos rfl]; exact e1⟩
        · rw [if_neg (Ne.symm hj)]; exact (n4 hall).2 j t' h
      · rw [c2 hm hy] at e
        simp only [Prod.mk.injEq] at e
        obtain ⟨e1, rfl⟩ := e
        have hall : ¬ AllMet vw gs x.shards := fun h => hy (n4 h).1
        refine ⟨n1, by simpa using n2, hinv _ n2 n3, fun h => absurd (hmet.1 h).2 hall, fun _ => ⟨(n5 hall).1, ?_⟩⟩
        intro j t' h
        rcases hset _ n2 j t' h with ⟨rfl, rfl⟩ | ⟨hj, h⟩
        · exact ⟨t, hti, e1⟩
        · exact (n5 hall).2 j t' h
    · rw [c3 hm] at e
      simp only [Prod.mk.injEq] at e
      obtain ⟨e1, rfl⟩ := e
      refine ⟨hb, by simp, hinv _ rfl hi, fun h => absurd (hmet.1 h).1 hm, fun _ => ⟨rfl, ?_⟩⟩
      intro j t' h
      rcases hset _ rfl j t' h with ⟨rfl, rfl⟩ | ⟨hj, h⟩
      · exact ⟨t, hti, e1⟩
      · exact ⟨t', h, rfl⟩

/-- Only the changes of a key decide about the key. -/
theorem exchangedAll_filter (p : Bytes × Arg → Bool) (ds : List (Bytes × Arg)) (k : Bytes) (hp : ∀ e, p (k, e) = true) (d d' : Dict) (h : d k = d' k) :
    exchangedAll d (ds.filter p) k = exchangedAll d' ds k := by
  induction ds generalizing d d' with
  | nil => exact h
  | cons kv ds ih =>
    obtain ⟨k', e⟩ := kv
    by_cases hk : k' = k
    · subst hk
      rw [List.filter_cons_of_pos (hp e)]
      cases e <;> exact ih _ _ (by simp [Dict.upd])
    · by_cases hpk : p (k', e) = true
      · rw [List.filter_cons_of_pos hpk]
        cases e <;> exact ih _ _ (by simp [Dict.upd, Ne.symm hk, h])
      · rw [List.filter_cons_of_neg hpk]
        cases e <;> exact ih _ _ (by simp [Dict.upd, Ne.symm hk, h])

theorem exchangedAll_other (ds : List (Bytes × Arg)) (k : Bytes) (hk : ∀ kv ∈ ds, kv.1 ≠ k) (d : Dict) : exchangedAll d ds k = d k := by
  induction ds generalizing d with
  | nil => rfl
  | cons kv ds ih =>
    obtain ⟨k', e⟩ := kv
    have h1 := hk (k', e) (by simp)
    have h2 := ih (fun kv h => hk kv (by simp [h]))
    cases e <;> simp only [exchangedAll, h2, Dict.upd] <;> rw [if_neg (fun h => h1 (by simpa using h.symm))]

theorem groups_want (hh : HashOk hash) (n : Nat) (expected desired : List (Bytes × Arg)) (j : Nat) (hj : j < n) :
    want (groups hash n expected desired) j = desired.filter (fun kv => hash kv.1 n = j) := by
  unfold want groups
  rw [List.filter_filter]
  generalize hF : (fun (i : Nat) => ((i, expected.filter (fun kv => decide (hash kv.1 n = i)), desired.filter (fun kv => decide (hash kv.1 n = i))) : Group)) = F
  have hr : ∀ (m : Nat), (((List.range m).map F).filter (fun g => decide (g.1 = j) && decide (g.2.1 ≠ [] ∨ g.2.2 ≠ []))).flatMap (·.2.2) =
      if j < m then desired.filter (fun kv => hash kv.1 n = j) else [] := by
    intro m
    induction m with
    | zero => simp
    | succ m ih =>
      rw [List.range_succ, List.map_append, List.filter_append, List.flatMap_append, ih]
      simp only [List.map_cons, List.map_nil]
      by_cases hm : j = m
      · subst hm
        rw [if_neg (by omega), if_pos (by omega), List.nil_append]
        subst hF
        by_cases hd : desired.filter (fun kv => decide (hash kv.1 n = j)) = []
        · by_cases he : expected.filter (fun kv => decide (hash kv.1 n = j)) = []
          · simp [hd, he]
          · simp [hd, he]
        · simp [hd]
      · have : ([F m].filter (fun g => decide (g.1 = j) && decide (g.2.1 ≠ [] ∨ g.2.2 ≠ []))) = [] := by
          subst hF
          simp; omega
        rw [this, List.flatMap_nil, List.append_nil]
        by_cases h2 : j < m
        · rw [if_pos h2, if_pos (by omega)]
        · rw [if_neg h2, if_neg (by omega)]
  rw [hr n, if_pos hj]

theorem groups_mem (n : Nat) (expected desired : List (Bytes × Arg)) (g : Group) :
    g ∈ groups hash n expected desired ↔ g.1 < n ∧ g.2.1 = expected.filter (fun kv => hash kv.1 n = g.1) ∧
      g.2.2 = desired.filter (fun kv => hash kv.1 n = g.1) ∧ (g.2.1 ≠ [] ∨ g.2.2 ≠ []) := by
  unfold groups
  obtain ⟨i, es, ds⟩ := g
  simp only [List.mem_filter, List.mem_map, List.mem_range, Prod.mk.injEq, decide_eq_true_eq]
  constructor
  · rintro ⟨⟨a, h1, rfl, rfl, rfl⟩, h2⟩; exact ⟨h1, rfl, rfl, h2⟩
  · rintro ⟨h1, h3, h4, h2⟩; exact ⟨⟨i, h1, rfl, h3.symm, h4.symm⟩, h2⟩

theorem groups_has (n : Nat) (expected desired : List (Bytes × Arg)) (kv : Bytes × Arg) (hn : hash kv.1 n < n) (h : kv ∈ expected ∨ kv ∈ desired) :
    (hash kv.1 n, expected.filter (fun kv' => hash kv'.1 n = hash kv.1 n), desired.filter (fun kv' => hash kv'.1 n = hash kv.1 n)) ∈
      groups hash n expected desired := by
  refine (groups_mem _ _ _ _).2 ⟨hn, rfl, rfl, ?_⟩
  rcases h with h | h
  · exact .inl (List.ne_nil_of_mem (a := kv) (by simp [h]))
  · exact .inr (List.ne_nil_of_mem (a := kv) (by simp [h]))

theorem groups_nodup (n : Nat) (expected desired : List (Bytes × Arg)) : ((groups hash n expected desired).map (·.1)).Nodup := by
  unfold groups
  have h : (((List.range n).map fun i => ((i, expected.filter (fun kv => decide (hash kv.1 n = i)), desired.filter (fun kv => decide (hash kv.1 n = i))) : Group)).map (·.1)).Nodup := by
    rw [List.map_map]
    have : ((·.1) ∘ fun i => ((i, expected.filter (fun kv => decide (hash kv.1 n = i)), desired.filter (fun kv => decide (hash kv.1 n = i))) : Group)) = (id : Nat → Nat) := rfl
    rw [this, List.map_id]
    exact List.nodup_range
  exact h.sublist (List.Sublist.map _ List.filter_sublist)

/-- C29, C20: `CompareExchangeMulti` over any number of shards performs all the changes if every expectation holds in the
one dictionary before the call, and changes nothing otherwise. -/
theorem C29_compare_exchange_multi (hh : HashOk hash) (L : Lawful D inv vw fits) (s : State σ) (expected desired : List (Bytes × Arg))
    (h : Inv hash inv vw s) (hf : ∀ kv ∈ desired, kv.2 ≠ .null → fits kv.1 kv.2.bytes) :
    Inv hash inv vw (compareExchangeMulti hash D s expected desired).1 ∧
    ((∀ kv ∈ expected, Meets kv.2 (view hash vw s.shards kv.1)) →
      (compareExchangeMulti hash D s expected desired).2 = .success ∧
      view hash vw (compareExchangeMulti hash D s expected desired).1.shards = exchangedAll (view hash vw s.shards) desired) ∧
    ((¬ ∀ kv ∈ expected, Meets kv.2 (view hash vw s.shards kv.1)) →
      (compareExchangeMulti hash D s expected desired).2 = .infeasible ∧
      view hash vw (compareExchangeMulti hash D s expected desired).1.shards = view hash vw s.shards) := by
  have hpos := List.length_pos_iff.2 h.ne
  have hall : AllMet vw (groups hash s.shards.length expected desired) s.shards ↔ ∀ kv ∈ expected, Meets kv.2 (view hash vw s.shards kv.1) := by
    constructor
    · intro ha kv hkv
      obtain ⟨t, h1, _, _, h4⟩ := h.shard hh kv.1
      rw [h4]
      exact ha _ (groups_has _ _ _ kv (hh kv.1 _ hpos) (.inl hkv)) t h1 kv (by simp [hkv])
    · intro ha g hg t ht kv hkv
      obtain ⟨g1, g2, _, _⟩ := (groups_mem _ _ _ _).1 hg
      rw [g2] at hkv
      obtain ⟨k1, k2⟩ := List.mem_filter.1 hkv
      simp only [decide_eq_true_eq] at k2
      have := ha kv k1
      unfold view at this
      rw [k2, ht] at this
      exact this
  unfold compareExchangeMulti
  simp only
  split
  · rename_i he
    have hnil : groups hash s.shards.length expected desired = [] := by simpa using he
    have hex : expected = [] := by
      cases expected with
      | nil => rfl
      | cons kv _ =>
        have := groups_has (hash := hash) s.shards.length (kv :: ‹_›) desired kv (hh kv.1 _ hpos) (.inl (by simp))
        rw [hnil] at this; cases this
    have hde : desired = [] := by
      cases desired with
      | nil => rfl
      | cons kv _ =>
        have := groups_has (hash := hash) s.shards.length expected (kv :: ‹_›) kv (hh kv.1 _ hpos) (.inr (by simp))
        rw [hnil] at this; cases this
    subst hex hde
    exact ⟨h, fun _ => ⟨rfl, rfl⟩, fun hn => absurd (by simp) hn⟩
  · obtain ⟨r1, r2, r3, r4, r5⟩ := run_spec L (groups hash s.shards.length expected desired) ⟨s.shards, .success, s.bad⟩ (groups_nodup _ _ _)
      (by
        intro g hg
        obtain ⟨g1, g2, g3, g4⟩ := (groups_mem _ _ _ _).1 hg
        refine ⟨g1, g4, ?_⟩
        intro kv hkv
        rw [g3] at hkv
        exact hf kv (List.mem_filter.1 hkv).1)
      rfl h.ok (by
        intro t ht
        obtain ⟨j, hj⟩ := List.getElem?_of_mem ht
        exact (h.each j t hj).1)
    generalize runCommands D (groups hash s.shards.length expected desired) ⟨s.shards, .success, s.bad⟩ = y at r1 r2 r3 r4 r5
    obtain ⟨ys, yst, yb⟩ := y
    simp only at r1 r2 r3 r4 r5 ⊢
    rw [hall] at r4 r5
    have hjlt : ∀ (j : Nat) (t : σ), s.shards[j]? = some t → j < s.shards.length := by
      intro j t ht
      rcases Nat.lt_or_ge j s.shards.length with h | h
      · exact h
      · rw [List.getElem?_eq_none h] at ht; cases ht
    have hne : ys ≠ [] := by
      intro h0; rw [h0] at r2; simp at r2; exact h.ne (List.length_eq_zero_iff.1 r2.symm)
    by_cases hm : ∀ kv ∈ expected, Meets kv.2 (view hash vw s.shards kv.1)
    · obtain ⟨a1, a2⟩ := r4 hm
      refine ⟨⟨r1, hne, ?_⟩, fun _ => ⟨a1, ?_⟩, fun hn => absurd hm hn⟩
      · intro i t' ht'
        refine ⟨r3 t' (List.mem_of_getElem? ht'), ?_⟩
        obtain ⟨t, b1, b2⟩ := a2 i t' ht'
        rw [groups_want hh _ _ _ _ (hjlt _ _ b1)] at b2
        simp only [r2]
        intro k v hv
        by_cases hk : hash k s.shards.length = i
        · exact hk
        · rw [b2, exchangedAll_other] at hv
          · exact (h.each i t b1).2 k v hv
          · intro kv hkv e
            have := (List.mem_filter.1 hkv).2
            simp only [decide_eq_true_eq] at this
            rw [e] at this
            exact hk this
      · funext k
        obtain ⟨t, h1, _, _, h4⟩ := h.shard hh k
        have hlt : hash k s.shards.length < ys.length := by rw [r2]; exact hh k _ hpos
        obtain ⟨u, b1, b2⟩ := a2 (hash k s.shards.length) _ (List.getElem?_eq_getElem hlt)
        rw [h1] at b1; cases b1
        rw [groups_want hh _ _ _ _ (hh k _ hpos)] at b2
        have : view hash vw ys k = vw ys[hash k s.shards.length] k := by
          simp only [view, r2, List.getElem?_eq_getElem hlt]
        rw [this, b2]
        exact exchangedAll_filter _ _ _ (by simp) _ _ h4.symm
    · obtain ⟨a1, a2⟩ := r5 hm
      refine ⟨⟨r1, hne, ?_⟩, fun hn => absurd hn hm, fun _ => ⟨a1, ?_⟩⟩
      · intro i t' ht'
        refine ⟨r3 t' (List.mem_of_getElem? ht'), ?_⟩
        obtain ⟨t, b1, b2⟩ := a2 i t' ht'
        simp only [r2]
        rw [b2]
        exact (h.each i t b1).2
      · funext k
        obtain ⟨t, h1, _, _, h4⟩ := h.shard hh k
        have hlt : hash k s.shards.length < ys.length := by rw [r2]; exact hh k _ hpos
        obtain ⟨u, b1, b2⟩ := a2 (hash k s.shards.length) _ (List.getElem?_eq_getElem hlt)
        rw [h1] at b1; cases b1
        have : view hash vw ys k = vw ys[hash k s.shards.length] k := by
          simp only [view, r2, List.getElem?_eq_getElem hlt]
        rw [this, b2, h4]

end Verif.Shard
