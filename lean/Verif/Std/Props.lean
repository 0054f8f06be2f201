import Verif.Std.Lemmas
/-
C14: StdHashDBM and StdTreeDBM are dictionaries, and their iterators survive every interleaving of calls.
-/
namespace Verif.Std

/-! ### Dictionary -/

/-- No limit on sizes: std::string grows as needed. -/
abbrev anyFits : Bytes → Bytes → Prop := fun _ _ => True

/-- C14: `Process` and `ProcessMulti` of both classes behave as a dictionary. -/
theorem C14_lawful (K : Kind) : Lawful (impl K) (Inv K) view anyFits := by
  have h := Lawful.ofProcess (State.process K) (inv := Inv K) (view := view) (fits := anyFits)
    (fun s k w p hi _ => (process_spec hi k w p).1) (fun s k w p hi _ => (process_spec hi k w p).2)
  refine ⟨h.process_inv, h.process_view, ?_, ?_⟩
  · intro ρ s l w r hi hf
    show Inv K (s.processMulti K l w r).1
    rw [processMulti_eq]; exact h.multi_inv s l w r hi hf
  · intro ρ s l w r hi hf
    show (view (s.processMulti K l w r).1, (s.processMulti K l w r).2) = _
    rw [processMulti_eq]; exact h.multi_view s l w r hi hf

/-- A call of a database method. -/
def step (K : Kind) : State → Op → State × Out :=
  apiStep (impl K) (Api.append (impl K)) State.clear (fun s _ => s.rebuild K)

theorem opFits_any (d : Dict) (op : Op) : OpFits anyFits d op := by
  cases op <;> try trivial
  rename_i k w p
  show ActFits anyFits k (p (d k)).1
  cases (p (d k)).1 <;> trivial

theorem step_sim {K : Kind} (hK : K.Ok) (s : State) (op : Op) (hi : Inv K s) :
    Inv K (step K s op).1 ∧ (view (step K s op).1, (step K s op).2) = (view s).step op :=
  apiStep_sim (C14_lawful K)
    (fun s k v d hi hf => Api.C58_append (C14_lawful K) s k v d hi hf)
    (fun s hi => clear_spec hi) (fun s _ hi => rebuild_spec hK hi) s op hi (opFits_any _ op)

theorem init_inv (K : Kind) : Inv K {} :=
  ⟨by simp [keys], by cases K; exact OrdMap.sorted_nil; trivial, by simp, by simp, rfl⟩

theorem runFits_any (ops : List Op) : ∀ d, RunFits anyFits d ops := by
  induction ops with
  | nil => intro d; trivial
  | cons op ops ih => intro d; exact ⟨opFits_any d op, ih _⟩

/-- C14: after any history of calls, the database holds what a dictionary holds after the same calls, and every call
returned what the dictionary returns; nothing undefined happened. -/
theorem C14_history {K : Kind} (hK : K.Ok) (ops : List Op) :
    view (run (step K) {} ops).1 = (Dict.run Dict.empty ops).1 ∧
    (run (step K) {} ops).2 = (Dict.run Dict.empty ops).2 ∧ (run (step K) {} ops).1.bad = false := by
  have h := run_sim (step K) (Inv K) view anyFits (fun s op hi _ => step_sim hK s op hi) ops {} (init_inv K)
    (runFits_any ops _)
  have e : view ({} : State) = Dict.empty := rfl
  rw [e] at h
  exact ⟨by rw [← h.2], by rw [← h.2], h.1.ok⟩

/-- C14: `Count` is the number of records, after any history. -/
theorem C14_count {K : Kind} {s : State} (hi : Inv K s) : ∃ l, (view s).Lists l ∧ s.count = l.length :=
  ⟨s.map, lookup_lists hi.nodup, rfl⟩

/-! ### Events: calls on the database and on any number of iterators -/

/-- An event on the database or on one of its iterators. -/
inductive Ev where
  | db (op : Op)
  | multi (l : List (Bytes × ProcS (Option Bytes))) (w : Bool) (r : Option Bytes)
  | firstRec (w : Bool) (p : Bytes → Bytes → Action × Unit)
  | each (w : Bool) (p : Bytes → Nat → Bytes → Action × Nat)
  | make (i : Nat)
  | free (i : Nat)
  | first (i : Nat)
  | last (i : Nat)
  | jump (i : Nat) (k : Bytes)
  | jumpLower (i : Nat) (k : Bytes) (inclusive : Bool)
  | jumpUpper (i : Nat) (k : Bytes) (inclusive : Bool)
  | next (i : Nat)
  | previous (i : Nat)
  | iproc (i : Nat) (w : Bool) (p : Bytes → Bytes → Action × Unit)

/-- The effect of one event. An iterator object cannot be made while it exists. -/
def evStep (K : Kind) (s : State) : Ev → State
  | .db op => (step K s op).1
  | .multi l w r => (s.processMulti K l w r).1
  | .firstRec w p => (s.processFirst w p).1
  | .each w p => (s.processEach w p id 0).1
  | .make i => if i ∈ s.iters.map (·.1) then s else s.makeIter i
  | .free i => s.freeIter i
  | .first i => (s.first i).1
  | .last i => (s.last K i).1
  | .jump i k => (s.jump K i k).1
  | .jumpLower i k b => (s.jumpLower K i k b).1
  | .jumpUpper i k b => (s.jumpUpper K i k b).1
  | .next i => (s.next i).1
  | .previous i => (s.previous K i).1
  | .iproc i w p => (s.iterProcess i w p).1

/-- Any sequence of events. -/
def evRun (K : Kind) (s : State) (evs : List Ev) : State := evs.foldl (evStep K) s

/-! ### Positions -/

theorem at_mem {s : State} {i : Nat} {k : Bytes} (h : s.at i = some k) : (i, some k) ∈ s.iters := by
  unfold State.at at h
  cases hf : s.iters.find? (fun x => x.1 = i) with
  | none => rw [hf] at h; cases h
  | some x =>
    rw [hf] at h
    have h1 := List.mem_of_find?_eq_some hf
    have h2 := List.find?_some hf
    simp only [decide_eq_true_eq] at h2
    simp only [Option.map_some, Option.getD_some] at h
    obtain ⟨a, b⟩ := x
    simp only at h2 h; subst h2; subst h
    exact h1

theorem at_map (iters : List (Nat × Pos)) (g : Nat × Pos → Nat × Pos) (hg : ∀ x, (g x).1 = x.1) (i : Nat) :
    (iters.map g).find? (fun x => x.1 = i) = (iters.find? fun x => x.1 = i).map g := by
  rw [List.find?_map]
  have : ((fun x : Nat × Pos => decide (x.1 = i)) ∘ g) = fun x => decide (x.1 = i) := by
    funext x; simp [Function.comp, hg]
  rw [this]

theorem at_map_eq {s : State} {m : List (Bytes × Bytes)} {l : List LogOp} (g : Nat × Pos → Nat × Pos) (hg : ∀ x, (g x).1 = x.1)
    (i : Nat) (f : Pos → Pos) (hgf : ∀ q, (g (i, q)).2 = f q) (hf : f none = none) :
    State.at { s with iters := s.iters.map g, map := m, log := l } i = f (s.at i) := by
  unfold State.at
  simp only
  rw [at_map _ _ hg]
  cases h : s.iters.find? (fun x => x.1 = i) with
  | none => simp [hf]
  | some x =>
    have h2 := List.find?_some h
    simp only [decide_eq_true_eq] at h2
    obtain ⟨a, q⟩ := x
    simp only at h2; subst h2
    simp [hgf]

/-- Iterator `i` exists. -/
def State.has (s : State) (i : Nat) : Prop := i ∈ s.iters.map (·.1)

theorem at_move {s : State} {i : Nat} (h : s.has i) (q : Pos) : (s.move i q).at i = q := by
  unfold State.move State.at
  simp only
  rw [at_map _ _ (by intro x; split <;> simp_all)]
  obtain ⟨x, hx, e⟩ := List.mem_map.1 h
  have : (s.iters.find? fun x => x.1 = i).isSome := by
    rw [List.find?_isSome]; exact ⟨x, hx, by simpa using e⟩
  obtain ⟨y, hy⟩ := Option.isSome_iff_exists.1 this
  rw [hy]
  have h2 := List.find?_some hy
  simp only [decide_eq_true_eq] at h2
  simp [h2]

theorem at_move_ne {s : State} {i j : Nat} (h : j ≠ i) (q : Pos) : (s.move i q).at j = s.at j := by
  unfold State.move State.at
  simp only
  rw [at_map _ _ (by intro x; split <;> simp_all)]
  cases hf : s.iters.find? (fun x => x.1 = j) with
  | none => simp
  | some x =>
    have h2 := List.find?_some hf
    simp only [decide_eq_true_eq] at h2
    simp [h2, h]

theorem move_inv {K : Kind} {s : State} (hi : Inv K s) (i : Nat) {q : Pos} (hq : ∀ k, q = some k → k ∈ keys s.map) :
    Inv K (s.move i q) := by
  refine ⟨hi.nodup, hi.ordered, ?_, ?_, hi.ok⟩
  · intro x hx k hk
    obtain ⟨y, hy, e⟩ := List.mem_map.1 hx
    split at e
    · subst e; exact hq k hk
    · subst e; exact hi.valid y hy k hk
  · show (List.map _ (List.map _ s.iters)).Nodup
    rw [List.map_map]
    have : ((fun x : Nat × Pos => x.1) ∘ fun x => if x.1 = i then (i, q) else x) = fun x => x.1 := by
      funext x; simp only [Function.comp]; split <;> simp_all
    rw [this]; exact hi.ids

theorem Inv.at_lookup {K : Kind} {s : State} (hi : Inv K s) {i : Nat} {k : Bytes} (h : s.at i = some k) :
    ∃ v, lookup k s.map = some v := by
  have := hi.valid _ (at_mem h) k rfl
  exact Option.isSome_iff_exists.1 (lookup_isSome.2 this)

/-! ### Removal moves iterators to the following record -/

/-- SPECIFICATION: between `s` and `s'` the record of `k` was removed; every iterator that was at it is now at the record
that followed it in the order of iteration (or at the end, if it was the last), and no other iterator moved. -/
def Removed (s s' : State) (k : Bytes) : Prop :=
  ∃ before v after, s.map = before ++ (k, v) :: after ∧ s'.map = before ++ after ∧
    ∀ i, s'.at i = if s.at i = some k then after.head?.map (·.1) else s.at i

theorem removeAt_removed {K : Kind} {s : State} (hi : Inv K s) {k v : Bytes} (h : lookup k s.map = some v) :
    Removed s (s.removeAt k) k := by
  obtain ⟨a, b, e, ha, hb⟩ := hi.cut h
  rw [removeAt_eq hi e ha]
  refine ⟨a, v, b, e, rfl, fun i => ?_⟩
  unfold moveOff
  rw [at_map_eq _ (by intro x; split <;> rfl) i (fun q => if q = some k then begin b else q)
    (by intro q; by_cases c : q = some k <;> simp [c]) (by simp)]
  rfl

/-- C14: a `Process` (so also `Remove`, and each step of `ProcessMulti`) that removes a record moves every iterator at it
to the following record. -/
theorem C14_process_removes {K : Kind} {s : State} (hi : Inv K s) {τ : Type} (k v : Bytes) (p : ProcR τ)
    (hv : view s k = some v) (hp : (p (some v)).1 = .remove) : Removed s (s.process K k true p).1 k := by
  have h : lookup k s.map = some v := hv
  simp only [State.process, if_true, h, hp, State.actFull]
  exact removeAt_removed hi h

/-- C14: likewise `ProcessFirst`, for the record that is first in the order of iteration. -/
theorem C14_first_removes {K : Kind} {s : State} (hi : Inv K s) {τ : Type} (k v : Bytes) (rest : List (Bytes × Bytes))
    (p : Bytes → Bytes → Action × τ) (hm : s.map = (k, v) :: rest) (hp : (p k v).1 = .remove) :
    Removed s (s.processFirst true p).1 k := by
  have h : lookup k s.map = some v := by rw [hm]; simp [lookup]
  have : (s.processFirst true p).1 = s.removeAt k := by
    unfold State.processFirst; rw [hm]; simp [hp, State.actFull]
  rw [this]
  exact removeAt_removed hi h

/-- C14: likewise the removal through an iterator: that iterator and all others at the record move to the following
record. -/
theorem C14_iter_removes {K : Kind} {s : State} (hi : Inv K s) {τ : Type} (i : Nat) (k : Bytes)
    (p : Bytes → Bytes → Action × τ) (hat : s.at i = some k) (hp : ∀ v, view s k = some v → (p k v).1 = .remove) :
    Removed s (s.iterProcess i true p).1 k := by
  obtain ⟨v, hv⟩ := hi.at_lookup hat
  obtain ⟨a, b, e, ha, hb⟩ := hi.cut hv
  have : (s.iterProcess i true p).1 = s.iterRemove i k := by
    simp [State.iterProcess, hat, hv, hp v hv]
  rw [this]
  simp only [State.iterRemove, e, inc_split ha, erase_split ha]
  refine ⟨a, v, b, e, rfl, fun j => ?_⟩
  by_cases hj : j = i
  · subst hj
    rw [hat, if_pos rfl]
    have : (s.iters.find? fun x => x.1 = j).isSome := by
      rw [List.find?_isSome]; exact ⟨_, at_mem hat, by simp⟩
    obtain ⟨y, hy⟩ := Option.isSome_iff_exists.1 this
    have h2 := List.find?_some hy
    simp only [decide_eq_true_eq] at h2
    unfold State.at
    simp only
    rw [at_map _ _ (by intro x; split; · simp_all
                       · split <;> rfl), hy]
    simp [h2, begin]
  · rw [at_map_eq _ (by intro x; split; · simp_all
                        · split <;> rfl) j (fun q => if q = some k then begin b else q)
      (by intro q; simp [hj]; by_cases c : q = some k <;> simp [c]) (by simp)]
    rfl

/-- SPECIFICATION: `q` is the least key with the property, or the end if there is none. -/
def Least (P : Bytes → Prop) : Pos → Prop
  | none => ∀ k, ¬ P k
  | some k => P k ∧ ∀ k', P k' → ¬ k' < k

/-- SPECIFICATION: `q` is the greatest key with the property, or the end if there is none. -/
def Greatest (P : Bytes → Prop) : Pos → Prop
  | none => ∀ k, ¬ P k
  | some k => P k ∧ ∀ k', P k' → ¬ k < k'

theorem tree_sorted {s : State} (hi : Inv .tree s) : (keys s.map).Pairwise (· < ·) := by
  have := hi.ordered
  simp only [Ordered, OrdMap.Sorted] at this
  rw [List.pairwise_map]
  exact this.imp (by intro a b h; simpa [bytesLt] using h)

theorem view_isSome {s : State} {k : Bytes} : (view s k).isSome ↔ k ∈ keys s.map := lookup_isSome

/-- The head of a suffix of a sorted list is the least key from there. -/
theorem least_begin {l b : List (Bytes × Bytes)} {P : Bytes → Prop} (hs : (keys l).Pairwise (· < ·)) (hb : b <:+ l)
    (hP : ∀ k ∈ keys b, P k) (hQ : ∀ k, P k → k ∈ keys b) : Least P (begin b) := by
  obtain ⟨a, rfl⟩ := hb
  rw [keys_append] at hs
  have hs := (List.pairwise_append.1 hs).2.1
  cases b with
  | nil => intro k hk; simpa using hQ k hk
  | cons r b =>
    refine ⟨hP _ (by simp), fun k' hk' => ?_⟩
    have := hQ k' hk'
    simp only [keys, List.map_cons, List.mem_cons] at this
    rcases this with h | h
    · rw [h]; exact List.lt_irrefl _
    · simp only [keys, List.map_cons, List.pairwise_cons] at hs
      exact fun hlt => absurd (List.lt_trans hlt (hs.1 _ h)) (List.lt_irrefl _)

/-- The last of a prefix of a sorted list is the greatest key up to there. -/
theorem greatest_last {l a : List (Bytes × Bytes)} {P : Bytes → Prop} (hs : (keys l).Pairwise (· < ·)) (hb : a <+: l)
    (hP : ∀ k ∈ keys a, P k) (hQ : ∀ k, P k → k ∈ keys a) : Greatest P (a.getLast?.map (·.1)) := by
  obtain ⟨b, rfl⟩ := hb
  rw [keys_append] at hs
  have hs := (List.pairwise_append.1 hs).1
  cases h : a.getLast? with
  | none =>
    rw [List.getLast?_eq_none_iff] at h
    intro k hk; have := hQ k hk; simp [h] at this
  | some x =>
    obtain ⟨c, rfl⟩ := List.getLast?_eq_some_iff.1 h
    refine ⟨hP _ (by simp), fun k' hk' => ?_⟩
    have := hQ k' hk'
    rw [keys_append, List.mem_append] at this
    rw [keys_append, List.pairwise_append] at hs
    rcases this with h | h
    · have := hs.2.2 k' h x.1 (by simp)
      exact fun hlt => absurd (List.lt_trans hlt this) (List.lt_irrefl _)
    · simp only [keys, List.map_cons, List.map_nil, List.mem_singleton] at h
      rw [h]; exact List.lt_irrefl _

/-- C14 for StdTreeDBM: the following record is the one with the least greater key. -/
theorem C14_tree_following {s s' : State} (hi : Inv .tree s) {k : Bytes} (h : Removed s s' k) (i : Nat)
    (hat : s.at i = some k) : Least (fun k' => (view s' k').isSome ∧ k < k') (s'.at i) := by
  obtain ⟨a, v, b, e1, e2, h3⟩ := h
  rw [h3 i, if_pos hat]
  have hs := tree_sorted hi
  rw [e1] at hs
  have hs2 := hs
  rw [keys_append, List.pairwise_append] at hs
  simp only [keys, List.map_cons, List.pairwise_cons] at hs
  refine least_begin (l := a ++ (k, v) :: b) hs2 ⟨a ++ [(k, v)], by simp⟩ ?_ ?_
  · intro k' hk'
    refine ⟨?_, hs.2.1.1 k' hk'⟩
    rw [view_isSome, e2, keys_append, List.mem_append]; exact .inr hk'
  · rintro k' ⟨h1, h2⟩
    rw [view_isSome, e2, keys_append, List.mem_append] at h1
    rcases h1 with h1 | h1
    · exact absurd (List.lt_trans h2 (hs.2.2 k' h1 k (by simp))) (List.lt_irrefl _)
    · exact h1

end Verif.Std
