import Verif.Std.Model
import Verif.Dbm.Counted
/-
The invariant of StdDBM and what every function does to the list of records.
-/
namespace Verif.Std

abbrev keys (m : List (Bytes × Bytes)) : List Bytes := m.map (·.1)

theorem keys_append (a b : List (Bytes × Bytes)) : keys (a ++ b) = keys a ++ keys b := List.map_append

theorem lookup_split {k v : Bytes} {m : List (Bytes × Bytes)} (h : lookup k m = some v) :
    ∃ a b, m = a ++ (k, v) :: b ∧ k ∉ keys a := by
  induction m with
  | nil => cases h
  | cons r m ih =>
    obtain ⟨x, w⟩ := r
    simp only [lookup] at h
    split at h
    · rename_i e; cases h; subst e; exact ⟨[], m, rfl, by simp⟩
    · rename_i e
      obtain ⟨a, b, rfl, ha⟩ := ih h
      refine ⟨(x, w) :: a, b, rfl, ?_⟩
      simp only [keys, List.map_cons, List.mem_cons, not_or]
      exact ⟨fun h => e h.symm, ha⟩

theorem lookup_none {k : Bytes} {m : List (Bytes × Bytes)} : lookup k m = none ↔ k ∉ keys m := by
  induction m with
  | nil => simp [lookup]
  | cons r m ih =>
    obtain ⟨x, w⟩ := r
    simp only [lookup, keys, List.map_cons, List.mem_cons, not_or]
    split
    · rename_i e; simp [e]
    · rename_i e; rw [ih]; simp [Ne.symm e]

theorem lookup_isSome {k : Bytes} {m : List (Bytes × Bytes)} : (lookup k m).isSome ↔ k ∈ keys m := by
  have := lookup_none (k := k) (m := m)
  cases h : lookup k m with
  | none => simpa [h] using this
  | some v => rw [h] at this; simpa using this

theorem lookup_append (k : Bytes) (a b : List (Bytes × Bytes)) :
    lookup k (a ++ b) = (lookup k a).or (lookup k b) := by
  induction a with
  | nil => rfl
  | cons r a ih =>
    obtain ⟨x, w⟩ := r
    simp only [List.cons_append, lookup]
    split
    · rfl
    · exact ih

theorem lookup_mem {k v : Bytes} {m : List (Bytes × Bytes)} (hn : (keys m).Nodup) :
    lookup k m = some v ↔ (k, v) ∈ m := by
  constructor
  · intro h; obtain ⟨a, b, rfl, _⟩ := lookup_split h; simp
  · induction m with
    | nil => simp
    | cons r m ih =>
      obtain ⟨x, w⟩ := r
      simp only [keys, List.map_cons, List.nodup_cons] at hn
      intro h
      simp only [lookup]
      rcases List.mem_cons.1 h with e | h
      · cases e; simp
      · rw [if_neg, ih hn.2 h]
        rintro rfl
        exact hn.1 (List.mem_map.2 ⟨_, h, rfl⟩)

theorem lookup_lists {m : List (Bytes × Bytes)} (hn : (keys m).Nodup) : Dict.Lists (fun k => lookup k m) m :=
  ⟨hn, fun _ _ => (lookup_mem hn).symm⟩

section split
variable {a b : List (Bytes × Bytes)} {k v : Bytes} (ha : k ∉ keys a)
include ha

theorem inc_split : inc k (a ++ (k, v) :: b) = some (begin b) := by
  induction a with
  | nil => simp [inc]
  | cons r a ih =>
    simp only [keys, List.map_cons, List.mem_cons, not_or] at ha
    simp only [List.cons_append, inc]
    rw [if_neg (Ne.symm ha.1), ih ha.2]

theorem erase_split : eraseKey k (a ++ (k, v) :: b) = a ++ b := by
  induction a with
  | nil => simp [eraseKey]
  | cons r a ih =>
    simp only [keys, List.map_cons, List.mem_cons, not_or] at ha
    simp only [List.cons_append, eraseKey]
    rw [if_neg (Ne.symm ha.1), ih ha.2]

theorem assign_split (v' : Bytes) : assign k v' (a ++ (k, v) :: b) = a ++ (k, v') :: b := by
  induction a with
  | nil => simp [assign]
  | cons r a ih =>
    simp only [keys, List.map_cons, List.mem_cons, not_or] at ha
    simp only [List.cons_append, assign]
    rw [if_neg (Ne.symm ha.1), ih ha.2]

theorem lookup_at : lookup k (a ++ (k, v) :: b) = some v := by
  rw [lookup_append, lookup_none.2 ha]; simp [lookup]

theorem dec_split {x : Bytes × Bytes} (hx : a.getLast? = some x) : dec k (a ++ (k, v) :: b) = some (some x.1) := by
  induction a with
  | nil => cases hx
  | cons r a ih =>
    simp only [keys, List.map_cons, List.mem_cons, not_or] at ha
    cases a with
    | nil => simp only [List.getLast?_singleton, Option.some.injEq] at hx; subst hx; simp [dec]
    | cons r2 a =>
      simp only [List.map_cons, List.mem_cons, not_or] at ha
      simp only [List.cons_append, dec]
      rw [if_neg (Ne.symm ha.2.1)]
      exact ih (by simp only [keys, List.map_cons, List.mem_cons, not_or]; exact ha.2) (by rw [List.getLast?_cons_cons] at hx; exact hx)

end split

/-- A record inserted: `Kind.emplace` of an absent key puts it somewhere in the list. -/
theorem emplace_split (K : Kind) {k v : Bytes} {m : List (Bytes × Bytes)} (h : lookup k m = none) :
    ∃ a b, m = a ++ b ∧ K.emplace k v m = a ++ (k, v) :: b := by
  cases K with
  | tree =>
    simp only [Kind.emplace]
    induction m with
    | nil => exact ⟨[], [], rfl, rfl⟩
    | cons r m ih =>
      obtain ⟨x, w⟩ := r
      simp only [lookup] at h
      split at h
      · cases h
      · rename_i e
        simp only [OrdMap.emplace]
        split
        · obtain ⟨a, b, rfl, h2⟩ := ih h
          exact ⟨(x, w) :: a, b, rfl, by rw [h2]; rfl⟩
        · rename_i e1
          split
          · exact ⟨[], _, rfl, rfl⟩
          · rename_i e2
            exact absurd ((bytesLt_eqv x k).1 (by rw [StrictWeak.eqv_iff]; simp [e1, e2])) e
  | hash place perm =>
    simp only [Kind.emplace, h]
    exact ⟨m.take (place m k), m.drop (place m k), (List.take_append_drop _ _).symm, by simp⟩

/-- The order a map container keeps. -/
def Ordered : Kind → List (Bytes × Bytes) → Prop
  | .tree, m => OrdMap.Sorted bytesLt m
  | .hash _ _, _ => True

/-- What the standard guarantees of a rehash. -/
def Kind.Ok : Kind → Prop
  | .tree => True
  | .hash _ perm => ∀ m, (perm m).Perm m

/-- The invariant: keys distinct and in order, every iterator at the end or at an existing record, no undefined
behaviour so far. -/
structure Inv (K : Kind) (s : State) : Prop where
  nodup : (keys s.map).Nodup
  ordered : Ordered K s.map
  valid : ∀ x ∈ s.iters, ∀ k, x.2 = some k → k ∈ keys s.map
  ids : (s.iters.map (·.1)).Nodup
  ok : s.bad = false

/-- The dictionary a database stands for. -/
def view (s : State) : Dict := fun k => lookup k s.map

theorem begin_mem {m : List (Bytes × Bytes)} {k : Bytes} (h : begin m = some k) : k ∈ keys m := by
  cases m with
  | nil => cases h
  | cons r m => simp only [begin, List.head?_cons, Option.map_some, Option.some.injEq] at h; simp [h]

theorem Inv.cut {K : Kind} {s : State} (hi : Inv K s) {k v : Bytes} (h : lookup k s.map = some v) :
    ∃ a b, s.map = a ++ (k, v) :: b ∧ k ∉ keys a ∧ k ∉ keys b := by
  obtain ⟨a, b, e, ha⟩ := lookup_split h
  have := hi.nodup
  rw [e, keys_append] at this
  refine ⟨a, b, e, ha, ?_⟩
  have h2 := (List.nodup_append.1 this).2.1
  simp only [keys, List.map_cons, List.nodup_cons] at h2
  exact h2.1

theorem Ordered.sublist {K : Kind} {m m' : List (Bytes × Bytes)} (h : Ordered K m) (hs : m'.Sublist m) : Ordered K m' := by
  cases K with
  | tree => exact List.Pairwise.sublist hs h
  | hash => trivial

theorem Ordered.keys {K : Kind} {m m' : List (Bytes × Bytes)} (h : Ordered K m) (hs : keys m' = keys m) : Ordered K m' := by
  cases K with
  | hash => trivial
  | tree =>
    have e : ∀ l : List (Bytes × Bytes), Ordered .tree l ↔ (Std.keys l).Pairwise (fun a b => bytesLt a b = true) := by
      intro l; simp only [Ordered, OrdMap.Sorted, Std.keys, List.pairwise_map]
    rw [e, hs, ← e]; exact h

theorem Ordered.emplace {K : Kind} {m : List (Bytes × Bytes)} (h : Ordered K m) (k v : Bytes) : Ordered K (K.emplace k v m) := by
  cases K with
  | tree => exact OrdMap.sorted_emplace bytesLt_weak k v h
  | hash => trivial

theorem moveOff_mem {k : Bytes} {next : Pos} {iters : List (Nat × Pos)} {x : Nat × Pos} (h : x ∈ moveOff k next iters) :
    (x.2 = next ∧ (x.1, some k) ∈ iters) ∨ (x ∈ iters ∧ x.2 ≠ some k) := by
  obtain ⟨y, hy, e⟩ := List.mem_map.1 h
  split at e
  · rename_i c; left; subst e; refine ⟨rfl, ?_⟩; rw [← c]; exact hy
  · rename_i c; right; subst e; exact ⟨hy, c⟩

theorem moveOff_ids (k : Bytes) (next : Pos) (iters : List (Nat × Pos)) :
    (moveOff k next iters).map (·.1) = iters.map (·.1) := by
  unfold moveOff
  rw [List.map_map]
  apply List.map_congr_left
  intro x _
  simp only [Function.comp]
  split <;> rfl

theorem cancel_ids (iters : List (Nat × Pos)) : (cancel iters).map (·.1) = iters.map (·.1) := by
  unfold cancel; rw [List.map_map]; rfl

/-- The iterators after a removal stay on records. -/
theorem valid_moveOff {a b : List (Bytes × Bytes)} {k v : Bytes} {iters : List (Nat × Pos)}
    (h : ∀ x ∈ iters, ∀ k', x.2 = some k' → k' ∈ keys (a ++ (k, v) :: b)) :
    ∀ x ∈ moveOff k (begin b) iters, ∀ k', x.2 = some k' → k' ∈ keys (a ++ b) := by
  intro x hx k' hk
  rcases moveOff_mem hx with ⟨h1, _⟩ | ⟨h1, h2⟩
  · rw [h1] at hk; rw [keys_append, List.mem_append]; exact .inr (begin_mem hk)
  · have := h x h1 k' hk
    rw [keys_append, List.mem_append] at this ⊢
    rcases this with h | h
    · exact .inl h
    · rcases List.mem_cons.1 h with h | h
      · subst h; exact absurd hk h2
      · exact .inr h

theorem removeAt_eq {K : Kind} {s : State} (hi : Inv K s) {a b : List (Bytes × Bytes)} {k v : Bytes}
    (e : s.map = a ++ (k, v) :: b) (ha : k ∉ keys a) :
    s.removeAt k = { s with log := s.log ++ [.remove k], iters := moveOff k (begin b) s.iters, map := a ++ b } := by
  simp only [State.removeAt, e, inc_split ha, erase_split ha]

theorem assignAt_eq {s : State} {a b : List (Bytes × Bytes)} {k v : Bytes}
    (e : s.map = a ++ (k, v) :: b) (ha : k ∉ keys a) (v' : Bytes) :
    s.assignAt k v' = { s with log := s.log ++ [.set k v'], map := a ++ (k, v') :: b } := by
  simp only [State.assignAt, e, assign_split ha]

theorem keys_mid {a b : List (Bytes × Bytes)} {k v v' : Bytes} : keys (a ++ (k, v) :: b) = keys (a ++ (k, v') :: b) := by
  simp [keys]

theorem lookup_mid {a b : List (Bytes × Bytes)} {k v v' x : Bytes} (ha : k ∉ keys a) :
    lookup x (a ++ (k, v') :: b) = if x = k then some v' else lookup x (a ++ (k, v) :: b) := by
  by_cases h : x = k
  · subst h; rw [if_pos rfl, lookup_at ha]
  · rw [if_neg h, lookup_append, lookup_append]; simp only [lookup]; rw [if_neg (Ne.symm h), if_neg (Ne.symm h)]

theorem lookup_out {a b : List (Bytes × Bytes)} {k v x : Bytes} (ha : k ∉ keys a) (hb : k ∉ keys b) :
    lookup x (a ++ b) = if x = k then none else lookup x (a ++ (k, v) :: b) := by
  by_cases h : x = k
  · subst h; rw [if_pos rfl, lookup_none, keys_append, List.mem_append]; exact not_or.2 ⟨ha, hb⟩
  · rw [if_neg h, lookup_append, lookup_append]; simp only [lookup]; rw [if_neg (Ne.symm h)]

/-- The action of a processor on an existing record. -/
theorem actFull_spec {K : Kind} {s : State} (hi : Inv K s) {k v : Bytes} (h : lookup k s.map = some v) (ac : Action) :
    Inv K (s.actFull k ac) ∧ view (s.actFull k ac) = (view s).act k ac := by
  obtain ⟨a, b, e, ha, hb⟩ := hi.cut h
  cases ac with
  | noop => exact ⟨hi, rfl⟩
  | remove =>
    simp only [State.actFull, removeAt_eq hi e ha]
    have hs : (a ++ b).Sublist s.map := by rw [e]; exact List.Sublist.append (List.Sublist.refl _) (List.sublist_cons_self _ _)
    refine ⟨⟨(hs.map _).nodup hi.nodup, hi.ordered.sublist hs, ?_, ?_, hi.ok⟩, ?_⟩
    · exact valid_moveOff (v := v) (by rw [← e]; exact hi.valid)
    · simp only [moveOff_ids]; exact hi.ids
    · funext x
      simp only [view, Dict.act, Dict.upd, e]
      exact lookup_out ha hb
  | set v' =>
    simp only [State.actFull, assignAt_eq e ha]
    have hk : keys (a ++ (k, v') :: b) = keys s.map := by rw [e]; exact keys_mid
    refine ⟨⟨by simp only [hk]; exact hi.nodup, hi.ordered.keys hk, ?_, hi.ids, hi.ok⟩, ?_⟩
    · simp only [hk]; exact hi.valid
    · funext x
      simp only [view, Dict.act, Dict.upd, e]
      exact lookup_mid ha

theorem actEmpty_spec {K : Kind} {s : State} (hi : Inv K s) {k : Bytes} (h : lookup k s.map = none) (ac : Action) :
    Inv K (s.actEmpty K k ac) ∧ view (s.actEmpty K k ac) = (view s).act k ac := by
  cases ac with
  | noop => exact ⟨hi, rfl⟩
  | remove =>
    refine ⟨hi, ?_⟩
    funext x
    simp only [State.actEmpty, view, Dict.act, Dict.upd]
    split
    · rename_i e; subst e; exact h
    · rfl
  | set v =>
    obtain ⟨a, b, e, e2⟩ := emplace_split K (v := v) h
    have h' := h
    rw [e, lookup_none, keys_append, List.mem_append, not_or] at h'
    simp only [State.actEmpty]
    refine ⟨⟨?_, hi.ordered.emplace k v, ?_, hi.ids, hi.ok⟩, ?_⟩
    · simp only [e2]
      have hn := hi.nodup
      rw [e] at hn
      have hp : (keys (a ++ (k, v) :: b)).Perm (k :: keys (a ++ b)) := by
        simp only [keys, List.map_append, List.map_cons]
        exact List.perm_middle
      rw [hp.nodup_iff, List.nodup_cons]
      exact ⟨by rw [keys_append, List.mem_append, not_or]; exact h', hn⟩
    · intro x hx k' hk
      have := hi.valid x hx k' hk
      simp only [e2]
      rw [e, keys_append, List.mem_append] at this
      rw [keys_append, List.mem_append]
      rcases this with h | h
      · exact .inl h
      · exact .inr (List.mem_cons_of_mem _ h)
    · funext x
      simp only [view, Dict.act, Dict.upd]
      rw [e2, e]
      by_cases hx : x = k
      · subst hx; rw [if_pos rfl, lookup_at h'.1]
      · rw [if_neg hx, lookup_append, lookup_append]; simp only [lookup]; rw [if_neg (Ne.symm hx)]

theorem process_spec {K : Kind} {τ : Type} {s : State} (hi : Inv K s) (k : Bytes) (w : Bool) (p : ProcR τ) :
    Inv K (s.process K k w p).1 ∧ (view (s.process K k w p).1, (s.process K k w p).2) = (view s).process k w p := by
  unfold State.process
  cases w with
  | false => exact ⟨hi, rfl⟩
  | true =>
    simp only [if_true]
    cases h : lookup k s.map with
    | none =>
      obtain ⟨h1, h2⟩ := actEmpty_spec hi h (p none).1
      refine ⟨h1, ?_⟩
      simp only [Dict.process, if_true, show view s k = none from h, h2]
    | some v =>
      obtain ⟨h1, h2⟩ := actFull_spec hi h (p (some v)).1
      refine ⟨h1, ?_⟩
      simp only [Dict.process, if_true, show view s k = some v from h, h2]

theorem processMulti_eq (K : Kind) {ρ : Type} (l : List (Bytes × ProcS ρ)) (w : Bool) :
    ∀ (s : State) (r : ρ), s.processMulti K l w r = seqMulti (State.process K) s l w r := by
  induction l with
  | nil => intro s r; rfl
  | cons x l ih => intro s r; obtain ⟨k, p⟩ := x; simp only [State.processMulti, seqMulti]; exact ih _ _

theorem begin_none {m : List (Bytes × Bytes)} : begin m = none ↔ m = [] := by
  cases m <;> simp [begin]

theorem clear_spec {K : Kind} {s : State} (hi : Inv K s) : Inv K s.clear ∧ view s.clear = Dict.empty := by
  refine ⟨⟨by simp [State.clear, keys], ?_, ?_, ?_, hi.ok⟩, rfl⟩
  · cases K
    · exact OrdMap.sorted_nil
    · trivial
  · intro x hx k hk
    obtain ⟨y, _, rfl⟩ := List.mem_map.1 hx
    cases hk
  · show (List.map _ (cancel s.iters)).Nodup; rw [cancel_ids]; exact hi.ids

theorem rebuild_spec {K : Kind} (hK : K.Ok) {s : State} (hi : Inv K s) :
    Inv K (s.rebuild K) ∧ view (s.rebuild K) = view s := by
  have hv : ∀ m : List (Bytes × Bytes), ∀ x ∈ cancel s.iters, ∀ k, x.2 = some k → k ∈ keys m := by
    intro m x hx k hk
    obtain ⟨y, _, rfl⟩ := List.mem_map.1 hx
    cases hk
  cases K with
  | tree =>
    exact ⟨⟨hi.nodup, hi.ordered, hv _, by simp only [State.rebuild, cancel_ids]; exact hi.ids, hi.ok⟩, rfl⟩
  | hash place perm =>
    have hp := hK s.map
    have hn : (keys (perm s.map)).Nodup := ((hp.map _).nodup_iff).2 hi.nodup
    refine ⟨⟨hn, trivial, hv _, by simp only [State.rebuild, cancel_ids]; exact hi.ids, hi.ok⟩, ?_⟩
    funext k
    simp only [view, State.rebuild]
    cases h : lookup k s.map with
    | none =>
      rw [lookup_none] at h ⊢
      exact fun x => h ((hp.map _).mem_iff.1 x)
    | some v =>
      rw [lookup_mem hi.nodup] at h
      rw [lookup_mem hn]
      exact hp.mem_iff.2 h

end Verif.Std
