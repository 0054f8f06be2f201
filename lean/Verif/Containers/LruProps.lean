import Verif.Containers.Lru
import Verif.Containers.LinkedProps

/-
Property C42, part two: `LRUCache` and `DoubleLRUCache` return what was added and remove the least recently used entry. The specification
knows nothing of lists or pointers: it stamps every entry with the time of its last use.
-/
namespace Verif.Linked

variable {V : Type}

/-! ### SPECIFICATION: entries with the time of the last use -/

/-- The entries: the value and the stamp of each identifier, and the clock. -/
structure Stamped (V : Type) where
  cur : Int → Option (V × Nat)
  clock : Nat

namespace Stamped

/-- No entries. -/
def empty : Stamped V := ⟨fun _ => none, 0⟩

/-- An entry is put or used now. -/
def touch (s : Stamped V) (id : Int) (v : V) : Stamped V := ⟨fun j => if j = id then some (v, s.clock) else s.cur j, s.clock + 1⟩

/-- An entry is removed. -/
def drop (s : Stamped V) (id : Int) : Stamped V := ⟨fun j => if j = id then none else s.cur j, s.clock⟩

/-- There are `n` entries. -/
def Size (s : Stamped V) (n : Nat) : Prop := ∃ ids : List Int, ids.Nodup ∧ (∀ id, id ∈ ids ↔ s.cur id ≠ none) ∧ ids.length = n

/-- The entry used the longest ago. -/
def Oldest (s : Stamped V) (id : Int) (v : V) : Prop := ∃ t, s.cur id = some (v, t) ∧ ∀ id' v' t', s.cur id' = some (v', t') → t ≤ t'

/-- The entries from the one used the longest ago. -/
def InOrder (s : Stamped V) (l : List (Int × V)) : Prop :=
  (∀ id v, (id, v) ∈ l ↔ ∃ t, s.cur id = some (v, t)) ∧ l.Pairwise (fun a b => ∀ v t v' t', s.cur a.1 = some (v, t) → s.cur b.1 = some (v', t') → t < t')

end Stamped

/-- Calls. -/
inductive LruCall (V : Type) where
  | add (id : Int) (v : V) | giveBack (id : Int) (v : V) | get (id : Int) | remove (id : Int) | removeLRU
  | size | isEmpty | isSaturated | clear | items

/-- What calls return. -/
inductive LruRet (V : Type) where
  | value (v : Option V) | entry (e : Option (Int × V)) | number (n : Nat) | flag (b : Bool) | entries (l : List (Int × V)) | unit
  deriving DecidableEq

/-- What a call of `LRUCache` may return and do. An identifier already there keeps its value and its stamp when it is added again. -/
def Stamped.Allows (capacity : Nat) (s : Stamped V) (c : LruCall V) (r : LruRet V) (s' : Stamped V) : Prop :=
  match c with
  | .add id v =>
    match s.cur id with
    | some (v0, _) => r = .value (some v0) ∧ s' = s
    | none => r = .value (some v) ∧ s' = s.touch id v
  | .giveBack id v =>
    match s.cur id with
    | some _ => r = .unit ∧ s' = s
    | none => r = .unit ∧ s' = s.touch id v
  | .get id =>
    match s.cur id with
    | some (v, _) => r = .value (some v) ∧ s' = s.touch id v
    | none => r = .value none ∧ s' = s
  | .remove id => r = .unit ∧ s' = s.drop id
  | .removeLRU => (∃ id v, s.Oldest id v ∧ r = .entry (some (id, v)) ∧ s' = s.drop id) ∨ ((∀ id, s.cur id = none) ∧ r = .entry none ∧ s' = s)
  | .size => (∃ n, s.Size n ∧ r = .number n) ∧ s' = s
  | .isEmpty => (∃ n, s.Size n ∧ r = .flag (decide (n = 0))) ∧ s' = s
  | .isSaturated => (∃ n, s.Size n ∧ r = .flag (decide (capacity < n))) ∧ s' = s
  | .clear => r = .unit ∧ s'.cur = fun _ => none
  | .items => (∃ l, s.InOrder l ∧ r = .entries l) ∧ s' = s

/-- A sequence of calls. -/
def Stamped.AllowsAll (capacity : Nat) : Stamped V → List (LruCall V) → List (LruRet V) → Prop
  | _, [], rs => rs = []
  | s, c :: cs, rs => ∃ r rs' s', rs = r :: rs' ∧ s.Allows capacity c r s' ∧ Stamped.AllowsAll capacity s' cs rs'

/-! ### The model -/

/-- A call. -/
def Lru.call (hash : Int → Nat) (c : Lru V) : LruCall V → Option (LruRet V × Lru V)
  | .add id v => (c.add hash id v).map (fun r => (.value (some r.1), r.2))
  | .giveBack id v => (c.giveBack hash id v).map (fun r => (.unit, r))
  | .get id => (c.get hash id).map (fun r => (.value r.1, r.2))
  | .remove id => (c.remove hash id).map (fun r => (.unit, r))
  | .removeLRU => (c.removeLRU hash).map (fun r => (.entry r.1, r.2))
  | .size => some (.number c.size, c)
  | .isEmpty => some (.flag c.isEmpty, c)
  | .isSaturated => some (.flag c.isSaturated, c)
  | .clear => c.clear.map (fun r => (.unit, r))
  | .items => c.items.map (fun r => (.entries r, c))

/-- A sequence of calls. -/
def Lru.calls (hash : Int → Nat) (c : Lru V) : List (LruCall V) → Option (List (LruRet V))
  | [] => some []
  | x :: xs => (c.call hash x).bind (fun r => (Lru.calls hash r.2 xs).map (r.1 :: ·))

/-! ### Stamped lists -/

/-- Forgetting the stamps. -/
def bare (l : List (Int × V × Nat)) : List (Int × V) := l.map (fun e => (e.1, e.2.1))

theorem bare_lookup (l : List (Int × V × Nat)) (k : Int) : Spec.lookup (bare l) k = (Spec.lookup l k).map (·.1) := by
  induction l with
  | nil => rfl
  | cons e l ih =>
    simp only [bare, Spec.lookup, List.map_cons, List.find?_cons] at ih ⊢
    by_cases h : e.1 = k
    · simp [h]
    · simp only [h, decide_false]; exact ih

theorem bare_without (l : List (Int × V × Nat)) (k : Int) : Spec.without (bare l) k = bare (Spec.without l k) := by
  simp only [bare, Spec.without, List.filter_map]; rfl

theorem lookup_without {W : Type} (l : List (Int × W)) (k j : Int) : Spec.lookup (Spec.without l k) j = if j = k then none else Spec.lookup l j := by
  induction l with
  | nil => simp [Spec.without, Spec.lookup]
  | cons e l ih =>
    by_cases h : e.1 = k
    · have : Spec.without (e :: l) k = Spec.without l k := by simp [Spec.without, h]
      rw [this, ih]
      by_cases hj : j = k
      · simp [hj]
      · have : ¬ e.1 = j := fun x => hj (by rw [← x, h])
        simp [Spec.lookup, hj, this, List.find?_cons]
    · have : Spec.without (e :: l) k = e :: Spec.without l k := by simp [Spec.without, h]
      rw [this]
      by_cases hej : e.1 = j
      · have : ¬ j = k := fun x => h (by rw [hej, x])
        simp [Spec.lookup, hej, this, List.find?_cons]
      · simp only [Spec.lookup, List.find?_cons, hej, decide_false] at ih ⊢
        exact ih

theorem lookup_snoc {W : Type} (l : List (Int × W)) (k j : Int) (x : W) : Spec.lookup (l ++ [(k, x)]) j = (Spec.lookup l j).or (if j = k then some x else none) := by
  induction l with
  | nil =>
    by_cases h : k = j
    · simp [Spec.lookup, h]
    · simp [Spec.lookup, h, Ne.symm h]
  | cons e l ih =>
    by_cases h : e.1 = j
    · simp [Spec.lookup, h]
    · simp only [Spec.lookup, List.cons_append, List.find?_cons, h, decide_false] at ih ⊢
      exact ih

theorem lookup_mem {W : Type} {l : List (Int × W)} {k : Int} {x : W} (hn : (l.map (·.1)).Nodup) : Spec.lookup l k = some x ↔ (k, x) ∈ l := by
  induction l with
  | nil => simp [Spec.lookup]
  | cons e l ih =>
    obtain ⟨j, y⟩ := e
    rw [List.map_cons, List.nodup_cons] at hn
    by_cases h : j = k
    · subst h
      have h2 : ∀ z, (j, z) ∉ l := fun z hz => hn.1 (List.mem_map.2 ⟨(j, z), hz, rfl⟩)
      have h1 : Spec.lookup ((j, y) :: l) j = some y := by simp [Spec.lookup]
      rw [h1, List.mem_cons]
      constructor
      · intro e; injection e with e; subst e; exact Or.inl rfl
      · rintro (e | e)
        · injection e with _ e; rw [e]
        · exact absurd e (h2 x)
    · have h1 : Spec.lookup ((j, y) :: l) k = Spec.lookup l k := by simp [Spec.lookup, h]
      rw [h1, ih hn.2, List.mem_cons]
      constructor
      · exact Or.inr
      · rintro (e | e)
        · injection e with e _; exact absurd e.symm h
        · exact e

theorem lookup_none {W : Type} {l : List (Int × W)} {k : Int} : Spec.lookup l k = none ↔ k ∉ l.map (·.1) := by
  simp only [Spec.lookup, Option.map_eq_none_iff, List.find?_eq_none, List.mem_map]
  constructor
  · rintro h ⟨e, he, rfl⟩
    exact h e he (by simp)
  · intro h e he
    simpa using fun x => h ⟨e, he, x⟩

/-- A list of stamped entries in the order of the stamps. -/
structure Ordered (l : List (Int × V × Nat)) (clock : Nat) : Prop where
  nodup : (l.map (·.1)).Nodup
  sorted : l.Pairwise (fun a b => a.2.2 < b.2.2)
  below : ∀ e ∈ l, e.2.2 < clock

theorem Ordered.mono {l : List (Int × V × Nat)} {c c' : Nat} (h : Ordered l c) (hc : c ≤ c') : Ordered l c' :=
  ⟨h.nodup, h.sorted, fun e he => Nat.lt_of_lt_of_le (h.below e he) hc⟩

theorem Ordered.without {l : List (Int × V × Nat)} {c : Nat} (h : Ordered l c) (k : Int) : Ordered (Spec.without l k) c :=
  ⟨h.nodup.sublist (List.Sublist.map _ List.filter_sublist), h.sorted.sublist List.filter_sublist, fun e he => h.below e (List.mem_filter.1 he).1⟩

theorem Ordered.snoc {l : List (Int × V × Nat)} {c : Nat} (h : Ordered l c) {k : Int} (hk : Spec.lookup l k = none) (v : V) : Ordered (l ++ [(k, v, c)]) (c + 1) := by
  refine ⟨?_, ?_, ?_⟩
  · rw [List.map_append, List.nodup_append]
    refine ⟨h.nodup, by simp, ?_⟩
    intro a ha b hb e
    simp only [List.map_cons, List.map_nil, List.mem_singleton] at hb
    exact lookup_none.1 hk (by rw [← hb, ← e]; exact ha)
  · rw [List.pairwise_append]
    refine ⟨h.sorted, by simp, ?_⟩
    intro a ha b hb
    rw [List.mem_singleton] at hb; subst hb
    exact h.below a ha
  · intro e he
    rcases List.mem_append.1 he with he | he
    · have := h.below e he; omega
    · rw [List.mem_singleton] at he; subst he; simp

theorem Ordered.touch {l : List (Int × V × Nat)} {c : Nat} (h : Ordered l c) (k : Int) (v : V) : Ordered (Spec.without l k ++ [(k, v, c)]) (c + 1) :=
  (h.without k).snoc (by rw [lookup_without]; simp) v

theorem bare_nodup {l : List (Int × V × Nat)} {c : Nat} (h : Ordered l c) : ((bare l).map (·.1)).Nodup := by
  have : (bare l).map (·.1) = l.map (·.1) := by simp [bare]
  rw [this]; exact h.nodup

/-- The stamped state that a list stands for. -/
structure Stands (l : List (Int × V × Nat)) (s : Stamped V) : Prop where
  ord : Ordered l s.clock
  cur : ∀ id, s.cur id = Spec.lookup l id

theorem Stands.oldest {e : Int × V × Nat} {l : List (Int × V × Nat)} {s : Stamped V} (h : Stands (e :: l) s) : s.Oldest e.1 e.2.1 := by
  refine ⟨e.2.2, by rw [h.cur]; simp [Spec.lookup], ?_⟩
  intro id v t ht
  rw [h.cur, lookup_mem h.ord.nodup] at ht
  rcases List.mem_cons.1 ht with x | x
  · rw [← x]; exact Nat.le_refl _
  · exact Nat.le_of_lt ((List.pairwise_cons.1 h.ord.sorted).1 _ x)

theorem Stands.size {l : List (Int × V × Nat)} {s : Stamped V} (h : Stands l s) : s.Size l.length := by
  refine ⟨l.map (·.1), h.ord.nodup, fun id => ?_, by simp⟩
  rw [h.cur id, ne_eq, lookup_none]
  exact ⟨fun a b => b a, fun a => Classical.byContradiction a⟩

theorem bare_mem {l : List (Int × V × Nat)} {id : Int} {v : V} : (id, v) ∈ bare l ↔ ∃ t, (id, v, t) ∈ l := by
  simp only [bare, List.mem_map]
  constructor
  · rintro ⟨⟨i, w, t⟩, h, e⟩
    simp only [Prod.mk.injEq] at e
    obtain ⟨rfl, rfl⟩ := e
    exact ⟨t, h⟩
  · rintro ⟨t, h⟩; exact ⟨_, h, rfl⟩

theorem Stands.inOrder {l : List (Int × V × Nat)} {s : Stamped V} (h : Stands l s) : s.InOrder (bare l) := by
  constructor
  · intro id v
    rw [bare_mem]
    constructor
    · rintro ⟨t, ht⟩; exact ⟨t, by rw [h.cur, lookup_mem h.ord.nodup]; exact ht⟩
    · rintro ⟨t, ht⟩; rw [h.cur, lookup_mem h.ord.nodup] at ht; exact ⟨t, ht⟩
  · unfold bare
    rw [List.pairwise_map]
    refine h.ord.sorted.imp_of_mem (fun {a b} ha hb hab => ?_)
    intro v t v' t' h1 h2
    rw [h.cur, lookup_mem h.ord.nodup] at h1 h2
    have e1 : a.2 = (v, t) := by
      have x1 : Spec.lookup l a.1 = some a.2 := (lookup_mem h.ord.nodup).2 ha
      have x2 : Spec.lookup l a.1 = some (v, t) := (lookup_mem h.ord.nodup).2 h1
      rw [x1] at x2; injection x2
    have e2 : b.2 = (v', t') := by
      have x1 : Spec.lookup l b.1 = some b.2 := (lookup_mem h.ord.nodup).2 hb
      have x2 : Spec.lookup l b.1 = some (v', t') := (lookup_mem h.ord.nodup).2 h2
      rw [x1] at x2; injection x2
    rw [e1, e2] at hab; exact hab

theorem Stands.add {l : List (Int × V × Nat)} {s : Stamped V} (h : Stands l s) {id : Int} (v : V) (hk : s.cur id = none) : Stands (l ++ [(id, v, s.clock)]) (s.touch id v) := by
  rw [h.cur] at hk
  refine ⟨h.ord.snoc hk v, fun j => ?_⟩
  rw [lookup_snoc]
  simp only [Stamped.touch, h.cur]
  by_cases hj : j = id
  · subst hj; simp [hk]
  · simp [hj]

theorem Stands.use {l : List (Int × V × Nat)} {s : Stamped V} (h : Stands l s) (id : Int) (v : V) : Stands (Spec.without l id ++ [(id, v, s.clock)]) (s.touch id v) := by
  refine ⟨h.ord.touch id v, fun j => ?_⟩
  rw [lookup_snoc, lookup_without]
  simp only [Stamped.touch, h.cur]
  by_cases hj : j = id
  · subst hj; simp
  · simp [hj]

theorem Stands.drop {l : List (Int × V × Nat)} {s : Stamped V} (h : Stands l s) (id : Int) : Stands (Spec.without l id) (s.drop id) := by
  refine ⟨h.ord.without id, fun j => ?_⟩
  rw [lookup_without]
  simp only [Stamped.drop, h.cur]

theorem bare_snoc (l : List (Int × V × Nat)) (k : Int) (v : V) (t : Nat) : bare (l ++ [(k, v, t)]) = bare l ++ [(k, v)] := by simp [bare]

theorem bare_length (l : List (Int × V × Nat)) : (bare l).length = l.length := by simp [bare]

/-- The invariant of the proof. -/
def Lru.Ok (hash : Int → Nat) (c : Lru V) (s : Stamped V) : Prop := ∃ l, Stands l s ∧ Holds hash c.map (bare l)

theorem Lru.store_ok (hash : Int → Nat) {m : Map Int V} {l : List (Int × V × Nat)} {s : Stamped V} (hs : Stands l s) (hm : Holds hash m (bare l)) (id : Int) (v : V) :
    ∃ out m' l', set hash m id v false .last = some (out, m') ∧ Holds hash m' (bare l') ∧
      (match s.cur id with | some (v0, _) => out = v0 ∧ Stands l' s | none => out = v ∧ Stands l' (s.touch id v)) := by
  obtain ⟨out, m', e, g1, g2⟩ := hm.set hash id v false .last
  have hl : Spec.lookup (bare l) id = (s.cur id).map (·.1) := by rw [bare_lookup, hs.cur]
  cases hc : s.cur id with
  | none =>
    rw [hc] at hl
    have e1 : Spec.store (bare l) id v false .last = bare l ++ [(id, v)] := by simp [Spec.store, hl, Spec.enter]
    rw [e1] at g1 g2
    refine ⟨out, m', l ++ [(id, v, s.clock)], e, by rw [bare_snoc]; exact g2, ?_, hs.add v hc⟩
    rw [lookup_snoc, hl] at g1
    simpa using g1.symm
  | some x =>
    obtain ⟨v0, t⟩ := x
    rw [hc] at hl
    have e1 : Spec.store (bare l) id v false .last = bare l := by simp [Spec.store, hl]
    rw [e1] at g1 g2
    refine ⟨out, m', l, e, g2, ?_, hs⟩
    rw [hl] at g1; simpa using g1.symm

theorem Lru.get_ok (hash : Int → Nat) {m : Map Int V} {l : List (Int × V × Nat)} {s : Stamped V} (hs : Stands l s) (hm : Holds hash m (bare l)) (id : Int) :
    ∃ m' l', Linked.get hash m id .last = some ((s.cur id).map (·.1), m') ∧ Holds hash m' (bare l') ∧
      (match s.cur id with | some (v, _) => Stands l' (s.touch id v) | none => Stands l' s) := by
  obtain ⟨m', e, g⟩ := hm.get hash id .last
  have hl : Spec.lookup (bare l) id = (s.cur id).map (·.1) := by rw [bare_lookup, hs.cur]
  rw [hl] at e
  cases hc : s.cur id with
  | none =>
    rw [hc] at hl
    rw [hl] at g
    exact ⟨m', l, by rw [e, hc], g, hs⟩
  | some x =>
    obtain ⟨v, t⟩ := x
    rw [hc] at hl
    rw [hl] at g
    refine ⟨m', Spec.without l id ++ [(id, v, s.clock)], by rw [e, hc], ?_, hs.use id v⟩
    rw [bare_snoc, ← bare_without]; exact g

theorem Lru.evict_ok (hash : Int → Nat) {m : Map Int V} {l : List (Int × V × Nat)} {s : Stamped V} (hs : Stands l s) (hm : Holds hash m (bare l)) (hne : m.num ≠ 0) :
    ∃ e m' b l', front m = some e ∧ Linked.remove hash m e.1 = some (b, m') ∧ Holds hash m' (bare l') ∧ s.Oldest e.1 e.2 ∧ Stands l' (s.drop e.1) := by
  cases l with
  | nil => exact absurd (hm.num hash) (by simpa [bare] using hne)
  | cons e l =>
    have hf := hm.front hash
    obtain ⟨m', e1, g⟩ := hm.remove hash e.1
    refine ⟨(e.1, e.2.1), m', _, Spec.without (e :: l) e.1, by rw [hf]; rfl, e1, ?_, hs.oldest, hs.drop e.1⟩
    rw [← bare_without]; exact g

theorem Lru.call_ok (hash : Int → Nat) {c : Lru V} {s : Stamped V} (h : c.Ok hash s) (x : LruCall V) :
    ∃ r c' s', c.call hash x = some (r, c') ∧ s.Allows c.capacity x r s' ∧ c'.Ok hash s' ∧ c'.capacity = c.capacity := by
  obtain ⟨l, hs, hm⟩ := h
  have hn : c.map.num = l.length := by rw [hm.num hash, bare_length]
  cases x with
  | add id v =>
    obtain ⟨out, m', l', e, g1, g2⟩ := store_ok hash hs hm id v
    cases hc : s.cur id with
    | none =>
      rw [hc] at g2
      exact ⟨_, { c with map := m' }, s.touch id v, by simp only [call, add, e]; rfl, by simp [Stamped.Allows, hc, g2.1], ⟨l', g2.2, g1⟩, rfl⟩
    | some y =>
      rw [hc] at g2
      exact ⟨_, { c with map := m' }, s, by simp only [call, add, e]; rfl, by simp [Stamped.Allows, hc, g2.1], ⟨l', g2.2, g1⟩, rfl⟩
  | giveBack id v =>
    obtain ⟨out, m', l', e, g1, g2⟩ := store_ok hash hs hm id v
    cases hc : s.cur id with
    | none =>
      rw [hc] at g2
      exact ⟨_, { c with map := m' }, s.touch id v, by simp only [call, giveBack, e]; rfl, by simp [Stamped.Allows, hc], ⟨l', g2.2, g1⟩, rfl⟩
    | some y =>
      rw [hc] at g2
      exact ⟨_, { c with map := m' }, s, by simp only [call, giveBack, e]; rfl, by simp [Stamped.Allows, hc], ⟨l', g2.2, g1⟩, rfl⟩
  | get id =>
    obtain ⟨m', l', e, g1, g2⟩ := get_ok hash hs hm id
    cases hc : s.cur id with
    | none =>
      rw [hc] at g2 e
      exact ⟨_, { c with map := m' }, s, by simp only [call, get, e]; rfl, by simp [Stamped.Allows, hc], ⟨l', g2, g1⟩, rfl⟩
    | some y =>
      obtain ⟨v, t⟩ := y
      rw [hc] at g2 e
      exact ⟨_, { c with map := m' }, s.touch id v, by simp only [call, get, e]; rfl, by simp [Stamped.Allows, hc], ⟨l', g2, g1⟩, rfl⟩
  | remove id =>
    obtain ⟨m', e, g⟩ := hm.remove hash id
    refine ⟨_, { c with map := m' }, s.drop id, by simp only [call, remove, e]; rfl, by simp [Stamped.Allows], ⟨_, hs.drop id, ?_⟩, rfl⟩
    rw [← bare_without]; exact g
  | removeLRU =>
    by_cases hz : c.map.num = 0
    · refine ⟨.entry none, c, s, by simp [call, removeLRU, hz], Or.inr ⟨fun id => ?_, rfl, rfl⟩, ⟨l, hs, hm⟩, rfl⟩
      have : l = [] := List.length_eq_zero_iff.1 (by omega)
      rw [hs.cur, this]; rfl
    · obtain ⟨e, m', b, l', h1, h2, h3, h4, h5⟩ := evict_ok hash hs hm hz
      exact ⟨.entry (some e), { c with map := m' }, s.drop e.1, by simp [call, removeLRU, hz, h1, h2], Or.inl ⟨e.1, e.2, h4, rfl, rfl⟩, ⟨l', h5, h3⟩, rfl⟩
  | size => exact ⟨_, c, s, rfl, ⟨⟨l.length, hs.size, by simp [size, hn]⟩, rfl⟩, ⟨l, hs, hm⟩, rfl⟩
  | isEmpty => exact ⟨_, c, s, rfl, ⟨⟨l.length, hs.size, by rw [isEmpty, hn]; by_cases x : l.length = 0 <;> simp [x]⟩, rfl⟩, ⟨l, hs, hm⟩, rfl⟩
  | isSaturated => exact ⟨_, c, s, rfl, ⟨⟨l.length, hs.size, by rw [isSaturated, hn]⟩, rfl⟩, ⟨l, hs, hm⟩, rfl⟩
  | clear =>
    obtain ⟨m', e, g⟩ := hm.clear hash
    exact ⟨_, { c with map := m' }, ⟨fun _ => none, 0⟩, by simp only [call, clear, e]; rfl, ⟨rfl, rfl⟩, ⟨[], ⟨⟨by simp, by simp, by simp⟩, fun _ => rfl⟩, g⟩, rfl⟩
  | items => exact ⟨_, c, s, by simp only [call, items, hm.items hash]; rfl, ⟨⟨bare l, hs.inOrder, rfl⟩, rfl⟩, ⟨l, hs, hm⟩, rfl⟩

theorem Lru.calls_ok (hash : Int → Nat) : ∀ (xs : List (LruCall V)) {c : Lru V} {s : Stamped V}, c.Ok hash s →
    ∃ rs, c.calls hash xs = some rs ∧ Stamped.AllowsAll c.capacity s xs rs
  | [], _, _, _ => ⟨[], rfl, rfl⟩
  | x :: xs, c, s, h => by
    obtain ⟨r, c', s', e, g1, g2, g3⟩ := call_ok hash h x
    obtain ⟨rs, e2, g4⟩ := calls_ok hash xs g2
    exact ⟨r :: rs, by simp [calls, e, e2], r, rs, s', rfl, g1, by rw [← g3]; exact g4⟩

/-- C42: for every hash function, capacity and history of calls, no call on an `LRUCache` has undefined behaviour, and the results are those of
the stamped specification: `Get` returns the value added, `RemoveLRU` removes the entry used the longest ago, the iterator goes from
that entry to the one used last. -/
theorem C42_lru_cache (hash : Int → Nat) (capacity : Nat) (xs : List (LruCall V)) :
    ∃ rs, (Lru.new capacity : Lru V).calls hash xs = some rs ∧ Stamped.AllowsAll capacity Stamped.empty xs rs :=
  Lru.calls_ok hash xs ⟨[], ⟨⟨by simp, by simp, by simp⟩, fun _ => rfl⟩, Holds.new hash 0⟩

/-- The result of a history in which a use changes the entry to remove: the specification allows one result only. -/
example (rs : List (LruRet Nat)) (h : Stamped.AllowsAll 1 Stamped.empty [.add 1 10, .add 2 20, .get 1, .removeLRU] rs) :
    rs = [.value (some 10), .value (some 20), .value (some 10), .entry (some (2, 20))] := by
  obtain ⟨r1, rs1, s1, rfl, h1, r2, rs2, s2, rfl, h2, r3, rs3, s3, rfl, h3, r4, rs4, s4, rfl, h4, h5⟩ := h
  simp only [Stamped.Allows, Stamped.empty] at h1
  obtain ⟨rfl, rfl⟩ := h1
  simp [Stamped.Allows, Stamped.touch] at h2
  obtain ⟨rfl, rfl⟩ := h2
  simp [Stamped.Allows, Stamped.touch] at h3
  obtain ⟨rfl, rfl⟩ := h3
  have hrs : rs4 = [] := h5
  subst hrs
  rcases h4 with ⟨id, v, ⟨t, ht, hmin⟩, rfl, _⟩ | ⟨hnone, _⟩
  · have := hmin 2 20 1 (by simp [Stamped.touch])
    simp only [Stamped.touch] at ht
    by_cases i1 : id = 1
    · subst i1; simp at ht; omega
    · by_cases i2 : id = 2
      · subst i2; simp at ht; simp [ht.1]
      · simp [i1, i2] at ht
  · have := hnone 1; simp [Stamped.touch] at this

/-! ### The double cache -/

/-- SPECIFICATION of `DoubleLRUCache`: hot entries and warm entries with stamps of one clock. An identifier is in one part only. -/
structure Tiers (V : Type) where
  hot : Int → Option (V × Nat)
  warm : Int → Option (V × Nat)
  clock : Nat

namespace Tiers
def hots (s : Tiers V) : Stamped V := ⟨s.hot, s.clock⟩
def warms (s : Tiers V) : Stamped V := ⟨s.warm, s.clock⟩

/-- An entry becomes the latest of the hot part, of the warm part, or of none. -/
def toHot (s : Tiers V) (id : Int) (v : V) : Tiers V :=
  ⟨fun j => if j = id then some (v, s.clock) else s.hot j, fun j => if j = id then none else s.warm j, s.clock + 1⟩
def toWarm (s : Tiers V) (id : Int) (v : V) : Tiers V :=
  ⟨fun j => if j = id then none else s.hot j, fun j => if j = id then some (v, s.clock) else s.warm j, s.clock + 1⟩
def drop (s : Tiers V) (id : Int) : Tiers V := ⟨fun j => if j = id then none else s.hot j, fun j => if j = id then none else s.warm j, s.clock⟩

/-- The value of an identifier. -/
def value (s : Tiers V) (id : Int) : Option V := ((s.hot id).or (s.warm id)).map (·.1)

/-- Before an entry comes in, the oldest hot entry becomes warm if the hot part is full. -/
def Demotes (hotCapacity : Nat) (s s' : Tiers V) : Prop :=
  ∃ n, s.hots.Size n ∧ if hotCapacity ≤ n then ∃ id v, s.hots.Oldest id v ∧ s' = s.toWarm id v else s' = s

end Tiers

/-- Calls. -/
inductive DCall (V : Type) where
  | add (id : Int) (v : V) | giveBack (id : Int) (v : V) | get (id : Int) (promotion : Bool) | remove (id : Int) | removeLRU
  | size | isEmpty | isSaturated | clear | items

/-- What a call of `DoubleLRUCache` may return and do. -/
def Tiers.Allows (hotCapacity warmCapacity : Nat) (s : Tiers V) (c : DCall V) (r : LruRet V) (s' : Tiers V) : Prop :=
  match c with
  | .add id v =>
    match s.value id with
    | some v0 => r = .value (some v0) ∧ s' = s
    | none => r = .value (some v) ∧ s' = s.toWarm id v
  | .giveBack id v =>
    match s.value id with
    | some _ => r = .unit ∧ s' = s
    | none => r = .unit ∧ s' = s.toWarm id v
  | .get id promotion =>
    r = .value (s.value id) ∧
    match s.hot id with
    | some (v, _) => s' = s.toHot id v
    | none =>
      if promotion then
        ∃ s1, s.Demotes hotCapacity s1 ∧ match s.warm id with
          | some (v, _) => s' = s1.toHot id v
          | none => s' = s1
      else match s.warm id with
        | some (v, _) => s' = s.toWarm id v
        | none => s' = s
  | .remove id => r = .unit ∧ s' = s.drop id
  | .removeLRU =>
    (∃ id v, s.warms.Oldest id v ∧ r = .entry (some (id, v)) ∧ s' = s.drop id) ∨
    ((∀ id, s.warm id = none) ∧ ∃ id v, s.hots.Oldest id v ∧ r = .entry (some (id, v)) ∧ s' = s.drop id) ∨
    ((∀ id, s.value id = none) ∧ r = .entry none ∧ s' = s)
  | .size => (∃ n m, s.hots.Size n ∧ s.warms.Size m ∧ r = .number (n + m)) ∧ s' = s
  | .isEmpty => (∃ n m, s.hots.Size n ∧ s.warms.Size m ∧ r = .flag (decide (n + m = 0))) ∧ s' = s
  | .isSaturated => (∃ n, s.warms.Size n ∧ r = .flag (decide (warmCapacity < n))) ∧ s' = s
  | .clear => r = .unit ∧ s'.hot = (fun _ => none) ∧ s'.warm = fun _ => none
  | .items => (∃ a b, s.hots.InOrder a ∧ s.warms.InOrder b ∧ r = .entries (a ++ b)) ∧ s' = s

/-- An entry is given back only when its identifier is not in the hot part, as the code that uses the cache does. -/
def Tiers.Proper (s : Tiers V) : DCall V → Prop
  | .giveBack id _ => s.hot id = none
  | _ => True

/-- A sequence of proper calls. -/
def Tiers.AllowsAll (hc wc : Nat) : Tiers V → List (DCall V) → List (LruRet V) → Prop
  | _, [], rs => rs = []
  | s, c :: cs, rs => s.Proper c → ∃ r rs' s', rs = r :: rs' ∧ s.Allows hc wc c r s' ∧ Tiers.AllowsAll hc wc s' cs rs'

/-- No entries. -/
def Tiers.empty : Tiers V := ⟨fun _ => none, fun _ => none, 0⟩

/-- A call. -/
def DLru.call (hash : Int → Nat) (c : DLru V) : DCall V → Option (LruRet V × DLru V)
  | .add id v => (c.add hash id v).map (fun r => (.value (some r.1), r.2))
  | .giveBack id v => (c.giveBack hash id v).map (fun r => (.unit, r))
  | .get id p => (c.get hash id p).map (fun r => (.value r.1, r.2))
  | .remove id => (c.remove hash id).map (fun r => (.unit, r))
  | .removeLRU => (c.removeLRU hash).map (fun r => (.entry r.1, r.2))
  | .size => some (.number c.size, c)
  | .isEmpty => some (.flag c.isEmpty, c)
  | .isSaturated => some (.flag c.isSaturated, c)
  | .clear => c.clear.map (fun r => (.unit, r))
  | .items => c.items.map (fun r => (.entries r, c))

/-- A sequence of calls. -/
def DLru.calls (hash : Int → Nat) (c : DLru V) : List (DCall V) → Option (List (LruRet V))
  | [] => some []
  | x :: xs => (c.call hash x).bind (fun r => (DLru.calls hash r.2 xs).map (r.1 :: ·))

theorem Stands.without_self {l : List (Int × V × Nat)} {s : Stamped V} (h : Stands l s) {id : Int} (hn : s.cur id = none) : Spec.without l id = l := by
  rw [h.cur, lookup_none] at hn
  unfold Spec.without
  rw [List.filter_eq_self]
  intro e he
  have : e.1 ≠ id := fun x => hn (List.mem_map.2 ⟨e, he, x⟩)
  simpa using this

/-- Taking an entry out while the clock goes on. -/
theorem Stands.later {l : List (Int × V × Nat)} {s : Stamped V} (h : Stands l s) (id : Int) {c : Nat} (hc : s.clock ≤ c) :
    Stands (Spec.without l id) ⟨fun j => if j = id then none else s.cur j, c⟩ :=
  ⟨(h.drop id).ord.mono hc, (h.drop id).cur⟩

theorem Lru.migrate_some (hash : Int → Nat) {m d : Map Int V} {l r : List (Int × V × Nat)} {s t : Stamped V} (hs : Stands l s) (hm : Holds hash m (bare l))
    (ht : Stands r t) (hd : Holds hash d (bare r)) {id : Int} {x : V × Nat} (h1 : s.cur id = some x) (h2 : t.cur id = none) :
    ∃ m' d', migrate hash m d id .last = some (some x.1, m', d') ∧ Holds hash m' (bare (Spec.without l id)) ∧ Holds hash d' (bare (r ++ [(id, x.1, t.clock)])) := by
  obtain ⟨m', d', e, g1, g2⟩ := hm.migrate hash hd id .last
  have e1 : Spec.lookup (bare l) id = some x.1 := by rw [bare_lookup, ← hs.cur, h1]; rfl
  have e2 : Spec.lookup (bare r) id = none := by rw [bare_lookup, ← ht.cur, h2]; rfl
  rw [e1] at e g2
  refine ⟨m', d', e, by rw [← bare_without]; exact g1, ?_⟩
  have : Spec.store (bare r) id x.1 true .last = bare r ++ [(id, x.1)] := by simp [Spec.store, e2, Spec.enter]
  rw [bare_snoc, ← this]; exact g2

theorem Lru.migrate_none (hash : Int → Nat) {m d : Map Int V} {l r : List (Int × V × Nat)} {s : Stamped V} (hs : Stands l s) (hm : Holds hash m (bare l))
    (hd : Holds hash d (bare r)) {id : Int} (h1 : s.cur id = none) :
    ∃ m' d', migrate hash m d id .last = some (none, m', d') ∧ Holds hash m' (bare l) ∧ Holds hash d' (bare r) := by
  obtain ⟨m', d', e, g1, g2⟩ := hm.migrate hash hd id .last
  have e1 : Spec.lookup (bare l) id = none := by rw [bare_lookup, ← hs.cur, h1]; rfl
  rw [e1] at e g2
  refine ⟨m', d', e, ?_, g2⟩
  rw [bare_without, hs.without_self h1] at g1; exact g1

/-- The invariant of the proof. -/
structure DLru.Ok (hash : Int → Nat) (c : DLru V) (s : Tiers V) (H W : List (Int × V × Nat)) : Prop where
  hs : Stands H s.hots
  ws : Stands W s.warms
  hm : Holds hash c.hot (bare H)
  wm : Holds hash c.warm (bare W)
  one : ∀ id, s.hot id = none ∨ s.warm id = none

theorem DLru.demote_ok (hash : Int → Nat) {c : DLru V} {s : Tiers V} {H W : List (Int × V × Nat)} (h : c.Ok hash s H W) (hc : 1 ≤ c.hotCapacity) (id : Int) (hid : s.hot id = none) :
    ∃ c' s' H' W', c.demote hash = some c' ∧ s.Demotes c.hotCapacity s' ∧ c'.Ok hash s' H' W' ∧ c'.hotCapacity = c.hotCapacity ∧ c'.warmCapacity = c.warmCapacity ∧
      s'.hot id = none ∧ (s'.warm id).map (·.1) = (s.warm id).map (·.1) := by
  have hn : c.hot.num = H.length := by rw [h.hm.num hash, bare_length]
  unfold demote
  by_cases hf : c.hotCapacity ≤ c.hot.num
  · rw [if_pos hf]
    have hne : H ≠ [] := by rintro rfl; simp at hn; omega
    obtain ⟨e, H0, rfl⟩ := List.exists_cons_of_ne_nil hne
    have hfr : front c.hot = some (e.1, e.2.1) := by rw [h.hm.front hash]; rfl
    have hcur : s.hots.cur e.1 = some e.2 := by rw [h.hs.cur]; simp [Spec.lookup]
    have hw : s.warms.cur e.1 = none := (h.one e.1).resolve_left (by intro x; rw [show s.hots.cur e.1 = s.hot e.1 from rfl, x] at hcur; cases hcur)
    obtain ⟨m', d', g1, g2, g3⟩ := Lru.migrate_some hash h.hs h.hm h.ws h.wm hcur hw
    have hne : id ≠ e.1 := by rintro rfl; rw [show s.hots.cur e.1 = s.hot e.1 from rfl, hid] at hcur; cases hcur
    refine ⟨{ c with hot := m', warm := d' }, s.toWarm e.1 e.2.1, Spec.without (e :: H0) e.1, W ++ [(e.1, e.2.1, s.clock)], by simp [hfr, g1],
      ⟨_, h.hs.size, ?_⟩, ⟨h.hs.later e.1 (Nat.le_succ _), ?_, g2, g3, ?_⟩, rfl, rfl, by simp [Tiers.toWarm, hne, hid], by simp [Tiers.toWarm, hne]⟩
    · rw [if_pos (by omega)]; exact ⟨e.1, e.2.1, h.hs.oldest, rfl⟩
    · exact h.ws.add e.2.1 hw
    · intro j
      simp only [Tiers.toWarm]
      by_cases hj : j = e.1
      · simp [hj]
      · simp only [hj, if_false]; exact h.one j
  · rw [if_neg hf]
    exact ⟨c, s, H, W, rfl, ⟨_, h.hs.size, by rw [if_neg (by omega)]⟩, h, rfl, rfl, hid, rfl⟩

theorem DLru.call_ok (hash : Int → Nat) {c : DLru V} {s : Tiers V} {H W : List (Int × V × Nat)} (h : c.Ok hash s H W) (hc : 1 ≤ c.hotCapacity) (x : DCall V) (hx : s.Proper x) :
    ∃ r c' s' H' W', c.call hash x = some (r, c') ∧ s.Allows c.hotCapacity c.warmCapacity x r s' ∧ c'.Ok hash s' H' W' ∧ c'.hotCapacity = c.hotCapacity ∧ c'.warmCapacity = c.warmCapacity := by
  have hn : c.hot.num = H.length := by rw [h.hm.num hash, bare_length]
  have wn : c.warm.num = W.length := by rw [h.wm.num hash, bare_length]
  have fresh : ∀ id v, s.hot id = none → (s.toWarm id v).hot = s.hot := by
    intro id v hi
    funext j
    simp only [Tiers.toWarm]
    by_cases hj : j = id
    · simp [hj, hi]
    · simp [hj]
  have keepHot : ∀ id v, s.hot id = none → Stands H (s.toWarm id v).hots := by
    intro id v hi
    have := h.hs.later id (Nat.le_succ s.clock)
    rwa [h.hs.without_self hi] at this
  have oneWarm : ∀ id v j, (s.toWarm id v).hot j = none ∨ (s.toWarm id v).warm j = none := by
    intro id v j
    simp only [Tiers.toWarm]
    by_cases hj : j = id
    · simp [hj]
    · simp only [hj, if_false]; exact h.one j
  have oneDrop : ∀ id j, (s.drop id).hot j = none ∨ (s.drop id).warm j = none := by
    intro id j
    simp only [Tiers.drop]
    by_cases hj : j = id
    · simp [hj]
    · simp only [hj, if_false]; exact h.one j
  cases x with
  | add id v =>
    obtain ⟨m1, e1, g1⟩ := h.hm.get hash id .current
    have hl : Spec.lookup (bare H) id = (s.hot id).map (·.1) := by rw [bare_lookup, ← h.hs.cur]; rfl
    cases hh : s.hot id with
    | some y =>
      rw [hh] at hl
      rw [hl] at e1 g1
      have hv : s.value id = some y.1 := by simp [Tiers.value, hh]
      refine ⟨_, { c with hot := m1 }, s, H, W, by simp only [call, add, e1]; rfl, by simp [Tiers.Allows, hv], ⟨h.hs, h.ws, ?_, h.wm, h.one⟩, rfl, rfl⟩
      have : Spec.place (bare H) id y.1 .current = bare H := by
        simp only [Spec.place]
        have hm : ∀ e ∈ bare H, (if e.1 = id then (id, y.1) else e) = e := by
          intro e he
          by_cases hk : e.1 = id
          · rw [if_pos hk]
            have := (lookup_mem (bare_nodup h.hs.ord)).2 he
            rw [hk] at this
            have hz : Spec.lookup (bare H) id = some y.1 := hl
            rw [hz] at this
            injection this with this
            rw [this, ← hk]
          · rw [if_neg hk]
        rw [List.map_congr_left hm, List.map_id'']
        intro; rfl
      simp only [Option.map_some] at g1
      rw [this] at g1
      exact g1
    | none =>
      rw [hh] at hl
      rw [hl] at e1 g1
      obtain ⟨out, m', l', e, k1, k2⟩ := Lru.store_ok hash h.ws h.wm id v
      cases hw : s.warm id with
      | none =>
        have hv : s.value id = none := by simp [Tiers.value, hh, hw]
        rw [show s.warms.cur id = none from hw] at k2
        exact ⟨_, { c with hot := m1, warm := m' }, s.toWarm id v, H, l', by simp only [call, add, e1, e, Option.map_none, Option.bind_eq_bind, Option.bind_some]; rfl,
          by simp only [Tiers.Allows, hv, k2.1]; exact ⟨trivial, trivial⟩, ⟨keepHot id v hh, k2.2, g1, k1, oneWarm id v⟩, rfl, rfl⟩
      | some y =>
        have hv : s.value id = some y.1 := by simp [Tiers.value, hh, hw]
        rw [show s.warms.cur id = some y from hw] at k2
        exact ⟨_, { c with hot := m1, warm := m' }, s, H, l', by simp only [call, add, e1, e, Option.map_none, Option.bind_eq_bind, Option.bind_some]; rfl,
          by simp only [Tiers.Allows, hv, k2.1]; exact ⟨trivial, trivial⟩, ⟨h.hs, k2.2, g1, k1, h.one⟩, rfl, rfl⟩
  | giveBack id v =>
    have hh : s.hot id = none := hx
    obtain ⟨out, m', l', e, k1, k2⟩ := Lru.store_ok hash h.ws h.wm id v
    cases hw : s.warm id with
    | none =>
      have hv : s.value id = none := by simp [Tiers.value, hh, hw]
      rw [show s.warms.cur id = none from hw] at k2
      exact ⟨_, { c with warm := m' }, s.toWarm id v, H, l', by simp only [call, giveBack, e]; rfl, by simp only [Tiers.Allows, hv]; exact ⟨trivial, trivial⟩,
        ⟨keepHot id v hh, k2.2, h.hm, k1, oneWarm id v⟩, rfl, rfl⟩
    | some y =>
      have hv : s.value id = some y.1 := by simp [Tiers.value, hh, hw]
      rw [show s.warms.cur id = some y from hw] at k2
      exact ⟨_, { c with warm := m' }, s, H, l', by simp only [call, giveBack, e]; rfl, by simp only [Tiers.Allows, hv]; exact ⟨trivial, trivial⟩,
        ⟨h.hs, k2.2, h.hm, k1, h.one⟩, rfl, rfl⟩
  | get id promotion =>
    obtain ⟨m1, l1, e1, g1, g2⟩ := Lru.get_ok hash h.hs h.hm id
    cases hh : s.hot id with
    | some y =>
      obtain ⟨v, t⟩ := y
      rw [show s.hots.cur id = some (v, t) from hh] at e1 g2
      have hw : s.warm id = none := (h.one id).resolve_left (by rw [hh]; simp)
      refine ⟨.value (some v), { c with hot := m1 }, s.toHot id v, l1, W, by simp only [call, get, e1]; rfl, ?_, ⟨g2, ?_, g1, h.wm, ?_⟩, rfl, rfl⟩
      · simp [Tiers.Allows, Tiers.value, hh]
      · have := h.ws.later id (Nat.le_succ s.clock)
        rwa [h.ws.without_self hw] at this
      · intro j
        simp only [Tiers.toHot]
        by_cases hj : j = id
        · simp [hj]
        · simp only [hj, if_false]; exact h.one j
    | none =>
      rw [show s.hots.cur id = none from hh] at e1 g2
      have hk1 : ({ c with hot := m1 } : DLru V).Ok hash s l1 W := ⟨g2, h.ws, g1, h.wm, h.one⟩
      cases promotion with
      | true =>
        obtain ⟨c2, s2, H2, W2, e2, k1, k2, k3, k4, k5, k6⟩ := demote_ok hash hk1 hc id hh
        cases hw : s.warm id with
        | some y =>
          obtain ⟨z, hz, hzy⟩ : ∃ z, s2.warm id = some z ∧ z.1 = y.1 := by
            rw [hw] at k6
            cases q : s2.warm id with
            | none => rw [q] at k6; simp at k6
            | some z => rw [q] at k6; simp at k6; exact ⟨z, rfl, k6⟩
          obtain ⟨m', d', f1, f2, f3⟩ := Lru.migrate_some hash k2.ws k2.wm k2.hs k2.hm (id := id) hz k5
          refine ⟨.value (some y.1), { c2 with hot := d', warm := m' }, s2.toHot id z.1, H2 ++ [(id, z.1, s2.clock)], Spec.without W2 id, ?_, ?_, ⟨?_, ?_, f3, f2, ?_⟩, k3, k4⟩
          · simp only [call, get, e1, Option.map_none, Option.bind_eq_bind, Option.bind_some, if_true, e2, f1, Option.map_some, hzy]
          · simp only [Tiers.Allows, Tiers.value, hh, hw, if_true]
            exact ⟨rfl, s2, k1, by rw [hzy]⟩
          · exact k2.hs.add z.1 k5
          · exact k2.ws.later id (Nat.le_succ _)
          · intro j
            simp only [Tiers.toHot]
            by_cases hj : j = id
            · simp [hj]
            · simp only [hj, if_false]; exact k2.one j
        | none =>
          have hz : s2.warm id = none := by
            rw [hw] at k6
            cases q : s2.warm id with
            | none => rfl
            | some z => rw [q] at k6; simp at k6
          obtain ⟨m', d', f1, f2, f3⟩ := Lru.migrate_none hash k2.ws k2.wm k2.hm (id := id) hz
          refine ⟨.value none, { c2 with hot := d', warm := m' }, s2, H2, W2, ?_, ?_, ⟨k2.hs, k2.ws, f3, f2, k2.one⟩, k3, k4⟩
          · simp only [call, get, e1, Option.map_none, Option.bind_eq_bind, Option.bind_some, if_true, e2, f1, Option.map_some]
          · simp only [Tiers.Allows, Tiers.value, hh, hw, if_true]
            exact ⟨rfl, s2, k1, rfl⟩
      | false =>
        obtain ⟨m2, l2, e2, f1, f2⟩ := Lru.get_ok hash h.ws h.wm id
        cases hw : s.warm id with
        | some y =>
          obtain ⟨v, t⟩ := y
          rw [show s.warms.cur id = some (v, t) from hw] at e2 f2
          refine ⟨.value (some v), { c with hot := m1, warm := m2 }, s.toWarm id v, l1, l2, ?_, ?_, ⟨?_, f2, g1, f1, oneWarm id v⟩, rfl, rfl⟩
          · simp [call, get, e1, e2]
          · simp [Tiers.Allows, Tiers.value, hh, hw]
          · have := g2.later id (Nat.le_succ s.clock)
            rwa [g2.without_self hh] at this
        | none =>
          rw [show s.warms.cur id = none from hw] at e2 f2
          refine ⟨.value none, { c with hot := m1, warm := m2 }, s, l1, l2, ?_, ?_, ⟨g2, f2, g1, f1, h.one⟩, rfl, rfl⟩
          · simp [call, get, e1, e2]
          · simp [Tiers.Allows, Tiers.value, hh, hw]
  | remove id =>
    obtain ⟨m1, e1, g1⟩ := h.hm.remove hash id
    have hl : Spec.lookup (bare H) id = (s.hot id).map (·.1) := by rw [bare_lookup, ← h.hs.cur]; rfl
    rw [bare_without] at g1
    cases hh : s.hot id with
    | some y =>
      rw [hh] at hl
      rw [hl] at e1
      have hw : s.warm id = none := (h.one id).resolve_left (by rw [hh]; simp)
      refine ⟨.unit, { c with hot := m1 }, s.drop id, Spec.without H id, W, by simp [call, remove, e1], ⟨rfl, rfl⟩, ⟨h.hs.drop id, ?_, g1, h.wm, oneDrop id⟩, rfl, rfl⟩
      have := h.ws.drop id
      rwa [h.ws.without_self hw] at this
    | none =>
      rw [hh] at hl
      rw [hl] at e1
      obtain ⟨m2, e2, g2⟩ := h.wm.remove hash id
      rw [bare_without] at g2
      exact ⟨.unit, { c with hot := m1, warm := m2 }, s.drop id, Spec.without H id, Spec.without W id, by simp [call, remove, e1, e2], ⟨rfl, rfl⟩,
        ⟨h.hs.drop id, h.ws.drop id, g1, g2, oneDrop id⟩, rfl, rfl⟩
  | removeLRU =>
    by_cases hz : c.warm.num = 0
    · have hW : W = [] := List.length_eq_zero_iff.1 (by omega)
      have hwn : ∀ id, s.warm id = none := fun id => by
        rw [show s.warm id = s.warms.cur id from rfl, h.ws.cur, hW]; rfl
      by_cases hy : c.hot.num = 0
      · have hH : H = [] := List.length_eq_zero_iff.1 (by omega)
        refine ⟨.entry none, c, s, H, W, by simp [call, removeLRU, hz, hy], Or.inr (Or.inr ⟨fun id => ?_, rfl, rfl⟩), h, rfl, rfl⟩
        have : s.hot id = none := by rw [show s.hot id = s.hots.cur id from rfl, h.hs.cur, hH]; rfl
        simp [Tiers.value, this, hwn id]
      · obtain ⟨e, m', b, l', h1, h2, h3, h4, h5⟩ := Lru.evict_ok hash h.hs h.hm hy
        refine ⟨.entry (some e), { c with hot := m' }, s.drop e.1, l', W, by simp [call, removeLRU, hz, hy, h1, h2],
          Or.inr (Or.inl ⟨hwn, e.1, e.2, h4, rfl, rfl⟩), ⟨h5, ?_, h3, h.wm, oneDrop e.1⟩, rfl, rfl⟩
        have := h.ws.drop e.1
        rwa [h.ws.without_self (hwn e.1)] at this
    · obtain ⟨e, m', b, l', h1, h2, h3, h4, h5⟩ := Lru.evict_ok hash h.ws h.wm hz
      refine ⟨.entry (some e), { c with warm := m' }, s.drop e.1, H, l', by simp [call, removeLRU, hz, h1, h2],
        Or.inl ⟨e.1, e.2, h4, rfl, rfl⟩, ⟨?_, h5, h.hm, h3, oneDrop e.1⟩, rfl, rfl⟩
      have hh : s.hot e.1 = none := by
        obtain ⟨t, ht, _⟩ := h4
        exact (h.one e.1).resolve_right (by intro x; rw [show s.warms.cur e.1 = s.warm e.1 from rfl, x] at ht; cases ht)
      have := h.hs.drop e.1
      rwa [h.hs.without_self hh] at this
  | size => exact ⟨_, c, s, H, W, rfl, ⟨⟨_, _, h.hs.size, h.ws.size, by rw [size, hn, wn]⟩, rfl⟩, h, rfl, rfl⟩
  | isEmpty =>
    refine ⟨_, c, s, H, W, rfl, ⟨⟨_, _, h.hs.size, h.ws.size, ?_⟩, rfl⟩, h, rfl, rfl⟩
    rw [isEmpty, hn, wn]
    by_cases x1 : H.length = 0 <;> by_cases x2 : W.length = 0 <;> simp [x1, x2]
  | isSaturated => exact ⟨_, c, s, H, W, rfl, ⟨⟨_, h.ws.size, by rw [isSaturated, wn]⟩, rfl⟩, h, rfl, rfl⟩
  | clear =>
    obtain ⟨m1, e1, g1⟩ := h.hm.clear hash
    obtain ⟨m2, e2, g2⟩ := h.wm.clear hash
    have hst : Stands ([] : List (Int × V × Nat)) (⟨fun _ => none, 0⟩ : Stamped V) := ⟨⟨by simp, by simp, by simp⟩, fun _ => rfl⟩
    exact ⟨.unit, { c with hot := m1, warm := m2 }, ⟨fun _ => none, fun _ => none, 0⟩, [], [], by simp [call, clear, e1, e2], ⟨rfl, rfl, rfl⟩,
      ⟨hst, hst, g1, g2, fun _ => Or.inl rfl⟩, rfl, rfl⟩
  | items =>
    exact ⟨.entries (bare H ++ bare W), c, s, H, W, by simp [call, items, h.hm.items hash, h.wm.items hash], ⟨⟨_, _, h.hs.inOrder, h.ws.inOrder, rfl⟩, rfl⟩, h, rfl, rfl⟩

/-- Without the assumption on `GiveBack`, no call has undefined behaviour. -/
theorem DLru.call_safe (hash : Int → Nat) {c : DLru V} (h1 : ∃ l, Holds hash c.hot l) (h2 : ∃ l, Holds hash c.warm l) (hc : 1 ≤ c.hotCapacity) (x : DCall V) :
    ∃ r c', c.call hash x = some (r, c') ∧ (∃ l, Holds hash c'.hot l) ∧ (∃ l, Holds hash c'.warm l) ∧ c'.hotCapacity = c.hotCapacity := by
  obtain ⟨H, h1⟩ := h1
  obtain ⟨W, h2⟩ := h2
  cases x with
  | add id v =>
    obtain ⟨m1, e1, g1⟩ := h1.get hash id .current
    cases hl : Spec.lookup H id with
    | some y =>
      rw [hl] at e1
      exact ⟨_, { c with hot := m1 }, by simp only [call, add, e1]; rfl, ⟨_, g1⟩, ⟨_, h2⟩, rfl⟩
    | none =>
      rw [hl] at e1
      obtain ⟨out, m', e, k1, k2⟩ := h2.set hash id v false .last
      exact ⟨_, { c with hot := m1, warm := m' }, by simp only [call, add, e1, e, Option.bind_eq_bind, Option.bind_some]; rfl, ⟨_, g1⟩, ⟨_, k2⟩, rfl⟩
  | giveBack id v =>
    obtain ⟨out, m', e, k1, k2⟩ := h2.set hash id v false .last
    exact ⟨_, { c with warm := m' }, by simp only [call, giveBack, e]; rfl, ⟨_, h1⟩, ⟨_, k2⟩, rfl⟩
  | get id promotion =>
    obtain ⟨m1, e1, g1⟩ := h1.get hash id .last
    cases hl : Spec.lookup H id with
    | some y =>
      rw [hl] at e1
      exact ⟨_, { c with hot := m1 }, by simp only [call, get, e1]; rfl, ⟨_, g1⟩, ⟨_, h2⟩, rfl⟩
    | none =>
      rw [hl] at e1 g1
      cases promotion with
      | false =>
        obtain ⟨m2, e2, g2⟩ := h2.get hash id .last
        exact ⟨_, { c with hot := m1, warm := m2 }, by simp only [call, get, e1, e2, Option.bind_eq_bind, Option.bind_some]; rfl, ⟨_, g1⟩, ⟨_, g2⟩, rfl⟩
      | true =>
        obtain ⟨c2, e2, ⟨H2, k1⟩, ⟨W2, k2⟩, k3⟩ : ∃ c2, demote hash { c with hot := m1 } = some c2 ∧ (∃ l, Holds hash c2.hot l) ∧ (∃ l, Holds hash c2.warm l) ∧ c2.hotCapacity = c.hotCapacity := by
          unfold demote
          by_cases hf : c.hotCapacity ≤ m1.num
          · have hn := g1.num hash
            obtain ⟨e, H0, hH⟩ := List.exists_cons_of_ne_nil (l := H) (by rintro rfl; simp at hn; omega)
            have hfr : front m1 = some e := by rw [g1.front hash]; show H.head? = _; rw [hH]; rfl
            obtain ⟨m', d', x1, x2, x3⟩ := g1.migrate hash h2 e.1 .last
            exact ⟨{ c with hot := m', warm := d' }, by simp [hf, hfr, x1], ⟨_, x2⟩, ⟨_, x3⟩, rfl⟩
          · exact ⟨{ c with hot := m1 }, by simp [hf], ⟨_, g1⟩, ⟨_, h2⟩, rfl⟩
        obtain ⟨m', d', x1, x2, x3⟩ := k2.migrate hash k1 id .last
        exact ⟨.value (Spec.lookup W2 id), { c2 with hot := d', warm := m' }, by simp only [call, get, e1, Option.bind_eq_bind, Option.bind_some, if_true, e2, x1, Option.map_some], ⟨_, x3⟩, ⟨_, x2⟩, k3⟩
  | remove id =>
    obtain ⟨m1, e1, g1⟩ := h1.remove hash id
    obtain ⟨m2, e2, g2⟩ := h2.remove hash id
    cases hb : (Spec.lookup H id).isSome with
    | true => exact ⟨.unit, { c with hot := m1 }, by simp [call, remove, e1, hb], ⟨_, g1⟩, ⟨_, h2⟩, rfl⟩
    | false => exact ⟨.unit, { c with hot := m1, warm := m2 }, by simp [call, remove, e1, e2, hb], ⟨_, g1⟩, ⟨_, g2⟩, rfl⟩
  | removeLRU =>
    have key : ∀ {m : Map Int V} {l : List (Int × V)}, Holds hash m l → m.num ≠ 0 → ∃ e b m' l', front m = some e ∧ Linked.remove hash m e.1 = some (b, m') ∧ Holds hash m' l' := by
      intro m l hm hz
      have hn := hm.num hash
      obtain ⟨e, H0, hH⟩ := List.exists_cons_of_ne_nil (l := l) (by rintro rfl; simp at hn; omega)
      obtain ⟨m', e1, g⟩ := hm.remove hash e.1
      exact ⟨e, _, m', _, by rw [hm.front hash, hH]; rfl, e1, g⟩
    by_cases hz : c.warm.num = 0
    · by_cases hy : c.hot.num = 0
      · exact ⟨.entry none, c, by simp [call, removeLRU, hz, hy], ⟨_, h1⟩, ⟨_, h2⟩, rfl⟩
      · obtain ⟨e, b, m', l', k1, k2, k3⟩ := key h1 hy
        exact ⟨.entry (some e), { c with hot := m' }, by simp [call, removeLRU, hz, hy, k1, k2], ⟨_, k3⟩, ⟨_, h2⟩, rfl⟩
    · obtain ⟨e, b, m', l', k1, k2, k3⟩ := key h2 hz
      exact ⟨.entry (some e), { c with warm := m' }, by simp [call, removeLRU, hz, k1, k2], ⟨_, h1⟩, ⟨_, k3⟩, rfl⟩
  | size => exact ⟨_, c, rfl, ⟨_, h1⟩, ⟨_, h2⟩, rfl⟩
  | isEmpty => exact ⟨_, c, rfl, ⟨_, h1⟩, ⟨_, h2⟩, rfl⟩
  | isSaturated => exact ⟨_, c, rfl, ⟨_, h1⟩, ⟨_, h2⟩, rfl⟩
  | clear =>
    obtain ⟨m1, e1, g1⟩ := h1.clear hash
    obtain ⟨m2, e2, g2⟩ := h2.clear hash
    exact ⟨.unit, { c with hot := m1, warm := m2 }, by simp [call, clear, e1, e2], ⟨_, g1⟩, ⟨_, g2⟩, rfl⟩
  | items => exact ⟨_, c, by simp only [call, items, h1.items hash, h2.items hash]; rfl, ⟨_, h1⟩, ⟨_, h2⟩, rfl⟩

theorem DLru.calls_safe (hash : Int → Nat) : ∀ (xs : List (DCall V)) {c : DLru V}, (∃ l, Holds hash c.hot l) → (∃ l, Holds hash c.warm l) → 1 ≤ c.hotCapacity →
    ∃ rs, c.calls hash xs = some rs
  | [], _, _, _, _ => ⟨[], rfl⟩
  | x :: xs, c, h1, h2, hc => by
    obtain ⟨r, c', e, g1, g2, g3⟩ := call_safe hash h1 h2 hc x
    obtain ⟨rs, e2⟩ := calls_safe hash xs g1 g2 (by omega)
    exact ⟨r :: rs, by simp [calls, e, e2]⟩

theorem DLru.calls_ok (hash : Int → Nat) : ∀ (xs : List (DCall V)) {c : DLru V} {s : Tiers V} {H W : List (Int × V × Nat)}, c.Ok hash s H W → 1 ≤ c.hotCapacity →
    ∀ rs, c.calls hash xs = some rs → Tiers.AllowsAll c.hotCapacity c.warmCapacity s xs rs
  | [], _, _, _, _, _, _, rs, e => by simpa [calls, Tiers.AllowsAll] using e.symm
  | x :: xs, c, s, H, W, h, hc, rs, e => by
    intro hx
    obtain ⟨r, c', s', H', W', e1, g1, g2, g3, g4⟩ := call_ok hash h hc x hx
    simp only [calls, e1, Option.bind_some, Option.map_eq_some_iff] at e
    obtain ⟨rs', e2, rfl⟩ := e
    refine ⟨r, rs', s', rfl, g1, ?_⟩
    rw [← g3, ← g4]
    exact calls_ok hash xs g2 (by omega) rs' e2

/-- C42: for every hash function, capacities and history of calls, if the hot capacity is positive, no call on a `DoubleLRUCache` has undefined
behaviour, and as long as nothing is given back under an identifier of the hot part, the results are those of the specification. -/
theorem C42_double_lru_cache_partial (hash : Int → Nat) (hc wc : Nat) (hpos : 1 ≤ hc) (xs : List (DCall V)) :
    ∃ rs, (DLru.new hc wc : DLru V).calls hash xs = some rs ∧ Tiers.AllowsAll hc wc Tiers.empty xs rs := by
  obtain ⟨rs, e⟩ := DLru.calls_safe hash xs (c := DLru.new hc wc) ⟨_, Holds.new hash _⟩ ⟨_, Holds.new hash _⟩ hpos
  have hst : Stands ([] : List (Int × V × Nat)) (⟨fun _ => none, 0⟩ : Stamped V) := ⟨⟨by simp, by simp, by simp⟩, fun _ => rfl⟩
  exact ⟨rs, e, DLru.calls_ok hash xs (c := DLru.new hc wc) (s := Tiers.empty) (H := []) (W := []) ⟨hst, hst, Holds.new hash _, Holds.new hash _, fun _ => Or.inl rfl⟩ hpos rs e⟩

/-- A proper history with a promotion, and its result. -/
example : (DLru.new 1 2 : DLru Nat).calls (fun k => k.toNat)
    [.add 1 10, .add 2 20, .get 1 true, .get 2 true, .size, .removeLRU, .removeLRU, .isEmpty] =
    some [.value (some 10), .value (some 20), .value (some 10), .value (some 20), .number 2, .entry (some (1, 10)), .entry (some (2, 20)), .flag true] := by
  decide +kernel

/-- C42: with no hot capacity, looking up with promotion reads a null pointer. -/
theorem C42_double_lru_no_hot_violated : (DLru.new 0 2 : DLru Nat).calls (fun k => k.toNat) [.add 1 10, .get 1 true] = none := by decide +kernel

/-- C42: giving back an entry under an identifier of the hot part makes two entries: after `Remove`, the identifier is still there. -/
theorem C42_double_lru_give_back_violated : (DLru.new 1 2 : DLru Nat).calls (fun k => k.toNat) [.add 1 10, .get 1 true, .giveBack 1 11, .remove 1, .get 1 true] =
    some [.value (some 10), .value (some 10), .unit, .unit, .value (some 11)] := by decide +kernel

end Verif.Linked
