import Verif.Containers.LinkedOps

/-
Property C42, part one: `LinkedHashMap` behaves as an ordered association list with unique keys, under every history of calls on two maps
between which records may be migrated.
-/
namespace Verif.Linked

variable {K V : Type} [DecidableEq K] (hash : K → Nat)

/-- Calls on one of two maps; `false` is the first map. -/
inductive Call (K V : Type) where
  | get (w : Bool) (k : K) (mode : Mode)
  | set (w : Bool) (k : K) (v : V) (overwrite : Bool) (mode : Mode)
  | remove (w : Bool) (k : K)
  | migrate (w : Bool) (k : K) (mode : Mode)
  | insert (w : Bool) (k : K) (v : V)
  | clear (w : Bool)
  | rehash (w : Bool) (nb : Nat)
  | front (w : Bool)
  | back (w : Bool)
  | items (w : Bool)
  | itemsBack (w : Bool)
  | size (w : Bool)

/-- What calls return. -/
inductive Ret (K V : Type) where
  | value (v : Option V)
  | flag (b : Bool)
  | entry (e : K × V)
  | entries (l : List (K × V))
  | number (n : Nat)
  | unit
  deriving DecidableEq

abbrev pick {α : Type} (w : Bool) (s : α × α) : α := if w then s.2 else s.1
abbrev put {α : Type} (w : Bool) (s : α × α) (a : α) : α × α := if w then (s.1, a) else (a, s.2)

/-- A call on the maps; `none` is undefined behaviour. -/
def call (s : Map K V × Map K V) : Call K V → Option (Ret K V × (Map K V × Map K V))
  | .get w k mode => (get hash (pick w s) k mode).map (fun r => (.value r.1, put w s r.2))
  | .set w k v o mode => (set hash (pick w s) k v o mode).map (fun r => (.value (some r.1), put w s r.2))
  | .remove w k => (remove hash (pick w s) k).map (fun r => (.flag r.1, put w s r.2))
  | .migrate w k mode => (migrate hash (pick w s) (pick (!w) s) k mode).map (fun r => (.value r.1, put (!w) (put w s r.2.1) r.2.2))
  | .insert w k v => (insert hash (pick w s) k v).map (fun r => (.flag r.1, put w s r.2))
  | .clear w => (clear (pick w s)).map (fun r => (.unit, put w s r))
  | .rehash w nb => (rehash hash (pick w s) nb).map (fun r => (.unit, put w s r))
  | .front w => (front (pick w s)).map (fun r => (.entry r, s))
  | .back w => (back (pick w s)).map (fun r => (.entry r, s))
  | .items w => (toList (pick w s)).map (fun r => (.entries r, s))
  | .itemsBack w => (walkBack (pick w s) (pick w s).num (pick w s).last).map (fun r => (.entries r, s))
  | .size w => some (.number (pick w s).num, s)

/-- A sequence of calls. -/
def calls (s : Map K V × Map K V) : List (Call K V) → Option (List (Ret K V))
  | [] => some []
  | c :: cs => do
    let (r, s) ← call hash s c
    let rs ← calls s cs
    some (r :: rs)

namespace Spec
variable {K V : Type} [DecidableEq K]

/-- Putting a record in the list with overwriting or not. -/
def store (l : List (K × V)) (k : K) (v : V) (overwrite : Bool) (mode : Mode) : List (K × V) :=
  match lookup l k with
  | none => enter l k v mode
  | some _ => if overwrite then place l k v mode else l

/-- The same call on two association lists. `front`, `back` need a record and `rehash` needs a bucket. -/
def call (s : List (K × V) × List (K × V)) : Call K V → Option (Ret K V × (List (K × V) × List (K × V)))
  | .get w k mode =>
    match lookup (pick w s) k with
    | none => some (.value none, s)
    | some v => some (.value (some v), put w s (place (pick w s) k v mode))
  | .set w k v o mode => some (.value (lookup (store (pick w s) k v o mode) k), put w s (store (pick w s) k v o mode))
  | .remove w k => some (.flag (lookup (pick w s) k).isSome, put w s (without (pick w s) k))
  | .migrate w k mode =>
    match lookup (pick w s) k with
    | none => some (.value none, s)
    | some v => some (.value (some v), put (!w) (put w s (without (pick w s) k)) (store (pick (!w) s) k v true mode))
  | .insert w k v =>
    match lookup (pick w s) k with
    | none => some (.flag true, put w s (pick w s ++ [(k, v)]))
    | some _ => some (.flag false, s)
  | .clear w => some (.unit, put w s [])
  | .rehash _ nb => if nb = 0 then none else some (.unit, s)
  | .front w => (pick w s).head?.map (fun e => (.entry e, s))
  | .back w => (pick w s).getLast?.map (fun e => (.entry e, s))
  | .items w => some (.entries (pick w s), s)
  | .itemsBack w => some (.entries (pick w s).reverse, s)
  | .size w => some (.number (pick w s).length, s)

/-- A sequence of calls. -/
def calls (s : List (K × V) × List (K × V)) : List (Call K V) → Option (List (Ret K V))
  | [] => some []
  | c :: cs => do
    let (r, s) ← call s c
    let rs ← calls s cs
    some (r :: rs)

end Spec

/-- A well-formed map that holds the records of a list in its order. -/
def Holds (m : Map K V) (l : List (K × V)) : Prop := ∃ order, WF hash m order ∧ view m order = l

theorem Holds.num {m : Map K V} {l : List (K × V)} (h : Holds hash m l) : m.num = l.length := by
  obtain ⟨o, h1, h2⟩ := h
  rw [← view_length hash h1, h2]

theorem Holds.nodup {m : Map K V} {l : List (K × V)} (h : Holds hash m l) : (l.map (·.1)).Nodup := by
  obtain ⟨o, h1, h2⟩ := h
  rw [← h2]; exact view_nodup hash h1

theorem Holds.new (nb : Nat) : Holds hash (Map.new nb : Map K V) [] := ⟨[], new_wf hash nb, rfl⟩

theorem Holds.get {m : Map K V} {l : List (K × V)} (h : Holds hash m l) (k : K) (mode : Mode) :
    ∃ m', Linked.get hash m k mode = some (Spec.lookup l k, m') ∧
      Holds hash m' (match Spec.lookup l k with | none => l | some v => Spec.place l k v mode) := by
  obtain ⟨o, h1, rfl⟩ := h
  obtain ⟨m', o', e, g1, _, g2⟩ := get_spec hash h1 k mode
  exact ⟨m', e, o', g1, g2⟩

theorem Spec.lookup_enter {l : List (K × V)} {k : K} {v : V} {mode : Mode} (h : Spec.lookup l k = none) : Spec.lookup (Spec.enter l k v mode) k = some v := by
  have h' : l.find? (fun e => decide (e.1 = k)) = none := by
    cases e : l.find? (fun e => decide (e.1 = k)) with
    | none => rfl
    | some x => simp [Spec.lookup, e] at h
  cases mode <;> simp [Spec.enter, Spec.lookup, h']

theorem Spec.find_without (l : List (K × V)) (k : K) : (Spec.without l k).find? (fun e => decide (e.1 = k)) = none := by
  rw [List.find?_eq_none]
  intro e he
  simp only [Spec.without, List.mem_filter] at he
  simpa using he.2

theorem Spec.lookup_place {l : List (K × V)} {k : K} {v v0 : V} {mode : Mode} (h : Spec.lookup l k = some v0) : Spec.lookup (Spec.place l k v mode) k = some v := by
  cases mode with
  | first => simp [Spec.place, Spec.lookup]
  | last => simp [Spec.place, Spec.lookup, Spec.find_without]
  | current =>
    induction l with
    | nil => simp [Spec.lookup] at h
    | cons e l ih =>
      by_cases he : e.1 = k
      · simp [Spec.place, Spec.lookup, he]
      · simp only [Spec.lookup, he, decide_false, List.find?_cons] at h
        simpa [Spec.place, Spec.lookup, he, List.find?_cons] using ih h

theorem Holds.set {m : Map K V} {l : List (K × V)} (h : Holds hash m l) (k : K) (v : V) (o : Bool) (mode : Mode) :
    ∃ out m', Linked.set hash m k v o mode = some (out, m') ∧ Spec.lookup (Spec.store l k v o mode) k = some out ∧ Holds hash m' (Spec.store l k v o mode) := by
  obtain ⟨od, h1, rfl⟩ := h
  obtain ⟨out, m', o', e, g1, _, g2⟩ := set_spec hash h1 k v o mode
  refine ⟨out, m', e, ?_⟩
  unfold Spec.store
  cases hl : Spec.lookup (view m od) k with
  | none =>
    rw [hl] at g2
    rw [g2.1]
    exact ⟨Spec.lookup_enter hl, o', g1, g2.2⟩
  | some v0 =>
    rw [hl] at g2
    cases o with
    | true =>
      simp only [if_true] at g2 ⊢
      rw [g2.1]
      exact ⟨Spec.lookup_place hl, o', g1, g2.2⟩
    | false =>
      simp only [Bool.false_eq_true, if_false] at g2 ⊢
      rw [g2.1]
      exact ⟨hl, o', g1, g2.2⟩

theorem Holds.remove {m : Map K V} {l : List (K × V)} (h : Holds hash m l) (k : K) :
    ∃ m', Linked.remove hash m k = some ((Spec.lookup l k).isSome, m') ∧ Holds hash m' (Spec.without l k) := by
  obtain ⟨o, h1, rfl⟩ := h
  obtain ⟨m', o', e, g1, _, g2⟩ := remove_spec hash h1 k
  exact ⟨m', e, o', g1, g2⟩

theorem Holds.migrate {m d : Map K V} {l r : List (K × V)} (h : Holds hash m l) (hd : Holds hash d r) (k : K) (mode : Mode) :
    ∃ m' d', Linked.migrate hash m d k mode = some (Spec.lookup l k, m', d') ∧ Holds hash m' (Spec.without l k) ∧
      Holds hash d' (match Spec.lookup l k with | none => r | some v => Spec.store r k v true mode) := by
  obtain ⟨o, h1, rfl⟩ := h
  obtain ⟨od, h2, rfl⟩ := hd
  obtain ⟨m', d', o1, o2, e, g1, g2, _, _, g3, g4⟩ := migrate_spec hash h1 h2 k mode
  refine ⟨m', d', e, ⟨o1, g1, g3⟩, o2, g2, ?_⟩
  rw [g4]
  cases Spec.lookup (view m o) k with
  | none => rfl
  | some v =>
    simp only [Spec.store]
    cases Spec.lookup (view d od) k <;> rfl

theorem Holds.insert {m : Map K V} {l : List (K × V)} (h : Holds hash m l) (k : K) (v : V) :
    ∃ m', Linked.insert hash m k v = some ((Spec.lookup l k).isNone, m') ∧ Holds hash m' (match Spec.lookup l k with | none => l ++ [(k, v)] | some _ => l) := by
  obtain ⟨o, h1, rfl⟩ := h
  obtain ⟨m', o', e, g1, _, g2⟩ := insert_spec hash h1 k v
  exact ⟨m', e, o', g1, g2⟩

theorem Holds.clear {m : Map K V} {l : List (K × V)} (h : Holds hash m l) : ∃ m', Linked.clear m = some m' ∧ Holds hash m' [] := by
  obtain ⟨o, h1, rfl⟩ := h
  obtain ⟨m', e, g1, _⟩ := clear_spec hash h1
  exact ⟨m', e, [], g1, rfl⟩

theorem Holds.rehash {m : Map K V} {l : List (K × V)} (h : Holds hash m l) (nb : Nat) (hnb : 1 ≤ nb) : ∃ m', Linked.rehash hash m nb = some m' ∧ Holds hash m' l := by
  obtain ⟨o, h1, rfl⟩ := h
  obtain ⟨m', e, g1, _, g2⟩ := rehash_spec hash h1 nb hnb
  exact ⟨m', e, o, g1, g2⟩

theorem Holds.front {m : Map K V} {l : List (K × V)} (h : Holds hash m l) : Linked.front m = l.head? := by
  obtain ⟨o, h1, rfl⟩ := h
  exact front_spec hash h1

theorem Holds.back {m : Map K V} {l : List (K × V)} (h : Holds hash m l) : Linked.back m = l.getLast? := by
  obtain ⟨o, h1, rfl⟩ := h
  exact back_spec hash h1

theorem Holds.items {m : Map K V} {l : List (K × V)} (h : Holds hash m l) : toList m = some l := by
  obtain ⟨o, h1, rfl⟩ := h
  exact toList_spec hash h1

theorem Holds.itemsBack {m : Map K V} {l : List (K × V)} (h : Holds hash m l) : walkBack m m.num m.last = some l.reverse := by
  obtain ⟨o, h1, rfl⟩ := h
  rw [h1.links.last]
  exact walkBack_spec o.length _ none _ rfl h1.links.seg (by rw [h1.num]; omega)

/-- Both maps hold both lists. -/
def Holds2 (s : Map K V × Map K V) (t : List (K × V) × List (K × V)) : Prop := Holds hash s.1 t.1 ∧ Holds hash s.2 t.2

theorem Holds2.pick {s : Map K V × Map K V} {t : List (K × V) × List (K × V)} (h : Holds2 hash s t) (w : Bool) : Holds hash (pick w s) (pick w t) := by
  cases w <;> first | exact h.1 | exact h.2

theorem Holds2.put {s : Map K V × Map K V} {t : List (K × V) × List (K × V)} (h : Holds2 hash s t) (w : Bool) {m : Map K V} {l : List (K × V)} (hm : Holds hash m l) :
    Holds2 hash (put w s m) (put w t l) := by
  cases w <;> first | exact ⟨hm, h.2⟩ | exact ⟨h.1, hm⟩

theorem put_pick {α : Type} (w : Bool) (s : α × α) : put w s (pick w s) = s := by cases w <;> rfl

theorem call_spec {s : Map K V × Map K V} {t : List (K × V) × List (K × V)} (h : Holds2 hash s t) (c : Call K V) {r : Ret K V} {t' : List (K × V) × List (K × V)}
    (hc : Spec.call t c = some (r, t')) : ∃ s', call hash s c = some (r, s') ∧ Holds2 hash s' t' := by
  cases c with
  | get w k mode =>
    obtain ⟨m', e, g⟩ := (h.pick hash w).get hash k mode
    simp only [Spec.call] at hc
    cases hl : Spec.lookup (Linked.pick w t) k with
    | none =>
      rw [hl] at hc e g
      simp only [Option.some.injEq, Prod.mk.injEq] at hc
      obtain ⟨rfl, rfl⟩ := hc
      refine ⟨put w s m', by simp [call, e], ?_⟩
      have := h.put hash w g
      rwa [put_pick] at this
    | some v =>
      rw [hl] at hc e g
      simp only [Option.some.injEq, Prod.mk.injEq] at hc
      obtain ⟨rfl, rfl⟩ := hc
      exact ⟨_, by simp [call, e], h.put hash w g⟩
  | set w k v o mode =>
    obtain ⟨out, m', e, hl, g⟩ := (h.pick hash w).set hash k v o mode
    simp only [Spec.call, Option.some.injEq, Prod.mk.injEq, hl] at hc
    obtain ⟨rfl, rfl⟩ := hc
    exact ⟨_, by simp [call, e], h.put hash w g⟩
  | remove w k =>
    obtain ⟨m', e, g⟩ := (h.pick hash w).remove hash k
    simp only [Spec.call, Option.some.injEq, Prod.mk.injEq] at hc
    obtain ⟨rfl, rfl⟩ := hc
    exact ⟨_, by simp [call, e], h.put hash w g⟩
  | migrate w k mode =>
    obtain ⟨m', d', e, g1, g2⟩ := (h.pick hash w).migrate hash (h.pick hash (!w)) k mode
    simp only [Spec.call] at hc
    cases hl : Spec.lookup (Linked.pick w t) k with
    | none =>
      rw [hl] at hc e g2
      simp only [Option.some.injEq, Prod.mk.injEq] at hc
      obtain ⟨rfl, rfl⟩ := hc
      refine ⟨put (!w) (put w s m') d', by simp [call, e], ?_⟩
      have hw : Spec.without (Linked.pick w t) k = Linked.pick w t := by
        unfold Spec.without
        rw [List.filter_eq_self]
        intro x hx
        simp only [Spec.lookup, Option.map_eq_none_iff, List.find?_eq_none] at hl
        simpa using hl x hx
      rw [hw] at g1
      have := (h.put hash w g1).put hash (!w) g2
      rwa [put_pick, put_pick] at this
    | some v =>
      rw [hl] at hc e g2
      simp only [Option.some.injEq, Prod.mk.injEq] at hc
      obtain ⟨rfl, rfl⟩ := hc
      exact ⟨_, by simp [call, e], (h.put hash w g1).put hash (!w) g2⟩
  | insert w k v =>
    obtain ⟨m', e, g⟩ := (h.pick hash w).insert hash k v
    simp only [Spec.call] at hc
    cases hl : Spec.lookup (Linked.pick w t) k with
    | none =>
      rw [hl] at hc e g
      simp only [Option.some.injEq, Prod.mk.injEq] at hc
      obtain ⟨rfl, rfl⟩ := hc
      exact ⟨_, by simp [call, e], h.put hash w g⟩
    | some v0 =>
      rw [hl] at hc e g
      simp only [Option.some.injEq, Prod.mk.injEq] at hc
      obtain ⟨rfl, rfl⟩ := hc
      refine ⟨put w s m', by simp [call, e], ?_⟩
      have := h.put hash w g
      rwa [put_pick] at this
  | clear w =>
    obtain ⟨m', e, g⟩ := (h.pick hash w).clear hash
    simp only [Spec.call, Option.some.injEq, Prod.mk.injEq] at hc
    obtain ⟨rfl, rfl⟩ := hc
    exact ⟨_, by simp [call, e], h.put hash w g⟩
  | rehash w nb =>
    simp only [Spec.call] at hc
    by_cases hz : nb = 0
    · rw [if_pos hz] at hc; cases hc
    · rw [if_neg hz] at hc
      simp only [Option.some.injEq, Prod.mk.injEq] at hc
      obtain ⟨rfl, rfl⟩ := hc
      obtain ⟨m', e, g⟩ := (h.pick hash w).rehash hash nb (by omega)
      refine ⟨put w s m', by simp [call, e], ?_⟩
      have := h.put hash w g
      rwa [put_pick] at this
  | front w =>
    have e := (h.pick hash w).front hash
    simp only [Spec.call, Option.map_eq_some_iff] at hc
    obtain ⟨x, hx, hc⟩ := hc
    simp only [Prod.mk.injEq] at hc
    obtain ⟨rfl, rfl⟩ := hc
    exact ⟨s, by simp only [call, e, hx]; rfl, h⟩
  | back w =>
    have e := (h.pick hash w).back hash
    simp only [Spec.call, Option.map_eq_some_iff] at hc
    obtain ⟨x, hx, hc⟩ := hc
    simp only [Prod.mk.injEq] at hc
    obtain ⟨rfl, rfl⟩ := hc
    exact ⟨s, by simp only [call, e, hx]; rfl, h⟩
  | items w =>
    have e := (h.pick hash w).items hash
    simp only [Spec.call, Option.some.injEq, Prod.mk.injEq] at hc
    obtain ⟨rfl, rfl⟩ := hc
    exact ⟨s, by simp only [call, e]; rfl, h⟩
  | itemsBack w =>
    have e := (h.pick hash w).itemsBack hash
    simp only [Spec.call, Option.some.injEq, Prod.mk.injEq] at hc
    obtain ⟨rfl, rfl⟩ := hc
    exact ⟨s, by simp only [call, e]; rfl, h⟩
  | size w =>
    simp only [Spec.call, Option.some.injEq, Prod.mk.injEq] at hc
    obtain ⟨rfl, rfl⟩ := hc
    exact ⟨s, by simp only [call, (h.pick hash w).num hash], h⟩

theorem calls_spec : ∀ (cs : List (Call K V)) {s : Map K V × Map K V} {t : List (K × V) × List (K × V)}, Holds2 hash s t → ∀ {rs : List (Ret K V)},
    Spec.calls t cs = some rs → calls hash s cs = some rs
  | [], _, _, _, rs, h => h
  | c :: cs, s, t, h, rs, hc => by
    simp only [Spec.calls, Option.bind_eq_bind, Option.bind_eq_some_iff] at hc
    obtain ⟨⟨r, t'⟩, h1, rs', h2, h3⟩ := hc
    obtain ⟨s', e, g⟩ := call_spec hash h c h1
    have := calls_spec cs g h2
    simp only [Option.some.injEq] at h3
    simp [calls, e, this, h3]

/-- C42: for every hash function, numbers of buckets and history of calls on two maps, as long as `front` and `back` are called on maps that are
not empty and `rehash` is called with a positive number, no call has undefined behaviour and every call returns what it returns on two
ordered association lists. -/
theorem C42_linked_hash_map (nb1 nb2 : Nat) (cs : List (Call K V)) (rs : List (Ret K V)) (h : Spec.calls ([], []) cs = some rs) :
    calls hash (Map.new nb1, Map.new nb2) cs = some rs :=
  calls_spec hash cs ⟨Holds.new hash nb1, Holds.new hash nb2⟩ h

/-- The lists of the specification have unique keys after every history. -/
def Spec.lists (s : List (K × V) × List (K × V)) : List (Call K V) → Option (List (K × V) × List (K × V))
  | [] => some s
  | c :: cs => (Spec.call s c).bind (fun r => Spec.lists r.2 cs)

/-- C42: the keys of a map are unique after every history. -/
theorem C42_unique_keys (cs : List (Call K V)) (t : List (K × V) × List (K × V)) (h : Spec.lists ([], []) cs = some t) :
    (t.1.map (·.1)).Nodup ∧ (t.2.map (·.1)).Nodup := by
  have : ∀ (cs : List (Call K V)) (s : Map K V × Map K V) (t0 t : List (K × V) × List (K × V)), Holds2 (fun _ => 0) s t0 → Spec.lists t0 cs = some t →
      ∃ s', Holds2 (fun _ => 0) s' t := by
    intro cs
    induction cs with
    | nil => intro s t0 t h e; simp only [Spec.lists, Option.some.injEq] at e; subst e; exact ⟨s, h⟩
    | cons c cs ih =>
      intro s t0 t h e
      simp only [Spec.lists, Option.bind_eq_some_iff] at e
      obtain ⟨⟨r, t1⟩, e1, e2⟩ := e
      obtain ⟨s', _, g⟩ := call_spec (fun _ => 0) h c e1
      exact ih s' t1 t g e2
  obtain ⟨s', g⟩ := this cs (Map.new 0, Map.new 0) _ _ ⟨Holds.new _ 0, Holds.new _ 0⟩ h
  exact ⟨g.1.nodup, g.2.nodup⟩

/-- A history with collisions, moves, an overwriting and a migration that meets the hypothesis. -/
example : Spec.calls (([], []) : List (Nat × Nat) × List (Nat × Nat))
    [.set false 1 10 true .last, .set false 2 20 true .first, .set true 1 11 true .last, .get false 2 .last, .insert false 3 30,
      .migrate false 1 .first, .rehash false 1, .items false, .itemsBack true, .front false, .size true] =
    some [.value (some 10), .value (some 20), .value (some 11), .value (some 20), .flag true, .value (some 10), .unit,
      .entries [(2, 20), (3, 30)], .entries [(1, 10)], .entry (2, 20), .number 1] := by decide +kernel

/-- C42: `operator[]` on a key of the map loses its value, unlike that of `std::unordered_map`. -/
theorem C42_subscript_violated : ∃ (m m1 m2 : Map Nat Nat), set id (Map.new 7) 1 10 true .current = some (10, m) ∧
    get id m 1 .current = some (some 10, m1) ∧ subscript id 0 m1 1 = some (0, m2) ∧ (get id m2 1 .current).map (·.1) = some (some 0) := by
  obtain ⟨o, m, e, hl, g⟩ := (Holds.new (V := Nat) id 7).set id 1 10 true .current
  obtain ⟨m1, e1, g1⟩ := g.get id 1 .current
  obtain ⟨o2, m2, e2, hl2, g2⟩ := g1.set id 1 0 true .current
  obtain ⟨m3, e3, g3⟩ := g2.get id 1 .current
  have x1 : o = 10 := by
    have : Spec.lookup (Spec.store ([] : List (Nat × Nat)) 1 10 true .current) 1 = some 10 := by decide
    rw [this] at hl; injection hl with hl; exact hl.symm
  have x2 : o2 = 0 := by
    have : some 0 = some o2 := hl2
    injection this with this; exact this.symm
  subst x1 x2
  refine ⟨m, m1, m2, e, ?_, e2, ?_⟩
  · rw [e1, hl]
  · rw [e3, hl2]; rfl

end Verif.Linked
