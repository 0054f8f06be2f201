import Verif.Prelude.OrdMap
/-
SPECIFICATION of the iterators of the ordered databases, shared by all of them: an iterator is at a record or nowhere; the moves go to the least or greatest
record with a property.
-/
namespace Verif.Cursor
open Verif

/-- The operations of `DBM::Iterator` (tkrzw_dbm.h 860-1010) that do not update; `key` is `Get` with the key only. -/
structure Impl (σ : Type) where
  first : σ → σ × Code
  last : σ → σ × Code
  jump : Bytes → σ → σ × Code
  jumpLower : Bytes → Bool → σ → σ × Code
  jumpUpper : Bytes → Bool → σ → σ × Code
  next : σ → σ × Code
  prev : σ → σ × Code
  key : σ → Code × Bytes

/-- `p` is the least with the property, in the order `lt`, `none` if there is none. -/
def Least (lt : Bytes → Bytes → Bool) (P : Bytes → Prop) : Option Bytes → Prop
  | none => ∀ k, ¬ P k
  | some k => P k ∧ ∀ k', P k' → lt k' k = false

/-- `p` is the greatest with the property. -/
def Greatest (lt : Bytes → Bytes → Bool) (P : Bytes → Prop) : Option Bytes → Prop
  | none => ∀ k, ¬ P k
  | some k => P k ∧ ∀ k', P k' → lt k k' = false

/-- The moves of an iterator over the keys `ks`, which are in ascending order; `pos` is where the iterator is and `ok` holds of the states of the database
with those keys. -/
structure Ordered {σ : Type} (C : Impl σ) (lt : Bytes → Bytes → Bool) (ks : List Bytes) (ok : σ → Prop) (pos : σ → Option Bytes) : Prop where
  sorted : ks.Pairwise fun a b => lt a b = true
  first : ∀ s, ok s → ok (C.first s).1 ∧ (C.first s).2 = .success ∧ Least lt (fun k => k ∈ ks) (pos (C.first s).1)
  last : ∀ s, ok s → ok (C.last s).1 ∧ (C.last s).2 = .success ∧ Greatest lt (fun k => k ∈ ks) (pos (C.last s).1)
  jump : ∀ x s, ok s → ok (C.jump x s).1 ∧ (C.jump x s).2 = .success ∧ Least lt (fun k => k ∈ ks ∧ lt k x = false) (pos (C.jump x s).1)
  jumpUpper : ∀ x incl s, ok s → ok (C.jumpUpper x incl s).1 ∧ (C.jumpUpper x incl s).2 = .success ∧
    Least lt (fun k => k ∈ ks ∧ if incl then lt k x = false else lt x k = true) (pos (C.jumpUpper x incl s).1)
  jumpLower : ∀ x incl s, ok s → ok (C.jumpLower x incl s).1 ∧ (C.jumpLower x incl s).2 = .success ∧
    Greatest lt (fun k => k ∈ ks ∧ if incl then lt x k = false else lt k x = true) (pos (C.jumpLower x incl s).1)
  next : ∀ s x, ok s → pos s = some x → ok (C.next s).1 ∧ (C.next s).2 = .success ∧ Least lt (fun k => k ∈ ks ∧ lt x k = true) (pos (C.next s).1)
  prev : ∀ s x, ok s → pos s = some x → ok (C.prev s).1 ∧ (C.prev s).2 = .success ∧ Greatest lt (fun k => k ∈ ks ∧ lt k x = true) (pos (C.prev s).1)
  nowhere : ∀ s, ok s → pos s = none → ok (C.next s).1 ∧ (C.next s).2 = .notFound ∧ pos (C.next s).1 = none ∧ ok (C.prev s).1 ∧ (C.prev s).2 = .notFound ∧
    pos (C.prev s).1 = none
  key : ∀ s x, ok s → pos s = some x → C.key s = (.success, x)
  keyNone : ∀ s, ok s → pos s = none → (C.key s).1 = .notFound
  member : ∀ s x, ok s → pos s = some x → x ∈ ks

/-! ### A list as a database -/

/-- The iterator over a list of keys in ascending order: the reference. -/
def ofList (lt : Bytes → Bytes → Bool) (ks : List Bytes) : Impl (Option Bytes) where
  first _ := (ks.head?, .success)
  last _ := (ks.getLast?, .success)
  jump x _ := (ks.find? fun k => !lt k x, .success)
  jumpUpper x incl _ := (ks.find? fun k => if incl then !lt k x else lt x k, .success)
  jumpLower x incl _ := (ks.reverse.find? fun k => if incl then !lt x k else lt k x, .success)
  next p := match p with | none => (none, .notFound) | some x => (ks.find? fun k => lt x k, .success)
  prev p := match p with | none => (none, .notFound) | some x => (ks.reverse.find? fun k => lt k x, .success)
  key p := match p with | none => (.notFound, []) | some x => (.success, x)

variable {lt : Bytes → Bytes → Bool}

theorem least_find (hw : StrictWeak lt) {P : Bytes → Prop} (t : Bytes → Bool) : ∀ {ks : List Bytes}, ks.Pairwise (fun a b => lt a b = true) →
    (∀ k, P k ↔ k ∈ ks ∧ t k = true) → Least lt P (ks.find? t)
  | ks, hs, hp => by
    cases h : ks.find? t with
    | none =>
      rw [List.find?_eq_none] at h
      intro k hk
      exact h k ((hp k).1 hk).1 ((hp k).1 hk).2
    | some x =>
      obtain ⟨h1, a, b, e, h2⟩ := List.find?_eq_some_iff_append.1 h
      refine ⟨(hp x).2 ⟨by rw [e]; simp, h1⟩, fun k' hk' => ?_⟩
      obtain ⟨g1, g2⟩ := (hp k').1 hk'
      rw [e] at g1 hs
      rw [List.pairwise_append, List.pairwise_cons] at hs
      rcases List.mem_append.1 g1 with g | g
      · have := h2 k' g
        simp [g2] at this
      · rcases List.mem_cons.1 g with g | g
        · subst g
          exact hw.irrefl _
        · exact hw.asymm (hs.2.1.1 k' g)

theorem greatest_find (hw : StrictWeak lt) {P : Bytes → Prop} (t : Bytes → Bool) {ks : List Bytes} (hs : ks.Pairwise (fun a b => lt a b = true))
    (hp : ∀ k, P k ↔ k ∈ ks ∧ t k = true) : Greatest lt P (ks.reverse.find? t) := by
  cases h : ks.reverse.find? t with
  | none =>
    rw [List.find?_eq_none] at h
    intro k hk
    exact h k (List.mem_reverse.2 ((hp k).1 hk).1) ((hp k).1 hk).2
  | some x =>
    obtain ⟨h1, a, b, e, h2⟩ := List.find?_eq_some_iff_append.1 h
    have e' : ks = b.reverse ++ x :: a.reverse := by
      have := congrArg List.reverse e
      simpa using this
    refine ⟨(hp x).2 ⟨by rw [e']; simp, h1⟩, fun k' hk' => ?_⟩
    obtain ⟨g1, g2⟩ := (hp k').1 hk'
    rw [e'] at g1 hs
    rw [List.pairwise_append] at hs
    rcases List.mem_append.1 g1 with g | g
    · exact hw.asymm (hs.2.2 k' g x (by simp))
    · rcases List.mem_cons.1 g with g | g
      · subst g
        exact hw.irrefl _
      · have := h2 k' (List.mem_reverse.1 g)
        simp [g2] at this

theorem sorted_eq (hw : StrictWeak lt) {ks : List Bytes} (hs : ks.Pairwise (fun a b => lt a b = true)) {x y : Bytes} (hx : x ∈ ks) (hy : y ∈ ks)
    (h1 : lt x y = false) (h2 : lt y x = false) : x = y := by
  obtain ⟨i, hi, rfl⟩ := List.getElem_of_mem hx
  obtain ⟨j, hj, rfl⟩ := List.getElem_of_mem hy
  rw [List.pairwise_iff_getElem] at hs
  rcases Nat.lt_trichotomy i j with h | h | h
  · rw [hs i j hi hj h] at h1
    cases h1
  · subst h
    rfl
  · rw [hs j i hj hi h] at h2
    cases h2

theorem least_unique (hw : StrictWeak lt) {ks : List Bytes} (hs : ks.Pairwise (fun a b => lt a b = true)) {P : Bytes → Prop} (hp : ∀ k, P k → k ∈ ks) :
    ∀ {p q : Option Bytes}, Least lt P p → Least lt P q → p = q
  | none, none, _, _ => rfl
  | none, some y, h1, h2 => absurd h2.1 (h1 y)
  | some x, none, h1, h2 => absurd h1.1 (h2 x)
  | some x, some y, h1, h2 => by rw [sorted_eq hw hs (hp x h1.1) (hp y h2.1) (h2.2 x h1.1) (h1.2 y h2.1)]

theorem greatest_unique (hw : StrictWeak lt) {ks : List Bytes} (hs : ks.Pairwise (fun a b => lt a b = true)) {P : Bytes → Prop} (hp : ∀ k, P k → k ∈ ks) :
    ∀ {p q : Option Bytes}, Greatest lt P p → Greatest lt P q → p = q
  | none, none, _, _ => rfl
  | none, some y, h1, h2 => absurd h2.1 (h1 y)
  | some x, none, h1, h2 => absurd h1.1 (h2 x)
  | some x, some y, h1, h2 => by rw [sorted_eq hw hs (hp x h1.1) (hp y h2.1) (h1.2 y h2.1) (h2.2 x h1.1)]

/-- The reference meets the specification. -/
theorem ofList_ordered (hw : StrictWeak lt) {ks : List Bytes} (hs : ks.Pairwise (fun a b => lt a b = true)) :
    Ordered (ofList lt ks) lt ks (fun p => ∀ x, p = some x → x ∈ ks) (fun p => p) where
  sorted := hs
  first := by
    intro s _
    refine ⟨fun x h => List.mem_of_mem_head? h, rfl, ?_⟩
    have := least_find hw (P := fun k => k ∈ ks) (fun _ => true) hs (by simp)
    cases ks with
    | nil => exact this
    | cons a ks => exact this
  last := by
    intro s _
    refine ⟨fun x h => List.mem_of_getLast? h, rfl, ?_⟩
    have := greatest_find hw (P := fun k => k ∈ ks) (fun _ => true) hs (by simp)
    have e : ks.reverse.find? (fun _ => true) = ks.getLast? := by
      rw [← List.head?_reverse]
      cases ks.reverse <;> rfl
    rw [e] at this
    exact this
  jump := by
    intro x s _
    exact ⟨fun y h => List.mem_of_find?_eq_some h, rfl, least_find hw _ hs (by simp)⟩
  jumpUpper := by
    intro x incl s _
    refine ⟨fun y h => List.mem_of_find?_eq_some h, rfl, least_find hw _ hs ?_⟩
    cases incl <;> simp
  jumpLower := by
    intro x incl s _
    refine ⟨fun y h => List.mem_reverse.1 (List.mem_of_find?_eq_some h), rfl, greatest_find hw _ hs ?_⟩
    cases incl <;> simp
  next := by
    rintro s x hs' (rfl : s = some x)
    exact ⟨fun y h => List.mem_of_find?_eq_some h, rfl, least_find hw _ hs (by simp)⟩
  prev := by
    rintro s x hs' (rfl : s = some x)
    exact ⟨fun y h => List.mem_reverse.1 (List.mem_of_find?_eq_some h), rfl, greatest_find hw _ hs (by simp)⟩
  nowhere := by
    rintro s hs' (rfl : s = none)
    exact ⟨by simp [ofList], rfl, rfl, by simp [ofList], rfl, rfl⟩
  key := by
    rintro s x _ (rfl : s = some x)
    rfl
  keyNone := by
    rintro s _ (rfl : s = none)
    rfl
  member := fun s x h e => h x e

/-! ### Positions as suffixes and prefixes -/

section
variable {σ : Type} {C : Impl σ} {ks : List Bytes} {ok : σ → Prop} {pos : σ → Option Bytes}

theorem find_next {a b : List Bytes} {x : Bytes} (hw : StrictWeak lt) (hs : (a ++ x :: b).Pairwise fun a b => lt a b = true) :
    (a ++ x :: b).find? (fun k => lt x k) = b.head? := by
  rw [List.pairwise_append, List.pairwise_cons] at hs
  rw [List.find?_append, List.find?_eq_none.2 (fun k hk => by rw [hw.asymm (hs.2.2 k hk x (by simp))]; decide), Option.none_or, List.find?_cons, hw.irrefl]
  cases b with
  | nil => rfl
  | cons y b => rw [List.find?_cons, hs.2.1.1 y (by simp)]; rfl

theorem find_prev {a b : List Bytes} {x : Bytes} (hw : StrictWeak lt) (hs : (a ++ x :: b).Pairwise fun a b => lt a b = true) :
    (a ++ x :: b).reverse.find? (fun k => lt k x) = a.getLast? := by
  rw [List.pairwise_append, List.pairwise_cons] at hs
  rw [List.reverse_append, List.reverse_cons, List.append_assoc, List.find?_append,
    List.find?_eq_none.2 (fun k hk => by rw [hw.asymm (hs.2.1.1 k (List.mem_reverse.1 hk))]; decide), Option.none_or, List.cons_append, List.find?_cons, hw.irrefl,
    ← List.head?_reverse]
  cases h : a.reverse with
  | nil => rfl
  | cons y c =>
    have hy : y ∈ a := List.mem_reverse.1 (by rw [h]; simp)
    show List.find? (fun k => lt k x) ([] ++ (y :: c)) = _
    rw [List.nil_append, List.find?_cons, hs.2.2 y hy x (by simp)]
    rfl

/-- From a record, `Next` goes to the one that follows. -/
theorem Ordered.next_split (h : Ordered C lt ks ok pos) (hw : StrictWeak lt) {s : σ} (ho : ok s) {a b : List Bytes} {x : Bytes} (e : ks = a ++ x :: b) (hp : pos s = some x) :
    ok (C.next s).1 ∧ (C.next s).2 = .success ∧ pos (C.next s).1 = b.head? := by
  obtain ⟨h1, h2, h3⟩ := h.next s x ho hp
  refine ⟨h1, h2, ?_⟩
  have hs := h.sorted
  rw [least_unique hw hs (fun k g => g.1) h3 (least_find hw (fun k => lt x k) hs (by simp)), e]
  exact find_next hw (e ▸ hs)

/-- From a record, `Previous` goes to the one before. -/
theorem Ordered.prev_split (h : Ordered C lt ks ok pos) (hw : StrictWeak lt) {s : σ} (ho : ok s) {a b : List Bytes} {x : Bytes} (e : ks = a ++ x :: b) (hp : pos s = some x) :
    ok (C.prev s).1 ∧ (C.prev s).2 = .success ∧ pos (C.prev s).1 = a.getLast? := by
  obtain ⟨h1, h2, h3⟩ := h.prev s x ho hp
  refine ⟨h1, h2, ?_⟩
  have hs := h.sorted
  rw [greatest_unique hw hs (fun k g => g.1) h3 (greatest_find hw (fun k => lt k x) hs (by simp)), e]
  exact find_prev hw (e ▸ hs)

end

end Verif.Cursor
