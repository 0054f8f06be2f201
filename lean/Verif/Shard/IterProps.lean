import Verif.Shard.IterLemmas
/-
C30: the iterator of ShardDBM merges the shards.
-/
namespace Verif.ShardIter
open Verif

variable {lt : Bytes → Bytes → Bool}

/-- SPECIFICATION: the least of the records whose keys meet the condition; none if there is no such record. -/
def LeastRec (lt : Bytes → Bytes → Bool) (P : Bytes → Prop) (recs : Recs) : Option (Bytes × Bytes) → Prop
  | some r => r ∈ recs ∧ P r.1 ∧ ∀ r' ∈ recs, P r'.1 → lt r'.1 r.1 = false
  | none => ∀ r ∈ recs, ¬ P r.1

/-- SPECIFICATION: the greatest of the records whose keys meet the condition; none if there is no such record. -/
def GreatestRec (lt : Bytes → Bytes → Bool) (P : Bytes → Prop) (recs : Recs) : Option (Bytes × Bytes) → Prop
  | some r => r ∈ recs ∧ P r.1 ∧ ∀ r' ∈ recs, P r'.1 → lt r.1 r'.1 = false
  | none => ∀ r ∈ recs, ¬ P r.1

theorem best_least {P : Bytes → Prop} {l : Recs} {o : Option (Bytes × Bytes)} (h : Best lt true P l o) : LeastRec lt P l o := by
  cases o <;> exact h

theorem best_greatest {P : Bytes → Prop} {l : Recs} {o : Option (Bytes × Bytes)} (h : Best lt false P l o) : GreatestRec lt P l o := by
  cases o <;> exact h

/-- The iterator is in order. -/
def Ok (lt : Bytes → Bytes → Bool) (it : State) : Prop := ∃ P, OkP lt it P

/-- A new iterator is in order and at no record. -/
theorem C30_make {ms : List Recs} (h : Shards lt ms) : Ok lt (make ms) ∧ get (make ms) = none := by
  refine ⟨⟨fun _ => false, rfl, h, by simp [make], ⟨StdHeap.isHeap_nil, by simp [make], ?_⟩, by simp, ?_⟩, rfl⟩
  · intro s
    simp only [make, List.not_mem_nil, not_false_eq_true, true_and, false_iff]
    rintro ⟨m, h1, h2, _⟩
    simp [List.getElem?_map, h1] at h2
  · intro i m hi
    have hi' : ms[i]? = some m := hi
    have : ∀ l : Recs, l.find? (fun _ => false) = none := by intro l; simp
    simp [make, List.getElem?_map, hi', seekPos, this]

variable (ho : KeyOrder lt) (S : (asc : Bool) → StdHeap.Fns (slotLt lt asc))
include ho

/-- C30: after `First` the iterator is at the least record of the database. -/
theorem C30_first {it : State} (h : Ok lt it) :
    Ok lt (first S it) ∧ (first S it).ms = it.ms ∧ LeastRec lt (fun _ => True) (recs it) (get (first S it)) := by
  obtain ⟨P, h⟩ := h
  obtain ⟨h1, h2, h3⟩ := seek_ok ho S h.ok h.shards true (fun _ => true) (by simp)
  refine ⟨⟨_, h1⟩, h2, ?_⟩
  have := h1.get ho
  rw [h3] at this
  unfold recs at this
  rw [h2] at this
  have := best_least this
  simp only at this
  simpa only [recs, first] using this

/-- C30: after `Last` the iterator is at the greatest record of the database. -/
theorem C30_last {it : State} (h : Ok lt it) :
    Ok lt (last S it) ∧ (last S it).ms = it.ms ∧ GreatestRec lt (fun _ => True) (recs it) (get (last S it)) := by
  obtain ⟨P, h⟩ := h
  obtain ⟨h1, h2, h3⟩ := seek_ok ho S h.ok h.shards false (fun _ => true) (by simp)
  refine ⟨⟨_, h1⟩, h2, ?_⟩
  have := h1.get ho
  rw [h3] at this
  unfold recs at this
  rw [h2] at this
  have := best_greatest this
  simp only at this
  simpa only [recs, last] using this

theorem up_ge (key a b : Bytes) (h : (!lt a key) = true) (hb : before lt true a b = true) : (!lt b key) = true := by
  simp only [Bool.not_eq_true'] at h ⊢
  cases hc : lt b key with
  | false => rfl
  | true => rw [ho.weak.trans _ _ _ hb hc] at h; cases h

theorem down_le (key a b : Bytes) (h : (!lt key a) = true) (hb : before lt false a b = true) : (!lt key b) = true := by
  simp only [Bool.not_eq_true'] at h ⊢
  cases hc : lt key b with
  | false => rfl
  | true => rw [ho.weak.trans _ _ _ hc hb] at h; cases h

/-- C30: after `Jump` the iterator is at the least record whose key is not less than the given one. -/
theorem C30_jump {it : State} (h : Ok lt it) (key : Bytes) :
    Ok lt (jump S it key) ∧ (jump S it key).ms = it.ms ∧ LeastRec lt (fun k => lt k key = false) (recs it) (get (jump S it key)) := by
  obtain ⟨P, h⟩ := h
  obtain ⟨h1, h2, h3⟩ := seek_ok ho S h.ok h.shards true (fun k => !lt k key) (up_ge ho key)
  refine ⟨⟨_, h1⟩, h2, ?_⟩
  have := h1.get ho
  rw [h3] at this
  unfold recs at this
  rw [h2] at this
  have := best_least this
  simp only [Bool.not_eq_true'] at this
  simpa only [recs, jump] using this

/-- C30: after `JumpUpper` the iterator is at the least record whose key is greater than the given one, or equal to it if
`inclusive`. -/
theorem C30_jump_upper {it : State} (h : Ok lt it) (key : Bytes) (inclusive : Bool) :
    Ok lt (jumpUpper S it key inclusive) ∧ (jumpUpper S it key inclusive).ms = it.ms ∧
    LeastRec lt (fun k => lt key k = true ∨ (inclusive = true ∧ k = key)) (recs it) (get (jumpUpper S it key inclusive)) := by
  obtain ⟨P, h⟩ := h
  have hP : ∀ k, (if inclusive then !lt k key else lt key k) = true ↔ (lt key k = true ∨ (inclusive = true ∧ k = key)) := by
    intro k
    cases inclusive with
    | false => simp
    | true =>
      simp only [if_true, Bool.not_eq_true', true_and]
      constructor
      · intro h1
        cases h2 : lt key k with
        | true => exact .inl rfl
        | false => exact .inr (ho.eq _ _ h1 h2)
      · rintro (h1 | rfl)
        · exact ho.weak.asymm h1
        · exact ho.weak.irrefl _
  obtain ⟨h1, h2, h3⟩ := seek_ok ho S h.ok h.shards true (fun k => if inclusive then !lt k key else lt key k) (by
    intro a b ha hb
    cases inclusive with
    | true => exact up_ge ho key a b ha hb
    | false => exact ho.weak.trans _ _ _ ha hb)
  refine ⟨⟨_, h1⟩, h2, ?_⟩
  have := h1.get ho
  rw [h3] at this
  unfold recs at this
  rw [h2] at this
  have := best_least this
  simp only [hP] at this
  simpa only [recs, jumpUpper] using this

/-- C30: after `JumpLower` the iterator is at the greatest record whose key is less than the given one, or equal to it if
`inclusive`. -/
theorem C30_jump_lower {it : State} (h : Ok lt it) (key : Bytes) (inclusive : Bool) :
    Ok lt (jumpLower S it key inclusive) ∧ (jumpLower S it key inclusive).ms = it.ms ∧
    GreatestRec lt (fun k => lt k key = true ∨ (inclusive = true ∧ k = key)) (recs it) (get (jumpLower S it key inclusive)) := by
  obtain ⟨P, h⟩ := h
  have hP : ∀ k, (if inclusive then !lt key k else lt k key) = true ↔ (lt k key = true ∨ (inclusive = true ∧ k = key)) := by
    intro k
    cases inclusive with
    | false => simp
    | true =>
      simp only [if_true, Bool.not_eq_true', true_and]
      constructor
      · intro h1
        cases h2 : lt k key with
        | true => exact .inl rfl
        | false => exact .inr (ho.eq _ _ h2 h1)
      · rintro (h1 | rfl)
        · exact ho.weak.asymm h1
        · exact ho.weak.irrefl _
  obtain ⟨h1, h2, h3⟩ := seek_ok ho S h.ok h.shards false (fun k => if inclusive then !lt key k else lt k key) (by
    intro a b ha hb
    cases inclusive with
    | true => exact down_le ho key a b ha hb
    | false => exact ho.weak.trans _ _ _ hb ha)
  refine ⟨⟨_, h1⟩, h2, ?_⟩
  have := h1.get ho
  rw [h3] at this
  unfold recs at this
  rw [h2] at this
  have := best_greatest this
  simp only [hP] at this
  simpa only [recs, jumpLower] using this

omit ho in
theorem get_cons {it : State} {k v : Bytes} (hg : get it = some (k, v)) : ∃ i l, it.heap = ⟨i, k, v⟩ :: l := by
  unfold get at hg
  cases hh : it.heap with
  | nil => rw [hh] at hg; cases hg
  | cons f l =>
    rw [hh] at hg
    obtain ⟨i, a, b⟩ := f
    simp only [List.head?_cons, Option.map_some, Option.some.injEq, Prod.mk.injEq] at hg
    obtain ⟨rfl, rfl⟩ := hg
    exact ⟨i, l, rfl⟩

/-- The record at which the iterator is, is a record of the database with its value. -/
theorem C30_get {it : State} (h : Ok lt it) {k v : Bytes} (hg : get it = some (k, v)) : (k, v) ∈ recs it := by
  obtain ⟨P, h⟩ := h
  have := h.get ho
  rw [hg] at this
  exact this.1

/-- Turning round: seeking the key of a record in either direction finds the record. -/
theorem turn {it : State} (h : Ok lt it) (asc : Bool) {k v : Bytes} (hkv : (k, v) ∈ recs it) {it' : State} {P : Bytes → Bool} (hok : OkP lt it' P)
    (hms : it'.ms = it.ms) (hasc : it'.asc = asc) (hP : ∀ k', P k' = !before lt asc k' k) : ∃ i v' l, it'.heap = ⟨i, k, v'⟩ :: l := by
  have hb := hok.get ho
  unfold recs at hb
  rw [hasc, hms] at hb
  cases hg : get it' with
  | none =>
    rw [hg] at hb
    exact absurd (by simp only [hP]; simp [(ho.before asc).weak.irrefl]) (hb _ hkv)
  | some r =>
    rw [hg] at hb
    obtain ⟨b1, b2, b3⟩ := hb
    rw [hP] at b2
    have b4 := b3 _ hkv (by simp only [hP]; simp [(ho.before asc).weak.irrefl])
    have e := (ho.before asc).eq _ _ b4 (by simpa using b2)
    obtain ⟨rk, rv⟩ := r
    simp only at e
    subst e
    obtain ⟨i, l, hh⟩ := get_cons hg
    exact ⟨i, rv, l, hh⟩

/-- C30: `Next` from a record goes to the least record greater than it, whatever the direction was; without a record it says
NOT_FOUND and stays. -/
theorem C30_next {it : State} (h : Ok lt it) :
    Ok lt (next S it).1 ∧ (next S it).1.ms = it.ms ∧
    (∀ k v, get it = some (k, v) → (next S it).2 = .success ∧ LeastRec lt (fun k' => lt k k' = true) (recs it) (get (next S it).1)) ∧
    (get it = none → (next S it).2 = .notFound ∧ get (next S it).1 = none) := by
  cases hg : get it with
  | none =>
    have hh : it.heap = [] := by
      unfold get at hg
      cases hh : it.heap with
      | nil => rfl
      | cons f l => rw [hh] at hg; cases hg
    unfold next
    rw [hh]
    refine ⟨h, rfl, by simp, fun _ => ⟨rfl, hg⟩⟩
  | some r =>
    obtain ⟨k, v⟩ := r
    obtain ⟨i, l, hh⟩ := get_cons hg
    have hkv := C30_get ho h hg
    have key : ∀ it' : State, (∃ P, OkP lt it' P) → it'.ms = it.ms → it'.asc = true → (∃ i v' l, it'.heap = ⟨i, k, v'⟩ :: l) →
        Ok lt (advance S true it').1 ∧ (advance S true it').1.ms = it.ms ∧ (advance S true it').2 = .success ∧
        LeastRec lt (fun k' => lt k k' = true) (recs it) (get (advance S true it').1) := by
      rintro it' ⟨P', h'⟩ hms hasc ⟨i', v', l', hh'⟩
      obtain ⟨a1, a2, a3, a4⟩ := h'.advance ho S hh'
      rw [hasc] at a1 a2 a3 a4
      refine ⟨⟨_, a1⟩, by rw [a3, hms], a2, ?_⟩
      have := a1.get ho
      unfold recs at this
      rw [a4, a3, hms] at this
      exact best_least this
    unfold next
    rw [hh]
    simp only
    cases hasc : it.asc with
    | true =>
      simp only [if_true, hh, List.isEmpty_cons, Bool.false_eq_true, if_false]
      obtain ⟨k1, k2, k3, k4⟩ := key it h rfl hasc ⟨i, v, l, hh⟩
      refine ⟨k1, k2, ?_, by simp⟩
      intro k' v' e; cases e; exact ⟨k3, k4⟩
    | false =>
      obtain ⟨P, hP⟩ := h
      obtain ⟨s1, s2, s3⟩ := seek_ok ho S hP.ok hP.shards true (fun k' => !lt k' k) (up_ge ho k)
      obtain ⟨i', v', l', hh'⟩ := turn ho ⟨P, hP⟩ true hkv s1 s2 s3 (fun _ => rfl)
      have hh2 : (jump S it k).heap = ⟨i', k, v'⟩ :: l' := hh'
      simp only [Bool.false_eq_true, if_false, hh2, List.isEmpty_cons]
      obtain ⟨k1, k2, k3, k4⟩ := key (jump S it k) ⟨_, s1⟩ s2 s3 ⟨i', v', l', hh'⟩
      refine ⟨k1, k2, ?_, by simp⟩
      intro k' v' e; cases e; exact ⟨k3, k4⟩

/-- C30: `Previous` from a record goes to the greatest record less than it, whatever the direction was; without a record it
says NOT_FOUND and stays. -/
theorem C30_previous {it : State} (h : Ok lt it) :
    Ok lt (previous S it).1 ∧ (previous S it).1.ms = it.ms ∧
    (∀ k v, get it = some (k, v) → (previous S it).2 = .success ∧ GreatestRec lt (fun k' => lt k' k = true) (recs it) (get (previous S it).1)) ∧
    (get it = none → (previous S it).2 = .notFound ∧ get (previous S it).1 = none) := by
  cases hg : get it with
  | none =>
    have hh : it.heap = [] := by
      unfold get at hg
      cases hh : it.heap with
      | nil => rfl
      | cons f l => rw [hh] at hg; cases hg
    unfold previous
    rw [hh]
    refine ⟨h, rfl, by simp, fun _ => ⟨rfl, hg⟩⟩
  | some r =>
    obtain ⟨k, v⟩ := r
    obtain ⟨i, l, hh⟩ := get_cons hg
    have hkv := C30_get ho h hg
    have key : ∀ it' : State, (∃ P, OkP lt it' P) → it'.ms = it.ms → it'.asc = false → (∃ i v' l, it'.heap = ⟨i, k, v'⟩ :: l) →
        Ok lt (advance S false it').1 ∧ (advance S false it').1.ms = it.ms ∧ (advance S false it').2 = .success ∧
        GreatestRec lt (fun k' => lt k' k = true) (recs it) (get (advance S false it').1) := by
      rintro it' ⟨P', h'⟩ hms hasc ⟨i', v', l', hh'⟩
      obtain ⟨a1, a2, a3, a4⟩ := h'.advance ho S hh'
      rw [hasc] at a1 a2 a3 a4
      refine ⟨⟨_, a1⟩, by rw [a3, hms], a2, ?_⟩
      have := a1.get ho
      unfold recs at this
      rw [a4, a3, hms] at this
      exact best_greatest this
    unfold previous
    rw [hh]
    simp only
    cases hasc : it.asc with
    | false =>
      simp only [Bool.false_eq_true, if_false, hh, List.isEmpty_cons]
      obtain ⟨k1, k2, k3, k4⟩ := key it h rfl hasc ⟨i, v, l, hh⟩
      refine ⟨k1, k2, ?_, by simp⟩
      intro k' v' e; cases e; exact ⟨k3, k4⟩
    | true =>
      obtain ⟨P, hP⟩ := h
      obtain ⟨s1, s2, s3⟩ := seek_ok ho S hP.ok hP.shards false (fun k' => if true then !lt k k' else lt k' k) (down_le ho k)
      obtain ⟨i', v', l', hh'⟩ := turn ho ⟨P, hP⟩ false hkv s1 s2 s3 (fun _ => rfl)
      have hh2 : (jumpLower S it k true).heap = ⟨i', k, v'⟩ :: l' := hh'
      simp only [if_true, Bool.false_eq_true, if_false, hh2, List.isEmpty_cons]
      obtain ⟨k1, k2, k3, k4⟩ := key (jumpLower S it k true) ⟨_, s1⟩ s2 s3 ⟨i', v', l', hh'⟩
      refine ⟨k1, k2, ?_, by simp⟩
      intro k' v' e; cases e; exact ⟨k3, k4⟩

/-! ### Traversal -/

omit ho in
/-- The loop of a user: the records that `Get` and `Next` (or `Previous`) give until there is none, in at most `n` rounds. -/
def walk (step : State → State × Code) : Nat → State → Recs
  | 0, _ => []
  | n + 1, it => match get it with
    | some r => r :: walk step n (step it).1
    | none => []

theorem filter_less {P Q : Bytes × Bytes → Bool} {l : Recs} (h : ∀ r ∈ l, Q r = true → P r = true) {r : Bytes × Bytes} (hr : r ∈ l) (hp : P r = true) (hq : Q r = false) :
    (l.filter Q).length < (l.filter P).length := by
  have h1 : l.filter Q = (l.filter P).filter Q := by
    rw [List.filter_filter]
    apply List.filter_congr
    intro x hx
    cases hQ : Q x with
    | false => rfl
    | true => simp [h x hx hQ]
  rw [h1]
  refine Nat.lt_of_le_of_ne (List.length_filter_le _ _) ?_
  intro e
  have := List.length_filter_eq_length_iff.1 e r (List.mem_filter.2 ⟨hr, hp⟩)
  rw [hq] at this; cases this

theorem walk_next {n : Nat} : ∀ {it : State} {P : Bytes → Bool}, OkP lt it P → it.asc = true → ((recs it).filter fun r => P r.1).length ≤ n →
    (walk (next S) n it).Pairwise (fun a b => lt a.1 b.1 = true) ∧ ∀ r, r ∈ walk (next S) n it ↔ r ∈ recs it ∧ P r.1 = true := by
  induction n with
  | zero =>
    intro it P h hasc hn
    refine ⟨List.Pairwise.nil, ?_⟩
    intro r
    simp only [walk, List.not_mem_nil, false_iff]
    rintro ⟨h1, h2⟩
    have : r ∈ (recs it).filter fun r => P r.1 := List.mem_filter.2 ⟨h1, h2⟩
    rw [List.length_eq_zero_iff.1 (Nat.le_zero.1 hn)] at this
    cases this
  | succ n ih =>
    intro it P h hasc hn
    have hb := h.get ho
    rw [hasc] at hb
    simp only [walk]
    cases hg : get it with
    | none =>
      rw [hg] at hb
      refine ⟨List.Pairwise.nil, ?_⟩
      intro r
      simp only [List.not_mem_nil, false_iff]
      rintro ⟨h1, h2⟩
      exact hb r h1 h2
    | some q =>
      rw [hg] at hb
      obtain ⟨k, v⟩ := q
      obtain ⟨b1, b2, b3⟩ := hb
      simp only at b2 b3
      obtain ⟨i, l, hh⟩ := get_cons hg
      obtain ⟨a1, a2, a3, a4⟩ := h.advance ho S hh
      rw [hasc] at a1 a2 a3 a4
      have hnext : next S it = advance S true it := by
        unfold next
        rw [hh]
        simp only [hasc, if_true, hh, List.isEmpty_cons, Bool.false_eq_true, if_false]
      have hrec : recs (advance S true it).1 = recs it := by unfold recs; rw [a3]
      have himp : ∀ r ∈ recs it, lt k r.1 = true → P r.1 = true := by
        intro r _ hr
        refine h.mono k r.1 b2 ?_
        rw [hasc]; exact hr
      obtain ⟨w1, w2⟩ := ih a1 a4 (by
        rw [hrec]
        have := filter_less ho (P := fun r => P r.1) (Q := fun r => before lt true k r.1) himp b1 b2 (ho.weak.irrefl _)
        simp only at this ⊢
        omega)
      simp only
      rw [hnext]
      rw [hrec] at w2
      refine ⟨List.pairwise_cons.2 ⟨fun r hr => ((w2 r).1 hr).2, w1⟩, ?_⟩
      intro r
      rw [List.mem_cons, w2]
      constructor
      · rintro (rfl | ⟨h1, h2⟩)
        · exact ⟨b1, b2⟩
        · exact ⟨h1, himp r h1 h2⟩
      · rintro ⟨h1, h2⟩
        cases hc : lt k r.1 with
        | true => exact .inr ⟨h1, hc⟩
        | false =>
          left
          have e := ho.eq _ _ (b3 r h1 h2) hc
          obtain ⟨rk, rv⟩ := r
          simp only at e
          subst e
          obtain ⟨j, m, hm, hr⟩ := mem_recs.1 h1
          obtain ⟨j', m', hm', hr'⟩ := mem_recs.1 b1
          have := h.shards.apart _ _ _ _ hm hm' _ _ _ hr hr'
          subst this
          rw [hm] at hm'; cases hm'
          rw [sorted_unique ho (h.shards.sorted m (List.mem_of_getElem? hm)) hr hr']

theorem walk_previous {n : Nat} : ∀ {it : State} {P : Bytes → Bool}, OkP lt it P → it.asc = false → ((recs it).filter fun r => P r.1).length ≤ n →
    (walk (previous S) n it).Pairwise (fun a b => lt b.1 a.1 = true) ∧ ∀ r, r ∈ walk (previous S) n it ↔ r ∈ recs it ∧ P r.1 = true := by
  induction n with
  | zero =>
    intro it P h hasc hn
    refine ⟨List.Pairwise.nil, ?_⟩
    intro r
    simp only [walk, List.not_mem_nil, false_iff]
    rintro ⟨h1, h2⟩
    have : r ∈ (recs it).filter fun r => P r.1 := List.mem_filter.2 ⟨h1, h2⟩
    rw [List.length_eq_zero_iff.1 (Nat.le_zero.1 hn)] at this
    cases this
  | succ n ih =>
    intro it P h hasc hn
    have hb := h.get ho
    rw [hasc] at hb
    simp only [walk]
    cases hg : get it with
    | none =>
      rw [hg] at hb
      refine ⟨List.Pairwise.nil, ?_⟩
      intro r
      simp only [List.not_mem_nil, false_iff]
      rintro ⟨h1, h2⟩
      exact hb r h1 h2
    | some q =>
      rw [hg] at hb
      obtain ⟨k, v⟩ := q
      obtain ⟨b1, b2, b3⟩ := hb
      simp only at b2 b3
      obtain ⟨i, l, hh⟩ := get_cons hg
      obtain ⟨a1, a2, a3, a4⟩ := h.advance ho S hh
      rw [hasc] at a1 a2 a3 a4
      have hnext : previous S it = advance S false it := by
        unfold previous
        rw [hh]
        simp only [hasc, hh, List.isEmpty_cons, Bool.false_eq_true, if_false]
      have hrec : recs (advance S false it).1 = recs it := by unfold recs; rw [a3]
      have himp : ∀ r ∈ recs it, lt r.1 k = true → P r.1 = true := by
        intro r _ hr
        refine h.mono k r.1 b2 ?_
        rw [hasc]; exact hr
      obtain ⟨w1, w2⟩ := ih a1 a4 (by
        rw [hrec]
        have := filter_less ho (P := fun r => P r.1) (Q := fun r => before lt false k r.1) himp b1 b2 (ho.weak.irrefl _)
        simp only at this ⊢
        omega)
      simp only
      rw [hnext]
      rw [hrec] at w2
      refine ⟨List.pairwise_cons.2 ⟨fun r hr => ((w2 r).1 hr).2, w1⟩, ?_⟩
      intro r
      rw [List.mem_cons, w2]
      constructor
      · rintro (rfl | ⟨h1, h2⟩)
        · exact ⟨b1, b2⟩
        · exact ⟨h1, himp r h1 h2⟩
      · rintro ⟨h1, h2⟩
        cases hc : lt r.1 k with
        | true => exact .inr ⟨h1, hc⟩
        | false =>
          left
          have e := ho.eq _ _ hc (b3 r h1 h2)
          obtain ⟨rk, rv⟩ := r
          simp only at e
          subst e
          obtain ⟨j, m, hm, hr⟩ := mem_recs.1 h1
          obtain ⟨j', m', hm', hr'⟩ := mem_recs.1 b1
          have := h.shards.apart _ _ _ _ hm hm' _ _ _ hr hr'
          subst this
          rw [hm] at hm'; cases hm'
          rw [sorted_unique ho (h.shards.sorted m (List.mem_of_getElem? hm)) hr hr']

/-- C30: a traversal from `First` with `Next` gives all the records of all the shards in ascending order of keys, each once. -/
theorem C30_traverse {it : State} (h : Ok lt it) {n : Nat} (hn : (recs it).length ≤ n) :
    (walk (next S) n (first S it)).Pairwise (fun a b => lt a.1 b.1 = true) ∧ ∀ r, r ∈ walk (next S) n (first S it) ↔ r ∈ recs it := by
  obtain ⟨P, h⟩ := h
  obtain ⟨h1, h2, h3⟩ := seek_ok ho S h.ok h.shards true (fun _ => true) (by simp)
  have hrec : recs (first S it) = recs it := by unfold recs; rw [show (first S it).ms = it.ms from h2]
  have := walk_next ho S (n := n) h1 h3 (by
    rw [show recs (seek S true (fun _ => true) it) = recs it from hrec]; exact Nat.le_trans (List.length_filter_le _ _) hn)
  refine ⟨this.1, ?_⟩
  intro r
  have := this.2 r
  rw [show recs (seek S true (fun _ => true) it) = recs it from hrec] at this
  simpa [first] using this

/-- C30: a traversal from `Last` with `Previous` gives all the records in descending order, each once. -/
theorem C30_traverse_back {it : State} (h : Ok lt it) {n : Nat} (hn : (recs it).length ≤ n) :
    (walk (previous S) n (last S it)).Pairwise (fun a b => lt b.1 a.1 = true) ∧ ∀ r, r ∈ walk (previous S) n (last S it) ↔ r ∈ recs it := by
  obtain ⟨P, h⟩ := h
  obtain ⟨h1, h2, h3⟩ := seek_ok ho S h.ok h.shards false (fun _ => true) (by simp)
  have hrec : recs (last S it) = recs it := by unfold recs; rw [show (last S it).ms = it.ms from h2]
  have := walk_previous ho S (n := n) h1 h3 (by
    rw [show recs (seek S false (fun _ => true) it) = recs it from hrec]; exact Nat.le_trans (List.length_filter_le _ _) hn)
  refine ⟨this.1, ?_⟩
  intro r
  have := this.2 r
  rw [show recs (seek S false (fun _ => true) it) = recs it from hrec] at this
  simpa [last] using this

/-- C30: a traversal after `Jump` gives the records whose keys are not less than the given one, in ascending order. -/
theorem C30_traverse_jump {it : State} (h : Ok lt it) (key : Bytes) {n : Nat} (hn : (recs it).length ≤ n) :
    (walk (next S) n (jump S it key)).Pairwise (fun a b => lt a.1 b.1 = true) ∧
    ∀ r, r ∈ walk (next S) n (jump S it key) ↔ r ∈ recs it ∧ lt r.1 key = false := by
  obtain ⟨P, h⟩ := h
  obtain ⟨h1, h2, h3⟩ := seek_ok ho S h.ok h.shards true (fun k => !lt k key) (up_ge ho key)
  have hrec : recs (seek S true (fun k => !lt k key) it) = recs it := by unfold recs; rw [h2]
  have := walk_next ho S (n := n) h1 h3 (by
    rw [hrec]; exact Nat.le_trans (List.length_filter_le _ _) hn)
  refine ⟨this.1, ?_⟩
  intro r
  have := this.2 r
  rw [hrec] at this
  simpa [jump] using this

end Verif.ShardIter
