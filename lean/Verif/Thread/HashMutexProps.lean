import Verif.Thread.HashMutex
/-
C32: the mutex that the hash databases use for their buckets. For every number of slots, every hash function, every number of
threads and every schedule: two threads never own the same bucket unless both share it, a thread that owns a bucket has the
bucket of the number of buckets that is in force, the number of buckets is never changed under an owner, and the threads can
always go on until all of them have finished.
-/
namespace Verif.HashMutex
open Verif

/-- SPECIFICATION. The thread owns the bucket `b` when there are `nb` buckets: it has got the lock of a key whose bucket is `b`,
of `b` itself, of some keys one of which has the bucket `b`, or all the locks. -/
def Owns (e : Env) (nb b : Nat) : Pc → Prop
  | .oneHeld key _ _ => e.hash key nb = b
  | .bktHeld b' _ => b' = b
  | .multiHeld keys _ _ => ∃ k ∈ keys, e.hash k nb = b
  | .allHeld _ => True
  | _ => False

/-- SPECIFICATION. The lock that the thread owns is a shared one. -/
def OwnsShared : Pc → Bool
  | .oneHeld _ sh _ | .bktHeld _ sh | .multiHeld _ sh _ | .allHeld sh => sh
  | _ => false

/-- SPECIFICATION. The thread is not inside any method, having got a lock. -/
def Owner : Pc → Bool
  | .oneHeld _ _ _ | .bktHeld _ _ | .multiHeld _ _ _ | .allHeld _ => true
  | _ => false

/-! ### The slots of a thread -/

theorem slotSet_lt {e : Env} {keys : List Bytes} {nb k : Nat} (h : k ∈ slotSet e keys nb) : k < e.slots := by
  simp only [slotSet, List.mem_filter, List.mem_range] at h
  exact h.1

theorem mem_slotSet {e : Env} (h0 : 0 < e.slots) {keys : List Bytes} {nb : Nat} {k : Bytes} (h : k ∈ keys) :
    e.hash k nb % e.slots ∈ slotSet e keys nb := by
  simp only [slotSet, List.mem_filter, List.mem_range]
  refine ⟨Nat.mod_lt _ h0, ?_⟩
  rw [List.any_eq_true]
  exact ⟨k, h, by simp⟩

theorem slotSet_length {e : Env} (keys : List Bytes) (nb : Nat) : (slotSet e keys nb).length ≤ e.slots := by
  have := List.length_filter_le (fun s => keys.any fun k => e.hash k nb % e.slots == s) (List.range e.slots)
  simpa [slotSet] using this

theorem otherSlots_length {e : Env} (keys : List Bytes) (nb : Nat) : (otherSlots e keys nb).length ≤ e.slots :=
  Nat.le_trans (List.length_filter_le _ _) (slotSet_length keys nb)

theorem otherSlots_sorted (e : Env) (keys : List Bytes) (nb : Nat) : (otherSlots e keys nb).Pairwise (· < ·) := by
  unfold otherSlots slotSet
  exact (List.pairwise_lt_range.filter _).filter _

theorem otherSlots_pos {e : Env} {keys : List Bytes} {nb k : Nat} (h : k ∈ otherSlots e keys nb) : 0 < k := by
  simp only [otherSlots, List.mem_filter] at h
  have := h.2
  simp at this
  omega

theorem otherSlots_lt {e : Env} {keys : List Bytes} {nb k : Nat} (h : k ∈ otherSlots e keys nb) : k < e.slots := by
  simp only [otherSlots, List.mem_filter] at h
  exact slotSet_lt h.1

/-- A thread waits only for a slot above all that it has locked. -/
theorem waits_above {e : Env} {pc : Pc} {k k' : Nat} (hw : waits e pc = some k) (hh : k' ∈ holds e pc) : k' < k := by
  cases pc <;> simp only [waits, holds, reduceCtorEq] at hw hh <;> try (simp at hh; done)
  case multiLock keys sh n m =>
    rw [List.mem_cons] at hh
    rcases hh with rfl | hh
    · exact otherSlots_pos (List.mem_of_getElem? hw)
    · obtain ⟨i, hi, hk⟩ := List.mem_iff_getElem.1 hh
      have hlen := (List.getElem?_eq_some_iff.1 hw).1
      have him : i < m := by
        rw [List.length_take] at hi
        omega
      have hs := List.pairwise_iff_getElem.1 (otherSlots_sorted e keys n) i m (by omega) hlen him
      rw [List.getElem_take] at hk
      rw [hk] at hs
      rw [(List.getElem?_eq_some_iff.1 hw).2] at hs
      exact hs
  case allLock sh m =>
    split at hw
    · cases hw
      exact List.mem_range.1 hh
    · cases hw

theorem waits_lt {e : Env} (h0 : 0 < e.slots) {pc : Pc} {k : Nat} (hw : waits e pc = some k) : k < e.slots := by
  cases pc <;> simp only [waits, reduceCtorEq, Option.some.injEq] at hw
  case oneLock => subst hw; exact Nat.mod_lt _ h0
  case bktLock => subst hw; exact Nat.mod_lt _ h0
  case multiStart => omega
  case multiLock => exact otherSlots_lt (List.mem_of_getElem? hw)
  case allLock sh m =>
    split at hw
    · cases hw; assumption
    · cases hw

/-- After a step a thread has no slot but those it had and the one it waited for, in the mode it had before. -/
theorem holds_step {e : Env} {nb : Nat} {ok quiet : Bool} {pc : Pc} {a : Act} {k : Nat}
    (h : k ∈ holds e (stepPc e nb ok quiet pc a).2) :
    shared (stepPc e nb ok quiet pc a).2 = shared pc ∧ (k ∈ holds e pc ∨ (waits e pc = some k ∧ ok = true)) := by
  generalize hst : stepPc e nb ok quiet pc a = r at h ⊢
  cases pc <;> cases a <;> simp only [stepPc] at hst <;>
    first
    | (subst hst; simp [holds] at h; done)
    | (subst hst; exact ⟨rfl, .inl h⟩)
    | skip
  case oneLock.go key sh n =>
    split at hst <;> subst hst
    · simp only [holds, List.mem_singleton] at h
      exact ⟨rfl, .inr ⟨by simp [waits, h], by assumption⟩⟩
    · simp [holds] at h
  case oneCheck.go => split at hst <;> (subst hst; exact ⟨rfl, .inl h⟩)
  case bktStart.go => split at hst <;> (subst hst; simp [holds] at h)
  case bktLock.go b sh n =>
    split at hst <;> subst hst
    · simp only [holds, List.mem_singleton] at h
      exact ⟨rfl, .inr ⟨by simp [waits, h], by assumption⟩⟩
    · simp [holds] at h
  case bktCheck.go => split at hst <;> (subst hst; exact ⟨rfl, .inl h⟩)
  case multiStart.go keys sh =>
    split at hst <;> subst hst
    · simp only [holds, List.mem_singleton] at h
      exact ⟨rfl, .inr ⟨by simp [waits, h], by assumption⟩⟩
    · simp [holds] at h
  case multiLock.go keys sh n m =>
    split at hst
    · split at hst <;> subst hst
      · simp only [holds, List.mem_cons] at h ⊢
        refine ⟨rfl, ?_⟩
        rcases h with rfl | h
        · exact .inl (.inl rfl)
        · rw [List.take_add_one, List.mem_append] at h
          rcases h with h | h
          · exact .inl (.inr h)
          · right
            refine ⟨?_, by assumption⟩
            simpa [waits] using h
      · exact ⟨rfl, .inl h⟩
    · subst hst
      refine ⟨rfl, .inl ?_⟩
      simp only [holds] at h ⊢
      rwa [List.take_of_length_le (by omega)]
  case multiEnd.go keys sh n =>
    subst hst
    refine ⟨rfl, .inl ?_⟩
    simp only [holds] at h ⊢
    by_cases hk : k = 0
    · simp [hk]
    · rw [List.mem_cons]
      right
      simp only [otherSlots, List.mem_filter]
      exact ⟨h, by simpa using hk⟩
  case multiHeld.unlock keys sh n =>
    subst hst
    refine ⟨rfl, .inl ?_⟩
    simpa [holds] using h
  case multiUnlock.go keys sh n m =>
    split at hst <;> subst hst
    · simp [holds] at h
    · refine ⟨rfl, .inl ?_⟩
      simp only [holds] at h ⊢
      exact (List.take_subset_take_left _ (Nat.sub_le _ _)) h
  case allLock.go sh m =>
    split at hst
    · split at hst <;> subst hst
      · simp only [holds, List.mem_range] at h ⊢
        refine ⟨rfl, ?_⟩
        by_cases hk : k < m
        · exact .inl hk
        · right
          refine ⟨?_, by assumption⟩
          simp only [waits]
          rw [if_pos (by assumption)]
          congr 1
          omega
      · exact ⟨rfl, .inl h⟩
    · subst hst
      refine ⟨rfl, .inl ?_⟩
      simp only [holds, List.mem_range] at h ⊢
      omega
  case allUnlock.go sh m =>
    split at hst <;> subst hst
    · simp [holds] at h
    · refine ⟨rfl, .inl ?_⟩
      simp only [holds, List.mem_range] at h ⊢
      omega
  case idle.rehash => split at hst <;> (subst hst; simp [holds] at h)
  case allHeld.rehash sh n => cases sh <;> (simp only [stepPc] at hst; subst hst; exact ⟨rfl, .inl h⟩)

/-! ### Exclusion -/

theorem canLock_iff {e : Env} {s : State} {i k : Nat} {sh : Bool} : canLock e s i k sh = true ↔
    ∀ (j : Nat) (pc : Pc), s.threads[j]? = some pc → j ≠ i → k ∈ holds e pc → sh = true ∧ shared pc = true := by
  unfold canLock
  rw [List.all_eq_true]
  constructor
  · intro h j pc hj hne hk
    have := h j (List.mem_range.2 (List.getElem?_eq_some_iff.1 hj).1)
    rw [hj] at this
    simp only [Bool.or_eq_true, decide_eq_true_eq, Bool.not_eq_true', Bool.and_eq_true] at this
    rcases this with (h1 | h1) | h1
    · exact absurd h1 hne
    · rw [List.contains_eq_mem] at h1
      simp [hk] at h1
    · exact h1
  · intro h j _
    cases hj : s.threads[j]? with
    | none => rfl
    | some pc =>
      simp only [Bool.or_eq_true, decide_eq_true_eq, Bool.not_eq_true', Bool.and_eq_true]
      by_cases hji : j = i
      · exact .inl (.inl hji)
      · by_cases hk : k ∈ holds e pc
        · exact .inr (h j pc hj hji hk)
        · left; right
          rw [List.contains_eq_mem]
          simpa using hk

/-- Two threads have the same slot only if both share it. -/
def Excl (e : Env) (s : State) : Prop :=
  ∀ (i j : Nat) (p q : Pc) (k : Nat), i ≠ j → s.threads[i]? = some p → s.threads[j]? = some q → k ∈ holds e p → k ∈ holds e q →
    shared p = true ∧ shared q = true

theorem step_get {e : Env} {s : State} {ev : Event} {pc : Pc} (h : s.threads[ev.1]? = some pc) :
    step e s ev = ⟨(stepPc e s.nb (ready e s ev.1 pc) (s.threads.all (· = .idle)) pc ev.2).1,
      s.threads.set ev.1 (stepPc e s.nb (ready e s ev.1 pc) (s.threads.all (· = .idle)) pc ev.2).2⟩ := by
  unfold step
  rw [h]

theorem Excl.one {e : Env} {s : State} (hx : Excl e s) {i j : Nat} {p q : Pc} {a : Act} {k : Nat} {quiet : Bool} (hne : i ≠ j)
    (hp : s.threads[i]? = some p) (hq : s.threads[j]? = some q)
    (hk : k ∈ holds e (stepPc e s.nb (ready e s i p) quiet p a).2) (hk' : k ∈ holds e q) :
    shared (stepPc e s.nb (ready e s i p) quiet p a).2 = true ∧ shared q = true := by
  obtain ⟨h1, h2⟩ := holds_step hk
  rw [h1]
  rcases h2 with h2 | ⟨h2, h3⟩
  · exact hx i j p q k hne hp hq h2 hk'
  · unfold ready at h3
    rw [h2] at h3
    exact canLock_iff.1 h3 j q hq (Ne.symm hne) hk'

theorem Excl.step {e : Env} {s : State} (hx : Excl e s) (ev : Event) : Excl e (step e s ev) := by
  cases hp : s.threads[ev.1]? with
  | none => unfold HashMutex.step; rw [hp]; exact hx
  | some pc =>
    rw [step_get hp]
    have hlt := (List.getElem?_eq_some_iff.1 hp).1
    intro i j p q k hne h1 h2 hk1 hk2
    simp only at h1 h2
    by_cases hi : ev.1 = i
    · subst hi
      rw [List.getElem?_set_self hlt] at h1
      rw [List.getElem?_set_ne hne] at h2
      cases h1
      exact hx.one hne hp h2 hk1 hk2
    · rw [List.getElem?_set_ne hi] at h1
      by_cases hj : ev.1 = j
      · subst hj
        rw [List.getElem?_set_self hlt] at h2
        cases h2
        exact (hx.one hi hp h1 hk2 hk1).symm
      · rw [List.getElem?_set_ne hj] at h2
        exact hx i j p q k hne h1 h2 hk1 hk2

theorem holds_lt {e : Env} (h0 : 0 < e.slots) {pc : Pc} {k : Nat} (h : k ∈ holds e pc)
    (hm : ∀ sh m, pc = .allLock sh m ∨ pc = .allUnlock sh m → m ≤ e.slots) : k < e.slots := by
  cases pc <;> simp only [holds, List.mem_cons, List.not_mem_nil, List.mem_range, or_false] at h
  case oneCheck => subst h; exact Nat.mod_lt _ h0
  case oneBack => subst h; exact Nat.mod_lt _ h0
  case oneHeld => subst h; exact Nat.mod_lt _ h0
  case bktCheck => subst h; exact Nat.mod_lt _ h0
  case bktBack => subst h; exact Nat.mod_lt _ h0
  case bktHeld => subst h; exact Nat.mod_lt _ h0
  case multiLoad => omega
  case multiLock =>
    rcases h with rfl | h
    · exact h0
    · exact otherSlots_lt (List.mem_of_mem_take h)
  case multiEnd =>
    rcases h with rfl | h
    · exact h0
    · exact otherSlots_lt h
  case multiHeld => exact slotSet_lt h
  case multiUnlock => exact slotSet_lt (List.mem_of_mem_take h)
  case allLock sh m => have := hm sh m (.inl rfl); omega
  case allUnlock sh m => have := hm sh m (.inr rfl); omega
  case allHeld => exact h

/-- What is known of the numbers that a thread has read. -/
def Good (e : Env) (nb : Nat) : Pc → Prop
  | .oneHeld _ _ n => n = nb
  | .bktLock b _ n | .bktCheck b _ n => b < n
  | .bktHeld b _ => b < nb
  | .multiLock _ _ n _ | .multiEnd _ _ n => n = nb
  | .multiHeld keys _ n => keys ≠ [] → n = nb
  | .allLock _ m | .allUnlock _ m => m ≤ e.slots
  | _ => True

theorem Good.step {e : Env} {nb : Nat} {pc : Pc} (h : Good e nb pc) (ok quiet : Bool) (a : Act)
    (hn : (stepPc e nb ok quiet pc a).1 = nb) : Good e nb (stepPc e nb ok quiet pc a).2 := by
  generalize hst : stepPc e nb ok quiet pc a = r at hn ⊢
  cases pc <;> cases a <;> simp only [stepPc] at hst <;>
    first
    | (subst hst; exact h)
    | (subst hst; exact trivial)
    | skip
  case idle.rehash => split at hst <;> (subst hst; exact trivial)
  case oneLock.go => split at hst <;> (subst hst; exact trivial)
  case oneCheck.go =>
    split at hst <;> subst hst
    · rename_i hh; exact hh.symm
    · exact trivial
  case bktStart.go =>
    split at hst <;> subst hst
    · exact trivial
    · simp only [Good]; omega
  case bktLock.go => split at hst <;> (subst hst; exact h)
  case bktCheck.go =>
    split at hst <;> subst hst
    · simp only [Good] at h ⊢; omega
    · exact trivial
  case multiStart.go => split at hst <;> (subst hst; exact trivial)
  case multiLoad.go => subst hst; rfl
  case multiLock.go => split at hst <;> (try split at hst) <;> (subst hst; exact h)
  case multiEnd.go => subst hst; exact fun _ => h
  case multiUnlock.go => split at hst <;> (subst hst; exact trivial)
  case idle.lockAll => subst hst; exact Nat.zero_le _
  case allLock.go =>
    split at hst
    · split at hst <;> subst hst
      · simp only [Good]; omega
      · exact h
    · subst hst; exact trivial
  case allHeld.unlock => subst hst; exact Nat.le_refl _
  case allHeld.rehash sh _ => cases sh <;> (simp only [stepPc] at hst; subst hst; exact trivial)
  case allUnlock.go =>
    split at hst <;> subst hst
    · exact trivial
    · simp only [Good] at h ⊢; omega

theorem Good.unheld {e : Env} {nb nb' : Nat} {pc : Pc} (h0 : 0 < e.slots) (h : Good e nb pc) (hh : ∀ k, k ∉ holds e pc) :
    Good e nb' pc := by
  cases pc <;> simp only [Good] at h ⊢ <;> try exact h
  case oneHeld key sh n => exact absurd (by simp [holds]) (hh (e.hash key n % e.slots))
  case bktHeld b sh => exact absurd (by simp [holds]) (hh (b % e.slots))
  case multiLock => exact absurd (by simp [holds]) (hh 0)
  case multiEnd => exact absurd (by simp [holds]) (hh 0)
  case multiHeld keys sh n =>
    intro hk
    cases keys with
    | nil => exact absurd rfl hk
    | cons k ks => exact absurd (mem_slotSet h0 (List.mem_cons_self)) (hh (e.hash k n % e.slots))

/-- Only a thread with all the locks changes the number of buckets, if any thread is active. -/
theorem rehash_only {e : Env} {nb : Nat} {ok quiet : Bool} {pc : Pc} {a : Act} (h : (stepPc e nb ok quiet pc a).1 ≠ nb) :
    (pc = .allHeld false ∨ (pc = .idle ∧ quiet = true)) ∧ (stepPc e nb ok quiet pc a).2 = pc := by
  generalize hst : stepPc e nb ok quiet pc a = r at h ⊢
  cases pc <;> cases a <;> simp only [stepPc] at hst <;> try (subst hst; exact absurd rfl h)
  case idle.rehash =>
    split at hst <;> subst hst
    · exact ⟨.inr ⟨rfl, by assumption⟩, rfl⟩
    · exact absurd rfl h
  case allHeld.rehash sh _ =>
    cases sh <;> (simp only [stepPc] at hst; subst hst)
    · exact ⟨.inl rfl, rfl⟩
    · exact absurd rfl h
  all_goals (repeat' split at hst) <;> (subst hst; exact absurd rfl h)

structure Inv (e : Env) (s : State) : Prop where
  excl : Excl e s
  good : ∀ (i : Nat) (pc : Pc), s.threads[i]? = some pc → Good e s.nb pc

/-- Besides a thread with all the locks no other thread has any slot. -/
theorem Inv.alone {e : Env} {s : State} (h0 : 0 < e.slots) (h : Inv e s) {i j : Nat} {q : Pc} (hi : s.threads[i]? = some (.allHeld false))
    (hj : s.threads[j]? = some q) (hne : i ≠ j) (k : Nat) : k ∉ holds e q := by
  intro hk
  have hlt : k < e.slots := holds_lt h0 hk (by
    intro sh m hm
    have := h.good j q hj
    rcases hm with rfl | rfl <;> exact this)
  have := (h.excl i j _ q k hne hi hj (by simpa [holds] using hlt) hk).1
  exact absurd this (by simp [shared])

theorem Inv.step {e : Env} (h0 : 0 < e.slots) {s : State} (h : Inv e s) (ev : Event) : Inv e (step e s ev) := by
  refine ⟨h.excl.step ev, ?_⟩
  cases hp : s.threads[ev.1]? with
  | none => unfold HashMutex.step; rw [hp]; exact h.good
  | some pc =>
    rw [step_get hp]
    generalize hok : ready e s ev.1 pc = ok
    generalize hqu : (s.threads.all (· = .idle)) = quiet
    have hlt := (List.getElem?_eq_some_iff.1 hp).1
    intro j q hj
    simp only at hj ⊢
    by_cases hn : (stepPc e s.nb ok quiet pc ev.2).1 = s.nb
    · rw [hn]
      by_cases hje : ev.1 = j
      · subst hje
        rw [List.getElem?_set_self hlt] at hj
        cases hj
        exact (h.good _ _ hp).step ok quiet ev.2 hn
      · rw [List.getElem?_set_ne hje] at hj
        exact h.good j q hj
    · obtain ⟨h1, h2⟩ := rehash_only hn
      by_cases hje : ev.1 = j
      · subst hje
        rw [List.getElem?_set_self hlt] at hj
        cases hj
        rw [h2]
        rcases h1 with rfl | ⟨rfl, _⟩ <;> exact trivial
      · rw [List.getElem?_set_ne hje] at hj
        rcases h1 with rfl | ⟨rfl, hq⟩
        · exact (h.good j q hj).unheld h0 (h.alone h0 hp hj hje)
        · rw [← hqu, List.all_eq_true] at hq
          have := hq q (List.mem_of_getElem? hj)
          simp only [decide_eq_true_eq] at this
          subst this
          exact trivial

theorem inv_run {e : Env} (h0 : 0 < e.slots) (n nb : Nat) (es : List Event) : Inv e (run e n nb es) := by
  unfold run
  have hs : Inv e (start n nb) := by
    refine ⟨?_, ?_⟩
    · intro i j p q k _ hi _ hk
      have : p = .idle := by
        have := List.mem_of_getElem? hi
        simp only [start, List.mem_replicate] at this
        exact this.2
      subst this
      simp [holds] at hk
    · intro i pc hi
      have := List.mem_of_getElem? hi
      simp only [start, List.mem_replicate] at this
      rw [this.2]
      exact trivial
  generalize start n nb = s at hs
  induction es generalizing s with
  | nil => exact hs
  | cons ev es ih => exact ih _ (hs.step h0 ev)

/-- An owner of a bucket has the slot of the bucket locked, in the mode of the ownership. -/
theorem owns_holds {e : Env} {nb b : Nat} {pc : Pc} (h0 : 0 < e.slots) (hg : Good e nb pc) (h : Owns e nb b pc) :
    b % e.slots ∈ holds e pc ∧ shared pc = OwnsShared pc := by
  cases pc <;> simp only [Owns] at h
  case oneHeld key sh n =>
    cases hg
    exact ⟨by simp [holds, h], rfl⟩
  case bktHeld b' sh =>
    subst h
    exact ⟨by simp [holds], rfl⟩
  case multiHeld keys sh n =>
    obtain ⟨k, hk, hb⟩ := h
    have hn : n = nb := hg (by rintro rfl; simp at hk)
    subst hn
    refine ⟨?_, rfl⟩
    simp only [holds]
    rw [← hb]
    exact mem_slotSet h0 hk
  case allHeld sh =>
    exact ⟨by simpa [holds] using Nat.mod_lt b h0, rfl⟩

/-! ### C32 -/

/-- **C32.** Whatever the threads do, two different threads own the same bucket only if both share it: by the lock of a key, of a
bucket, of several keys, or of everything. The bucket is that of the number of buckets in force now. -/
theorem C32_exclusion (e : Env) (h0 : 0 < e.slots) (n nb : Nat) (es : List Event) (i j : Nat) (p q : Pc) (b : Nat) (hne : i ≠ j)
    (hi : (run e n nb es).threads[i]? = some p) (hj : (run e n nb es).threads[j]? = some q)
    (hp : Owns e (run e n nb es).nb b p) (hq : Owns e (run e n nb es).nb b q) : OwnsShared p = true ∧ OwnsShared q = true := by
  have h := inv_run h0 n nb es
  obtain ⟨h1, h2⟩ := owns_holds h0 (h.good i p hi) hp
  obtain ⟨h3, h4⟩ := owns_holds h0 (h.good j q hj) hq
  rw [← h2, ← h4]
  exact h.excl i j p q _ hne hi hj h1 h3

/-- **C32.** A thread that has got the lock of a key, a bucket or some keys used the number of buckets that is in force for as long as it
has the lock: the bucket of a key that `LockOne` returned is the bucket of the key now, the bucket given to `LockOne` exists, and so for
the buckets that `LockMulti` returned. -/
theorem C32_current (e : Env) (h0 : 0 < e.slots) (n nb : Nat) (es : List Event) (i : Nat) :
    (∀ key sh m, (run e n nb es).threads[i]? = some (.oneHeld key sh m) → e.hash key m = e.hash key (run e n nb es).nb) ∧
    (∀ b sh, (run e n nb es).threads[i]? = some (.bktHeld b sh) → b < (run e n nb es).nb) ∧
    (∀ keys sh m, (run e n nb es).threads[i]? = some (.multiHeld keys sh m) →
      keys.map (fun k => e.hash k m) = keys.map (fun k => e.hash k (run e n nb es).nb)) := by
  have h := inv_run h0 n nb es
  refine ⟨?_, ?_, ?_⟩
  · intro key sh m hi
    have := h.good i _ hi
    cases this
    rfl
  · intro b sh hi
    exact h.good i _ hi
  · intro keys sh m hi
    have := h.good i _ hi
    cases keys with
    | nil => rfl
    | cons k ks =>
      have := this (by simp)
      subst this
      rfl

/-- **C32.** The number of buckets is never changed while another thread owns a bucket. -/
theorem C32_rehash (e : Env) (h0 : 0 < e.slots) (n nb : Nat) (es : List Event) (ev : Event)
    (h : (step e (run e n nb es) ev).nb ≠ (run e n nb es).nb) (j : Nat) (q : Pc) (b : Nat) (hj : (run e n nb es).threads[j]? = some q)
    (hne : j ≠ ev.1) : ¬ Owns e (run e n nb es).nb b q := by
  intro hb
  have hi := inv_run h0 n nb es
  generalize run e n nb es = s at *
  cases hp : s.threads[ev.1]? with
  | none => unfold step at h; rw [hp] at h; exact h rfl
  | some pc =>
    rw [step_get hp] at h
    rcases (rehash_only h).1 with rfl | ⟨rfl, hq⟩
    · exact hi.alone h0 hp hj (Ne.symm hne) _ (owns_holds h0 (hi.good j q hj) hb).1
    · rw [List.all_eq_true] at hq
      have := hq q (List.mem_of_getElem? hj)
      simp only [decide_eq_true_eq] at this
      subst this
      exact hb

/-! ### The threads can go on -/

theorem ready_exists {e : Env} (h0 : 0 < e.slots) (s : State) : ∀ (d i : Nat) (pc : Pc) (k : Nat), s.threads[i]? = some pc →
    waits e pc = some k → e.slots - k ≤ d → ∃ (j : Nat) (q : Pc), s.threads[j]? = some q ∧ q ≠ .idle ∧ ready e s j q = true := by
  intro d
  induction d with
  | zero =>
    intro i pc k _ hw hd
    have := waits_lt h0 hw
    omega
  | succ d ih =>
    intro i pc k hi hw hd
    by_cases hr : ready e s i pc = true
    · exact ⟨i, pc, hi, by rintro rfl; simp [waits] at hw, hr⟩
    · have hc : ¬ canLock e s i k (shared pc) = true := by
        unfold ready at hr
        rw [hw] at hr
        exact hr
      rw [canLock_iff] at hc
      have : ∃ (j : Nat) (q : Pc), s.threads[j]? = some q ∧ k ∈ holds e q := by
        refine Classical.byContradiction fun hno => hc ?_
        intro j q hj _ hk
        exact absurd ⟨j, q, hj, hk⟩ hno
      obtain ⟨j, q, hj, hk⟩ := this
      cases hwq : waits e q with
      | none =>
        refine ⟨j, q, hj, ?_, ?_⟩
        · rintro rfl; simp [holds] at hk
        · unfold ready; rw [hwq]
      | some k' =>
        have := waits_above hwq hk
        have := waits_lt h0 hwq
        exact ih j q k' hj hwq (by omega)

/-- The event with which a thread goes on: an owner unlocks, the others go on with the method they are in. -/
def next (pc : Pc) : Act := if Owner pc then .unlock else .go

/-- How many steps a thread still has to do when the number of buckets does not change. -/
def work (e : Env) (nb : Nat) : Pc → Nat
  | .idle => 0
  | .oneHeld _ _ _ => 1
  | .oneCheck _ _ n => if n = nb then 2 else 6
  | .oneLock _ _ n => if n = nb then 3 else 7
  | .oneStart _ _ => 4
  | .oneBack _ _ _ => 5
  | .bktHeld _ _ => 1
  | .bktBack _ _ => 1
  | .bktCheck _ _ _ => 2
  | .bktLock _ _ _ => 3
  | .bktStart _ _ => 4
  | .multiUnlock _ _ _ m => m + 1
  | .multiHeld _ _ _ => e.slots + 2
  | .multiEnd _ _ _ => e.slots + 3
  | .multiLock keys _ n m => e.slots + 4 + ((otherSlots e keys n).length - m)
  | .multiLoad _ _ => 2 * e.slots + 5
  | .multiStart _ _ => 2 * e.slots + 6
  | .allUnlock _ m => m + 1
  | .allHeld _ => e.slots + 2
  | .allLock _ m => e.slots + 3 + (e.slots - m)

/-- A step of a ready thread is one step less to do. -/
theorem work_next {e : Env} {nb : Nat} {quiet : Bool} {pc : Pc} (h : pc ≠ .idle) :
    (stepPc e nb true quiet pc (next pc)).1 = nb ∧ work e nb (stepPc e nb true quiet pc (next pc)).2 < work e nb pc := by
  cases pc <;> simp only [next, Owner, Bool.false_eq_true, if_false, if_true, stepPc]
  case idle => exact absurd rfl h
  case oneStart => simp [work]
  case oneLock => refine ⟨by trivial, ?_⟩; simp only [work]; split <;> omega
  case oneCheck key sh n =>
    split
    · refine ⟨by trivial, ?_⟩; simp only [work]; split <;> omega
    · refine ⟨by trivial, ?_⟩; simp only [work]; split <;> omega
  case oneBack => simp [work]
  case oneHeld => simp [work]
  case bktStart => split <;> simp [work]
  case bktLock => simp [work]
  case bktCheck => split <;> simp [work]
  case bktBack => simp [work]
  case bktHeld => simp [work]
  case multiStart => refine ⟨by trivial, ?_⟩; simp only [work]; omega
  case multiLoad keys sh =>
    refine ⟨by trivial, ?_⟩
    have := otherSlots_length (e := e) keys nb
    simp only [work]; omega
  case multiLock keys sh n m => split <;> (refine ⟨by trivial, ?_⟩; simp only [work]; omega)
  case multiEnd => refine ⟨by trivial, ?_⟩; simp only [work]; omega
  case multiHeld keys sh n =>
    refine ⟨by trivial, ?_⟩
    have := slotSet_length (e := e) keys n
    simp only [work]; omega
  case multiUnlock => split <;> (refine ⟨by trivial, ?_⟩; simp only [work]; omega)
  case allLock => split <;> (refine ⟨by trivial, ?_⟩; simp only [work]; omega)
  case allHeld => refine ⟨by trivial, ?_⟩; simp only [work]; omega
  case allUnlock => split <;> (refine ⟨by trivial, ?_⟩; simp only [work]; omega)

/-- A step of a thread that is not ready changes nothing, and so does `go` for an owner and `unlock` for the others. -/
theorem work_step {e : Env} {nb : Nat} {ok quiet : Bool} {pc : Pc} {a : Act} (ha : a = .go ∨ a = .unlock)
    (hok : waits e pc = none → ok = true) : (stepPc e nb ok quiet pc a).1 = nb ∧
      ((stepPc e nb ok quiet pc a).2 = pc ∨ work e nb (stepPc e nb ok quiet pc a).2 < work e nb pc) := by
  by_cases hi : pc = .idle
  · subst hi
    rcases ha with rfl | rfl <;> exact ⟨rfl, .inl rfl⟩
  by_cases hx : a = next pc
  · cases ok with
    | true =>
      subst hx
      exact ⟨(work_next hi).1, .inr (work_next hi).2⟩
    | false =>
      cases pc <;> simp only [next, Owner, Bool.false_eq_true, if_false, if_true] at hx <;> subst hx <;>
        simp only [waits, reduceCtorEq, imp_false, not_true_eq_false, Bool.false_eq_true, not_false_eq_true] at hok <;>
        simp only [stepPc, Bool.false_eq_true, if_false] <;> try first | exact ⟨rfl, .inl rfl⟩ | exact ⟨trivial, .inl trivial⟩
      case multiLock keys sh n m =>
        rw [List.getElem?_eq_none_iff] at hok
        rw [if_pos (by omega)]
        exact ⟨rfl, .inl rfl⟩
      case allLock sh m =>
        split
        · exact ⟨rfl, .inl rfl⟩
        · rename_i hm
          rw [if_neg hm] at hok
          exact absurd rfl hok
  · rcases ha with rfl | rfl <;> cases pc <;> simp only [next, Owner, Bool.false_eq_true, if_false, if_true, not_true_eq_false,
      reduceCtorEq, not_false_eq_true] at hx <;> exact ⟨rfl, .inl rfl⟩

theorem ready_none {e : Env} {s : State} {i : Nat} {pc : Pc} (h : waits e pc = none) : ready e s i pc = true := by
  unfold ready; rw [h]

/-- The steps left of all the threads. -/
def workAll (e : Env) (s : State) : Nat := (s.threads.map (work e s.nb)).sum

theorem sum_set {α : Type} (f : α → Nat) : ∀ (l : List α) (i : Nat) (a b : α), l[i]? = some a →
    ((l.set i b).map f).sum + f a = (l.map f).sum + f b
  | [], i, a, b, h => by simp at h
  | x :: l, 0, a, b, h => by
    simp only [List.getElem?_cons_zero, Option.some.injEq] at h
    subst h
    simp only [List.set_cons_zero, List.map_cons, List.sum_cons]
    omega
  | x :: l, i + 1, a, b, h => by
    have := sum_set f l i a b (by simpa using h)
    simp only [List.set_cons_succ, List.map_cons, List.sum_cons]
    omega

theorem set_self {α : Type} : ∀ (l : List α) (i : Nat) (a : α), l[i]? = some a → l.set i a = l
  | [], i, a, h => by simp at h
  | x :: l, 0, a, h => by
    simp only [List.getElem?_cons_zero, Option.some.injEq] at h
    subst h
    rfl
  | x :: l, i + 1, a, h => by
    rw [List.set_cons_succ, set_self l i a (by simpa using h)]

/-- A step of going on or unlocking changes nothing, or leaves less to do. -/
theorem workAll_step {e : Env} {s : State} {j : Nat} {a : Act} (ha : a = .go ∨ a = .unlock) :
    step e s (j, a) = s ∨ workAll e (step e s (j, a)) < workAll e s := by
  cases hp : s.threads[j]? with
  | none => left; unfold step; simp only [hp]
  | some pc =>
    rw [step_get (ev := (j, a)) hp]
    obtain ⟨h1, h2⟩ := work_step (e := e) (nb := s.nb) (ok := ready e s j pc) (quiet := s.threads.all (· = .idle)) (pc := pc) ha
      (fun h => ready_none h)
    simp only
    rw [h1]
    rcases h2 with h2 | h2
    · left
      rw [h2, set_self _ _ _ hp]
    · right
      unfold workAll
      have := sum_set (work e s.nb) s.threads j pc (stepPc e s.nb (ready e s j pc) (s.threads.all (· = .idle)) pc a).2 hp
      simp only
      omega

/-- **C32. No deadlock.** Whatever the threads have done, as long as some thread is inside a method or owns a lock, there is a thread that
owns a lock (and can unlock it), or one that is inside a method and for which going on changes something. -/
theorem C32_no_deadlock (e : Env) (h0 : 0 < e.slots) (n nb : Nat) (es : List Event)
    (h : ∃ (i : Nat) (pc : Pc), (run e n nb es).threads[i]? = some pc ∧ pc ≠ .idle) :
    ∃ (j : Nat) (q : Pc), (run e n nb es).threads[j]? = some q ∧
      ((Owner q = true ∧ step e (run e n nb es) (j, .unlock) ≠ run e n nb es) ∨
       (Owner q = false ∧ step e (run e n nb es) (j, .go) ≠ run e n nb es)) := by
  generalize run e n nb es = s at *
  obtain ⟨i, pc, hi, hne⟩ := h
  have : ∃ (j : Nat) (q : Pc), s.threads[j]? = some q ∧ q ≠ .idle ∧ ready e s j q = true := by
    cases hw : waits e pc with
    | none => exact ⟨i, pc, hi, hne, ready_none hw⟩
    | some k => exact ready_exists h0 s _ i pc k hi hw (Nat.le_refl _)
  obtain ⟨j, q, hj, hq, hr⟩ := this
  have key : step e s (j, next q) ≠ s := by
    intro hs
    have hw := (work_next (e := e) (nb := s.nb) (quiet := s.threads.all (· = .idle)) hq).2
    rw [step_get (ev := (j, next q)) hj] at hs
    simp only [hr] at hs
    have h2 := congrArg (fun t : State => t.threads[j]?) hs
    simp only [List.getElem?_set_self (List.getElem?_eq_some_iff.1 hj).1, hj, Option.some.injEq] at h2
    rw [h2] at hw
    omega
  refine ⟨j, q, hj, ?_⟩
  unfold next at key
  cases ho : Owner q with
  | true => left; rw [ho, if_pos rfl] at key; exact ⟨rfl, key⟩
  | false => right; rw [ho, if_neg (by simp)] at key; exact ⟨rfl, key⟩

/-- SPECIFICATION. How many of the events change the state. -/
def effective (e : Env) : State → List (Nat × Bool) → State × Nat
  | s, [] => (s, 0)
  | s, (j, u) :: es =>
    let s' := step e s (j, if u then .unlock else .go)
    let r := effective e s' es
    (r.1, if s'.threads = s.threads then r.2 else r.2 + 1)

/-- **C32. Every call returns.** If the threads call no further methods but those that unlock, then after a bounded number of steps there is
nothing left to do, in whatever order the threads run: there is no endless trying. -/
theorem C32_finishes (e : Env) (n nb : Nat) (es : List Event) :
    ∃ N, ∀ es' : List (Nat × Bool), (effective e (run e n nb es) es').2 ≤ N := by
  refine ⟨workAll e (run e n nb es), ?_⟩
  generalize run e n nb es = s
  intro es'
  induction es' generalizing s with
  | nil => simp [effective]
  | cons ev es' ih =>
    obtain ⟨j, u⟩ := ev
    simp only [effective]
    have hb := ih (step e s (j, if u then .unlock else .go))
    have := workAll_step (e := e) (s := s) (j := j) (a := if u then .unlock else .go) (by cases u <;> simp)
    rcases this with h | h
    · rw [h] at hb ⊢
      rw [if_pos rfl]
      exact hb
    · generalize step e s (j, if u then .unlock else .go) = s' at *
      by_cases hc : s'.threads = s.threads
      · rw [if_pos hc]; omega
      · rw [if_neg hc]; omega

/-- **C32.** From every state that the threads can get into they can all finish, by going on and unlocking only. -/
theorem C32_completes (e : Env) (h0 : 0 < e.slots) (n nb : Nat) (es : List Event) :
    ∃ es' : List (Nat × Bool), ∀ pc ∈ (effective e (run e n nb es) es').1.threads, pc = .idle := by
  have key : ∀ (w : Nat) (es : List Event), workAll e (run e n nb es) ≤ w →
      ∃ es' : List (Nat × Bool), ∀ pc ∈ (effective e (run e n nb es) es').1.threads, pc = .idle := by
    intro w
    induction w with
    | zero =>
      intro es hw
      by_cases h : ∃ (i : Nat) (pc : Pc), (run e n nb es).threads[i]? = some pc ∧ pc ≠ .idle
      · obtain ⟨j, q, hj, h⟩ := C32_no_deadlock e h0 n nb es h
        rcases h with ⟨_, h⟩ | ⟨_, h⟩
        · rcases workAll_step (e := e) (s := run e n nb es) (j := j) (a := .unlock) (.inr rfl) with h' | h'
          · exact absurd h' h
          · omega
        · rcases workAll_step (e := e) (s := run e n nb es) (j := j) (a := .go) (.inl rfl) with h' | h'
          · exact absurd h' h
          · omega
      · refine ⟨[], fun pc hpc => ?_⟩
        obtain ⟨i, hi⟩ := List.getElem?_of_mem hpc
        exact Classical.byContradiction fun hne => h ⟨i, pc, hi, hne⟩
    | succ w ih =>
      intro es hw
      by_cases h : ∃ (i : Nat) (pc : Pc), (run e n nb es).threads[i]? = some pc ∧ pc ≠ .idle
      · obtain ⟨j, q, hj, h⟩ := C32_no_deadlock e h0 n nb es h
        have : ∃ u : Bool, workAll e (step e (run e n nb es) (j, if u then .unlock else .go)) < workAll e (run e n nb es) := by
          rcases h with ⟨_, h⟩ | ⟨_, h⟩
          · exact ⟨true, (workAll_step (.inr rfl)).resolve_left h⟩
          · exact ⟨false, (workAll_step (.inl rfl)).resolve_left h⟩
        obtain ⟨u, hu⟩ := this
        have hr : run e n nb (es ++ [(j, if u then .unlock else .go)]) = step e (run e n nb es) (j, if u then .unlock else .go) := by
          unfold run; rw [List.foldl_append]; rfl
        obtain ⟨es', h'⟩ := ih (es ++ [(j, if u then .unlock else .go)]) (by rw [hr]; omega)
        rw [hr] at h'
        exact ⟨(j, u) :: es', h'⟩
      · refine ⟨[], fun pc hpc => ?_⟩
        obtain ⟨i, hi⟩ := List.getElem?_of_mem hpc
        exact Classical.byContradiction fun hne => h ⟨i, pc, hi, hne⟩
  exact key _ es (Nat.le_refl _)

/-! ### A thread alone -/

/-- The other threads are idle and thread `i` is at `pc`. -/
structure Solo (s : State) (nb i : Nat) (pc : Pc) : Prop where
  nb : s.nb = nb
  here : s.threads[i]? = some pc
  others : ∀ (j : Nat) (q : Pc), j ≠ i → s.threads[j]? = some q → q = .idle

theorem Solo.ready {e : Env} {s : State} {nb i : Nat} {pc : Pc} (h : Solo s nb i pc) : ready e s i pc = true := by
  unfold HashMutex.ready
  split
  · rw [canLock_iff]
    intro j q hj hne hk
    rw [h.others j q hne hj] at hk
    simp [holds] at hk
  · rfl

theorem Solo.step {e : Env} {s : State} {nb i : Nat} {pc pc' : Pc} {a : Act} (h : Solo s nb i pc)
    (ha : ∀ quiet, stepPc e nb true quiet pc a = (nb, pc')) : Solo (step e s (i, a)) nb i pc' := by
  rw [step_get (ev := (i, a)) h.here]
  simp only [h.ready, h.nb, ha]
  have hlt := (List.getElem?_eq_some_iff.1 h.here).1
  refine ⟨rfl, List.getElem?_set_self hlt, ?_⟩
  intro j q hj hq
  rw [List.getElem?_set_ne (Ne.symm hj)] at hq
  exact h.others j q hj hq

/-- SPECIFICATION. Thread `i` calls a method and goes on with it `m` steps. -/
def calls (e : Env) (s : State) (i : Nat) (a : Act) (m : Nat) : State :=
  (List.replicate m (i, Act.go)).foldl (HashMutex.step e) (HashMutex.step e s (i, a))

theorem Solo.multi {e : Env} {nb i : Nat} {keys : List Bytes} {sh : Bool} : ∀ (d m : Nat) (s : State),
    (otherSlots e keys nb).length - m = d → Solo s nb i (.multiLock keys sh nb m) →
    Solo ((List.replicate (d + 2) (i, Act.go)).foldl (HashMutex.step e) s) nb i (.multiHeld keys sh nb)
  | 0, m, s, hd, h => by
    have h1 : Solo (HashMutex.step e s (i, .go)) nb i (.multiEnd keys sh nb) := h.step fun _ => by
      simp only [stepPc]; rw [if_neg (by omega)]
    exact h1.step fun _ => rfl
  | d + 1, m, s, hd, h => by
    have h1 : Solo (HashMutex.step e s (i, .go)) nb i (.multiLock keys sh nb (m + 1)) := h.step fun _ => by
      simp only [stepPc]; rw [if_pos (by omega)]; rfl
    rw [show d + 1 + 2 = (d + 2) + 1 from rfl, List.replicate_succ, List.foldl_cons]
    exact Solo.multi d (m + 1) _ (by omega) h1

theorem Solo.all {e : Env} {nb i : Nat} {sh : Bool} : ∀ (d m : Nat) (s : State), e.slots - m = d → Solo s nb i (.allLock sh m) →
    Solo ((List.replicate (d + 1) (i, Act.go)).foldl (HashMutex.step e) s) nb i (.allHeld sh)
  | 0, m, s, hd, h => h.step fun _ => by simp only [stepPc]; rw [if_neg (by omega)]
  | d + 1, m, s, hd, h => by
    have h1 : Solo (HashMutex.step e s (i, .go)) nb i (.allLock sh (m + 1)) := h.step fun _ => by
      simp only [stepPc]; rw [if_pos (by omega)]; rfl
    rw [show d + 1 + 1 = (d + 1) + 1 from rfl, List.replicate_succ, List.foldl_cons]
    exact Solo.all d (m + 1) _ (by omega) h1

/-- **C32.** When the other threads are idle, a thread that asks for a lock gets it: of a key, of several keys, of everything, and of a
bucket if and only if the bucket exists. -/
theorem C32_granted (e : Env) (s : State) (i : Nat) (hi : i < s.threads.length) (h : ∀ pc ∈ s.threads, pc = .idle) (sh : Bool) :
    (∀ key, (calls e s i (.lockOne key sh) 3).threads[i]? = some (.oneHeld key sh s.nb)) ∧
    (∀ b, b < s.nb → (calls e s i (.lockBucket b sh) 3).threads[i]? = some (.bktHeld b sh)) ∧
    (∀ b, ¬ b < s.nb → (calls e s i (.lockBucket b sh) 1).threads[i]? = some .idle) ∧
    (∀ keys, ∃ m, (calls e s i (.lockMulti keys sh) m).threads[i]? = some (.multiHeld keys sh s.nb)) ∧
    (∃ m, (calls e s i (.lockAll sh) m).threads[i]? = some (.allHeld sh)) := by
  have hs : Solo s s.nb i .idle := by
    refine ⟨rfl, ?_, fun j q _ hq => h q (List.mem_of_getElem? hq)⟩
    rw [List.getElem?_eq_getElem hi, h _ (List.getElem_mem hi)]
  refine ⟨fun key => ?_, fun b hb => ?_, fun b hb => ?_, fun keys => ?_, ?_⟩
  · have h1 : Solo (HashMutex.step e s (i, .lockOne key sh)) s.nb i (.oneStart key sh) := hs.step fun _ => rfl
    have h2 : Solo (HashMutex.step e _ (i, .go)) s.nb i (.oneLock key sh s.nb) := h1.step fun _ => rfl
    have h3 : Solo (HashMutex.step e _ (i, .go)) s.nb i (.oneCheck key sh s.nb) := h2.step fun _ => rfl
    have h4 : Solo (HashMutex.step e _ (i, .go)) s.nb i (.oneHeld key sh s.nb) := h3.step fun _ => by
      simp [stepPc]
    exact h4.here
  · have h1 : Solo (HashMutex.step e s (i, .lockBucket b sh)) s.nb i (.bktStart b sh) := hs.step fun _ => rfl
    have h2 : Solo (HashMutex.step e _ (i, .go)) s.nb i (.bktLock b sh s.nb) := h1.step fun _ => by
      simp only [stepPc]; rw [if_neg (by omega)]
    have h3 : Solo (HashMutex.step e _ (i, .go)) s.nb i (.bktCheck b sh s.nb) := h2.step fun _ => rfl
    have h4 : Solo (HashMutex.step e _ (i, .go)) s.nb i (.bktHeld b sh) := h3.step fun _ => by
      simp [stepPc]
    exact h4.here
  · have h1 : Solo (HashMutex.step e s (i, .lockBucket b sh)) s.nb i (.bktStart b sh) := hs.step fun _ => rfl
    have h2 : Solo (HashMutex.step e _ (i, .go)) s.nb i .idle := h1.step fun _ => by
      simp only [stepPc]; rw [if_pos (by omega)]
    exact h2.here
  · have h1 : Solo (HashMutex.step e s (i, .lockMulti keys sh)) s.nb i (.multiStart keys sh) := hs.step fun _ => rfl
    have h2 : Solo (HashMutex.step e _ (i, .go)) s.nb i (.multiLoad keys sh) := h1.step fun _ => rfl
    have h3 : Solo (HashMutex.step e _ (i, .go)) s.nb i (.multiLock keys sh s.nb 0) := h2.step fun _ => rfl
    exact ⟨(otherSlots e keys s.nb).length + 2 + 1 + 1, (h3.multi _ 0 _ (by omega)).here⟩
  · have h1 : Solo (HashMutex.step e s (i, .lockAll sh)) s.nb i (.allLock sh 0) := hs.step fun _ => rfl
    exact ⟨e.slots + 1, (h1.all _ 0 _ (by omega)).here⟩

/-! ### Examples -/

/-- Two slots; the bucket of a key is its length modulo the number of buckets. -/
def sampleEnv : Env := ⟨2, fun k nb => k.length % nb⟩

/-- Thread 0 locks the keys of length 1 and 2 together while thread 1 locks a key of length 4, which is in the bucket 1 when there are
three buckets. Thread 1 has to wait until thread 0 unlocks; then it gets the lock. -/
def sampleEvents : List Event :=
  [(1, .lockOne [1, 2, 3, 4] false), (1, .go), (0, .lockMulti [[1], [1, 2]] false), (0, .go), (0, .go), (0, .go), (1, .go), (0, .go),
   (0, .go), (1, .go)]

example : (run sampleEnv 2 3 sampleEvents).threads =
    [.multiHeld [[1], [1, 2]] false 3, .oneLock [1, 2, 3, 4] false 3] := by decide +kernel

example : (run sampleEnv 2 3 (sampleEvents ++ [(0, .unlock), (0, .go), (0, .go), (0, .go), (1, .go), (1, .go)])).threads =
    [.idle, .oneHeld [1, 2, 3, 4] false 3] := by decide +kernel

/-- Two threads share the lock of the same bucket. -/
example : (run sampleEnv 2 3 [(0, .lockOne [1] true), (0, .go), (0, .go), (0, .go), (1, .lockMulti [[1], [1, 2]] true), (1, .go), (1, .go),
    (1, .go), (1, .go), (1, .go)]).threads = [.oneHeld [1] true 3, .multiHeld [[1], [1, 2]] true 3] ∧
    Owns sampleEnv 3 1 (.oneHeld [1] true 3) ∧ Owns sampleEnv 3 1 (.multiHeld [[1], [1, 2]] true 3) :=
  ⟨by decide +kernel, rfl, [1], by simp, rfl⟩

/-- The number of buckets changes between the reading and the locking of thread 1, which begins again and gets the lock of the new bucket. -/
example : (run sampleEnv 2 3 [(1, .lockOne [1, 2, 3, 4] false), (1, .go), (0, .lockAll false), (0, .go), (0, .go), (0, .go), (1, .go),
    (0, .rehash 4), (0, .unlock), (0, .go), (0, .go), (0, .go), (1, .go), (1, .go), (1, .go), (1, .go), (1, .go), (1, .go)]).threads =
    [.idle, .oneHeld [1, 2, 3, 4] false 4] := by decide +kernel

/-- The same for the lock of a bucket, which fails then. -/
example : (run sampleEnv 2 3 [(1, .lockBucket 2 false), (1, .go), (0, .lockAll false), (0, .go), (0, .go), (0, .go), (1, .go),
    (0, .rehash 2), (0, .unlock), (0, .go), (0, .go), (0, .go), (1, .go), (1, .go), (1, .go)]).threads = [.idle, .idle] := by
  decide +kernel

end Verif.HashMutex
