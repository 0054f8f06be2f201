import Verif.Thread.Spin
import Mathlib.Data.List.Induction
/-
Property theorems C31: exclusion and availability of the spin locks.
-/
namespace Verif.Spin
open Verif

theorem countP_set {α : Type} (p : α → Bool) {l : List α} {i : Nat} {a : α} (h : l[i]? = some a) (b : α) :
    (l.set i b).countP p + (if p a then 1 else 0) = l.countP p + (if p b then 1 else 0) := by
  induction l generalizing i with
  | nil => simp at h
  | cons x l ih =>
    cases i with
    | zero =>
      simp only [List.getElem?_cons_zero, Option.some.injEq] at h
      subst h
      simp only [List.set_cons_zero, List.countP_cons]
      omega
    | succ i =>
      simp only [List.getElem?_cons_succ] at h
      simp only [List.set_cons_succ, List.countP_cons]
      have := ih h
      omega

/-- Two places of a list at which the condition holds are counted twice. -/
theorem two_le_countP {α : Type} (p : α → Bool) {l : List α} {i j : Nat} {a b : α} (hi : l[i]? = some a) (hj : l[j]? = some b) (hij : i ≠ j)
    (ha : p a = true) (hb : p b = true) : 2 ≤ l.countP p := by
  induction l generalizing i j with
  | nil => simp at hi
  | cons x l ih =>
    have one : ∀ {k : Nat} {c : α}, l[k]? = some c → p c = true → 1 ≤ l.countP p := by
      intro k c hk hc
      exact List.countP_pos_iff.2 ⟨c, List.mem_of_getElem? hk, hc⟩
    cases i with
    | zero =>
      cases j with
      | zero => exact absurd rfl hij
      | succ j =>
        simp only [List.getElem?_cons_zero, Option.some.injEq] at hi
        subst hi
        simp only [List.getElem?_cons_succ] at hj
        rw [List.countP_cons_of_pos ha]
        have := one hj hb
        omega
    | succ i =>
      cases j with
      | zero =>
        simp only [List.getElem?_cons_zero, Option.some.injEq] at hj
        subst hj
        simp only [List.getElem?_cons_succ] at hi
        rw [List.countP_cons_of_pos hb]
        have := one hi ha
        omega
      | succ j =>
        simp only [List.getElem?_cons_succ] at hi hj
        have := ih hi hj (by omega)
        rw [List.countP_cons]
        omega

theorem countP_pos_at {α : Type} (p : α → Bool) {l : List α} {i : Nat} {a : α} (hi : l[i]? = some a) (ha : p a = true) : 1 ≤ l.countP p :=
  List.countP_pos_iff.2 ⟨a, List.mem_of_getElem? hi, ha⟩

/-! ### SpinMutex -/

namespace Plain

def excl : Pc → Bool
  | .exclusive => true
  | _ => false

theorem inv (n : Nat) (es : List Event) : (run n es).threads.countP excl = if (run n es).flag then 1 else 0 := by
  induction es using List.reverseRecOn with
  | nil => simp [run, List.countP_replicate, excl]
  | append_singleton es e ih =>
    have he : run n (es ++ [e]) = step (run n es) e := by simp [run]
    rw [he]
    generalize run n es = s at ih
    obtain ⟨i, a⟩ := e
    unfold step
    simp only
    cases hp : s.threads[i]? with
    | none => exact ih
    | some pc =>
      simp only
      have := countP_set excl hp (stepPc s.flag pc a).2
      have hpos : excl pc = true → 1 ≤ s.threads.countP excl := fun e => countP_pos_at excl hp e
      generalize List.countP excl (s.threads.set i (stepPc s.flag pc a).2) = y at this ⊢
      generalize List.countP excl s.threads = x at this ih hpos
      generalize s.flag = g at this ih ⊢
      cases g <;> cases pc <;> cases a <;> simp [stepPc, excl] at this ih hpos ⊢ <;> omega

/-- C31 for SpinMutex: whatever the number of threads and the schedule, at most one thread owns the lock, and it is free
exactly if none does; so `try_lock` and the next step of `lock` are successful exactly if no thread owns it. -/
theorem C31_spin_mutex (n : Nat) (es : List Event) :
    (∀ i j : Nat, (run n es).threads[i]? = some .exclusive → (run n es).threads[j]? = some .exclusive → i = j) ∧
    ((run n es).flag = false ↔ ∀ i : Nat, (run n es).threads[i]? ≠ some .exclusive) := by
  have h := inv n es
  refine ⟨?_, ?_⟩
  · intro i j hi hj
    by_cases e : i = j
    · exact e
    · have := two_le_countP excl hi hj e rfl rfl
      split at h <;> omega
  · constructor
    · intro hf i hi
      have := countP_pos_at excl hi rfl
      rw [hf] at h
      simp at h
      have := h _ (List.mem_of_getElem? hi)
      simp [excl] at this
    · intro hn
      cases hf : (run n es).flag with
      | false => rfl
      | true =>
        rw [hf] at h
        simp only [if_true] at h
        have : 0 < (run n es).threads.countP excl := by omega
        obtain ⟨pc, hm, hp⟩ := List.countP_pos_iff.1 this
        obtain ⟨i, hi⟩ := List.getElem?_of_mem hm
        cases pc <;> simp [excl] at hp
        exact absurd hi (hn i)

/-- C31: `lock` and `try_lock` of SpinMutex get a free lock at once. -/
theorem C31_spin_mutex_free (s : State) {i : Nat} (hf : s.flag = false) :
    (s.threads[i]? = some .locking → (step s (i, .go false)).threads[i]? = some .exclusive) ∧
    (s.threads[i]? = some .idle → (step s (i, .tryLock)).threads[i]? = some .exclusive) := by
  refine ⟨?_, ?_⟩ <;>
  · intro h
    have hlt := (List.getElem?_eq_some_iff.1 h).1
    unfold step
    simp only [h]
    simp only [stepPc, hf]
    simp [hlt]

example : (run 3 [(0, .lock), (1, .lock), (0, .go false), (1, .go false), (2, .tryLock)]).threads = [.exclusive, .locking, .idle] := by decide

end Plain

/-! ### SpinSharedMutex -/

namespace Shared

/-- SPECIFICATION: the thread owns the lock exclusively. -/
def excl : Pc → Bool
  | .exclusive => true
  | _ => false

/-- SPECIFICATION: the thread shares the lock; a thread in `try_upgrade` still does. -/
def shar : Pc → Bool
  | .shared | .upgrading => true
  | _ => false

/-- SPECIFICATION: the event is an attempt to share the lock that finds it taken. -/
def failed (s : State) (e : Event) : Bool :=
  match s.threads[e.1]?, (step s e).threads[e.1]? with
  | some (.sharing _), some (.loading _) => true
  | _, _ => false

/-- SPECIFICATION: the event gives a thread the exclusive ownership. -/
def obtained (s : State) (e : Event) : Bool :=
  match s.threads[e.1]?, (step s e).threads[e.1]? with
  | some pc, some pc' => !excl pc && excl pc'
  | _, _ => false

/-- SPECIFICATION: the state and the number of attempts to share that have failed since the exclusive ownership was obtained
the last time. -/
def watch (x : State × Nat) (e : Event) : State × Nat :=
  (step x.1 e, if obtained x.1 e then 0 else if failed x.1 e then x.2 + 1 else x.2)

/-- SPECIFICATION: at no time have more than 2^31 attempts to share failed during one exclusive ownership. -/
def Quiet (n : Nat) (es : List Event) : Prop := ∀ pre post, es = pre ++ post → (pre.foldl watch (start n, 0)).2 ≤ 2 ^ 31

structure Inv (s : State) (fails : Nat) : Prop where
  len : s.threads.length < int32max
  resets : ∀ once old, Pc.resetting once old ∈ s.threads → int32max < old
  count : (s.threads.countP excl = 0 ∧ s.count = s.threads.countP shar) ∨
    (s.threads.countP excl = 1 ∧ s.threads.countP shar = 0 ∧ int32max ≤ s.count ∧ s.count ≤ int32max + fails)

theorem Inv.step {s : State} {f : Nat} (h : Inv s f) (e : Event) (hq : (watch (s, f) e).2 ≤ 2 ^ 31) : Inv (watch (s, f) e).1 (watch (s, f) e).2 := by
  obtain ⟨i, a⟩ := e
  cases hp : s.threads[i]? with
  | none =>
    have e1 : Shared.step s (i, a) = s := by unfold Shared.step; simp [hp]
    have e2 : watch (s, f) (i, a) = (s, f) := by unfold watch obtained failed; simp [hp, e1]
    rw [e2]; exact h
  | some pc =>
    have hlt := (List.getElem?_eq_some_iff.1 hp).1
    have e1 : Shared.step s (i, a) = ⟨(stepPc s.count pc a).1, s.threads.set i (stepPc s.count pc a).2⟩ := by unfold Shared.step; simp [hp]
    have e2 : (Shared.step s (i, a)).threads[i]? = some (stepPc s.count pc a).2 := by rw [e1]; simp [hlt]
    have hx := countP_set excl hp (stepPc s.count pc a).2
    have hs := countP_set shar hp (stepPc s.count pc a).2
    have hsl : s.threads.countP shar ≤ s.threads.length := List.countP_le_length
    have hmem := List.mem_of_getElem? hp
    have hpos : excl pc = true → 1 ≤ s.threads.countP excl := fun e => countP_pos_at excl hp e
    have hpos' : shar pc = true → 1 ≤ s.threads.countP shar := fun e => countP_pos_at shar hp e
    have hslt : shar pc = false → s.threads.countP shar < s.threads.length := by
      intro e
      rcases Nat.lt_or_ge (s.threads.countP shar) s.threads.length with h | h
      · exact h
      · have := List.countP_eq_length.1 (Nat.le_antisymm hsl h) pc hmem
        rw [e] at this; cases this
    have hlen := h.len
    have hw : watch (s, f) (i, a) = (⟨(stepPc s.count pc a).1, s.threads.set i (stepPc s.count pc a).2⟩,
        if !excl pc && excl (stepPc s.count pc a).2 then 0 else
          if (match pc, (stepPc s.count pc a).2 with | .sharing _, .loading _ => true | _, _ => false) then f + 1 else f) := by
      unfold watch obtained failed
      simp only [hp, e2]
      rw [e1]
      congr 2
      cases pc <;> cases (stepPc s.count _ a).2 <;> rfl
    rw [hw] at hq ⊢
    simp only at hq ⊢
    refine ⟨by simpa using h.len, ?_, ?_⟩
    · intro once old hm
      rcases List.mem_or_eq_of_mem_set hm with hm' | hm'
      · exact h.resets once old hm'
      · clear hm hx hs hw hq e1 e2
        cases pc with
        | loading b =>
          cases a with
          | go sp =>
            simp only [stepPc] at hm'
            split at hm'
            · cases hm'; assumption
            · cases b <;> cases hm'
          | _ => cases hm'
        | resetting b o =>
          cases a with
          | go sp =>
            simp only [stepPc] at hm'
            split at hm' <;> cases b <;> cases hm'
          | _ => cases hm'; exact h.resets _ _ hmem
        | _ => cases a <;> simp only [stepPc] at hm' <;> (repeat' split at hm') <;> cases hm'
    · have hr : ∀ once old, pc = .resetting once old → int32max < old := fun once old e => h.resets once old (e ▸ hmem)
      have hc := h.count
      have hmax : int32max = 2147483647 := by decide
      clear h hp hlt e1 e2 hw hmem
      generalize hst : stepPc s.count pc a = r at hx hs hq ⊢
      obtain ⟨c', pc'⟩ := r
      simp only at hx hs hq ⊢
      generalize List.countP excl (s.threads.set i pc') = x' at hx ⊢
      generalize List.countP shar (s.threads.set i pc') = y' at hs ⊢
      generalize List.countP excl s.threads = x at hx hc hpos
      generalize List.countP shar s.threads = y at hs hc hsl hslt hpos'
      generalize s.threads.length = n at hsl hslt hlen
      generalize s.count = c at hst hc
      cases pc with
      | resetting b o =>
        have := hr b o rfl
        cases b <;> cases a <;> simp only [stepPc, again] at hst <;> (try split at hst) <;> cases hst <;>
          simp [excl, shar, hmax, u32] at * <;> omega
      | loading b =>
        cases b <;> cases a <;> simp only [stepPc, again] at hst <;> (try split at hst) <;> cases hst <;>
          simp [excl, shar, hmax, u32] at * <;> omega
      | sharing b =>
        clear hr
        cases a <;> simp only [stepPc] at hst <;> (repeat' split at hst) <;> cases hst <;>
          simp only [excl, shar, hmax, u32, if_true, Bool.false_eq_true, if_false, Bool.not_false, Bool.true_and, false_implies] at * <;> (first | omega | (have hq' : f + 1 ≤ 2 ^ 31 := hq; refine .inr ⟨by omega, by omega, by omega, ?_⟩; refine Nat.le_trans (Nat.mod_le _ _) (show c + 1 ≤ 2147483647 + (f + 1) by omega)))
      | shared =>
        clear hr
        cases a <;> simp only [stepPc] at hst <;> (repeat' split at hst) <;> (simp only [Prod.mk.injEq] at hst; obtain ⟨hst1, rfl⟩ := hst) <;>
          simp only [excl, shar, hmax, u32, if_true, Bool.false_eq_true, if_false, Bool.not_false, Bool.true_and, false_implies] at * <;> (try omega)
      | _ => cases a <;> simp only [stepPc] at hst <;> (repeat' split at hst) <;> cases hst <;>
          simp [excl, shar, hmax] at * <;> omega

theorem inv_run {n : Nat} (hn : n < 2 ^ 31 - 1) {es : List Event} (hq : Quiet n es) : ∃ f, Inv (run n es) f := by
  have key : (es.foldl watch (start n, 0)).1 = run n es ∧ Inv (es.foldl watch (start n, 0)).1 (es.foldl watch (start n, 0)).2 := by
    induction es using List.reverseRecOn with
    | nil =>
      refine ⟨rfl, by simpa [start, int32max] using hn, ?_, .inl ?_⟩
      · intro once old hm
        have := List.eq_of_mem_replicate hm
        cases this
      · simp [start, List.countP_replicate, excl, shar]
    | append_singleton es e ih =>
      obtain ⟨h1, h2⟩ := ih (fun pre post he => hq pre (post ++ [e]) (by rw [he]; simp))
      have h3 := hq (es ++ [e]) [] (by simp)
      rw [List.foldl_append] at h3 ⊢
      simp only [List.foldl_cons, List.foldl_nil] at h3 ⊢
      refine ⟨?_, h2.step e h3⟩
      rw [show run n (es ++ [e]) = Shared.step (run n es) e by simp [run], ← h1]
      rfl
  exact ⟨_, key.1 ▸ key.2⟩

/-- C31 for SpinSharedMutex: below 2^31 - 1 threads, whatever the schedule: while a thread owns the lock exclusively, no other
thread owns it, exclusively or shared. It holds as long as no more than 2^31 attempts to share fail during one exclusive
ownership; without this condition it does not hold (`C31_exclusion_violated`). -/
theorem C31_exclusion_partial {n : Nat} (hn : n < 2 ^ 31 - 1) {es : List Event} (hq : Quiet n es) {i j : Nat} (hij : i ≠ j) {pc : Pc}
    (hi : (run n es).threads[i]? = some .exclusive) (hj : (run n es).threads[j]? = some pc) : excl pc = false ∧ shar pc = false := by
  obtain ⟨f, h⟩ := inv_run hn hq
  have h1 := countP_pos_at excl hi rfl
  have hc := h.count
  refine ⟨?_, ?_⟩
  · cases he : excl pc with
    | false => rfl
    | true => have := two_le_countP excl hi hj hij rfl he; omega
  · cases he : shar pc with
    | false => rfl
    | true => have := countP_pos_at shar hj he; omega

theorem countP_zero {p : Pc → Bool} {l : List Pc} (h : ∀ (j : Nat) (pc : Pc), l[j]? = some pc → p pc = false) : l.countP p = 0 := by
  rw [List.countP_eq_zero]
  intro a ha
  obtain ⟨j, hj⟩ := List.getElem?_of_mem ha
  rw [h j a hj]; simp

theorem step_at {s : State} {i : Nat} {pc : Pc} (h : s.threads[i]? = some pc) (a : Act) :
    (step s (i, a)).threads[i]? = some (stepPc s.count pc a).2 := by
  have hlt := (List.getElem?_eq_some_iff.1 h).1
  unfold step
  simp only [h]
  simp [hlt]

/-- C31: when no thread owns the lock, the next attempt of `lock` (not failing spuriously) and `try_lock` get it: no release
is lost. -/
theorem C31_free_partial {n : Nat} (hn : n < 2 ^ 31 - 1) {es : List Event} (hq : Quiet n es)
    (hfree : ∀ (j : Nat) (pc : Pc), (run n es).threads[j]? = some pc → excl pc = false ∧ shar pc = false) (i : Nat) :
    ((run n es).threads[i]? = some .locking → (run n (es ++ [(i, .go false)])).threads[i]? = some .exclusive) ∧
    ((run n es).threads[i]? = some .idle → (run n (es ++ [(i, .tryLock)])).threads[i]? = some .exclusive) := by
  obtain ⟨f, h⟩ := inv_run hn hq
  have h1 := countP_zero (p := excl) (fun j pc hj => (hfree j pc hj).1)
  have h2 := countP_zero (p := shar) (fun j pc hj => (hfree j pc hj).2)
  have hc : (run n es).count = 0 := by have := h.count; omega
  refine ⟨?_, ?_⟩ <;> intro hi
  · rw [show run n (es ++ [(i, .go false)]) = step (run n es) (i, .go false) by simp [run], step_at hi]
    simp [stepPc, hc]
  · rw [show run n (es ++ [(i, .tryLock)]) = step (run n es) (i, .tryLock) by simp [run], step_at hi]
    simp [stepPc, hc]

/-- C31: when no thread owns the lock exclusively, the next attempt of `lock_shared` and `try_lock_shared` gets it, whatever
the number of threads that share it. -/
theorem C31_share_partial {n : Nat} (hn : n < 2 ^ 31 - 1) {es : List Event} (hq : Quiet n es)
    (hfree : ∀ (j : Nat) (pc : Pc), (run n es).threads[j]? = some pc → excl pc = false) {i : Nat} {once : Bool}
    (hi : (run n es).threads[i]? = some (.sharing once)) (sp : Bool) : (run n (es ++ [(i, .go sp)])).threads[i]? = some .shared := by
  obtain ⟨f, h⟩ := inv_run hn hq
  have h1 := countP_zero (p := excl) hfree
  have hsl : (run n es).threads.countP shar ≤ (run n es).threads.length := List.countP_le_length
  have hlen := h.len
  have hc : ¬ (run n es).count ≥ int32max := by have := h.count; omega
  rw [show run n (es ++ [(i, .go sp)]) = step (run n es) (i, .go sp) by simp [run], step_at hi]
  simp [stepPc, hc]

/-- C31: `try_upgrade` gets the exclusive ownership if no other thread shares the lock, and otherwise leaves the thread
sharing it. -/
theorem C31_upgrade_partial {n : Nat} (hn : n < 2 ^ 31 - 1) {es : List Event} (hq : Quiet n es) {i : Nat}
    (hi : (run n es).threads[i]? = some .upgrading) (sp : Bool) :
    ((∀ (j : Nat) (pc : Pc), j ≠ i → (run n es).threads[j]? = some pc → shar pc = false) →
      (run n (es ++ [(i, .go sp)])).threads[i]? = some .exclusive) ∧
    (∀ (j : Nat) (pc : Pc), j ≠ i → (run n es).threads[j]? = some pc → shar pc = true →
      (run n (es ++ [(i, .go sp)])).threads[i]? = some .shared) := by
  obtain ⟨f, h⟩ := inv_run hn hq
  have hc := h.count
  have hpos := countP_pos_at shar hi rfl
  have hsl : (run n es).threads.countP shar ≤ (run n es).threads.length := List.countP_le_length
  have hlen := h.len
  have hmax : int32max = 2147483647 := by decide
  rw [show run n (es ++ [(i, .go sp)]) = step (run n es) (i, .go sp) by simp [run], step_at hi]
  refine ⟨?_, ?_⟩
  · intro ho
    have h1 := countP_set shar hi .idle
    have h2 : ((run n es).threads.set i Pc.idle).countP shar = 0 := by
      refine countP_zero ?_
      intro j pc hj
      by_cases e : i = j
      · subst e
        rw [List.getElem?_set_self (List.getElem?_eq_some_iff.1 hi).1] at hj
        cases hj; rfl
      · rw [List.getElem?_set_ne e] at hj
        exact ho j pc (Ne.symm e) hj
    rw [h2] at h1
    simp only [shar, if_true, Bool.false_eq_true, if_false] at h1
    have hc1 : (run n es).count = 1 := by omega
    simp [stepPc, hc1]
  · intro j pc hj hpc hs
    have h2 := two_le_countP shar hpc hi hj hs rfl
    have hc1 : (run n es).count ≠ 1 := by omega
    have hc2 : (run n es).count < int32max := by omega
    simp [stepPc, hc1, hc2]

/-- C31: `downgrade` keeps the ownership, shared, and lets others share it. -/
theorem C31_downgrade {n : Nat} {es : List Event} {i : Nat} (hi : (run n es).threads[i]? = some .exclusive) :
    (run n (es ++ [(i, .downgrade)])).threads[i]? = some .shared ∧ (run n (es ++ [(i, .downgrade)])).count = 1 := by
  have e : run n (es ++ [(i, .downgrade)]) = step (run n es) (i, .downgrade) := by simp [run]
  rw [e, step_at hi]
  refine ⟨rfl, ?_⟩
  unfold step
  simp only [hi]
  rfl

/-- A schedule that meets the condition: a writer, two readers that wait for it, and an upgrade. -/
def sample : List Event :=
  [(0, .lock), (0, .go false), (1, .lockShared), (2, .lockShared), (1, .go false), (2, .go false), (1, .go false), (2, .go false), (1, .go true),
   (2, .go false), (0, .downgrade), (1, .go false), (0, .tryUpgrade false), (0, .go false), (1, .unlockShared), (0, .tryUpgrade false), (0, .go false)]

example : (run 3 (sample.take 2)).threads = [.exclusive, .idle, .idle] ∧ (run 3 (sample.take 10)).threads = [.exclusive, .sharing false, .sharing false] ∧
    (run 3 (sample.take 12)).threads = [.shared, .shared, .sharing false] ∧ (run 3 (sample.take 14)).threads = [.shared, .shared, .sharing false] ∧
    (run 3 sample).threads = [.exclusive, .idle, .sharing false] := by decide +kernel

theorem quiet_of_short {n : Nat} {es : List Event} (h : es.length ≤ 2 ^ 31) : Quiet n es := by
  have key : ∀ (es : List Event) (x : State × Nat), (es.foldl watch x).2 ≤ x.2 + es.length := by
    intro es
    induction es with
    | nil => intro x; simp
    | cons e es ih =>
      intro x
      have := ih (watch x e)
      have h2 : (watch x e).2 ≤ x.2 + 1 := by
        unfold watch
        simp only
        split
        · omega
        · split <;> omega
      simp only [List.foldl_cons, List.length_cons]
      omega
  intro pre post he
  have := key pre (start n, 0)
  have hl : pre.length ≤ es.length := by rw [he]; simp
  simp only [Nat.zero_add] at this
  omega

example : Quiet 3 sample := quiet_of_short (by decide)

/-! The counter-example: two readers that keep each other from setting the counter back until it overflows. -/

theorem run_append (n : Nat) (es fs : List Event) : run n (es ++ fs) = fs.foldl step (run n es) := by simp [run]

/-- The counter has been driven to `c` by two readers, each of which is about to set back a value that is out of date, while
thread 0 owns the lock exclusively. -/
def stuck (c : Nat) : State :=
  ⟨c, if c % 2 = 0 then [.exclusive, .resetting false (c - 1), .resetting false c] else [.exclusive, .resetting false c, .resetting false (c - 1)]⟩

/-- The three steps by which the reader that is behind fails to set the counter back and increments it. -/
def push (c : Nat) : List Event := if c % 2 = 0 then [(1, .go false), (1, .go false), (1, .go false)] else [(2, .go false), (2, .go false), (2, .go false)]

theorem push_sound (c : Nat) : ∀ e ∈ push c, e.2 ≠ Act.go true := by
  unfold push
  split <;> simp

theorem push_stuck {c : Nat} (h : int32max < c) (h' : c + 1 < 2 ^ 32) : (push c).foldl step (stuck c) = stuck (c + 1) := by
  have hu : u32 (c + 1) = c + 1 := by unfold u32; omega
  have hc : c ≠ c - 1 := by unfold int32max at h; omega
  have h1 : int32max ≤ c := by omega
  have h2 : int32max < c + 1 := by omega
  have h3 : ¬ (c + 1) % 2 = 0 ↔ c % 2 = 0 := by omega
  unfold push stuck
  by_cases e : c % 2 = 0
  · rw [if_pos e, if_pos e, if_neg (h3.2 e)]
    simp [step, stepPc, again, hc, hu, h1, h2]
  · rw [if_neg e, if_neg e, if_pos (by omega)]
    simp [step, stepPc, again, hc, hu, h1, h2]

theorem pushes (k : Nat) (h : int32max + 2 + k < 2 ^ 32) :
    ∃ es : List Event, (∀ e ∈ es, e.2 ≠ Act.go true) ∧ es.foldl step (stuck (int32max + 2)) = stuck (int32max + 2 + k) := by
  induction k with
  | zero => exact ⟨[], by simp, rfl⟩
  | succ k ih =>
    obtain ⟨es, hs, he⟩ := ih (by omega)
    refine ⟨es ++ push (int32max + 2 + k), ?_, ?_⟩
    · intro e hm
      rcases List.mem_append.1 hm with hm | hm
      · exact hs e hm
      · exact push_sound _ e hm
    · rw [List.foldl_append, he, push_stuck (by omega) (by omega)]
      rfl

/-- How the two readers get there. -/
def opening : List Event :=
  [(0, .lock), (0, .go false), (1, .lockShared), (2, .lockShared), (2, .go false), (2, .go false), (1, .go false), (1, .go false)]

theorem opening_stuck : run 3 opening = stuck (int32max + 2) := by
  have h : run 3 opening = ⟨2147483649, [.exclusive, .resetting false 2147483649, .resetting false 2147483648]⟩ := by
    simp [run, opening, start, List.replicate, step, stepPc, int32max, u32]
  rw [h]
  simp [stuck, int32max]

theorem last_push : ∀ (b : Pc), ([(2, .go false), (2, .go false), (2, .go false), (2, .go false)] : List Event).foldl step
    ⟨2 ^ 32 - 1, [.exclusive, b, .resetting false (2 ^ 32 - 2)]⟩ = ⟨1, [.exclusive, b, .shared]⟩ := by
  intro b
  simp [step, stepPc, again, int32max, u32]

/-- C31 does not hold for all schedules: with three threads there is a schedule after which one thread owns the lock
exclusively and another one shares it. No compare-exchange in it fails spuriously. -/
theorem C31_exclusion_violated : ∃ es : List Event, (∀ e ∈ es, e.2 ≠ Act.go true) ∧
    (run 3 es).threads[0]? = some .exclusive ∧ (run 3 es).threads[2]? = some .shared := by
  obtain ⟨es, hs, he⟩ := pushes (2 ^ 32 - 1 - (int32max + 2)) (by decide)
  refine ⟨opening ++ es ++ [(2, .go false), (2, .go false), (2, .go false), (2, .go false)], ?_, ?_⟩
  · intro e hm
    rcases List.mem_append.1 hm with hm | hm
    · rcases List.mem_append.1 hm with hm | hm
      · revert hm; unfold opening; simp; rintro (rfl | rfl | rfl | rfl | rfl | rfl | rfl | rfl) <;> simp
      · exact hs e hm
    · revert hm; simp; rintro rfl; simp
  · rw [run_append, run_append, opening_stuck, he]
    have : stuck (int32max + 2 + (2 ^ 32 - 1 - (int32max + 2))) = ⟨2 ^ 32 - 1, [.exclusive, .resetting false (2 ^ 32 - 1), .resetting false (2 ^ 32 - 2)]⟩ := by
      simp [stuck, int32max]
    rw [this, last_push]
    exact ⟨rfl, rfl⟩

end Shared
end Verif.Spin
