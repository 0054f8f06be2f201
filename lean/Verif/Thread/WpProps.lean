import Verif.Thread.SpinProps
/-
Property theorems C31 for SpinWPSharedMutex.
-/
namespace Verif.Spin.Wp
open Verif

/-- SPECIFICATION: the thread owns the lock exclusively. -/
def excl : Pc → Bool
  | .exclusive | .lockLeave | .upLeave true => true
  | _ => false

/-- SPECIFICATION: the thread shares the lock; a thread in `try_upgrade` does until it is successful. -/
def shar : Pc → Bool
  | .shared | .upEnter _ | .upgrading _ | .upAsking | .upLeave false => true
  | _ => false

/-- SPECIFICATION: the thread is in `lock` or `try_upgrade` and has announced it. -/
def wants : Pc → Bool
  | .locking | .lockLeave | .upgrading _ | .upAsking | .upLeave _ => true
  | _ => false

/-- SPECIFICATION: the event is an attempt to share the lock that finds it taken. -/
def failed (s : State) (e : Event) : Bool :=
  match s.threads[e.1]?, (step s e).threads[e.1]? with
  | some (.sharing _), some (.loading _) => true
  | _, _ => false

/-- SPECIFICATION: the event gives a thread the exclusive ownership. -/
def obtained (s : State) (e : Event) : Bool :=
  match s.threads[e.1]?, (step s e).threads[e.1]? with
  | some pc, some pc' => !excl pc && excl pc'
  | _, _ => false

/-- SPECIFICATION: the state and the number of attempts to share that have failed since the exclusive ownership was obtained
the last time. -/
def watch (x : State × Nat) (e : Event) : State × Nat :=
  (step x.1 e, if obtained x.1 e then 0 else if failed x.1 e then x.2 + 1 else x.2)

/-- SPECIFICATION: at no time have more than 2^31 attempts to share failed during one exclusive ownership. -/
def Quiet (n : Nat) (es : List Event) : Prop := ∀ pre post, es = pre ++ post → (pre.foldl watch (start n, 0)).2 ≤ 2 ^ 31

structure Inv (s : State) (fails : Nat) : Prop where
  len : s.threads.length < int32max
  resets : ∀ once old, Pc.resetting once old ∈ s.threads → int32max < old
  wannabe : s.vars.wannabe = s.threads.countP wants
  count : (s.threads.countP excl = 0 ∧ s.vars.count = s.threads.countP shar) ∨
    (s.threads.countP excl = 1 ∧ s.threads.countP shar = 0 ∧ int32max ≤ s.vars.count ∧ s.vars.count ≤ int32max + fails)

/-- The number of failed attempts after a step from `pc` to `pc'`. -/
def fails (f : Nat) (pc pc' : Pc) : Nat :=
  if !excl pc && excl pc' then 0 else
    match pc, pc' with
    | .sharing _, .loading _ => f + 1
    | _, _ => f

set_option maxHeartbeats 1000000 in
/-- The step of a thread, seen from the counters: `x`, `y` and `z` are the numbers of threads that own the lock exclusively,
share it and have announced that they want it. -/
theorem arith {v : Vars} {pc : Pc} {a : Act} {n x y z x' y' z' f : Nat} (hlen : n < int32max) (hsl : y ≤ n) (hwl : z ≤ n) (hwa : v.wannabe = z)
    (hc : (x = 0 ∧ v.count = y) ∨ (x = 1 ∧ y = 0 ∧ int32max ≤ v.count ∧ v.count ≤ int32max + f))
    (hpos : excl pc = true → 1 ≤ x) (hpos' : shar pc = true → 1 ≤ y) (hposw : wants pc = true → 1 ≤ z)
    (hr : ∀ once old, pc = .resetting once old → int32max < old)
    (hx : x' + (if excl pc then 1 else 0) = x + (if excl (stepPc v pc a).2 then 1 else 0))
    (hs : y' + (if shar pc then 1 else 0) = y + (if shar (stepPc v pc a).2 then 1 else 0))
    (hw : z' + (if wants pc then 1 else 0) = z + (if wants (stepPc v pc a).2 then 1 else 0))
    (hq : fails f pc (stepPc v pc a).2 ≤ 2 ^ 31) :
    (stepPc v pc a).1.wannabe = z' ∧ ((x' = 0 ∧ (stepPc v pc a).1.count = y') ∨
      (x' = 1 ∧ y' = 0 ∧ int32max ≤ (stepPc v pc a).1.count ∧ (stepPc v pc a).1.count ≤ int32max + fails f pc (stepPc v pc a).2)) := by
  have hmax : int32max = 2147483647 := by decide
  obtain ⟨c, w⟩ := v
  generalize hst : stepPc ⟨c, w⟩ pc a = r at hx hs hw hq ⊢
  obtain ⟨⟨c', w'⟩, pc'⟩ := r
  simp only at hx hs hw hq hc hwa ⊢
  rw [hmax] at hlen hc ⊢
  cases pc with
  | resetting b o =>
    have := hr b o rfl
    rw [hmax] at this
    clear hr
    cases b <;> cases a <;> simp only [stepPc, again, hmax] at hst <;> (try split at hst) <;>
      simp only [Prod.mk.injEq, Vars.mk.injEq] at hst <;> obtain ⟨⟨rfl, rfl⟩, rfl⟩ := hst <;>
      simp only [excl, shar, wants, fails, hmax, u32, if_true, Bool.false_eq_true, if_false, Bool.not_false, Bool.not_true, Bool.true_and, Bool.and_false, false_implies] at * <;> omega
  | sharing b =>
    clear hr
    cases a <;> simp only [stepPc, hmax] at hst <;> (try split at hst) <;>
      simp only [Prod.mk.injEq, Vars.mk.injEq] at hst <;> obtain ⟨⟨rfl, rfl⟩, rfl⟩ := hst <;>
      simp only [excl, shar, wants, fails, hmax, u32, if_true, Bool.false_eq_true, if_false, Bool.not_false, Bool.not_true, Bool.true_and, Bool.and_false, false_implies] at * <;> omega
  | loading b =>
    clear hr
    cases b <;> cases a <;> simp only [stepPc, again, hmax] at hst <;> (try split at hst) <;>
      simp only [Prod.mk.injEq, Vars.mk.injEq] at hst <;> obtain ⟨⟨rfl, rfl⟩, rfl⟩ := hst <;>
      simp only [excl, shar, wants, fails, hmax, u32, if_true, Bool.false_eq_true, if_false, Bool.not_false, Bool.not_true, Bool.true_and, Bool.and_false, false_implies] at * <;> omega
  | asking b =>
    clear hr
    cases b <;> cases a <;> simp only [stepPc, again, if_true, Bool.false_eq_true, if_false] at hst <;> (try split at hst) <;>
      simp only [Prod.mk.injEq, Vars.mk.injEq] at hst <;> obtain ⟨⟨rfl, rfl⟩, rfl⟩ := hst <;>
      simp only [excl, shar, wants, fails, hmax, u32, if_true, Bool.false_eq_true, if_false, Bool.not_false, Bool.not_true, Bool.true_and, Bool.and_false, false_implies] at * <;> omega
  | upEnter b =>
    clear hr
    cases a <;> simp only [stepPc] at hst <;>
      simp only [Prod.mk.injEq, Vars.mk.injEq] at hst <;> obtain ⟨⟨rfl, rfl⟩, rfl⟩ := hst <;>
      simp only [excl, shar, wants, fails, hmax, u32, if_true, Bool.false_eq_true, if_false, Bool.not_false, Bool.not_true, Bool.true_and, Bool.and_false, false_implies] at * <;> omega
  | upgrading b =>
    clear hr
    cases b <;> cases a <;> simp only [stepPc, hmax, if_true, Bool.true_eq_false, if_false] at hst <;> (repeat' split at hst) <;>
      simp only [Prod.mk.injEq, Vars.mk.injEq] at hst <;> obtain ⟨⟨rfl, rfl⟩, rfl⟩ := hst <;>
      simp only [excl, shar, wants, fails, hmax, u32, if_true, Bool.false_eq_true, if_false, Bool.not_false, Bool.not_true, Bool.true_and, Bool.and_false, false_implies] at * <;> omega
  | upLeave b =>
    clear hr
    cases b <;> cases a <;> simp only [stepPc, hmax, if_true, Bool.false_eq_true, if_false] at hst <;>
      simp only [Prod.mk.injEq, Vars.mk.injEq] at hst <;> obtain ⟨⟨rfl, rfl⟩, rfl⟩ := hst <;>
      simp only [excl, shar, wants, fails, hmax, u32, if_true, Bool.false_eq_true, if_false, Bool.not_false, Bool.not_true, Bool.true_and, Bool.and_false, Bool.and_true, false_implies] at * <;> omega
  | _ =>
    clear hr
    cases a <;> simp only [stepPc, hmax] at hst <;> (try split at hst) <;>
      simp only [Prod.mk.injEq, Vars.mk.injEq] at hst <;> obtain ⟨⟨rfl, rfl⟩, rfl⟩ := hst <;>
      simp only [excl, shar, wants, fails, hmax, u32, if_true, Bool.false_eq_true, if_false, Bool.not_false, Bool.not_true, Bool.true_and, Bool.and_false, Bool.and_true, false_implies] at * <;> omega

theorem Inv.step {s : State} {f : Nat} (h : Inv s f) (e : Event) (hq : (watch (s, f) e).2 ≤ 2 ^ 31) : Inv (watch (s, f) e).1 (watch (s, f) e).2 := by
  obtain ⟨i, a⟩ := e
  cases hp : s.threads[i]? with
  | none =>
    have e1 : Wp.step s (i, a) = s := by unfold Wp.step; simp [hp]
    have e2 : watch (s, f) (i, a) = (s, f) := by unfold watch obtained failed; simp [hp, e1]
    rw [e2]; exact h
  | some pc =>
    have hlt := (List.getElem?_eq_some_iff.1 hp).1
    have e1 : Wp.step s (i, a) = ⟨(stepPc s.vars pc a).1, s.threads.set i (stepPc s.vars pc a).2⟩ := by unfold Wp.step; simp [hp]
    have e2 : (Wp.step s (i, a)).threads[i]? = some (stepPc s.vars pc a).2 := by rw [e1]; simp [hlt]
    have hx := countP_set excl hp (stepPc s.vars pc a).2
    have hs := countP_set shar hp (stepPc s.vars pc a).2
    have hw := countP_set wants hp (stepPc s.vars pc a).2
    have hsl : s.threads.countP shar ≤ s.threads.length := List.countP_le_length
    have hwl : s.threads.countP wants ≤ s.threads.length := List.countP_le_length
    have hmem := List.mem_of_getElem? hp
    have hpos : excl pc = true → 1 ≤ s.threads.countP excl := fun e => countP_pos_at excl hp e
    have hpos' : shar pc = true → 1 ≤ s.threads.countP shar := fun e => countP_pos_at shar hp e
    have hposw : wants pc = true → 1 ≤ s.threads.countP wants := fun e => countP_pos_at wants hp e
    have hlen := h.len
    have hwa := h.wannabe
    have he : watch (s, f) (i, a) = (⟨(stepPc s.vars pc a).1, s.threads.set i (stepPc s.vars pc a).2⟩, fails f pc (stepPc s.vars pc a).2) := by
      unfold watch obtained failed fails
      simp only [hp, e2]
      rw [e1]
      congr 2
      generalize (stepPc s.vars pc a).2 = pc'
      cases pc <;> cases pc' <;> rfl
    rw [he] at hq ⊢
    simp only at hq ⊢
    have hr : ∀ once old, pc = .resetting once old → int32max < old := fun once old e => h.resets once old (e ▸ hmem)
    have hc := h.count
    have hres : ∀ once old, (stepPc s.vars pc a).2 = .resetting once old → int32max < old := by
      intro once old e
      clear hx hs hw hq he e1 e2
      cases pc with
      | loading b =>
        cases a with
        | go sp =>
          simp only [stepPc] at e
          split at e
          · cases e; assumption
          · cases b <;> cases e
        | _ => cases e
      | resetting b o =>
        cases a with
        | go sp =>
          simp only [stepPc] at e
          split at e <;> cases b <;> cases e
        | _ => cases e; exact hr _ _ rfl
      | asking b => cases b <;> cases a <;> simp only [stepPc] at e <;> (repeat' split at e) <;> cases e
      | upLeave b => cases b <;> cases a <;> simp only [stepPc] at e <;> (repeat' split at e) <;> cases e
      | _ => cases a <;> simp only [stepPc] at e <;> (repeat' split at e) <;> cases e
    have key := arith (v := s.vars) (a := a) hlen hsl hwl hwa hc (fun e => hpos e) (fun e => hpos' e) (fun e => hposw e) hr hx hs hw hq
    refine ⟨by simpa using h.len, ?_, key.1, key.2⟩
    intro once old hm
    rcases List.mem_or_eq_of_mem_set hm with hm' | hm'
    · exact h.resets once old hm'
    · exact hres once old hm'.symm

theorem inv_run {n : Nat} (hn : n < 2 ^ 31 - 1) {es : List Event} (hq : Quiet n es) : ∃ f, Inv (run n es) f := by
  have key : (es.foldl watch (start n, 0)).1 = run n es ∧ Inv (es.foldl watch (start n, 0)).1 (es.foldl watch (start n, 0)).2 := by
    induction es using List.reverseRecOn with
    | nil =>
      refine ⟨rfl, by simpa [start, int32max] using hn, ?_, ?_, .inl ?_⟩
      · intro once old hm
        have := List.eq_of_mem_replicate hm
        cases this
      · simp [start, List.countP_replicate, wants]
      · simp [start, List.countP_replicate, excl, shar]
    | append_singleton es e ih =>
      obtain ⟨h1, h2⟩ := ih (fun pre post he => hq pre (post ++ [e]) (by rw [he]; simp))
      have h3 := hq (es ++ [e]) [] (by simp)
      rw [List.foldl_append] at h3 ⊢
      simp only [List.foldl_cons, List.foldl_nil] at h3 ⊢
      refine ⟨?_, h2.step e h3⟩
      rw [show run n (es ++ [e]) = Wp.step (run n es) e by simp [run], ← h1]
      rfl
  exact ⟨_, key.1 ▸ key.2⟩

/-- C31 for SpinWPSharedMutex: below 2^31 - 1 threads, whatever the schedule: while a thread owns the lock exclusively, no other
thread owns it, exclusively or shared; as long as no more than 2^31 attempts to share fail during one exclusive ownership. -/
theorem C31_wp_exclusion_partial {n : Nat} (hn : n < 2 ^ 31 - 1) {es : List Event} (hq : Quiet n es) {i j : Nat} (hij : i ≠ j) {pc pc' : Pc}
    (hi : (run n es).threads[i]? = some pc) (he : excl pc = true) (hj : (run n es).threads[j]? = some pc') : excl pc' = false ∧ shar pc' = false := by
  obtain ⟨f, h⟩ := inv_run hn hq
  have h1 := countP_pos_at excl hi he
  have hc := h.count
  refine ⟨?_, ?_⟩
  · cases he' : excl pc' with
    | false => rfl
    | true => have := two_le_countP excl hi hj hij he he'; omega
  · cases he' : shar pc' with
    | false => rfl
    | true => have := countP_pos_at shar hj he'; omega

theorem countP_zero {p : Pc → Bool} {l : List Pc} (h : ∀ (j : Nat) (pc : Pc), l[j]? = some pc → p pc = false) : l.countP p = 0 := by
  rw [List.countP_eq_zero]
  intro a ha
  obtain ⟨j, hj⟩ := List.getElem?_of_mem ha
  rw [h j a hj]; simp

theorem step_at {s : State} {i : Nat} {pc : Pc} (h : s.threads[i]? = some pc) (a : Act) :
    (step s (i, a)).threads[i]? = some (stepPc s.vars pc a).2 := by
  have hlt := (List.getElem?_eq_some_iff.1 h).1
  unfold step
  simp only [h]
  simp [hlt]

theorem run_snoc (n : Nat) (es : List Event) (e : Event) : run n (es ++ [e]) = step (run n es) e := by simp [run]

/-- C31: when no thread owns the lock, the next attempt of `lock` (not failing spuriously) and `try_lock` get it. -/
theorem C31_wp_free_partial {n : Nat} (hn : n < 2 ^ 31 - 1) {es : List Event} (hq : Quiet n es)
    (hfree : ∀ (j : Nat) (pc : Pc), (run n es).threads[j]? = some pc → excl pc = false ∧ shar pc = false) (i : Nat) :
    ((run n es).threads[i]? = some .locking → (run n (es ++ [(i, .go false)])).threads[i]? = some .lockLeave) ∧
    ((run n es).threads[i]? = some .idle → (run n (es ++ [(i, .tryLock)])).threads[i]? = some .exclusive) := by
  obtain ⟨f, h⟩ := inv_run hn hq
  have h1 := countP_zero (p := excl) (fun j pc hj => (hfree j pc hj).1)
  have h2 := countP_zero (p := shar) (fun j pc hj => (hfree j pc hj).2)
  have hc : (run n es).vars.count = 0 := by have := h.count; omega
  refine ⟨?_, ?_⟩ <;> intro hi
  · rw [run_snoc, step_at hi]; simp [stepPc, hc]
  · rw [run_snoc, step_at hi]; simp [stepPc, hc]

/-- C31: a reader passes the preference of writers exactly if no thread is in `lock` or `try_upgrade`. -/
theorem C31_wp_asking_partial {n : Nat} (hn : n < 2 ^ 31 - 1) {es : List Event} (hq : Quiet n es) {i : Nat} {once : Bool}
    (hi : (run n es).threads[i]? = some (.asking once)) (sp : Bool) :
    ((∀ (j : Nat) (pc : Pc), (run n es).threads[j]? = some pc → wants pc = false) → (run n (es ++ [(i, .go sp)])).threads[i]? = some (.sharing once)) ∧
    (∀ (j : Nat) (pc : Pc), (run n es).threads[j]? = some pc → wants pc = true →
      (run n (es ++ [(i, .go sp)])).threads[i]? = some (if once then .idle else .loading false)) := by
  obtain ⟨f, h⟩ := inv_run hn hq
  have hw := h.wannabe
  refine ⟨?_, ?_⟩
  · intro hn
    have hz := countP_zero (p := wants) hn
    rw [run_snoc, step_at hi]
    simp [stepPc, hw.trans hz]
  · intro j pc hj hp
    have hz := countP_pos_at wants hj hp
    have : (run n es).vars.wannabe ≠ 0 := by omega
    rw [run_snoc, step_at hi]
    simp [stepPc, this]

/-- C31: when no thread owns the lock exclusively, an attempt to share it that passed the preference of writers gets it. -/
theorem C31_wp_share_partial {n : Nat} (hn : n < 2 ^ 31 - 1) {es : List Event} (hq : Quiet n es)
    (hfree : ∀ (j : Nat) (pc : Pc), (run n es).threads[j]? = some pc → excl pc = false) {i : Nat} {once : Bool}
    (hi : (run n es).threads[i]? = some (.sharing once)) (sp : Bool) : (run n (es ++ [(i, .go sp)])).threads[i]? = some .shared := by
  obtain ⟨f, h⟩ := inv_run hn hq
  have h1 := countP_zero (p := excl) hfree
  have hsl : (run n es).threads.countP shar ≤ (run n es).threads.length := List.countP_le_length
  have hlen := h.len
  have hc : ¬ (run n es).vars.count ≥ int32max := by have := h.count; omega
  rw [run_snoc, step_at hi]
  simp [stepPc, hc]

/-- C31: the compare-exchange of `try_upgrade` gets the exclusive ownership if no other thread shares the lock; otherwise
`try_upgrade` without waiting gives up, still sharing the lock. -/
theorem C31_wp_upgrade_partial {n : Nat} (hn : n < 2 ^ 31 - 1) {es : List Event} (hq : Quiet n es) {i : Nat} {wait : Bool}
    (hi : (run n es).threads[i]? = some (.upgrading wait)) (sp : Bool) :
    ((∀ (j : Nat) (pc : Pc), j ≠ i → (run n es).threads[j]? = some pc → shar pc = false) →
      (run n (es ++ [(i, .go sp)])).threads[i]? = some (.upLeave true)) ∧
    (∀ (j : Nat) (pc : Pc), j ≠ i → (run n es).threads[j]? = some pc → shar pc = true →
      (run n (es ++ [(i, .go sp)])).threads[i]? = some (if wait then .upAsking else .upLeave false)) := by
  obtain ⟨f, h⟩ := inv_run hn hq
  have hc := h.count
  have hpos := countP_pos_at shar hi rfl
  have hsl : (run n es).threads.countP shar ≤ (run n es).threads.length := List.countP_le_length
  have hlen := h.len
  have hmax : int32max = 2147483647 := by decide
  rw [run_snoc, step_at hi]
  refine ⟨?_, ?_⟩
  · intro ho
    have h1 := countP_set shar hi .idle
    have h2 : ((run n es).threads.set i Pc.idle).countP shar = 0 := by
      refine countP_zero ?_
      intro j pc hj
      by_cases e : i = j
      · subst e
        rw [List.getElem?_set_self (List.getElem?_eq_some_iff.1 hi).1] at hj
        cases hj; rfl
      · rw [List.getElem?_set_ne e] at hj
        exact ho j pc (Ne.symm e) hj
    rw [h2] at h1
    simp only [shar, if_true, Bool.false_eq_true, if_false] at h1
    have hc1 : (run n es).vars.count = 1 := by omega
    simp [stepPc, hc1]
  · intro j pc hj hpc hs
    have h2 := two_le_countP shar hpc hi hj hs rfl
    have hc1 : (run n es).vars.count ≠ 1 := by omega
    have hc2 : (run n es).vars.count < int32max := by omega
    cases wait <;> simp [stepPc, hc1, hc2]

/-- C31: a waiting `try_upgrade` gives up exactly if another thread is in `lock` or `try_upgrade` too: two upgrades do not
wait for each other. -/
theorem C31_wp_upgrade_yields_partial {n : Nat} (hn : n < 2 ^ 31 - 1) {es : List Event} (hq : Quiet n es) {i : Nat}
    (hi : (run n es).threads[i]? = some .upAsking) (sp : Bool) :
    ((∀ (j : Nat) (pc : Pc), j ≠ i → (run n es).threads[j]? = some pc → wants pc = false) →
      (run n (es ++ [(i, .go sp)])).threads[i]? = some (.upgrading true)) ∧
    (∀ (j : Nat) (pc : Pc), j ≠ i → (run n es).threads[j]? = some pc → wants pc = true →
      (run n (es ++ [(i, .go sp)])).threads[i]? = some (.upLeave false)) := by
  obtain ⟨f, h⟩ := inv_run hn hq
  have hw := h.wannabe
  rw [run_snoc, step_at hi]
  refine ⟨?_, ?_⟩
  · intro ho
    have h1 := countP_set wants hi .idle
    have h2 : ((run n es).threads.set i Pc.idle).countP wants = 0 := by
      refine countP_zero ?_
      intro j pc hj
      by_cases e : i = j
      · subst e
        rw [List.getElem?_set_self (List.getElem?_eq_some_iff.1 hi).1] at hj
        cases hj; rfl
      · rw [List.getElem?_set_ne e] at hj
        exact ho j pc (Ne.symm e) hj
    rw [h2] at h1
    simp only [wants, if_true, Bool.false_eq_true, if_false] at h1
    have hc1 : ¬ (run n es).vars.wannabe > 1 := by omega
    simp [stepPc, hc1]
  · intro j pc hj hpc hs
    have h2 := two_le_countP wants hpc hi hj hs rfl
    have hc1 : (run n es).vars.wannabe > 1 := by omega
    simp [stepPc, hc1]

/-- C31: `downgrade` keeps the ownership, shared; `unlock` and `unlock_shared` end it. -/
theorem C31_wp_release {n : Nat} {es : List Event} {i : Nat} :
    ((run n es).threads[i]? = some .exclusive →
      (run n (es ++ [(i, .downgrade)])).threads[i]? = some .shared ∧ (run n (es ++ [(i, .unlock)])).threads[i]? = some .idle) ∧
    ((run n es).threads[i]? = some .shared → (run n (es ++ [(i, .unlockShared)])).threads[i]? = some .idle) := by
  refine ⟨fun hi => ⟨?_, ?_⟩, fun hi => ?_⟩ <;> rw [run_snoc, step_at hi] <;> rfl

theorem quiet_of_short {n : Nat} {es : List Event} (h : es.length ≤ 2 ^ 31) : Quiet n es := by
  have key : ∀ (es : List Event) (x : State × Nat), (es.foldl watch x).2 ≤ x.2 + es.length := by
    intro es
    induction es with
    | nil => intro x; simp
    | cons e es ih =>
      intro x
      have := ih (watch x e)
      have h2 : (watch x e).2 ≤ x.2 + 1 := by
        unfold watch
        simp only
        split
        · omega
        · split <;> omega
      simp only [List.foldl_cons, List.length_cons]
      omega
  intro pre post he
  have := key pre (start n, 0)
  have hl : pre.length ≤ es.length := by rw [he]; simp
  simp only [Nat.zero_add] at this
  omega

/-- A schedule: a writer, a reader that waits for it, and two threads that try to upgrade at the same time. -/
def sample : List Event :=
  [(0, .lock), (0, .go false), (0, .go false), (1, .lockShared), (1, .go false), (0, .go false), (0, .downgrade), (1, .go false), (1, .go false), (1, .go false),
   (0, .tryUpgrade true), (1, .tryUpgrade true), (0, .go false), (1, .go false), (0, .go false), (1, .go false), (0, .go false), (1, .go false), (0, .go false),
   (1, .go false), (1, .unlockShared)]

example : (run 2 (sample.take 3)).threads = [.lockLeave, .idle] ∧ (run 2 (sample.take 7)).threads = [.shared, .loading false] ∧
    (run 2 (sample.take 10)).threads = [.shared, .shared] ∧ (run 2 (sample.take 16)).threads = [.upAsking, .upAsking] ∧
    (run 2 sample).threads = [.shared, .idle] ∧ Quiet 2 sample := by
  refine ⟨by decide +kernel, by decide +kernel, by decide +kernel, by decide +kernel, by decide +kernel, quiet_of_short (by decide)⟩

end Verif.Spin.Wp
