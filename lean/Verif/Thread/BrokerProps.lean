import Verif.Thread.Broker
/-
C71: signals of SignalBroker and KeySignalBroker.
-/
namespace Verif.Broker

variable {K : Type} [DecidableEq K]

/-! ### What the result of Wait means -/

/-- SPECIFICATION. No deadline passes. -/
def NoTimeout (es : List (Event K)) : Prop := ∀ ev ∈ es, ∀ i, ev ≠ .timeout i

/-- Whether the thread counts as waiting. -/
def Pc.waits : Pc → Bool
  | .loop | .sleepy | .asleep | .wake => true
  | _ => false

/-- What holds for a thread as long as no deadline passes. -/
def Fair (counts : K → Nat) (w : Waiter K) : Prop :=
  w.pc ≠ .late ∧ w.pc ≠ .back false ∧ (w.pc = .back true → w.sig = true) ∧ (w.pc.waits = true → w.sig = false → 0 < counts w.key)

theorem mem_set {α : Type} {ws : List α} {i : Nat} {w x : α} (h : x ∈ ws.set i w) : x = w ∨ x ∈ ws := by
  rcases List.mem_or_eq_of_mem_set h with h | h
  · exact .inr h
  · exact .inl h

theorem fair_set {counts : K → Nat} {ws : List (Waiter K)} (h : ∀ w ∈ ws, Fair counts w) {i : Nat} {w : Waiter K} (hw : Fair counts w) :
    ∀ x ∈ ws.set i w, Fair counts x := by
  intro x hx
  rcases mem_set hx with rfl | hx
  · exact hw
  · exact h x hx

theorem fair_step {s : State K} (h : ∀ w ∈ s.waiters, Fair s.counts w) (ev : Event K) (hev : ∀ i, ev ≠ .timeout i) :
    ∀ w ∈ (step s ev).waiters, Fair (step s ev).counts w := by
  have getw : ∀ {i : Nat} {w : Waiter K}, s.waiters[i]? = some w → Fair s.counts w := fun hi => h _ (List.mem_of_getElem? hi)
  cases ev with
  | construct i k =>
    simp only [step]; split
    · split
      · exact fair_set h (by simp [Fair, Pc.waits])
      · exact h
    · exact h
  | destroy i =>
    simp only [step]; split
    · split
      · exact fair_set h (by simp [Fair, Pc.waits])
      · exact fair_set h (by simp [Fair, Pc.waits])
      · exact h
    · exact h
  | wait i =>
    simp only [step]; split
    · split
      · exact fair_set h (by simp [Fair, Pc.waits])
      · exact fair_set h (by simp [Fair, Pc.waits])
      · exact h
    · exact h
  | timeout i => exact absurd rfl (hev i)
  | spurious i =>
    simp only [step]; split
    · rename_i w hw
      split
      · rename_i hp
        have := getw hw
        exact fair_set h ⟨by simp, by simp, by simp, fun _ hs => this.2.2.2 (by rw [hp]; rfl) hs⟩
      · exact h
    · exact h
  | send j k all =>
    simp only [step]; split <;> exact h
  | sendStep j i =>
    simp only [step, sendStep]; split
    · rename_i k all _
      split
      · rename_i hf
        split
        · exact h
        · intro x hx
          obtain ⟨w, hw, rfl⟩ := List.mem_map.1 hx
          obtain ⟨h1, h2, h3, h4⟩ := h w hw
          have hl : w.pc.locks = false := by have := List.all_eq_true.1 hf w hw; simpa using this
          unfold Waiter.signal
          split
          · exact ⟨h1, h2, fun _ => rfl, fun _ hs => by simp at hs⟩
          · rename_i hn
            refine ⟨h1, h2, h3, fun hw' hs => ?_⟩
            simp only [put]
            have hp : w.pc = .asleep ∨ w.pc = .wake := by
              revert hw' hl
              cases w.pc <;> simp [Pc.waits, Pc.locks]
            have hk : w.key ≠ k := fun e => hn ⟨e, by rcases hp with hp | hp <;> simp [hp]⟩
            rw [if_neg hk]
            exact h4 hw' hs
      · exact h
    · split
      · split
        · intro x hx
          obtain ⟨w, hw, rfl⟩ := List.mem_map.1 hx
          have h1 := h w hw
          unfold Waiter.awake
          split
          · rename_i hp
            exact ⟨by simp, by simp, by simp, fun _ hs => h1.2.2.2 (by rw [hp]; rfl) hs⟩
          · exact h1
        · split
          · exact h
          · split
            · rename_i w hw
              split
              · rename_i hp
                have := getw hw
                exact fair_set h ⟨by simp, by simp, by simp, fun _ hs => this.2.2.2 (by rw [hp]; rfl) hs⟩
              · exact h
            · exact h
      · exact h
    · exact h
  | work i =>
    simp only [step, work]; split
    · exact h
    · rename_i w hw
      have h1 := getw hw
      split
      · split
        · intro x hx
          have hmono : ∀ y : Waiter K, Fair s.counts y → Fair (put s.counts w.key (s.counts w.key + 1)) y := by
            intro y hy
            refine ⟨hy.1, hy.2.1, hy.2.2.1, fun a b => ?_⟩
            have := hy.2.2.2 a b
            unfold put; split <;> omega
          rcases mem_set hx with rfl | hx
          · refine ⟨by simp, by simp, by simp, fun _ _ => ?_⟩
            simp [put]
          · exact hmono x (h x hx)
        · exact h
      · rename_i hp
        split
        · exact fair_set h ⟨by simp, by simp, by simp, fun _ hs => h1.2.2.2 (by rw [hp]; rfl) hs⟩
        · rename_i hz
          refine fair_set h ⟨by simp, by simp, fun _ => ?_, by simp [Pc.waits]⟩
          cases hs : w.sig with
          | true => rfl
          | false => have := h1.2.2.2 (by rw [hp]; rfl) hs; omega
      · rename_i hp
        exact fair_set h ⟨by simp, by simp, by simp, fun _ hs => h1.2.2.2 (by rw [hp]; rfl) hs⟩
      · rename_i hp
        split
        · exact fair_set h ⟨by simp, by simp, by simp, fun _ hs => h1.2.2.2 (by rw [hp]; rfl) hs⟩
        · exact h
      · rename_i hp
        exact absurd hp h1.1
      · exact h

theorem fair_run (es : List (Event K)) : ∀ s : State K, (∀ w ∈ s.waiters, Fair s.counts w) → NoTimeout es → ∀ w ∈ (run s es).waiters, Fair (run s es).counts w := by
  induction es with
  | nil => exact fun _ h _ => h
  | cons ev es ih => exact fun s h hn => ih _ (fair_step h ev (hn ev (by simp))) fun x hx => hn x (by simp [hx])

theorem fair_start (k : K) (n m : Nat) : ∀ w ∈ (start k n m).waiters, Fair (start k n m).counts w := by
  intro w hw
  rw [List.eq_of_mem_replicate hw]
  simp [Fair, Pc.waits]

/-- **C71, partial.** As long as no deadline passes, `Wait` returns only true, and only if a `Send` with the key has found threads waiting since
the call. A thread for which no such `Send` has come is counted, so that the next `Send` with its key does not answer that nobody waits.
Missing: deadlines, with which both are false. -/
theorem C71_true_partial (k : K) (n m : Nat) (es : List (Event K)) (h : NoTimeout es) :
    ∀ w ∈ (run (start k n m) es).waiters, (∀ r, w.pc = .back r → r = true ∧ w.sig = true) ∧
      (w.pc.waits = true → w.sig = false → (run (start k n m) es).counts w.key ≠ 0) := by
  intro w hw
  have := fair_run es _ (fair_start k n m) h w hw
  refine ⟨fun r hr => ?_, fun h1 h2 => Nat.pos_iff_ne_zero.1 (this.2.2.2 h1 h2)⟩
  cases r with
  | true => exact ⟨rfl, this.2.2.1 hr⟩
  | false => exact absurd hr this.2.1

/-- Two threads wait for the same key and one `Send` wakes them: the hypothesis holds. -/
def sample : List (Event Nat) := [.construct 0 7, .construct 1 7, .wait 0, .wait 1, .work 0, .work 0, .work 0, .work 1, .work 1, .work 1,
  .send 0 7 true, .sendStep 0 0, .sendStep 0 0, .work 0, .work 0, .work 1, .work 1]

example : (run (start 7 2 1) sample).waiters = [⟨7, .back true, true⟩, ⟨7, .back true, true⟩] ∧
    (run (start 7 2 1) sample).senders = [.sent true] := by decide +kernel

example : NoTimeout sample := by
  have h : sample.all (fun ev => match ev with | .timeout _ => false | _ => true) = true := by decide
  intro ev hev i e
  have := List.all_eq_true.1 h ev hev
  rw [e] at this; cases this

/-- **C71, refuted.** With deadlines `Wait` may return true without any signal since its call, and false in spite of one: a `Send` wakes thread 0,
thread 1 begins to wait before thread 0 has looked at the counter, so thread 0 sleeps again; when its deadline passes it takes back the count of
thread 1, and thread 1 takes the counter zero for a signal. -/
theorem C71_true_violated : ∃ es es' : List (Event Nat),
    (run (start 7 2 1) es).senders = [.sent true] ∧ (run (start 7 2 1) es).waiters = [⟨7, .wake, true⟩, ⟨7, .out, false⟩] ∧
    (∀ ev ∈ es', ∀ j k all, ev ≠ .send j k all) ∧
    (run (run (start 7 2 1) es) es').waiters = [⟨7, .back false, true⟩, ⟨7, .back true, false⟩] := by
  refine ⟨[.construct 0 7, .wait 0, .work 0, .work 0, .work 0, .send 0 7 true, .sendStep 0 0, .sendStep 0 0],
    [.construct 1 7, .wait 1, .work 1, .work 1, .work 1, .work 0, .work 0, .work 0, .timeout 0, .work 0, .timeout 1, .work 1],
    by decide +kernel, by decide +kernel, ?_, by decide +kernel⟩
  intro ev hev j k all e
  have h : ([.construct 1 7, .wait 1, .work 1, .work 1, .work 1, .work 0, .work 0, .work 0, .timeout 0, .work 0, .timeout 1, .work 1] : List (Event Nat)).all
    (fun ev => match ev with | .send _ _ _ => false | _ => true) = true := by decide
  have := List.all_eq_true.1 h ev hev
  rw [e] at this; cases this

/-! ### Send wakes the threads that wait -/

theorem filter_set_length {α : Type} (p : α → Bool) : ∀ (l : List α) (i : Nat) (a b : α), l[i]? = some a → p a = true → p b = false →
    ((l.set i b).filter p).length + 1 = (l.filter p).length := by
  intro l
  induction l with
  | nil => intro i a b h; simp at h
  | cons x l ih =>
    intro i a b h ha hb
    cases i with
    | zero =>
      simp at h; subst h
      rw [List.set_cons_zero, List.filter_cons_of_neg (by simp [hb]), List.filter_cons_of_pos ha]
      rfl
    | succ i =>
      have := ih i a b (by simpa using h) ha hb
      simp only [List.set_cons_succ, List.filter_cons]
      split
      · simp only [List.length_cons]; omega
      · exact this

/-- What the falling asleep makes of a thread. -/
def Waiter.calm (w : Waiter K) : Waiter K := if w.pc = .sleepy then { w with pc := .asleep } else w

theorem calm_all {n : Nat} : ∀ s : State K, (s.waiters.filter (·.pc = .sleepy)).length ≤ n → ∃ is : List Nat, (is.foldl work s).counts = s.counts ∧
    (is.foldl work s).senders = s.senders ∧ (is.foldl work s).waiters.length = s.waiters.length ∧
    ∀ (i : Nat) (w : Waiter K), s.waiters[i]? = some w → (is.foldl work s).waiters[i]? = some w.calm := by
  have zero : ∀ s : State K, (∀ w ∈ s.waiters, w.pc ≠ .sleepy) → ∀ (i : Nat) (w : Waiter K), s.waiters[i]? = some w → s.waiters[i]? = some w.calm := by
    intro s h i w hw
    rw [hw, Waiter.calm, if_neg (h w (List.mem_of_getElem? hw))]
  induction n with
  | zero =>
    intro s hn
    refine ⟨[], rfl, rfl, rfl, zero s fun w hw hp => ?_⟩
    have := List.eq_nil_of_length_eq_zero (Nat.le_zero.1 hn)
    rw [List.filter_eq_nil_iff] at this
    exact this w hw (by simpa using hp)
  | succ n ih =>
    intro s hn
    by_cases hex : ∃ w ∈ s.waiters, w.pc = .sleepy
    · obtain ⟨w, hw, hp⟩ := hex
      obtain ⟨i, hi⟩ := List.getElem?_of_mem hw
      have hil := (List.getElem?_eq_some_iff.1 hi).1
      have hstep : work s i = { s with waiters := s.waiters.set i { w with pc := .asleep } } := by simp only [work, hi, hp]
      have hlen := filter_set_length (fun w : Waiter K => w.pc = .sleepy) s.waiters i w { w with pc := .asleep } hi (by simpa using hp) (by simp)
      obtain ⟨is, h1, h2, h3, h4⟩ := ih (work s i) (by rw [hstep]; simp only; omega)
      refine ⟨i :: is, by rw [List.foldl_cons, h1, hstep], by rw [List.foldl_cons, h2, hstep], by rw [List.foldl_cons, h3, hstep]; simp, ?_⟩
      intro j x hx
      rw [List.foldl_cons]
      by_cases e : i = j
      · subst e
        rw [hi] at hx; cases hx
        have := h4 i { w with pc := .asleep } (by rw [hstep]; simp [hil])
        rw [this]
        simp [Waiter.calm, hp]
      · exact h4 j x (by rw [hstep]; simp only; rw [List.getElem?_set_ne e]; exact hx)
    · exact ⟨[], rfl, rfl, rfl, zero s fun w hw hp => hex ⟨w, hw, hp⟩⟩

/-- The threads that are woken return. -/
theorem return_all {k : K} {n : Nat} : ∀ s : State K, s.counts k = 0 → free s = true →
    (s.waiters.filter (fun w => w.key = k ∧ (w.pc = .wake ∨ w.pc = .late))).length ≤ n → ∃ is : List Nat, (is.foldl work s).senders = s.senders ∧
    ∀ (i : Nat) (w : Waiter K), s.waiters[i]? = some w →
      (is.foldl work s).waiters[i]? = some (if w.key = k ∧ (w.pc = .wake ∨ w.pc = .late) then { w with pc := .back true } else w) := by
  have zero : ∀ s : State K, (∀ w ∈ s.waiters, ¬ (w.key = k ∧ (w.pc = .wake ∨ w.pc = .late))) → ∀ (i : Nat) (w : Waiter K), s.waiters[i]? = some w →
      s.waiters[i]? = some (if w.key = k ∧ (w.pc = .wake ∨ w.pc = .late) then { w with pc := .back true } else w) := by
    intro s h i w hw
    rw [hw, if_neg (h w (List.mem_of_getElem? hw))]
  induction n with
  | zero =>
    intro s _ _ hn
    refine ⟨[], rfl, zero s fun w hw hp => ?_⟩
    have := List.eq_nil_of_length_eq_zero (Nat.le_zero.1 hn)
    rw [List.filter_eq_nil_iff] at this
    exact this w hw (by simpa using hp)
  | succ n ih =>
    intro s hc hf hn
    by_cases hex : ∃ w ∈ s.waiters, w.key = k ∧ (w.pc = .wake ∨ w.pc = .late)
    · obtain ⟨w, hw, hk, hp⟩ := hex
      obtain ⟨i, hi⟩ := List.getElem?_of_mem hw
      have hil := (List.getElem?_eq_some_iff.1 hi).1
      obtain ⟨js, hstep⟩ : ∃ js : List Nat, js.foldl work s = { s with waiters := s.waiters.set i { w with pc := .back true } } := by
        rcases hp with hp | hp
        · refine ⟨[i, i], ?_⟩
          have e1 : work s i = { s with waiters := s.waiters.set i { w with pc := .loop } } := by simp only [work, hi, hp, hf, if_true]
          simp only [List.foldl_cons, List.foldl_nil]
          rw [e1]
          simp [work, hil, hk, hc]
        · refine ⟨[i], ?_⟩
          simp only [List.foldl_cons, List.foldl_nil, work, hi, hp, hf, if_true, hk, hc]
      have hlen := filter_set_length (fun w : Waiter K => w.key = k ∧ (w.pc = .wake ∨ w.pc = .late)) s.waiters i w { w with pc := .back true } hi
        (by simpa using ⟨hk, hp⟩) (by simp)
      have hf' : free (js.foldl work s) = true := by
        rw [hstep]
        unfold free
        rw [List.all_eq_true]
        intro x hx
        rcases mem_set hx with rfl | hx
        · rfl
        · exact List.all_eq_true.1 hf x hx
      obtain ⟨is, h2, h4⟩ := ih (js.foldl work s) (by rw [hstep]; exact hc) hf' (by rw [hstep]; simp only; omega)
      refine ⟨js ++ is, by rw [List.foldl_append, h2, hstep], ?_⟩
      intro j x hx
      rw [List.foldl_append]
      by_cases e : i = j
      · subst e
        rw [hi] at hx; cases hx
        have := h4 i { w with pc := .back true } (by rw [hstep]; simp [hil])
        rw [this]
        simp [hk, hp]
      · exact h4 j x (by rw [hstep]; simp only; rw [List.getElem?_set_ne e]; exact hx)
    · exact ⟨[], rfl, zero s fun w hw hp => hex ⟨w, hw, hp⟩⟩

/-- **C71, partial.** A `Send` to all that has found threads waiting, and after which no thread has begun to wait for the key yet when it comes
to notify, wakes all the threads that wait for the key: by steps of the waiting threads alone they all return true. Missing: threads which
begin to wait in the meantime, and `Send` to one; then it is false. -/
theorem C71_send_partial (s : State K) (j : Nat) (k : K) (h1 : s.senders[j]? = some (.notify k true)) (h2 : s.counts k = 0) (h3 : quiet s = true) :
    ∃ is : List Nat, (is.foldl work (sendStep s j 0)).senders[j]? = some (.sent true) ∧
      ∀ (i : Nat) (w : Waiter K), s.waiters[i]? = some w → w.key = k → w.pc = .asleep ∨ w.pc = .wake ∨ w.pc = .late →
        (is.foldl work (sendStep s j 0)).waiters[i]? = some { w with pc := .back true } := by
  have hjl := (List.getElem?_eq_some_iff.1 h1).1
  have e1 : sendStep s j 0 = { s with waiters := s.waiters.map Waiter.awake, senders := s.senders.set j (.sent true) } := by
    simp only [sendStep, h1, h3, if_true]
  obtain ⟨is, a1, a2, a3, a4⟩ := calm_all (sendStep s j 0) (Nat.le_refl _)
  have hw : ∀ (i : Nat) (w : Waiter K), s.waiters[i]? = some w → (is.foldl work (sendStep s j 0)).waiters[i]? = some w.awake.calm := by
    intro i w hi
    exact a4 i w.awake (by rw [e1]; simp [hi])
  have hfree : free (is.foldl work (sendStep s j 0)) = true := by
    unfold free
    rw [List.all_eq_true]
    intro x hx
    obtain ⟨i, hi⟩ := List.getElem?_of_mem hx
    have hil : i < s.waiters.length := by
      have := (List.getElem?_eq_some_iff.1 hi).1
      rw [a3, e1] at this
      simpa using this
    have := hw i _ (List.getElem?_eq_getElem hil)
    rw [hi] at this
    cases this
    have hq := List.all_eq_true.1 h3 _ (List.getElem_mem hil)
    revert hq
    generalize s.waiters[i] = w
    obtain ⟨key, pc, sig⟩ := w
    cases pc <;> simp [Waiter.awake, Waiter.calm, Pc.locks, Pc.holds]
  obtain ⟨js, b1, b2⟩ := return_all (k := k) (is.foldl work (sendStep s j 0)) (by rw [a1, e1]; exact h2) hfree (Nat.le_refl _)
  refine ⟨is ++ js, ?_, ?_⟩
  · rw [List.foldl_append, b1, a2, e1]; simp [hjl]
  · intro i w hi hk hp
    rw [List.foldl_append, b2 i _ (hw i w hi)]
    obtain ⟨key, pc, sig⟩ := w
    simp only at hk hp
    rcases hp with rfl | rfl | rfl <;> simp [Waiter.awake, Waiter.calm, hk]

/-- The hypotheses hold after the critical section of the `Send` of `sample`. -/
example : let s := run (start 7 2 1) (sample.take 12)
    s.senders[0]? = some (.notify 7 true) ∧ s.counts 7 = 0 ∧ quiet s = true ∧ s.waiters = [⟨7, .asleep, true⟩, ⟨7, .asleep, true⟩] := by decide +kernel

/-! ### Threads that sleep on -/

/-- SPECIFICATION. Only the threads in `Wait` go on: nothing is sent any more, no thread begins to wait, no deadline passes and no thread wakes for no
reason. -/
def Rest (es : List (Event K)) : Prop := ∀ ev ∈ es, ∃ i j : Nat, ev = .work i ∨ ev = .sendStep i j

/-- A state in which nothing moves. -/
theorem rest_stuck {s : State K} (h1 : ∀ w ∈ s.waiters, w.pc = .asleep ∨ w.pc = .out ∨ ∃ r, w.pc = .back r) (h2 : ∀ x ∈ s.senders, x = .idle ∨ ∃ r, x = .sent r)
    (es : List (Event K)) (h : Rest es) : run s es = s := by
  induction es with
  | nil => rfl
  | cons ev es ih =>
    have e : step s ev = s := by
      obtain ⟨i, j, rfl | rfl⟩ := h ev (by simp)
      · simp only [step, work]
        split
        · rfl
        · rename_i w hw
          rcases h1 w (List.mem_of_getElem? hw) with hp | hp | ⟨r, hp⟩ <;> rw [hp]
      · simp only [step, sendStep]
        cases hj : s.senders[i]? with
        | none => rfl
        | some x => rcases h2 x (List.mem_of_getElem? hj) with rfl | ⟨r, rfl⟩ <;> rfl
    show run (step s ev) es = s
    rw [e]
    exact ih fun x hx => h x (by simp [hx])

/-- **C71, refuted.** `Send` to all returns true and no thread receives the signal: thread 1 begins to wait after the counter was cleared, and so
both threads, though notified, sleep again. -/
theorem C71_send_violated : ∃ es : List (Event Nat), let s := run (start 7 2 1) es
    s.senders = [.sent true] ∧ s.waiters = [⟨7, .asleep, true⟩, ⟨7, .asleep, false⟩] ∧ ∀ es', Rest es' → run s es' = s := by
  refine ⟨[.construct 0 7, .wait 0, .work 0, .work 0, .work 0, .construct 1 7, .wait 1, .send 0 7 true, .sendStep 0 0, .work 1, .work 1, .work 1,
    .sendStep 0 0, .work 0, .work 0, .work 0, .work 1, .work 1, .work 1], by decide +kernel, by decide +kernel, fun es' h => ?_⟩
  exact rest_stuck (by decide +kernel) (by decide +kernel) es' h

/-- **C71, refuted.** `Send` to one clears the count of all: of two threads that wait, one is woken, and the next `Send` answers that nobody waits
although the other one sleeps. -/
theorem C71_send_one_violated : ∃ es : List (Event Nat), let s := run (start 7 2 2) es
    s.senders = [.sent true, .sent false] ∧ s.waiters = [⟨7, .back true, true⟩, ⟨7, .asleep, true⟩] ∧ ∀ es', Rest es' → run s es' = s := by
  refine ⟨[.construct 0 7, .wait 0, .work 0, .work 0, .work 0, .construct 1 7, .wait 1, .work 1, .work 1, .work 1, .send 0 7 false, .sendStep 0 0, .sendStep 0 0,
    .work 0, .work 0, .send 1 7 false, .sendStep 1 0], by decide +kernel, by decide +kernel, fun es' h => ?_⟩
  exact rest_stuck (by decide +kernel) (by decide +kernel) es' h

/-- **C71, refuted.** `Send` to one thread with a key may wake a thread that waits for another key, and the thread that waits for the key sleeps on. -/
theorem C71_send_key_violated : ∃ es : List (Event Nat), let s := run (start 7 2 1) es
    s.senders = [.sent true] ∧ s.waiters = [⟨7, .asleep, true⟩, ⟨8, .asleep, false⟩] ∧ ∀ es', Rest es' → run s es' = s := by
  refine ⟨[.construct 0 7, .wait 0, .work 0, .work 0, .work 0, .construct 1 8, .wait 1, .work 1, .work 1, .work 1, .send 0 7 false, .sendStep 0 0, .sendStep 0 1,
    .work 1, .work 1, .work 1], by decide +kernel, by decide +kernel, fun es' h => ?_⟩
  exact rest_stuck (by decide +kernel) (by decide +kernel) es' h

/-- **C71, refuted.** The documented use, a `Waiter` made before looking at the resource and `Wait` called if it is not there, misses a signal that is sent
in between: `Send` does not wait for the `Waiter` but answers that nobody waits. -/
theorem C71_before_violated : ∃ es es' : List (Event Nat),
    (run (start 7 1 1) es).waiters = [⟨7, .ready, false⟩] ∧ (run (start 7 1 1) es).senders = [.sent false] ∧
    (let s := run (run (start 7 1 1) es) es'
     s.waiters = [⟨7, .asleep, false⟩] ∧ ∀ es'', Rest es'' → run s es'' = s) := by
  refine ⟨[.construct 0 7, .send 0 7 true, .sendStep 0 0], [.wait 0, .work 0, .work 0, .work 0], by decide +kernel, by decide +kernel, by decide +kernel, fun es' h => ?_⟩
  exact rest_stuck (by decide +kernel) (by decide +kernel) es' h

/-! ### No deadlock -/

/-- **C71.** The locks cannot block each other: as long as a thread is in `Wait` and not asleep, or a `Send` has not locked the mutex yet, some thread can make
a step; and a `Send` that is about to notify is held up only by threads that have a `Waiter` and do not sleep in its `Wait`. -/
theorem C71_no_deadlock (s : State K) :
    ((∃ w ∈ s.waiters, w.pc = .enter ∨ w.pc = .loop ∨ w.pc = .sleepy ∨ w.pc = .wake ∨ w.pc = .late) →
      ∃ (i : Nat) (w : Waiter K) (pc : Pc), s.waiters[i]? = some w ∧ ((work s i).waiters[i]?).map (·.pc) = some pc ∧ pc ≠ w.pc) ∧
    (∀ (j : Nat) (k : K) (all : Bool), s.senders[j]? = some (.begin k all) →
      (∃ (i : Nat) (w : Waiter K) (pc : Pc), s.waiters[i]? = some w ∧ ((work s i).waiters[i]?).map (·.pc) = some pc ∧ pc ≠ w.pc) ∨
      (sendStep s j 0).senders[j]? = some (.sent false) ∨ (sendStep s j 0).senders[j]? = some (.notify k all)) ∧
    (∀ (j : Nat) (k : K) (all : Bool), s.senders[j]? = some (.notify k all) → (∃ w ∈ s.waiters, w.pc.holds = true) ∨
      ∃ i, (sendStep s j i).senders[j]? = some (.sent true)) := by
  have holder : free s ≠ true → ∃ (i : Nat) (w : Waiter K) (pc : Pc), s.waiters[i]? = some w ∧ ((work s i).waiters[i]?).map (·.pc) = some pc ∧ pc ≠ w.pc := by
    intro hf
    have : ∃ w ∈ s.waiters, w.pc.locks = true := by
      have : ¬ ∀ w ∈ s.waiters, (!w.pc.locks) = true := fun h => hf (List.all_eq_true.2 h)
      simpa using this
    obtain ⟨w, hw, hl⟩ := this
    obtain ⟨i, hi⟩ := List.getElem?_of_mem hw
    have hil := (List.getElem?_eq_some_iff.1 hi).1
    have hp : w.pc = .loop ∨ w.pc = .sleepy := by revert hl; cases w.pc <;> simp [Pc.locks]
    rcases hp with hp | hp
    · by_cases hc : s.counts w.key = 0
      · exact ⟨i, w, .back true, hi, by simp only [work, hi, hp, hc, ne_eq, not_true_eq_false, not_false_eq_true, if_true, if_false]; simp [hil], by simp [hp]⟩
      · exact ⟨i, w, .sleepy, hi, by simp only [work, hi, hp, hc, ne_eq, not_true_eq_false, not_false_eq_true, if_true, if_false]; simp [hil], by simp [hp]⟩
    · exact ⟨i, w, .asleep, hi, by simp only [work, hi, hp, ne_eq, not_true_eq_false, not_false_eq_true, if_true, if_false]; simp [hil], by simp [hp]⟩
  refine ⟨?_, ?_, ?_⟩
  · rintro ⟨w, hw, hp⟩
    by_cases hf : free s = true
    · obtain ⟨i, hi⟩ := List.getElem?_of_mem hw
      have hil := (List.getElem?_eq_some_iff.1 hi).1
      have hl : w.pc.locks = false := by have := List.all_eq_true.1 hf w hw; simpa using this
      rcases hp with hp | hp | hp | hp | hp
      · exact ⟨i, w, .loop, hi, by simp only [work, hi, hp, hf, ne_eq, not_true_eq_false, not_false_eq_true, if_true, if_false]; simp [hil], by simp [hp]⟩
      · rw [hp] at hl; cases hl
      · rw [hp] at hl; cases hl
      · exact ⟨i, w, .loop, hi, by simp only [work, hi, hp, hf, ne_eq, not_true_eq_false, not_false_eq_true, if_true, if_false]; simp [hil], by simp [hp]⟩
      · by_cases hc : s.counts w.key = 0
        · exact ⟨i, w, .back true, hi, by simp only [work, hi, hp, hf, hc, ne_eq, not_true_eq_false, not_false_eq_true, if_true, if_false]; simp [hil], by simp [hp]⟩
        · exact ⟨i, w, .back false, hi, by simp only [work, hi, hp, hf, hc, ne_eq, not_true_eq_false, not_false_eq_true, if_true, if_false]; simp [hil], by simp [hp]⟩
    · exact holder hf
  · intro j k all hj
    have hjl := (List.getElem?_eq_some_iff.1 hj).1
    by_cases hf : free s = true
    · right
      by_cases hc : s.counts k = 0
      · left; simp only [sendStep, hj, hf, hc, if_true, if_false]; simp [hjl]
      · right; simp only [sendStep, hj, hf, hc, if_true, if_false]; simp [hjl]
    · exact .inl (holder hf)
  · intro j k all hj
    have hjl := (List.getElem?_eq_some_iff.1 hj).1
    by_cases hq : quiet s = true
    · right
      cases all with
      | true => exact ⟨0, by simp only [sendStep, hj, hq, if_true, if_false]; simp [hjl]⟩
      | false =>
        by_cases ha : s.waiters.all (·.pc ≠ .asleep) = true
        · exact ⟨0, by simp only [sendStep, hj, hq, ha]; simp [hjl]⟩
        · have : ∃ w ∈ s.waiters, w.pc = .asleep := by
            have : ¬ ∀ w ∈ s.waiters, (decide (w.pc ≠ .asleep)) = true := fun h => ha (List.all_eq_true.2 h)
            simpa using this
          obtain ⟨w, hw, hp⟩ := this
          obtain ⟨i, hi⟩ := List.getElem?_of_mem hw
          refine ⟨i, ?_⟩
          have ha' : s.waiters.all (fun w => decide (w.pc ≠ .asleep)) = false := by simpa using ha
          simp only [sendStep, hj, hq, ha', hi, hp]
          simp [hjl]
    · left
      have : ¬ ∀ w ∈ s.waiters, (!w.pc.holds) = true := fun h => hq (List.all_eq_true.2 h)
      simpa using this

end Verif.Broker
