import Verif.Thread.TaskQueue
/-
C51: the task queue runs every task once.
-/
namespace Verif.TaskQueue
open Verif

/-- SPECIFICATION. The tasks that the workers are running. -/
def inProgress (ws : List Worker) : List Nat := ws.filterMap fun w => match w with
  | .doing t => some t
  | _ => none

/-! ### Where the tasks are -/

theorem inProgress_set_same {ws : List Worker} {i : Nat} {w w' : Worker} (h : ws[i]? = some w) (hw : ∀ t, w ≠ .doing t)
    (hw' : ∀ t, w' ≠ .doing t) : inProgress (ws.set i w') = inProgress ws := by
  induction ws generalizing i with
  | nil => simp at h
  | cons x ws ih =>
    cases i with
    | zero =>
      simp only [List.getElem?_cons_zero, Option.some.injEq] at h
      subst h
      simp only [List.set_cons_zero, inProgress]
      cases x <;> cases w' <;> first | rfl | (exact absurd rfl (hw _)) | (exact absurd rfl (hw' _))
    | succ i =>
      have := ih (i := i) (by simpa using h)
      simp only [List.set_cons_succ, inProgress] at this ⊢
      simp only [List.filterMap_cons]
      rw [this]

theorem inProgress_take {ws : List Worker} {i t : Nat} {w : Worker} (h : ws[i]? = some w) (hw : ∀ t, w ≠ .doing t) (u : Nat) :
    (inProgress (ws.set i (.doing t))).count u = (inProgress ws).count u + [t].count u := by
  induction ws generalizing i with
  | nil => simp at h
  | cons x ws ih =>
    cases i with
    | zero =>
      simp only [List.getElem?_cons_zero, Option.some.injEq] at h
      subst h
      simp only [List.set_cons_zero, inProgress]
      cases x <;> first
        | exact absurd rfl (hw _)
        | (simp only [List.filterMap_cons, List.count_cons, List.count_nil]; omega)
    | succ i =>
      have := ih (i := i) (by simpa using h)
      simp only [inProgress] at this
      simp only [List.set_cons_succ, inProgress, List.filterMap_cons]
      split
      · exact this
      · simp only [List.count_cons] at this ⊢; omega

theorem inProgress_done {ws : List Worker} {i t : Nat} (h : ws[i]? = some (.doing t)) (u : Nat) :
    (inProgress (ws.set i .top)).count u + [t].count u = (inProgress ws).count u := by
  have := inProgress_take (ws := ws.set i .top) (i := i) (t := t) (w := .top)
    (List.getElem?_set_self (List.getElem?_eq_some_iff.1 h).1) (by simp) u
  rw [List.set_set] at this
  have hs : ws.set i (.doing t) = ws := by
    apply List.ext_getElem?
    intro j
    by_cases hj : i = j
    · subst hj
      rw [List.getElem?_set_self (List.getElem?_eq_some_iff.1 h).1, h]
    · rw [List.getElem?_set_ne hj]
  rw [hs] at this
  exact this.symm

theorem inProgress_wakeAll (ws : List Worker) : inProgress (wakeAll ws) = inProgress ws := by
  induction ws with
  | nil => rfl
  | cons x ws ih =>
    simp only [wakeAll, inProgress, List.map_cons, List.filterMap_cons] at ih ⊢
    rw [ih]
    cases x <;> rfl

theorem inProgress_of_exited {ws : List Worker} (h : (ws.all (· = .exited)) = true) : inProgress ws = [] := by
  induction ws with
  | nil => rfl
  | cons x ws ih =>
    simp only [List.all_cons, Bool.and_eq_true, decide_eq_true_eq] at h
    obtain ⟨rfl, h⟩ := h
    exact ih h

/-- A step of a worker is one of three things: it takes the first task of the queue, it finishes its task, or it does nothing with tasks. -/
theorem work_cases (s : State) (i : Nat) :
    (∃ t q, s.queue = t :: q ∧ s.workers[i]? = some .enter ∧ free s = true ∧
      work s i = { s with queue := q, num := q.length, taken := s.taken ++ [t], workers := s.workers.set i (.doing t) }) ∨
    (∃ t, s.workers[i]? = some (.doing t) ∧ work s i = { s with done := s.done ++ [t], workers := s.workers.set i .top }) ∨
    (∃ ws, work s i = { s with workers := ws } ∧ inProgress ws = inProgress s.workers) := by
  have keep : ∃ ws, s = { s with workers := ws } ∧ inProgress ws = inProgress s.workers := ⟨_, rfl, rfl⟩
  unfold work
  cases h : s.workers[i]? with
  | none => exact .inr (.inr keep)
  | some w =>
    cases w with
    | doing t => exact .inr (.inl ⟨t, rfl, rfl⟩)
    | top =>
      right; right; simp only
      split <;> exact ⟨_, rfl, inProgress_set_same h (by simp) (by simp)⟩
    | enter =>
      simp only
      split
      · rename_i hf
        cases hq : s.queue with
        | nil => exact .inr (.inr ⟨_, by first | rfl | trivial, inProgress_set_same h (by simp) (by simp)⟩)
        | cons t q => exact .inl ⟨t, q, rfl, by trivial, hf, rfl⟩
      · exact .inr (.inr keep)
    | pred =>
      right; right; simp only
      split <;> exact ⟨_, rfl, inProgress_set_same h (by simp) (by simp)⟩
    | sleepy => exact .inr (.inr ⟨_, rfl, inProgress_set_same h (by simp) (by simp)⟩)
    | asleep => exact .inr (.inr keep)
    | wake =>
      right; right; simp only
      split
      · exact ⟨_, rfl, inProgress_set_same h (by simp) (by simp)⟩
      · exact keep
    | exited => exact .inr (.inr keep)

/-- The tasks added are those taken, in order, and those in the queue; the tasks taken are done or in progress. -/
structure Tasks (s : State) : Prop where
  order : s.taken ++ s.queue = s.added
  once : ∀ t, s.done.count t + (inProgress s.workers).count t = s.taken.count t

theorem stopStep_cases (s : State) (x : Bool) :
    (∃ ws r st, stopStep s x = { s with workers := ws, running := r, stop := st } ∧ inProgress ws = inProgress s.workers) ∨
    (s.stop = .joining ∧ (s.workers.all (· = .exited)) = true ∧ stopStep s x = { s with stop := .idle, workers := [], num := 0 }) := by
  have keep : ∃ ws r st, s = { s with workers := ws, running := r, stop := st } ∧ inProgress ws = inProgress s.workers :=
    ⟨_, _, _, rfl, rfl⟩
  unfold stopStep
  cases h : s.stop with
  | idle => exact .inl keep
  | polling =>
    left; simp only
    split
    · exact ⟨_, _, _, rfl, rfl⟩
    · split
      · split
        · exact ⟨_, _, _, rfl, rfl⟩
        · exact ⟨_, _, _, rfl, rfl⟩
      · exact keep
  | pollNotify => exact .inl ⟨_, _, _, rfl, inProgress_wakeAll _⟩
  | clearing => exact .inl ⟨_, _, _, rfl, rfl⟩
  | notifying => exact .inl ⟨_, _, _, rfl, inProgress_wakeAll _⟩
  | joining =>
    simp only
    split
    · rename_i hh; exact .inr ⟨by trivial, hh, rfl⟩
    · exact .inl keep

theorem Tasks.step {s : State} (h : Tasks s) (ev : Event) : Tasks (step s ev) := by
  refine ⟨?_, ?_⟩
  · cases ev with
    | start n => simp only [TaskQueue.step]; split <;> exact h.order
    | push t =>
      simp only [TaskQueue.step]; split
      · simp only; rw [← List.append_assoc, h.order]
      · exact h.order
    | notify i => simp only [TaskQueue.step]; split <;> (try split) <;> (try split) <;> exact h.order
    | work i =>
      simp only [TaskQueue.step]
      rcases work_cases s i with ⟨t, q, hq, _, _, hw⟩ | ⟨t, _, hw⟩ | ⟨ws, hw, _⟩ <;> rw [hw] <;> simp only
      · rw [List.append_assoc, ← h.order, hq]; rfl
      · exact h.order
      · exact h.order
    | spurious i => simp only [TaskQueue.step]; split <;> exact h.order
    | stop => simp only [TaskQueue.step]; split <;> exact h.order
    | stopStep x =>
      simp only [TaskQueue.step]
      rcases stopStep_cases s x with ⟨ws, r, st, hw, _⟩ | ⟨_, _, hw⟩ <;> rw [hw] <;> exact h.order
  · intro u
    have h1 := h.once u
    cases ev with
    | start n =>
      simp only [TaskQueue.step]
      split
      · rename_i hc
        rw [hc.1] at h1
        simp only
        have : inProgress (List.replicate n Worker.top) = [] := by
          induction n with
          | zero => rfl
          | succ n ih => rw [List.replicate_succ]; exact ih
        rw [this]
        exact h1
      · exact h1
    | push t => simp only [TaskQueue.step]; split <;> exact h1
    | notify i =>
      simp only [TaskQueue.step]
      split
      · exact h1
      · split
        · exact h1
        · split
          · rename_i hw
            simp only
            rw [inProgress_set_same hw (by simp) (by simp)]
            exact h1
          · exact h1
    | work i =>
      simp only [TaskQueue.step]
      rcases work_cases s i with ⟨t, q, hq, he, _, hw⟩ | ⟨t, he, hw⟩ | ⟨ws, hw, hi⟩ <;> rw [hw] <;> simp only
      · rw [inProgress_take he (by simp), List.count_append]; omega
      · have := inProgress_done he u
        rw [List.count_append]; omega
      · rw [hi]; exact h1
    | spurious i =>
      simp only [TaskQueue.step]
      split
      · rename_i hw
        simp only
        rw [inProgress_set_same hw (by simp) (by simp)]
        exact h1
      · exact h1
    | stop => simp only [TaskQueue.step]; split <;> exact h1
    | stopStep x =>
      simp only [TaskQueue.step]
      rcases stopStep_cases s x with ⟨ws, r, st, hw, hi⟩ | ⟨_, he, hw⟩ <;> rw [hw] <;> simp only
      · rw [hi]; exact h1
      · rw [inProgress_of_exited he] at h1; exact h1

theorem tasks_foldl {s : State} (h : Tasks s) (es : List Event) : Tasks (es.foldl step s) := by
  induction es generalizing s with
  | nil => exact h
  | cons ev es ih => exact ih (h.step ev)

theorem tasks_run (es : List Event) : Tasks (run es) := tasks_foldl ⟨rfl, fun _ => rfl⟩ es

/-- **C51.** Under every schedule, with any number of workers, of threads that add tasks, of starts and stops: every task that was added is
at every time either in the queue, or in progress at exactly one worker, or done, exactly once for every time it was added; the tasks leave
the queue in the order in which they were added. -/
theorem C51_once (es : List Event) :
    (∃ started, started ++ (run es).queue = (run es).added ∧ started = (run es).taken) ∧
    ∀ t, (run es).queue.count t + (inProgress (run es).workers).count t + (run es).done.count t = (run es).added.count t := by
  have h := tasks_run es
  refine ⟨⟨_, h.order, rfl⟩, fun t => ?_⟩
  have h1 := h.once t
  have h2 := congrArg (List.count t) h.order
  rw [List.count_append] at h2
  omega

/-! ### One worker -/

/-- SPECIFICATION. The schedule never starts more than one worker. -/
def OneWorker (es : List Event) : Prop := ∀ ev ∈ es, ∀ n, ev = .start n → n ≤ 1

theorem single_set {ws : List Worker} (h : ws.length ≤ 1) {i : Nat} {w : Worker} (hw : ws[i]? = some w) : ws = [w] ∧ i = 0 := by
  match ws, i, hw with
  | [x], 0, hw => simp only [List.getElem?_cons_zero, Option.some.injEq] at hw; subst hw; exact ⟨rfl, rfl⟩
  | [x], i + 1, hw => simp at hw
  | x :: y :: ws, _, _ => simp at h

structure Single (s : State) : Prop where
  one : s.workers.length ≤ 1
  order : s.done ++ inProgress s.workers = s.taken

theorem work_length (s : State) (i : Nat) : (work s i).workers.length = s.workers.length := by
  unfold work
  split <;> try rfl
  all_goals (repeat' split) <;> simp

theorem Single.step {s : State} (h : Single s) (ev : Event) (hev : ∀ n, ev = .start n → n ≤ 1) : Single (step s ev) := by
  cases ev with
  | start n =>
    simp only [TaskQueue.step]
    split
    · rename_i hc
      have ho := h.order
      rw [hc.1] at ho
      refine ⟨by simpa using hev n rfl, ?_⟩
      have : inProgress (List.replicate n Worker.top) = [] := by
        have := hev n rfl
        match n, this with
        | 0, _ => rfl
        | 1, _ => rfl
      simp only
      rw [this]
      exact ho
    · exact h
  | push t => simp only [TaskQueue.step]; split <;> exact ⟨h.one, h.order⟩
  | notify i =>
    simp only [TaskQueue.step]
    split
    · exact h
    · split
      · exact ⟨h.one, h.order⟩
      · split
        · rename_i hw
          refine ⟨by simpa using h.one, ?_⟩
          simp only
          rw [inProgress_set_same hw (by simp) (by simp)]
          exact h.order
        · exact h
  | work i =>
    refine ⟨by simp only [TaskQueue.step]; rw [work_length]; exact h.one, ?_⟩
    simp only [TaskQueue.step]
    have ho := h.order
    rcases work_cases s i with ⟨t, q, hq, he, _, hw⟩ | ⟨t, he, hw⟩ | ⟨ws, hw, hi⟩ <;> rw [hw] <;> simp only
    · obtain ⟨h1, rfl⟩ := single_set h.one he
      rw [h1] at ho ⊢
      simp only [inProgress, List.filterMap_cons, List.filterMap_nil, List.append_nil] at ho
      rw [ho]; rfl
    · obtain ⟨h1, rfl⟩ := single_set h.one he
      rw [h1] at ho ⊢
      simp only [inProgress, List.filterMap_cons, List.filterMap_nil] at ho
      rw [← ho]; simp [inProgress]
    · rw [hi]; exact ho
  | spurious i =>
    simp only [TaskQueue.step]
    split
    · rename_i hw
      refine ⟨by simpa using h.one, ?_⟩
      simp only
      rw [inProgress_set_same hw (by simp) (by simp)]
      exact h.order
    · exact h
  | stop => simp only [TaskQueue.step]; split <;> exact ⟨h.one, h.order⟩
  | stopStep x =>
    simp only [TaskQueue.step]
    have hl : (stopStep s x).workers.length ≤ 1 := by
      have := h.one
      unfold stopStep
      split <;> (repeat' split) <;> simp [wakeAll] <;> omega
    refine ⟨hl, ?_⟩
    have ho := h.order
    rcases stopStep_cases s x with ⟨ws, r, st, hw, hi⟩ | ⟨_, he, hw⟩ <;> rw [hw] <;> simp only
    · rw [hi]; exact ho
    · rw [inProgress_of_exited he] at ho; exact ho

/-- **C51.** With one worker the tasks are done in the order in which they were added: those done are always the first ones. -/
theorem C51_in_order (es : List Event) (h : OneWorker es) : (run es).done <+: (run es).added := by
  have key : ∀ (es : List Event) (s : State), Single s → OneWorker es → Single (es.foldl step s) := by
    intro es
    induction es with
    | nil => exact fun _ h _ => h
    | cons ev es ih =>
      intro s hs ho
      exact ih _ (hs.step ev (ho ev List.mem_cons_self)) fun x hx => ho x (List.mem_cons_of_mem _ hx)
  have hs : Single (run es) := key es init ⟨by simp [init], rfl⟩ h
  refine ⟨inProgress (run es).workers ++ (run es).queue, ?_⟩
  rw [← List.append_assoc, hs.order, (tasks_run es).order]

/-! ### Stop -/

/-- SPECIFICATION. The time of `Stop` is never up. -/
def TimeEnough (es : List Event) : Prop := ∀ ev ∈ es, ev ≠ .stopStep true

/-- From the call of `Stop`: it is still looking for tasks, or it has found none of the tasks left, or it has returned after they were done. -/
structure Draining (added0 : List Nat) (s : State) : Prop where
  tasks : Tasks s
  phase : s.stop = .polling ∨ s.stop = .pollNotify ∨
    (s.stop ≠ .idle ∧ ∀ t, added0.count t ≤ s.taken.count t) ∨ ∀ t, added0.count t ≤ s.done.count t
  added : ∀ t, added0.count t ≤ s.added.count t

theorem mono_done (s : State) (ev : Event) : ∀ t, s.done.count t ≤ (step s ev).done.count t ∧ s.taken.count t ≤ (step s ev).taken.count t ∧
    s.added.count t ≤ (step s ev).added.count t := by
  intro t
  cases ev with
  | start n => simp only [step]; split <;> exact ⟨Nat.le_refl _, Nat.le_refl _, Nat.le_refl _⟩
  | push u =>
    simp only [step]; split
    · simp only [List.count_append]; exact ⟨Nat.le_refl _, Nat.le_refl _, by omega⟩
    · exact ⟨Nat.le_refl _, Nat.le_refl _, Nat.le_refl _⟩
  | notify i => simp only [step]; (repeat' split) <;> exact ⟨Nat.le_refl _, Nat.le_refl _, Nat.le_refl _⟩
  | work i =>
    simp only [step]
    rcases work_cases s i with ⟨t, q, hq, he, _, hw⟩ | ⟨t, he, hw⟩ | ⟨ws, hw, hi⟩ <;> rw [hw] <;> simp only [List.count_append] <;>
      refine ⟨?_, ?_, ?_⟩ <;> omega
  | spurious i => simp only [step]; split <;> exact ⟨Nat.le_refl _, Nat.le_refl _, Nat.le_refl _⟩
  | stop => simp only [step]; split <;> exact ⟨Nat.le_refl _, Nat.le_refl _, Nat.le_refl _⟩
  | stopStep x =>
    simp only [step]
    rcases stopStep_cases s x with ⟨ws, r, st, hw, hi⟩ | ⟨_, he, hw⟩ <;> rw [hw] <;> exact ⟨Nat.le_refl _, Nat.le_refl _, Nat.le_refl _⟩

theorem stop_other (s : State) (ev : Event) (h : s.stop ≠ .idle) (hx : ∀ x, ev ≠ .stopStep x) : (step s ev).stop = s.stop := by
  cases ev with
  | start n => simp only [step]; split <;> rfl
  | push t => simp only [step]; split <;> rfl
  | notify i => simp only [step]; (repeat' split) <;> rfl
  | work i =>
    simp only [step]
    rcases work_cases s i with ⟨t, q, hq, he, _, hw⟩ | ⟨t, he, hw⟩ | ⟨ws, hw, hi⟩ <;> rw [hw]
  | spurious i => simp only [step]; split <;> rfl
  | stop => simp only [step]; split <;> first | rfl | (rename_i hc; exact absurd hc h)
  | stopStep x => exact absurd rfl (hx x)

theorem Draining.step {a0 : List Nat} {s : State} (h : Draining a0 s) (ev : Event) (hev : ev ≠ .stopStep true) :
    Draining a0 (step s ev) := by
  have hm := mono_done s ev
  refine ⟨h.tasks.step ev, ?_, fun t => Nat.le_trans (h.added t) (hm t).2.2⟩
  by_cases hd : ∀ t, a0.count t ≤ s.done.count t
  · exact .inr (.inr (.inr fun t => Nat.le_trans (hd t) (hm t).1))
  have hne : s.stop ≠ .idle := by
    rcases h.phase with h1 | h1 | h1 | h1
    · rw [h1]; simp
    · rw [h1]; simp
    · exact h1.1
    · exact absurd h1 hd
  by_cases hx : ∃ x, ev = .stopStep x
  · obtain ⟨x, rfl⟩ := hx
    have hx : x = false := by
      cases x
      · rfl
      · exact absurd rfl hev
    subst hx
    simp only [TaskQueue.step]
    rcases h.phase with h1 | h1 | h1 | h1
    · unfold stopStep
      rw [h1]
      simp only [Bool.false_eq_true, if_false]
      split
      · split
        · rename_i hq
          right; right; left
          refine ⟨by simp, fun t => ?_⟩
          have h2 := h.tasks.order
          rw [List.isEmpty_iff] at hq
          rw [hq, List.append_nil] at h2
          have := h.added t
          rw [← h2] at this
          exact this
        · exact .inr (.inl rfl)
      · exact .inl h1
    · unfold stopStep
      rw [h1]
      exact .inl rfl
    · obtain ⟨h1, h2⟩ := h1
      unfold stopStep
      cases hs : s.stop with
      | idle => exact absurd hs h1
      | polling =>
        simp only [Bool.false_eq_true, if_false]
        split
        · split
          · exact .inr (.inr (.inl ⟨by simp, h2⟩))
          · exact .inr (.inr (.inl ⟨by simp, h2⟩))
        · exact .inl hs
      | pollNotify => exact .inl rfl
      | clearing => exact .inr (.inr (.inl ⟨by simp, h2⟩))
      | notifying => exact .inr (.inr (.inl ⟨by simp, h2⟩))
      | joining =>
        simp only
        split
        · rename_i he
          right; right; right
          intro t
          have := h.tasks.once t
          rw [inProgress_of_exited he] at this
          have := h2 t
          simp only [List.count_nil] at *
          omega
        · exact .inr (.inr (.inl ⟨h1, h2⟩))
    · exact absurd h1 hd
  · have hs := stop_other s ev hne (fun x hx' => hx ⟨x, hx'⟩)
    rw [hs]
    rcases h.phase with h1 | h1 | h1 | h1
    · exact .inl h1
    · exact .inr (.inl h1)
    · exact .inr (.inr (.inl ⟨h1.1, fun t => Nat.le_trans (h1.2 t) (hm t).2.1⟩))
    · exact absurd h1 hd

/-- **C51.** When `Stop` is called and its time is never up, then at its return (and afterwards) every task that was added before the call
has been done. -/
theorem C51_stop (es es' : List Event) (h0 : (run es).stop = .idle) (ht : TimeEnough es')
    (hr : (es'.foldl step (step (run es) .stop)).stop = .idle) (t : Nat) :
    (run es).added.count t ≤ (es'.foldl step (step (run es) .stop)).done.count t := by
  have key : ∀ (es' : List Event) (s : State), Draining (run es).added s → TimeEnough es' → Draining (run es).added (es'.foldl step s) := by
    intro es'
    induction es' with
    | nil => exact fun _ h _ => h
    | cons ev es' ih =>
      intro s hs ho
      exact ih _ (hs.step ev (ho ev List.mem_cons_self)) fun x hx => ho x (List.mem_cons_of_mem _ hx)
  have hd : Draining (run es).added (step (run es) .stop) := by
    refine ⟨(tasks_run es).step _, .inl ?_, fun t => (mono_done _ _ t).2.2⟩
    simp only [step]
    rw [if_pos h0]
  have := key es' _ hd ht
  rcases this.phase with h1 | h1 | h1 | h1
  · rw [hr] at h1; cases h1
  · rw [hr] at h1; cases h1
  · exact absurd hr h1.1
  · exact h1 t

/-- When the time is up the tasks left in the queue are not done: a schedule in which `Stop` returns and a task added before is not done. -/
theorem C51_stop_timeout : ∃ es : List Event, (run es).stop = .idle ∧ (run es).workers = [] ∧ (run es).added = [7] ∧ (run es).done = [] ∧
    (run es).queue = [7] :=
  ⟨[.start 1, .push 7, .stop, .stopStep true, .stopStep true, .stopStep true, .work 0, .stopStep true], by decide +kernel⟩

/-! ### Stop may hang -/

/-- SPECIFICATION. No worker wakes without a notification, and no task is added. -/
def NoWake (es : List Event) : Prop := ∀ ev ∈ es, (∀ i, ev ≠ .spurious i) ∧ ∀ t, ev ≠ .push t

/-- **C51, refuted part.** `Stop` may never return, however much time it has and although all the tasks are done: it clears `running_` and
notifies without the mutex, which may fall between the check of the condition by a worker and its falling asleep. In the state reached no
step of any thread changes anything any more, unless the worker wakes for no reason or a task is added. -/
theorem C51_stop_returns_violated : ∃ es : List Event, (run es).stop = .joining ∧ (run es).queue = [] ∧ (run es).added = (run es).done ∧
    ∀ es' : List Event, NoWake es' → (es'.foldl step (run es)).stop = .joining := by
  refine ⟨[.start 1, .push 7, .notify 0, .work 0, .work 0, .work 0, .stop, .stopStep false, .work 0, .work 0, .work 0, .stopStep false,
    .stopStep false, .work 0], ?_, ?_, ?_, ?_⟩
  · decide +kernel
  · decide +kernel
  · decide +kernel
  · intro es' h
    have key : ∀ (es' : List Event) (s : State), NoWake es' → s.stop = .joining → s.workers = [.asleep] → s.pending = 0 → s.queue = [] →
        (es'.foldl step s).stop = .joining := by
      intro es'
      induction es' with
      | nil => exact fun _ _ h _ _ _ => h
      | cons ev es' ih =>
        intro s hn h1 h2 h3 h4
        have hs : step s ev = s := by
          have hev := hn ev List.mem_cons_self
          cases ev with
          | start n => simp [step, h2]
          | push t => exact absurd rfl (hev.2 t)
          | notify i => simp [step, h3]
          | work i =>
            simp only [step, work, h2]
            cases i with
            | zero => rfl
            | succ i => rfl
          | spurious i => exact absurd rfl (hev.1 i)
          | stop => simp [step, h1]
          | stopStep x => simp [step, stopStep, h1, h2]
        rw [List.foldl_cons, hs]
        exact ih s (fun x hx => hn x (List.mem_cons_of_mem _ hx)) h1 h2 h3 h4
    exact key es' _ h (by decide +kernel) (by decide +kernel) (by decide +kernel) (by decide +kernel)

/-! ### No task is forgotten -/

structure Live (s : State) : Prop where
  locks : s.workers.countP Worker.locks ≤ 1
  sleepy : Worker.sleepy ∈ s.workers → s.queue = []
  exited : s.running = true → Worker.exited ∉ s.workers
  awake : s.queue ≠ [] → s.workers = [] ∨ 0 < s.pending ∨ ∃ w ∈ s.workers, w ≠ .asleep

theorem free_iff (s : State) : free s = true ↔ s.workers.countP Worker.locks = 0 := by
  unfold free
  rw [List.all_eq_true, List.countP_eq_zero]
  constructor <;> intro h w hw <;> simpa using h w hw

theorem countP_set {α : Type} (p : α → Bool) : ∀ (l : List α) (i : Nat) (a b : α), l[i]? = some a →
    (l.set i b).countP p + (if p a then 1 else 0) = l.countP p + (if p b then 1 else 0)
  | [], i, a, b, h => by simp at h
  | x :: l, 0, a, b, h => by
    simp only [List.getElem?_cons_zero, Option.some.injEq] at h
    subst h
    simp only [List.set_cons_zero, List.countP_cons]
    omega
  | x :: l, i + 1, a, b, h => by
    have := countP_set p l i a b (by simpa using h)
    simp only [List.set_cons_succ, List.countP_cons]
    omega

theorem mem_set {α : Type} {l : List α} {i : Nat} {a b : α} (h : b ∈ l.set i a) : b ∈ l ∨ b = a :=
  List.mem_or_eq_of_mem_set h

/-- Replacing the state of a worker keeps the facts, under these conditions. -/
theorem Live.set {s s' : State} (h : Live s) {i : Nat} {w w' : Worker} (hw : s.workers[i]? = some w)
    (hs : s'.workers = s.workers.set i w') (hq : s'.queue = s.queue) (hr : s'.running = s.running)
    (hl : w'.locks = true → w.locks = true ∨ free s = true) (h1 : w' = .sleepy → s.queue = []) (h2 : w' = .exited → s.running = false)
    (h3 : w' = .asleep → s.queue = []) : Live s' := by
  have hlt := (List.getElem?_eq_some_iff.1 hw).1
  refine ⟨?_, ?_, ?_, ?_⟩
  · rw [hs]
    have hc := countP_set Worker.locks s.workers i w w' hw
    have := h.locks
    by_cases hw' : w'.locks = true
    · rw [if_pos hw'] at hc
      rcases hl hw' with h4 | h4
      · rw [if_pos h4] at hc; omega
      · rw [free_iff] at h4; omega
    · rw [if_neg hw'] at hc
      omega
  · intro hm
    rw [hs] at hm
    rw [hq]
    rcases mem_set hm with hm | hm
    · exact h.sleepy hm
    · exact h1 hm.symm
  · intro hrun hm
    rw [hs] at hm
    rw [hr] at hrun
    rcases mem_set hm with hm | hm
    · exact h.exited hrun hm
    · rw [h2 hm.symm] at hrun; cases hrun
  · intro hq'
    rw [hq] at hq'
    right; right
    rw [hs]
    exact ⟨w', List.mem_set hlt _, fun hc => hq' (h3 hc)⟩

theorem wakeAll_locks (ws : List Worker) : (wakeAll ws).countP Worker.locks = ws.countP Worker.locks := by
  induction ws with
  | nil => rfl
  | cons w ws ih =>
    simp only [wakeAll, List.map_cons, List.countP_cons] at ih ⊢
    rw [ih]
    cases w <;> rfl

theorem mem_wakeAll {ws : List Worker} {w : Worker} (h : w ∈ wakeAll ws) : w ≠ .asleep ∧ (w ∈ ws ∨ w = .wake) := by
  simp only [wakeAll, List.mem_map] at h
  obtain ⟨x, hx, hw⟩ := h
  split at hw
  · subst hw; exact ⟨by simp, .inr rfl⟩
  · subst hw; exact ⟨by assumption, .inl hx⟩

theorem Live.wakeAll {s s' : State} (h : Live s) (hs : s'.workers = wakeAll s.workers) (hq : s'.queue = s.queue)
    (hr : s'.running = s.running) : Live s' := by
  refine ⟨?_, ?_, ?_, ?_⟩
  · rw [hs, wakeAll_locks]; exact h.locks
  · intro hm
    rw [hs] at hm
    rw [hq]
    exact h.sleepy ((mem_wakeAll hm).2.resolve_right (by simp))
  · intro hrun hm
    rw [hs] at hm
    rw [hr] at hrun
    exact h.exited hrun ((mem_wakeAll hm).2.resolve_right (by simp))
  · intro _
    rw [hs]
    cases hw : TaskQueue.wakeAll s.workers with
    | nil => exact .inl rfl
    | cons w ws => exact .inr (.inr ⟨w, List.mem_cons_self, (mem_wakeAll (hw ▸ List.mem_cons_self)).1⟩)

theorem Live.work {s : State} (h : Live s) (i : Nat) : Live (work s i) := by
  unfold TaskQueue.work
  cases hw : s.workers[i]? with
  | none => exact h
  | some w =>
    cases w with
    | top =>
      simp only
      split
      · exact h.set hw rfl rfl rfl (by simp [Worker.locks]) (by simp) (by simp) (by simp)
      · rename_i hr
        exact h.set hw rfl rfl rfl (by simp [Worker.locks]) (by simp) (fun _ => by simpa using hr) (by simp)
    | enter =>
      simp only
      split
      · rename_i hf
        split
        · exact h.set hw rfl rfl rfl (fun _ => .inr hf) (by simp) (by simp) (by simp)
        · rename_i t q hq
          have hx : Live { s with workers := s.workers.set i (.doing t) } :=
            h.set hw rfl rfl rfl (by simp [Worker.locks]) (by simp) (by simp) (by simp)
          refine ⟨hx.locks, ?_, hx.exited, ?_⟩
          · intro hm
            have := hx.sleepy hm
            simp only at this
            rw [hq] at this
            cases this
          · intro _
            exact .inr (.inr ⟨.doing t, List.mem_set (List.getElem?_eq_some_iff.1 hw).1 _, by simp⟩)
      · exact h
    | pred =>
      simp only
      split
      · exact h.set hw rfl rfl rfl (by simp [Worker.locks]) (by simp) (by simp) (by simp)
      · rename_i hc
        refine h.set hw rfl rfl rfl (fun _ => .inl rfl) (fun _ => ?_) (by simp) (by simp)
        cases hq : s.queue with
        | nil => rfl
        | cons t q => simp [hq] at hc
    | sleepy => exact h.set hw rfl rfl rfl (by simp [Worker.locks]) (by simp) (by simp) (fun _ => h.sleepy (List.mem_of_getElem? hw))
    | asleep => exact h
    | wake =>
      simp only
      split
      · rename_i hf
        exact h.set hw rfl rfl rfl (fun _ => .inr hf) (by simp) (by simp) (by simp)
      · exact h
    | doing t => exact h.set hw rfl rfl rfl (by simp [Worker.locks]) (by simp) (by simp) (by simp)
    | exited => exact h

theorem Live.step {s : State} (h : Live s) (ev : Event) : Live (step s ev) := by
  cases ev with
  | start n =>
    simp only [TaskQueue.step]
    split
    · refine ⟨?_, ?_, ?_, ?_⟩
      · have : (List.replicate n Worker.top).countP Worker.locks = 0 := by
          rw [List.countP_eq_zero]
          intro w hw
          rw [List.mem_replicate] at hw
          rw [hw.2]
          simp [Worker.locks]
        simp only
        omega
      · intro hm; simp only [List.mem_replicate] at hm; exact absurd hm.2 (by simp)
      · intro _ hm; simp only [List.mem_replicate] at hm; exact absurd hm.2 (by simp)
      · intro _
        cases n with
        | zero => exact .inl rfl
        | succ n => exact .inr (.inr ⟨.top, by simp [List.replicate_succ], by simp⟩)
    · exact h
  | push t =>
    simp only [TaskQueue.step]
    split
    · rename_i hf
      refine ⟨h.locks, ?_, h.exited, fun _ => .inr (.inl (Nat.succ_pos _))⟩
      intro hm
      rw [free_iff, List.countP_eq_zero] at hf
      exact absurd rfl (hf _ hm)
    · exact h
  | notify i =>
    simp only [TaskQueue.step]
    split
    · exact h
    · rename_i hp
      split
      · rename_i ha
        refine ⟨h.locks, h.sleepy, h.exited, fun _ => ?_⟩
        rw [List.all_eq_true] at ha
        cases hws : s.workers with
        | nil => exact .inl rfl
        | cons w ws => exact .inr (.inr ⟨w, List.mem_cons_self, by simpa using ha w (hws ▸ List.mem_cons_self)⟩)
      · split
        · rename_i hw
          exact h.set hw rfl rfl rfl (by simp [Worker.locks]) (by simp) (by simp) (by simp)
        · exact h
  | work i => exact h.work i
  | spurious i =>
    simp only [TaskQueue.step]
    split
    · rename_i hw
      exact h.set hw rfl rfl rfl (by simp [Worker.locks]) (by simp) (by simp) (by simp)
    · exact h
  | stop => simp only [TaskQueue.step]; split <;> exact ⟨h.locks, h.sleepy, h.exited, h.awake⟩
  | stopStep x =>
    simp only [TaskQueue.step, stopStep]
    split
    · exact h
    · (repeat' split) <;> exact ⟨h.locks, h.sleepy, h.exited, h.awake⟩
    · exact h.wakeAll rfl rfl rfl
    · exact ⟨h.locks, h.sleepy, fun hr => (by cases hr), h.awake⟩
    · exact h.wakeAll rfl rfl rfl
    · split
      · exact ⟨by simp, by simp, by simp, fun _ => .inl rfl⟩
      · exact h

theorem live_run (es : List Event) : Live (run es) := by
  unfold run
  have hs : Live init := ⟨by simp [init], by simp [init], by simp [init], fun h => absurd rfl h⟩
  generalize init = s at hs
  induction es generalizing s with
  | nil => exact hs
  | cons ev es ih => exact ih _ (hs.step ev)

theorem work_top {s : State} {j : Nat} (hw : s.workers[j]? = some .top) (hr : s.running = true) :
    work s j = { s with workers := s.workers.set j .enter } := by
  unfold work
  rw [hw]
  simp only
  rw [if_pos hr]

theorem work_enter {s : State} {j t : Nat} {q : List Nat} (hw : s.workers[j]? = some .enter) (hf : free s = true) (hq : s.queue = t :: q) :
    (work s j).taken = s.taken ++ [t] := by
  unfold work
  rw [hw]
  simp only
  rw [if_pos hf]
  simp only [hq]

theorem from_enter {s : State} {j t : Nat} {q : List Nat} (hw : s.workers[j]? = some .enter) (hf : free s = true) (hq : s.queue = t :: q) :
    ∃ is : List Nat, (is.foldl work s).taken = s.taken ++ [t] := ⟨[j], work_enter hw hf hq⟩

theorem from_top {s : State} {j t : Nat} {q : List Nat} (hw : s.workers[j]? = some .top) (hf : free s = true) (hr : s.running = true)
    (hq : s.queue = t :: q) : ∃ is : List Nat, (is.foldl work s).taken = s.taken ++ [t] := by
  have hlt := (List.getElem?_eq_some_iff.1 hw).1
  have hf' : free { s with workers := s.workers.set j .enter } = true := by
    rw [free_iff] at hf ⊢
    have := countP_set Worker.locks s.workers j .top .enter hw
    simp only [Worker.locks, Bool.false_eq_true, if_false] at this
    simp only
    omega
  have := from_enter (s := { s with workers := s.workers.set j .enter }) (j := j) (List.getElem?_set_self hlt) hf' hq
  obtain ⟨is, h⟩ := this
  exact ⟨j :: is, by rw [List.foldl_cons, work_top hw hr]; exact h⟩

theorem from_pred {s : State} {j t : Nat} {q : List Nat} (hw : s.workers[j]? = some .pred) (hl : s.workers.countP Worker.locks ≤ 1)
    (hr : s.running = true) (hq : s.queue = t :: q) : ∃ is : List Nat, (is.foldl work s).taken = s.taken ++ [t] := by
  have hlt := (List.getElem?_eq_some_iff.1 hw).1
  have hs : work s j = { s with workers := s.workers.set j .top } := by
    unfold work
    rw [hw]
    simp [hq]
  have hf' : free { s with workers := s.workers.set j .top } = true := by
    rw [free_iff]
    have := countP_set Worker.locks s.workers j .pred .top hw
    simp only [Worker.locks, Bool.false_eq_true, if_false, if_true] at this
    simp only
    omega
  obtain ⟨is, h⟩ := from_top (s := { s with workers := s.workers.set j .top }) (j := j) (List.getElem?_set_self hlt) hf' hr hq
  exact ⟨j :: is, by rw [List.foldl_cons, hs]; exact h⟩

/-- **C51.** No task is forgotten: while the queue runs, has a worker, has a task waiting and every `Add` has finished its notification,
there is a worker that is awake, and by steps of workers alone the first task waiting is taken. -/
theorem C51_progress (es : List Event) (hr : (run es).running = true) (hn : (run es).workers ≠ []) (hp : (run es).pending = 0) (t : Nat)
    (q : List Nat) (hq : (run es).queue = t :: q) :
    (∃ w ∈ (run es).workers, w ≠ .asleep ∧ w ≠ .exited) ∧ ∃ is : List Nat, (is.foldl work (run es)).taken = (run es).taken ++ [t] := by
  have h := live_run es
  generalize run es = s at *
  obtain ⟨w, hw, hwa⟩ : ∃ w ∈ s.workers, w ≠ .asleep := by
    rcases h.awake (by rw [hq]; simp) with h1 | h1 | h1
    · exact absurd h1 hn
    · omega
    · exact h1
  have hwe : w ≠ .exited := by rintro rfl; exact h.exited hr hw
  refine ⟨⟨w, hw, hwa, hwe⟩, ?_⟩
  by_cases hf : free s = true
  · obtain ⟨j, hj⟩ := List.getElem?_of_mem hw
    have hlt := (List.getElem?_eq_some_iff.1 hj).1
    have hfc := hf
    rw [free_iff] at hfc
    cases w with
    | top => exact from_top hj hf hr hq
    | enter => exact from_enter hj hf hq
    | pred => exact from_pred hj h.locks hr hq
    | sleepy => rw [h.sleepy hw] at hq; cases hq
    | asleep => exact absurd rfl hwa
    | exited => exact absurd rfl hwe
    | wake =>
      have hs : work s j = { s with workers := s.workers.set j .pred } := by
        unfold work
        rw [hj]
        simp only
        rw [if_pos hf]
      have hc := countP_set Worker.locks s.workers j .wake .pred hj
      simp only [Worker.locks, Bool.false_eq_true, if_false, if_true] at hc
      obtain ⟨is, h'⟩ := from_pred (s := { s with workers := s.workers.set j .pred }) (j := j) (List.getElem?_set_self hlt)
        (by simp only; omega) hr hq
      exact ⟨j :: is, by rw [List.foldl_cons, hs]; exact h'⟩
    | doing u =>
      have hs : work s j = { s with done := s.done ++ [u], workers := s.workers.set j .top } := by
        unfold work
        rw [hj]
      have hc := countP_set Worker.locks s.workers j (.doing u) .top hj
      simp only [Worker.locks, Bool.false_eq_true, if_false] at hc
      obtain ⟨is, h'⟩ := from_top (s := { s with done := s.done ++ [u], workers := s.workers.set j .top }) (j := j)
        (List.getElem?_set_self hlt) (by rw [free_iff]; simp only; omega) hr hq
      exact ⟨j :: is, by rw [List.foldl_cons, hs]; exact h'⟩
  · have : ∃ x ∈ s.workers, x.locks = true := by
      refine Classical.byContradiction fun hno => hf ?_
      rw [free_iff, List.countP_eq_zero]
      intro x hx hl
      exact hno ⟨x, hx, hl⟩
    obtain ⟨x, hx, hl⟩ := this
    obtain ⟨j, hj⟩ := List.getElem?_of_mem hx
    cases x <;> simp only [Worker.locks, Bool.false_eq_true] at hl
    · exact from_pred hj h.locks hr hq
    · rw [h.sleepy hx] at hq; cases hq

/-- **C51.** `GetSize` is the number of the tasks in the queue, until the queue is first stopped. -/
theorem C51_size (es : List Event) (h : ∀ ev ∈ es, ev ≠ .stop) : getSize (run es) = (run es).queue.length := by
  have key : ∀ (es : List Event) (s : State), (∀ ev ∈ es, ev ≠ .stop) → s.stop = .idle → s.num = s.queue.length →
      (es.foldl step s).num = (es.foldl step s).queue.length := by
    intro es
    induction es with
    | nil => exact fun _ _ _ h => h
    | cons ev es ih =>
      intro s hn hi hs
      refine ih _ (fun x hx => hn x (List.mem_cons_of_mem _ hx)) ?_ ?_
      · cases ev with
        | start n => simp only [step]; split <;> exact hi
        | push t => simp only [step]; split <;> exact hi
        | notify i => simp only [step]; (repeat' split) <;> exact hi
        | work i =>
          simp only [step]
          rcases work_cases s i with ⟨t, q, hq, he, _, hw⟩ | ⟨t, he, hw⟩ | ⟨ws, hw, hi'⟩ <;> rw [hw] <;> exact hi
        | spurious i => simp only [step]; split <;> exact hi
        | stop => exact absurd rfl (hn _ List.mem_cons_self)
        | stopStep x => simp only [step, stopStep, hi]
      · cases ev with
        | start n => simp only [step]; split <;> exact hs
        | push t =>
          simp only [step]; split
          · simp
          · exact hs
        | notify i => simp only [step]; (repeat' split) <;> exact hs
        | work i =>
          simp only [step]
          rcases work_cases s i with ⟨t, q, hq, he, _, hw⟩ | ⟨t, he, hw⟩ | ⟨ws, hw, hi'⟩ <;> rw [hw] <;> first | exact hs | rfl
        | spurious i => simp only [step]; split <;> exact hs
        | stop => exact absurd rfl (hn _ List.mem_cons_self)
        | stopStep x => simp only [step, stopStep, hi]; exact hs
  exact key es init h rfl rfl

/-! ### Examples -/

/-- Two workers and three tasks: two in progress, then one done out of order. -/
example : (run [.push 1, .start 2, .notify 0, .push 2, .push 3, .work 0, .work 1, .work 0, .work 1, .work 1]).done = [2] ∧
    inProgress (run [.push 1, .start 2, .notify 0, .push 2, .push 3, .work 0, .work 1, .work 0, .work 1, .work 1]).workers = [1] ∧
    (run [.push 1, .start 2, .notify 0, .push 2, .push 3, .work 0, .work 1, .work 0, .work 1, .work 1]).queue = [3] := by decide +kernel

/-- One worker sleeps, is woken by a task, does it, and `Stop` waits for it and returns. -/
def sample : List Event :=
  [.start 1, .work 0, .work 0, .work 0, .work 0, .push 5, .notify 0, .work 0, .work 0, .work 0]

def sampleStop : List Event :=
  [.stopStep false, .stopStep false, .work 0, .stopStep false, .stopStep false, .stopStep false, .work 0, .work 0, .stopStep false]

example : (run sample).stop = .idle ∧ (run sample).added = [5] ∧ (run sample).done = [] ∧
    (sampleStop.foldl step (step (run sample) .stop)).stop = .idle ∧ (sampleStop.foldl step (step (run sample) .stop)).done = [5] := by
  decide +kernel

example : OneWorker sample ∧ TimeEnough sampleStop := by
  constructor
  · intro ev hev n hn
    subst hn
    simp [sample] at hev
    omega
  · intro ev hev hn
    subst hn
    simp [sampleStop] at hev

/-- The hypotheses of `C51_progress` with a sleeping worker that has been notified. -/
example : (run (sample.take 7)).running = true ∧ (run (sample.take 7)).workers = [.wake] ∧ (run (sample.take 7)).pending = 0 ∧
    (run (sample.take 7)).queue = [5] := by decide +kernel

end Verif.TaskQueue
