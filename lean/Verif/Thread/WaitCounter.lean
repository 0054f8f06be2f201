import Verif.Prelude.Bytes
/-
WaitCounter (tkrzw_thread_util.h 811-852, 1549-1580) and C70.

A schedule is any list of events, each one step of one thread. The waiting on the condition variable is split into the check of the counter,
the falling asleep (which releases the mutex) and the waking, because `Done` changes the counter and notifies without the mutex. The counter is
an unbounded integer. Time is an event: the deadline of a thread passes at any moment.
-/
namespace Verif.WaitCounter

/-- Where a thread is that may call `Wait` (tkrzw_thread_util.h 1565-1580). -/
inductive Pc where
  | out
  /-- before locking the mutex -/
  | enter
  /-- has the mutex, before `count_.load() > 0` -/
  | check
  /-- has the mutex, the counter was positive, before releasing the mutex and sleeping -/
  | sleepy
  | asleep
  /-- woken by a notification, before locking the mutex again -/
  | wake
  /-- woken by the deadline, before locking the mutex again -/
  | late
  /-- `Wait` has returned -/
  | back (result : Bool)
  deriving DecidableEq

/-- `pending` is the number of calls of `Done` that are before their `notify_all`. -/
structure State where
  count : Int
  waiters : List Pc
  pending : Nat
  deriving DecidableEq

inductive Event where
  | add (n : Int)
  /-- `count_.fetch_sub` in `Done` -/
  | done (n : Int)
  /-- `notify_all` in `Done` -/
  | notify
  /-- a thread calls `Wait` with a time limit, or without -/
  | wait (i : Nat)
  /-- a thread calls `Wait(0)` -/
  | poll (i : Nat)
  /-- a step of a thread in `Wait` -/
  | work (i : Nat)
  /-- the deadline passes while the thread sleeps -/
  | timeout (i : Nat)
  /-- a thread wakes without a notification -/
  | spurious (i : Nat)

def Pc.locks : Pc → Bool
  | .check | .sleepy => true
  | _ => false

def free (s : State) : Bool := s.waiters.all fun w => !w.locks

/-- Whether the thread is in `Wait`. -/
def Pc.inside : Pc → Bool
  | .out | .back _ => false
  | _ => true

/-- A step in `Wait` (tkrzw_thread_util.h 1573-1579). -/
def work (s : State) (i : Nat) : State :=
  let set := fun (w : Pc) => { s with waiters := s.waiters.set i w }
  match s.waiters[i]? with
  | some .enter | some .wake => if free s then set .check else s
  | some .check => if s.count > 0 then set .sleepy else set (.back true)
  | some .sleepy => set .asleep
  | some .late => if free s then set (.back (decide (s.count ≤ 0))) else s
  | _ => s

/-- One event: `Add` 1551-1553, `Done` 1559-1563, `Wait` 1565-1580 (tkrzw_thread_util.h). -/
def step (s : State) : Event → State
  | .add n => { s with count := s.count + n }
  | .done n => { s with count := s.count - n, pending := if s.count ≤ n then s.pending + 1 else s.pending }
  | .notify =>
    if s.pending = 0 then s
    else { s with pending := s.pending - 1, waiters := s.waiters.map fun w => if w = .asleep then .wake else w }
  | .wait i => match s.waiters[i]? with
    | some .out | some (.back _) => { s with waiters := s.waiters.set i .enter }
    | _ => s
  | .poll i => match s.waiters[i]? with
    | some .out | some (.back _) => { s with waiters := s.waiters.set i (.back (decide (s.count ≤ 0))) }
    | _ => s
  | .work i => work s i
  | .timeout i => if s.waiters[i]? = some .asleep then { s with waiters := s.waiters.set i .late } else s
  | .spurious i => if s.waiters[i]? = some .asleep then { s with waiters := s.waiters.set i .wake } else s

/-- `WaitCounter::WaitCounter` (tkrzw_thread_util.h 1549), with threads. -/
def start (initial : Int) (n : Nat) : State := ⟨initial, List.replicate n .out, 0⟩

def run (s : State) (es : List Event) : State := es.foldl step s

/-- `WaitCounter::Get` (tkrzw_thread_util.h 1555-1557). -/
def get (s : State) : Int := s.count

/-! ### Results -/

/-- **C70.** `Wait` returns true only at a moment at which the counter is not positive, and false only at one at which it is positive. -/
theorem C70_result (s : State) (ev : Event) (i : Nat) (r : Bool) (h0 : s.waiters[i]? ≠ some (.back r)) (h1 : (step s ev).waiters[i]? = some (.back r)) :
    (r = true ↔ get s ≤ 0) ∧ (r = true ↔ get (step s ev) ≤ 0) := by
  have set : ∀ {ws : List Pc} {j : Nat} {w : Pc}, ws[i]? ≠ some (.back r) → (ws.set j w)[i]? = some (.back r) → w = .back r := by
    intro ws j w h h'
    by_cases e : j = i
    · subst e
      rw [List.getElem?_set] at h'
      simp only [if_true] at h'
      split at h'
      · simpa using h'
      · cases h'
    · rw [List.getElem?_set_ne e] at h'; exact absurd h' h
  unfold get
  cases ev with
  | add n => exact absurd h1 h0
  | done n => exact absurd h1 h0
  | notify =>
    simp only [step] at h1
    split at h1
    · exact absurd h1 h0
    · simp only [List.getElem?_map] at h1
      cases hw : s.waiters[i]? with
      | none => rw [hw] at h1; simp at h1
      | some w =>
        rw [hw] at h1 h0
        simp only [Option.map_some, Option.some.injEq] at h1
        split at h1
        · cases h1
        · exact absurd (congrArg some h1) h0
  | wait j =>
    simp only [step] at h1
    split at h1
    · cases set h0 h1
    · cases set h0 h1
    · exact absurd h1 h0
  | poll j =>
    simp only [step] at h1 ⊢
    split at h1
    · have := set h0 h1; simp at this; simp [← this]
    · have := set h0 h1; simp at this; simp [← this]
    · exact absurd h1 h0
  | work j =>
    simp only [step, work] at h1 ⊢
    split at h1
    · split at h1
      · cases set h0 h1
      · exact absurd h1 h0
    · split at h1
      · cases set h0 h1
      · exact absurd h1 h0
    · split at h1
      · cases set h0 h1
      · have := set h0 h1; simp at this; rename_i hc; simp [← this]; split <;> simp <;> omega
    · cases set h0 h1
    · split at h1
      · have := set h0 h1; simp at this; rename_i hc; simp [← this, hc]
      · exact absurd h1 h0
    · exact absurd h1 h0
  | timeout j =>
    simp only [step] at h1
    split at h1
    · cases set h0 h1
    · exact absurd h1 h0
  | spurious j =>
    simp only [step] at h1
    split at h1
    · cases set h0 h1
    · exact absurd h1 h0

/-! ### Waking -/

/-- SPECIFICATION. The schedule has no `Add` of a negative number, and whenever a `Done` notifies, no thread is between its look at
the counter and its sleep. -/
def Kind : State → List Event → Prop
  | _, [] => True
  | s, ev :: es => (∀ n, ev = .add n → 0 ≤ n) ∧ (ev = .notify → ∀ w ∈ s.waiters, w ≠ .sleepy) ∧ Kind (step s ev) es

/-- A thread that sleeps, or is about to, will be notified when the counter is not positive. -/
def Alert (s : State) : Prop := s.count ≤ 0 → 0 < s.pending ∨ ∀ w ∈ s.waiters, w ≠ .asleep ∧ w ≠ .sleepy

theorem mem_set {ws : List Pc} {i : Nat} {w x : Pc} (h : x ∈ ws.set i w) : x = w ∨ x ∈ ws := by
  rcases List.mem_or_eq_of_mem_set h with h | h
  · exact .inr h
  · exact .inl h

theorem alert_set {s : State} (h : Alert s) {i : Nat} {w : Pc} (hw : w ≠ .asleep ∧ w ≠ .sleepy) : Alert { s with waiters := s.waiters.set i w } := by
  intro hc
  rcases h hc with h | h
  · exact .inl h
  · refine .inr fun x hx => ?_
    rcases mem_set hx with rfl | hx
    · exact hw
    · exact h x hx

theorem Alert.step {s : State} (h : Alert s) (ev : Event) (h1 : ∀ n, ev = .add n → 0 ≤ n) (h2 : ev = .notify → ∀ w ∈ s.waiters, w ≠ .sleepy) :
    Alert (step s ev) := by
  cases ev with
  | add n =>
    have := h1 n rfl
    exact fun hc => h (by simp only [WaitCounter.step] at hc; omega)
  | done n =>
    intro hc
    simp only [WaitCounter.step] at hc ⊢
    rw [if_pos (by omega)]
    exact .inl (by omega)
  | notify =>
    simp only [WaitCounter.step]
    split
    · exact h
    · refine fun _ => .inr fun w hw => ?_
      obtain ⟨x, hx, rfl⟩ := List.mem_map.1 hw
      have := h2 rfl x hx
      split <;> simp_all
  | wait i =>
    simp only [WaitCounter.step]
    split
    · exact alert_set h (by simp)
    · exact alert_set h (by simp)
    · exact h
  | poll i =>
    simp only [WaitCounter.step]
    split
    · exact alert_set h (by simp)
    · exact alert_set h (by simp)
    · exact h
  | work i =>
    simp only [WaitCounter.step, work]
    split
    · split
      · exact alert_set h (by simp)
      · exact h
    · split
      · exact alert_set h (by simp)
      · exact h
    · split
      · rename_i hc; exact fun hc' => absurd hc (by simp only at hc'; omega)
      · exact alert_set h (by simp)
    · rename_i hw
      intro hc
      rcases h hc with h | h
      · exact .inl h
      · exact absurd rfl (h _ (List.mem_of_getElem? hw)).2
    · split
      · exact alert_set h (by simp)
      · exact h
    · exact h
  | timeout i =>
    simp only [WaitCounter.step]
    split
    · exact alert_set h (by simp)
    · exact h
  | spurious i =>
    simp only [WaitCounter.step]
    split
    · exact alert_set h (by simp)
    · exact h

theorem alert_run (es : List Event) : ∀ s, Alert s → Kind s es → Alert (run s es) := by
  induction es with
  | nil => exact fun _ h _ => h
  | cons ev es ih => exact fun s h hk => ih _ (h.step ev hk.1 hk.2.1) hk.2.2

/-- At most one thread has the mutex. -/
def OneHolder (ws : List Pc) : Prop := ∀ i j : Nat, ∀ a b : Pc, ws[i]? = some a → ws[j]? = some b → a.locks = true → b.locks = true → i = j

theorem oneHolder_set {ws : List Pc} (h : OneHolder ws) {k : Nat} {w : Pc}
    (hk : w.locks = true → (∀ x ∈ ws, x.locks = false) ∨ ∃ x, ws[k]? = some x ∧ x.locks = true) : OneHolder (ws.set k w) := by
  intro i j a b hi hj ha hb
  rw [List.getElem?_set] at hi hj
  by_cases e1 : k = i
  · by_cases e2 : k = j
    · exact e1.symm.trans e2
    · rw [if_neg e2] at hj
      rw [if_pos e1] at hi
      split at hi
      · simp at hi; subst hi
        rcases hk ha with hk | ⟨x, hx, hl⟩
        · rw [hk _ (List.mem_of_getElem? hj)] at hb; cases hb
        · exact absurd (h k j x b hx hj hl hb) e2
      · cases hi
  · rw [if_neg e1] at hi
    by_cases e2 : k = j
    · rw [if_pos e2] at hj
      split at hj
      · simp at hj; subst hj
        rcases hk hb with hk | ⟨x, hx, hl⟩
        · rw [hk _ (List.mem_of_getElem? hi)] at ha; cases ha
        · exact absurd (h k i x a hx hi hl ha) e1
      · cases hj
    · rw [if_neg e2] at hj
      exact h i j a b hi hj ha hb

theorem oneHolder_step {s : State} (h : OneHolder s.waiters) (ev : Event) : OneHolder (step s ev).waiters := by
  have hfree : free s = true → ∀ x ∈ s.waiters, x.locks = false := by
    intro hf x hx
    have := List.all_eq_true.1 hf x hx
    simpa using this
  cases ev with
  | add n => exact h
  | done n => exact h
  | notify =>
    simp only [step]
    split
    · exact h
    · intro i j a b hi hj ha hb
      simp only [List.getElem?_map, Option.map_eq_some_iff] at hi hj
      obtain ⟨x, hx, rfl⟩ := hi
      obtain ⟨y, hy, rfl⟩ := hj
      refine h i j x y hx hy ?_ ?_
      · cases x <;> simp_all [Pc.locks]
      · cases y <;> simp_all [Pc.locks]
  | wait i =>
    simp only [step]
    split <;> first | exact h | exact oneHolder_set h (by simp [Pc.locks])
  | poll i =>
    simp only [step]
    split <;> first | exact h | exact oneHolder_set h (by simp [Pc.locks])
  | work i =>
    simp only [step, work]
    split
    · split
      · rename_i hf; exact oneHolder_set h fun _ => .inl (hfree hf)
      · exact h
    · split
      · rename_i hf; exact oneHolder_set h fun _ => .inl (hfree hf)
      · exact h
    · rename_i hw
      split
      · exact oneHolder_set h fun _ => .inr ⟨_, hw, rfl⟩
      · exact oneHolder_set h (by simp [Pc.locks])
    · exact oneHolder_set h (by simp [Pc.locks])
    · split
      · exact oneHolder_set h (by simp [Pc.locks])
      · exact h
    · exact h
  | timeout i =>
    simp only [step]
    split <;> first | exact h | exact oneHolder_set h (by simp [Pc.locks])
  | spurious i =>
    simp only [step]
    split <;> first | exact h | exact oneHolder_set h (by simp [Pc.locks])

theorem oneHolder_run (es : List Event) : ∀ s, OneHolder s.waiters → OneHolder (run s es).waiters := by
  induction es with
  | nil => exact fun _ h => h
  | cons ev es ih => exact fun s h => ih _ (oneHolder_step h ev)

/-- The threads that are in `Wait` and hold no lock come back one after another. -/
theorem back_all {n : Nat} : ∀ s : State, s.count ≤ 0 → (s.waiters.filter Pc.inside).length ≤ n → free s = true → (∀ w ∈ s.waiters, w ≠ .asleep) →
    ∃ is : List Nat, ∀ (i : Nat) (w : Pc), s.waiters[i]? = some w → if w.inside then (is.foldl work s).waiters[i]? = some (.back true) else (is.foldl work s).waiters[i]? = some w := by
  induction n with
  | zero =>
    intro s hc hn hf ha
    have h0 : ∀ w ∈ s.waiters, w.inside = false := by
      intro w hw
      have := List.eq_nil_of_length_eq_zero (Nat.le_zero.1 hn)
      rw [List.filter_eq_nil_iff] at this
      simpa using this w hw
    exact ⟨[], fun i w hw => by rw [h0 w (List.mem_of_getElem? hw)]; exact hw⟩
  | succ n ih =>
    intro s hc hn hf ha
    by_cases hex : ∃ (i : Nat) (w : Pc), s.waiters[i]? = some w ∧ w.inside = true
    · obtain ⟨i, w, hw, hin⟩ := hex
      have hil := (List.getElem?_eq_some_iff.1 hw).1
      have hnl : w.locks = false := by
        have := List.all_eq_true.1 hf w (List.mem_of_getElem? hw)
        simpa using this
      have two : work s i = { s with waiters := s.waiters.set i .check } → [i, i].foldl work s = { s with waiters := s.waiters.set i (.back true) } := by
        intro e1
        have hc' : ¬ s.count > 0 := Int.not_lt.2 hc
        simp only [List.foldl_cons, List.foldl_nil]
        rw [e1]
        simp only [work, List.getElem?_set_self hil, if_neg hc', List.set_set]
      obtain ⟨is, his⟩ : ∃ is : List Nat, is.foldl work s = { s with waiters := s.waiters.set i (.back true) } := by
        cases w with
        | enter => exact ⟨[i, i], two (by simp only [work, hw, hf, if_true])⟩
        | wake => exact ⟨[i, i], two (by simp only [work, hw, hf, if_true])⟩
        | late => exact ⟨[i], by simp [work, hw, hf, hc]⟩
        | asleep => exact absurd rfl (ha _ (List.mem_of_getElem? hw))
        | check => cases hnl
        | sleepy => cases hnl
        | out => cases hin
        | back r => cases hin
      have hlen : ∀ (ws : List Pc) (i : Nat), ws[i]? = some w → ((ws.set i (.back true)).filter Pc.inside).length + 1 = (ws.filter Pc.inside).length := by
        intro ws
        induction ws with
        | nil => intro i h; simp at h
        | cons x ws ihw =>
          intro i h
          cases i with
          | zero =>
            simp at h; subst h
            rw [List.set_cons_zero, List.filter_cons_of_neg (by simp [Pc.inside]), List.filter_cons_of_pos hin]
            rfl
          | succ i =>
            have := ihw i (by simpa using h)
            simp only [List.set_cons_succ, List.filter_cons]
            split
            · simp only [List.length_cons]; omega
            · exact this
      obtain ⟨js, h3⟩ := ih { s with waiters := s.waiters.set i (.back true) } hc (by have := hlen s.waiters i hw; simp only; omega) (by
          unfold free
          rw [List.all_eq_true]
          intro x hx
          rcases mem_set hx with rfl | hx
          · rfl
          · exact List.all_eq_true.1 hf x hx) (by
          intro x hx
          rcases mem_set hx with rfl | hx
          · simp
          · exact ha x hx)
      refine ⟨is ++ js, ?_⟩
      intro j x hx
      rw [List.foldl_append, his]
      by_cases e : i = j
      · subst e
        have := h3 i (.back true) (by simp [hil])
        rw [hw] at hx; cases hx
        rw [hin]
        simpa [Pc.inside] using this
      · exact h3 j x (by simp only; rw [List.getElem?_set_ne e]; exact hx)
    · refine ih s hc ?_ hf ha
      have : s.waiters.filter Pc.inside = [] := by
        rw [List.filter_eq_nil_iff]
        intro w hw hin
        obtain ⟨i, hi⟩ := List.getElem?_of_mem hw
        exact hex ⟨i, w, hi, hin⟩
      rw [this]; simp

/-- **C70, partial.** If a `Done` never notifies while a thread is between its look at the counter and its sleep (and `Add` does not
lower the counter), then once the counter is not positive and the notifications are sent, no thread sleeps in `Wait`, and by steps of the
threads in `Wait` alone all of them return true. Missing: the condition on the notifications, without which it is false. -/
theorem C70_wakes_partial (initial : Int) (n : Nat) (es : List Event) (hk : Kind (start initial n) es) :
    let s := run (start initial n) es
    get s ≤ 0 → s.pending = 0 →
    (∀ w ∈ s.waiters, w ≠ .asleep ∧ w ≠ .sleepy) ∧
    ∃ is : List Nat, ∀ (i : Nat) (w : Pc), s.waiters[i]? = some w → (is.foldl work s).waiters[i]? = some (if w.inside then .back true else w) := by
  intro s hc hp
  have hal : Alert s := alert_run es _ (by intro _; right; intro w hw; rw [List.eq_of_mem_replicate hw]; simp) hk
  have hone : OneHolder s.waiters := oneHolder_run es _ (by
    intro i j a b hi hj ha hb
    rw [List.eq_of_mem_replicate (List.mem_of_getElem? hi)] at ha; cases ha)
  have hno : ∀ w ∈ s.waiters, w ≠ .asleep ∧ w ≠ .sleepy := by
    rcases hal hc with h | h
    · omega
    · exact h
  refine ⟨hno, ?_⟩
  have fin : ∀ s' : State, s'.count ≤ 0 → free s' = true → (∀ w ∈ s'.waiters, w ≠ .asleep) →
      ∃ is : List Nat, ∀ (i : Nat) (w : Pc), s'.waiters[i]? = some w → (is.foldl work s').waiters[i]? = some (if w.inside then .back true else w) := by
    intro s' h1 h2 h3
    obtain ⟨is, h⟩ := back_all s' h1 (Nat.le_refl _) h2 h3
    refine ⟨is, fun i w hw => ?_⟩
    have := h i w hw
    split at this
    · rename_i e; rw [this, if_pos e]
    · rename_i e; rw [this, if_neg e]
  by_cases hf : free s = true
  · exact fin s hc hf fun w hw => (hno w hw).1
  · have hex : ∃ w ∈ s.waiters, w.locks = true := by
      have : ¬ ∀ w ∈ s.waiters, (!w.locks) = true := fun h => hf (List.all_eq_true.2 h)
      simpa using this
    obtain ⟨w, hw, hl⟩ := hex
    obtain ⟨k, hk⟩ := List.getElem?_of_mem hw
    have hwc : w = .check := by
      have := (hno w hw).2
      cases w <;> first | rfl | exact absurd rfl this | cases hl
    subst hwc
    have hkl := (List.getElem?_eq_some_iff.1 hk).1
    have hstep : work s k = { s with waiters := s.waiters.set k (.back true) } := by
      have hc' : ¬ s.count > 0 := Int.not_lt.2 hc
      simp only [work, hk, if_neg hc']
    obtain ⟨is, his⟩ := fin (work s k) (by rw [hstep]; exact hc) (by
        rw [hstep]
        unfold free
        rw [List.all_eq_true]
        intro x hx
        obtain ⟨j, hj⟩ := List.getElem?_of_mem hx
        by_cases hne : k = j
        · subst hne
          simp only [List.getElem?_set_self hkl, Option.some.injEq] at hj
          subst hj; rfl
        · simp only [List.getElem?_set_ne hne] at hj
          cases hxl : x.locks with
          | false => rfl
          | true => exact absurd (hone k j _ _ hk hj rfl hxl) hne) (by
        rw [hstep]
        intro x hx
        rcases mem_set hx with rfl | hx
        · simp
        · exact (hno x hx).1)
    refine ⟨k :: is, fun i w hw => ?_⟩
    rw [List.foldl_cons]
    by_cases e : k = i
    · subst e
      rw [hk] at hw; cases hw
      have := his k (.back true) (by rw [hstep]; simp [hkl])
      rw [this]; rfl
    · exact his i w (by rw [hstep]; simp only; rw [List.getElem?_set_ne e]; exact hw)

/-- The hypotheses hold with two threads that wait and two calls of `Done`. -/
def wellTimed : List Event := [.wait 0, .work 0, .work 0, .work 0, .wait 1, .done 1, .work 1, .work 1, .work 1, .done 1, .notify]

instance decKind : ∀ (s : State) (es : List Event), Decidable (Kind s es)
  | _, [] => .isTrue trivial
  | s, ev :: es =>
    have := decKind (step s ev) es
    have h1 : Decidable (∀ n, ev = .add n → 0 ≤ n) := match ev with
      | .add m => if h : 0 ≤ m then .isTrue (by rintro n e; cases e; exact h) else .isFalse fun h' => h (h' m rfl)
      | .done _ | .notify | .wait _ | .poll _ | .work _ | .timeout _ | .spurious _ => .isTrue (by rintro n e; cases e)
    have h2 : Decidable (ev = .notify → ∀ w ∈ s.waiters, w ≠ .sleepy) := match ev with
      | .notify => if h : ∀ w ∈ s.waiters, w ≠ .sleepy then .isTrue fun _ => h else .isFalse fun h' => h (h' rfl)
      | .add _ | .done _ | .wait _ | .poll _ | .work _ | .timeout _ | .spurious _ => .isTrue (by intro e; cases e)
    by unfold Kind; infer_instance

example : Kind (start 2 2) wellTimed ∧ (run (start 2 2) wellTimed) = ⟨0, [.wake, .wake], 0⟩ := by decide +kernel

/-- **C70, refuted.** The notification of the last `Done` may fall between the look of a waiting thread at the counter and its sleep. Then the counter
is zero, no notification is to come, and whatever steps the waiting thread is given (and however many others wait and return), it never
returns from `Wait` by itself. -/
theorem C70_wakes_violated : ∃ es : List Event, run (start 1 1) es = ⟨0, [.asleep], 0⟩ ∧
    ∀ es' : List Event, (∀ ev ∈ es', ∃ i, ev = .work i ∨ ev = .wait i ∨ ev = .poll i ∨ ev = .notify) →
      run (run (start 1 1) es) es' = ⟨0, [.asleep], 0⟩ := by
  refine ⟨[.wait 0, .work 0, .work 0, .done 1, .notify, .work 0], by decide +kernel, ?_⟩
  have e : run (start 1 1) [.wait 0, .work 0, .work 0, .done 1, .notify, .work 0] = ⟨0, [.asleep], 0⟩ := by decide +kernel
  rw [e]
  intro es' h
  induction es' with
  | nil => rfl
  | cons ev es' ih =>
    have h1 : step ⟨0, [.asleep], 0⟩ ev = ⟨0, [.asleep], 0⟩ := by
      obtain ⟨i, rfl | rfl | rfl | rfl⟩ := h ev (by simp)
      · cases i <;> simp [step, work]
      · cases i <;> simp [step]
      · cases i <;> simp [step]
      · simp [step]
    show run (step ⟨0, [.asleep], 0⟩ ev) es' = _
    rw [h1]
    exact ih fun x hx => h x (by simp [hx])

/-- **C70, refuted.** `Add` with a negative number, which the documentation offers as a decrement, never wakes the threads in `Wait`. -/
theorem C70_add_violated : run (start 1 1) [.wait 0, .work 0, .work 0, .work 0, .add (-1)] = ⟨0, [.asleep], 0⟩ := by decide +kernel

/-! ### Time limits -/

/-- **C70.** A thread whose time is up while it sleeps returns with its next step once the mutex is free, and says whether the counter is not
positive; the passing of the time does nothing to a thread that does not sleep, nor to the other threads and the counter. -/
theorem C70_time_limit (s : State) (i : Nat) :
    (s.waiters[i]? = some .asleep → (∀ w ∈ s.waiters, w ≠ .check ∧ w ≠ .sleepy) →
      (run s [.timeout i, .work i]).waiters[i]? = some (.back (decide (get s ≤ 0)))) ∧
    (s.waiters[i]? ≠ some .asleep → run s [.timeout i] = s) ∧
    (∀ j, j ≠ i → (run s [.timeout i]).waiters[j]? = s.waiters[j]?) ∧ get (run s [.timeout i]) = get s := by
  refine ⟨fun h hf => ?_, fun h => ?_, fun j hj => ?_, ?_⟩
  · have hi : i < s.waiters.length := by
      rcases Nat.lt_or_ge i s.waiters.length with h' | h'
      · exact h'
      · rw [List.getElem?_eq_none h'] at h; cases h
    have e1 : step s (.timeout i) = { s with waiters := s.waiters.set i .late } := by simp only [step, if_pos h]
    have e2 : ({ s with waiters := s.waiters.set i .late } : State).waiters[i]? = some .late := List.getElem?_set_self hi
    have e3 : free { s with waiters := s.waiters.set i .late } = true := by
      simp only [free, List.all_eq_true]
      intro w hw
      rcases List.mem_or_eq_of_mem_set hw with hw | rfl
      · have := hf w hw
        cases w <;> simp_all [Pc.locks]
      · rfl
    show (step (step s (.timeout i)) (.work i)).waiters[i]? = _
    rw [e1]
    simp only [step, work, e2, e3, if_true, get]
    exact List.getElem?_set_self (by simpa using hi)
  · show step s (.timeout i) = s
    simp only [step, if_neg h]
  · show (step s (.timeout i)).waiters[j]? = _
    simp only [step]
    split
    · exact List.getElem?_set_ne (Ne.symm hj)
    · rfl
  · show (step s (.timeout i)).count = s.count
    simp only [step]
    split <;> rfl

/-- A thread sleeps, its time passes, and it says that the counter is still positive; the other thread goes on sleeping. -/
example : run (start 1 2) [.wait 0, .work 0, .work 0, .work 0, .wait 1, .work 1, .work 1, .work 1, .timeout 0, .work 0] =
    ⟨1, [.back false, .asleep], 0⟩ := by decide +kernel

/-- **C70.** Without a time limit `Wait` never returns false: a thread that never calls `Wait(0)` and whose time never runs out does not get false. -/
theorem C70_no_limit (initial : Int) (n : Nat) (es : List Event) (i : Nat) (h : ∀ ev ∈ es, ev ≠ .timeout i ∧ ev ≠ .poll i) :
    (run (start initial n) es).waiters[i]? ≠ some (.back false) := by
  have key : ∀ (es : List Event) (s : State), (∀ ev ∈ es, ev ≠ .timeout i ∧ ev ≠ .poll i) →
      (s.waiters[i]? ≠ some (.back false) ∧ s.waiters[i]? ≠ some .late) →
      ((run s es).waiters[i]? ≠ some (.back false) ∧ (run s es).waiters[i]? ≠ some .late) := by
    intro es
    induction es with
    | nil => intro s _ hs; exact hs
    | cons ev es ih =>
      intro s hev hs
      refine ih (step s ev) (fun x hx => hev x (by simp [hx])) ?_
      have set : ∀ (j : Nat) (w : Pc), (j = i → w ≠ .back false ∧ w ≠ .late) →
          (s.waiters.set j w)[i]? ≠ some (.back false) ∧ (s.waiters.set j w)[i]? ≠ some .late := by
        intro j w hw
        by_cases e : j = i
        · subst e
          rw [List.getElem?_set]
          simp only [if_true]
          split
          · simpa using hw rfl
          · simp
        · rw [List.getElem?_set_ne e]; exact hs
      have hne := hev ev (by simp)
      cases ev with
      | add m => exact hs
      | done m => exact hs
      | notify =>
        simp only [step]
        split
        · exact hs
        · simp only [List.getElem?_map]
          cases hw : s.waiters[i]? with
          | none => simp
          | some w =>
            rw [hw] at hs
            simp only [Option.map_some]
            split
            · simp
            · exact hs
      | wait j =>
        simp only [step]
        split
        · exact set _ _ fun _ => by simp
        · exact set _ _ fun _ => by simp
        · exact hs
      | poll j =>
        have hj : j ≠ i := fun e => hne.2 (by rw [e])
        simp only [step]
        split
        · exact set _ _ fun e => absurd e hj
        · exact set _ _ fun e => absurd e hj
        · exact hs
      | work j =>
        simp only [step, work]
        split
        · split
          · exact set _ _ fun _ => by simp
          · exact hs
        · split
          · exact set _ _ fun _ => by simp
          · exact hs
        · split
          · exact set _ _ fun _ => by simp
          · exact set _ _ fun _ => by simp
        · exact set _ _ fun _ => by simp
        · rename_i hl
          split
          · refine set _ _ fun e => absurd hl ?_
            rw [e]; exact hs.2
          · exact hs
        · exact hs
      | timeout j =>
        have hj : j ≠ i := fun e => hne.1 (by rw [e])
        simp only [step]
        split
        · exact set _ _ fun e => absurd e hj
        · exact hs
      | spurious j =>
        simp only [step]
        split
        · exact set _ _ fun _ => by simp
        · exact hs
  refine (key es _ h ?_).1
  constructor <;> (intro e; have := List.eq_of_mem_replicate (List.mem_of_getElem? e); cases this)

end Verif.WaitCounter
