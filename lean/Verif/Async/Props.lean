import Verif.Async.Model
import Verif.Thread.TaskQueueProps
import Verif.Tiny.Props
/-
C69: calls of an AsyncDBM.
-/
namespace Verif.Async
open Verif

variable {σ ω β : Type} {B : Below σ ω β}

/-- The event of the queue. -/
def toQueue (s : State σ ω β) : Event ω → TaskQueue.Event
  | .call _ => .push s.calls.length
  | .work i => .work i
  | .notify i => .notify i
  | .spurious i => .spurious i
  | .destroy => .stop
  | .destroyStep x => .stopStep x

theorem runTask_queue (s : State σ ω β) (t : Nat) : (runTask B s t).queue = s.queue ∧ (runTask B s t).calls = s.calls := by
  unfold runTask; split <;> exact ⟨rfl, rfl⟩

theorem step_queue (s : State σ ω β) (ev : Event ω) : (step B s ev).queue = TaskQueue.step s.queue (toQueue s ev) := by
  cases ev with
  | call op =>
    simp only [step, toQueue]
    by_cases h : TaskQueue.free s.queue = true
    · rw [if_pos h]
    · rw [if_neg h, TaskQueue.step, if_neg h]
  | work i =>
    simp only [step, toQueue]
    split
    · rw [(runTask_queue _ _).1]
    · rfl
  | _ => rfl

/-- The schedule of the queue that a schedule is. -/
theorem run_queue (es : List (Event ω)) : ∀ s : State σ ω β, ∃ qs : List TaskQueue.Event, (run B s es).queue = qs.foldl TaskQueue.step s.queue ∧
    (∀ q ∈ qs, ∀ n, q ≠ .start n) ∧ ((∀ ev ∈ es, ev ≠ .destroyStep true) → TaskQueue.TimeEnough qs) := by
  induction es with
  | nil => intro s; exact ⟨[], rfl, by simp, by simp [TaskQueue.TimeEnough]⟩
  | cons ev es ih =>
    intro s
    obtain ⟨qs, h1, h2, h3⟩ := ih (step B s ev)
    refine ⟨toQueue s ev :: qs, by rw [List.foldl_cons, ← step_queue, ← h1]; rfl, ?_, ?_⟩
    · intro q hq n
      rcases List.mem_cons.1 hq with rfl | hq
      · cases ev <;> simp [toQueue]
      · exact h2 q hq n
    · intro h q hq
      rcases List.mem_cons.1 hq with rfl | hq
      · have := h ev (by simp)
        cases ev <;> simp_all [toQueue]
      · exact h3 (fun e he => h e (by simp [he])) q hq

/-- What holds at every moment. -/
structure Inv (B : Below σ ω β) (db0 : σ) (s : State σ ω β) : Prop where
  /-- every call has its task -/
  added : s.queue.added = List.range s.calls.length
  /-- the futures in the order in which the tasks were done -/
  done : s.futures.map (·.1) = s.queue.done
  /-- the calls that were done, one after another, give this state and these outcomes -/
  result : Verif.run B.exec db0 (s.queue.done.filterMap (s.calls[·]?)) = (s.db, s.futures.map (·.2))
  posts : s.posts = if s.post then s.futures.filterMap (fun x => (s.calls[x.1]?).map fun op => (op, B.status x.2)) else []
  small : ∀ t ∈ s.queue.done, t < s.calls.length

theorem run_append (exec : σ → ω → σ × β) : ∀ (a b : List ω) (s : σ), Verif.run exec s (a ++ b) =
    ((Verif.run exec (Verif.run exec s a).1 b).1, (Verif.run exec s a).2 ++ (Verif.run exec (Verif.run exec s a).1 b).2) := by
  intro a
  induction a with
  | nil => intro b s; rfl
  | cons x a ih => intro b s; simp only [List.cons_append, Verif.run, ih, List.cons_append]

theorem filterMap_same {α γ : Type} {f g : α → Option γ} : ∀ {l : List α}, (∀ x ∈ l, f x = g x) → l.filterMap f = l.filterMap g := by
  intro l
  induction l with
  | nil => intro _; rfl
  | cons a l ih => intro h; rw [List.filterMap_cons, List.filterMap_cons, h a (by simp), ih fun x hx => h x (by simp [hx])]

theorem filterMap_calls {calls : List ω} (op : ω) : ∀ {l : List Nat}, (∀ t ∈ l, t < calls.length) →
    l.filterMap ((calls ++ [op])[·]?) = l.filterMap (calls[·]?) := by
  intro l h
  refine filterMap_same fun t ht => ?_
  rw [List.getElem?_append_left (h t ht)]

theorem added_step (q : TaskQueue.State) (ev : TaskQueue.Event) (h : ∀ t, ev ≠ .push t) : (TaskQueue.step q ev).added = q.added := by
  cases ev with
  | push t => exact absurd rfl (h t)
  | start n => simp only [TaskQueue.step]; split <;> rfl
  | notify i => simp only [TaskQueue.step]; (repeat' split) <;> rfl
  | work i => simp only [TaskQueue.step, TaskQueue.work]; (repeat' split) <;> rfl
  | spurious i => simp only [TaskQueue.step]; split <;> rfl
  | stop => simp only [TaskQueue.step]; split <;> rfl
  | stopStep x => simp only [TaskQueue.step, TaskQueue.stopStep]; (repeat' split) <;> rfl

theorem done_step (q : TaskQueue.State) (ev : TaskQueue.Event) (h : ∀ i t, ev = .work i → q.workers[i]? ≠ some (.doing t)) :
    (TaskQueue.step q ev).done = q.done := by
  cases ev with
  | push t => simp only [TaskQueue.step]; split <;> rfl
  | start n => simp only [TaskQueue.step]; split <;> rfl
  | notify i => simp only [TaskQueue.step]; (repeat' split) <;> rfl
  | work i =>
    have := fun t => h i t rfl
    simp only [TaskQueue.step, TaskQueue.work]
    (repeat' split) <;> first | rfl | (exact absurd (by assumption) (this _))
  | spurious i => simp only [TaskQueue.step]; split <;> rfl
  | stop => simp only [TaskQueue.step]; split <;> rfl
  | stopStep x => simp only [TaskQueue.step, TaskQueue.stopStep]; (repeat' split) <;> rfl

/-- A step of the queue alone that does no task and adds none. -/
theorem Inv.quiet {db0 : σ} {s : State σ ω β} (h : Inv B db0 s) (q : TaskQueue.State) (h1 : q.added = s.queue.added) (h2 : q.done = s.queue.done) :
    Inv B db0 { s with queue := q } :=
  ⟨h1.trans h.added, h.done.trans h2.symm, by simp only [h2]; exact h.result, h.posts, by simp only [h2]; exact h.small⟩

theorem Inv.step {db0 : σ} {s : State σ ω β} (h : Inv B db0 s) (hq : ∃ qs, s.queue = TaskQueue.run qs) (ev : Event ω) : Inv B db0 (step B s ev) := by
  have quiet : ∀ ev, (∀ t, toQueue s ev ≠ .push t) → (∀ i t, toQueue s ev = .work i → s.queue.workers[i]? ≠ some (.doing t)) →
      Inv B db0 { s with queue := TaskQueue.step s.queue (toQueue s ev) } := fun ev h1 h2 => h.quiet _ (added_step _ _ h1) (done_step _ _ h2)
  cases ev with
  | notify i => exact quiet (.notify i) (by simp [toQueue]) (by simp [toQueue])
  | spurious i => exact quiet (.spurious i) (by simp [toQueue]) (by simp [toQueue])
  | destroy => exact quiet .destroy (by simp [toQueue]) (by simp [toQueue])
  | destroyStep x => exact quiet (.destroyStep x) (by simp [toQueue]) (by simp [toQueue])
  | call op =>
    simp only [Async.step]
    by_cases hf : TaskQueue.free s.queue = true
    · rw [if_pos hf]
      simp only [TaskQueue.step, if_pos hf]
      have hs : ∀ x ∈ s.futures, x.1 < s.calls.length := fun x hx => h.small _ (by rw [← h.done]; exact List.mem_map_of_mem hx)
      refine ⟨by simp [h.added, List.range_succ], h.done, ?_, ?_, fun t ht => by have := h.small t ht; simp; omega⟩
      · simp only [filterMap_calls op h.small]; exact h.result
      · simp only
        rw [h.posts]
        split
        · refine filterMap_same fun x hx => ?_
          rw [List.getElem?_append_left (hs x hx)]
        · rfl
    · rw [if_neg hf]; exact h
  | work i =>
    simp only [Async.step]
    split
    · rename_i t ht
      obtain ⟨qs, hqs⟩ := hq
      have hlt : t < s.calls.length := by
        have h1 := (TaskQueue.C51_once qs).2 t
        rw [← hqs] at h1
        have h2 : 0 < (TaskQueue.inProgress s.queue.workers).count t := by
          rw [List.count_pos_iff]
          exact List.mem_filterMap.2 ⟨.doing t, List.mem_of_getElem? ht, rfl⟩
        have h3 : t ∈ s.queue.added := List.count_pos_iff.1 (by omega)
        rw [h.added, List.mem_range] at h3
        exact h3
      have hd : (TaskQueue.step s.queue (.work i)).done = s.queue.done ++ [t] := by simp only [TaskQueue.step, TaskQueue.work, ht]
      have ha : (TaskQueue.step s.queue (.work i)).added = s.queue.added := added_step _ _ (by simp)
      obtain ⟨op, hop⟩ : ∃ op, s.calls[t]? = some op := ⟨_, List.getElem?_eq_getElem hlt⟩
      unfold runTask
      simp only [hop]
      refine ⟨ha.trans h.added, by simp [h.done, hd], ?_, ?_, ?_⟩
      · simp only [hd, List.filterMap_append, run_append, h.result, List.filterMap_cons, hop, List.filterMap_nil, Verif.run, List.map_append, List.map_cons,
          List.map_nil]
      · simp only
        rw [h.posts]
        split
        · simp [hop]
        · rfl
      · intro u hu
        simp only [hd, List.mem_append, List.mem_singleton] at hu
        rcases hu with hu | rfl
        · exact h.small u hu
        · exact hlt
    · rename_i hn
      exact quiet (.work i) (by simp [toQueue]) (by
        intro j t hj
        cases hj
        exact hn t)

theorem start_queue (db : σ) (n : Nat) (p : Bool) : (start db n p : State σ ω β).queue = TaskQueue.run [.start n] := rfl

theorem inv_run (db : σ) (n : Nat) (p : Bool) (es : List (Event ω)) : Inv B db (run B (start db n p) es) ∧ ∃ qs, (run B (start db n p) es).queue = TaskQueue.run qs := by
  have key : ∀ (es : List (Event ω)) (s : State σ ω β), Inv B db s → (∃ qs, s.queue = TaskQueue.run qs) →
      Inv B db (run B s es) ∧ ∃ qs, (run B s es).queue = TaskQueue.run qs := by
    intro es
    induction es with
    | nil => exact fun _ h1 h2 => ⟨h1, h2⟩
    | cons ev es ih =>
      intro s h1 h2
      refine ih _ (h1.step h2 ev) ?_
      obtain ⟨qs, hqs⟩ := h2
      exact ⟨qs ++ [toQueue s ev], by rw [step_queue, hqs, TaskQueue.run, TaskQueue.run, List.foldl_append]; rfl⟩
  refine key es _ ⟨?_, ?_, ?_, ?_, ?_⟩ ⟨[.start n], rfl⟩
  · simp [start, TaskQueue.step, TaskQueue.init]
  · simp [start, TaskQueue.step, TaskQueue.init]
  · simp [start, TaskQueue.step, TaskQueue.init, Verif.run]
  · simp only [start]; cases p <;> rfl
  · simp [start, TaskQueue.step, TaskQueue.init]

/-- SPECIFICATION. `order` names calls, each at most once, and one after another they take the database from `db0` to `db` with the outcomes
in `futures`. -/
structure Serial (exec : σ → ω → σ × β) (db0 : σ) (calls : List ω) (order : List Nat) (db : σ) (futures : List (Nat × β)) : Prop where
  named : ∀ t ∈ order, t < calls.length
  once : order.Nodup
  outcomes : futures.map (·.1) = order
  result : Verif.run exec db0 (order.filterMap (calls[·]?)) = (db, futures.map (·.2))

/-- **C69.** Whatever the number of workers and the schedule: the outcomes in the futures are those of the calls one after another in some
order, each call being done at most once. The postprocessor, if there is one, was called with the status of each of them. -/
theorem C69_serial (db : σ) (n : Nat) (p : Bool) (es : List (Event ω)) :
    let s := run B (start db n p) es
    Serial B.exec db s.calls s.queue.done s.db s.futures ∧
    s.posts = if s.post then s.futures.filterMap (fun x => (s.calls[x.1]?).map fun op => (op, B.status x.2)) else [] := by
  intro s
  obtain ⟨h, qs, hqs⟩ := inv_run (B := B) db n p es
  refine ⟨⟨h.small, ?_, h.done, h.result⟩, h.posts⟩
  rw [List.nodup_iff_count]
  intro t
  have h1 := (TaskQueue.C51_once qs).2 t
  rw [← hqs] at h1
  have h2 : (run B (start db n p) es).queue.added.count t ≤ 1 := by
    rw [h.added]; exact List.nodup_iff_count.1 List.nodup_range t
  show (run B (start db n p) es).queue.done.count t ≤ 1
  omega

theorem foldl_prefix {ε : Type} (f : TaskQueue.State → ε → TaskQueue.State) (h : ∀ s e, s.done <+: (f s e).done) (es : List ε) : ∀ s, s.done <+: (es.foldl f s).done := by
  induction es with
  | nil => exact fun _ => List.prefix_refl _
  | cons e es ih => exact fun s => (h s e).trans (ih _)

theorem done_prefix (q : TaskQueue.State) (ev : TaskQueue.Event) : q.done <+: (TaskQueue.step q ev).done := by
  by_cases h : ∃ i t, ev = .work i ∧ q.workers[i]? = some (.doing t)
  · obtain ⟨i, t, rfl, ht⟩ := h
    simp only [TaskQueue.step, TaskQueue.work, ht]
    exact List.prefix_append _ _
  · rw [done_step q ev fun i t e h' => h ⟨i, t, e, h'⟩]

/-- **C69.** The order respects time: calls whose futures had their values before another call was made are before it. -/
theorem C69_real_time (db : σ) (n : Nat) (p : Bool) (es es' : List (Event ω)) :
    let s := run B (start db n p) es
    let s' := run B s es'
    s.queue.done <+: s'.queue.done ∧ (∀ t ∈ s.queue.done, t < s.calls.length) ∧ s.calls <+: s'.calls ∧ s.futures <+: s'.futures := by
  intro s s'
  have hs := inv_run (B := B) db n p es
  have hp : ∀ (es : List (Event ω)) (s : State σ ω β), s.calls <+: (run B s es).calls ∧ s.futures <+: (run B s es).futures := by
    intro es
    induction es with
    | nil => exact fun _ => ⟨List.prefix_refl _, List.prefix_refl _⟩
    | cons ev es ih =>
      intro s
      have h1 : s.calls <+: (step B s ev).calls ∧ s.futures <+: (step B s ev).futures := by
        cases ev with
        | call op =>
          simp only [step]; split
          · exact ⟨List.prefix_append _ _, List.prefix_refl _⟩
          · exact ⟨List.prefix_refl _, List.prefix_refl _⟩
        | work i =>
          simp only [step]; split
          · refine ⟨by rw [(runTask_queue _ _).2], ?_⟩
            unfold runTask; split
            · exact List.prefix_refl _
            · exact List.prefix_append _ _
          · exact ⟨List.prefix_refl _, List.prefix_refl _⟩
        | _ => exact ⟨List.prefix_refl _, List.prefix_refl _⟩
      exact ⟨h1.1.trans (ih _).1, h1.2.trans (ih _).2⟩
  refine ⟨?_, hs.1.small, (hp es' s).1, (hp es' s).2⟩
  obtain ⟨qs, h1, _, _⟩ := run_queue (B := B) es' s
  show s.queue.done <+: (run B s es').queue.done
  rw [h1]
  exact foldl_prefix _ done_prefix qs _

/-- **C69.** With one worker the calls are done in the order in which they were made. -/
theorem C69_one_worker (db : σ) (p : Bool) (es : List (Event ω)) :
    let s := run B (start db 1 p) es
    s.queue.done = List.range s.futures.length ∧ s.futures.length ≤ s.calls.length ∧
    Verif.run B.exec db (s.calls.take s.futures.length) = (s.db, s.futures.map (·.2)) := by
  intro s
  obtain ⟨h, _⟩ := inv_run (B := B) db 1 p es
  obtain ⟨qs, h1, h2, _⟩ := run_queue (B := B) es (start db 1 p)
  have h3 : (run B (start db 1 p) es).queue = TaskQueue.run (.start 1 :: qs) := h1
  have h4 := TaskQueue.C51_in_order (.start 1 :: qs) (by
    intro q hq n e
    rcases List.mem_cons.1 hq with rfl | hq
    · cases e; exact Nat.le_refl _
    · exact absurd e (h2 q hq n))
  rw [← h3, h.added] at h4
  have h5 : s.queue.done = List.range s.futures.length := by
    have hl : s.queue.done.length = s.futures.length := by
      have := congrArg List.length h.done
      simpa using this.symm
    have h6 := List.prefix_iff_eq_take.1 h4
    rw [List.take_range, show min _ _ = s.futures.length from ?_] at h6
    · exact h6
    · have := h4.length_le
      rw [List.length_range] at this
      show min s.queue.done.length s.calls.length = _
      have h7 : s.queue.done.length ≤ s.calls.length := this
      omega
  have hle : s.futures.length ≤ s.calls.length := by
    have := h4.length_le
    rw [List.length_range] at this
    have h7 : s.queue.done.length ≤ s.calls.length := this
    rw [h5, List.length_range] at h7
    exact h7
  refine ⟨h5, hle, ?_⟩
  have h8 := h.result
  rw [show (run B (start db 1 p) es) = s from rfl, h5] at h8
  rw [← h8]
  congr 1
  have : ∀ n ≤ s.calls.length, (List.range n).filterMap (s.calls[·]?) = s.calls.take n := by
    intro n
    induction n with
    | zero => intro _; rfl
    | succ n ih =>
      intro hn
      rw [List.range_succ, List.filterMap_append, ih (by omega), List.take_succ, List.getElem?_eq_getElem (by omega)]
      simp [List.getElem?_eq_getElem (show n < s.calls.length by omega)]
  exact (this _ hle).symm

/-- **C69.** When the destructor has returned, every call that was made before has been done and its future has its value. -/
theorem C69_destroy (db : σ) (n : Nat) (p : Bool) (es es' : List (Event ω)) (ht : ∀ ev ∈ es', ev ≠ .destroyStep true) :
    let s := run B (start db n p) es
    let s' := run B (step B s .destroy) es'
    s.queue.stop = .idle → s'.queue.stop = .idle → ∀ t < s.calls.length, ∃ r, (t, r) ∈ s'.futures := by
  intro s s' h0 hr t hlt
  obtain ⟨h, qs, hqs⟩ := inv_run (B := B) db n p es
  obtain ⟨qs', h1, _, h3⟩ := run_queue (B := B) es' (step B s .destroy)
  have h2 := TaskQueue.C51_stop qs qs' (by rw [← hqs]; exact h0) (h3 ht) (by rw [← hqs]; exact h1 ▸ hr) t
  rw [← hqs] at h2
  have h4 : (run B (start db n p) es).queue.added.count t = 1 := by
    have a1 := List.nodup_iff_count.1 (List.nodup_range (n := s.calls.length)) t
    have a2 := List.count_pos_iff.2 (List.mem_range.2 hlt)
    rw [h.added]
    show List.count t (List.range s.calls.length) = 1
    omega
  have h5 : t ∈ s'.queue.done := by
    show t ∈ (run B (step B s .destroy) es').queue.done
    rw [h1]
    refine List.count_pos_iff.1 ?_
    have : (step B s .destroy).queue = TaskQueue.step s.queue .stop := rfl
    rw [this]
    show 0 < List.count t (List.foldl TaskQueue.step (TaskQueue.step (run B (start db n p) es).queue .stop) qs').done
    omega
  have h6 : Inv B db s' := by
    have h := (inv_run (B := B) db n p (es ++ .destroy :: es')).1
    have e : run B (start db n p) (es ++ .destroy :: es') = s' := by
      simp only [run, List.foldl_append, List.foldl_cons]; rfl
    rw [e] at h; exact h
  rw [← h6.done, List.mem_map] at h5
  obtain ⟨x, hx, rfl⟩ := h5
  exact ⟨x.2, hx⟩

/-! ### Over a database of the library -/

/-- The calls of the histories of C01 on a TinyDBM. -/
def tiny (hash : Bytes → Nat → Nat) : Below Tiny.State Op Out := ⟨Tiny.step hash, (·.1)⟩

/-- **C69.** An AsyncDBM over a new TinyDBM: the outcomes in the futures are those of the calls on a dictionary, in the order in which they
were done, if the records satisfy the size limit. -/
theorem C69_tiny_dictionary {hash : Bytes → Nat → Nat} (hr : Tiny.InRange hash) (numBuckets : Int) (n : Nat) (p : Bool) (es : List (Event Op)) :
    let s := run (tiny hash) (start (Tiny.init numBuckets) n p) es
    let ops := s.queue.done.filterMap (s.calls[·]?)
    RunFits Tiny.recFits Dict.empty ops →
    s.futures.map (·.2) = (Dict.empty.run ops).2 ∧ ∀ k, (Api.get (Tiny.impl hash) s.db k).2.2 = (Dict.empty.run ops).1 k := by
  intro s ops hf
  have h := (C69_serial (B := tiny hash) (Tiny.init numBuckets) n p es).1.result
  have h1 := Tiny.C01_tiny_dictionary hr numBuckets ops hf
  have h2 : Verif.run (Tiny.step hash) (Tiny.init numBuckets) ops = (s.db, s.futures.map (·.2)) := h
  rw [h2] at h1
  exact ⟨h1.1, h1.2.2⟩

namespace Examples

def calls : List (Event Op) := [.call (.set [1] [10] true), .call (.append [1] [11] [0x2c]), .call (.get [1])]

/-- One worker takes and does the three calls, and then the destructor runs. -/
def one : List (Event Op) := calls ++ [.work 0, .work 0, .work 0, .work 0, .work 0, .work 0, .destroy, .destroyStep false] ++
  [.work 0, .work 0, .work 0, .destroyStep false, .destroyStep false, .destroyStep false, .destroyStep false, .work 0, .destroyStep false]

def dbm : State Tiny.State Op Out := start (Tiny.init 3) 1 true

/-- The hypotheses of `C69_destroy` and `C69_one_worker` hold for it: all three futures have their values in order. -/
example : let s := run (tiny Tiny.sampleHash) dbm one
    s.queue.stop = .idle ∧ s.queue.workers = [] ∧ s.futures = [(0, .success, none), (1, .success, none), (2, .success, some [10, 0x2c, 11])] ∧
    s.posts.map (·.2) = [.success, .success, .success] := by decide +kernel

/-- With two workers the second of two calls may be done first, although the same thread made both. -/
def two : List (Event Op) :=
  [.call (.set [1] [10] true), .call (.get [1]), .work 0, .work 0, .work 1, .work 1, .work 1, .work 0]

example : (run (tiny Tiny.sampleHash) (start (Tiny.init 3) 2 false) two).futures = [(1, .notFound, none), (0, .success, none)] := by decide +kernel

end Examples

end Verif.Async
