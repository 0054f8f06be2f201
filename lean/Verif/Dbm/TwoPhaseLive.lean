import Verif.Tiny.Conc
import Verif.Hash.Conc
import Verif.Dbm.LockOrder
/-
Concurrent calls of `Process` and `ProcessMulti` do not wait for one another in a circle.
-/
namespace Verif.TwoPhase
open Verif

section
variable {σ ρ ι α : Type}

/-- SPECIFICATION: a thread cannot go on now: it waits for a slot that another thread has locked. -/
def Stuck (s : Sys σ ρ ι) (i : Nat) : Prop :=
  ∃ th c got k todo, s.threads[i]? = some th ∧ th.pc = .locking c got (k :: todo) ∧ canLock s.threads i k c.writable = false

/-- SPECIFICATION: if any call is under way, some thread with a call under way can go on. -/
def NoDeadlock (s : Sys σ ρ ι) : Prop :=
  (∃ th ∈ s.threads, th.pc ≠ .idle) → ∃ (i : Nat) (th : Thread ρ ι), s.threads[i]? = some th ∧ th.pc ≠ .idle ∧ ¬ Stuck s i

/-- `Process` has one pair. -/
def Single (es : List (Nat × Act ρ α)) : Prop := ∀ t c, (t, Act.call c) ∈ es → c.multi = false → c.pairs.length ≤ 1

/-- The slots that a thread is locking are in ascending order. -/
def Asc (ts : List (Thread ρ ι)) : Prop := ∀ th ∈ ts, ∀ c got todo, th.pc = .locking c got todo → (got ++ todo).Pairwise (· < ·)

theorem asc_set {ts : List (Thread ρ ι)} (h : Asc ts) {i : Nat} {x : Thread ρ ι} (hx : ∀ c got todo, x.pc = .locking c got todo → (got ++ todo).Pairwise (· < ·)) :
    Asc (ts.set i x) := by
  intro th hth
  rcases List.mem_or_eq_of_mem_set hth with h1 | rfl
  · exact h th h1
  · exact hx

theorem asc_step {L : Locks ρ} {B : Body σ ρ ι α} {s : Sys σ ρ ι} (h : Asc s.threads) (ev : Nat × Act ρ α)
    (ho : ∀ c, ev.2 = .call c → (L.order c).Pairwise (· < ·)) : Asc (step L B s ev).threads := by
  unfold step
  split
  · exact h
  rename_i th hth
  have hmem := List.mem_of_getElem? hth
  split
  · rename_i c _ hc
    refine asc_set h fun c' got' todo' he => ?_
    cases he
    exact ho c hc
  · rename_i c got k todo _ hpc _
    split
    · refine asc_set h fun c' got' todo' he => ?_
      cases he
      have := h th hmem _ _ _ hpc
      simpa using this
    · exact h
  · exact asc_set h fun c' got' todo' he => by cases he
  · split <;> exact asc_set h fun c' got' todo' he => by cases he
  · exact asc_set h fun c' got' todo' he => by cases he
  · exact asc_set h fun c' got' todo' he => by cases he
  · exact h

theorem asc_run {L : Locks ρ} {B : Body σ ρ ι α} (m : σ) (n : Nat) (es : List (Nat × Act ρ α)) (ho : ∀ t c, (t, Act.call c) ∈ es → (L.order c).Pairwise (· < ·)) :
    Asc (run L B m n es).threads := by
  have key : ∀ (es : List (Nat × Act ρ α)) (s : Sys σ ρ ι), (∀ t c, (t, Act.call c) ∈ es → (L.order c).Pairwise (· < ·)) → Asc s.threads →
      Asc (es.foldl (step L B) s).threads := by
    intro es
    induction es with
    | nil => exact fun s _ h => h
    | cons ev es ih =>
      intro s ho h
      refine ih _ (fun t c hc => ho t c (List.mem_cons_of_mem _ hc)) (asc_step h ev fun c hc => ho ev.1 c ?_)
      rw [← hc]; exact List.mem_cons_self
  refine key es _ ho fun th hth c got todo he => ?_
  have := List.eq_of_mem_replicate hth
  subst this
  cases he

theorem canLock_false {ts : List (Thread ρ ι)} {i k : Nat} {w : Bool} (h : canLock ts i k w = false) :
    ∃ (j : Nat) (th : Thread ρ ι), ts[j]? = some th ∧ k ∈ held th.pc := by
  unfold canLock at h
  rw [List.all_eq_false] at h
  obtain ⟨j, _, hj⟩ := h
  cases hth : ts[j]? with
  | none => rw [hth] at hj; exact absurd rfl hj
  | some th =>
    rw [hth] at hj
    refine ⟨j, th, hth, ?_⟩
    simp only [Bool.or_eq_true, not_or, Bool.not_eq_true] at hj
    simpa using hj.1.2

theorem no_deadlock {s : Sys σ ρ ι} (ha : Asc s.threads) : NoDeadlock s := by
  rintro ⟨th1, hm1, hact⟩
  obtain ⟨i1, h1⟩ := List.getElem?_of_mem hm1
  by_cases hst : Stuck s i1
  · obtain ⟨th, c, got, k, todo, h2, hpc, hl⟩ := hst
    obtain ⟨j, thj, hj, hk⟩ := canLock_false hl
    obtain ⟨j', h4, h5, h6⟩ := LockOrder.exists_free (n := s.threads.length) (held := fun j => ((s.threads[j]?).map fun t => held t.pc).getD [])
      (want := fun j => (s.threads[j]?).bind fun t => match t.pc with
        | .locking _ _ (k :: _) => some k
        | _ => none) (stuck := Stuck s)
      (fun i k hik x hx => by
        obtain ⟨t, ht, hk⟩ := Option.bind_eq_some_iff.1 hik
        rw [ht] at hx
        simp only [Option.map_some, Option.getD_some] at hx
        split at hk
        · rename_i c got k' todo hpc
          cases hk
          have := ha t (List.mem_of_getElem? ht) _ _ _ hpc
          rw [hpc] at hx
          exact (List.pairwise_append.1 this).2.2 x hx k (List.mem_cons_self)
        · cases hk)
      (fun i _ ⟨t, c, got, k, todo, h1, h2, h3⟩ => by
        obtain ⟨j, thj, hj, hk⟩ := canLock_false h3
        refine ⟨k, j, ?_, (List.getElem?_eq_some_iff.1 hj).1, ?_⟩
        · rw [h1]; simp only [Option.bind_some, h2]
        · rw [hj]; exact hk)
      (List.getElem?_eq_some_iff.1 hj).1 (by rw [hj]; exact List.ne_nil_of_mem hk)
    have hj' := List.getElem?_eq_getElem h4
    refine ⟨j', _, hj', ?_, h6⟩
    intro hid
    rw [hj'] at h5
    simp only [Option.map_some, Option.getD_some, hid] at h5
    exact h5 rfl
  · exact ⟨i1, th1, h1, hact, hst⟩

theorem slotSet_sorted (e : HashMutex.Env) (keys : List Bytes) (nb : Nat) : (HashMutex.slotSet e keys nb).Pairwise (· < ·) :=
  List.Pairwise.filter _ List.pairwise_lt_range

theorem order_sorted (e : HashMutex.Env) (nb : Nat) (c : Call ρ) (hc : c.multi = false → c.pairs.length ≤ 1) :
    ((Tiny.Conc.locks ρ e nb).order c).Pairwise (· < ·) := by
  simp only [Tiny.Conc.locks]
  cases hm : c.multi with
  | true =>
    simp only [if_true]
    refine List.pairwise_cons.2 ⟨fun x hx => ?_, List.Pairwise.filter _ (slotSet_sorted _ _ _)⟩
    have := (List.mem_filter.1 hx).2
    simp only [ne_eq, decide_not, Bool.not_eq_eq_eq_not, Bool.not_true, decide_eq_false_iff_not] at this
    omega
  | false =>
    have := hc hm
    match hp : c.pairs, this with
    | [], _ => simp
    | [a], _ => simp
    | a :: b :: l, h => rw [hp] at this; simp at this

end

/-- C72: calls of TinyDBM never wait for one another in a circle: at every moment at which a call is under way, a thread with a call under way can go on. -/
theorem C72_tiny_no_deadlock {ρ : Type} (e : HashMutex.Env) (nb n : Nat) (es : List (Nat × Act ρ Tiny.Conc.Addr)) (h1 : Single es) :
    NoDeadlock (Tiny.Conc.run e nb n es) :=
  no_deadlock (asc_run _ _ _ fun t c hc => order_sorted e nb c (h1 t c hc))

/-- C73: the same for HashDBM. -/
theorem C73_hash_no_deadlock {ρ : Type} (e : Hash.Env) (slots : Nat) (st : Hash.State) (n : Nat) (es : List (Nat × Act ρ Unit)) (h1 : Single es) :
    NoDeadlock (Hash.Conc.run e slots st n es) :=
  no_deadlock (asc_run _ _ _ fun t c hc => order_sorted _ _ c (h1 t c hc))

/-! ### An example: one thread has the slot, and another one waits for it -/

def sampleCall : Call Nat := ⟨[([1], fun r _ => (.noop, r + 1))], true, false, 0⟩
def sampleEvents : List (Nat × Act Nat Tiny.Conc.Addr) := [(0, .call sampleCall), (1, .call sampleCall), (0, .go 0), (1, .go 0)]

example : Single sampleEvents := by
  intro t c hc _
  simp only [sampleEvents, List.mem_cons, Prod.mk.injEq, reduceCtorEq, and_false, or_false, List.not_mem_nil, Act.call.injEq] at hc
  rcases hc with ⟨_, rfl⟩ | ⟨_, rfl⟩ <;> simp [sampleCall]

example : Stuck (Tiny.Conc.run ⟨3, fun _ _ => 2⟩ 7 2 sampleEvents) 1 :=
  ⟨⟨1, .locking sampleCall [] [2]⟩, sampleCall, [], 2, [], rfl, rfl, rfl⟩

end Verif.TwoPhase
