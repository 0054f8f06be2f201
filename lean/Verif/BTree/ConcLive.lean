import Verif.BTree.ConcProps
import Verif.Dbm.LockOrder
/-
Calls of BabyDBM and TreeDBM at once do not block one another: whatever has happened, the calls under way can all be brought to their end.
-/
namespace Verif.BTree.Conc
open Verif Verif.BTree
open Verif.TwoPhase (Call HEv)

section
variable {ρ : Type}

/-- The number of steps that a thread still has to go, at most. -/
def rank : Pc ρ → Nat
  | .idle => 0
  | .leave _ _ _ => 1
  | .unlock _ _ h _ => 2 + h.length
  | .body _ _ h jobs _ _ => 3 + h.length + jobs.length
  | .lock _ ids got todo => 4 + ids.length + got.length + 2 * todo.length
  | .search _ ids todo => 5 + 3 * (ids.length + todo.length) + 3 * todo.length
  | .add _ ids _ _ todo => 6 + 3 * (ids.length + 1 + todo.length) + 3 * todo.length
  | .load _ ids _ todo => 7 + 3 * (ids.length + 1 + todo.length) + 3 * todo.length
  | .enter c => 6 + 6 * c.pairs.length
  | .reorg c => 7 + 6 * c.pairs.length
  | .begin c => 8 + 6 * c.pairs.length

def total (s : Sys ρ) : Nat := (s.threads.map fun th => rank th.pc).sum

theorem insertId_length (k : Nat) : ∀ l, (insertId k l).length ≤ l.length + 1
  | [] => by simp [insertId]
  | x :: l => by
    simp only [insertId]
    split
    · simp
    · split
      · simp
      · have := insertId_length k l
        simp only [List.length_cons]; omega

theorem insertId_sorted (k : Nat) : ∀ l : List Nat, l.Pairwise (· < ·) → (insertId k l).Pairwise (· < ·)
  | [], _ => by simp [insertId]
  | x :: l, h => by
    have h1 := List.pairwise_cons.1 h
    simp only [insertId]
    split
    · rename_i hlt
      refine List.pairwise_cons.2 ⟨fun y hy => ?_, h⟩
      rcases List.mem_cons.1 hy with rfl | hy
      · exact hlt
      · exact Nat.lt_trans hlt (h1.1 y hy)
    · split
      · exact h
      · rename_i h2 h3
        refine List.pairwise_cons.2 ⟨fun y hy => ?_, insertId_sorted k l h1.2⟩
        rcases (mem_insertId _ _ _).1 hy with rfl | hy
        · omega
        · exact h1.1 y hy

theorem foldl_insertId_length : ∀ (ids l : List Nat), (ids.foldl (fun l k => insertId k l) l).length ≤ l.length + ids.length
  | [], _ => by simp
  | k :: ids, l => by
    have := foldl_insertId_length ids (insertId k l)
    have := insertId_length k l
    simp only [List.foldl_cons, List.length_cons]; omega

theorem lockOrder_length (ids : List Nat) : (lockOrder ids).length ≤ ids.length := by
  have := foldl_insertId_length ids []
  simpa [lockOrder] using this

theorem foldl_insertId_sorted : ∀ (ids l : List Nat), l.Pairwise (· < ·) → (ids.foldl (fun l k => insertId k l) l).Pairwise (· < ·)
  | [], _, h => h
  | k :: ids, l, h => foldl_insertId_sorted ids (insertId k l) (insertId_sorted k l h)

theorem lockOrder_sorted (ids : List Nat) : (lockOrder ids).Pairwise (· < ·) := foldl_insertId_sorted ids [] List.Pairwise.nil

/-- The leaves that a thread is locking are in order. -/
def Asc (s : Sys ρ) : Prop := ∀ th ∈ s.threads, ∀ c ids got todo, th.pc = .lock c ids got todo → (got ++ todo).Pairwise (· < ·)

theorem asc_set {s : Sys ρ} (h : Asc s) {m : Mem} {i nx : Nat} {hh : List (HEv ρ)} {x : Thread ρ}
    (hx : ∀ c ids got todo, x.pc = .lock c ids got todo → (got ++ todo).Pairwise (· < ·)) : Asc ⟨m, s.threads.set i x, nx, hh⟩ := by
  intro th hth
  rcases List.mem_or_eq_of_mem_set hth with h1 | rfl
  · exact h th h1
  · exact hx

theorem asc_step (P : Par) {s : Sys ρ} (h : Asc s) (ev : Nat × Act ρ) : Asc (step P s ev) := by
  unfold step
  split
  · exact h
  rename_i th hth
  have hmem := List.mem_of_getElem? hth
  dsimp only
  split <;> (try split) <;> first
    | exact h
    | (refine asc_set h ?_; intro c' ids' got' todo' he; cases he; done)
    | (refine asc_set h ?_; intro c' ids' got' todo' he; split at he <;> cases he; done)
    | skip
  · split <;> (refine asc_set h ?_; intro c' ids' got' todo' he; cases he)
  · refine asc_set h ?_
    intro c' ids' got' todo' he
    cases he
    exact lockOrder_sorted _
  · rename_i c ids got k todo _ _ _ hpc _ _
    refine asc_set h ?_
    intro c' ids' got' todo' he
    cases he
    have := h th hmem _ _ _ _ hpc
    simpa using this

theorem asc_run (P : Par) (t : State) (n : Nat) (es : List (Nat × Act ρ)) : Asc (run P t n es) := by
  have key : ∀ (es : List (Nat × Act ρ)) (s : Sys ρ), Asc s → Asc (es.foldl (step P) s) := by
    intro es
    induction es with
    | nil => exact fun s h => h
    | cons ev es ih => exact fun s h => ih _ (asc_step P h ev)
  refine key es _ fun th hth c ids got todo he => ?_
  have := List.eq_of_mem_replicate hth
  subst this
  cases he

/-- A thread cannot go on now: it waits for the lock of a leaf, or for the lock of the whole database. -/
def Stuck (s : Sys ρ) (i : Nat) : Prop :=
  ∃ th, s.threads[i]? = some th ∧
    ((∃ c ids got k todo, th.pc = .lock c ids got (k :: todo) ∧ canLock s.threads i k c.writable = false) ∨
      (∃ c, th.pc = .reorg c) ∧ s.threads.all (fun t => !t.pc.inside) = false)

/-- A thread that is not stuck goes on. -/
theorem goes_on {P : Par} {s : Sys ρ} {i : Nat} {th : Thread ρ} (hth : s.threads[i]? = some th) (hp : th.pc ≠ .idle) (hs : ¬ Stuck s i)
    (hf : (step P s (i, .go [])).mem.fault = false) : total (step P s (i, .go [])) < total s := by
  have hset : ∀ (m : Mem) (x : Thread ρ) (nx : Nat) (hh : List (HEv ρ)), rank x.pc < rank th.pc → total ⟨m, s.threads.set i x, nx, hh⟩ < total s :=
    fun m x nx hh hlt => LockOrder.sum_set_lt (fun t : Thread ρ => rank t.pc) hth hlt
  unfold step at hf ⊢
  simp only [hth] at hf ⊢
  cases hpc : th.pc with
  | idle => exact absurd hpc hp
  | begin c =>
    simp only
    split <;> (refine hset _ _ _ _ ?_; rw [hpc]; simp only [rank]; omega)
  | reorg c =>
    simp only
    split
    · refine hset _ _ _ _ ?_; rw [hpc]; simp only [rank]; omega
    · rename_i hall
      exact absurd ⟨th, hth, .inr ⟨⟨c, hpc⟩, by simpa using hall⟩⟩ hs
  | enter c =>
    refine hset _ _ _ _ ?_; rw [hpc]; simp only [rank, List.length_map, List.length_nil]; omega
  | search c ids todo =>
    cases todo with
    | nil =>
      refine hset _ _ _ _ ?_; rw [hpc]
      have := lockOrder_length ids
      simp only [rank, List.length_nil]; omega
    | cons k todo =>
      rw [hpc] at hf
      simp only at hf ⊢
      split
      · rename_i hsr; rw [hsr] at hf; cases hf
      · split <;> (refine hset _ _ _ _ ?_; rw [hpc]; simp only [rank, List.length_cons, List.length_append, List.length_nil]; omega)
  | load c ids id todo =>
    rw [hpc] at hf
    simp only at hf ⊢
    split
    · rename_i hsr; rw [hsr] at hf; cases hf
    · refine hset _ _ _ _ ?_; rw [hpc]; simp only [rank]; omega
  | add c ids id page todo =>
    simp only
    split <;> (refine hset _ _ _ _ ?_; rw [hpc]; simp only [rank, List.length_append, List.length_cons, List.length_nil]; omega)
  | lock c ids got todo =>
    cases todo with
    | nil => refine hset _ _ _ _ ?_; rw [hpc]; simp only [rank, List.length_nil]; omega
    | cons k todo =>
      simp only
      split
      · refine hset _ _ _ _ ?_; rw [hpc]; simp only [rank, List.length_append, List.length_cons, List.length_nil]; omega
      · rename_i hl
        exact absurd ⟨th, hth, .inl ⟨c, ids, got, k, todo, hpc, by simpa using hl⟩⟩ hs
  | body c ids h jobs rest r =>
    have hend : rank (Pc.unlock c ids h r) < rank th.pc := by rw [hpc]; simp only [rank]; omega
    cases jobs with
    | nil => exact hset _ _ _ _ hend
    | cons id jobs =>
      cases rest with
      | nil => exact hset _ _ _ _ hend
      | cons kp rest =>
        rw [hpc] at hf
        simp only at hf ⊢
        split
        · rename_i hw; rw [hw] at hf; cases hf
        · refine hset _ _ _ _ ?_; rw [hpc]; simp only [rank, List.length_cons]; omega
  | unlock c ids h r =>
    cases h with
    | nil => refine hset _ _ _ _ ?_; rw [hpc]; simp only [rank, List.length_nil]; omega
    | cons k h => refine hset _ _ _ _ ?_; rw [hpc]; simp only [rank, List.length_dropLast, List.length_cons]; omega
  | leave c ids r => refine hset _ _ _ _ ?_; rw [hpc]; simp only [rank]; omega

theorem canLock_false {ts : List (Thread ρ)} {i k : Nat} {w : Bool} (h : canLock ts i k w = false) : ∃ (j : Nat) (th : Thread ρ), ts[j]? = some th ∧ k ∈ th.pc.held := by
  unfold canLock at h
  rw [List.all_eq_false] at h
  obtain ⟨j, _, hj⟩ := h
  cases hth : ts[j]? with
  | none => rw [hth] at hj; exact absurd rfl hj
  | some th =>
    rw [hth] at hj
    refine ⟨j, th, hth, ?_⟩
    simp only [Bool.or_eq_true, not_or, Bool.not_eq_true] at hj
    simpa using hj.1.2

/-- Not all threads that are under way are stuck. -/
theorem exists_going {s : Sys ρ} (ha : Asc s) {i0 : Nat} {th0 : Thread ρ} (h0 : s.threads[i0]? = some th0) (hp : th0.pc ≠ .idle) :
    ∃ (i : Nat) (th : Thread ρ), s.threads[i]? = some th ∧ th.pc ≠ .idle ∧ ¬ Stuck s i := by
  by_cases hall : s.threads.all (fun t => !t.pc.inside) = true
  · refine ⟨i0, th0, h0, hp, ?_⟩
    rintro ⟨th, h1, h2⟩
    rw [h0] at h1; cases h1
    rcases h2 with ⟨c, ids, got, k, todo, hpc, _⟩ | ⟨_, hf⟩
    · have := List.all_eq_true.1 hall th0 (List.mem_of_getElem? h0)
      rw [hpc] at this; cases this
    · rw [hall] at hf; cases hf
  · simp only [Bool.not_eq_true, List.all_eq_false, Bool.not_eq_false'] at hall
    obtain ⟨th1, hm1, hin⟩ := hall
    have hin : th1.pc.inside = true := by simpa using hin
    obtain ⟨i1, h1⟩ := List.getElem?_of_mem hm1
    by_cases hst : Stuck s i1
    · -- it waits for a thread that has a leaf locked
      obtain ⟨th, h2, h3⟩ := hst
      rw [h1] at h2; cases h2
      rcases h3 with ⟨c, ids, got, k, todo, hpc, hl⟩ | ⟨⟨c, hpc⟩, _⟩
      · obtain ⟨j, thj, hj, hk⟩ := canLock_false hl
        obtain ⟨j', h4, h5, h6⟩ := LockOrder.exists_free (n := s.threads.length) (held := fun j => ((s.threads[j]?).map (·.pc.held)).getD [])
          (want := fun j => (s.threads[j]?).bind fun t => match t.pc with
            | .lock _ _ _ (k :: _) => some k
            | _ => none) (stuck := fun j => ∃ t c ids got k todo, s.threads[j]? = some t ∧ t.pc = .lock c ids got (k :: todo) ∧ canLock s.threads j k c.writable = false)
          (fun i k hik x hx => by
            obtain ⟨t, ht, hk⟩ := Option.bind_eq_some_iff.1 hik
            rw [ht] at hx
            simp only [Option.map_some, Option.getD_some] at hx
            split at hk
            · rename_i c ids got k' todo hpc
              cases hk
              have := ha t (List.mem_of_getElem? ht) _ _ _ _ hpc
              rw [hpc] at hx
              exact (List.pairwise_append.1 this).2.2 x hx k (List.mem_cons_self)
            · cases hk)
          (fun i _ ⟨t, c, ids, got, k, todo, h1, h2, h3⟩ => by
            obtain ⟨j, thj, hj, hk⟩ := canLock_false h3
            refine ⟨k, j, ?_, (List.getElem?_eq_some_iff.1 hj).1, ?_⟩
            · rw [h1]; simp only [Option.bind_some, h2]
            · rw [hj]; exact hk)
          (List.getElem?_eq_some_iff.1 hj).1 (by rw [hj]; exact List.ne_nil_of_mem hk)
        have hj' := List.getElem?_eq_getElem h4
        refine ⟨j', _, hj', ?_, ?_⟩
        · intro hid
          rw [hj'] at h5
          simp only [Option.map_some, Option.getD_some, hid] at h5
          exact h5 rfl
        · rintro ⟨t, h7, h8⟩
          rcases h8 with ⟨c, ids, got, k, todo, hpc, hl⟩ | ⟨⟨c, hpc⟩, _⟩
          · exact h6 ⟨t, c, ids, got, k, todo, h7, hpc, hl⟩
          · rw [h7] at h5
            simp only [Option.map_some, Option.getD_some, hpc] at h5
            exact h5 rfl
      · rw [hpc] at hin; cases hin
    · exact ⟨i1, th1, h1, (by intro hid; rw [hid] at hin; cases hin), hst⟩

theorem calm_snoc (P : Par) (es : List (Nat × Act ρ)) (i : Nat) : ∀ s : Sys ρ, Calm P s es → Calm P s (es ++ [(i, .go [])]) := by
  induction es with
  | nil => exact fun s _ => ⟨fun ids he id hid => by cases he; simp at hid, trivial⟩
  | cons ev es ih => exact fun s h => ⟨h.1, ih _ h.2⟩

/-- The calls under way can be brought to their end: after any schedule there are steps of the threads, with no new call, that end all calls. -/
def CanComplete (P : Par) (t : State) (n : Nat) (es : List (Nat × Act ρ)) : Prop :=
  ∃ goes : List Nat, Quiet (run P t n (es ++ goes.map fun i => (i, .go []))) ∧ goes.length ≤ total (run P t n es)

theorem can_complete {P : Par} {t : State} {n : Nat} (hf : ∀ es : List (Nat × Act ρ), (P.paged = true → Calm P (start t n) es) → (run P t n es).mem.fault = false) :
    ∀ (m : Nat) (es : List (Nat × Act ρ)), (P.paged = true → Calm P (start t n) es) → total (run P t n es) ≤ m → CanComplete P t n es := by
  intro m
  induction m with
  | zero =>
    intro es _ hm
    refine ⟨[], ?_, by simp⟩
    simp only [List.map_nil, List.append_nil]
    intro th hth
    have h0 : ∀ l : List Nat, l.sum ≤ 0 → ∀ x ∈ l, x = 0 := by
      intro l
      induction l with
      | nil => simp
      | cons a l ih =>
        intro h x hx
        simp only [List.sum_cons] at h
        rcases List.mem_cons.1 hx with rfl | hx
        · omega
        · exact ih (by omega) x hx
    have := h0 _ hm _ (List.mem_map_of_mem (f := fun th : Thread ρ => rank th.pc) hth)
    revert this
    cases th.pc <;> simp [rank] <;> omega
  | succ m ih =>
    intro es hc hm
    by_cases hq : Quiet (run P t n es)
    · exact ⟨[], by simpa using hq, by simp⟩
    · simp only [Quiet, Classical.not_forall] at hq
      obtain ⟨th, hth, hp⟩ := hq
      obtain ⟨i0, h0⟩ := List.getElem?_of_mem hth
      obtain ⟨i, th', h1, h2, h3⟩ := exists_going (asc_run P t n es) h0 hp
      have hc' : P.paged = true → Calm P (start t n) (es ++ [(i, .go [])]) := fun hp => calm_snoc P es i _ (hc hp)
      have hr : run P t n (es ++ [(i, .go [])]) = step P (run P t n es) (i, .go []) := by simp [run, List.foldl_append]
      have hlt := goes_on (P := P) h1 h2 h3 (by rw [← hr]; exact hf _ hc')
      obtain ⟨goes, h4, h5⟩ := ih (es ++ [(i, .go [])]) hc' (by rw [hr]; omega)
      refine ⟨i :: goes, ?_, ?_⟩
      · simpa using h4
      · rw [hr] at h5; simp only [List.length_cons]; omega

/-- C76 (BabyDBM): the calls do not block one another for ever: after any history of calls and then any schedule of any threads, there are steps of the
threads, with no new call, after which no call is under way. -/
theorem C76_baby_no_deadlock {lt : Bytes → Bytes → Bool} (hw : StrictWeak lt) (hi : ∀ a b, eqv lt a b = true → a = b) (pick : List (Nat × Bytes) → Nat) {ω : Type}
    (ops : List (OMap.Call ω)) (write : Bool) :
    ∃ t0 outs0, calls (babyCfg lt pick) true (init (babyCfg lt pick)) ops = some (t0, outs0) ∧
      ∀ (n : Nat) (es : List (Nat × Act ρ)), CanComplete ⟨babyCfg lt pick, false, write⟩ t0 n es := by
  obtain ⟨t0, outs0, u0, h1, _, _, h4⟩ := C76_baby_linearizable (ρ := ρ) hw hi pick ops write
  exact ⟨t0, outs0, h1, fun n es => can_complete (fun es _ => (h4 n es).1) _ es (by simp) (Nat.le_refl _)⟩

/-- C76 (TreeDBM, in part): the same for TreeDBM under the condition of `C76_tree_linearizable_partial`. -/
theorem C76_tree_no_deadlock_partial {lt : Bytes → Bytes → Bool} (hw : StrictWeak lt) (hi : ∀ a b, eqv lt a b = true → a = b) (maxPage branch : Nat)
    (pick : List (Nat × Bytes) → Nat) {ω : Type} (ops : List (OMap.Call ω)) (write : Bool) :
    ∃ t0 outs0, calls (treeCfg lt maxPage branch pick) false (init (treeCfg lt maxPage branch pick)) ops = some (t0, outs0) ∧
      ∀ (n : Nat) (es : List (Nat × Act ρ)), Calm ⟨treeCfg lt maxPage branch pick, true, write⟩ (start t0 n) es →
        CanComplete ⟨treeCfg lt maxPage branch pick, true, write⟩ t0 n es := by
  obtain ⟨t0, outs0, u0, h1, _, _, h4⟩ := C76_tree_linearizable_partial (ρ := ρ) hw hi maxPage branch pick ops write
  exact ⟨t0, outs0, h1, fun n es hc => can_complete (fun es h => (h4 n es (h rfl)).1) _ es (fun _ => hc) (Nat.le_refl _)⟩

end
end Verif.BTree.Conc
