import Verif.Shard.Nested
import Verif.Dbm.TwoPhaseProof
/-
The calls of `Nested` on a dictionary: the order in which their outcomes are settled explains them.
-/
namespace Verif.Shard.Nested
open Verif Verif.Api Verif.Linear

section
variable {τ : Type}

/-- The shards as one dictionary. -/
def dictImpl : DbmImpl Dict := ⟨fun d k w p => d.process k w p, fun d l w r => d.processMulti l w r⟩

/-- What is left to do, done at once. -/
def fin (w : Bool) : List (Instr τ) → Dict × Out τ → Dict × Out τ
  | [], x => x
  | .change k v :: u, (d, o) => fin w u ((d.process k w (changes v)).1, o)
  | .proc k p :: u, (d, _) => fin w u ((d.process k w p).1, .one (d.process k w p).2)
  | .lock _ :: u, x => fin w u x
  | .unlock _ :: u, x => fin w u x
  | .check _ _ :: u, x => fin w u x

/-- The locks that what is left to do needs are there as long as it needs them, and all are given up. -/
def UpOk (S : Bytes → Nat) : List Nat → List (Instr τ) → Prop
  | h, [] => h = []
  | h, .change k _ :: u => S k ∈ h ∧ UpOk S h u
  | h, .proc k _ :: u => S k ∈ h ∧ UpOk S h u
  | h, .unlock s :: u => UpOk S (h.filter fun x => x ≠ s) u
  | _, .lock _ :: _ => False
  | _, .check _ _ :: _ => False

/-- The same before the outcome is settled; `up` is done after it, and the records of the keys `chk` have been checked. A lock is greater
than those that the call has. -/
def DownOk (S : Bytes → Nat) (up : List (Instr τ)) : List Nat → List (Bytes × Arg) → List (Instr τ) → Prop
  | h, _, [] => UpOk S h up
  | h, c, .lock s :: d => (∀ x ∈ h, x < s) ∧ DownOk S up (h ++ [s]) c d
  | h, c, .unlock s :: d => (∀ kv ∈ c, S kv.1 ≠ s) ∧ DownOk S up (h.filter fun x => x ≠ s) c d
  | h, c, .check k e :: d => S k ∈ h ∧ DownOk S up h (c ++ [(k, e)]) d
  | _, _, .change _ _ :: _ => False
  | _, _, .proc _ _ :: _ => False

/-- The records that are checked. -/
def checksIn : List (Instr τ) → List (Bytes × Arg)
  | [] => []
  | .check k e :: d => (k, e) :: checksIn d
  | _ :: d => checksIn d

theorem process_other (d : Dict) {α : Type} (k : Bytes) (w : Bool) (p : ProcR α) {k' : Bytes} (h : k' ≠ k) : (d.process k w p).1 k' = d k' := by
  unfold Dict.process
  cases w with
  | false => rfl
  | true =>
    simp only [if_true]
    cases (p (d k)).1 <;> simp [Dict.act, Dict.upd, h]

theorem process_ro (d : Dict) {α : Type} (k : Bytes) (p : ProcR α) : (d.process k false p).1 = d := rfl

theorem process_congr {d d' : Dict} {α : Type} {k : Bytes} (w : Bool) (p : ProcR α) (h : d k = d' k) :
    (d.process k w p).2 = (d'.process k w p).2 ∧ ∀ k', d k' = d' k' → (d.process k w p).1 k' = (d'.process k w p).1 k' := by
  refine ⟨by simp only [Dict.process, h], fun k' h' => ?_⟩
  unfold Dict.process
  cases w with
  | false => exact h'
  | true =>
    simp only [if_true, h]
    cases (p (d' k)).1 <;> simp only [Dict.act, Dict.upd]
    · exact h'
    · split
      · rfl
      · exact h'
    · split
      · rfl
      · exact h'

theorem fin_ro (u : List (Instr τ)) : ∀ d o, (fin false u (d, o)).1 = d := by
  induction u with
  | nil => intro d o; rfl
  | cons i u ih =>
    intro d o
    cases i <;> simp only [fin] <;> exact ih _ _

theorem fin_out {S : Bytes → Nat} (w : Bool) (u : List (Instr τ)) : ∀ h d o, UpOk S h u → ∀ k, S k ∉ h → (fin w u (d, o)).1 k = d k := by
  induction u with
  | nil => intro h d o _ k _; rfl
  | cons i u ih =>
    intro h d o hu k hk
    cases i with
    | lock s => exact hu.elim
    | check k e => exact hu.elim
    | unlock s => exact ih _ d o hu k fun h' => hk (List.mem_filter.1 h').1
    | change k' v =>
      refine (ih _ _ o hu.2 k hk).trans (process_other _ _ _ _ fun e => hk ?_)
      rw [e]; exact hu.1
    | proc k' p =>
      refine (ih _ _ _ hu.2 k hk).trans (process_other _ _ _ _ fun e => hk ?_)
      rw [e]; exact hu.1

theorem fin_local {S : Bytes → Nat} (w : Bool) (u : List (Instr τ)) : ∀ h d d' o, UpOk S h u → (∀ k, S k ∈ h → d k = d' k) →
    (fin w u (d, o)).2 = (fin w u (d', o)).2 ∧ ∀ k, S k ∈ h → (fin w u (d, o)).1 k = (fin w u (d', o)).1 k := by
  induction u with
  | nil => intro h d d' o _ he; exact ⟨rfl, he⟩
  | cons i u ih =>
    intro h d d' o hu he
    cases i with
    | lock s => exact hu.elim
    | check k e => exact hu.elim
    | unlock s =>
      have := ih _ d d' o hu fun k hk => he k (List.mem_filter.1 hk).1
      refine ⟨this.1, fun k hk => ?_⟩
      by_cases hs : S k = s
      · have hn : S k ∉ h.filter fun x => x ≠ s := by simp [hs]
        exact ((fin_out w u _ d o hu k hn).trans (he k hk)).trans (fin_out w u _ d' o hu k hn).symm
      · exact this.2 k (by simp [hk, hs])
    | change k' v =>
      exact ih _ _ _ o hu.2 fun k hk => (process_congr w _ (he k' hu.1)).2 k (he k hk)
    | proc k' p =>
      have h2 := process_congr w p (he k' hu.1)
      simp only [fin, h2.1]
      exact ih _ _ _ _ hu.2 fun k hk => h2.2 k (he k hk)

theorem checks_true (e : Arg) (o : Option Bytes) : (checks e o).2 = true ↔ Meets e o := by
  cases o <;> cases e <;> simp [checks, Meets]
  exact ⟨fun h => h.symm, fun h => h.symm⟩

theorem process_checks (d : Dict) (k : Bytes) (w : Bool) (e : Arg) : (d.process k w (checks e)).1 = d := by
  unfold Dict.process
  cases w with
  | false => rfl
  | true => cases hk : d k <;> cases e <;> simp [checks, Dict.act]

/-- The programs of a call keep to the locks and do what the call is to do. -/
structure ProgOk (S : Bytes → Nat) (op : Op τ) (dn up : List (Instr τ)) : Prop where
  locks : DownOk S up [] [] dn
  good : ∀ d : Dict, (∀ kv ∈ checksIn dn, Meets kv.2 (d kv.1)) → Does d op (fin op.writable up (d, op.start)).1 (fin op.writable up (d, op.start)).2
  fails : ∀ d : Dict, ∀ kv ∈ checksIn dn, ¬ Meets kv.2 (d kv.1) → Does d op d (.cex .infeasible)

variable {S : Bytes → Nat} {C : Cfg}

def ThOk (S : Bytes → Nat) (C : Cfg) (m : Dict) (hist : List (HEv (Op τ) (Out τ))) (ord : List (Nat × Op τ × Out τ)) (th : Thread τ) : Prop :=
  match th.pc with
  | .idle => True
  | .down op h todo => HEv.inv th.id op ∈ hist ∧ th.id ∉ ord.map (·.1) ∧ ∃ c, DownOk S (upProg C op) h c todo ∧
      checksIn (downProg C op) = c ++ checksIn todo ∧ ∀ kv ∈ c, S kv.1 ∈ h ∧ Meets kv.2 (m kv.1)
  | .up op h todo out => UpOk S h todo ∧ (th.id, op, (fin op.writable todo (m, out)).2) ∈ ord

def active : Pc τ → Bool
  | .idle => false
  | _ => true

/-- The thread has still changes to make to the record. -/
def Owns (S : Bytes → Nat) (k : Bytes) : Pc τ → Prop
  | .up op h _ _ => op.writable = true ∧ S k ∈ h
  | _ => False

def Owed (S : Bytes → Nat) (m A : Dict) : Pc τ → Prop
  | .up op h todo out => op.writable = true → ∀ k, S k ∈ h → A k = (fin true todo (m, out)).1 k
  | _ => True

structure NInv (S : Bytes → Nat) (C : Cfg) (d0 : Dict) (s : Sys Dict τ) (ord : List (Nat × Op τ × Out τ)) (A : Dict) : Prop where
  ser : Serial Does d0 ord A
  exp : Explains ord s.hist
  thr : ∀ (i : Nat) (th : Thread τ), s.threads[i]? = some th → ThOk S C s.mem s.hist ord th
  lt : ∀ (i : Nat) (th : Thread τ), s.threads[i]? = some th → active th.pc = true → th.id < s.next
  ids : ∀ (i j : Nat) (th th' : Thread τ), s.threads[i]? = some th → s.threads[j]? = some th' → i ≠ j → active th.pc = true →
    active th'.pc = true → th.id ≠ th'.id
  excl : ∀ (i j : Nat) (th th' : Thread τ) (k : Nat), s.threads[i]? = some th → s.threads[j]? = some th' → i ≠ j → k ∈ held th.pc →
    k ∈ held th'.pc → writer th.pc = false ∧ writer th'.pc = false
  free : ∀ k, (∀ (j : Nat) (th : Thread τ), s.threads[j]? = some th → ¬ Owns S k th.pc) → s.mem k = A k
  own : ∀ (j : Nat) (th : Thread τ), s.threads[j]? = some th → Owed S s.mem A th.pc
  ordLt : ∀ x ∈ ord, x.1 < s.next

theorem start_inv (S : Bytes → Nat) (C : Cfg) (d : Dict) (n : Nat) : NInv S C d (start (τ := τ) d n) [] d := by
  have hidle : ∀ (i : Nat) (th : Thread τ), (start (τ := τ) d n).threads[i]? = some th → th.pc = .idle := by
    intro i th h
    have := List.eq_of_mem_replicate (List.mem_of_getElem? h)
    rw [this]
  refine ⟨rfl, ⟨by simp, by simp, fun id r h => ?_, fun o1 x o2 h => by simp at h⟩, ?_, ?_, ?_, ?_, fun k _ => rfl, ?_, by simp⟩
  · cases h
  · intro i th h; simp only [ThOk, hidle i th h]
  · intro i th h ha; rw [hidle i th h] at ha; cases ha
  · intro i j th th' h _ _ ha; rw [hidle i th h] at ha; cases ha
  · intro i j th th' k h _ _ hk; rw [hidle i th h] at hk; cases hk
  · intro j th h; simp only [Owed, hidle j th h]

/-- One thread moves. -/
theorem NInv.update {d0 : Dict} {s : Sys Dict τ} {ord ord' : List (Nat × Op τ × Out τ)} {A A' : Dict} (h : NInv S C d0 s ord A) {t : Nat} {th : Thread τ}
    (ht : s.threads[t]? = some th) (m' : Dict) (pc' : Pc τ) (id' next' : Nat) (hist' : List (HEv (Op τ) (Out τ)))
    (ser : Serial Does d0 ord' A') (exp : Explains ord' hist') (self : ThOk S C m' hist' ord' ⟨id', pc'⟩)
    (others : ∀ (j : Nat) (x : Thread τ), j ≠ t → s.threads[j]? = some x → ThOk S C m' hist' ord' x)
    (hid : active pc' = true → id' < next' ∧ ∀ (j : Nat) (x : Thread τ), j ≠ t → s.threads[j]? = some x → active x.pc = true → id' ≠ x.id)
    (hn : s.next ≤ next')
    (hheld : ∀ k ∈ held pc', ∀ (j : Nat) (x : Thread τ), j ≠ t → s.threads[j]? = some x → k ∈ held x.pc → writer pc' = false ∧ writer x.pc = false)
    (free : ∀ k, ¬ Owns S k pc' → (∀ (j : Nat) (x : Thread τ), j ≠ t → s.threads[j]? = some x → ¬ Owns S k x.pc) → m' k = A' k)
    (own : Owed S m' A' pc') (ownO : ∀ (j : Nat) (x : Thread τ), j ≠ t → s.threads[j]? = some x → Owed S m' A' x.pc)
    (ordLt : ∀ x ∈ ord', x.1 < next') :
    NInv S C d0 { mem := m', threads := s.threads.set t ⟨id', pc'⟩, next := next', hist := hist' } ord' A' := by
  have hget : ∀ (j : Nat) (x : Thread τ), (s.threads.set t ⟨id', pc'⟩)[j]? = some x → (j = t ∧ x = ⟨id', pc'⟩) ∨ (j ≠ t ∧ s.threads[j]? = some x) := by
    intro j x hj
    rw [TwoPhase.get_set ht] at hj
    split at hj
    · cases hj; exact .inl ⟨‹_›, rfl⟩
    · exact .inr ⟨‹_›, hj⟩
  refine ⟨ser, exp, ?_, ?_, ?_, ?_, ?_, ?_, ordLt⟩
  · intro j x hj
    rcases hget j x hj with ⟨_, rfl⟩ | ⟨h1, h2⟩
    · exact self
    · exact others j x h1 h2
  · intro j x hj ha
    rcases hget j x hj with ⟨_, rfl⟩ | ⟨h1, h2⟩
    · exact (hid ha).1
    · exact Nat.lt_of_lt_of_le (h.lt j x h2 ha) hn
  · intro i j x y hi hj hne ax ay
    rcases hget i x hi with ⟨rfl, rfl⟩ | ⟨h1, h2⟩ <;> rcases hget j y hj with ⟨rfl, rfl⟩ | ⟨h3, h4⟩
    · exact absurd rfl hne
    · exact (hid ax).2 j y h3 h4 ay
    · exact ((hid ay).2 i x h1 h2 ax).symm
    · exact h.ids i j x y h2 h4 hne ax ay
  · intro i j x y k hi hj hne hx hy
    rcases hget i x hi with ⟨rfl, rfl⟩ | ⟨h1, h2⟩ <;> rcases hget j y hj with ⟨rfl, rfl⟩ | ⟨h3, h4⟩
    · exact absurd rfl hne
    · exact hheld k hx j y h3 h4 hy
    · exact (hheld k hy i x h1 h2 hx).symm
    · exact h.excl i j x y k h2 h4 hne hx hy
  · intro k hk
    refine free k ?_ fun j x h1 h2 => hk j x ?_
    · exact hk t ⟨id', pc'⟩ (by rw [TwoPhase.get_set ht, if_pos rfl])
    · rw [TwoPhase.get_set ht, if_neg h1]; exact h2
  · intro j x hj
    rcases hget j x hj with ⟨_, rfl⟩ | ⟨h1, h2⟩
    · exact own
    · exact ownO j x h1 h2

/-- A thread goes on and the records stay as they are; the order too. -/
theorem NInv.move {d0 : Dict} {s : Sys Dict τ} {ord : List (Nat × Op τ × Out τ)} {A : Dict} (h : NInv S C d0 s ord A) {t : Nat} {th : Thread τ}
    (ht : s.threads[t]? = some th) (pc' : Pc τ) (self : ThOk S C s.mem s.hist ord ⟨th.id, pc'⟩) (hact : active th.pc = true)
    (hheld : ∀ k ∈ held pc', ∀ (j : Nat) (x : Thread τ), j ≠ t → s.threads[j]? = some x → k ∈ held x.pc → writer pc' = false ∧ writer x.pc = false)
    (free : ∀ k, ¬ Owns S k pc' → (∀ (j : Nat) (x : Thread τ), j ≠ t → s.threads[j]? = some x → ¬ Owns S k x.pc) → s.mem k = A k)
    (own : Owed S s.mem A pc') : NInv S C d0 { s with threads := s.threads.set t ⟨th.id, pc'⟩ } ord A :=
  h.update ht s.mem pc' th.id s.next s.hist h.ser h.exp self (fun j x _ hj => h.thr j x hj)
    (fun _ => ⟨h.lt t th ht hact, fun j x hne hj ha => h.ids t j th x ht hj (Ne.symm hne) hact ha⟩) (Nat.le_refl _) hheld free own
    (fun j x _ hj => h.own j x hj) h.ordLt

theorem canLock_spec {ts : List (Thread τ)} {i k : Nat} {w : Bool} (h : canLock ts i k w = true) (j : Nat) (x : Thread τ) (hne : j ≠ i)
    (hj : ts[j]? = some x) (hk : k ∈ held x.pc) : w = false ∧ writer x.pc = false := by
  unfold canLock at h
  rw [List.all_eq_true] at h
  have := h j (List.mem_range.2 (List.getElem?_eq_some_iff.1 hj).1)
  rw [hj] at this
  simpa [hne, hk] using this

/-- The outcome of a call is settled. -/
theorem NInv.commit {d0 : Dict} {s : Sys Dict τ} {ord : List (Nat × Op τ × Out τ)} {A : Dict} (h : NInv S C d0 s ord A) {t : Nat} {th : Thread τ}
    (ht : s.threads[t]? = some th) {op : Op τ} {hl : List Nat} {todo : List (Instr τ)} (hpc : th.pc = .down op hl todo)
    (u : List (Instr τ)) (o : Out τ) (hu : UpOk S hl u)
    (hd : ∀ d : Dict, (∀ k, S k ∈ hl → d k = s.mem k) → Does d op (fin op.writable u (d, o)).1 (fin op.writable u (d, o)).2) :
    ∃ ord' A', NInv S C d0 { s with threads := s.threads.set t ⟨th.id, .up op hl u o⟩ } ord' A' := by
  have hact : active th.pc = true := by rw [hpc]; rfl
  have hth := h.thr t th ht
  simp only [ThOk, hpc] at hth
  obtain ⟨hinv, hnot, _⟩ := hth
  have hheld : held th.pc = hl := by rw [hpc]; rfl
  have hwr : writer th.pc = op.writable := by rw [hpc]; rfl
  -- no other thread with a lock of this call has changes to make
  have hclash : ∀ (j : Nat) (x : Thread τ), j ≠ t → s.threads[j]? = some x → ∀ k, S k ∈ hl → S k ∈ held x.pc → op.writable = false ∧ writer x.pc = false := by
    intro j x hne hj k hk hx
    have := h.excl t j th x (S k) ht hj (Ne.symm hne) (by rw [hheld]; exact hk) hx
    rwa [hwr] at this
  have hagree : ∀ k, S k ∈ hl → s.mem k = A k := by
    intro k hk
    refine h.free k fun j x hj ho => ?_
    by_cases hne : j = t
    · subst hne
      rw [ht] at hj
      cases hj
      rw [hpc] at ho
      exact ho
    · cases hx : x.pc with
      | idle => rw [hx] at ho; exact ho
      | down _ _ _ => rw [hx] at ho; exact ho
      | up op' h' todo' out' =>
        rw [hx] at ho
        have := (hclash j x hne hj k hk (by rw [hx]; exact ho.2)).2
        rw [hx] at this
        exact absurd (ho.1.symm.trans this) (by simp)
  have hloc := fin_local (S := S) op.writable u hl s.mem A o hu hagree
  have hA : ∀ k, S k ∉ hl ∨ op.writable = false → (fin op.writable u (A, o)).1 k = A k := by
    rintro k (hk | hk)
    · exact fin_out op.writable u hl A o hu k hk
    · rw [hk, fin_ro]
  refine ⟨ord ++ [(th.id, op, (fin op.writable u (s.mem, o)).2)], (fin op.writable u (A, o)).1, ?_⟩
  refine h.update ht s.mem (.up op hl u o) th.id s.next s.hist ?_ ?_ ?_ ?_ ?_ (Nat.le_refl _) ?_ ?_ ?_ ?_ ?_
  · refine h.ser.snoc th.id ?_
    rw [hloc.1]
    exact hd A fun k hk => (hagree k hk).symm
  · exact h.exp.commit _ _ _ hnot hinv
  · exact ⟨hu, by simp⟩
  · intro j x hne hj
    have hx := h.thr j x hj
    unfold ThOk at hx ⊢
    split
    · trivial
    · rename_i op' h' todo' hp
      rw [hp] at hx
      refine ⟨hx.1, fun hm => ?_, hx.2.2⟩
      rw [List.map_append, List.mem_append] at hm
      rcases hm with hm | hm
      · exact hx.2.1 hm
      · simp at hm
        exact h.ids t j th x ht hj (Ne.symm hne) hact (by rw [hp]; rfl) hm.symm
    · rename_i op' h' todo' out' hp
      rw [hp] at hx
      exact ⟨hx.1, List.mem_append_left _ hx.2⟩
  · exact fun _ => ⟨h.lt t th ht hact, fun j x hne hj ha => h.ids t j th x ht hj (Ne.symm hne) hact ha⟩
  · intro k hk j x hne hj hx
    have := h.excl t j th x k ht hj (Ne.symm hne) (by rw [hheld]; exact hk) hx
    rwa [hwr] at this
  · intro k h1 h2
    have h3 : S k ∉ hl ∨ op.writable = false := by
      by_cases hw : op.writable = true
      · exact .inl fun hk => h1 ⟨hw, hk⟩
      · exact .inr (by simpa using hw)
    rw [hA k h3]
    refine h.free k fun j x hj => ?_
    by_cases hne : j = t
    · subst hne
      rw [ht] at hj
      cases hj
      rw [hpc]
      exact fun h => h
    · exact h2 j x hne hj
  · intro hw k hk
    have := hloc.2 k hk
    rw [hw] at this ⊢
    exact this.symm
  · intro j x hne hj
    have hx := h.own j x hj
    unfold Owed at hx ⊢
    split
    · rename_i op' h' todo' out' hp
      rw [hp] at hx
      intro hw k hk
      rw [← hx hw k hk]
      refine hA k ?_
      by_cases hkl : S k ∈ hl
      · exact .inr (hclash j x hne hj k hkl (by rw [hp]; exact hk)).1
      · exact .inl hkl
    · trivial
  · intro x hx
    rcases List.mem_append.1 hx with hx | hx
    · exact h.ordLt x hx
    · simp at hx
      subst hx
      exact h.lt t th ht hact

/-- A thread changes a record of which it has the lock. -/
theorem NInv.act {d0 : Dict} {s : Sys Dict τ} {ord : List (Nat × Op τ × Out τ)} {A : Dict} (h : NInv S C d0 s ord A) {t : Nat} {th : Thread τ}
    (ht : s.threads[t]? = some th) {op : Op τ} {hl : List Nat} {i : Instr τ} {todo : List (Instr τ)} {out out' : Out τ}
    (hpc : th.pc = .up op hl (i :: todo) out) {α : Type} (k : Bytes) (p : ProcR α) (hk : S k ∈ hl) (hu : UpOk S hl todo)
    (hfin : fin op.writable (i :: todo) (s.mem, out) = fin op.writable todo ((s.mem.process k op.writable p).1, out')) :
    NInv S C d0 { s with mem := (s.mem.process k op.writable p).1, threads := s.threads.set t ⟨th.id, .up op hl todo out'⟩ } ord A := by
  have hact : active th.pc = true := by rw [hpc]; rfl
  have hheld : held th.pc = hl := by rw [hpc]; rfl
  have hwr : writer th.pc = op.writable := by rw [hpc]; rfl
  have hth := h.thr t th ht
  simp only [ThOk, hpc] at hth
  have hothers : ∀ (j : Nat) (x : Thread τ), j ≠ t → s.threads[j]? = some x → ∀ k', S k' ∈ held x.pc → s.mem k' = (s.mem.process k op.writable p).1 k' := by
    intro j x hne hj k' hk'
    by_cases hkk : k' = k
    · subst hkk
      have := (h.excl t j th x (S k') ht hj (Ne.symm hne) (by rw [hheld]; exact hk) hk').1
      rw [hwr] at this
      rw [this]
      rfl
    · exact (process_other _ _ _ _ hkk).symm
  refine h.update ht (s.mem.process k op.writable p).1 (.up op hl todo out') th.id s.next s.hist h.ser h.exp ?_ ?_ ?_ (Nat.le_refl _) ?_ ?_ ?_ ?_ h.ordLt
  · exact ⟨hu, by rw [← hfin]; exact hth.2⟩
  · intro j x hne hj
    have hx := h.thr j x hj
    have hm := hothers j x hne hj
    unfold ThOk at hx ⊢
    split
    · trivial
    · rename_i op' h' todo' hp
      rw [hp] at hx hm
      obtain ⟨h1, h2, c, h3, h4, h5⟩ := hx
      refine ⟨h1, h2, c, h3, h4, fun kv hkv => ⟨(h5 kv hkv).1, ?_⟩⟩
      rw [← hm kv.1 (h5 kv hkv).1]
      exact (h5 kv hkv).2
    · rename_i op' h' todo' out'' hp
      rw [hp] at hx hm
      refine ⟨hx.1, ?_⟩
      rw [← (fin_local op'.writable todo' h' _ _ out'' hx.1 hm).1]
      exact hx.2
  · exact fun _ => ⟨h.lt t th ht hact, fun j x hne hj ha => h.ids t j th x ht hj (Ne.symm hne) hact ha⟩
  · intro k' hk' j x hne hj hx
    have := h.excl t j th x k' ht hj (Ne.symm hne) (by rw [hheld]; exact hk') hx
    rwa [hwr] at this
  · intro k' h1 h2
    have h3 : (s.mem.process k op.writable p).1 k' = s.mem k' := by
      by_cases hkk : k' = k
      · subst hkk
        by_cases hw : op.writable = true
        · exact absurd ⟨hw, hk⟩ h1
        · simp only [Bool.not_eq_true] at hw
          rw [hw]; rfl
      · exact process_other _ _ _ _ hkk
    rw [h3]
    refine h.free k' fun j x hj => ?_
    by_cases hne : j = t
    · subst hne
      rw [ht] at hj
      cases hj
      rw [hpc]
      exact h1
    · exact h2 j x hne hj
  · intro hw k' hk'
    have := h.own t th ht
    simp only [Owed, hpc] at this
    rw [this hw k' hk']
    rw [hw] at hfin
    rw [hfin, hw]
  · intro j x hne hj
    have hx := h.own j x hj
    have hm := hothers j x hne hj
    unfold Owed at hx ⊢
    split
    · rename_i op' h' todo' out'' hp
      rw [hp] at hx hm
      intro hw k' hk'
      rw [hx hw k' hk']
      have hok := h.thr j x hj
      simp only [ThOk, hp] at hok
      exact (fin_local true todo' h' _ _ out'' hok.1 hm).2 k' hk'
    · trivial

theorem step_inv (hS : ∀ op : Op τ, ProgOk S op (downProg C op) (upProg C op)) {d0 : Dict} {s : Sys Dict τ} {ord : List (Nat × Op τ × Out τ)} {A : Dict}
    (h : NInv S C d0 s ord A) (ev : Nat × Act τ) : ∃ ord' A', NInv S C d0 (step C dictImpl s ev) ord' A' := by
  obtain ⟨t, a⟩ := ev
  unfold step
  cases ht : s.threads[t]? with
  | none => exact ⟨ord, A, h⟩
  | some th =>
  simp only
  have hth := h.thr t th ht
  have hown := h.own t th ht
  have hex := h.excl t
  obtain ⟨id, pc⟩ := th
  cases pc with
  | idle =>
    cases a with
    | go => exact ⟨ord, A, h⟩
    | call op =>
      refine ⟨ord, A, ?_⟩
      refine h.update ht s.mem (.down op [] (downProg C op)) s.next (s.next + 1) (s.hist ++ [.inv s.next op]) h.ser ?_ ?_ ?_ ?_ (Nat.le_succ _) ?_ ?_ trivial
        (fun j x _ hj => h.own j x hj) (fun x hx => Nat.lt_succ_of_lt (h.ordLt x hx))
      · refine h.exp.inv _ _ fun hm => ?_
        obtain ⟨x, hx, e⟩ := List.mem_map.1 hm
        have := h.ordLt x hx
        omega
      · refine ⟨by simp, fun hm => ?_, [], (hS op).locks, rfl, by simp⟩
        obtain ⟨x, hx, e⟩ := List.mem_map.1 hm
        have := h.ordLt x hx
        simp only at e
        omega
      · intro j x _ hj
        have hx := h.thr j x hj
        unfold ThOk at hx ⊢
        split
        · trivial
        · rename_i hp
          rw [hp] at hx
          exact ⟨List.mem_append_left _ hx.1, hx.2⟩
        · rename_i hp
          rw [hp] at hx
          exact hx
      · intro _
        refine ⟨Nat.lt_succ_self _, fun j x _ hj ha => ?_⟩
        have := h.lt j x hj ha
        omega
      · intro k hk; cases hk
      · intro k _ h2
        refine h.free k fun j x hj => ?_
        by_cases hne : j = t
        · subst hne
          rw [ht] at hj
          cases hj
          exact fun h => h
        · exact h2 j x hne hj
  | down op hl todo =>
    simp only [ThOk] at hth
    have hstay : ∀ k ∈ hl, ∀ (j : Nat) (x : Thread τ), j ≠ t → s.threads[j]? = some x → k ∈ held x.pc → op.writable = false ∧ writer x.pc = false :=
      fun k hk j x hne hj hx => hex j _ x k ht hj (Ne.symm hne) hk hx
    have hfree : ∀ k, ¬ Owns (τ := τ) S k .idle → (∀ (j : Nat) (x : Thread τ), j ≠ t → s.threads[j]? = some x → ¬ Owns S k x.pc) → s.mem k = A k := by
      intro k _ h2
      refine h.free k fun j x hj => ?_
      by_cases hne : j = t
      · subst hne
        rw [ht] at hj
        cases hj
        exact fun h => h
      · exact h2 j x hne hj
    obtain ⟨hinv, hnot, c, hdn, hch, hmt⟩ := hth
    cases a with
    | call op' => cases todo with
      | nil => exact ⟨ord, A, h⟩
      | cons i todo => cases i <;> exact ⟨ord, A, h⟩
    | go =>
      cases todo with
      | nil =>
        refine h.commit ht rfl (upProg C op) op.start hdn fun d hd => (hS op).good d fun kv hkv => ?_
        rw [hch] at hkv
        simp only [checksIn, List.append_nil] at hkv
        rw [hd kv.1 (hmt kv hkv).1]
        exact (hmt kv hkv).2
      | cons i todo =>
        cases i with
        | change k v => exact hdn.elim
        | proc k p => exact hdn.elim
        | lock k =>
          simp only
          split
          · rename_i hc
            refine ⟨ord, A, h.move ht (.down op (hl ++ [k]) todo) ⟨hinv, hnot, c, hdn.2, hch, fun kv hkv => ⟨by simp [(hmt kv hkv).1], (hmt kv hkv).2⟩⟩ rfl ?_ hfree trivial⟩
            intro k' hk' j x hne hj hx
            rcases List.mem_append.1 hk' with hk' | hk'
            · exact hstay k' hk' j x hne hj hx
            · simp only [List.mem_singleton] at hk'
              subst hk'
              exact canLock_spec hc j x hne hj hx
          · exact ⟨ord, A, h⟩
        | unlock k =>
          refine ⟨ord, A, h.move ht (.down op (hl.filter fun x => x ≠ k) todo) ⟨hinv, hnot, c, hdn.2, hch, fun kv hkv => ⟨?_, (hmt kv hkv).2⟩⟩ rfl ?_ hfree trivial⟩
          · simp only [List.mem_filter, decide_eq_true_eq]
            exact ⟨(hmt kv hkv).1, hdn.1 kv hkv⟩
          · exact fun k' hk' => hstay k' (List.mem_filter.1 hk').1
        | check k e =>
          have hm : (dictImpl.process s.mem k op.writable (checks e)).1 = s.mem := process_checks _ _ _ _
          have hr : (dictImpl.process s.mem k op.writable (checks e)).2 = (checks e (s.mem k)).2 := rfl
          simp only
          rw [hm, hr]
          cases hq : (checks e (s.mem k)).2 with
          | true =>
            refine ⟨ord, A, h.move ht (.down op hl todo) ⟨hinv, hnot, c ++ [(k, e)], hdn.2, ?_, ?_⟩ rfl hstay hfree trivial⟩
            · rw [hch]; simp [checksIn]
            · intro kv hkv
              rcases List.mem_append.1 hkv with hkv | hkv
              · exact hmt kv hkv
              · simp only [List.mem_singleton] at hkv
                subst hkv
                exact ⟨hdn.1, (checks_true _ _).1 hq⟩
          | false =>
            have hun : ∀ (l h' : List Nat), (∀ x ∈ h', x ∈ l) → UpOk (τ := τ) S h' (l.map .unlock) := by
              intro l
              induction l with
              | nil => intro h' hh; exact List.eq_nil_iff_forall_not_mem.2 fun x hx => by cases hh x hx
              | cons y l ih =>
                intro h' hh
                refine ih _ fun x hx => ?_
                simp only [List.mem_filter, decide_eq_true_eq] at hx
                exact (List.mem_cons.1 (hh x hx.1)).resolve_left hx.2
            have hfin : ∀ (l : List Nat) (x : Dict × Out τ), fin op.writable (l.map .unlock) x = x := by
              intro l x
              induction l with
              | nil => rfl
              | cons y l ih => exact ih
            refine h.commit ht rfl (hl.reverse.map .unlock) (.cex .infeasible) (hun _ _ fun x hx => by simpa using hx) fun d hd => ?_
            rw [hfin]
            refine (hS op).fails d (k, e) ?_ ?_
            · rw [hch]; simp [checksIn]
            · rw [hd k hdn.1]
              intro hmm
              rw [(checks_true _ _).2 hmm] at hq
              cases hq
  | up op hl todo out =>
    simp only [ThOk] at hth
    cases a with
    | call op' => cases todo with
      | nil => cases hl <;> exact ⟨ord, A, h⟩
      | cons i todo => cases i <;> exact ⟨ord, A, h⟩
    | go =>
      cases todo with
      | nil =>
        have : hl = [] := hth.1
        subst this
        refine ⟨ord, A, ?_⟩
        refine h.update ht s.mem .idle id s.next (s.hist ++ [.ret id out]) h.ser (h.exp.ret _ _ _ hth.2) trivial ?_ (fun h => by cases h) (Nat.le_refl _)
          (fun k hk => by cases hk) ?_ trivial (fun j x _ hj => h.own j x hj) h.ordLt
        · intro j x _ hj
          have hx := h.thr j x hj
          unfold ThOk at hx ⊢
          split
          · trivial
          · rename_i hp
            rw [hp] at hx
            exact ⟨List.mem_append_left _ hx.1, hx.2⟩
          · rename_i hp
            rw [hp] at hx
            exact hx
        · intro k _ h2
          refine h.free k fun j x hj => ?_
          by_cases hne : j = t
          · subst hne
            rw [ht] at hj
            cases hj
            exact fun h => by cases h.2
          · exact h2 j x hne hj
      | cons i todo =>
        cases i with
        | lock k => exact hth.1.elim
        | check k e => exact hth.1.elim
        | change k v => exact ⟨ord, A, h.act ht rfl k (changes v) hth.1.1 hth.1.2 rfl⟩
        | proc k p => exact ⟨ord, A, h.act ht rfl k p hth.1.1 hth.1.2 rfl⟩
        | unlock k =>
          refine ⟨ord, A, h.move ht (.up op (hl.filter fun x => x ≠ k) todo out) ⟨hth.1, hth.2⟩ rfl ?_ ?_ ?_⟩
          · exact fun k' hk' j x hne hj hx => hex j _ x k' ht hj (Ne.symm hne) (List.mem_filter.1 hk').1 hx
          · intro k' h1 h2
            by_cases ho : Owns S k' (Pc.up op hl (.unlock k :: todo) out)
            · have hk' : S k' ∉ hl.filter fun x => x ≠ k := fun hm => h1 ⟨ho.1, hm⟩
              have := hown ho.1 k' ho.2
              rw [this]
              exact (fin_out true todo _ s.mem out hth.1 k' hk').symm
            · refine h.free k' fun j x hj => ?_
              by_cases hne : j = t
              · subst hne
                rw [ht] at hj
                cases hj
                exact ho
              · exact h2 j x hne hj
          · exact fun hw k' hk' => hown hw k' (List.mem_filter.1 hk').1

end

end Verif.Shard.Nested
