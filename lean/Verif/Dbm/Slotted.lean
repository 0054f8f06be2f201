import Verif.Dbm.TwoPhaseProof
import Verif.Dbm.LockOrder
/-
Concurrent calls of `Process` and `ProcessMulti` of a database whose records are in slots that have each an exclusive lock, which calls
that only read take too. Each processor call is one step on the slot of its key.
-/
namespace Verif.Slotted
open Verif
open Verif.TwoPhase (Call Pc Thread HEv Sys MMem Explains Precedes held active bodyHeld upd about about_append SP SerialR get_set start)

/-- A thread makes a call, or goes on. -/
inductive Act (ρ : Type) where
  | call (c : Call ρ)
  | go

/-- The slot of a key, and the slots that a call locks one after the other. -/
structure Slots (ρ : Type) where
  slot : Bytes → Nat
  order : Call ρ → List Nat

section
variable {R ρ : Type}

/-- Whether thread `i` can lock the slot `k`: no other thread has it. -/
def canTake (ts : List (Thread ρ Unit)) (i k : Nat) : Bool :=
  (List.range ts.length).all fun j => match ts[j]? with
    | some th => j = i || !((held th.pc).contains k)
    | none => true

/-- One step of one thread: `CacheDBMImpl::Process` and `ProcessMulti` (tkrzw_dbm_cache.cc 672-705) around `CacheSlot::ProcessImpl`, with
`CacheSlot::Lock` and `Unlock` (289-295) on a `SpinMutex` (tkrzw_thread_util.h 45-90). `op` is what `ProcessImpl` does with a slot; `none`
is an access to memory that is not there. -/
def step (X : Slots ρ) (op : R → Bytes → Bool → ProcR ρ → Option (R × ρ × List LogOp)) (s : Sys (MMem R) ρ Unit) (ev : Nat × Act ρ) :
    Sys (MMem R) ρ Unit :=
  match s.threads[ev.1]? with
  | none => s
  | some th =>
    match th.pc, ev.2 with
    | .idle, .call c =>
      { s with threads := s.threads.set ev.1 ⟨s.next, .locking c [] (X.order c)⟩, next := s.next + 1, hist := s.hist ++ [.inv s.next c] }
    | .locking c got (k :: todo), .go =>
      if canTake s.threads ev.1 k then { s with threads := s.threads.set ev.1 ⟨th.id, .locking c (got ++ [k]) todo⟩ } else s
    | .locking c got [], .go => { s with threads := s.threads.set ev.1 ⟨th.id, .body c got c.pairs c.init ()⟩ }
    | .body c h [] r _, .go => { s with threads := s.threads.set ev.1 ⟨th.id, .unlocking c h r⟩ }
    | .body c h ((k, p) :: rest) r _, .go =>
      match op (s.mem.reg (X.slot k)) k c.writable (p r) with
      | none => { s with mem := { s.mem with big := true } }
      | some y =>
        { s with mem := { s.mem with reg := upd s.mem.reg (X.slot k) y.1, log := s.mem.log ++ y.2.2 },
                 threads := s.threads.set ev.1 ⟨th.id, .body c h rest y.2.1 ()⟩ }
    | .unlocking c (k :: h) r, .go => { s with threads := s.threads.set ev.1 ⟨th.id, .unlocking c (k :: h).dropLast r⟩ }
    | .unlocking _ [] r, .go => { s with threads := s.threads.set ev.1 ⟨th.id, .idle⟩, hist := s.hist ++ [.ret th.id r] }
    | _, _ => s

/-- `n` threads on slots `A`. -/
def run (X : Slots ρ) (op : R → Bytes → Bool → ProcR ρ → Option (R × ρ × List LogOp)) (A : Nat → R) (n : Nat) (es : List (Nat × Act ρ)) :
    Sys (MMem R) ρ Unit := es.foldl (step X op) (start ⟨A, [], false⟩ n)

/-- The locks cover the keys of a call. -/
structure Slots.Ok (X : Slots ρ) : Prop where
  cover : ∀ c : Call ρ, ∀ kp ∈ c.pairs, X.slot kp.1 ∈ X.order c

/-- What is logged is about the key. -/
def Keyed (op : R → Bytes → Bool → ProcR ρ → Option (R × ρ × List LogOp)) : Prop :=
  ∀ x k w p y, op x k w p = some y → ∀ e ∈ y.2.2, TwoPhase.LogOp.key e = some k

variable {op : R → Bytes → Bool → ProcR ρ → Option (R × ρ × List LogOp)}

theorem SP_about_out {loc : Bytes → Nat} (ho : Keyed op) {A w r0 dn T r lg} (h : SP loc op A w r0 dn T r lg) (k : Bytes) (hk : ∀ kp ∈ dn, kp.1 ≠ k) :
    about k lg = [] := by
  induction h with
  | nil => rfl
  | @snoc dn T r lg k' p y _ h2 ih =>
    rw [about_append, ih fun kp h => hk kp (by simp [h])]
    have h1 := hk (k', p) (by simp)
    simp only [List.nil_append, about, List.filter_eq_nil_iff]
    intro e he
    rw [ho _ _ _ _ _ h2 e he]
    simpa using h1

/-- What holds of a thread. -/
def XThOk (X : Slots ρ) (op : R → Bytes → Bool → ProcR ρ → Option (R × ρ × List LogOp)) (m : MMem R) (hist : List (HEv ρ))
    (ord : List (Nat × Call ρ × ρ)) (A : Nat → R) (lgA : List LogOp) (th : Thread ρ Unit) : Prop :=
  match th.pc with
  | .idle => True
  | .locking c got todo => got ++ todo = X.order c ∧ HEv.inv th.id c ∈ hist ∧ th.id ∉ ord.map (·.1)
  | .body c h rest r _ => h = X.order c ∧ HEv.inv th.id c ∈ hist ∧ th.id ∉ ord.map (·.1) ∧
      ∃ dn T lg, c.pairs = dn ++ rest ∧ SP X.slot op A c.writable c.init dn T r lg ∧ (∀ i, i ∈ h → m.reg i = T i) ∧
        ∀ k, X.slot k ∈ h → about k m.log = about k lgA ++ about k lg
  | .unlocking c _ r => (th.id, c, r) ∈ ord

theorem XThOk.hist {X : Slots ρ} {m : MMem R} {hist : List (HEv ρ)} {ord : List (Nat × Call ρ × ρ)} {A : Nat → R} {lgA : List LogOp}
    {th : Thread ρ Unit} (h : XThOk X op m hist ord A lgA th) (e : List (HEv ρ)) : XThOk X op m (hist ++ e) ord A lgA th := by
  obtain ⟨id, pc⟩ := th
  cases pc with
  | idle => trivial
  | locking c got todo => exact ⟨h.1, List.mem_append_left _ h.2.1, h.2.2⟩
  | body c hd rest r x => exact ⟨h.1, List.mem_append_left _ h.2.1, h.2.2⟩
  | unlocking c hd r => exact h

structure XInv (X : Slots ρ) (op : R → Bytes → Bool → ProcR ρ → Option (R × ρ × List LogOp)) (A0 : Nat → R) (s : Sys (MMem R) ρ Unit)
    (ord : List (Nat × Call ρ × ρ)) (A : Nat → R) (lgA : List LogOp) : Prop where
  ser : SerialR X.slot op A0 ord A lgA
  thr : ∀ (i : Nat) (th : Thread ρ Unit), s.threads[i]? = some th → XThOk X op s.mem s.hist ord A lgA th
  lt : ∀ (i : Nat) (th : Thread ρ Unit), s.threads[i]? = some th → active th.pc = true → th.id < s.next
  ids : ∀ (i j : Nat) (th th' : Thread ρ Unit), s.threads[i]? = some th → s.threads[j]? = some th' → i ≠ j → active th.pc = true →
    active th'.pc = true → th.id ≠ th'.id
  excl : ∀ (i j : Nat) (th th' : Thread ρ Unit) (k : Nat), s.threads[i]? = some th → s.threads[j]? = some th' → i ≠ j → k ∈ held th.pc →
    k ∈ held th'.pc → False
  free : ∀ i, (∀ (j : Nat) (th : Thread ρ Unit), s.threads[j]? = some th → i ∉ bodyHeld th.pc) → s.mem.reg i = A i
  freeLog : ∀ k, (∀ (j : Nat) (th : Thread ρ Unit), s.threads[j]? = some th → X.slot k ∉ bodyHeld th.pc) →
    about k s.mem.log = about k lgA
  ordLt : ∀ x ∈ ord, x.1 < s.next
  histLt : ∀ id c, HEv.inv id c ∈ s.hist → id < s.next
  exp : Explains ord s.hist

theorem canTake_spec {ts : List (Thread ρ Unit)} {i k : Nat} (h : canTake ts i k = true) (j : Nat) (th : Thread ρ Unit)
    (hj : ts[j]? = some th) (hne : j ≠ i) (hk : k ∈ held th.pc) : False := by
  unfold canTake at h
  rw [List.all_eq_true] at h
  have hl : j < ts.length := by
    rcases Nat.lt_or_ge j ts.length with h' | h'
    · exact h'
    · rw [List.getElem?_eq_none h'] at hj; cases hj
  have := h j (List.mem_range.2 hl)
  rw [hj] at this
  simp [hne, hk] at this

theorem xinv_start (X : Slots ρ) (op : R → Bytes → Bool → ProcR ρ → Option (R × ρ × List LogOp)) (A0 : Nat → R) (n : Nat) :
    XInv X op A0 (start ⟨A0, [], false⟩ n) [] A0 [] := by
  have key : ∀ (i : Nat) (th : Thread ρ Unit), (List.replicate n (⟨0, .idle⟩ : Thread ρ Unit))[i]? = some th → th = ⟨0, .idle⟩ := by
    intro i th h
    exact List.eq_of_mem_replicate (List.mem_of_getElem? h)
  refine ⟨.nil, ?_, ?_, ?_, ?_, fun _ _ => rfl, fun _ _ => rfl, by simp, by simp [start], ⟨by simp, by simp, by simp [start], by simp⟩⟩
  · intro i th h; rw [key i th h]; trivial
  · intro i th h; rw [key i th h]; simp [active]
  · intro i j th th' h; rw [key i th h]; simp [active]
  · intro i j th th' k h; rw [key i th h]; simp [held]

/-- One step keeps the invariant. -/
theorem xinv_step {X : Slots ρ} (hX : X.Ok) (ho : Keyed op) {A0 : Nat → R} {s : Sys (MMem R) ρ Unit} {ord : List (Nat × Call ρ × ρ)}
    {A : Nat → R} {lgA : List LogOp} (hm : XInv X op A0 s ord A lgA) (ev : Nat × Act ρ)
    (hb : (step X op s ev).mem.big = false) :
    ∃ ord' A' lgA', XInv X op A0 (step X op s ev) ord' A' lgA' := by
  obtain ⟨t, act⟩ := ev
  cases hth : s.threads[t]? with
  | none => refine ⟨ord, A, lgA, ?_⟩; simp only [step, hth]; exact hm
  | some th =>
  obtain ⟨id, pc⟩ := th
  cases pc with
  | idle =>
    cases act with
    | go => refine ⟨ord, A, lgA, ?_⟩; simp only [step, hth]; exact hm
    | call c =>
      refine ⟨ord, A, lgA, ?_⟩
      simp only [step, hth]
      have hnew : s.next ∉ ord.map (·.1) := by
        intro h
        obtain ⟨x, hx, e⟩ := List.mem_map.1 h
        have := hm.ordLt x hx
        omega
      have g := fun j => get_set (b := (⟨s.next, .locking c [] (X.order c)⟩ : Thread ρ Unit)) hth j
      refine ⟨hm.ser, ?_, ?_, ?_, ?_, ?_, ?_, fun x hx => Nat.lt_succ_of_lt (hm.ordLt x hx), ?_, hm.exp.inv _ _ hnew⟩
      · intro i th h
        rw [g] at h
        split at h
        · injection h with h; subst h
          refine ⟨by simp, by simp, hnew⟩
        · exact (hm.thr i th h).hist _
      · intro i th h ha
        rw [g] at h
        split at h
        · injection h with h; subst h; simp
        · exact Nat.lt_succ_of_lt (hm.lt i th h ha)
      · intro i j th th' h h' hne ha ha'
        rw [g] at h h'
        split at h
        · injection h with h; subst h
          rw [if_neg (by omega)] at h'
          have := hm.lt j th' h' ha'
          simp only; omega
        · split at h'
          · injection h' with h'; subst h'
            have := hm.lt i th h ha
            simp only; omega
          · exact hm.ids i j th th' h h' hne ha ha'
      · intro i j th th' k h h' hne hk hk'
        rw [g] at h h'
        split at h
        · injection h with h; subst h; simp [held] at hk
        · split at h'
          · injection h' with h'; subst h'; simp [held] at hk'
          · exact hm.excl i j th th' k h h' hne hk hk'
      · intro i hf
        refine hm.free i fun j th h => ?_
        by_cases hj : j = t
        · subst hj; rw [hth] at h; injection h with h; subst h; simp [bodyHeld]
        · exact hf j th (by rw [g, if_neg hj]; exact h)
      · intro k hf
        refine hm.freeLog k fun j th h => ?_
        by_cases hj : j = t
        · subst hj; rw [hth] at h; injection h with h; subst h; simp [bodyHeld]
        · exact hf j th (by rw [g, if_neg hj]; exact h)
      · intro i c' h
        simp at h
        rcases h with h | ⟨rfl, _⟩
        · exact Nat.lt_succ_of_lt (hm.histLt i c' h)
        · simp
  | locking c got todo =>
    have ht := hm.thr t _ hth
    simp only [XThOk] at ht
    have hlt := hm.lt t _ hth rfl
    cases act with
    | call c' => refine ⟨ord, A, lgA, ?_⟩; simp only [step, hth]; exact hm
    | go =>
    cases todo with
    | cons k todo =>
      refine ⟨ord, A, lgA, ?_⟩
      simp only [step, hth]
      split
      case isFalse => exact hm
      case isTrue hc =>
      have g := fun j => get_set (b := (⟨id, .locking c (got ++ [k]) todo⟩ : Thread ρ Unit)) hth j
      refine ⟨hm.ser, ?_, ?_, ?_, ?_, ?_, ?_, hm.ordLt, hm.histLt, hm.exp⟩
      · intro i th h
        rw [g] at h
        split at h
        · injection h with h; subst h
          exact ⟨by rw [← ht.1]; simp, ht.2⟩
        · exact hm.thr i th h
      · intro i th h ha
        rw [g] at h
        split at h
        · injection h with h; subst h; exact hlt
        · exact hm.lt i th h ha
      · intro i j th th' h h' hne ha ha'
        rw [g] at h h'
        split at h
        · rename_i e
          injection h with h; subst h
          rw [if_neg (by omega)] at h'
          have z := hm.ids t j _ _ hth h' (by omega) rfl ha'; exact z
        · split at h'
          · rename_i e
            injection h' with h'; subst h'
            have z := hm.ids i t _ _ h hth (by omega) ha rfl; exact z
          · exact hm.ids i j th th' h h' hne ha ha'
      · intro i j th th' k' h h' hne hk hk'
        rw [g] at h h'
        split at h
        · rename_i e
          injection h with h; subst h
          rw [if_neg (by omega)] at h'
          simp only [held, List.mem_append, List.mem_singleton] at hk
          rcases hk with hk | rfl
          · have z := hm.excl t j _ _ k' hth h' (by omega) hk hk'; exact z
          · exact canTake_spec hc j th' h' (by omega) hk'
        · split at h'
          · rename_i e
            injection h' with h'; subst h'
            simp only [held, List.mem_append, List.mem_singleton] at hk'
            rcases hk' with hk' | rfl
            · have z := hm.excl i t _ _ k' h hth (by omega) hk hk'; exact z
            · exact canTake_spec hc i th h (by omega) hk
          · exact hm.excl i j th th' k' h h' hne hk hk'
      · intro i hf
        refine hm.free i fun j th h => ?_
        by_cases hj : j = t
        · subst hj; rw [hth] at h; injection h with h; subst h; simp [bodyHeld]
        · exact hf j th (by rw [g, if_neg hj]; exact h)
      · intro k hf
        refine hm.freeLog k fun j th h => ?_
        by_cases hj : j = t
        · subst hj; rw [hth] at h; injection h with h; subst h; simp [bodyHeld]
        · exact hf j th (by rw [g, if_neg hj]; exact h)
    | nil =>
      refine ⟨ord, A, lgA, ?_⟩
      simp only [step, hth]
      have e0 : got = X.order c := by rw [← ht.1]; simp
      have hgot : ∀ k, k ∈ X.order c → k ∈ got := fun k hk => by rw [e0]; exact hk
      have g := fun j => get_set (b := (⟨id, .body c got c.pairs c.init ()⟩ : Thread ρ Unit)) hth j
      have own : ∀ k, k ∈ X.order c → ∀ (j : Nat) (th : Thread ρ Unit), s.threads[j]? = some th → k ∉ bodyHeld th.pc := by
        intro k hk j th hj hkb
        have hne : j ≠ t := by
          rintro rfl
          rw [hth] at hj; injection hj with hj; subst hj; simp [bodyHeld] at hkb
        obtain ⟨id', pc'⟩ := th
        cases pc' <;> simp only [bodyHeld, List.not_mem_nil] at hkb
        exact hm.excl j t _ _ k hj hth hne hkb (hgot k hk)
      refine ⟨hm.ser, ?_, ?_, ?_, ?_, ?_, ?_, hm.ordLt, hm.histLt, hm.exp⟩
      · intro i th h
        rw [g] at h
        split at h
        · injection h with h; subst h
          refine ⟨e0, ht.2.1, ht.2.2, [], A, [], rfl, .nil, ?_, ?_⟩
          · intro i hi
            exact hm.free i (own i (by rw [← e0]; exact hi))
          · intro k hi
            rw [hm.freeLog k (own _ (by rw [← e0]; exact hi))]; simp [about]
        · exact hm.thr i th h
      · intro i th h ha
        rw [g] at h
        split at h
        · injection h with h; subst h; exact hlt
        · exact hm.lt i th h ha
      · intro i j th th' h h' hne ha ha'
        rw [g] at h h'
        split at h
        · rename_i e
          injection h with h; subst h
          rw [if_neg (by omega)] at h'
          have z := hm.ids t j _ _ hth h' (by omega) rfl ha'; exact z
        · split at h'
          · rename_i e
            injection h' with h'; subst h'
            have z := hm.ids i t _ _ h hth (by omega) ha rfl; exact z
          · exact hm.ids i j th th' h h' hne ha ha'
      · intro i j th th' k' h h' hne hk hk'
        rw [g] at h h'
        split at h
        · rename_i e
          injection h with h; subst h
          rw [if_neg (by omega)] at h'
          have z := hm.excl t j _ _ k' hth h' (by omega) hk hk'; exact z
        · split at h'
          · rename_i e
            injection h' with h'; subst h'
            have z := hm.excl i t _ _ k' h hth (by omega) hk hk'; exact z
          · exact hm.excl i j th th' k' h h' hne hk hk'
      · intro i hf
        refine hm.free i fun j th h => ?_
        by_cases hj : j = t
        · subst hj; rw [hth] at h; injection h with h; subst h; simp [bodyHeld]
        · exact hf j th (by rw [g, if_neg hj]; exact h)
      · intro k hf
        refine hm.freeLog k fun j th h => ?_
        by_cases hj : j = t
        · subst hj; rw [hth] at h; injection h with h; subst h; simp [bodyHeld]
        · exact hf j th (by rw [g, if_neg hj]; exact h)
  | unlocking c hd r =>
    have ht := hm.thr t _ hth
    simp only [XThOk] at ht
    have hlt := hm.lt t _ hth rfl
    refine ⟨ord, A, lgA, ?_⟩
    cases act with
    | call c' => simp only [step, hth]; exact hm
    | go =>
    cases hd with
    | cons k hd =>
      simp only [step, hth]
      have g := fun j => get_set (b := (⟨id, .unlocking c (k :: hd).dropLast r⟩ : Thread ρ Unit)) hth j
      have hsub : ∀ k', k' ∈ (k :: hd).dropLast → k' ∈ k :: hd := fun k' h => List.dropLast_subset _ h
      refine ⟨hm.ser, ?_, ?_, ?_, ?_, ?_, ?_, hm.ordLt, hm.histLt, hm.exp⟩
      · intro i th h
        rw [g] at h
        split at h
        · injection h with h; subst h; exact ht
        · exact hm.thr i th h
      · intro i th h ha
        rw [g] at h
        split at h
        · injection h with h; subst h; exact hlt
        · exact hm.lt i th h ha
      · intro i j th th' h h' hne ha ha'
        rw [g] at h h'
        split at h
        · rename_i e
          injection h with h; subst h
          rw [if_neg (by omega)] at h'
          have z := hm.ids t j _ _ hth h' (by omega) rfl ha'; exact z
        · split at h'
          · rename_i e
            injection h' with h'; subst h'
            have z := hm.ids i t _ _ h hth (by omega) ha rfl; exact z
          · exact hm.ids i j th th' h h' hne ha ha'
      · intro i j th th' k' h h' hne hk hk'
        rw [g] at h h'
        split at h
        · rename_i e
          injection h with h; subst h
          rw [if_neg (by omega)] at h'
          have z := hm.excl t j _ _ k' hth h' (by omega) (hsub k' hk) hk'; exact z
        · split at h'
          · rename_i e
            injection h' with h'; subst h'
            have z := hm.excl i t _ _ k' h hth (by omega) hk (hsub k' hk'); exact z
          · exact hm.excl i j th th' k' h h' hne hk hk'
      · intro i hf
        refine hm.free i fun j th h => ?_
        by_cases hj : j = t
        · subst hj; rw [hth] at h; injection h with h; subst h; simp [bodyHeld]
        · exact hf j th (by rw [g, if_neg hj]; exact h)
      · intro k hf
        refine hm.freeLog k fun j th h => ?_
        by_cases hj : j = t
        · subst hj; rw [hth] at h; injection h with h; subst h; simp [bodyHeld]
        · exact hf j th (by rw [g, if_neg hj]; exact h)
    | nil =>
      simp only [step, hth]
      have g := fun j => get_set (b := (⟨id, .idle⟩ : Thread ρ Unit)) hth j
      refine ⟨hm.ser, ?_, ?_, ?_, ?_, ?_, ?_, hm.ordLt, ?_, hm.exp.ret id c r ht⟩
      · intro i th h
        rw [g] at h
        split at h
        · injection h with h; subst h; trivial
        · exact (hm.thr i th h).hist _
      · intro i th h ha
        rw [g] at h
        split at h
        · injection h with h; subst h; simp [active] at ha
        · exact hm.lt i th h ha
      · intro i j th th' h h' hne ha ha'
        rw [g] at h h'
        split at h
        · injection h with h; subst h; simp [active] at ha
        · split at h'
          · injection h' with h'; subst h'; simp [active] at ha'
          · exact hm.ids i j th th' h h' hne ha ha'
      · intro i j th th' k' h h' hne hk hk'
        rw [g] at h h'
        split at h
        · injection h with h; subst h; simp [held] at hk
        · split at h'
          · injection h' with h'; subst h'; simp [held] at hk'
          · exact hm.excl i j th th' k' h h' hne hk hk'
      · intro i hf
        refine hm.free i fun j th h => ?_
        by_cases hj : j = t
        · subst hj; rw [hth] at h; injection h with h; subst h; simp [bodyHeld]
        · exact hf j th (by rw [g, if_neg hj]; exact h)
      · intro k hf
        refine hm.freeLog k fun j th h => ?_
        by_cases hj : j = t
        · subst hj; rw [hth] at h; injection h with h; subst h; simp [bodyHeld]
        · exact hf j th (by rw [g, if_neg hj]; exact h)
      · intro i c' h
        simp at h
        exact hm.histLt i c' h
  | body c hd rest r x =>
    have ht := hm.thr t _ hth
    simp only [XThOk] at ht
    obtain ⟨hhd, hinv, hno, dn, T, lg, hpairs, hsp, hreg, hlog⟩ := ht
    have hlt := hm.lt t _ hth rfl
    have cov : ∀ kp ∈ c.pairs, X.slot kp.1 ∈ hd := fun kp h => by rw [hhd]; exact hX.cover c kp h
    cases act with
    | call c' => refine ⟨ord, A, lgA, ?_⟩; simp only [step, hth]; exact hm
    | go =>
    cases rest with
    | nil =>
      have e : dn = c.pairs := by rw [hpairs]; simp
      subst e
      refine ⟨ord ++ [(id, c, r)], T, lgA ++ lg, ?_⟩
      simp only [step, hth]
      have g := fun j => get_set (b := (⟨id, .unlocking c hd r⟩ : Thread ρ Unit)) hth j
      -- the parts of other threads are as before
      have same : ∀ i, i ∉ hd → T i = A i := fun i hi => hsp.out i fun kp hk e => hi (e ▸ cov kp hk)
      have sameLog : ∀ k, X.slot k ∉ hd → about k lg = [] := fun k hi => SP_about_out ho hsp k fun kp hk e => hi (e ▸ cov kp hk)
      refine ⟨.snoc hm.ser hsp, ?_, ?_, ?_, ?_, ?_, ?_, ?_, hm.histLt, hm.exp.commit _ _ _ hno hinv⟩
      · intro i th h
        rw [g] at h
        split at h
        · injection h with h; subst h; simp [XThOk]
        · rename_i hne
          have h1 := hm.thr i th h
          have hid : active th.pc = true → th.id ≠ id := fun ha => hm.ids i t _ _ h hth hne ha rfl
          obtain ⟨id', pc'⟩ := th
          cases pc' with
          | idle => trivial
          | locking c' got todo =>
            simp only [XThOk] at h1 ⊢
            exact ⟨h1.1, h1.2.1, by simp [hid rfl]; simpa using h1.2.2⟩
          | unlocking c' h' r' =>
            simp only [XThOk] at h1 ⊢
            simp [h1]
          | body c' h' rest' r' x' =>
            simp only [XThOk] at h1 ⊢
            obtain ⟨a1, a2, a3, dn', T', lg', a4, a5, a6, a7⟩ := h1
            have apart : ∀ k, k ∈ h' → k ∉ hd := fun k hk hk' => hm.excl i t _ _ k h hth hne hk hk'
            have agree : ∀ i, i ∈ h' → T i = A i := fun i hi => same i (apart i hi)
            have agreeLog : ∀ k, X.slot k ∈ h' → about k lg = [] := fun k hk => sameLog k (apart _ hk)
            have cov' : ∀ kp ∈ dn', X.slot kp.1 ∈ h' := fun kp hk => by
              rw [a1]; exact hX.cover c' kp (by rw [a4]; simp [hk])
            obtain ⟨T'', b1, b2⟩ := a5.congr (A' := T) fun kp hk => agree _ (cov' kp hk)
            refine ⟨a1, a2, by simp [hid rfl]; simpa using a3, dn', T'', lg', a4, b1, fun i hi => ?_, fun k hk => ?_⟩
            · rw [a6 i hi, b2 i (agree i hi)]
            · rw [a7 k hk, about_append, agreeLog k hk]; simp
      · intro i th h ha
        rw [g] at h
        split at h
        · injection h with h; subst h; exact hlt
        · exact hm.lt i th h ha
      · intro i j th th' h h' hne ha ha'
        rw [g] at h h'
        split at h
        · rename_i e
          injection h with h; subst h
          rw [if_neg (by omega)] at h'
          have z := hm.ids t j _ _ hth h' (by omega) rfl ha'; exact z
        · split at h'
          · rename_i e
            injection h' with h'; subst h'
            have z := hm.ids i t _ _ h hth (by omega) ha rfl; exact z
          · exact hm.ids i j th th' h h' hne ha ha'
      · intro i j th th' k' h h' hne hk hk'
        rw [g] at h h'
        split at h
        · rename_i e
          injection h with h; subst h
          rw [if_neg (by omega)] at h'
          have z := hm.excl t j _ _ k' hth h' (by omega) hk hk'; exact z
        · split at h'
          · rename_i e
            injection h' with h'; subst h'
            have z := hm.excl i t _ _ k' h hth (by omega) hk hk'; exact z
          · exact hm.excl i j th th' k' h h' hne hk hk'
      · intro i hf
        by_cases hi : i ∈ hd
        · exact hreg i hi
        · rw [same i hi]
          refine hm.free i fun j th h => ?_
          by_cases hj : j = t
          · subst hj; rw [hth] at h; injection h with h; subst h; simpa [bodyHeld] using hi
          · exact hf j th (by rw [g, if_neg hj]; exact h)
      · intro k hf
        by_cases hi : X.slot k ∈ hd
        · rw [about_append]; exact hlog k hi
        · rw [about_append, sameLog k hi, List.append_nil]
          refine hm.freeLog k fun j th h => ?_
          by_cases hj : j = t
          · subst hj; rw [hth] at h; injection h with h; subst h; simpa [bodyHeld] using hi
          · exact hf j th (by rw [g, if_neg hj]; exact h)
      · intro y hy
        simp at hy
        rcases hy with hy | rfl
        · exact hm.ordLt y hy
        · exact hlt
    | cons kp rest =>
      obtain ⟨k, p⟩ := kp
      refine ⟨ord, A, lgA, ?_⟩
      have hk : X.slot k ∈ hd := cov (k, p) (by rw [hpairs]; simp)
      simp only [step, hth] at hb ⊢
      cases hop : op (s.mem.reg (X.slot k)) k c.writable (p r) with
      | none => rw [hop] at hb; simp at hb
      | some y =>
      simp only
      have g := fun j => get_set (b := (⟨id, .body c hd rest y.2.1 x⟩ : Thread ρ Unit)) hth j
      have others : ∀ (j : Nat) (th : Thread ρ Unit), s.threads[j]? = some th → j ≠ t → X.slot k ∉ held th.pc :=
        fun j th hj hne hk' => hm.excl j t _ _ _ hj hth hne hk' hk
      have ab : ∀ k', k' ≠ k → about k' y.2.2 = [] := by
        intro k' hne
        simp only [about, List.filter_eq_nil_iff]
        intro e he
        rw [ho _ _ _ _ _ hop e he]
        simpa using Ne.symm hne
      refine ⟨hm.ser, ?_, ?_, ?_, ?_, ?_, ?_, hm.ordLt, hm.histLt, hm.exp⟩
      · intro i th h
        rw [g] at h
        split at h
        · injection h with h; subst h
          have hT := hreg (X.slot k) hk
          rw [hT] at hop
          refine ⟨hhd, hinv, hno, dn ++ [(k, p)], _, _, by rw [hpairs]; simp, .snoc hsp hop, ?_, ?_⟩
          · intro i hi
            simp only [upd]
            split
            · rfl
            · exact hreg i hi
          · intro k' hk'
            rw [about_append, about_append, hlog k' hk', List.append_assoc]
        · rename_i hne
          have h1 := hm.thr i th h
          obtain ⟨id', pc'⟩ := th
          cases pc' with
          | idle => trivial
          | locking c' got todo => exact h1
          | unlocking c' h' r' => exact h1
          | body c' h' rest' r' x' =>
            simp only [XThOk] at h1 ⊢
            obtain ⟨a1, a2, a3, dn', T', lg', a4, a5, a6, a7⟩ := h1
            refine ⟨a1, a2, a3, dn', T', lg', a4, a5, fun i' hi => ?_, fun k' hk' => ?_⟩
            · rw [← a6 i' hi]
              simp only [upd]
              split
              · rename_i e
                rw [e] at hi ⊢
                exact absurd hi (others i _ h hne)
              · rfl
            · rw [about_append, ← a7 k' hk']
              by_cases hkk : k' = k
              · subst hkk; exact absurd hk' (others i _ h hne)
              · rw [ab k' hkk, List.append_nil]
      · intro i th h ha
        rw [g] at h
        split at h
        · injection h with h; subst h; exact hlt
        · exact hm.lt i th h ha
      · intro i j th th' h h' hne ha ha'
        rw [g] at h h'
        split at h
        · rename_i e
          injection h with h; subst h
          rw [if_neg (by omega)] at h'
          have z := hm.ids t j _ _ hth h' (by omega) rfl ha'; exact z
        · split at h'
          · rename_i e
            injection h' with h'; subst h'
            have z := hm.ids i t _ _ h hth (by omega) ha rfl; exact z
          · exact hm.ids i j th th' h h' hne ha ha'
      · intro i j th th' k' h h' hne hk hk'
        rw [g] at h h'
        split at h
        · rename_i e
          injection h with h; subst h
          rw [if_neg (by omega)] at h'
          have z := hm.excl t j _ _ k' hth h' (by omega) hk hk'; exact z
        · split at h'
          · rename_i e
            injection h' with h'; subst h'
            have z := hm.excl i t _ _ k' h hth (by omega) hk hk'; exact z
          · exact hm.excl i j th th' k' h h' hne hk hk'
      · intro i hf
        have hne : i ≠ X.slot k := by
          rintro rfl
          have := hf t _ (by rw [g, if_pos rfl])
          exact this hk
        simp only [upd, if_neg hne]
        refine hm.free i fun j th h => ?_
        by_cases hj : j = t
        · subst hj; rw [hth] at h; injection h with h; subst h
          exact hf j ⟨id, .body c hd rest y.2.1 x⟩ (by rw [g, if_pos rfl])
        · exact hf j th (by rw [g, if_neg hj]; exact h)
      · intro k' hf
        have hne : k' ≠ k := by
          rintro rfl
          have := hf t _ (by rw [g, if_pos rfl])
          exact this hk
        rw [about_append, ab k' hne, List.append_nil]
        refine hm.freeLog k' fun j th h => ?_
        by_cases hj : j = t
        · subst hj; rw [hth] at h; injection h with h; subst h
          exact hf j ⟨id, .body c hd rest y.2.1 x⟩ (by rw [g, if_pos rfl])
        · exact hf j th (by rw [g, if_neg hj]; exact h)

/-- The calls of a history are calls that were made. -/
theorem hist_called (X : Slots ρ) (op : R → Bytes → Bool → ProcR ρ → Option (R × ρ × List LogOp)) (es : List (Nat × Act ρ)) :
    ∀ s : Sys (MMem R) ρ Unit, ∀ id c, HEv.inv id c ∈ (es.foldl (step X op) s).hist → HEv.inv id c ∈ s.hist ∨ ∃ t, (t, Act.call c) ∈ es := by
  induction es with
  | nil => exact fun s id c h => .inl h
  | cons ev es ih =>
    intro s id c h
    rcases ih _ id c h with h1 | ⟨t, h1⟩
    · have key : HEv.inv id c ∈ s.hist ∨ ev.2 = .call c := by
        revert h1
        unfold step
        split
        · exact .inl
        split
        · rename_i c' _ hc
          intro h1
          simp only [List.mem_append, List.mem_singleton, HEv.inv.injEq] at h1
          rcases h1 with h1 | ⟨_, rfl⟩
          · exact .inl h1
          · exact .inr hc
        · split <;> exact .inl
        · exact .inl
        · exact .inl
        · split <;> exact .inl
        · exact .inl
        · intro h1
          simp only [List.mem_append, List.mem_singleton, reduceCtorEq, or_false] at h1
          exact .inl h1
        · exact .inl
      rcases key with h2 | h2
      · exact .inl h2
      · exact .inr ⟨ev.1, by rw [← h2]; exact List.mem_cons_self⟩
    · exact .inr ⟨t, List.mem_cons_of_mem _ h1⟩

/-! ### No circle of waiting threads -/

/-- SPECIFICATION: a thread cannot go on now: it waits for a slot that another thread has locked. -/
def Stuck (s : Sys (MMem R) ρ Unit) (i : Nat) : Prop :=
  ∃ th c got k todo, s.threads[i]? = some th ∧ th.pc = .locking c got (k :: todo) ∧ canTake s.threads i k = false

/-- SPECIFICATION: if any call is under way, some thread with a call under way can go on. -/
def NoDeadlock (s : Sys (MMem R) ρ Unit) : Prop :=
  (∃ th ∈ s.threads, th.pc ≠ .idle) → ∃ (i : Nat) (th : Thread ρ Unit), s.threads[i]? = some th ∧ th.pc ≠ .idle ∧ ¬ Stuck s i

/-- The slots that a thread is locking are in ascending order. -/
def Asc (ts : List (Thread ρ Unit)) : Prop := ∀ th ∈ ts, ∀ c got todo, th.pc = .locking c got todo → (got ++ todo).Pairwise (· < ·)

theorem asc_set {ts : List (Thread ρ Unit)} (h : Asc ts) {i : Nat} {x : Thread ρ Unit} (hx : ∀ c got todo, x.pc = .locking c got todo → (got ++ todo).Pairwise (· < ·)) :
    Asc (ts.set i x) := by
  intro th hth
  rcases List.mem_or_eq_of_mem_set hth with h1 | rfl
  · exact h th h1
  · exact hx

theorem asc_step {X : Slots ρ} (ho : ∀ c, (X.order c).Pairwise (· < ·)) {s : Sys (MMem R) ρ Unit} (h : Asc s.threads) (ev : Nat × Act ρ) :
    Asc (step X op s ev).threads := by
  unfold step
  split
  · exact h
  rename_i th hth
  have hmem := List.mem_of_getElem? hth
  split
  · rename_i c _ hc
    refine asc_set h fun c' got' todo' he => ?_
    cases he
    exact ho c
  · rename_i c got k todo _ hpc _
    split
    · refine asc_set h fun c' got' todo' he => ?_
      cases he
      have := h th hmem _ _ _ hpc
      simpa using this
    · exact h
  · exact asc_set h fun c' got' todo' he => by cases he
  · exact asc_set h fun c' got' todo' he => by cases he
  · split
    · exact h
    · exact asc_set h fun c' got' todo' he => by cases he
  · exact asc_set h fun c' got' todo' he => by cases he
  · exact asc_set h fun c' got' todo' he => by cases he
  · exact h

theorem asc_run {X : Slots ρ} (ho : ∀ c, (X.order c).Pairwise (· < ·)) (A : Nat → R) (n : Nat) (es : List (Nat × Act ρ)) :
    Asc (run X op A n es).threads := by
  have key : ∀ (es : List (Nat × Act ρ)) (s : Sys (MMem R) ρ Unit), Asc s.threads → Asc (es.foldl (step X op) s).threads := by
    intro es
    induction es with
    | nil => exact fun s h => h
    | cons ev es ih => exact fun s h => ih _ (asc_step ho h ev)
  refine key es _ fun th hth c got todo he => ?_
  have := List.eq_of_mem_replicate hth
  subst this
  cases he

theorem canTake_false {ts : List (Thread ρ Unit)} {i k : Nat} (h : canTake ts i k = false) :
    ∃ (j : Nat) (th : Thread ρ Unit), ts[j]? = some th ∧ k ∈ held th.pc := by
  unfold canTake at h
  rw [List.all_eq_false] at h
  obtain ⟨j, _, hj⟩ := h
  cases hth : ts[j]? with
  | none => rw [hth] at hj; exact absurd rfl hj
  | some th =>
    rw [hth] at hj
    refine ⟨j, th, hth, ?_⟩
    simp only [Bool.or_eq_true, not_or, Bool.not_eq_true] at hj
    simpa using hj.2

theorem no_deadlock {s : Sys (MMem R) ρ Unit} (ha : Asc s.threads) : NoDeadlock s := by
  rintro ⟨th1, hm1, hact⟩
  obtain ⟨i1, h1⟩ := List.getElem?_of_mem hm1
  by_cases hst : Stuck s i1
  · obtain ⟨th, c, got, k, todo, h2, hpc, hl⟩ := hst
    obtain ⟨j, thj, hj, hk⟩ := canTake_false hl
    obtain ⟨j', h4, h5, h6⟩ := LockOrder.exists_free (n := s.threads.length) (held := fun j => ((s.threads[j]?).map fun t => held t.pc).getD [])
      (want := fun j => (s.threads[j]?).bind fun t => match t.pc with
        | .locking _ _ (k :: _) => some k
        | _ => none) (stuck := Stuck s)
      (fun i k hik x hx => by
        obtain ⟨t, ht, hk⟩ := Option.bind_eq_some_iff.1 hik
        rw [ht] at hx
        simp only [Option.map_some, Option.getD_some] at hx
        split at hk
        · rename_i c got k' todo hpc
          cases hk
          have := ha t (List.mem_of_getElem? ht) _ _ _ hpc
          rw [hpc] at hx
          exact (List.pairwise_append.1 this).2.2 x hx k (List.mem_cons_self)
        · cases hk)
      (fun i _ ⟨t, c, got, k, todo, h1, h2, h3⟩ => by
        obtain ⟨j, thj, hj, hk⟩ := canTake_false h3
        refine ⟨k, j, ?_, (List.getElem?_eq_some_iff.1 hj).1, ?_⟩
        · rw [h1]; simp only [Option.bind_some, h2]
        · rw [hj]; exact hk)
      (List.getElem?_eq_some_iff.1 hj).1 (by rw [hj]; exact List.ne_nil_of_mem hk)
    have hj' := List.getElem?_eq_getElem h4
    refine ⟨j', _, hj', ?_, h6⟩
    intro hid
    rw [hj'] at h5
    simp only [Option.map_some, Option.getD_some, hid] at h5
    exact h5 rfl
  · exact ⟨i1, th1, h1, hact, hst⟩

end

end Verif.Slotted
