import Verif.Dbm.TwoPhase
/-
Two-phase locking gives serializability: if each processor call acts atomically on the part of the records its key is in, the calls have
the outcomes of some serial order that agrees with the history.
-/
namespace Verif.TwoPhase
open Verif

/-- The memory with one value for each part of the records, and the update log. -/
structure MMem (R : Type) where
  reg : Nat → R
  log : List LogOp
  big : Bool

def upd {R : Type} (A : Nat → R) (i : Nat) (x : R) : Nat → R := fun j => if j = i then x else A j

section
variable {R ρ : Type}

/-- Each processor call is one step on the part of its key. -/
def aBody (loc : Bytes → Nat) (op : R → Bytes → Bool → ProcR ρ → Option (R × ρ × List LogOp)) : Body (MMem R) ρ Unit Unit where
  start := ()
  done := fun rest _ => rest.isEmpty
  step := fun m _ w rest r x =>
    match rest with
    | [] => (m, rest, r, x)
    | (k, p) :: rest' =>
      match op (m.reg (loc k)) k w (p r) with
      | none => ({ m with big := true }, rest, r, x)
      | some y => ({ m with reg := upd m.reg (loc k) y.1, log := m.log ++ y.2.2 }, rest', y.2.1, x)

def LogOp.key : LogOp → Option Bytes
  | .set k _ => some k
  | .remove k => some k
  | .clear => none

/-- The part of a log that is about a key. -/
def about (k : Bytes) (l : List LogOp) : List LogOp := l.filter fun e => LogOp.key e = some k

theorem about_append (k : Bytes) (a b : List LogOp) : about k (a ++ b) = about k a ++ about k b := List.filter_append ..

structure OpOk (op : R → Bytes → Bool → ProcR ρ → Option (R × ρ × List LogOp)) : Prop where
  ro : ∀ x k p y, op x k false p = some y → y.1 = x ∧ y.2.2 = []
  keyed : ∀ x k w p y, op x k w p = some y → ∀ e ∈ y.2.2, LogOp.key e = some k

variable {loc : Bytes → Nat} {op : R → Bytes → Bool → ProcR ρ → Option (R × ρ × List LogOp)}

/-- Processors run one after the other. -/
inductive SP (loc : Bytes → Nat) (op : R → Bytes → Bool → ProcR ρ → Option (R × ρ × List LogOp)) (A : Nat → R) (w : Bool) (r0 : ρ) :
    List (Bytes × ProcS ρ) → (Nat → R) → ρ → List LogOp → Prop where
  | nil : SP loc op A w r0 [] A r0 []
  | snoc {dn T r lg k p y} : SP loc op A w r0 dn T r lg → op (T (loc k)) k w (p r) = some y →
      SP loc op A w r0 (dn ++ [(k, p)]) (upd T (loc k) y.1) y.2.1 (lg ++ y.2.2)

theorem SP.out {A w r0 dn T r lg} (h : SP loc op A w r0 dn T r lg) (i : Nat) (hi : ∀ kp ∈ dn, loc kp.1 ≠ i) : T i = A i := by
  induction h with
  | nil => rfl
  | @snoc dn T r lg k p y _ _ ih =>
    have h1 := hi (k, p) (by simp)
    simp only [upd, if_neg (Ne.symm h1)]
    exact ih fun kp hk => hi kp (by simp [hk])

theorem SP.ro (ho : OpOk op) {A r0 dn T r lg} (h : SP loc op A false r0 dn T r lg) : T = A ∧ lg = [] := by
  induction h with
  | nil => exact ⟨rfl, rfl⟩
  | @snoc dn T r lg k p y _ h2 ih =>
    have := ho.ro _ _ _ _ h2
    obtain ⟨e1, e2⟩ := ih
    rw [this.1, this.2, e1, e2]
    refine ⟨?_, rfl⟩
    funext j
    simp only [upd]
    split
    · rename_i e; rw [e]
    · rfl

theorem SP.congr {A A' : Nat → R} {w r0 dn T r lg} (h : SP loc op A w r0 dn T r lg) (ha : ∀ kp ∈ dn, A' (loc kp.1) = A (loc kp.1)) :
    ∃ T', SP loc op A' w r0 dn T' r lg ∧ ∀ i, A' i = A i → T' i = T i := by
  induction h with
  | nil => exact ⟨A', .nil, fun i h => h⟩
  | @snoc dn T r lg k p y _ h2 ih =>
    obtain ⟨T', h1, h3⟩ := ih fun kp hk => ha kp (by simp [hk])
    have e := h3 (loc k) (ha (k, p) (by simp))
    refine ⟨_, .snoc h1 (by rw [e]; exact h2), fun i hi => ?_⟩
    simp only [upd]
    split
    · rfl
    · exact h3 i hi

theorem SP.about_out (ho : OpOk op) {A w r0 dn T r lg} (h : SP loc op A w r0 dn T r lg) (k : Bytes) (hk : ∀ kp ∈ dn, kp.1 ≠ k) :
    about k lg = [] := by
  induction h with
  | nil => rfl
  | @snoc dn T r lg k' p y _ h2 ih =>
    rw [about_append, ih fun kp h => hk kp (by simp [h])]
    have h1 := hk (k', p) (by simp)
    simp only [List.nil_append, about, List.filter_eq_nil_iff]
    intro e he
    rw [ho.keyed _ _ _ _ _ h2 e he]
    simpa using h1

/-- Calls run one after the other. -/
inductive SerialR (loc : Bytes → Nat) (op : R → Bytes → Bool → ProcR ρ → Option (R × ρ × List LogOp)) (A0 : Nat → R) :
    List (Nat × Call ρ × ρ) → (Nat → R) → List LogOp → Prop where
  | nil : SerialR loc op A0 [] A0 []
  | snoc {ord A lg id c T r l} : SerialR loc op A0 ord A lg → SP loc op A c.writable c.init c.pairs T r l →
      SerialR loc op A0 (ord ++ [(id, c, r)]) T (lg ++ l)

def bodyHeld {ι : Type} : Pc ρ ι → List Nat
  | .body _ h _ _ _ => h
  | _ => []

def active {ι : Type} : Pc ρ ι → Bool
  | .idle => false
  | _ => true

/-- What holds of a thread. -/
def ThOk (L : Locks ρ) (op : R → Bytes → Bool → ProcR ρ → Option (R × ρ × List LogOp)) (m : MMem R) (hist : List (HEv ρ))
    (ord : List (Nat × Call ρ × ρ)) (A : Nat → R) (lgA : List LogOp) (th : Thread ρ Unit) : Prop :=
  match th.pc with
  | .idle => True
  | .locking c got todo => got ++ todo = L.order c ∧ HEv.inv th.id c ∈ hist ∧ th.id ∉ ord.map (·.1)
  | .body c h rest r _ => h = L.keep c ∧ HEv.inv th.id c ∈ hist ∧ th.id ∉ ord.map (·.1) ∧
      ∃ dn T lg, c.pairs = dn ++ rest ∧ SP L.loc op A c.writable c.init dn T r lg ∧ (∀ i, L.slot i ∈ h → m.reg i = T i) ∧
        ∀ k, L.slot (L.loc k) ∈ h → about k m.log = about k lgA ++ about k lg
  | .unlocking c _ r => (th.id, c, r) ∈ ord

theorem ThOk.hist {L : Locks ρ} {m : MMem R} {hist : List (HEv ρ)} {ord : List (Nat × Call ρ × ρ)} {A : Nat → R} {lgA : List LogOp}
    {th : Thread ρ Unit} (h : ThOk L op m hist ord A lgA th) (e : List (HEv ρ)) : ThOk L op m (hist ++ e) ord A lgA th := by
  obtain ⟨id, pc⟩ := th
  cases pc with
  | idle => trivial
  | locking c got todo => exact ⟨h.1, List.mem_append_left _ h.2.1, h.2.2⟩
  | body c hd rest r x => exact ⟨h.1, List.mem_append_left _ h.2.1, h.2.2⟩
  | unlocking c hd r => exact h

structure MInv (L : Locks ρ) (op : R → Bytes → Bool → ProcR ρ → Option (R × ρ × List LogOp)) (A0 : Nat → R) (s : Sys (MMem R) ρ Unit)
    (ord : List (Nat × Call ρ × ρ)) (A : Nat → R) (lgA : List LogOp) : Prop where
  ser : SerialR L.loc op A0 ord A lgA
  thr : ∀ (i : Nat) (th : Thread ρ Unit), s.threads[i]? = some th → ThOk L op s.mem s.hist ord A lgA th
  lt : ∀ (i : Nat) (th : Thread ρ Unit), s.threads[i]? = some th → active th.pc = true → th.id < s.next
  ids : ∀ (i j : Nat) (th th' : Thread ρ Unit), s.threads[i]? = some th → s.threads[j]? = some th' → i ≠ j → active th.pc = true →
    active th'.pc = true → th.id ≠ th'.id
  excl : ∀ (i j : Nat) (th th' : Thread ρ Unit) (k : Nat), s.threads[i]? = some th → s.threads[j]? = some th' → i ≠ j → k ∈ held th.pc →
    k ∈ held th'.pc → writer th.pc = false ∧ writer th'.pc = false
  free : ∀ i, (∀ (j : Nat) (th : Thread ρ Unit), s.threads[j]? = some th → L.slot i ∉ bodyHeld th.pc) → s.mem.reg i = A i
  freeLog : ∀ k, (∀ (j : Nat) (th : Thread ρ Unit), s.threads[j]? = some th → L.slot (L.loc k) ∉ bodyHeld th.pc) →
    about k s.mem.log = about k lgA
  ordLt : ∀ x ∈ ord, x.1 < s.next
  histLt : ∀ id c, HEv.inv id c ∈ s.hist → id < s.next
  exp : Explains ord s.hist

theorem precedes_snoc {h : List (HEv ρ)} {e : HEv ρ} {a b : Nat} (hp : Precedes (h ++ [e]) a b) :
    Precedes h a b ∨ ∃ c r, e = .inv b c ∧ HEv.ret a r ∈ h := by
  obtain ⟨h1, h2, r, c, he, m1, m2⟩ := hp
  rcases List.eq_nil_or_concat h2 with rfl | ⟨h2', e', rfl⟩
  · simp at m2
  · rw [List.concat_eq_append] at he m2
    rw [← List.append_assoc] at he
    obtain ⟨e1, e2⟩ := List.append_inj' he rfl
    rw [List.mem_append] at m2
    rcases m2 with m2 | m2
    · exact .inl ⟨h1, h2', r, c, e1, m1, m2⟩
    · refine .inr ⟨c, r, ?_, by rw [e1]; simp [m1]⟩
      simp at e2 m2
      rw [e2, m2]

theorem Explains.inv {ord : List (Nat × Call ρ × ρ)} {h : List (HEv ρ)} (he : Explains ord h) (id : Nat) (c : Call ρ)
    (hn : id ∉ ord.map (·.1)) : Explains ord (h ++ [.inv id c]) where
  once := he.once
  called := fun x hx => by simp [he.called x hx]
  returned := fun i r hr => by
    simp at hr
    exact he.returned i r hr
  realTime := fun o1 x o2 e a hp => by
    rcases precedes_snoc hp with h1 | ⟨c', r, h1, _⟩
    · exact he.realTime o1 x o2 e a h1
    · injection h1 with h1 _
      exact absurd (by rw [e, h1]; simp) hn

theorem Explains.ret {ord : List (Nat × Call ρ × ρ)} {h : List (HEv ρ)} (he : Explains ord h) (id : Nat) (c : Call ρ) (r : ρ)
    (hn : (id, c, r) ∈ ord) : Explains ord (h ++ [.ret id r]) where
  once := he.once
  called := fun x hx => by simp [he.called x hx]
  returned := fun i r' hr => by
    simp at hr
    rcases hr with hr | ⟨rfl, rfl⟩
    · exact he.returned i r' hr
    · exact ⟨c, hn⟩
  realTime := fun o1 x o2 e a hp => by
    rcases precedes_snoc hp with h1 | ⟨c', r, h1, _⟩
    · exact he.realTime o1 x o2 e a h1
    · cases h1

theorem Explains.commit {ord : List (Nat × Call ρ × ρ)} {h : List (HEv ρ)} (he : Explains ord h) (id : Nat) (c : Call ρ) (r : ρ)
    (hn : id ∉ ord.map (·.1)) (hi : HEv.inv id c ∈ h) : Explains (ord ++ [(id, c, r)]) h where
  once := by
    rw [List.map_append, List.nodup_append]
    refine ⟨he.once, by simp, ?_⟩
    intro a ha b hb e
    simp at hb
    exact hn (by rw [← hb, ← e]; exact ha)
  called := fun x hx => by
    simp at hx
    rcases hx with hx | rfl
    · exact he.called x hx
    · exact hi
  returned := fun i r' hr => by
    obtain ⟨c', h1⟩ := he.returned i r' hr
    exact ⟨c', by simp [h1]⟩
  realTime := fun o1 x o2 e a hp => by
    rcases List.eq_nil_or_concat o2 with rfl | ⟨o2', y, rfl⟩
    · obtain ⟨e1, e2⟩ := List.append_inj' e rfl
      obtain ⟨h1, h2, r', c', e3, m1, _⟩ := hp
      obtain ⟨c'', h3⟩ := he.returned a r' (by rw [e3]; simp [m1])
      rw [← e1]
      exact List.mem_map.2 ⟨_, h3, rfl⟩
    · have e' : ord ++ [(id, c, r)] = (o1 ++ x :: o2') ++ [y] := by rw [e]; simp
      obtain ⟨e1, _⟩ := List.append_inj' e' rfl
      exact he.realTime o1 x o2' e1 a hp

/-- Setting one thread. -/
theorem get_set {β : Type} {l : List β} {i : Nat} {a b : β} (h : l[i]? = some a) (j : Nat) :
    (l.set i b)[j]? = if j = i then some b else l[j]? := by
  have hi : i < l.length := by
    rcases Nat.lt_or_ge i l.length with h' | h'
    · exact h'
    · rw [List.getElem?_eq_none h'] at h; cases h
  rw [List.getElem?_set]
  by_cases hj : i = j
  · subst hj; simp [hi]
  · simp [hj, Ne.symm hj]

theorem canLock_spec {ι : Type} {ts : List (Thread ρ ι)} {i k : Nat} {w : Bool} (h : canLock ts i k w = true) (j : Nat) (th : Thread ρ ι)
    (hj : ts[j]? = some th) (hne : j ≠ i) (hk : k ∈ held th.pc) : w = false ∧ writer th.pc = false := by
  unfold canLock at h
  rw [List.all_eq_true] at h
  have hl : j < ts.length := by
    rcases Nat.lt_or_ge j ts.length with h' | h'
    · exact h'
    · rw [List.getElem?_eq_none h'] at hj; cases hj
  have := h j (List.mem_range.2 hl)
  rw [hj] at this
  simp [hne, hk] at this
  exact this

theorem minv_start (L : Locks ρ) (op : R → Bytes → Bool → ProcR ρ → Option (R × ρ × List LogOp)) (A0 : Nat → R) (n : Nat) :
    MInv L op A0 (start ⟨A0, [], false⟩ n) [] A0 [] := by
  have key : ∀ (i : Nat) (th : Thread ρ Unit), (List.replicate n (⟨0, .idle⟩ : Thread ρ Unit))[i]? = some th → th = ⟨0, .idle⟩ := by
    intro i th h
    exact List.eq_of_mem_replicate (List.mem_of_getElem? h)
  refine ⟨.nil, ?_, ?_, ?_, ?_, fun _ _ => rfl, fun _ _ => rfl, by simp, by simp [start], ⟨by simp, by simp, by simp [start], by simp⟩⟩
  · intro i th h; rw [key i th h]; trivial
  · intro i th h; rw [key i th h]; simp [active]
  · intro i j th th' h; rw [key i th h]; simp [active]
  · intro i j th th' k h; rw [key i th h]; simp [held]

theorem upd_self {A : Nat → R} {i : Nat} {x : R} (h : x = A i) : upd A i x = A := by
  funext j
  simp only [upd]
  split
  · rename_i e; rw [e, h]
  · rfl

/-- One step keeps the invariant. -/
theorem minv_step {L : Locks ρ} (hL : L.Ok) (ho : OpOk op) {A0 : Nat → R} {s : Sys (MMem R) ρ Unit} {ord : List (Nat × Call ρ × ρ)}
    {A : Nat → R} {lgA : List LogOp} (hm : MInv L op A0 s ord A lgA) (ev : Nat × Act ρ Unit)
    (hb : (step L (aBody L.loc op) s ev).mem.big = false) :
    ∃ ord' A' lgA', MInv L op A0 (step L (aBody L.loc op) s ev) ord' A' lgA' := by
  obtain ⟨t, act⟩ := ev
  cases hth : s.threads[t]? with
  | none => refine ⟨ord, A, lgA, ?_⟩; simp only [step, hth]; exact hm
  | some th =>
  obtain ⟨id, pc⟩ := th
  cases pc with
  | idle =>
    cases act with
    | go a => refine ⟨ord, A, lgA, ?_⟩; simp only [step, hth]; exact hm
    | call c =>
      refine ⟨ord, A, lgA, ?_⟩
      simp only [step, hth]
      have hnew : s.next ∉ ord.map (·.1) := by
        intro h
        obtain ⟨x, hx, e⟩ := List.mem_map.1 h
        have := hm.ordLt x hx
        omega
      have g := fun j => get_set (b := (⟨s.next, .locking c [] (L.order c)⟩ : Thread ρ Unit)) hth j
      refine ⟨hm.ser, ?_, ?_, ?_, ?_, ?_, ?_, fun x hx => Nat.lt_succ_of_lt (hm.ordLt x hx), ?_, hm.exp.inv _ _ hnew⟩
      · intro i th h
        rw [g] at h
        split at h
        · injection h with h; subst h
          refine ⟨by simp, by simp, hnew⟩
        · exact (hm.thr i th h).hist _
      · intro i th h ha
        rw [g] at h
        split at h
        · injection h with h; subst h; simp
        · exact Nat.lt_succ_of_lt (hm.lt i th h ha)
      · intro i j th th' h h' hne ha ha'
        rw [g] at h h'
        split at h
        · injection h with h; subst h
          rw [if_neg (by omega)] at h'
          have := hm.lt j th' h' ha'
          simp only; omega
        · split at h'
          · injection h' with h'; subst h'
            have := hm.lt i th h ha
            simp only; omega
          · exact hm.ids i j th th' h h' hne ha ha'
      · intro i j th th' k h h' hne hk hk'
        rw [g] at h h'
        split at h
        · injection h with h; subst h; simp [held] at hk
        · split at h'
          · injection h' with h'; subst h'; simp [held] at hk'
          · exact hm.excl i j th th' k h h' hne hk hk'
      · intro i hf
        refine hm.free i fun j th h => ?_
        by_cases hj : j = t
        · subst hj; rw [hth] at h; injection h with h; subst h; simp [bodyHeld]
        · exact hf j th (by rw [g, if_neg hj]; exact h)
      · intro k hf
        refine hm.freeLog k fun j th h => ?_
        by_cases hj : j = t
        · subst hj; rw [hth] at h; injection h with h; subst h; simp [bodyHeld]
        · exact hf j th (by rw [g, if_neg hj]; exact h)
      · intro i c' h
        simp at h
        rcases h with h | ⟨rfl, _⟩
        · exact Nat.lt_succ_of_lt (hm.histLt i c' h)
        · simp
  | locking c got todo =>
    have ht := hm.thr t _ hth
    simp only [ThOk] at ht
    have hlt := hm.lt t _ hth rfl
    cases act with
    | call c' => refine ⟨ord, A, lgA, ?_⟩; simp only [step, hth]; exact hm
    | go a =>
    cases todo with
    | cons k todo =>
      refine ⟨ord, A, lgA, ?_⟩
      simp only [step, hth]
      split
      case isFalse => exact hm
      case isTrue hc =>
      have g := fun j => get_set (b := (⟨id, .locking c (got ++ [k]) todo⟩ : Thread ρ Unit)) hth j
      refine ⟨hm.ser, ?_, ?_, ?_, ?_, ?_, ?_, hm.ordLt, hm.histLt, hm.exp⟩
      · intro i th h
        rw [g] at h
        split at h
        · injection h with h; subst h
          exact ⟨by rw [← ht.1]; simp, ht.2⟩
        · exact hm.thr i th h
      · intro i th h ha
        rw [g] at h
        split at h
        · injection h with h; subst h; exact hlt
        · exact hm.lt i th h ha
      · intro i j th th' h h' hne ha ha'
        rw [g] at h h'
        split at h
        · rename_i e
          injection h with h; subst h
          rw [if_neg (by omega)] at h'
          have z := hm.ids t j _ _ hth h' (by omega) rfl ha'; exact z
        · split at h'
          · rename_i e
            injection h' with h'; subst h'
            have z := hm.ids i t _ _ h hth (by omega) ha rfl; exact z
          · exact hm.ids i j th th' h h' hne ha ha'
      · intro i j th th' k' h h' hne hk hk'
        rw [g] at h h'
        split at h
        · rename_i e
          injection h with h; subst h
          rw [if_neg (by omega)] at h'
          simp only [held, List.mem_append, List.mem_singleton] at hk
          rcases hk with hk | rfl
          · have z := hm.excl t j _ _ k' hth h' (by omega) hk hk'; exact z
          · exact canLock_spec hc j th' h' (by omega) hk'
        · split at h'
          · rename_i e
            injection h' with h'; subst h'
            simp only [held, List.mem_append, List.mem_singleton] at hk'
            rcases hk' with hk' | rfl
            · have z := hm.excl i t _ _ k' h hth (by omega) hk hk'; exact z
            · exact (canLock_spec hc i th h (by omega) hk).symm
          · exact hm.excl i j th th' k' h h' hne hk hk'
      · intro i hf
        refine hm.free i fun j th h => ?_
        by_cases hj : j = t
        · subst hj; rw [hth] at h; injection h with h; subst h; simp [bodyHeld]
        · exact hf j th (by rw [g, if_neg hj]; exact h)
      · intro k hf
        refine hm.freeLog k fun j th h => ?_
        by_cases hj : j = t
        · subst hj; rw [hth] at h; injection h with h; subst h; simp [bodyHeld]
        · exact hf j th (by rw [g, if_neg hj]; exact h)
    | nil =>
      refine ⟨ord, A, lgA, ?_⟩
      simp only [step, hth]
      have e0 : got = L.order c := by rw [← ht.1]; simp
      have hgot : ∀ k, k ∈ L.keep c → k ∈ got := fun k hk => by rw [e0]; exact hL.keep_order c k hk
      have g := fun j => get_set (b := (⟨id, .body c (L.keep c) c.pairs c.init (aBody L.loc op).start⟩ : Thread ρ Unit)) hth j
      have own : ∀ k, k ∈ L.keep c → ∀ (j : Nat) (th : Thread ρ Unit), s.threads[j]? = some th → k ∈ bodyHeld th.pc →
          ∃ c' h rest r, th.pc = .body c' h rest r () ∧ c'.writable = false ∧ k ∈ h := by
        intro k hk j th hj hkb
        have hne : j ≠ t := by
          rintro rfl
          rw [hth] at hj; injection hj with hj; subst hj; simp [bodyHeld] at hkb
        obtain ⟨id', pc'⟩ := th
        cases pc' <;> simp only [bodyHeld, List.not_mem_nil] at hkb
        have := hm.excl j t _ _ k hj hth hne hkb (hgot k hk)
        exact ⟨_, _, _, _, rfl, this.1, hkb⟩
      refine ⟨hm.ser, ?_, ?_, ?_, ?_, ?_, ?_, hm.ordLt, hm.histLt, hm.exp⟩
      · intro i th h
        rw [g] at h
        split at h
        · injection h with h; subst h
          refine ⟨rfl, ht.2.1, ht.2.2, [], A, [], rfl, .nil, ?_, ?_⟩
          · intro i hi
            by_cases hf : ∀ (j : Nat) (th : Thread ρ Unit), s.threads[j]? = some th → L.slot i ∉ bodyHeld th.pc
            · exact hm.free i hf
            · simp only [Classical.not_forall, Classical.not_not] at hf
              obtain ⟨j, th, hj, hk⟩ := hf
              obtain ⟨c', h, rest, r, e, hw, hk'⟩ := own _ hi j th hj hk
              have := hm.thr j th hj
              simp only [ThOk, e] at this
              obtain ⟨_, _, _, dn, T, lg, _, hsp, hr, _⟩ := this
              rw [hw] at hsp
              rw [hr i hk', (hsp.ro ho).1]
          · intro k hi
            by_cases hf : ∀ (j : Nat) (th : Thread ρ Unit), s.threads[j]? = some th → L.slot (L.loc k) ∉ bodyHeld th.pc
            · rw [hm.freeLog k hf]; simp [about]
            · simp only [Classical.not_forall, Classical.not_not] at hf
              obtain ⟨j, th, hj, hk⟩ := hf
              obtain ⟨c', h, rest, r, e, hw, hk'⟩ := own _ hi j th hj hk
              have := hm.thr j th hj
              simp only [ThOk, e] at this
              obtain ⟨_, _, _, dn, T, lg, _, hsp, _, hr⟩ := this
              rw [hw] at hsp
              rw [hr k hk', (hsp.ro ho).2]
        · exact hm.thr i th h
      · intro i th h ha
        rw [g] at h
        split at h
        · injection h with h; subst h; exact hlt
        · exact hm.lt i th h ha
      · intro i j th th' h h' hne ha ha'
        rw [g] at h h'
        split at h
        · rename_i e
          injection h with h; subst h
          rw [if_neg (by omega)] at h'
          have z := hm.ids t j _ _ hth h' (by omega) rfl ha'; exact z
        · split at h'
          · rename_i e
            injection h' with h'; subst h'
            have z := hm.ids i t _ _ h hth (by omega) ha rfl; exact z
          · exact hm.ids i j th th' h h' hne ha ha'
      · intro i j th th' k' h h' hne hk hk'
        rw [g] at h h'
        split at h
        · rename_i e
          injection h with h; subst h
          rw [if_neg (by omega)] at h'
          have z := hm.excl t j _ _ k' hth h' (by omega) (hgot k' hk) hk'; exact z
        · split at h'
          · rename_i e
            injection h' with h'; subst h'
            have z := hm.excl i t _ _ k' h hth (by omega) hk (hgot k' hk'); exact z
          · exact hm.excl i j th th' k' h h' hne hk hk'
      · intro i hf
        refine hm.free i fun j th h => ?_
        by_cases hj : j = t
        · subst hj; rw [hth] at h; injection h with h; subst h; simp [bodyHeld]
        · exact hf j th (by rw [g, if_neg hj]; exact h)
      · intro k hf
        refine hm.freeLog k fun j th h => ?_
        by_cases hj : j = t
        · subst hj; rw [hth] at h; injection h with h; subst h; simp [bodyHeld]
        · exact hf j th (by rw [g, if_neg hj]; exact h)
  | unlocking c hd r =>
    have ht := hm.thr t _ hth
    simp only [ThOk] at ht
    have hlt := hm.lt t _ hth rfl
    refine ⟨ord, A, lgA, ?_⟩
    cases act with
    | call c' => simp only [step, hth]; exact hm
    | go a =>
    cases hd with
    | cons k hd =>
      simp only [step, hth]
      have g := fun j => get_set (b := (⟨id, .unlocking c (k :: hd).dropLast r⟩ : Thread ρ Unit)) hth j
      have hsub : ∀ k', k' ∈ (k :: hd).dropLast → k' ∈ k :: hd := fun k' h => List.dropLast_subset _ h
      refine ⟨hm.ser, ?_, ?_, ?_, ?_, ?_, ?_, hm.ordLt, hm.histLt, hm.exp⟩
      · intro i th h
        rw [g] at h
        split at h
        · injection h with h; subst h; exact ht
        · exact hm.thr i th h
      · intro i th h ha
        rw [g] at h
        split at h
        · injection h with h; subst h; exact hlt
        · exact hm.lt i th h ha
      · intro i j th th' h h' hne ha ha'
        rw [g] at h h'
        split at h
        · rename_i e
          injection h with h; subst h
          rw [if_neg (by omega)] at h'
          have z := hm.ids t j _ _ hth h' (by omega) rfl ha'; exact z
        · split at h'
          · rename_i e
            injection h' with h'; subst h'
            have z := hm.ids i t _ _ h hth (by omega) ha rfl; exact z
          · exact hm.ids i j th th' h h' hne ha ha'
      · intro i j th th' k' h h' hne hk hk'
        rw [g] at h h'
        split at h
        · rename_i e
          injection h with h; subst h
          rw [if_neg (by omega)] at h'
          have z := hm.excl t j _ _ k' hth h' (by omega) (hsub k' hk) hk'; exact z
        · split at h'
          · rename_i e
            injection h' with h'; subst h'
            have z := hm.excl i t _ _ k' h hth (by omega) hk (hsub k' hk'); exact z
          · exact hm.excl i j th th' k' h h' hne hk hk'
      · intro i hf
        refine hm.free i fun j th h => ?_
        by_cases hj : j = t
        · subst hj; rw [hth] at h; injection h with h; subst h; simp [bodyHeld]
        · exact hf j th (by rw [g, if_neg hj]; exact h)
      · intro k hf
        refine hm.freeLog k fun j th h => ?_
        by_cases hj : j = t
        · subst hj; rw [hth] at h; injection h with h; subst h; simp [bodyHeld]
        · exact hf j th (by rw [g, if_neg hj]; exact h)
    | nil =>
      simp only [step, hth]
      have g := fun j => get_set (b := (⟨id, .idle⟩ : Thread ρ Unit)) hth j
      refine ⟨hm.ser, ?_, ?_, ?_, ?_, ?_, ?_, hm.ordLt, ?_, hm.exp.ret id c r ht⟩
      · intro i th h
        rw [g] at h
        split at h
        · injection h with h; subst h; trivial
        · exact (hm.thr i th h).hist _
      · intro i th h ha
        rw [g] at h
        split at h
        · injection h with h; subst h; simp [active] at ha
        · exact hm.lt i th h ha
      · intro i j th th' h h' hne ha ha'
        rw [g] at h h'
        split at h
        · injection h with h; subst h; simp [active] at ha
        · split at h'
          · injection h' with h'; subst h'; simp [active] at ha'
          · exact hm.ids i j th th' h h' hne ha ha'
      · intro i j th th' k' h h' hne hk hk'
        rw [g] at h h'
        split at h
        · injection h with h; subst h; simp [held] at hk
        · split at h'
          · injection h' with h'; subst h'; simp [held] at hk'
          · exact hm.excl i j th th' k' h h' hne hk hk'
      · intro i hf
        refine hm.free i fun j th h => ?_
        by_cases hj : j = t
        · subst hj; rw [hth] at h; injection h with h; subst h; simp [bodyHeld]
        · exact hf j th (by rw [g, if_neg hj]; exact h)
      · intro k hf
        refine hm.freeLog k fun j th h => ?_
        by_cases hj : j = t
        · subst hj; rw [hth] at h; injection h with h; subst h; simp [bodyHeld]
        · exact hf j th (by rw [g, if_neg hj]; exact h)
      · intro i c' h
        simp at h
        exact hm.histLt i c' h
  | body c hd rest r x =>
    have ht := hm.thr t _ hth
    simp only [ThOk] at ht
    obtain ⟨hhd, hinv, hno, dn, T, lg, hpairs, hsp, hreg, hlog⟩ := ht
    have hlt := hm.lt t _ hth rfl
    have cov : ∀ kp ∈ c.pairs, L.slot (L.loc kp.1) ∈ hd := fun kp h => by rw [hhd]; exact hL.cover c kp h
    cases act with
    | call c' => refine ⟨ord, A, lgA, ?_⟩; simp only [step, hth]; exact hm
    | go a =>
    cases rest with
    | nil =>
      have e : dn = c.pairs := by rw [hpairs]; simp
      subst e
      refine ⟨ord ++ [(id, c, r)], T, lgA ++ lg, ?_⟩
      simp only [step, hth, aBody, List.isEmpty_nil, if_true]
      have g := fun j => get_set (b := (⟨id, .unlocking c hd r⟩ : Thread ρ Unit)) hth j
      -- the parts of other threads are as before
      have same : ∀ i, L.slot i ∉ hd → T i = A i := fun i hi => hsp.out i fun kp hk e => hi (e ▸ cov kp hk)
      have sameLog : ∀ k, L.slot (L.loc k) ∉ hd → about k lg = [] := fun k hi => hsp.about_out ho k fun kp hk e => hi (e ▸ cov kp hk)
      have roT : c.writable = false → T = A ∧ lg = [] := fun hw => by rw [hw] at hsp; exact hsp.ro ho
      refine ⟨.snoc hm.ser hsp, ?_, ?_, ?_, ?_, ?_, ?_, ?_, hm.histLt, hm.exp.commit _ _ _ hno hinv⟩
      · intro i th h
        rw [g] at h
        split at h
        · injection h with h; subst h; simp [ThOk]
        · rename_i hne
          have h1 := hm.thr i th h
          have hid : active th.pc = true → th.id ≠ id := fun ha => hm.ids i t _ _ h hth hne ha rfl
          obtain ⟨id', pc'⟩ := th
          cases pc' with
          | idle => trivial
          | locking c' got todo =>
            simp only [ThOk] at h1 ⊢
            exact ⟨h1.1, h1.2.1, by simp [hid rfl]; simpa using h1.2.2⟩
          | unlocking c' h' r' =>
            simp only [ThOk] at h1 ⊢
            simp [h1]
          | body c' h' rest' r' x' =>
            simp only [ThOk] at h1 ⊢
            obtain ⟨a1, a2, a3, dn', T', lg', a4, a5, a6, a7⟩ := h1
            have both : ∀ k, k ∈ h' → k ∈ hd → c.writable = false := fun k hk hk' => (hm.excl i t _ _ k h hth hne hk hk').2
            have agree : ∀ i, L.slot i ∈ h' → T i = A i := fun i hi => by
              by_cases hi' : L.slot i ∈ hd
              · rw [(roT (both _ hi hi')).1]
              · exact same i hi'
            have agreeLog : ∀ k, L.slot (L.loc k) ∈ h' → about k lg = [] := fun i hi => by
              by_cases hi' : L.slot (L.loc i) ∈ hd
              · rw [(roT (both _ hi hi')).2]; rfl
              · exact sameLog i hi'
            have cov' : ∀ kp ∈ dn', L.slot (L.loc kp.1) ∈ h' := fun kp hk => by
              rw [a1]; exact hL.cover c' kp (by rw [a4]; simp [hk])
            obtain ⟨T'', b1, b2⟩ := a5.congr (A' := T) fun kp hk => agree _ (cov' kp hk)
            refine ⟨a1, a2, by simp [hid rfl]; simpa using a3, dn', T'', lg', a4, b1, fun i hi => ?_, fun k hk => ?_⟩
            · rw [a6 i hi, b2 i (agree i hi)]
            · rw [a7 k hk, about_append, agreeLog k hk]; simp
      · intro i th h ha
        rw [g] at h
        split at h
        · injection h with h; subst h; exact hlt
        · exact hm.lt i th h ha
      · intro i j th th' h h' hne ha ha'
        rw [g] at h h'
        split at h
        · rename_i e
          injection h with h; subst h
          rw [if_neg (by omega)] at h'
          have z := hm.ids t j _ _ hth h' (by omega) rfl ha'; exact z
        · split at h'
          · rename_i e
            injection h' with h'; subst h'
            have z := hm.ids i t _ _ h hth (by omega) ha rfl; exact z
          · exact hm.ids i j th th' h h' hne ha ha'
      · intro i j th th' k' h h' hne hk hk'
        rw [g] at h h'
        split at h
        · rename_i e
          injection h with h; subst h
          rw [if_neg (by omega)] at h'
          have z := hm.excl t j _ _ k' hth h' (by omega) hk hk'; exact z
        · split at h'
          · rename_i e
            injection h' with h'; subst h'
            have z := hm.excl i t _ _ k' h hth (by omega) hk hk'; exact z
          · exact hm.excl i j th th' k' h h' hne hk hk'
      · intro i hf
        by_cases hi : L.slot i ∈ hd
        · exact hreg i hi
        · rw [same i hi]
          refine hm.free i fun j th h => ?_
          by_cases hj : j = t
          · subst hj; rw [hth] at h; injection h with h; subst h; simpa [bodyHeld] using hi
          · exact hf j th (by rw [g, if_neg hj]; exact h)
      · intro k hf
        by_cases hi : L.slot (L.loc k) ∈ hd
        · rw [about_append]; exact hlog k hi
        · rw [about_append, sameLog k hi, List.append_nil]
          refine hm.freeLog k fun j th h => ?_
          by_cases hj : j = t
          · subst hj; rw [hth] at h; injection h with h; subst h; simpa [bodyHeld] using hi
          · exact hf j th (by rw [g, if_neg hj]; exact h)
      · intro y hy
        simp at hy
        rcases hy with hy | rfl
        · exact hm.ordLt y hy
        · exact hlt
    | cons kp rest =>
      obtain ⟨k, p⟩ := kp
      refine ⟨ord, A, lgA, ?_⟩
      have hk : L.slot (L.loc k) ∈ hd := cov (k, p) (by rw [hpairs]; simp)
      simp only [step, hth, aBody, List.isEmpty_cons, Bool.false_eq_true, if_false] at hb ⊢
      cases hop : op (s.mem.reg (L.loc k)) k c.writable (p r) with
      | none => rw [hop] at hb; simp at hb
      | some y =>
      simp only
      have g := fun j => get_set (b := (⟨id, .body c hd rest y.2.1 x⟩ : Thread ρ Unit)) hth j
      have others : ∀ (j : Nat) (th : Thread ρ Unit), s.threads[j]? = some th → j ≠ t → L.slot (L.loc k) ∈ held th.pc →
          y.1 = s.mem.reg (L.loc k) ∧ y.2.2 = [] := by
        intro j th hj hne hk'
        have := (hm.excl j t _ _ _ hj hth hne hk' hk).2
        simp only [writer] at this
        rw [this] at hop
        exact ho.ro _ _ _ _ hop
      have ab : ∀ k', k' ≠ k → about k' y.2.2 = [] := by
        intro k' hne
        simp only [about, List.filter_eq_nil_iff]
        intro e he
        rw [ho.keyed _ _ _ _ _ hop e he]
        simpa using Ne.symm hne
      refine ⟨hm.ser, ?_, ?_, ?_, ?_, ?_, ?_, hm.ordLt, hm.histLt, hm.exp⟩
      · intro i th h
        rw [g] at h
        split at h
        · injection h with h; subst h
          have hT := hreg (L.loc k) hk
          rw [hT] at hop
          refine ⟨hhd, hinv, hno, dn ++ [(k, p)], _, _, by rw [hpairs]; simp, .snoc hsp hop, ?_, ?_⟩
          · intro i hi
            simp only [upd]
            split
            · rfl
            · exact hreg i hi
          · intro k' hk'
            rw [about_append, about_append, hlog k' hk', List.append_assoc]
        · rename_i hne
          have h1 := hm.thr i th h
          obtain ⟨id', pc'⟩ := th
          cases pc' with
          | idle => trivial
          | locking c' got todo => exact h1
          | unlocking c' h' r' => exact h1
          | body c' h' rest' r' x' =>
            simp only [ThOk] at h1 ⊢
            obtain ⟨a1, a2, a3, dn', T', lg', a4, a5, a6, a7⟩ := h1
            refine ⟨a1, a2, a3, dn', T', lg', a4, a5, fun i' hi => ?_, fun k' hk' => ?_⟩
            · rw [← a6 i' hi]
              simp only [upd]
              split
              · rename_i e
                rw [e] at hi ⊢
                exact (others i _ h hne hi).1
              · rfl
            · rw [about_append, ← a7 k' hk']
              by_cases hkk : k' = k
              · subst hkk; rw [(others i _ h hne hk').2]; simp [about]
              · rw [ab k' hkk, List.append_nil]
      · intro i th h ha
        rw [g] at h
        split at h
        · injection h with h; subst h; exact hlt
        · exact hm.lt i th h ha
      · intro i j th th' h h' hne ha ha'
        rw [g] at h h'
        split at h
        · rename_i e
          injection h with h; subst h
          rw [if_neg (by omega)] at h'
          have z := hm.ids t j _ _ hth h' (by omega) rfl ha'; exact z
        · split at h'
          · rename_i e
            injection h' with h'; subst h'
            have z := hm.ids i t _ _ h hth (by omega) ha rfl; exact z
          · exact hm.ids i j th th' h h' hne ha ha'
      · intro i j th th' k' h h' hne hk hk'
        rw [g] at h h'
        split at h
        · rename_i e
          injection h with h; subst h
          rw [if_neg (by omega)] at h'
          have z := hm.excl t j _ _ k' hth h' (by omega) hk hk'; exact z
        · split at h'
          · rename_i e
            injection h' with h'; subst h'
            have z := hm.excl i t _ _ k' h hth (by omega) hk hk'; exact z
          · exact hm.excl i j th th' k' h h' hne hk hk'
      · intro i hf
        have hne : i ≠ L.loc k := by
          rintro rfl
          have := hf t _ (by rw [g, if_pos rfl])
          exact this hk
        simp only [upd, if_neg hne]
        refine hm.free i fun j th h => ?_
        by_cases hj : j = t
        · subst hj; rw [hth] at h; injection h with h; subst h
          exact hf j ⟨id, .body c hd rest y.2.1 x⟩ (by rw [g, if_pos rfl])
        · exact hf j th (by rw [g, if_neg hj]; exact h)
      · intro k' hf
        have hne : k' ≠ k := by
          rintro rfl
          have := hf t _ (by rw [g, if_pos rfl])
          exact this hk
        rw [about_append, ab k' hne, List.append_nil]
        refine hm.freeLog k' fun j th h => ?_
        by_cases hj : j = t
        · subst hj; rw [hth] at h; injection h with h; subst h
          exact hf j ⟨id, .body c hd rest y.2.1 x⟩ (by rw [g, if_pos rfl])
        · exact hf j th (by rw [g, if_neg hj]; exact h)

end

end Verif.TwoPhase
