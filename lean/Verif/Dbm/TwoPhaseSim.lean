import Verif.Dbm.TwoPhaseProof
/-
A body with many steps behaves like the one in which each processor call is one step, if some relation between the two memories is kept.
-/
namespace Verif.TwoPhase
open Verif

section
variable {σ ρ ι α R : Type}

/-- The same thread without where it is in the body. -/
def absPc : Pc ρ ι → Pc ρ Unit
  | .idle => .idle
  | .locking c got todo => .locking c got todo
  | .body c h rest r _ => .body c h rest r ()
  | .unlocking c h r => .unlocking c h r

def absT (th : Thread ρ ι) : Thread ρ Unit := ⟨th.id, absPc th.pc⟩

theorem held_abs (pc : Pc ρ ι) : held (absPc pc) = held pc := by cases pc <;> rfl
theorem writer_abs (pc : Pc ρ ι) : writer (absPc pc) = writer pc := by cases pc <;> rfl

theorem canLock_abs (ts : List (Thread ρ ι)) (i k : Nat) (w : Bool) : canLock (ts.map absT) i k w = canLock ts i k w := by
  unfold canLock
  rw [List.length_map]
  congr 1
  funext j
  rw [List.getElem?_map]
  cases ts[j]? with
  | none => rfl
  | some th => simp only [Option.map_some, absT, held_abs, writer_abs]

theorem set_same {β : Type} {l : List β} {i : Nat} {a : β} (h : l[i]? = some a) : l.set i a = l := by
  apply List.ext_getElem?
  intro j
  rw [get_set h]
  split
  · rename_i e; rw [e, h]
  · rfl

/-- What the locks give. -/
structure LockOk (L : Locks ρ) (ts : List (Thread ρ ι)) : Prop where
  excl : ∀ (i j : Nat) (th th' : Thread ρ ι) (k : Nat), ts[i]? = some th → ts[j]? = some th' → i ≠ j → k ∈ held th.pc →
    k ∈ held th'.pc → writer th.pc = false ∧ writer th'.pc = false
  cover : ∀ (t id : Nat) (c : Call ρ) (h : List Nat) (rest : List (Bytes × ProcS ρ)) (r : ρ) (x : ι),
    ts[t]? = some ⟨id, .body c h rest r x⟩ → ∀ kp ∈ rest, L.slot (L.loc kp.1) ∈ h

/-- A thread that is not in the middle of the body. -/
def Calm (B : Body σ ρ ι α) : Pc ρ ι → Prop
  | .body _ _ rest _ x => x = B.start ∨ B.done rest x = true
  | _ => True

/-- The call of a thread. -/
def callOf : Pc ρ ι → Option (Call ρ)
  | .locking c _ _ | .body c _ _ _ _ | .unlocking c _ _ => some c
  | .idle => none

/-- A relation between the memory with its threads and the values of the parts, kept by every step. -/
structure Sim (L : Locks ρ) (B : Body σ ρ ι α) (op : R → Bytes → Bool → ProcR ρ → Option (R × ρ × List LogOp))
    (K : σ → MMem R → List (Thread ρ ι) → Prop) (ok : σ → Prop) (fit : Call ρ → Prop) : Prop where
  done : ∀ rest x, B.done rest x = true → rest = []
  move : ∀ {mem : σ} {mm : MMem R} {ts : List (Thread ρ ι)} {t : Nat} {th th' : Thread ρ ι}, K mem mm ts → ts[t]? = some th →
    Calm B th.pc → Calm B th'.pc → K mem mm (ts.set t th')
  body : ∀ {mem : σ} {mm : MMem R} {ts : List (Thread ρ ι)} {t id : Nat} {c : Call ρ} {h : List Nat} {rest : List (Bytes × ProcS ρ)} {r : ρ}
    {x : ι} (a : α), K mem mm ts → LockOk L ts → ts[t]? = some ⟨id, .body c h rest r x⟩ → fit c → (∀ kp ∈ rest, kp ∈ c.pairs) →
    B.done rest x = false → ok mem → ok (B.step mem a c.writable rest r x).1 →
    (K (B.step mem a c.writable rest r x).1 mm (ts.set t ⟨id, .body c h rest r (B.step mem a c.writable rest r x).2.2.2⟩) ∧
      (B.step mem a c.writable rest r x).2.1 = rest ∧ (B.step mem a c.writable rest r x).2.2.1 = r) ∨
    ∃ k p rest' z, rest = (k, p) :: rest' ∧ (B.step mem a c.writable rest r x).2.1 = rest' ∧
      (B.step mem a c.writable rest r x).2.2.1 = z.2.1 ∧ op (mm.reg (L.loc k)) k c.writable (p r) = some z ∧
      K (B.step mem a c.writable rest r x).1 { mm with reg := upd mm.reg (L.loc k) z.1, log := mm.log ++ z.2.2 }
        (ts.set t ⟨id, .body c h rest' z.2.1 (B.step mem a c.writable rest r x).2.2.2⟩)

/-- The abstract system of a state. -/
def absS (mm : MMem R) (s : Sys σ ρ ι) : Sys (MMem R) ρ Unit := ⟨mm, s.threads.map absT, s.next, s.hist⟩

theorem lockOk_of {L : Locks ρ} (hok : L.Ok) {op : R → Bytes → Bool → ProcR ρ → Option (R × ρ × List LogOp)} {mm : MMem R} {s : Sys σ ρ ι}
    {A0 : Nat → R} {ord : List (Nat × Call ρ × ρ)} {A : Nat → R} {lgA : List LogOp} (hm : MInv L op A0 (absS mm s) ord A lgA) :
    LockOk L s.threads where
  excl := by
    intro i j th th' k h h' hne hk hk'
    have e := hm.excl i j (absT th) (absT th') k (by simp only [absS, List.getElem?_map, h]; rfl)
      (by simp only [absS, List.getElem?_map, h']; rfl) hne
      (by simp only [absT, held_abs]; exact hk) (by simp only [absT, held_abs]; exact hk')
    simpa only [absT, writer_abs] using e
  cover := by
    intro t id c h rest r x hth kp hk
    have e := hm.thr t (absT ⟨id, .body c h rest r x⟩) (by simp only [absS, List.getElem?_map, hth]; rfl)
    simp only [ThOk, absT, absPc] at e
    obtain ⟨e1, _, _, dn, _, _, e2, _⟩ := e
    rw [e1]
    exact hok.cover c kp (by rw [e2]; simp [hk])

theorem Sim.step {L : Locks ρ} {B : Body σ ρ ι α} {op : R → Bytes → Bool → ProcR ρ → Option (R × ρ × List LogOp)}
    {K : σ → MMem R → List (Thread ρ ι) → Prop} {ok : σ → Prop} {fit : Call ρ → Prop} (hS : Sim L B op K ok fit) {s : Sys σ ρ ι} {mm : MMem R}
    (hK : K s.mem mm s.threads) (hL : LockOk L s.threads)
    (hsuf : ∀ (t id : Nat) (c : Call ρ) (h : List Nat) (rest : List (Bytes × ProcS ρ)) (r : ρ) (x : ι),
      s.threads[t]? = some ⟨id, .body c h rest r x⟩ → fit c ∧ ∀ kp ∈ rest, kp ∈ c.pairs)
    (ev : Nat × Act ρ α) (h1 : ok s.mem) (h2 : ok (TwoPhase.step L B s ev).mem) :
    ∃ mm', K (TwoPhase.step L B s ev).mem mm' (TwoPhase.step L B s ev).threads ∧ mm'.big = mm.big ∧
      (absS mm' (TwoPhase.step L B s ev) = absS mm s ∨ ∃ ev', absS mm' (TwoPhase.step L B s ev) = TwoPhase.step L (aBody L.loc op) (absS mm s) ev') := by
  obtain ⟨t, act⟩ := ev
  cases hth : s.threads[t]? with
  | none => exact ⟨mm, by simp only [TwoPhase.step, hth]; exact hK, rfl, .inl (by simp only [TwoPhase.step, hth])⟩
  | some th =>
  obtain ⟨id, pc⟩ := th
  have hmt : (absS mm s).threads[t]? = some (absT ⟨id, pc⟩) := by simp only [absS, List.getElem?_map, hth]; rfl
  cases pc with
  | idle =>
    cases act with
    | go a => exact ⟨mm, by simp only [TwoPhase.step, hth]; exact hK, rfl, .inl (by simp only [TwoPhase.step, hth])⟩
    | call c =>
      refine ⟨mm, ?_, rfl, .inr ⟨(t, .call c), ?_⟩⟩
      · simp only [TwoPhase.step, hth]; exact hS.move hK hth trivial trivial
      · simp only [TwoPhase.step, hth, hmt, absT, absPc]; simp only [absS, List.map_set]; rfl
  | locking c got todo =>
    cases act with
    | call c' =>
      refine ⟨mm, ?_, rfl, .inl ?_⟩
      · simp only [TwoPhase.step, hth]; cases todo <;> exact hK
      · simp only [TwoPhase.step, hth]
    | go a =>
      cases todo with
      | nil =>
        refine ⟨mm, ?_, rfl, .inr ⟨(t, .go ()), ?_⟩⟩
        · simp only [TwoPhase.step, hth]; exact hS.move hK hth trivial (.inl rfl)
        · simp only [TwoPhase.step, hth, hmt, absT, absPc]; simp only [absS, List.map_set]; rfl
      | cons k todo =>
        cases hc : canLock s.threads t k c.writable with
        | false =>
          refine ⟨mm, ?_, rfl, .inl ?_⟩
          · simp only [TwoPhase.step, hth, hc, Bool.false_eq_true, if_false]; exact hK
          · simp only [TwoPhase.step, hth, hc, Bool.false_eq_true, if_false]
        | true =>
          have hc' : canLock (absS mm s).threads t k c.writable = true := by simp only [absS, canLock_abs]; exact hc
          refine ⟨mm, ?_, rfl, .inr ⟨(t, .go ()), ?_⟩⟩
          · simp only [TwoPhase.step, hth, hc, if_true]; exact hS.move hK hth trivial trivial
          · simp only [TwoPhase.step, hth, hmt, absT, absPc, hc, hc', if_true]; simp only [absS, List.map_set]; rfl
  | unlocking c h r =>
    cases act with
    | call c' =>
      refine ⟨mm, ?_, rfl, .inl ?_⟩
      · simp only [TwoPhase.step, hth]; cases h <;> exact hK
      · simp only [TwoPhase.step, hth]
    | go a =>
      cases h with
      | nil =>
        refine ⟨mm, ?_, rfl, .inr ⟨(t, .go ()), ?_⟩⟩
        · simp only [TwoPhase.step, hth]; exact hS.move hK hth trivial trivial
        · simp only [TwoPhase.step, hth, hmt, absT, absPc]; simp only [absS, List.map_set]; rfl
      | cons k h =>
        refine ⟨mm, ?_, rfl, .inr ⟨(t, .go ()), ?_⟩⟩
        · simp only [TwoPhase.step, hth]; exact hS.move hK hth trivial trivial
        · simp only [TwoPhase.step, hth, hmt, absT, absPc]; simp only [absS, List.map_set]; rfl
  | body c h rest r x =>
    cases act with
    | call c' => exact ⟨mm, by simp only [TwoPhase.step, hth]; exact hK, rfl, .inl (by simp only [TwoPhase.step, hth])⟩
    | go a =>
      cases hd : B.done rest x with
      | true =>
        have hx := hS.done rest x hd
        subst hx
        refine ⟨mm, ?_, rfl, .inr ⟨(t, .go ()), ?_⟩⟩
        · simp only [TwoPhase.step, hth, hd, if_true]; exact hS.move hK hth (.inr hd) trivial
        · simp only [TwoPhase.step, hth, hd, hmt, absT, absPc, aBody, List.isEmpty_nil, if_true]; simp only [absS, List.map_set]; rfl
      | false =>
        simp only [TwoPhase.step, hth, hd, Bool.false_eq_true, if_false] at h2 ⊢
        have hf := hsuf t id c h rest r x hth
        rcases hS.body a hK hL hth hf.1 hf.2 hd h1 h2 with ⟨g1, g2, g3⟩ | ⟨k, p, rest', z, e1, e2, e3, e4, e5⟩
        · refine ⟨mm, by rw [g2, g3]; exact g1, rfl, .inl ?_⟩
          simp only [absS, List.map_set, g2, g3]
          congr 1
          apply set_same
          rw [List.getElem?_map, hth]; rfl
        · refine ⟨{ mm with reg := upd mm.reg (L.loc k) z.1, log := mm.log ++ z.2.2 }, by rw [e2, e3]; exact e5, rfl, .inr ⟨(t, .go ()), ?_⟩⟩
          subst e1
          simp only [TwoPhase.step, hmt, absT, absPc, aBody, List.isEmpty_cons, Bool.false_eq_true, if_false]
          simp only [absS, List.map_set, e2, e3, e4]
          rfl

/-- All calls fit. -/
def AllFit (fit : Call ρ → Prop) (es : List (Nat × Act ρ α)) : Prop := ∀ t c, (t, Act.call c) ∈ es → fit c

theorem fit_step {L : Locks ρ} {B : Body σ ρ ι α} {fit : Call ρ → Prop} {s : Sys σ ρ ι} (h : ∀ th ∈ s.threads, ∀ c, callOf th.pc = some c → fit c)
    (ev : Nat × Act ρ α) (he : ∀ c, ev.2 = .call c → fit c) : ∀ th ∈ (TwoPhase.step L B s ev).threads, ∀ c, callOf th.pc = some c → fit c := by
  obtain ⟨t, act⟩ := ev
  have setF : ∀ th', (∀ c, callOf th'.pc = some c → fit c) → ∀ th ∈ s.threads.set t th', ∀ c, callOf th.pc = some c → fit c := by
    intro th' h' th hth
    rcases List.mem_or_eq_of_mem_set hth with h1 | h1
    · exact h th h1
    · rw [h1]; exact h'
  cases hth : s.threads[t]? with
  | none => simp only [TwoPhase.step, hth]; exact h
  | some th =>
  have h0 := h th (List.mem_of_getElem? hth)
  obtain ⟨id, pc⟩ := th
  cases pc with
  | idle =>
    cases act with
    | go a => simp only [TwoPhase.step, hth]; exact h
    | call c =>
      simp only [TwoPhase.step, hth]
      refine setF _ ?_
      intro c' hc'
      injection hc' with hc'
      rw [← hc']; exact he c rfl
  | locking c got todo =>
    cases act with
    | call c' => cases todo <;> (simp only [TwoPhase.step, hth]; exact h)
    | go a =>
      cases todo with
      | nil => simp only [TwoPhase.step, hth]; exact setF _ h0
      | cons k todo =>
        simp only [TwoPhase.step, hth]
        split
        · exact setF _ h0
        · exact h
  | unlocking c hh r =>
    cases act with
    | call c' => cases hh <;> (simp only [TwoPhase.step, hth]; exact h)
    | go a =>
      cases hh with
      | nil => simp only [TwoPhase.step, hth]; exact setF _ (by intro c hc; cases hc)
      | cons k hh => simp only [TwoPhase.step, hth]; exact setF _ h0
  | body c hh rest r x =>
    cases act with
    | call c' => simp only [TwoPhase.step, hth]; exact h
    | go a =>
      simp only [TwoPhase.step, hth]
      split
      · exact setF _ h0
      · exact setF _ h0

/-- What is said of every reachable state. -/
def Good (L : Locks ρ) (op : R → Bytes → Bool → ProcR ρ → Option (R × ρ × List LogOp)) (K : σ → MMem R → List (Thread ρ ι) → Prop)
    (A0 : Nat → R) (s : Sys σ ρ ι) : Prop :=
  ∃ mm ord A lg, K s.mem mm s.threads ∧ mm.big = false ∧ MInv L op A0 (absS mm s) ord A lg

theorem Sim.run {L : Locks ρ} (hok : L.Ok) {B : Body σ ρ ι α} {op : R → Bytes → Bool → ProcR ρ → Option (R × ρ × List LogOp)} (ho : OpOk op)
    {K : σ → MMem R → List (Thread ρ ι) → Prop} {ok : σ → Prop} {fit : Call ρ → Prop} (hS : Sim L B op K ok fit) {A0 : Nat → R} {m0 : σ} {n : Nat}
    (h0 : K m0 ⟨A0, [], false⟩ (List.replicate n ⟨0, .idle⟩)) (es : List (Nat × Act ρ α)) (hf : AllFit fit es)
    (hokp : ∀ pre suf, es = pre ++ suf → ok (TwoPhase.run L B m0 n pre).mem) : Good L op K A0 (TwoPhase.run L B m0 n es) := by
  have key : ∀ (es : List (Nat × Act ρ α)) (s : Sys σ ρ ι), AllFit fit es → (∀ pre suf, es = pre ++ suf → ok (pre.foldl (TwoPhase.step L B) s).mem) →
      Good L op K A0 s → (∀ th ∈ s.threads, ∀ c, callOf th.pc = some c → fit c) → Good L op K A0 (es.foldl (TwoPhase.step L B) s) := by
    intro es
    induction es with
    | nil => intro s _ _ h _; exact h
    | cons ev es ih =>
      intro s hfit ha hg hc
      obtain ⟨mm, ord, A, lg, hK, hb, hm⟩ := hg
      have hsuf : ∀ (t id : Nat) (c : Call ρ) (h : List Nat) (rest : List (Bytes × ProcS ρ)) (r : ρ) (x : ι),
          s.threads[t]? = some ⟨id, .body c h rest r x⟩ → fit c ∧ ∀ kp ∈ rest, kp ∈ c.pairs := by
        intro t id c h rest r x hth
        refine ⟨hc _ (List.mem_of_getElem? hth) c rfl, ?_⟩
        have e := hm.thr t (absT ⟨id, .body c h rest r x⟩) (by simp only [absS, List.getElem?_map, hth]; rfl)
        simp only [ThOk, absT, absPc] at e
        obtain ⟨_, _, _, dn, _, _, e2, _⟩ := e
        intro kp hk
        rw [e2]; simp [hk]
      obtain ⟨mm', k1, k2, k3⟩ := hS.step hK (lockOk_of hok hm) hsuf ev (ha [] (ev :: es) rfl) (ha [ev] es rfl)
      refine ih _ (fun t c h => hfit t c (by simp [h])) (fun pre suf e => ha (ev :: pre) suf (by rw [e]; rfl)) ?_
        (fit_step hc ev (fun c e => hfit ev.1 c (by rw [← e]; simp)))
      rcases k3 with k3 | ⟨ev', k3⟩
      · exact ⟨mm', ord, A, lg, k1, k2.trans hb, k3 ▸ hm⟩
      · have hb' : (TwoPhase.step L (aBody L.loc op) (absS mm s) ev').mem.big = false := by rw [← k3]; exact k2.trans hb
        obtain ⟨ord', A', lg', hm'⟩ := minv_step hok ho hm ev' hb'
        exact ⟨mm', ord', A', lg', k1, k2.trans hb, k3 ▸ hm'⟩
  refine key es (TwoPhase.start m0 n) hf hokp ⟨⟨A0, [], false⟩, [], A0, [], h0, rfl, ?_⟩ ?_
  · have := minv_start L op A0 n
    have e : absS (⟨A0, [], false⟩ : MMem R) (TwoPhase.start m0 n : Sys σ ρ ι) = TwoPhase.start ⟨A0, [], false⟩ n := by
      simp [absS, TwoPhase.start, absT, absPc]
    rw [e]; exact this
  · intro th h c hc
    rw [List.eq_of_mem_replicate h] at hc
    cases hc

end

end Verif.TwoPhase
