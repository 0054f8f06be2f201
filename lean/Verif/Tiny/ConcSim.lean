import Verif.Tiny.ConcStep
import Verif.Thread.HashMutexProps
/-
The concurrent calls of TinyDBM, all together.
-/
namespace Verif.Tiny.Conc
open Verif TwoPhase

section
variable {ρ : Type}

theorem sim_step {L : Locks ρ} {nb : Nat} {hash : Bytes → Nat → Nat} (hloc : L.loc = fun k => hash k nb) (hr : InRange hash) {s : CState ρ}
    {m : Sys (MMem (List Blk)) ρ Unit} {P : Nat → List (Addr × Blk)} (hR : Rel L nb s m P) (hL : LockOk L s)
    (hQ : Inv hash (st nb m.mem.reg [])) (ev : Nat × Act ρ Addr) (hb : (TwoPhase.step L (body L.loc) s ev).mem.big = false) :
    ∃ m' P', Rel L nb (TwoPhase.step L (body L.loc) s ev) m' P' ∧ (m' = m ∨ ∃ ev', m' = TwoPhase.step L (aBody L.loc opC) m ev') ∧
      m'.mem.big = m.mem.big := by
  obtain ⟨t, act⟩ := ev
  cases hth : s.threads[t]? with
  | none => exact ⟨m, P, by simp only [TwoPhase.step, hth]; exact hR, .inl rfl, rfl⟩
  | some th =>
  obtain ⟨id, pc⟩ := th
  have hmt : m.threads[t]? = some (absT ⟨id, pc⟩) := by rw [hR.thr, List.getElem?_map, hth]; rfl
  cases pc with
  | idle =>
    cases act with
    | go a => exact ⟨m, P, by simp only [TwoPhase.step, hth]; exact hR, .inl rfl, rfl⟩
    | call c =>
      refine ⟨_, P, ?_, .inr ⟨(t, .call c), rfl⟩, ?_⟩
      · simp only [TwoPhase.step, hth, hmt, absT, absPc]
        refine rel_move hR hth ?_ ?_ rfl rfl rfl rfl rfl rfl rfl ?_ (by simp only [hR.next]) (by simp only [hR.next, hR.hist])
        · intro _ _ _ _ _ e; cases e
        · intro _ _ _ _ _ e; cases e
        · simp only [absT, absPc, hR.next]
      · simp only [TwoPhase.step, hmt, absT, absPc]
  | locking c got todo =>
    cases act with
    | call c' => exact ⟨m, P, by simp only [TwoPhase.step, hth]; cases todo <;> exact hR, .inl rfl, rfl⟩
    | go a =>
      cases todo with
      | nil =>
        refine ⟨_, P, ?_, .inr ⟨(t, .go ()), rfl⟩, ?_⟩
        · simp only [TwoPhase.step, hth, hmt, absT, absPc]
          refine rel_move hR hth ?_ ?_ rfl rfl rfl rfl rfl rfl rfl ?_ hR.next hR.hist
          · intro _ _ _ _ _ e; cases e
          · intro _ _ _ _ _ e; injection e with e1 _ e2 e3 e4; subst e1; subst e2; subst e3; subst e4; exact ⟨rfl, trivial⟩
          · rfl
        · simp only [TwoPhase.step, hmt, absT, absPc]
      | cons k todo =>
        cases hc : canLock s.threads t k c.writable with
        | false =>
          refine ⟨m, P, ?_, .inl rfl, rfl⟩
          simp only [TwoPhase.step, hth, hc, Bool.false_eq_true, if_false]; exact hR
        | true =>
          have hc' : canLock m.threads t k c.writable = true := by rw [hR.thr, canLock_abs]; exact hc
          refine ⟨_, P, ?_, .inr ⟨(t, .go ()), rfl⟩, ?_⟩
          · simp only [TwoPhase.step, hth, hmt, absT, absPc, hc, hc', if_true]
            refine rel_move hR hth ?_ ?_ rfl rfl rfl rfl rfl rfl rfl ?_ hR.next hR.hist
            · intro _ _ _ _ _ e; cases e
            · intro _ _ _ _ _ e; cases e
            · rfl
          · simp only [TwoPhase.step, hmt, absT, absPc, hc', if_true]
  | unlocking c h r =>
    cases act with
    | call c' => exact ⟨m, P, by simp only [TwoPhase.step, hth]; cases h <;> exact hR, .inl rfl, rfl⟩
    | go a =>
      cases h with
      | nil =>
        refine ⟨_, P, ?_, .inr ⟨(t, .go ()), rfl⟩, ?_⟩
        · simp only [TwoPhase.step, hth, hmt, absT, absPc]
          refine rel_move hR hth ?_ ?_ rfl rfl rfl rfl rfl rfl rfl ?_ hR.next (by simp only [hR.hist])
          · intro _ _ _ _ _ e; cases e
          · intro _ _ _ _ _ e; cases e
          · rfl
        · simp only [TwoPhase.step, hmt, absT, absPc]
      | cons k h =>
        refine ⟨_, P, ?_, .inr ⟨(t, .go ()), rfl⟩, ?_⟩
        · simp only [TwoPhase.step, hth, hmt, absT, absPc]
          refine rel_move hR hth ?_ ?_ rfl rfl rfl rfl rfl rfl rfl ?_ hR.next hR.hist
          · intro _ _ _ _ _ e; cases e
          · intro _ _ _ _ _ e; cases e
          · rfl
        · simp only [TwoPhase.step, hmt, absT, absPc]
  | body c h rest r x =>
    cases act with
    | call c' => exact ⟨m, P, by simp only [TwoPhase.step, hth]; exact hR, .inl rfl, rfl⟩
    | go a =>
      cases hd : (rest.isEmpty && isEnter x) with
      | true =>
        have hx : x = .enter ∧ rest = [] := by
          rw [Bool.and_eq_true] at hd
          refine ⟨?_, List.isEmpty_iff.1 hd.1⟩
          cases x <;> simp [isEnter] at hd ⊢
        obtain ⟨rfl, rfl⟩ := hx
        refine ⟨_, P, ?_, .inr ⟨(t, .go ()), rfl⟩, ?_⟩
        · simp only [TwoPhase.step, hth, hmt, absT, absPc, body, aBody, hd, List.isEmpty_nil, if_true]
          refine rel_move hR hth ?_ ?_ rfl rfl rfl rfl rfl rfl rfl ?_ hR.next hR.hist
          · intro _ _ _ _ _ e; injection e with _ _ _ _ e; rw [← e]; rfl
          · intro _ _ _ _ _ e; cases e
          · rfl
        · simp only [TwoPhase.step, hmt, absT, absPc, aBody, List.isEmpty_nil, if_true]
      | false =>
        simp only [TwoPhase.step, hth, body, hd, Bool.false_eq_true, if_false] at hb ⊢
        obtain ⟨m', P', h1, h2, h3⟩ := sim_body hloc hr hR hL hQ hth a hd hb
        exact ⟨m', P', h1, h2.imp (fun z => z) (fun z => ⟨_, z⟩), h3⟩

/-- The chains stay well-formed. -/
theorem inv_mstep {L : Locks ρ} {nb : Nat} {hash : Bytes → Nat → Nat} (hloc : L.loc = fun k => hash k nb) (hr : InRange hash)
    {m : Sys (MMem (List Blk)) ρ Unit} (hQ : Inv hash (st nb m.mem.reg [])) (ev : Nat × Act ρ Unit) :
    Inv hash (st nb (TwoPhase.step L (aBody L.loc opC) m ev).mem.reg []) := by
  obtain ⟨t, act⟩ := ev
  cases hth : m.threads[t]? with
  | none => simp only [TwoPhase.step, hth]; exact hQ
  | some th =>
  obtain ⟨id, pc⟩ := th
  cases pc with
  | idle => cases act <;> (simp only [TwoPhase.step, hth]; exact hQ)
  | locking c got todo =>
    cases act with
    | call c' => cases todo <;> (simp only [TwoPhase.step, hth]; exact hQ)
    | go a =>
      cases todo with
      | nil => simp only [TwoPhase.step, hth]; exact hQ
      | cons k todo => simp only [TwoPhase.step, hth]; split <;> exact hQ
  | unlocking c h r =>
    cases act with
    | call c' => cases h <;> (simp only [TwoPhase.step, hth]; exact hQ)
    | go a => cases h <;> (simp only [TwoPhase.step, hth]; exact hQ)
  | body c h rest r x =>
    cases act with
    | call c' => simp only [TwoPhase.step, hth]; exact hQ
    | go a =>
      cases rest with
      | nil => simp only [TwoPhase.step, hth, aBody, List.isEmpty_nil, if_true]; exact hQ
      | cons kp rest =>
        obtain ⟨k, p⟩ := kp
        cases hop : opC (m.mem.reg (L.loc k)) k c.writable (p r) with
        | none => simp only [TwoPhase.step, hth, aBody, List.isEmpty_cons, Bool.false_eq_true, if_false, hop]; exact hQ
        | some y =>
          simp only [TwoPhase.step, hth, aBody, List.isEmpty_cons, Bool.false_eq_true, if_false, hop]
          rw [hloc] at hop ⊢
          have := (opC_dict hr hQ hop).1
          exact ⟨this.ok, this.pos, this.chain, this.home, this.nodup, this.count⟩

/-- What is said of every reachable state. -/
def Good (L : Locks ρ) (nb : Nat) (hash : Bytes → Nat → Nat) (s : CState ρ) : Prop :=
  ∃ m P ord A lg, Rel L nb s m P ∧ MInv L opC (fun _ => []) m ord A lg ∧ m.mem.big = false ∧ Inv hash (st nb m.mem.reg [])

theorem good_step {L : Locks ρ} (hok : L.Ok) {nb : Nat} {hash : Bytes → Nat → Nat} (hloc : L.loc = fun k => hash k nb) (hr : InRange hash)
    {s : CState ρ} (hg : Good L nb hash s) (ev : Nat × Act ρ Addr) (hb : (TwoPhase.step L (body L.loc) s ev).mem.big = false) :
    Good L nb hash (TwoPhase.step L (body L.loc) s ev) := by
  obtain ⟨m, P, ord, A, lg, hR, hm, hmb, hQ⟩ := hg
  obtain ⟨m', P', h1, h2, h3⟩ := sim_step hloc hr hR (lockOk hok hR hm) hQ ev hb
  rcases h2 with rfl | ⟨ev', rfl⟩
  · exact ⟨m', P', ord, A, lg, h1, hm, hmb, hQ⟩
  · obtain ⟨ord', A', lg', hm'⟩ := minv_step hok opC_ok hm ev' (by rw [h3]; exact hmb)
    exact ⟨_, P', ord', A', lg', h1, hm', by rw [h3]; exact hmb, inv_mstep hloc hr hQ ev'⟩

theorem tot_nil (nb : Nat) : tot nb (fun _ => []) = 0 := by
  simp only [tot, List.map_map]
  have : ∀ l : List Nat, (List.map (List.length ∘ fun _ => ([] : List Blk)) l).sum = 0 := by
    intro l
    induction l with
    | nil => rfl
    | cons a l ih => simpa using ih
  rw [this]; rfl

theorem inv_nil {nb : Nat} (h : 0 < nb) (hash : Bytes → Nat → Nat) : Inv hash (st nb (fun _ => []) []) := by
  have hb : ∀ i, (st nb (fun _ => []) []).bk i = [] := by
    intro i
    simp only [st, State.bk, List.getD_eq_getElem?_getD, List.getElem?_map]
    cases (List.range nb)[i]? <;> rfl
  refine ⟨rfl, by simpa [st] using h, ?_, ?_, ?_, rfl⟩
  · intro i; rw [hb]; exact .nil
  · intro i r hr; rw [hb] at hr; simp [recs] at hr
  · intro i; rw [hb]; simp [recs]

theorem good_start (L : Locks ρ) {nb : Nat} (hnb : 0 < nb) (hash : Bytes → Nat → Nat) (n : Nat) : Good L nb hash (TwoPhase.start empty n) := by
  have key : ∀ (i : Nat) (th : Thread ρ (Inner ρ)), (List.replicate n (⟨0, .idle⟩ : Thread ρ (Inner ρ)))[i]? = some th → th = ⟨0, .idle⟩ := by
    intro i th h
    exact List.eq_of_mem_replicate (List.mem_of_getElem? h)
  refine ⟨TwoPhase.start ⟨fun _ => [], [], false⟩ n, fun _ => [], [], fun _ => [], [], ?_, minv_start L opC _ n, rfl, inv_nil hnb hash⟩
  refine ⟨?_, rfl, rfl, rfl, rfl, by simp [ad], by simp [ad], by simp [ad], fun _ _ => ⟨rfl, rfl⟩, ?_, ?_, fun a ha => absurd rfl ha⟩
  · simp [TwoPhase.start, absT, absPc]
  · intro t id c h rest r x hth
    have := key t _ hth
    cases this
  · simp only [TwoPhase.start, tot_nil, empty, List.map_replicate]
    have : ∀ n : Nat, (List.replicate n (pendT (⟨0, .idle⟩ : Thread ρ (Inner ρ)))).sum = 0 := by
      intro n
      induction n with
      | zero => rfl
      | succ n ih => rw [List.replicate_succ, List.sum_cons, ih]; rfl
    rw [this]; rfl

/-- The locks of TinyDBM cover the keys of a call. -/
theorem locks_ok {e : HashMutex.Env} (he : 0 < e.slots) (nb : Nat) : (locks ρ e nb).Ok where
  keep_order := by
    intro c k hk
    simp only [locks] at hk ⊢
    cases hc : c.multi with
    | false => simpa [hc] using hk
    | true =>
      simp only [hc, if_true] at hk ⊢
      by_cases h0 : k = 0
      · simp [h0]
      · refine List.mem_cons_of_mem _ ?_
        simp only [HashMutex.otherSlots, List.mem_filter]
        exact ⟨hk, by simpa using h0⟩
  cover := by
    intro c kp hk
    simp only [locks]
    cases c.multi with
    | false =>
      simp only [Bool.false_eq_true, if_false]
      exact List.mem_map.2 ⟨kp, hk, rfl⟩
    | true =>
      simp only [if_true]
      exact HashMutex.mem_slotSet he (List.mem_map.2 ⟨kp, hk, rfl⟩)

/-! ### Values that fit -/

/-- SPECIFICATION: whatever its variables hold and whatever it is given, every processor of the call sets values that fit. -/
def CallFits (c : Call ρ) : Prop := ∀ kp ∈ c.pairs, ∀ r o v, (kp.2 r o).1 = .set v → recFits kp.1 v

def restFits (rest : List (Bytes × ProcS ρ)) : Prop := ∀ kp ∈ rest, ∀ r o v, (kp.2 r o).1 = .set v → recFits kp.1 v

def innerFits : List (Bytes × ProcS ρ) → Inner ρ → Prop
  | (k, _) :: _, .log a _ _ => tooBig k a = false
  | _, _ => True

def thFits : Pc ρ (Inner ρ) → Prop
  | .locking c _ _ => CallFits c
  | .body _ _ rest _ x => restFits rest ∧ innerFits rest x
  | _ => True

theorem tooBig_of {rest : List (Bytes × ProcS ρ)} {k : Bytes} {p : ProcS ρ} (h : restFits ((k, p) :: rest)) (r : ρ) (o : Option Bytes) :
    tooBig k (p r o).1 = false := by
  cases e : (p r o).1 with
  | set v => simpa [tooBig] using h (k, p) (by simp) r o v e
  | _ => rfl

theorem innerFits_of (rest : List (Bytes × ProcS ρ)) (x : Inner ρ) (h : ∀ a pos r, x ≠ .log a pos r) : innerFits rest x := by
  cases rest with
  | nil => trivial
  | cons kp rest =>
    cases x with
    | log a pos r => exact absurd rfl (h a pos r)
    | _ => trivial

theorem todo_ne (bi : Nat) (k : Bytes) (a : Action) (pos : Pos) : ∀ a' pos' (r : ρ), todo bi k a pos ≠ .log a' pos' r := by
  intro a' pos' r
  cases a <;> cases pos <;> simp [todo]

theorem big_body {loc : Bytes → Nat} {m : Mem} {w : Bool} {rest : List (Bytes × ProcS ρ)} {r : ρ} {x : Inner ρ} (a : Addr) (h1 : restFits rest)
    (h2 : innerFits rest x) : (bodyStep loc m a w rest r x).1.big = m.big ∧ restFits (bodyStep loc m a w rest r x).2.1 ∧
      innerFits (bodyStep loc m a w rest r x).2.1 (bodyStep loc m a w rest r x).2.2.2 := by
  have lk : ∀ bi p q, (link m bi p q).big = m.big := by
    intro bi p q
    cases p with
    | none => rfl
    | some p => simp only [link]; split <;> rfl
  cases rest with
  | nil =>
    cases x with
    | enter => exact ⟨rfl, h1, trivial⟩
    | «at» t p q => cases q <;> exact ⟨rfl, h1, trivial⟩
    | log a' pos r' => exact ⟨rfl, h1, trivial⟩
    | rem1 bi p q ch => simp only [bodyStep]; split <;> exact ⟨rfl, h1, trivial⟩
    | rem2 bi p ch => exact ⟨lk _ _ _, h1, trivial⟩
    | upd1 bi k p q ch v old =>
      simp only [bodyStep]
      cases hm : reserializeAt m a k q ch v old with
      | none => exact ⟨rfl, h1, trivial⟩
      | some y =>
        refine ⟨?_, h1, trivial⟩
        simp only [reserializeAt] at hm
        repeat' split at hm
        all_goals first | cases hm; rfl | cases hm
    | upd2 bi p q new => simp only [bodyStep]; split <;> exact ⟨by first | exact lk _ _ _ | rfl, h1, trivial⟩
    | add1 bi k v t => simp only [bodyStep]; repeat' split
                       all_goals exact ⟨rfl, h1, trivial⟩
    | add2 bi new => exact ⟨rfl, h1, trivial⟩
    | cnt d => exact ⟨rfl, h1, trivial⟩
  | cons kp rest' =>
    obtain ⟨k, p⟩ := kp
    have ht : restFits rest' := fun kp hk => h1 kp (by simp [hk])
    have nf : innerFits rest' (.enter : Inner ρ) := innerFits_of _ _ (by simp)
    cases x with
    | enter => exact ⟨rfl, h1, trivial⟩
    | «at» t q ptr =>
      cases ptr with
      | none =>
        simp only [bodyStep]
        split
        · split
          · rename_i v hv
            refine ⟨rfl, h1, ?_⟩
            simp only [innerFits]
            rw [← hv]; exact tooBig_of h1 r none
          · exact ⟨rfl, ht, nf⟩
        · exact ⟨rfl, ht, nf⟩
      | some ptr =>
        simp only [bodyStep]
        split
        · exact ⟨rfl, h1, trivial⟩
        · split
          · exact ⟨rfl, h1, trivial⟩
          · split
            · split
              · exact ⟨rfl, h1, tooBig_of h1 r _⟩
              · exact ⟨rfl, ht, nf⟩
            · exact ⟨rfl, h1, trivial⟩
    | log a' pos r' =>
      simp only [innerFits] at h2
      simp only [bodyStep, h2, Bool.false_eq_true, if_false]
      exact ⟨trivial, ht, innerFits_of _ _ (todo_ne _ _ _ _)⟩
    | rem1 bi p q ch => simp only [bodyStep]; split <;> exact ⟨rfl, h1, trivial⟩
    | rem2 bi p ch => exact ⟨lk _ _ _, h1, trivial⟩
    | upd1 bi k p q ch v old =>
      simp only [bodyStep]
      cases hm : reserializeAt m a k q ch v old with
      | none => exact ⟨rfl, h1, trivial⟩
      | some y =>
        refine ⟨?_, h1, trivial⟩
        simp only [reserializeAt] at hm
        repeat' split at hm
        all_goals first | cases hm; rfl | cases hm
    | upd2 bi p q new => simp only [bodyStep]; split <;> exact ⟨by first | exact lk _ _ _ | rfl, h1, trivial⟩
    | add1 bi k v t => simp only [bodyStep]; repeat' split
                       all_goals exact ⟨rfl, h1, trivial⟩
    | add2 bi new => exact ⟨rfl, h1, trivial⟩
    | cnt d => exact ⟨rfl, h1, trivial⟩

/-- SPECIFICATION: all calls that are made set values that fit. -/
def EventsFit (es : List (Nat × Act ρ Addr)) : Prop := ∀ t c, (t, Act.call c) ∈ es → CallFits c

theorem fits_step {L : Locks ρ} {s : CState ρ} (hb : s.mem.big = false) (hf : ∀ th ∈ s.threads, thFits th.pc) (ev : Nat × Act ρ Addr)
    (he : ∀ c, ev.2 = .call c → CallFits c) :
    (TwoPhase.step L (body L.loc) s ev).mem.big = false ∧ ∀ th ∈ (TwoPhase.step L (body L.loc) s ev).threads, thFits th.pc := by
  obtain ⟨t, act⟩ := ev
  have setF : ∀ th', thFits th'.pc → ∀ th ∈ s.threads.set t th', thFits th.pc := by
    intro th' h' th hth
    rcases List.mem_or_eq_of_mem_set hth with h | h
    · exact hf th h
    · rw [h]; exact h'
  cases hth : s.threads[t]? with
  | none => simp only [TwoPhase.step, hth]; exact ⟨hb, hf⟩
  | some th =>
  have h0 := hf th (List.mem_of_getElem? hth)
  obtain ⟨id, pc⟩ := th
  cases pc with
  | idle =>
    cases act with
    | go a => simp only [TwoPhase.step, hth]; exact ⟨hb, hf⟩
    | call c => simp only [TwoPhase.step, hth]; exact ⟨hb, setF _ (he c rfl)⟩
  | locking c got todo =>
    cases act with
    | call c' => cases todo <;> (simp only [TwoPhase.step, hth]; exact ⟨hb, hf⟩)
    | go a =>
      cases todo with
      | nil => simp only [TwoPhase.step, hth]; exact ⟨hb, setF _ ⟨h0, innerFits_of _ _ (by simp [body])⟩⟩
      | cons k todo =>
        simp only [TwoPhase.step, hth]
        split
        · exact ⟨hb, setF _ h0⟩
        · exact ⟨hb, hf⟩
  | unlocking c h r =>
    cases act with
    | call c' => cases h <;> (simp only [TwoPhase.step, hth]; exact ⟨hb, hf⟩)
    | go a => cases h <;> (simp only [TwoPhase.step, hth]; exact ⟨hb, setF _ trivial⟩)
  | body c h rest r x =>
    cases act with
    | call c' => simp only [TwoPhase.step, hth]; exact ⟨hb, hf⟩
    | go a =>
      simp only [TwoPhase.step, hth]
      split
      · exact ⟨hb, setF _ trivial⟩
      · have := big_body (loc := L.loc) (m := s.mem) (w := c.writable) (r := r) a h0.1 h0.2
        exact ⟨by simp only [body]; rw [this.1]; exact hb, setF _ this.2⟩

theorem good_run {L : Locks ρ} (hok : L.Ok) {nb : Nat} (hnb : 0 < nb) {hash : Bytes → Nat → Nat} (hloc : L.loc = fun k => hash k nb)
    (hr : InRange hash) (n : Nat) (es : List (Nat × Act ρ Addr)) (he : EventsFit es) :
    Good L nb hash (TwoPhase.run L (body L.loc) empty n es) := by
  have key : ∀ (es : List (Nat × Act ρ Addr)) (s : CState ρ), EventsFit es → Good L nb hash s → s.mem.big = false →
      (∀ th ∈ s.threads, thFits th.pc) → Good L nb hash (es.foldl (TwoPhase.step L (body L.loc)) s) := by
    intro es
    induction es with
    | nil => intro s _ h _ _; exact h
    | cons ev es ih =>
      intro s h1 h2 h3 h4
      obtain ⟨f1, f2⟩ := fits_step (L := L) h3 h4 ev (fun c hc => h1 ev.1 c (by rw [← hc]; simp))
      exact ih _ (fun t c h => h1 t c (by simp [h])) (good_step hok hloc hr h2 ev f1) f1 f2
  refine key es _ he (good_start L hnb hash n) rfl ?_
  intro th h
  rw [List.eq_of_mem_replicate h]
  trivial

end

end Verif.Tiny.Conc
