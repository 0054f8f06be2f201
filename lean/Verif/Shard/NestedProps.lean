import Verif.Shard.NestedProg
/-
C79: `CompareExchangeMulti` of ShardDBM beside the methods for one record.
-/
namespace Verif.Shard.Nested
open Verif Verif.Api Verif.Linear

section
variable {σ τ : Type} {C : Cfg} {D : DbmImpl σ} {inv : σ → Prop} {vw : σ → Dict} {fits : Bytes → Bytes → Prop}

theorem run_dict (hh : HashOk C.hash) (hn : 0 < C.shards) (h0 : 0 < C.env.slots) (d : Dict) (n : Nat) (es : List (Nat × Act τ)) :
    ∃ ord A, NInv (slotOf C) C d (run C dictImpl d n es) ord A := by
  have key : ∀ (es : List (Nat × Act τ)) (s : Sys Dict τ), (∃ ord A, NInv (slotOf C) C d s ord A) →
      ∃ ord A, NInv (slotOf C) C d (es.foldl (step C dictImpl) s) ord A := by
    intro es
    induction es with
    | nil => exact fun s h => h
    | cons ev es ih =>
      rintro s ⟨ord, A, h⟩
      exact ih _ (step_inv (fun op => progOk hh hn h0 op) h ev)
  exact key es _ ⟨[], d, start_inv _ _ _ _⟩

/-- The values that are left to be stored are within the limits. -/
def IFits (fits : Bytes → Bytes → Prop) : Instr τ → Prop
  | .change k v => v ≠ .null → fits k v.bytes
  | .proc k p => ∀ o, ActFits fits k (p o).1
  | _ => True

def PFits (C : Cfg) (fits : Bytes → Bytes → Prop) : Pc τ → Prop
  | .idle => True
  | .down op _ _ => ∀ i ∈ upProg C op, IFits fits i
  | .up _ _ todo _ => ∀ i ∈ todo, IFits fits i

theorem prog_fits {op : Op τ} (h : OpFits fits op) : ∀ i ∈ upProg C op, IFits fits i := by
  cases op with
  | one k w p =>
    intro i hi
    simp only [upProg, List.mem_cons, List.not_mem_nil, or_false] at hi
    rcases hi with rfl | rfl
    · exact h
    · trivial
  | cex ex de =>
    intro i hi
    obtain ⟨g, hg, hi⟩ := List.mem_flatMap.1 hi
    rw [List.mem_reverse] at hg
    rcases List.mem_append.1 hi with hi | hi
    · obtain ⟨kv, hkv, rfl⟩ := List.mem_map.1 hi
      rw [((groups_mem _ _ _ _).1 hg).2.2.1] at hkv
      exact h kv (List.mem_filter.1 hkv).1
    · obtain ⟨x, _, rfl⟩ := List.mem_map.1 hi
      trivial

/-- The shards stand for the dictionary, and the threads are at the same places. -/
structure Same (C : Cfg) (inv : σ → Prop) (vw : σ → Dict) (fits : Bytes → Bytes → Prop) (s : Sys (State σ) τ) (d : Sys Dict τ) : Prop where
  inv : Inv C.hash inv vw s.mem
  mem : view C.hash vw s.mem.shards = d.mem
  thr : s.threads = d.threads
  next : s.next = d.next
  hist : s.hist = d.hist
  fits : ∀ th ∈ s.threads, PFits C fits th.pc

theorem actFits_changes (k : Bytes) (v : Arg) (o : Option Bytes) (h : v ≠ .null → fits k v.bytes) : ActFits fits k (changes v o).1 := by
  cases o <;> simp only [changes] <;> split <;> rename_i hv
  · trivial
  · exact h hv
  · trivial
  · exact h hv

theorem actFits_checks (k : Bytes) (e : Arg) (o : Option Bytes) : ActFits fits k (checks e o).1 := by
  cases o <;> trivial

theorem Same.step (hh : HashOk C.hash) (hL : Lawful D inv vw fits) {s : Sys (State σ) τ} {d : Sys Dict τ} (h : Same C inv vw fits s d) (ev : Nat × Act τ)
    (hf : ∀ op, ev.2 = .call op → OpFits fits op) : Same C inv vw fits (step C (impl C.hash D) s ev) (step C dictImpl d ev) := by
  obtain ⟨t, a⟩ := ev
  have hset : ∀ (x : Thread τ), PFits C fits x.pc → ∀ th ∈ s.threads.set t x, PFits C fits th.pc := by
    intro x hx th hth
    rcases List.mem_or_eq_of_mem_set hth with h1 | rfl
    · exact h.fits th h1
    · exact hx
  have hproc : ∀ {α : Type} (k : Bytes) (w : Bool) (p : ProcR α), (∀ o, ActFits fits k (p o).1) →
      Inv C.hash inv vw ((impl C.hash D).process s.mem k w p).1 ∧ view C.hash vw ((impl C.hash D).process s.mem k w p).1.shards = (dictImpl.process d.mem k w p).1 ∧
        ((impl C.hash D).process s.mem k w p).2 = (dictImpl.process d.mem k w p).2 := by
    intro α k w p hp
    have := process_inv hh hL s.mem k w p h.inv (hp _)
    rw [h.mem] at this
    exact ⟨this.1, congrArg Prod.fst this.2, congrArg Prod.snd this.2⟩
  unfold Nested.step
  simp only
  rw [← h.thr]
  cases ht : s.threads[t]? with
  | none => exact h
  | some th =>
  have hth := h.fits th (List.mem_of_getElem? ht)
  obtain ⟨id, pc⟩ := th
  cases pc with
  | idle =>
    cases a with
    | go => exact h
    | call op => exact ⟨h.inv, h.mem, by simp only [h.next], by simp only [h.next], by simp only [h.next, h.hist], hset _ (prog_fits (hf op rfl))⟩
  | down op hl todo =>
    cases a with
    | call op' => cases todo with
      | nil => exact h
      | cons i todo => cases i <;> exact h
    | go =>
      cases todo with
      | nil => exact ⟨h.inv, h.mem, rfl, h.next, h.hist, hset _ hth⟩
      | cons i todo =>
        cases i with
        | change k v => exact h
        | proc k p => exact h
        | lock k =>
          simp only
          split
          · exact ⟨h.inv, h.mem, rfl, h.next, h.hist, hset _ hth⟩
          · exact h
        | unlock k => exact ⟨h.inv, h.mem, rfl, h.next, h.hist, hset _ hth⟩
        | check k e =>
          obtain ⟨h1, h2, h3⟩ := hproc k op.writable (checks e) (actFits_checks k e)
          refine ⟨h1, h2, by simp only [h3], h.next, h.hist, hset _ ?_⟩
          simp only
          split
          · exact hth
          · intro i hi
            obtain ⟨x, _, rfl⟩ := List.mem_map.1 hi
            trivial
  | up op hl todo out =>
    cases a with
    | call op' => cases todo with
      | nil => cases hl <;> exact h
      | cons i todo => cases i <;> exact h
    | go =>
      cases todo with
      | nil =>
        cases hl with
        | nil => exact ⟨h.inv, h.mem, rfl, h.next, by simp only [h.hist], hset _ trivial⟩
        | cons x hl => exact h
      | cons i todo =>
        have hrest : ∀ i ∈ todo, IFits fits i := fun i hi => hth i (by simp [hi])
        have hi := hth i (by simp)
        cases i with
        | lock k => exact h
        | check k e => exact h
        | change k v =>
          obtain ⟨h1, h2, _⟩ := hproc k op.writable (changes v) fun o => actFits_changes k v o hi
          exact ⟨h1, h2, rfl, h.next, h.hist, hset _ hrest⟩
        | proc k p =>
          obtain ⟨h1, h2, h3⟩ := hproc k op.writable p hi
          exact ⟨h1, h2, by simp only [h3], h.next, h.hist, hset _ hrest⟩
        | unlock k => exact ⟨h.inv, h.mem, rfl, h.next, h.hist, hset _ hrest⟩

theorem same_run (hh : HashOk C.hash) (hL : Lawful D inv vw fits) {st : State σ} (hi : Inv C.hash inv vw st) (n : Nat) (es : List (Nat × Act τ))
    (hf : ∀ t op, (t, Act.call op) ∈ es → OpFits fits op) :
    Same C inv vw fits (run C (impl C.hash D) st n es) (run C dictImpl (view C.hash vw st.shards) n es) := by
  have key : ∀ (es : List (Nat × Act τ)) (s : Sys (State σ) τ) (d : Sys Dict τ), (∀ t op, (t, Act.call op) ∈ es → OpFits fits op) → Same C inv vw fits s d →
      Same C inv vw fits (es.foldl (Nested.step C (impl C.hash D)) s) (es.foldl (Nested.step C dictImpl) d) := by
    intro es
    induction es with
    | nil => exact fun s d _ h => h
    | cons ev es ih =>
      intro s d hf h
      refine ih _ _ (fun t op hm => hf t op (by simp [hm])) (h.step hh hL ev fun op hop => hf ev.1 op ?_)
      rw [← hop]; exact List.mem_cons_self
  refine key es _ _ hf ⟨hi, rfl, rfl, rfl, rfl, fun th hth => ?_⟩
  have := List.eq_of_mem_replicate hth
  subst this
  trivial

/-- C79: any number of threads call `CompareExchangeMulti` of a ShardDBM and methods for one record, for keys of any shards: there is an
order of the calls that agrees with the history, and the calls done one after the other in this order on one dictionary have these outcomes.
When no call is under way, the shards have the records that this order leaves. -/
theorem C79_compare_exchange_linearizable (hh : HashOk C.hash) (h0 : 0 < C.env.slots) (hL : Lawful D inv vw fits) {st : State σ}
    (hi : Inv C.hash inv vw st) (hn : C.shards = st.shards.length) (n : Nat) (es : List (Nat × Act τ))
    (hf : ∀ t op, (t, Act.call op) ∈ es → OpFits fits op) :
    let s := run C (impl C.hash D) st n es
    Inv C.hash inv vw s.mem ∧ ∃ ord f, Explains ord s.hist ∧ Serial Does (view C.hash vw st.shards) ord f ∧
      (Quiet s → view C.hash vw s.mem.shards = f) := by
  intro s
  have hpos : 0 < C.shards := by rw [hn]; exact List.length_pos_iff.2 hi.ne
  have hs := same_run (C := C) (τ := τ) hh hL hi n es hf
  obtain ⟨ord, A, h⟩ := run_dict (τ := τ) hh hpos h0 (view C.hash vw st.shards) n es
  refine ⟨hs.inv, ord, A, ?_, h.ser, fun hq => ?_⟩
  · rw [hs.hist]; exact h.exp
  · rw [hs.mem]
    funext k
    refine h.free k fun j th hj => ?_
    rw [hq th (by rw [hs.thr]; exact List.mem_of_getElem? hj)]
    exact fun h => h

/-! ### Progress -/

/-- What is left to do. -/
def work (C : Cfg) : Pc τ → Nat
  | .idle => 0
  | .down op h todo => 2 + 2 * todo.length + h.length + (upProg C op).length
  | .up _ _ todo _ => 1 + todo.length

def total (C : Cfg) (ts : List (Thread τ)) : Nat := (ts.map fun th => work C th.pc).sum

theorem total_set (ts : List (Thread τ)) (i : Nat) (th th' : Thread τ) (h : ts[i]? = some th) (hw : work C th'.pc < work C th.pc) :
    total C (ts.set i th') < total C ts := by
  have := HashMutex.sum_set (fun th : Thread τ => work C th.pc) ts i th th' h
  unfold total
  omega

theorem canLock_false {ts : List (Thread τ)} {i k : Nat} {w : Bool} (h : canLock ts i k w = false) :
    ∃ (j : Nat) (th : Thread τ), ts[j]? = some th ∧ k ∈ held th.pc := by
  unfold canLock at h
  rw [List.all_eq_false] at h
  obtain ⟨j, _, hj⟩ := h
  cases hth : ts[j]? with
  | none => rw [hth] at hj; exact absurd rfl hj
  | some th =>
    rw [hth] at hj
    refine ⟨j, th, hth, ?_⟩
    simp only [Bool.or_eq_true, not_or, Bool.not_eq_true] at hj
    simpa using hj.1.2

/-- The thread waits for a lock. -/
def Stuck (s : Sys Dict τ) (i : Nat) : Prop :=
  ∃ th op h k todo, s.threads[i]? = some th ∧ th.pc = .down op h (.lock k :: todo) ∧ canLock s.threads i k op.writable = false

theorem step_work {S : Bytes → Nat} {d0 : Dict} {s : Sys Dict τ} {ord : List (Nat × Op τ × Out τ)} {A : Dict} (h : NInv S C d0 s ord A) {t : Nat} {th : Thread τ}
    (ht : s.threads[t]? = some th) (ha : th.pc ≠ .idle) (hst : ¬ Stuck s t) : total C (step C dictImpl s (t, .go)).threads < total C s.threads := by
  have hth := h.thr t th ht
  unfold step
  simp only [ht]
  obtain ⟨id, pc⟩ := th
  cases pc with
  | idle => exact absurd rfl ha
  | down op hl todo =>
    simp only [ThOk] at hth
    obtain ⟨_, _, c, hdn, _, _⟩ := hth
    cases todo with
    | nil => exact total_set _ _ _ _ ht (by simp only [work, List.length_nil]; omega)
    | cons i todo =>
      cases i with
      | change k v => exact hdn.elim
      | proc k p => exact hdn.elim
      | lock k =>
        simp only
        split
        · exact total_set _ _ _ _ ht (by simp only [work, List.length_cons, List.length_append, List.length_nil]; omega)
        · rename_i hc
          exact absurd ⟨_, op, hl, k, todo, ht, rfl, by simpa using hc⟩ hst
      | unlock k =>
        have := List.length_filter_le (fun x => decide (x ≠ k)) hl
        exact total_set _ _ _ _ ht (by simp only [work, List.length_cons]; omega)
      | check k e =>
        refine total_set _ _ _ _ ht ?_
        simp only
        split
        · simp only [work, List.length_cons]; omega
        · simp only [work, List.length_cons, List.length_map, List.length_reverse]; omega
  | up op hl todo out =>
    simp only [ThOk] at hth
    cases todo with
    | nil =>
      have : hl = [] := hth.1
      subst this
      exact total_set _ _ _ _ ht (by simp only [work]; omega)
    | cons i todo =>
      cases i with
      | lock k => exact hth.1.elim
      | check k e => exact hth.1.elim
      | change k v => exact total_set _ _ _ _ ht (by simp only [work, List.length_cons]; omega)
      | proc k p => exact total_set _ _ _ _ ht (by simp only [work, List.length_cons]; omega)
      | unlock k => exact total_set _ _ _ _ ht (by simp only [work, List.length_cons]; omega)

theorem not_stuck {S : Bytes → Nat} {d0 : Dict} {s : Sys Dict τ} {ord : List (Nat × Op τ × Out τ)} {A : Dict} (h : NInv S C d0 s ord A)
    (hq : ¬ Quiet s) : ∃ (t : Nat) (th : Thread τ), s.threads[t]? = some th ∧ th.pc ≠ .idle ∧ ¬ Stuck s t := by
  have : ∃ th ∈ s.threads, th.pc ≠ .idle := Classical.byContradiction fun hn => hq fun th hth => Classical.byContradiction fun hp => hn ⟨th, hth, hp⟩
  obtain ⟨th1, hm1, hact⟩ := this
  obtain ⟨i1, h1⟩ := List.getElem?_of_mem hm1
  by_cases hst : Stuck s i1
  · obtain ⟨th, op, hl, k, todo, h2, hpc, hl⟩ := hst
    obtain ⟨j, thj, hj, hk⟩ := canLock_false hl
    obtain ⟨j', h4, h5, h6⟩ := LockOrder.exists_free (n := s.threads.length) (held := fun j => ((s.threads[j]?).map fun t => held t.pc).getD [])
      (want := fun j => (s.threads[j]?).bind fun t => match t.pc with
        | .down _ _ (.lock k :: _) => some k
        | _ => none) (stuck := Stuck s)
      (fun i k hik x hx => by
        obtain ⟨t, ht, hk⟩ := Option.bind_eq_some_iff.1 hik
        rw [ht] at hx
        simp only [Option.map_some, Option.getD_some] at hx
        have hth := h.thr i t ht
        split at hk
        · rename_i op hl k' todo hpc
          cases hk
          simp only [ThOk, hpc] at hth
          rw [hpc] at hx
          obtain ⟨_, _, c, hdn, _⟩ := hth
          exact hdn.1 x hx
        · cases hk)
      (fun i _ ⟨t, op, hl, k, todo, h1, h2, h3⟩ => by
        obtain ⟨j, thj, hj, hk⟩ := canLock_false h3
        refine ⟨k, j, ?_, (List.getElem?_eq_some_iff.1 hj).1, ?_⟩
        · rw [h1]; simp only [Option.bind_some, h2]
        · rw [hj]; exact hk)
      (List.getElem?_eq_some_iff.1 hj).1 (by rw [hj]; exact List.ne_nil_of_mem hk)
    have hj' := List.getElem?_eq_getElem h4
    refine ⟨j', _, hj', ?_, h6⟩
    intro hid
    rw [hj'] at h5
    simp only [Option.map_some, Option.getD_some, hid] at h5
    exact h5 rfl
  · exact ⟨i1, th1, h1, hact, hst⟩

theorem run_append {σ : Type} (D : DbmImpl σ) (m : σ) (n : Nat) (a b : List (Nat × Act τ)) : run C D m n (a ++ b) = b.foldl (step C D) (run C D m n a) :=
  List.foldl_append ..

/-- C79: these calls never wait for one another in a circle: whatever has happened, all the calls under way can be brought to their end. -/
theorem C79_compare_exchange_completes (hh : HashOk C.hash) (h0 : 0 < C.env.slots) (hL : Lawful D inv vw fits) {st : State σ}
    (hi : Inv C.hash inv vw st) (hn : C.shards = st.shards.length) (n : Nat) (es : List (Nat × Act τ))
    (hf : ∀ t op, (t, Act.call op) ∈ es → OpFits fits op) :
    ∃ ts : List Nat, Quiet (run C (impl C.hash D) st n (es ++ ts.map fun t => (t, .go))) := by
  have hpos : 0 < C.shards := by rw [hn]; exact List.length_pos_iff.2 hi.ne
  have key : ∀ (w : Nat) (es : List (Nat × Act τ)), total C (run C dictImpl (view C.hash vw st.shards) n es).threads ≤ w →
      ∃ ts : List Nat, Quiet (run C dictImpl (view C.hash vw st.shards) n (es ++ ts.map fun t => (t, .go))) := by
    intro w
    induction w with
    | zero =>
      intro es hw
      by_cases hq : Quiet (run C dictImpl (view C.hash vw st.shards) n es)
      · exact ⟨[], by simpa using hq⟩
      · obtain ⟨ord, A, h⟩ := run_dict (τ := τ) hh hpos h0 (view C.hash vw st.shards) n es
        obtain ⟨t, th, ht, ha, hst⟩ := not_stuck h hq
        have := step_work h ht ha hst
        omega
    | succ w ih =>
      intro es hw
      by_cases hq : Quiet (run C dictImpl (view C.hash vw st.shards) n es)
      · exact ⟨[], by simpa using hq⟩
      · obtain ⟨ord, A, h⟩ := run_dict (τ := τ) hh hpos h0 (view C.hash vw st.shards) n es
        obtain ⟨t, th, ht, ha, hst⟩ := not_stuck h hq
        have hw' := step_work h ht ha hst
        obtain ⟨ts, hts⟩ := ih (es ++ [(t, .go)]) (by
          rw [run_append]
          exact Nat.le_of_lt_succ (Nat.lt_of_lt_of_le hw' hw))
        exact ⟨t :: ts, by simpa using hts⟩
  obtain ⟨ts, hts⟩ := key _ es (Nat.le_refl _)
  refine ⟨ts, ?_⟩
  have hs := same_run (C := C) (τ := τ) hh hL hi n (es ++ ts.map fun t => (t, .go)) (fun t op hm => by
    rcases List.mem_append.1 hm with hm | hm
    · exact hf t op hm
    · simp at hm)
  intro th hth
  rw [hs.thr] at hth
  exact hts th hth

end

end Verif.Shard.Nested
