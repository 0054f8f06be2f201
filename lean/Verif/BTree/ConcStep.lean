import Verif.BTree.ConcProof
import Verif.BTree.Frame
/-
Every step of concurrent calls keeps the invariant.
-/
namespace Verif.BTree.Conc
open Verif
open Verif.TwoPhase (Call HEv Locks MInv SP SerialR ThOk OpOk MMem aBody Explains Serial get_set)

section
variable {ρ : Type} {P : Par} {s : Sys ρ} {L : Layer} {ord : List (Nat × Call ρ × ρ)} {A : Nat → Option Bytes} {lgA : List LogOp} {A0 its : Nat → Option Bytes}

theorem absTh_set (c : Cfg) (L : Layer) {ts : List (Thread ρ)} {i : Nat} {th x : Thread ρ} (hth : ts[i]? = some th) (he : absTh c L x = absTh c L th) :
    (ts.set i x).map (absTh c L) = ts.map (absTh c L) := by
  apply List.ext_getElem?
  intro j
  rw [List.getElem?_map, List.getElem?_map, get_set hth]
  split
  · rename_i hj; subst hj; rw [hth]; simp [he]
  · rfl

theorem abs_get {i : Nat} {th : Thread ρ} (hth : s.threads[i]? = some th) : (absSys P.cfg L s).threads[i]? = some (absTh P.cfg L th) := by
  simp [absSys, hth]

/-- A step that changes where a thread is, and nothing in the memory. -/
theorem ctrl (h : CInv P A0 its s L ord A lgA) {i : Nat} {th : Thread ρ} (hth : s.threads[i]? = some th) (x : Thread ρ) (nx : Nat) (hs : List (HEv ρ))
    {ord' : List (Nat × Call ρ × ρ)} {A' : Nat → Option Bytes} {lg' : List LogOp}
    (hm : MInv (locks P.cfg L) opT A0 (absSys P.cfg L ⟨s.mem, s.threads.set i x, nx, hs⟩) ord' A' lg')
    (hr : P.paged = true → ∀ id ∈ x.pc.refs, s.mem.cached id = true) (ht : TOk P L s.mem x.pc) :
    CInv P A0 its ⟨s.mem, s.threads.set i x, nx, hs⟩ L ord' A' lg' := by
  refine ⟨h.inv, hm, h.fault, h.clean, fun hp t htm => ?_, fun t htm => ?_, h.lastOk, h.iters, h.logd⟩
  · rcases List.mem_or_eq_of_mem_set htm with h1 | h1
    · exact h.refs hp t h1
    · rw [h1]; exact hr hp
  · rcases List.mem_or_eq_of_mem_set htm with h1 | h1
    · exact h.thr t h1
    · rw [h1]; exact ht

/-- The same, when the locking does not see it. -/
theorem stutter (h : CInv P A0 its s L ord A lgA) {i : Nat} {th : Thread ρ} (hth : s.threads[i]? = some th) (pc : Pc ρ) (he : absPc P.cfg L pc = absPc P.cfg L th.pc)
    (hr : P.paged = true → ∀ id ∈ pc.refs, s.mem.cached id = true) (ht : TOk P L s.mem pc) :
    ∃ L' ord' A' lg', CInv P A0 its { s with threads := s.threads.set i ⟨th.id, pc⟩ } L' ord' A' lg' := by
  refine ⟨L, ord, A, lgA, ctrl h hth _ _ _ ?_ hr ht⟩
  have := h.minv
  unfold absSys at this ⊢
  rw [absTh_set P.cfg L hth (by simp [absTh, he])]
  exact this

/-- The same, when it is a step of the locking. -/
theorem moveL (h : CInv P A0 its s L ord A lgA) {i : Nat} {th : Thread ρ} (hth : s.threads[i]? = some th) (x : Thread ρ) (nx : Nat) (hs : List (HEv ρ)) (act : TwoPhase.Act ρ Unit)
    (he : absSys P.cfg L ⟨s.mem, s.threads.set i x, nx, hs⟩ = TwoPhase.step (locks P.cfg L) (aBody enc opT) (absSys P.cfg L s) (i, act))
    (hr : P.paged = true → ∀ id ∈ x.pc.refs, s.mem.cached id = true) (ht : TOk P L s.mem x.pc) :
    ∃ ord' A' lg', CInv P A0 its ⟨s.mem, s.threads.set i x, nx, hs⟩ L ord' A' lg' := by
  obtain ⟨o, A', l', hm⟩ := TwoPhase.minv_step (locks_ok P.cfg L) opT_ok h.minv (i, act) (by
    show (TwoPhase.step (locks P.cfg L) (aBody enc opT) (absSys P.cfg L s) (i, act)).mem.big = false
    rw [← he]; rfl)
  have hm : MInv (locks P.cfg L) opT A0 (TwoPhase.step (locks P.cfg L) (aBody enc opT) (absSys P.cfg L s) (i, act)) o A' l' := hm
  rw [← he] at hm
  exact ⟨o, A', l', ctrl h hth x nx hs hm hr ht⟩

theorem move (h : CInv P A0 its s L ord A lgA) {i : Nat} {th : Thread ρ} (hth : s.threads[i]? = some th) (x : Thread ρ) (nx : Nat) (hs : List (HEv ρ)) (act : TwoPhase.Act ρ Unit)
    (he : absSys P.cfg L ⟨s.mem, s.threads.set i x, nx, hs⟩ = TwoPhase.step (locks P.cfg L) (aBody enc opT) (absSys P.cfg L s) (i, act))
    (hr : P.paged = true → ∀ id ∈ x.pc.refs, s.mem.cached id = true) (ht : TOk P L s.mem x.pc) :
    ∃ L' ord' A' lg', CInv P A0 its ⟨s.mem, s.threads.set i x, nx, hs⟩ L' ord' A' lg' :=
  ⟨L, moveL h hth x nx hs act he hr ht⟩

theorem found (hc : P.cfg.Ok) (h : CInv P A0 its s L ord A lgA) (k : Bytes) :
    ∃ id, search P.cfg s.mem.tree k = some id ∧ locate P.cfg.lt k L = some id ∧ leafOf P.cfg L k = id ∧ (s.mem.tree.leaves id).isSome = true := by
  obtain ⟨A, e, B, h1, h2⟩ := search_spec hc h.inv.upper h.inv.lower.seps k
  have hl := h2.locate hc.weak h.inv.lower.seps
  obtain ⟨l, hl'⟩ := h.inv.lower.linked.get (e := e) (by rw [h2.1]; simp)
  exact ⟨e.2, h1, hl, by simp [leafOf, hl], by rw [hl']; rfl⟩

theorem leaf_some (hc : P.cfg.Ok) {t : State} (h : Inv P.cfg t L) {k : Bytes} {id : Nat} (hk : locate P.cfg.lt k L = some id) : (t.leaves id).isSome = true := by
  obtain ⟨A, e, B, h2, rfl⟩ := at_of_locate hc.weak h.lower.seps hk
  obtain ⟨l, hl'⟩ := h.lower.linked.get (e := e) (by rw [h2.1]; simp)
  rw [hl']; rfl

/-! ### Leaves that are dropped -/

theorem evict_ok (hc : P.cfg.Ok) {ts : List (Thread ρ)} {m : Mem} (hi : Inv P.cfg m.tree L) (hcl : ∀ i, m.cached i = false → m.disk i = m.tree.leaves i)
    (hr : ∀ th ∈ ts, ∀ id ∈ th.pc.refs, m.cached id = true) (ht : ∀ th ∈ ts, TOk P L m th.pc) (id : Nat) (hid : ∀ th ∈ ts, th.pc.reading ≠ some id) :
    (evict ts m id).tree = m.tree ∧ (evict ts m id).fault = m.fault ∧ (∀ i, (evict ts m id).cached i = false → (evict ts m id).disk i = m.tree.leaves i) ∧
      (∀ th ∈ ts, ∀ i ∈ th.pc.refs, (evict ts m id).cached i = true) ∧ ∀ th ∈ ts, TOk P L (evict ts m id) th.pc := by
  unfold evict
  split
  · rename_i hcond
    simp only [Bool.and_eq_true, List.all_eq_true] at hcond
    refine ⟨rfl, rfl, ?_, ?_, ?_⟩
    · intro i h
      by_cases hi : i = id
      · subst hi; simp [upd]
      · simp only [if_neg hi] at h
        simp only [upd, if_neg hi]
        exact hcl i h
    · intro th hth i hi
      have h1 := hcond.2 th hth
      have : i ≠ id := by
        rintro rfl
        simp [hi] at h1
      simp only [if_neg this]
      exact hr th hth i hi
    · intro th hth
      have h1 := ht th hth
      have h2 := hid th hth
      obtain ⟨tid, pc⟩ := th
      cases pc with
      | load cl ids j todo =>
        obtain ⟨a1, a2, dn, k, a3, a4, a5⟩ := h1
        refine ⟨a1, ?_, dn, k, a3, a4, a5⟩
        by_cases hj : j = id
        · subst hj; simp only [upd, if_true]; exact leaf_some hc hi a5
        · simp only [upd, if_neg hj]; exact a2
      | add cl ids j page todo =>
        obtain ⟨a1, a2, a3⟩ := h1
        have hj : j ≠ id := by
          rintro rfl; exact h2 rfl
        refine ⟨a1, fun h => a2 ?_, a3⟩
        simp only [if_neg hj] at h
        exact h
      | idle => trivial
      | begin _ => trivial
      | reorg _ => trivial
      | enter _ => trivial
      | search _ _ _ => exact h1
      | lock _ _ _ _ => exact h1
      | body _ _ _ _ _ _ => exact h1
      | unlock _ _ _ _ => trivial
      | leave _ _ _ => trivial
  · exact ⟨rfl, rfl, hcl, hr, ht⟩

theorem evicts_ok (hc : P.cfg.Ok) {ts : List (Thread ρ)} (drop : List Nat) : ∀ {m : Mem}, Inv P.cfg m.tree L → (∀ i, m.cached i = false → m.disk i = m.tree.leaves i) →
    (∀ th ∈ ts, ∀ id ∈ th.pc.refs, m.cached id = true) → (∀ th ∈ ts, TOk P L m th.pc) → (∀ id ∈ drop, ∀ th ∈ ts, th.pc.reading ≠ some id) →
    (drop.foldl (evict ts) m).tree = m.tree ∧ (drop.foldl (evict ts) m).fault = m.fault ∧
      (∀ i, (drop.foldl (evict ts) m).cached i = false → (drop.foldl (evict ts) m).disk i = m.tree.leaves i) ∧
      (∀ th ∈ ts, ∀ i ∈ th.pc.refs, (drop.foldl (evict ts) m).cached i = true) ∧ ∀ th ∈ ts, TOk P L (drop.foldl (evict ts) m) th.pc := by
  induction drop with
  | nil => intro m _ h2 h3 h4 _; exact ⟨rfl, rfl, h2, h3, h4⟩
  | cons id drop ih =>
    intro m h1 h2 h3 h4 h5
    obtain ⟨e1, e2, e3, e4, e5⟩ := evict_ok hc h1 h2 h3 h4 id (h5 id (by simp))
    obtain ⟨f1, f2, f3, f4, f5⟩ := ih (m := evict ts m id) (by rw [e1]; exact h1) (by rw [e1]; exact e3) e4 e5 fun j hj => h5 j (by simp [hj])
    refine ⟨f1.trans e1, f2.trans e2, ?_, f4, f5⟩
    rw [e1] at f3
    exact f3

/-! ### A reorganisation -/

theorem relock (L' : Layer) (h : CInv P A0 its s L ord A lgA) (hout : ∀ th ∈ s.threads, th.pc.inside = false) (m : Mem)
    (hcon : contents m.tree.leaves L' = contents s.mem.tree.leaves L) :
    MInv (locks P.cfg L') opT A0 (absSys P.cfg L' { s with mem := m }) ord A lgA := by
  have hm := h.minv
  have key : ∀ (i : Nat) (x : TwoPhase.Thread ρ Unit), (absSys P.cfg L' { s with mem := m }).threads[i]? = some x →
      ∃ x0, (absSys P.cfg L s).threads[i]? = some x0 ∧ x0.id = x.id ∧ TwoPhase.active x0.pc = TwoPhase.active x.pc ∧ TwoPhase.held x.pc = [] ∧ TwoPhase.bodyHeld x.pc = [] ∧
        ((x.pc = .idle) ∨ ∃ cl, x.pc = .locking cl [] (orderOf P.cfg L' cl) ∧ x0.pc = .locking cl [] (orderOf P.cfg L cl)) := by
    intro i x hx
    simp only [absSys, List.getElem?_map, Option.map_eq_some_iff] at hx ⊢
    obtain ⟨th, h1, rfl⟩ := hx
    have h2 := hout th (List.mem_of_getElem? h1)
    refine ⟨_, ⟨th, h1, rfl⟩, rfl, ?_⟩
    obtain ⟨id, pc⟩ := th
    cases pc with
    | idle => exact ⟨rfl, rfl, rfl, .inl rfl⟩
    | begin c => exact ⟨rfl, rfl, rfl, .inr ⟨c, rfl, rfl⟩⟩
    | reorg c => exact ⟨rfl, rfl, rfl, .inr ⟨c, rfl, rfl⟩⟩
    | enter c => exact ⟨rfl, rfl, rfl, .inr ⟨c, rfl, rfl⟩⟩
    | search _ _ _ => cases h2
    | load _ _ _ _ => cases h2
    | add _ _ _ _ _ => cases h2
    | lock _ _ _ _ => cases h2
    | body _ _ _ _ _ _ => cases h2
    | unlock _ _ _ _ => cases h2
    | leave _ _ _ => cases h2
  have key0 : ∀ (i : Nat) (x : TwoPhase.Thread ρ Unit), (absSys P.cfg L s).threads[i]? = some x → TwoPhase.bodyHeld x.pc = [] := by
    intro i x hx
    simp only [absSys, List.getElem?_map, Option.map_eq_some_iff] at hx
    obtain ⟨th, h1, rfl⟩ := hx
    have h2 := hout th (List.mem_of_getElem? h1)
    obtain ⟨id, pc⟩ := th
    cases pc <;> first | rfl | cases h2
  refine ⟨hm.ser, ?_, ?_, ?_, ?_, ?_, ?_, hm.ordLt, hm.histLt, hm.exp⟩
  · intro i x hx
    obtain ⟨x0, h1, h2, h3, h4, h5, h6⟩ := key i x hx
    have ht := hm.thr i x0 h1
    obtain ⟨id, pc⟩ := x
    obtain ⟨id0, pc0⟩ := x0
    rcases h6 with h6 | ⟨cl, h6, h7⟩
    · simp only at h6; subst h6; trivial
    · simp only at h6 h7 h2
      subst h6 h7 h2
      exact ⟨rfl, ht.2.1, ht.2.2⟩
  · intro i x hx ha
    obtain ⟨x0, h1, h2, h3, _⟩ := key i x hx
    rw [← h2]
    exact hm.lt i x0 h1 (h3.trans ha)
  · intro i j x y hx hy hne ha hb
    obtain ⟨x0, h1, h2, h3, _⟩ := key i x hx
    obtain ⟨y0, g1, g2, g3, _⟩ := key j y hy
    rw [← h2, ← g2]
    exact hm.ids i j x0 y0 h1 g1 hne (h3.trans ha) (g3.trans hb)
  · intro i j x y k hx hy hne hk
    obtain ⟨x0, h1, h2, h3, h4, _⟩ := key i x hx
    rw [h4] at hk; cases hk
  · intro i _
    have := hm.free i fun j x hx => by rw [key0 j x hx]; simp
    rw [← this]
    show OMap.dict P.cfg.lt (contents m.tree.leaves L') (dec i) = _
    rw [hcon]; rfl
  · intro k _
    have := hm.freeLog k fun j x hx => by rw [key0 j x hx]; simp
    rw [← this]; rfl

theorem upd_same {lv : Nat → Option Leaf} {id : Nat} {x : Option Leaf} (h : lv id = x) : upd lv id x = lv := by
  funext j
  simp only [upd]
  split
  · rename_i e; rw [e, h]
  · rfl

theorem mem_of_get {i : Nat} {th : Thread ρ} (h : s.threads[i]? = some th) : th ∈ s.threads := List.mem_of_getElem? h

/-- One step keeps the invariant. -/
theorem cinv_step (hc : P.cfg.Ok) (hi : ∀ a b, eqv P.cfg.lt a b = true → a = b) (h : CInv P A0 its s L ord A lgA) (ev : Nat × Act ρ)
    (hcalm : P.paged = true → ∀ ids, ev.2 = .go ids → ∀ id ∈ ids, ∀ th ∈ s.threads, th.pc.reading ≠ some id) :
    ∃ L' ord' A' lg', CInv P A0 its (step P s ev) L' ord' A' lg' := by
  obtain ⟨i, act⟩ := ev
  have same : ∃ L' ord' A' lg', CInv P A0 its s L' ord' A' lg' := ⟨L, ord, A, lgA, h⟩
  cases hth : s.threads[i]? with
  | none => simp only [step, hth]; exact same
  | some th =>
  have hok := h.thr th (mem_of_get hth)
  have hrf := fun hp => h.refs hp th (mem_of_get hth)
  have hab := abs_get (P := P) (L := L) hth
  obtain ⟨tid, pc⟩ := th
  cases pc with
  | idle =>
    cases act with
    | go ids => simp only [step, hth]; exact same
    | call c =>
      simp only [step, hth]
      refine move h hth ⟨s.next, .begin c⟩ _ _ (.call c) ?_ (by simp [Pc.refs]) trivial
      simp only [TwoPhase.step, hab, absTh, absPc]
      simp only [absSys, List.map_set, absTh, absPc, locks]
  | begin c =>
    cases act with
    | call _ => simp only [step, hth]; exact same
    | go ids =>
      simp only [step, hth]
      split
      · exact stutter h hth _ rfl (by simp [Pc.refs]) trivial
      · exact stutter h hth _ rfl (by simp [Pc.refs]) trivial
  | reorg c =>
    cases act with
    | call _ => simp only [step, hth]; exact same
    | go ids =>
      simp only [step, hth]
      split
      · rename_i hall
        have hout : ∀ th ∈ s.threads, th.pc.inside = false := by
          intro th hm
          have := (List.all_eq_true.1 hall) th hm
          simpa using this
        obtain ⟨t', L', h1, h2, h3, h4⟩ := reorgIf_spec hc h.inv true
        have hmm := relock (P := P) L' h hout (reorgMem P.cfg s.mem ids) (by simp only [reorgMem, h1]; exact h3)
        have htr : ∀ t ∈ s.threads.set i ⟨tid, .enter c⟩, t.pc.inside = false := by
          intro t ht
          rcases List.mem_or_eq_of_mem_set ht with h5 | h5
          · exact hout t h5
          · rw [h5]; rfl
        refine ⟨L', ord, A, lgA, ?_, ?_, ?_, ?_, ?_, ?_, ?_, ?_, ?_⟩
        · simp only [reorgMem, h1]; exact h2
        · unfold absSys at hmm ⊢
          simp only
          rw [absTh_set P.cfg L' hth (by simp [absTh, absPc])]
          exact hmm
        · simp only [reorgMem, h1]; exact h.fault
        · intro hp j hj
          simp only [reorgMem, h1] at hj ⊢
          cases hl : t'.leaves j with
          | none => simp
          | some l =>
            rw [hl] at hj
            simp only [Option.isSome_some, Bool.true_and, Bool.or_eq_false_iff, decide_eq_false_iff_not, ne_eq, Decidable.not_not] at hj
            simp only [Option.isSome_some, if_true]
            rw [h.clean hp j hj.1.1, hj.1.2]
        · intro _ t ht id hid
          have := htr t ht
          obtain ⟨a, pc⟩ := t
          cases pc <;> first | (cases this; done) | (cases hid; done)
        · intro t ht
          have := htr t ht
          obtain ⟨a, pc⟩ := t
          cases pc <;> first | trivial | cases this
        · simp only [reorgMem, h1]
          rw [(reorgIf_frame h1).lastOk]; exact h.lastOk
        · intro j
          simp only [reorgMem, h1]
          rw [h4.keys j]; exact h.iters j
        · simp only [reorgMem, h1]
          rw [h4.log, h3]; exact h.logd
      · exact same
  | enter c =>
    cases act with
    | call _ => simp only [step, hth]; exact same
    | go ids =>
      simp only [step, hth]
      exact stutter h hth _ rfl (by simp [Pc.refs]) ⟨[], rfl, rfl⟩
  | search c ids todo =>
    cases act with
    | call _ => cases todo <;> (simp only [step, hth]; exact same)
    | go _ =>
      obtain ⟨dn, h1, h2⟩ := hok
      cases todo with
      | nil =>
        simp only [step, hth]
        refine stutter h hth _ ?_ hrf (by simpa [TOk, h1] using h2)
        simp only [List.append_nil] at h1
        simp only [absPc, orderOf, h1, h2]
      | cons k todo =>
        obtain ⟨id, s1, s2, s3, s4⟩ := found hc h k
        simp only [step, hth, s1]
        split
        · rename_i hcond
          simp only [Bool.and_eq_true, Bool.not_eq_true'] at hcond
          refine stutter h hth _ rfl hrf ⟨hcond.1, ?_, dn, k, h1, h2, s2⟩
          rw [h.clean hcond.1 id hcond.2]; exact s4
        · rename_i hcond
          refine stutter h hth _ rfl ?_ ⟨dn ++ [k], by simp [h1], by simp [h2, s3]⟩
          intro hp j hj
          simp only [Pc.refs, List.mem_append, List.mem_singleton] at hj
          rcases hj with hj | rfl
          · exact hrf hp j hj
          · simpa [hp] using hcond
  | load c ids id todo =>
    cases act with
    | call _ => simp only [step, hth]; exact same
    | go _ =>
      obtain ⟨h1, h2, dn, k, h3, h4, h5⟩ := hok
      obtain ⟨page, hpg⟩ := Option.isSome_iff_exists.1 h2
      simp only [step, hth, hpg]
      refine stutter h hth _ rfl hrf ⟨h1, fun hu => ?_, dn, k, h3, h4, h5⟩
      rw [← h.clean h1 id hu, hpg]
  | add c ids id page todo =>
    cases act with
    | call _ => simp only [step, hth]; exact same
    | go _ =>
      obtain ⟨h1, h2, dn, k, h3, h4, h5⟩ := hok
      have hs : TOk P L s.mem (.search c (ids ++ [id]) todo) := ⟨dn ++ [k], by simp [h3], by simp [h4, leafOf, h5]⟩
      simp only [step, hth]
      split
      · rename_i hca
        refine stutter h hth _ rfl ?_ hs
        intro hp j hj
        simp only [Pc.refs, List.mem_append, List.mem_singleton] at hj
        rcases hj with hj | rfl
        · exact hrf hp j hj
        · exact hca
      · rename_i hca
        have hca : s.mem.cached id = false := by simpa using hca
        rw [upd_same (h2 hca)]
        refine ⟨L, ord, A, lgA, h.inv, ?_, h.fault, ?_, ?_, ?_, h.lastOk, h.iters, h.logd⟩
        · have := h.minv
          unfold absSys at this ⊢
          simp only
          rw [absTh_set P.cfg L hth (by simp [absTh, absPc])]
          exact this
        · intro hp j hj
          simp only at hj ⊢
          split at hj
          · cases hj
          · exact h.clean hp j hj
        · intro hp t ht j hj
          simp only
          split
          · rfl
          · rename_i hne
            rcases List.mem_or_eq_of_mem_set ht with h6 | h6
            · exact h.refs hp t h6 j hj
            · subst h6
              simp only [Pc.refs, List.mem_append, List.mem_singleton] at hj
              rcases hj with hj | hj
              · exact hrf hp j hj
              · exact absurd hj hne
        · intro t ht
          rcases List.mem_or_eq_of_mem_set ht with h6 | h6
          · have h7 := h.thr t h6
            obtain ⟨a, pc⟩ := t
            cases pc with
            | add c' ids' id' page' todo' =>
              obtain ⟨b1, b2, b3⟩ := h7
              refine ⟨b1, fun hf => b2 ?_, b3⟩
              simp only at hf
              split at hf
              · cases hf
              · exact hf
            | idle => trivial
            | begin _ => trivial
            | reorg _ => trivial
            | enter _ => trivial
            | load _ _ _ _ => exact h7
            | search _ _ _ => exact h7
            | lock _ _ _ _ => exact h7
            | body _ _ _ _ _ _ => exact h7
            | unlock _ _ _ _ => trivial
            | leave _ _ _ => trivial
          · subst h6; exact hs
  | lock c ids got todo =>
    cases act with
    | call _ => cases todo <;> (simp only [step, hth]; exact same)
    | go _ =>
      cases todo with
      | nil =>
        simp only [step, hth]
        refine move h hth ⟨tid, .body c ids got ids c.pairs c.init⟩ _ _ (.go ()) ?_ hrf ⟨hok, hok, [], rfl⟩
        have hgot : got = orderOf P.cfg L c := by
          have := (h.minv.thr i _ hab).1
          rw [List.append_nil] at this
          exact this
        simp only [TwoPhase.step, hab, absTh, absPc]
        simp only [absSys, List.map_set, absTh, absPc, locks, hgot, aBody]
      | cons k todo =>
        simp only [step, hth]
        split
        · rename_i hcan
          refine move h hth ⟨tid, .lock c ids (got ++ [k]) todo⟩ _ _ (.go ()) ?_ hrf hok
          have hcan' : TwoPhase.canLock (absSys P.cfg L s).threads i k c.writable = true := by
            show TwoPhase.canLock (s.threads.map (absTh P.cfg L)) i k c.writable = true
            rw [canLock_eq]; exact hcan
          simp only [TwoPhase.step, hab, absTh, absPc, hcan', if_true]
          simp only [absSys, List.map_set, absTh, absPc]
        · exact same
  | body c ids hd jobs rest r =>
    obtain ⟨h1, h2, dn, h3⟩ := hok
    cases act with
    | call _ =>
      cases jobs <;> cases rest <;> (simp only [step, hth]; exact same)
    | go _ =>
      cases rest with
      | nil =>
        simp only [List.map_nil] at h2
        subst h2
        simp only [step, hth]
        refine move h hth ⟨tid, .unlock c ids hd r⟩ _ _ (.go ()) ?_ hrf trivial
        simp only [TwoPhase.step, hab, absTh, absPc, aBody, List.isEmpty_nil, if_true]
        simp only [absSys, List.map_set, absTh, absPc]
      | cons kp rest =>
        obtain ⟨k, p⟩ := kp
        simp only [List.map_cons] at h2
        subst h2
        obtain ⟨La, e, Lb, t1, t2⟩ := search_spec hc h.inv.upper h.inv.lower.seps k
        have t3 := t2.locate hc.weak h.inv.lower.seps
        have t4 : leafOf P.cfg L k = e.2 := by simp [leafOf, t3]
        obtain ⟨t', w1, w2⟩ := processImpl_spec hc h.inv t2 c.writable (fun _ => p r)
        have hsorted := contents_sorted hc.weak h.inv.lower
        obtain ⟨y, y1, y2, y4⟩ := opT_process hc.weak hi hsorted k c.writable (p r)
        rw [y2] at w1
        have hfr := processImpl_frame w1
        simp only [step, hth, t4, work, w1, Option.map_some]
        have hcid : P.paged = true → s.mem.cached e.2 = true := by
          intro hp
          refine hrf hp _ ?_
          show e.2 ∈ ids
          rw [h1, h3]
          simp [t4]
        have hnew : absSys P.cfg L (⟨{ s.mem with tree := t', disk := if P.paged && P.write && (c.writable || c.multi) then upd s.mem.disk e.2 (t'.leaves e.2) else s.mem.disk },
              s.threads.set i ⟨tid, .body c ids hd ((rest.map (·.1)).map (leafOf P.cfg L)) rest y.2.1⟩, s.next, s.hist⟩ : Sys ρ) =
            TwoPhase.step (locks P.cfg L) (aBody enc opT) (absSys P.cfg L s) (i, .go ()) := by
          have hreg : (absSys P.cfg L s).mem.reg (enc k) = OMap.dict P.cfg.lt (contents s.mem.tree.leaves L) k := by
            show OMap.dict P.cfg.lt (contents s.mem.tree.leaves L) (dec (enc k)) = _
            rw [dec_enc]
          simp only [TwoPhase.step, hab, absTh, absPc, aBody, List.isEmpty_cons, Bool.false_eq_true, if_false, hreg, y1]
          simp only [absSys, List.map_set, absTh, absPc, absMem]
          congr 2
          · funext n
            rw [w2.recs, y4]
            simp only [Dict.upd, TwoPhase.upd]
            have : dec n = k ↔ n = enc k := ⟨fun h => by rw [← h, enc_dec], fun h => by rw [h, dec_enc]⟩
            by_cases hn : n = enc k
            · rw [if_pos hn, if_pos (this.2 hn)]
            · rw [if_neg hn, if_neg (fun h => hn (this.1 h))]
          · rw [opT_log y1]; rfl
        obtain ⟨o, A', l', hm⟩ := TwoPhase.minv_step (locks_ok P.cfg L) opT_ok h.minv (i, .go ()) (by
          show (TwoPhase.step (locks P.cfg L) (aBody enc opT) (absSys P.cfg L s) (i, .go ())).mem.big = false
          rw [← hnew]; rfl)
        have hm : MInv (locks P.cfg L) opT A0 (TwoPhase.step (locks P.cfg L) (aBody enc opT) (absSys P.cfg L s) (i, .go ())) o A' l' := hm
        rw [← hnew] at hm
        refine ⟨L, o, A', l', w2.inv, hm, h.fault, ?_, ?_, ?_, hfr.lastOk.trans h.lastOk, fun j => ?_, ?_⟩
        · intro hp j hj
          have hj : s.mem.cached j = false := hj
          have hne : j ≠ e.2 := by
            rintro rfl
            rw [hcid hp] at hj; cases hj
          show (if P.paged && P.write && (c.writable || c.multi) then upd s.mem.disk e.2 (t'.leaves e.2) else s.mem.disk) j = t'.leaves j
          rw [w2.frame j hne, ← h.clean hp j hj]
          split
          · simp [upd, hne]
          · rfl
        · intro hp t ht j hj
          rcases List.mem_or_eq_of_mem_set ht with h6 | h6
          · exact h.refs hp t h6 j hj
          · subst h6; exact hrf hp j hj
        · intro t ht
          rcases List.mem_or_eq_of_mem_set ht with h6 | h6
          · have h7 := h.thr t h6
            obtain ⟨a, pc⟩ := t
            cases pc with
            | add c' ids' id' page' todo' =>
              obtain ⟨b1, b2, b3⟩ := h7
              refine ⟨b1, fun hf => ?_, b3⟩
              have hf : s.mem.cached id' = false := hf
              show t'.leaves id' = some page'
              rw [w2.frame id' ?_]
              · exact b2 hf
              · rintro rfl
                rw [hcid b1] at hf; cases hf
            | load c' ids' id' todo' =>
              obtain ⟨b1, b2, b3⟩ := h7
              refine ⟨b1, ?_, b3⟩
              show ((if P.paged && P.write && (c.writable || c.multi) then upd s.mem.disk e.2 (t'.leaves e.2) else s.mem.disk) id').isSome = true
              split
              · by_cases hj : id' = e.2
                · subst hj; simp only [upd, if_true]; exact leaf_some hc w2.inv t3
                · simp only [upd, if_neg hj]; exact b2
              · exact b2
            | idle => trivial
            | begin _ => trivial
            | reorg _ => trivial
            | enter _ => trivial
            | search _ _ _ => exact h7
            | lock _ _ _ _ => exact h7
            | body _ _ _ _ _ _ => exact h7
            | unlock _ _ _ _ => trivial
            | leave _ _ _ => trivial
          · subst h6
            exact ⟨h1, rfl, dn ++ [(k, p)], by rw [h3]; simp⟩
        · show (t'.iters j).key = its j
          rw [w2.iters]; exact h.iters j
        · show Dict.empty.replay t'.log = OMap.dict P.cfg.lt (contents t'.leaves L)
          rw [w2.log, OMap.replay_append, h.logd, w2.recs]
          exact (OMap.process_log hc.weak hi hsorted k c.writable (fun _ => p r)).symm
  | unlock c ids hd r =>
    cases act with
    | call _ => cases hd <;> (simp only [step, hth]; exact same)
    | go _ =>
      cases hd with
      | nil =>
        simp only [step, hth]
        exact stutter h hth _ rfl hrf trivial
      | cons k hd =>
        simp only [step, hth]
        refine move h hth ⟨tid, .unlock c ids (k :: hd).dropLast r⟩ _ _ (.go ()) ?_ hrf trivial
        simp only [TwoPhase.step, hab, absTh, absPc]
        simp only [absSys, List.map_set, absTh, absPc]
  | leave c ids r =>
    cases act with
    | call _ => simp only [step, hth]; exact same
    | go drop =>
      simp only [step, hth]
      obtain ⟨o, A', l', hx⟩ := moveL h hth ⟨tid, .idle⟩ s.next (s.hist ++ [.ret tid r]) (.go ()) (by
        simp only [TwoPhase.step, hab, absTh, absPc]
        simp only [absSys, List.map_set, absTh, absPc]) (by simp [Pc.refs]) trivial
      by_cases hp : P.paged = true
      · simp only [hp, if_true]
        obtain ⟨e1, e2, e3, e4, e5⟩ := evicts_ok hc (ts := s.threads) drop h.inv (h.clean hp) (h.refs hp) h.thr (hcalm hp drop rfl)
        refine ⟨L, o, A', l', ?_, ?_, ?_, ?_, ?_, ?_, ?_, ?_, ?_⟩
        · simp only [e1]; exact h.inv
        · have := hx.minv
          unfold absSys at this ⊢
          simp only [e1]
          exact this
        · simp only [e2]; exact h.fault
        · intro _ j hj
          simp only [e1] at hj ⊢
          exact e3 j hj
        · intro _ t ht j hj
          rcases List.mem_or_eq_of_mem_set ht with h6 | h6
          · exact e4 t h6 j hj
          · subst h6; simp [Pc.refs] at hj
        · intro t ht
          rcases List.mem_or_eq_of_mem_set ht with h6 | h6
          · exact e5 t h6
          · subst h6; trivial
        · simp only [e1]; exact h.lastOk
        · simp only [e1]; exact h.iters
        · simp only [e1]; exact h.logd
      · have : P.paged = false := by simpa using hp
        simp only [this, Bool.false_eq_true, if_false]
        exact ⟨L, o, A', l', hx⟩

end

end Verif.BTree.Conc
