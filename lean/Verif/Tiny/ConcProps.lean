import Verif.Tiny.ConcSim
import Verif.Tiny.Props
/-
C72: concurrent calls of TinyDBM.
-/
namespace Verif.Tiny.Conc
open Verif TwoPhase

section
variable {ρ : Type}

/-- SPECIFICATION: no call is under way. -/
def Quiet (s : CState ρ) : Prop := ∀ th ∈ s.threads, th.pc = .idle

theorem noclear_sp {loc : Bytes → Nat} {A : Nat → List Blk} {w : Bool} {r0 : ρ} {dn : List (Bytes × ProcS ρ)} {T : Nat → List Blk} {r : ρ}
    {lg : List LogOp} (h : SP loc opC A w r0 dn T r lg) : LogOp.clear ∉ lg := by
  induction h with
  | nil => simp
  | snoc _ h2 ih =>
    intro hc
    rcases List.mem_append.1 hc with hc | hc
    · exact ih hc
    · have := opC_ok.keyed _ _ _ _ _ h2 _ hc
      cases this

theorem noclear_serial {loc : Bytes → Nat} {A0 : Nat → List Blk} {ord : List (Nat × Call ρ × ρ)} {A : Nat → List Blk} {lg : List LogOp}
    (h : SerialR loc opC A0 ord A lg) : LogOp.clear ∉ lg := by
  induction h with
  | nil => simp
  | snoc _ h2 ih =>
    intro hc
    rcases List.mem_append.1 hc with hc | hc
    · exact ih hc
    · exact noclear_sp h2 hc

theorem noclear_body {loc : Bytes → Nat} {m : Mem} (a : Addr) (w : Bool) (rest : List (Bytes × ProcS ρ)) (r : ρ) (x : Inner ρ)
    (h : LogOp.clear ∉ m.log) : LogOp.clear ∉ (bodyStep loc m a w rest r x).1.log := by
  have lk : ∀ bi p q, (link m bi p q).log = m.log := by
    intro bi p q
    cases p with
    | none => rfl
    | some p => simp only [link]; split <;> rfl
  have rs : ∀ k q ch v old, ∀ y, reserializeAt m a k q ch v old = some y → y.1.log = m.log := by
    intro k q ch v old y hm
    simp only [reserializeAt] at hm
    repeat' split at hm
    all_goals first | cases hm; rfl | cases hm
  unfold bodyStep
  repeat' split
  all_goals first
    | exact h
    | (simp only [lk]; exact h)
    | (rename_i hm; rw [rs _ _ _ _ _ _ hm]; exact h)
    | (rename_i k _ _ _; intro hc; rcases List.mem_append.1 hc with hc | hc
       · exact h hc
       · revert hc; cases ‹Action› <;> simp [logged])
    | (dsimp only; split <;> exact h)

theorem noclear_step {L : Locks ρ} {s : CState ρ} (h : LogOp.clear ∉ s.mem.log) (ev : Nat × Act ρ Addr) :
    LogOp.clear ∉ (TwoPhase.step L (body L.loc) s ev).mem.log := by
  unfold TwoPhase.step
  repeat' split
  all_goals first
    | exact h
    | exact noclear_body _ _ _ _ _ h

theorem outside {loc : Bytes → Nat} {nb : Nat} (hl : ∀ k, loc k < nb) {A0 : Nat → List Blk} {ord : List (Nat × Call ρ × ρ)}
    {A : Nat → List Blk} {lg : List LogOp} (h : SerialR loc opC A0 ord A lg) (i : Nat) (hi : nb ≤ i) : A i = A0 i := by
  induction h with
  | nil => rfl
  | snoc _ h2 ih =>
    rw [← ih]
    have : ∀ {A w r0 dn T r lg}, SP loc (opC (ρ := ρ)) A w r0 dn T r lg → T i = A i := by
      intro A w r0 dn T r lg h
      induction h with
      | nil => rfl
      | @snoc dn T r lg k p y _ _ ih =>
        rw [← ih]
        exact upd_ne (by have := hl k; omega)
    exact this h2

/-- What is known of a reachable state. -/
theorem reach {e : HashMutex.Env} (he : 0 < e.slots) (hr : InRange e.hash) {nb : Nat} (hnb : 0 < nb) (n : Nat)
    (es : List (Nat × Act ρ Addr)) (hf : EventsFit es) :
    (run e nb n es).mem.uaf = false ∧ ∃ ord A lg, Explains ord (run e nb n es).hist ∧ Serial Dict.empty ord (view e.hash (st nb A lg)) ∧
      Inv e.hash (st nb A lg) ∧ (Quiet (run e nb n es) → (run e nb n es).mem.count = tot nb A ∧
        Dict.empty.replay (run e nb n es).mem.log = view e.hash (st nb A lg) ∧
        ∃ P : Nat → List (Addr × Blk), ∀ i, Seg (run e nb n es).mem.heap ((run e nb n es).mem.heads i) (P i) none ∧ bl (P i) = A i ∧
          (ad (P i)).Nodup ∧ (nb ≤ i → P i = []) ∧ (∀ j a, a ∈ ad (P i) → a ∈ ad (P j) → i = j) ∧ ∀ a, (run e nb n es).mem.heap a ≠ none → ∃ j, a ∈ ad (P j)) := by
  have hg : Good (locks ρ e nb) nb e.hash (run e nb n es) := good_run (L := locks ρ e nb) (locks_ok he nb) hnb rfl hr n es hf
  have hnc : LogOp.clear ∉ (run e nb n es).mem.log := by
    have key : ∀ (es : List (Nat × Act ρ Addr)) (s : CState ρ), LogOp.clear ∉ s.mem.log →
        LogOp.clear ∉ (es.foldl (TwoPhase.step (locks ρ e nb) (body (locks ρ e nb).loc)) s).mem.log := by
      intro es
      induction es with
      | nil => intro s h; exact h
      | cons ev es ih => intro s h; exact ih _ (noclear_step h ev)
    exact key es _ (by simp [TwoPhase.start, empty])
  generalize run e nb n es = s at hg hnc
  obtain ⟨m, P, ord, A, lg, hR, hm, hmb, hQ⟩ := hg
  have h0 := inv_nil hnb e.hash
  obtain ⟨i1, i2, i3⟩ := serialR_dict hr h0 (show SerialR (fun k => e.hash k nb) opC (fun _ => []) ord A lg from hm.ser)
  have hv0 : view e.hash (st nb (fun _ => []) []) = Dict.empty := by
    funext k
    have hlt := hr k nb hnb
    have hbo : (st nb (fun _ => []) []).bucketOf e.hash k = e.hash k nb := by simp [st, State.bucketOf]
    simp only [view, hbo]
    rw [st_bk hlt]; rfl
  rw [hv0] at i2 i3
  refine ⟨hR.uaf, ord, A, lg, hR.hist ▸ hm.exp, i2, i1, fun hq => ?_⟩
  have hmq : ∀ (j : Nat) (th : Thread ρ Unit), m.threads[j]? = some th → bodyHeld th.pc = [] := by
    intro j th h
    rw [hR.thr, List.getElem?_map] at h
    obtain ⟨th', h1, rfl⟩ := Option.map_eq_some_iff.1 h
    have := hq th' (List.mem_of_getElem? h1)
    simp only [absT, this, absPc, bodyHeld]
  have hreg : m.mem.reg = A := by
    funext i
    exact hm.free i fun j th h => by rw [hmq j th h]; simp
  have hlog : ∀ k, about k s.mem.log = about k lg := fun k => by
    rw [hR.log]; exact hm.freeLog k fun j th h => by rw [hmq j th h]; simp
  refine ⟨?_, ?_, P, ?_⟩
  · have hpend : (s.threads.map pendT).sum = 0 := by
      have : ∀ l : List (Thread ρ (Inner ρ)), (∀ th ∈ l, th.pc = .idle) → (l.map pendT).sum = 0 := by
        intro l
        induction l with
        | nil => intro _; rfl
        | cons th l ih =>
          intro h
          rw [List.map_cons, List.sum_cons, ih fun x hx => h x (by simp [hx])]
          simp only [pendT, h th (by simp)]; rfl
      exact this _ hq
    have := hR.count
    rw [hpend, hreg] at this; omega
  · rw [i3]
    funext k
    rw [replay_about _ _ hnc, hlog, ← replay_about _ _ (noclear_serial hm.ser)]
  · intro i
    have hqi := hR.quiet i fun t id c h rest r x hth => by
      have := hq _ (List.mem_of_getElem? hth)
      cases this
    rw [hreg] at hqi
    refine ⟨hqi.1, hqi.2, hR.nodup i, fun hi => ?_, fun j a => hR.own i j a, hR.leak⟩
    have := outside (fun k => hr k nb hnb) hm.ser i hi
    rw [this] at hqi
    exact List.map_eq_nil_iff.1 hqi.2

/-- C72: for any threads that call `Process` and `ProcessMulti` at once, in any schedule of their single accesses to the lists of records
and with any addresses for the new blocks, no block is accessed after it has been freed, and there is an order of the calls that agrees
with what each of them returned and with which came after which, such that the calls done one after the other in this order have these
outcomes. When no call is under way, `Count` is the number of the records then, and the update log gives these records. -/
theorem C72_tiny_linearizable {e : HashMutex.Env} (he : 0 < e.slots) (hr : InRange e.hash) {nb : Nat} (hnb : 0 < nb) (n : Nat)
    (es : List (Nat × Act ρ Addr)) (hf : EventsFit es) :
    (run e nb n es).mem.uaf = false ∧ ∃ ord d, Explains ord (run e nb n es).hist ∧ Serial Dict.empty ord d ∧
      (Quiet (run e nb n es) → HasCount d (run e nb n es).mem.count ∧ Dict.empty.replay (run e nb n es).mem.log = d) := by
  obtain ⟨h1, ord, A, lg, h2, h3, i1, h4⟩ := reach he hr hnb n es hf
  refine ⟨h1, ord, _, h2, h3, fun hq => ?_⟩
  obtain ⟨hc, hl, _⟩ := h4 hq
  refine ⟨⟨((st nb A lg).buckets.flatMap recs).map (·.1), all_keys_nodup i1, ?_, ?_⟩, hl⟩
  · intro k
    rw [List.mem_map, Option.isSome_iff_exists]
    constructor
    · rintro ⟨⟨k', v⟩, hx, rfl⟩; exact ⟨v, (mem_view i1 _ _).2 hx⟩
    · rintro ⟨v, hv⟩; exact ⟨(k, v), (mem_view i1 _ _).1 hv, rfl⟩
  · rw [List.length_map, recs_length i1, hc]; rfl

/-- C72: no memory is lost: when no call is under way, there are as many blocks allocated as `Count` says. -/
theorem C72_tiny_no_leak {e : HashMutex.Env} (he : 0 < e.slots) (hr : InRange e.hash) {nb : Nat} (hnb : 0 < nb) (n : Nat)
    (es : List (Nat × Act ρ Addr)) (hf : EventsFit es) (hq : Quiet (run e nb n es)) :
    ∃ as : List Addr, as.Nodup ∧ (∀ a, a ∈ as ↔ (run e nb n es).mem.heap a ≠ none) ∧ (run e nb n es).mem.count = as.length := by
  obtain ⟨h1, ord, A, lg, h2, h3, i1, h4⟩ := reach he hr hnb n es hf
  obtain ⟨hc, _, P, hP⟩ := h4 hq
  have nd : ∀ l : List Nat, l.Nodup → (l.flatMap fun i => ad (P i)).Nodup := by
    intro l
    induction l with
    | nil => intro _; simp
    | cons i l ih =>
      intro h
      rw [List.nodup_cons] at h
      rw [List.flatMap_cons, List.nodup_append]
      refine ⟨(hP i).2.2.1, ih h.2, ?_⟩
      rintro a ha b hb rfl
      obtain ⟨j, hj, hb⟩ := List.mem_flatMap.1 hb
      have := (hP i).2.2.2.2.1 j a ha hb
      subst this
      exact h.1 hj
  refine ⟨(List.range nb).flatMap fun i => ad (P i), nd _ List.nodup_range, ?_, ?_⟩
  · intro a
    constructor
    · intro h
      obtain ⟨i, _, h⟩ := List.mem_flatMap.1 h
      exact seg_alloc (hP i).1 h
    · intro h
      obtain ⟨j, hj⟩ := (hP 0).2.2.2.2.2 a h
      refine List.mem_flatMap.2 ⟨j, List.mem_range.2 ?_, hj⟩
      by_cases hl : j < nb
      · exact hl
      · rw [(hP j).2.2.2.1 (by omega)] at hj
        cases hj
  · rw [hc]
    simp only [tot]
    have : ∀ l : List Nat, ((l.map A).map List.length).sum = (l.flatMap fun i => ad (P i)).length := by
      intro l
      induction l with
      | nil => rfl
      | cons i l ih =>
        rw [List.map_cons, List.map_cons, List.sum_cons, ih, List.flatMap_cons, List.length_append, ← (hP i).2.1]
        simp [ad, bl]
    rw [this]

/-! ### Read-only traversals, undisturbed -/

/-- `N` steps of a traversal that nothing disturbs (tkrzw_dbm_tiny.cc 363-372). -/
def walkN (nb : Nat) (m : Mem) : Nat → Walker → Mem × Walker
  | 0, x => (m, x)
  | N + 1, x => walkN nb (walkStep nb m x).1 N (walkStep nb m x).2

theorem walkN_add (nb : Nat) (m : Mem) (a b : Nat) (x : Walker) :
    walkN nb m (a + b) x = walkN nb (walkN nb m a x).1 b (walkN nb m a x).2 := by
  induction a generalizing m x with
  | zero => rw [Nat.zero_add]; rfl
  | succ a ih => rw [Nat.succ_add]; exact ih _ _

theorem walkN_seg (nb : Nat) (m : Mem) (bi : Nat) (l : List (Addr × Blk)) (p : Option Addr) (seen : List (Bytes × Bytes))
    (h : Seg m.heap p l none) (hc : Chain (bl l) (recs (bl l))) :
    walkN nb m l.length ⟨bi, p, seen⟩ = (m, ⟨bi, none, seen ++ recs (bl l)⟩) := by
  induction l generalizing p seen with
  | nil =>
    cases h
    simp [walkN, bl, recs]
  | cons x l ih =>
    obtain ⟨a, b⟩ := x
    obtain ⟨c, rfl, h2, h3⟩ := h
    cases hd : deserialize b with
    | none =>
      simp only [bl, List.map_cons] at hc
      generalize recs (b :: l.map (·.2)) = rs at hc
      cases hc with
      | cons hh _ => rw [deserialize_holds hh] at hd; cases hd
    | some kv =>
      have er : recs (bl ((a, b) :: l)) = kv :: recs (bl l) := by simp [recs, bl, hd]
      have hc' : Chain (bl l) (recs (bl l)) := by
        rw [er] at hc
        simp only [bl, List.map_cons] at hc
        cases hc with
        | cons _ h => exact h
      have e : walkStep nb m ⟨bi, some a, seen⟩ = (m, ⟨bi, c, seen ++ [kv]⟩) := by simp only [walkStep, h2, hd]
      simp only [List.length_cons, walkN, e]
      rw [ih c _ h3 hc', er]
      simp

theorem walkN_all (nb : Nat) (m : Mem) (A : Nat → List Blk) (P : Nat → List (Addr × Blk)) (hc : ∀ i, i < nb → Chain (A i) (recs (A i)))
    (hs : ∀ i, Seg m.heap (m.heads i) (P i) none ∧ bl (P i) = A i) (hnb : 0 < nb) :
    ∀ i, i < nb → ∃ N, walkN nb m N (walkStart m) = (m, ⟨i, none, ((List.range (i + 1)).map A).flatMap recs⟩) := by
  have one : ∀ i seen, i < nb → walkN nb m (P i).length ⟨i, m.heads i, seen⟩ = (m, ⟨i, none, seen ++ recs (A i)⟩) := by
    intro i seen hi
    have := walkN_seg nb m i (P i) (m.heads i) seen (hs i).1 (by rw [(hs i).2]; exact hc i hi)
    rw [(hs i).2] at this
    exact this
  intro i
  induction i with
  | zero =>
    intro h
    refine ⟨_, (one 0 [] h).trans ?_⟩
    simp
  | succ i ih =>
    intro h
    obtain ⟨N, hN⟩ := ih (by omega)
    refine ⟨N + ((P (i + 1)).length + 1), ?_⟩
    rw [walkN_add, hN]
    have e : walkStep nb m ⟨i, none, ((List.range (i + 1)).map A).flatMap recs⟩ =
        (m, ⟨i + 1, m.heads (i + 1), ((List.range (i + 1)).map A).flatMap recs⟩) := by simp only [walkStep, if_pos h]
    simp only [walkN, e]
    rw [one (i + 1) _ h, List.range_succ (n := i + 1)]
    simp

/-- C72: a traversal by `ProcessEach` without the right to write, with no call under way and none beginning, comes to its end, touches no
freed block, and gives the records that the update log gives, each once. -/
theorem C72_each_alone {e : HashMutex.Env} (he : 0 < e.slots) (hr : InRange e.hash) {nb : Nat} (hnb : 0 < nb) (n : Nat)
    (es : List (Nat × Act ρ Addr)) (hf : EventsFit es) (hq : Quiet (run e nb n es)) :
    ∃ N, (walkN nb (run e nb n es).mem N (walkStart (run e nb n es).mem)).2.bi = nb ∧
      (walkN nb (run e nb n es).mem N (walkStart (run e nb n es).mem)).1.uaf = false ∧
      ((walkN nb (run e nb n es).mem N (walkStart (run e nb n es).mem)).2.seen.map (·.1)).Nodup ∧
      ∀ k v, (k, v) ∈ (walkN nb (run e nb n es).mem N (walkStart (run e nb n es).mem)).2.seen ↔
        Dict.empty.replay (run e nb n es).mem.log k = some v := by
  obtain ⟨h1, ord, A, lg, h2, h3, i1, h4⟩ := reach he hr hnb n es hf
  obtain ⟨_, hl, P, hP⟩ := h4 hq
  obtain ⟨N, hN⟩ := walkN_all nb _ A P (fun i hi => by have := i1.chain i; rwa [st_bk hi] at this) (fun i => ⟨(hP i).1, (hP i).2.1⟩) hnb (nb - 1) (by omega)
  have e1 : nb - 1 + 1 = nb := by omega
  rw [e1] at hN
  have e2 : walkStep nb (run e nb n es).mem ⟨nb - 1, none, ((List.range nb).map A).flatMap recs⟩ =
      ((run e nb n es).mem, ⟨nb, none, ((List.range nb).map A).flatMap recs⟩) := by simp only [walkStep, e1, if_neg (Nat.lt_irrefl nb)]
  refine ⟨N + 1, ?_⟩
  rw [walkN_add, hN]
  simp only [walkN, e2]
  refine ⟨trivial, h1, all_keys_nodup i1, fun k v => ?_⟩
  rw [hl]
  exact (mem_view i1 k v).symm

end

/-! ### An example: two threads, one bucket -/

def sampleEnv : HashMutex.Env := ⟨2, sampleHash⟩

def setProc (x : Bytes) : ProcS (Option Bytes) := fun _ o => (.set x, o)
def delProc : ProcS (Option Bytes) := fun _ o => (.remove, o)
def getProc : ProcS (Option Bytes) := fun _ o => (.noop, o)

def callOf (k : Bytes) (p : ProcS (Option Bytes)) : Act (Option Bytes) Addr := .call ⟨[(k, p)], true, false, none⟩

/-- Thread `t` goes on `n` times, with `a` as the address of a new block. -/
def goes (t n a : Nat) : List (Nat × Act (Option Bytes) Addr) := List.replicate n (t, .go a)

/-- Thread 0 sets a key while thread 1 waits for the slot to overwrite it; a call for two keys follows. -/
def sampleEvents : List (Nat × Act (Option Bytes) Addr) :=
  [(0, callOf [1] (setProc [10])), (1, callOf [1] (setProc [11, 12]))] ++ goes 1 1 6 ++ goes 0 3 5 ++ goes 1 2 6 ++ goes 0 9 5 ++ goes 1 9 6 ++
  goes 0 5 5 ++ goes 1 9 6 ++ goes 0 5 7 ++ goes 1 9 8 ++
  [(0, .call ⟨[([1], getProc), ([2], setProc [20])], true, true, none⟩)] ++ goes 0 30 9

def rets (s : CState (Option Bytes)) : List (Nat × Option Bytes) := s.hist.filterMap fun
  | .ret id r => some (id, r)
  | .inv _ _ => none

example : rets (run sampleEnv 1 2 sampleEvents) = [(1, none), (0, some [11, 12]), (2, none)] ∧
    (run sampleEnv 1 2 sampleEvents).mem.count = 2 ∧
    (run sampleEnv 1 2 sampleEvents).mem.log = [.set [1] [11, 12], .set [1] [10], .set [2] [20]] := by decide +kernel

theorem fits_of_pairs {l : List (Bytes × Option Bytes)} {w m : Bool} {i : Option Bytes} (h : ∀ x ∈ l, ∀ v, x.2 = some v → recFits x.1 v) :
    CallFits ⟨l.map fun x => (x.1, match x.2 with | some v => setProc v | none => getProc), w, m, i⟩ := by
  intro kp hk r o v hv
  obtain ⟨x, hx, rfl⟩ := List.mem_map.1 hk
  cases e : x.2 with
  | none => simp [e, getProc] at hv
  | some v' =>
    simp only [e, setProc] at hv
    injection hv with hv
    rw [← hv]; exact h x hx v' e

theorem fits_of_const {k x : Bytes} {w m : Bool} {i : Option Bytes} (h : recFits k x) : CallFits ⟨[(k, setProc x)], w, m, i⟩ := by
  intro kp hk r o v hv
  simp at hk
  subst hk
  simp only [setProc] at hv
  injection hv with hv
  rw [← hv]; exact h

theorem fits_del {k : Bytes} {w m : Bool} {i : Option Bytes} : CallFits ⟨[(k, delProc)], w, m, i⟩ := by
  intro kp hk r o v hv
  simp at hk
  subst hk
  cases hv

theorem goes_call {t n a : Nat} {x : Nat} {c : Call (Option Bytes)} : (x, Act.call c) ∉ goes t n a := by
  intro h
  have := List.eq_of_mem_replicate h
  cases this

example : EventsFit sampleEvents := by
  intro t c h
  simp only [sampleEvents, List.mem_append, goes_call, or_false, List.mem_cons, List.not_mem_nil, false_or, callOf] at h
  rcases h with (h | h) | h
  · cases h; exact fits_of_const (by decide +kernel)
  · cases h; exact fits_of_const (by decide +kernel)
  · cases h
    exact fits_of_pairs (l := [([1], none), ([2], some [20])]) (by
      intro x hx v hv
      simp at hx
      rcases hx with rfl | rfl
      · cases hv
      · cases hv; decide +kernel)

/-! ### Read-only traversals are not safe -/

/-- One thread puts the keys 1 and 2 into one bucket. -/
def eachBefore : List (Nat × Act (Option Bytes) Addr) :=
  [(0, callOf [1] (setProc [10]))] ++ goes 0 12 5 ++ [(0, callOf [2] (setProc [20]))] ++ goes 0 12 6

/-- It removes the key 1. -/
def eachMeanwhile : List (Nat × Act (Option Bytes) Addr) := [(0, callOf [1] delProc)] ++ goes 0 12 7

/-- C72: this is not so for `ProcessEach` without the right to write: it holds no record lock, so a call of `Remove` that begins and
returns while the traversal has the pointer to the record makes it read a block that has been freed. (The calls around it are in order.) -/
theorem C72_each_violated :
    ∃ (es1 es2 : List (Nat × Act (Option Bytes) Addr)), EventsFit (es1 ++ es2) ∧
      (walkStep 1 (run sampleEnv 1 1 es1).mem (walkStart (run sampleEnv 1 1 es1).mem)).1.uaf = false ∧
      (run sampleEnv 1 1 (es1 ++ es2)).mem.uaf = false ∧
      (walkStep 1 (run sampleEnv 1 1 (es1 ++ es2)).mem
        (walkStep 1 (run sampleEnv 1 1 es1).mem (walkStart (run sampleEnv 1 1 es1).mem)).2).1.uaf = true := by
  refine ⟨eachBefore, eachMeanwhile, ?_, by decide +kernel, by decide +kernel, by decide +kernel⟩
  intro t c h
  simp only [eachBefore, eachMeanwhile, List.mem_append, goes_call, or_false, List.mem_cons, List.not_mem_nil, callOf] at h
  rcases h with (h | h) | h
  · cases h; exact fits_of_const (by decide +kernel)
  · cases h; exact fits_of_const (by decide +kernel)
  · cases h; exact fits_del

/-- The calls have returned and the traversal, undisturbed, gives both records. -/
example : rets (run sampleEnv 1 1 (eachBefore ++ eachMeanwhile)) = [(0, none), (1, none), (2, some [10])] ∧
    (walkStep 1 (run sampleEnv 1 1 eachBefore).mem (walkStep 1 (run sampleEnv 1 1 eachBefore).mem
      (walkStart (run sampleEnv 1 1 eachBefore).mem)).2).2.seen = [([2], [20]), ([1], [10])] := by decide +kernel

end Verif.Tiny.Conc
