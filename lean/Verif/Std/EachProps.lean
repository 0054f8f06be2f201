import Verif.Std.IterProps
import Verif.File.FlatProps
/-
C10, C14, C23, C25, C28 for StdTreeDBM and StdHashDBM: ProcessEach, ProcessFirst, the update log, saving and loading.
-/
namespace Verif.Std

/-- Where an iterator at a record goes when the records from there on are worked through: the first of them that is left. -/
def survivor (l : List (Bytes × Bytes)) (alive : Dict) : Pos → Pos
  | none => none
  | some k => if k ∈ keys l then ((keys l).dropWhile fun x => x ≠ k).find? fun x => (alive x).isSome else some k

theorem at_congr {s s' : State} (h : s'.iters = s.iters) (i : Nat) : s'.at i = s.at i := by unfold State.at; rw [h]

theorem actFull_at {K : Kind} {s : State} (hi : Inv K s) {a b : List (Bytes × Bytes)} {k v : Bytes}
    (e : s.map = a ++ (k, v) :: b) (ha : k ∉ keys a) (ac : Action) (i : Nat) :
    (s.actFull k ac).at i = if ac = .remove ∧ s.at i = some k then begin b else s.at i := by
  cases ac with
  | noop => simp [State.actFull]
  | set v' => simp [State.actFull, State.assignAt]; exact at_congr rfl i
  | remove =>
    simp only [State.actFull, true_and]
    rw [removeAt_eq hi e ha]
    unfold moveOff
    rw [at_map_eq _ (by intro x; split <;> rfl) i (fun q => if q = some k then begin b else q)
      (by intro q; by_cases c : q = some k <;> simp [c]) (by simp)]

theorem eachLoop_spec {K : Kind} {ρ : Type} (w : Bool) (p : Bytes → ρ → Bytes → Action × ρ) (todo : List (Bytes × Bytes)) :
    ∀ (n : Nat) (done : List (Bytes × Bytes)) (s : State) (r : ρ), Inv K s → s.map = done ++ todo → todo.length ≤ n →
    Inv K (eachLoop w p n (begin todo) s r).1 ∧
    (view (eachLoop w p n (begin todo) s r).1, (eachLoop w p n (begin todo) s r).2) = Dict.eachFold w p todo (view s) r ∧
    (∀ i, (eachLoop w p n (begin todo) s r).1.at i = survivor todo (view (eachLoop w p n (begin todo) s r).1) (s.at i)) := by
  induction todo with
  | nil =>
    intro n done s r hi e hn
    have : eachLoop w p n (begin []) s r = (s, r) := by cases n <;> rfl
    rw [this]
    refine ⟨hi, rfl, fun i => ?_⟩
    cases s.at i <;> simp [survivor]
  | cons x t ih =>
    obtain ⟨k, v⟩ := x
    intro n done s r hi e hn
    cases n with
    | zero => simp at hn
    | succ n =>
      have hnd := hi.nodup
      rw [e, keys_append, List.nodup_append] at hnd
      simp only [keys, List.map_cons, List.nodup_cons] at hnd
      have ha : k ∉ keys done := fun hx => hnd.2.2 k hx k (by simp) rfl
      have hkt : k ∉ keys t := hnd.2.1.1
      have hl : lookup k s.map = some v := by rw [e]; exact lookup_at ha
      have hinc : inc k s.map = some (begin t) := by rw [e]; exact inc_split ha
      have hstep : eachLoop w p (n + 1) (begin ((k, v) :: t)) s r =
          eachLoop w p n (begin t) (if w then s.actFull k (p k r v).1 else s) (p k r v).2 := by
        show eachLoop w p (n + 1) (some k) s r = _
        simp only [eachLoop, hl, hinc]
      rw [hstep]
      -- the action performed
      obtain ⟨ac, hac⟩ : ∃ ac, ac = if w then (p k r v).1 else .noop := ⟨_, rfl⟩
      have hs1 : (if w then s.actFull k (p k r v).1 else s) = s.actFull k ac := by
        rw [hac]; cases w <;> rfl
      have hd1 : (if w then (view s).act k (p k r v).1 else view s) = (view s).act k ac := by
        rw [hac]; cases w <;> rfl
      rw [hs1]
      obtain ⟨hi1, hv1⟩ := actFull_spec hi hl ac
      obtain ⟨done', hm1⟩ : ∃ done', (s.actFull k ac).map = done' ++ t := by
        cases ac with
        | noop => exact ⟨done ++ [(k, v)], by simp [State.actFull, e]⟩
        | remove => exact ⟨done, by rw [State.actFull, removeAt_eq hi e ha]⟩
        | set v' => exact ⟨done ++ [(k, v')], by rw [State.actFull, assignAt_eq e ha]; simp⟩
      obtain ⟨g1, g2, g3⟩ := ih n done' (s.actFull k ac) (p k r v).2 hi1 hm1 (by simpa using hn)
      refine ⟨g1, ?_, fun i => ?_⟩
      · rw [g2, Dict.eachFold, hd1, hv1]
      · rw [g3 i, actFull_at hi e ha]
        have hfin : view (eachLoop w p n (begin t) (s.actFull k ac) (p k r v).2).1 k = (view s).act k ac k := by
          have : view (eachLoop w p n (begin t) (s.actFull k ac) (p k r v).2).1 =
            (Dict.eachFold w p t (view (s.actFull k ac)) (p k r v).2).1 := by rw [← g2]
          rw [this, Dict.eachFold_other _ _ _ _ _ _ hkt, hv1]
        generalize view (eachLoop w p n (begin t) (s.actFull k ac) (p k r v).2).1 = alive at hfin
        by_cases hk : s.at i = some k
        · rw [hk]
          have hR : survivor ((k, v) :: t) alive (some k) = if (alive k).isSome then some k else (keys t).find? fun x => (alive x).isSome := by
            simp only [survivor, keys, List.map_cons, List.mem_cons, true_or, if_true]
            rw [List.dropWhile_cons_of_neg (by simp), List.find?_cons]
            cases (alive k).isSome <;> rfl
          rw [hR, hfin]
          cases ac with
          | remove =>
            simp only [and_self, if_true, Dict.act, Dict.upd, Option.isSome_none, Bool.false_eq_true, if_false]
            cases t with
            | nil => rfl
            | cons y t =>
              simp only [begin, List.head?_cons, Option.map_some, survivor, keys, List.map_cons, List.mem_cons, true_or, if_true]
              rw [List.dropWhile_cons_of_neg (by simp)]
          | noop =>
            have : (view s k).isSome := by rw [show view s k = some v from hl]; rfl
            simp only [Dict.act, this, if_true]
            simp [survivor, hkt]
          | set v' =>
            simp only [Dict.act, Dict.upd, if_true, Option.isSome_some]
            simp [survivor, hkt]
        · rw [if_neg (fun h => hk h.2)]
          cases hq : s.at i with
          | none => rfl
          | some y =>
            have hy : y ≠ k := fun h => hk (by rw [hq, h])
            simp only [survivor, keys, List.map_cons, List.mem_cons, hy, false_or]
            rw [List.dropWhile_cons_of_pos (by simpa using Ne.symm hy)]

/-- C10 for StdTreeDBM and StdHashDBM: `ProcessEach` shows each record exactly once, in the order of iteration, and its
updates are those of a dictionary; `ProcessEmpty` is called before and after. -/
theorem C10_std_each {K : Kind} {s : State} (hi : Inv K s) {ρ : Type} (w : Bool) (p : Bytes → ρ → Bytes → Action × ρ)
    (e : ρ → ρ) (r : ρ) :
    ∃ rs, (view s).Lists rs ∧ rs = s.map ∧ Inv K (s.processEach w p e r).1 ∧
      view (s.processEach w p e r).1 = (Dict.eachFold w p rs (view s) (e r)).1 ∧
      (s.processEach w p e r).2 = e (Dict.eachFold w p rs (view s) (e r)).2 := by
  obtain ⟨h1, h2, _⟩ := eachLoop_spec w p s.map s.map.length [] s (e r) hi rfl (Nat.le_refl _)
  refine ⟨s.map, lookup_lists hi.nodup, rfl, h1, ?_, ?_⟩
  · rw [← h2]; rfl
  · rw [← h2]; rfl

/-- C14: after a `ProcessEach`, an iterator that was at a record is at the first record, from there on in the order of
iteration, that was not removed. -/
theorem C14_each_iterators {K : Kind} {s : State} (hi : Inv K s) {ρ : Type} (w : Bool) (p : Bytes → ρ → Bytes → Action × ρ)
    (e : ρ → ρ) (r : ρ) (i : Nat) (before after : List (Bytes × Bytes)) (k v : Bytes)
    (hm : s.map = before ++ (k, v) :: after) (hat : s.at i = some k) :
    (s.processEach w p e r).1.at i =
      (k :: after.map (·.1)).find? fun x => (view (s.processEach w p e r).1 x).isSome := by
  obtain ⟨_, _, h3⟩ := eachLoop_spec w p s.map s.map.length [] s (e r) hi rfl (Nat.le_refl _)
  have := h3 i
  rw [hat] at this
  have hn := hi.nodup
  rw [hm, keys_append, List.nodup_append] at hn
  have ha : k ∉ keys before := fun hx => hn.2.2 k hx k (by simp) rfl
  have hk : keys s.map = keys before ++ (k :: keys after) := by rw [hm, keys_append]; rfl
  simp only [survivor] at this
  rw [if_pos (by rw [hk]; simp), hk, List.dropWhile_append, if_pos, List.dropWhile_cons_of_neg (by simp)] at this
  · exact this
  · have : ∀ l : List Bytes, k ∉ l → l.dropWhile (fun x => decide (x ≠ k)) = [] := by
      intro l
      induction l with
      | nil => intro _; rfl
      | cons y l ih =>
        intro h
        simp only [List.mem_cons, not_or] at h
        rw [List.dropWhile_cons_of_pos (by simpa using Ne.symm h.1), ih h.2]
    rw [this _ ha]; rfl

theorem processFirst_spec {K : Kind} {τ : Type} {s : State} (hi : Inv K s) (w : Bool) (p : Bytes → Bytes → Action × τ) :
    Inv K (s.processFirst w p).1 ∧
    (s.map = [] → s.processFirst w p = (s, none)) ∧
    ∀ k v rest, s.map = (k, v) :: rest →
      view (s.processFirst w p).1 = (if w then (view s).act k (p k v).1 else view s) ∧
      (s.processFirst w p).2 = some (p k v).2 := by
  unfold State.processFirst
  split
  · rename_i h
    exact ⟨hi, fun _ => rfl, fun k v rest h' => by rw [h] at h'; cases h'⟩
  · rename_i k v rest h
    have hl : lookup k s.map = some v := by rw [h]; simp [lookup]
    obtain ⟨h1, h2⟩ := actFull_spec hi hl (p k v).1
    refine ⟨(by cases w <;> [exact hi; exact h1]), fun h' => (by rw [h] at h'; cases h'), ?_⟩
    intro k' v' rest' h'
    rw [h] at h'
    cases h'
    cases w
    · exact ⟨rfl, rfl⟩
    · exact ⟨h2, rfl⟩

/-- C23: StdTreeDBM is an ordered database with `ProcessFirst` at the least key, so PushLast and PopFirst work on it as a
queue (`Api.C23_fifo_partial`). -/
theorem C23_std_first : Api.LawfulFirst (firstImpl .tree) (Inv .tree) view anyFits (fun a b => a < b) where
  toLawful := C14_lawful .tree
  first_none := by
    intro τ s w p hi hn
    have : s.map = [] := by
      cases h : s.map with
      | nil => rfl
      | cons x m =>
        obtain ⟨k, v⟩ := x
        have := hn k
        simp only [view, h, lookup, if_true] at this
        cases this
    have e : s.processFirst w p = (s, none) := (processFirst_spec hi w p).2.1 this
    show Inv .tree (s.processFirst w p).1 ∧ view (s.processFirst w p).1 = view s ∧ (s.processFirst w p).2 = none
    rw [e]; exact ⟨hi, rfl, rfl⟩
  first_some := by
    rintro τ s w p hi ⟨k0, hk0⟩
    obtain ⟨h1, _, h3⟩ := processFirst_spec hi w p
    have hl := keys_least hi
    cases h : s.map with
    | nil => exact absurd (by simp [view, h, lookup]) hk0
    | cons x m =>
      obtain ⟨k, v⟩ := x
      have hv : view s k = some v := by simp [view, h, lookup]
      rw [h] at hl
      refine ⟨k, v, hv, ?_, fun _ => ⟨h1, h3 k v m h⟩⟩
      intro k' v' hk'
      exact hl.2 k' (by show (view s k').isSome = true; rw [hk']; rfl)

/-- C23 on StdTreeDBM, from the empty database: pushes and pops with an advancing clock are a queue. -/
theorem C23_std_fifo_partial (ops : List Api.QOp) (hc : Api.ClockAfter 0 ops) :
    ∃ s', Api.runQ (firstImpl .tree) {} ops = some (s', Api.fifo [] ops) :=
  Api.C23_fifo_partial C23_std_first (fun _ _ => trivial) {} (init_inv .tree) rfl ops hc

/-! ### The update log -/

/-- The log kept in step with the contents. -/
def LogOk (s : State) : Prop := view s = Dict.empty.replay s.log

theorem replay_snoc (d : Dict) (l : List LogOp) (o : LogOp) : d.replay (l ++ [o]) = (d.replay l).applyLog o := by
  simp [Dict.replay]

theorem actFull_log {K : Kind} {s : State} (hi : Inv K s) {k v : Bytes} (h : lookup k s.map = some v) (ac : Action)
    (hg : LogOk s) : LogOk (s.actFull k ac) := by
  have h2 := (actFull_spec hi h ac).2
  obtain ⟨a, b, e, ha, hb⟩ := hi.cut h
  unfold LogOk at *
  rw [h2, hg]
  cases ac with
  | noop => simp [State.actFull, Dict.act]
  | remove => rw [State.actFull, removeAt_eq hi e ha]; simp only [replay_snoc]; rfl
  | set v' => simp only [State.actFull, State.assignAt, replay_snoc]; rfl

theorem actEmpty_log {K : Kind} {s : State} (hi : Inv K s) {k : Bytes} (h : lookup k s.map = none) (ac : Action)
    (hg : LogOk s) : LogOk (s.actEmpty K k ac) := by
  have h2 := (actEmpty_spec hi h ac).2
  unfold LogOk at *
  cases ac with
  | noop => exact hg
  | remove => exact hg
  | set v' => rw [h2, hg]; simp only [State.actEmpty, replay_snoc]; rfl

theorem process_log {K : Kind} {τ : Type} {s : State} (hi : Inv K s) (k : Bytes) (w : Bool) (p : ProcR τ) (hg : LogOk s) :
    LogOk (s.process K k w p).1 := by
  unfold State.process
  cases w with
  | false => exact hg
  | true =>
    simp only [if_true]
    cases h : lookup k s.map with
    | none => exact actEmpty_log hi h _ hg
    | some v => exact actFull_log hi h _ hg

theorem step_log {K : Kind} (hK : K.Ok) {s : State} (hi : Inv K s) (hg : LogOk s) (op : Op) : LogOk (step K s op).1 := by
  cases op with
  | get k => exact process_log hi k false Api.getProc hg
  | set k v ow => exact process_log hi _ _ _ hg
  | remove k => exact process_log hi k true Api.removeProc hg
  | append k v d => exact process_log hi _ _ _ hg
  | process k w p => exact process_log hi _ _ _ hg
  | clear =>
    show LogOk s.clear
    unfold LogOk
    rw [(clear_spec hi).2]
    simp only [State.clear, replay_snoc]; rfl
  | rebuild n =>
    show LogOk (s.rebuild K)
    unfold LogOk
    rw [(rebuild_spec hK hi).2]
    cases K <;> exact hg

/-- C25 for StdTreeDBM and StdHashDBM: replaying what the update logger was told, on an empty dictionary, gives the
contents, after any history. -/
theorem C25_std_log {K : Kind} (hK : K.Ok) (ops : List Op) :
    Dict.empty.replay (run (step K) {} ops).1.log = (Dict.run Dict.empty ops).1 := by
  have key : ∀ (ops : List Op) (s : State), Inv K s → LogOk s → LogOk (run (step K) s ops).1 := by
    intro ops
    induction ops with
    | nil => intro s _ hg; exact hg
    | cons op ops ih => intro s hi hg; exact ih _ (step_sim hK s op hi).1 (step_log hK hi hg op)
  rw [← (C14_history hK ops).1]
  exact (key ops {} (init_inv K) rfl).symm

/-- C25: also `ProcessFirst`, the iterators and the loop of `ProcessEach` log every update they make. -/
theorem C25_std_log_traversal {K : Kind} {s : State} (hi : Inv K s) (hg : view s = Dict.empty.replay s.log) {τ : Type}
    (w : Bool) (p : Bytes → Bytes → Action × τ) (i : Nat) :
    view (s.processFirst w p).1 = Dict.empty.replay (s.processFirst w p).1.log ∧
    view (s.iterProcess i w p).1 = Dict.empty.replay (s.iterProcess i w p).1.log := by
  constructor
  · unfold State.processFirst
    split
    · exact hg
    · rename_i k v rest h
      have hl : lookup k s.map = some v := by rw [h]; simp [lookup]
      cases w
      · exact hg
      · exact actFull_log hi hl _ hg
  · unfold State.iterProcess
    cases hat : s.at i with
    | none => exact hg
    | some k =>
      obtain ⟨v, hv⟩ := hi.at_lookup hat
      simp only [hv]
      cases w
      · exact hg
      · simp only [if_true]
        cases hp : (p k v).1 with
        | noop => exact hg
        | set v' => exact actFull_log hi hv (.set v') hg
        | remove =>
          have h := actFull_log hi hv .remove hg
          obtain ⟨a, b, e, ha, hb⟩ := hi.cut hv
          rw [State.actFull, removeAt_eq hi e ha] at h
          simp only [State.iterRemove, e, inc_split ha, erase_split ha]
          exact h

theorem C25_std_log_each {K : Kind} {s : State} (hi : Inv K s) (hg : view s = Dict.empty.replay s.log) {ρ : Type}
    (w : Bool) (p : Bytes → ρ → Bytes → Action × ρ) (e : ρ → ρ) (r : ρ) :
    view (s.processEach w p e r).1 = Dict.empty.replay (s.processEach w p e r).1.log := by
  have key : ∀ (todo : List (Bytes × Bytes)) (n : Nat) (done : List (Bytes × Bytes)) (s : State) (r : ρ), Inv K s → LogOk s →
      s.map = done ++ todo → todo.length ≤ n → LogOk (eachLoop w p n (begin todo) s r).1 := by
    intro todo
    induction todo with
    | nil => intro n done s r hi hg _ _; cases n <;> exact hg
    | cons x t ih =>
      obtain ⟨k, v⟩ := x
      intro n done s r hi hg e hn
      cases n with
      | zero => simp at hn
      | succ n =>
        have hnd := hi.nodup
        rw [e, keys_append, List.nodup_append] at hnd
        have ha : k ∉ keys done := fun hx => hnd.2.2 k hx k (by simp) rfl
        have hl : lookup k s.map = some v := by rw [e]; exact lookup_at ha
        have hinc : inc k s.map = some (begin t) := by rw [e]; exact inc_split ha
        have hstep : eachLoop w p (n + 1) (begin ((k, v) :: t)) s r =
            eachLoop w p n (begin t) (if w then s.actFull k (p k r v).1 else s) (p k r v).2 := by
          show eachLoop w p (n + 1) (some k) s r = _
          simp only [eachLoop, hl, hinc]
        rw [hstep]
        cases w with
        | false => exact ih n (done ++ [(k, v)]) s _ hi hg (by rw [e]; simp) (by simpa using hn)
        | true =>
          simp only [if_true]
          have hi1 := (actFull_spec hi hl (p k r v).1).1
          have hg1 := actFull_log hi hl (p k r v).1 hg
          obtain ⟨done', hm1⟩ : ∃ done', (s.actFull k (p k r v).1).map = done' ++ t := by
            cases (p k r v).1 with
            | noop => exact ⟨done ++ [(k, v)], by simp [State.actFull, e]⟩
            | remove => exact ⟨done, by rw [State.actFull, removeAt_eq hi e ha]⟩
            | set v' => exact ⟨done ++ [(k, v')], by rw [State.actFull, assignAt_eq e ha]; simp⟩
          exact ih n done' _ _ hi1 hg1 hm1 (by simpa using hn)
  exact key s.map s.map.length [] s (e r) hi hg rfl (Nat.le_refl _)

/-! ### All events -/

theorem survive_iters {K : Kind} {s : State} (hi : Inv K s) : ∀ i k, s.at i = some k → (view s k).isSome := by
  intro i k h
  exact view_isSome.2 (hi.valid _ (at_mem h) k rfl)

theorem begin_valid (m : List (Bytes × Bytes)) (k : Bytes) (h : begin m = some k) : k ∈ keys m := begin_mem h

theorem iterProcess_spec {K : Kind} {τ : Type} {s : State} (hi : Inv K s) (i : Nat) (w : Bool) (p : Bytes → Bytes → Action × τ) :
    Inv K (s.iterProcess i w p).1 ∧
    (s.at i = none → s.iterProcess i w p = (s, none)) ∧
    ∀ k v, s.at i = some k → view s k = some v →
      view (s.iterProcess i w p).1 = (if w then (view s).act k (p k v).1 else view s) ∧
      (s.iterProcess i w p).2 = some (p k v).2 := by
  unfold State.iterProcess
  cases hat : s.at i with
  | none => exact ⟨hi, fun _ => rfl, fun k v h => by cases h⟩
  | some k =>
    obtain ⟨v, hv⟩ := hi.at_lookup hat
    simp only [hv]
    have main : Inv K (if w then match (p k v).1 with
        | .noop => s
        | .remove => s.iterRemove i k
        | .set v' => s.assignAt k v' else s) ∧ view (if w then match (p k v).1 with
        | .noop => s
        | .remove => s.iterRemove i k
        | .set v' => s.assignAt k v' else s) = (if w then (view s).act k (p k v).1 else view s) := by
      cases w with
      | false => exact ⟨hi, rfl⟩
      | true =>
        simp only [if_true]
        have h := actFull_spec hi hv (p k v).1
        cases hp : (p k v).1 with
        | noop => exact ⟨hi, rfl⟩
        | set v' => rw [hp] at h; exact h
        | remove =>
          rw [hp] at h
          obtain ⟨a, b, e, ha, hb⟩ := hi.cut hv
          rw [State.actFull, removeAt_eq hi e ha] at h
          simp only [State.iterRemove, e, inc_split ha, erase_split ha]
          refine ⟨⟨h.1.nodup, h.1.ordered, ?_, ?_, hi.ok⟩, h.2⟩
          · intro x hx k' hk'
            simp only at hx
            obtain ⟨y, hy, ey⟩ := List.mem_map.1 hx
            split at ey
            · subst ey
              show k' ∈ keys (a ++ b)
              rw [keys_append, List.mem_append]; exact .inr (begin_mem hk')
            · refine h.1.valid x ?_ k' hk'
              exact List.mem_map.2 ⟨y, hy, ey⟩
          · show (List.map _ (List.map _ s.iters)).Nodup
            rw [List.map_map]
            have : ((fun x : Nat × Pos => x.1) ∘ fun x => if x.1 = i then (i, begin b) else if x.2 = some k then (x.1, begin b) else x) = fun x => x.1 := by
              funext x; simp only [Function.comp]; split
              · rename_i h; exact h.symm
              · split <;> rfl
            rw [this]; exact hi.ids
    refine ⟨main.1, fun h => (by cases h), ?_⟩
    intro k' v' hk' hv'
    cases hk'
    rw [show view s k = some v from hv] at hv'
    cases hv'
    exact ⟨main.2, rfl⟩

/-- C14: reading and writing through an iterator: at the end nothing happens and NOT_FOUND_ERROR is reported; else the
processor is shown the record the iterator is at and its action is that of a dictionary. -/
theorem C14_iter_process {K : Kind} {τ : Type} {s : State} (hi : Inv K s) (i : Nat) (w : Bool) (p : Bytes → Bytes → Action × τ) :
    (s.at i = none → s.iterProcess i w p = (s, none)) ∧
    ∀ k, s.at i = some k → ∃ v, view s k = some v ∧
      view (s.iterProcess i w p).1 = (if w then (view s).act k (p k v).1 else view s) ∧
      (s.iterProcess i w p).2 = some (p k v).2 := by
  obtain ⟨_, h2, h3⟩ := iterProcess_spec hi i w p
  refine ⟨h2, fun k hk => ?_⟩
  obtain ⟨v, hv⟩ := hi.at_lookup hk
  exact ⟨v, hv, h3 k v hk hv⟩

theorem Least.mem {P : Bytes → Prop} {q : Pos} (h : Least P q) (k : Bytes) (hk : q = some k) : P k := by
  subst hk; exact h.1

theorem Greatest.mem {P : Bytes → Prop} {q : Pos} (h : Greatest P q) (k : Bytes) (hk : q = some k) : P k := by
  subst hk; exact h.1

theorem inc_valid {k : Bytes} {m : List (Bytes × Bytes)} {q : Pos} (h : inc k m = some q) (k' : Bytes) (hk : q = some k') : k' ∈ keys m := by
  induction m with
  | nil => cases h
  | cons r m ih =>
    obtain ⟨a, v⟩ := r
    simp only [inc] at h
    split at h
    · cases h; exact List.mem_cons_of_mem _ (begin_mem hk)
    · exact List.mem_cons_of_mem _ (ih h)

theorem dec_valid {k : Bytes} {m : List (Bytes × Bytes)} {q : Pos} (h : dec k m = some q) (k' : Bytes) (hk : q = some k') : k' ∈ keys m := by
  induction m with
  | nil => cases h
  | cons r m ih =>
    cases m with
    | nil => cases h
    | cons r2 m =>
      obtain ⟨a, v⟩ := r; obtain ⟨b, w⟩ := r2
      simp only [dec] at h
      split at h
      · cases h; cases hk; simp
      · exact List.mem_cons_of_mem _ (ih h)

theorem evStep_inv {K : Kind} (hK : K.Ok) {s : State} (hi : Inv K s) (ev : Ev) : Inv K (evStep K s ev) := by
  cases ev with
  | db op => exact (step_sim hK s op hi).1
  | multi l w r =>
    refine (C14_lawful K).multi_inv s l w r hi ?_
    have : ∀ (l : List (Bytes × ProcS (Option Bytes))) (d : Dict) (r : Option Bytes), MultiFits anyFits d l w r := by
      intro l
      induction l with
      | nil => intro d r; trivial
      | cons x l ih =>
        intro d r; obtain ⟨k, p⟩ := x
        exact ⟨by cases (p r (d k)).1 <;> trivial, ih _ _⟩
    exact this _ _ _
  | firstRec w p => exact (processFirst_spec hi w p).1
  | each w p => obtain ⟨_, _, _, h, _⟩ := C10_std_each hi w p id 0; exact h
  | make i =>
    simp only [evStep]
    split
    · exact hi
    · rename_i h
      refine ⟨hi.nodup, hi.ordered, ?_, ?_, hi.ok⟩
      · intro x hx k hk
        rcases List.mem_append.1 hx with hx | hx
        · exact hi.valid x hx k hk
        · simp only [List.mem_singleton] at hx; subst hx; cases hk
      · show (List.map _ (s.iters ++ [(i, none)])).Nodup
        rw [List.map_append, List.nodup_append]
        refine ⟨hi.ids, by simp, ?_⟩
        intro a ha b hb hab
        simp only [List.map_cons, List.map_nil, List.mem_singleton] at hb
        exact h (by rw [← hb, ← hab]; exact ha)
  | free i =>
    refine ⟨hi.nodup, hi.ordered, ?_, ?_, hi.ok⟩
    · intro x hx; exact hi.valid x (List.mem_filter.1 hx).1
    · exact (List.Sublist.map _ List.filter_sublist).nodup hi.ids
  | first i => exact move_inv hi i (begin_valid _)
  | last i =>
    simp only [evStep, State.last]
    cases K with
    | hash _ _ => exact hi
    | tree =>
      simp only
      split
      · exact move_inv hi i (by intro k h; cases h)
      · rename_i hb
        rw [begin_none] at hb
        obtain ⟨x, hx⟩ := Option.isSome_iff_exists.1 (List.getLast?_isSome.2 hb)
        simp only [decEnd, hx, Option.map_some, State.moveOpt]
        refine move_inv hi i ?_
        intro k h; cases h
        exact List.mem_map.2 ⟨x, List.mem_of_getLast? hx, rfl⟩
  | jump i k =>
    simp only [evStep, State.jump]
    cases K with
    | hash _ _ =>
      simp only
      split
      · rename_i h; exact move_inv hi i (by intro k' h'; cases h'; exact lookup_isSome.1 h)
      · exact move_inv hi i (by intro k h; cases h)
    | tree => exact move_inv hi i (fun k' h => view_isSome.1 ((lowerBound_least hi k).mem k' h).1)
  | jumpLower i k b =>
    simp only [evStep, State.jumpLower]
    cases K with
    | hash _ _ => exact hi
    | tree =>
      obtain ⟨q, h1, h2⟩ := jumpLowerPos_spec hi k b
      simp only [h1, State.moveOpt]
      exact move_inv hi i (fun k' h => view_isSome.1 (h2.mem k' h).1)
  | jumpUpper i k b =>
    simp only [evStep, State.jumpUpper]
    cases K with
    | hash _ _ => exact hi
    | tree =>
      refine move_inv hi i (fun k' h => ?_)
      split at h
      · exact view_isSome.1 ((lowerBound_least hi k).mem k' h).1
      · exact view_isSome.1 ((upperBound_least hi k).mem k' h).1
  | next i =>
    simp only [evStep, State.next]
    cases hat : s.at i with
    | none => exact hi
    | some k =>
      obtain ⟨v, hv⟩ := hi.at_lookup hat
      obtain ⟨a, b, e, ha, hb⟩ := hi.cut hv
      have hinc : inc k s.map = some (begin b) := by rw [e]; exact inc_split ha
      simp only [hinc, State.moveOpt]
      exact move_inv hi i (inc_valid hinc)
  | previous i =>
    simp only [evStep, State.previous]
    cases K with
    | hash _ _ => exact hi
    | tree =>
      simp only
      cases hat : s.at i with
      | none => exact hi
      | some k =>
        simp only
        split
        · exact move_inv hi i (by intro k h; cases h)
        · rename_i hbk
          obtain ⟨v, hv⟩ := hi.at_lookup hat
          obtain ⟨a, b, e, ha, hb⟩ := hi.cut hv
          cases hg : a.getLast? with
          | none =>
            rw [List.getLast?_eq_none_iff] at hg
            rw [e, hg] at hbk; exact absurd rfl hbk
          | some x =>
            have hdec : dec k s.map = some (some x.1) := by rw [e]; exact dec_split ha hg
            simp only [hdec, State.moveOpt]
            exact move_inv hi i (dec_valid hdec)
  | iproc i w p => exact (iterProcess_spec hi i w p).1

theorem evRun_inv {K : Kind} (hK : K.Ok) (evs : List Ev) : ∀ s, Inv K s → Inv K (evRun K s evs) := by
  induction evs with
  | nil => intro s hi; exact hi
  | cons ev evs ih => intro s hi; exact ih _ (evStep_inv hK hi ev)

/-- C14: under every interleaving of calls on the database with calls on any number of iterators, nothing undefined
happens and every iterator is at the end or at a record that exists. -/
theorem C14_iterators_valid {K : Kind} (hK : K.Ok) (evs : List Ev) :
    (evRun K {} evs).bad = false ∧ ∀ i k, (evRun K {} evs).at i = some k → (view (evRun K {} evs) k).isSome :=
  ⟨(evRun_inv hK evs _ (init_inv K)).ok, survive_iters (evRun_inv hK evs _ (init_inv K))⟩

/-- C14: in every state reached by any interleaving, the invariant of the other theorems holds. -/
theorem C14_reachable {K : Kind} (hK : K.Ok) (evs : List Ev) : Inv K (evRun K {} evs) := evRun_inv hK evs _ (init_inv K)

/-- C14: a call that is not a removal leaves every iterator where it is. -/
theorem C14_others_stay {K : Kind} {s : State} (hi : Inv K s) {τ : Type} (k : Bytes) (w : Bool) (p : ProcR τ)
    (hp : w = false ∨ view s k = none ∨ (p (view s k)).1 ≠ .remove) (i : Nat) :
    (s.process K k w p).1.at i = s.at i := by
  unfold State.process
  cases w with
  | false => rfl
  | true =>
    simp only [if_true]
    cases h : lookup k s.map with
    | none => cases (p none).1 <;> exact at_congr rfl i
    | some v =>
      have hv : view s k = some v := h
      rw [hv] at hp
      simp only [Bool.true_eq_false, reduceCtorEq, false_or] at hp
      simp only
      cases hc : (p (some v)).1 with
      | remove => exact absurd hc hp
      | noop => rfl
      | set v' => exact at_congr rfl i

/-! ### Save and load -/

/-- `map_.emplace(key, value)` for an imported record (tkrzw_dbm_std.cc 568). -/
def importSet (K : Kind) (s : State) (k v : Bytes) : State × Code := ({ s with map := K.emplace k v s.map }, .success)

/-- The file of `ExportRecords` (tkrzw_dbm_std.cc 573-609); `info` is the serialized metadata, which holds the time. -/
def saved (info : Bytes) (s : State) : Bytes := Flat.saveFile info s.map

theorem importSet_spec {K : Kind} {s : State} (hi : Inv K s) {k v : Bytes} (h : view s k = none) :
    Inv K (importSet K s k v).1 ∧ view (importSet K s k v).1 = (view s).upd k (some v) := by
  have := actEmpty_spec hi h (.set v)
  exact ⟨⟨this.1.nodup, this.1.ordered, this.1.valid, this.1.ids, this.1.ok⟩, this.2⟩

open Flat in
theorem importLoop_new {K : Kind} {file : Bytes} (l : List (Bytes × Bytes)) (hs : Small l) (hn : (l.map (·.1)).Nodup)
    (hlast : ∀ x, l.getLast? = some x → x.2 ≠ []) :
    ∀ (r : Reader) (s : State) (fuel : Nat), At file r (exportFile l) → Inv K s → (∀ x ∈ l, view s x.1 = none) → l.length < fuel →
      ∃ r' s', importLoop file (importSet K) fuel r s = importLoop file (importSet K) (fuel - l.length) r' s' ∧ At file r' [] ∧
        Inv K s' ∧ view s' = setAll (view s) l := by
  induction l with
  | nil => intro r s fuel h hi _ _; exact ⟨r, s, rfl, h, hi, rfl⟩
  | cons x l ih =>
    obtain ⟨k, v⟩ := x
    intro r s fuel h hi hfr hfu
    obtain ⟨f, rfl⟩ : ∃ f, fuel = f + 1 := ⟨fuel - 1, by omega⟩
    simp only [List.length_cons] at hfu
    have hk := hs (k, v) (by simp)
    have e : exportFile ((k, v) :: l) = record .normal k ++ (record .normal v ++ (exportFile l)) := by
      simp [exportFile]
    rw [e] at h
    have hv2 := record_length_ge .normal v
    have hk2 := record_length_ge .normal k
    obtain ⟨r1, e1, h1⟩ := read_ok h hk.1 (by simp only [List.length_append]; omega)
    obtain ⟨r2, e2, h2⟩ := read_ok h1 hk.2 (by
      simp only [List.length_append]
      by_cases hv : v = []
      · cases l with
        | nil => exact absurd hv (hlast (k, v) rfl)
        | cons y l =>
          have := record_length_ge .normal y.1
          simp only [exportFile, List.flatMap_cons, List.length_append]; omega
      · have := record_nonempty_length (k := .normal) hv; omega)
    obtain ⟨hi1, hv1⟩ := importSet_spec (v := v) hi (hfr (k, v) (by simp))
    simp only [List.map_cons, List.nodup_cons] at hn
    obtain ⟨r', s', e', ha, hi', hv'⟩ := ih (fun y hy => hs y (by simp [hy])) hn.2
      (fun y hy => hlast y (by
        cases l with
        | nil => simp at hy
        | cons z l => rw [List.getLast?_cons_cons]; exact hy)) r2 (importSet K s k v).1 f h2 hi1 (by
          intro y hy
          rw [hv1, Dict.upd, if_neg]
          · exact hfr y (by simp [hy])
          · exact fun e => hn.1 (List.mem_map.2 ⟨y, hy, e⟩)) (by omega)
    refine ⟨r', s', ?_, ha, hi', ?_⟩
    · rw [importLoop]
      simp only [e1, e2, importSet] at e' ⊢
      rw [e']
      congr 1
      simp only [List.length_cons]; omega
    · rw [hv', hv1]; rfl

open Flat in
/-- C28 for StdTreeDBM and StdHashDBM: after any interleaving of calls, the file saved by `Synchronize` or `Close` and
opened again by either class holds the same records — provided that the value of the record written last is not empty
(see `Flat.C28_violated`). -/
theorem C28_std_save_load_partial {K K' : Kind} {s : State} (hi : Inv K s) (info : Bytes) (hinfo : info ≠ [])
    (hsz : info.length < 2 ^ 49) (hs : Small s.map) (hlast : ∀ x, s.map.getLast? = some x → x.2 ≠ []) :
    ∃ s', importFile (saved info s) (importSet K') {} = some (s', .success) ∧ Inv K' s' ∧ view s' = view s := by
  have hl := lookup_lists hi.nodup
  have hlen := exportFile_length_ge s.map
  have h3 := record_nonempty_length (k := .metadata) hinfo
  have hll : (saved info s).length = (record .metadata info).length + (exportFile s.map).length := by simp [saved, saveFile]
  obtain ⟨r1, e1, h1⟩ := read_ok (At.new (saved info s) 0) hsz (by rw [List.length_append]; omega)
  obtain ⟨r', s', e, ha, hi', hv⟩ := importLoop_new (K := K') (file := saved info s) s.map hs hi.nodup hlast r1 {}
    (saved info s).length h1 (init_inv K') (by intro x _; rfl) (by omega)
  obtain ⟨r2, e2⟩ := read_fin ha (by simp)
  refine ⟨s', ?_, hi', by rw [hv]; exact setAll_lists hl⟩
  rw [importFile, importLoop]
  simp only [e1]
  rw [e]
  obtain ⟨f, hf⟩ : ∃ f, (saved info s).length - s.map.length = f + 1 := ⟨(saved info s).length - s.map.length - 1, by omega⟩
  rw [hf, importLoop]
  simp only [e2]
  rfl

end Verif.Std
