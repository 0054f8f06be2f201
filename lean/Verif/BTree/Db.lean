import Verif.BTree.Frame
import Verif.Dbm.Api
/-
The database as a whole: every call against the specification.
-/
namespace Verif.BTree
open Verif

variable {c : Cfg}

/-- One call of the database or of an iterator.  BabyDBM has its own `Append` (tkrzw_dbm_baby.cc 435-445); TreeDBM uses the one of `DBM`, through `Process`
(tkrzw_dbm.h 1260-1267).  `Count` is tkrzw_dbm_baby.cc 539-543, tkrzw_dbm_tree.cc 785-793. -/
def call {ω : Type} (c : Cfg) (own : Bool) (s : State) : OMap.Call ω → Option (State × OMap.Out ω)
  | .process k w p => (process c s k w p).map fun x => (x.1, .res (some x.2))
  | .append k v delim =>
    if own then (append c s k v delim).map fun x => (x, .code .success)
    else (process c s k true fun _ => Api.appendProc v delim).map fun x => (x.1, .code .success)
  | .multi l w r => (processMulti c s l w r).map fun x => (x.1, .res (some x.2))
  | .first w p => (processFirst c s w p).map fun x => (x.1, .res x.2)
  | .each w p r => (processEach c s w p r).map fun x => (x.1, .res (some x.2))
  | .count => some (s, .num s.count)
  | .clear => some (clear c s, .code .success)
  | .iterFirst i => (first s i).map fun x => (x, .code .success)
  | .iterLast i => (last s i).map fun x => (x, .code .success)
  | .iterJump i x => some (jump s i x, .code .success)
  | .iterJumpLower i x incl => (jumpLower c s i x incl).map fun x => (x, .code .success)
  | .iterJumpUpper i x incl => (jumpUpper c s i x incl).map fun x => (x, .code .success)
  | .iterNext i => (next c s i).map fun x => (x.1, .code x.2)
  | .iterPrevious i => (prev c s i).map fun x => (x.1, .code x.2)
  | .iterProcess i w p => (iterProcess c s i w p).map fun x => (x.1, .res x.2)

/-- A sequence of calls, with their results; `none` if one of them is undefined. -/
def calls {ω : Type} (c : Cfg) (own : Bool) : State → List (OMap.Call ω) → Option (State × List (OMap.Call ω × OMap.Out ω))
  | s, [] => some (s, [])
  | s, x :: l => do
    let y ← call c own s x
    let z ← calls c own y.1 l
    some (z.1, (x, y.2) :: z.2)

/-- Is it `Clear`? -/
def isClear {ω : Type} : OMap.Call ω → Bool
  | .clear => true
  | _ => false

/-- Every call but `Clear`. -/
theorem call_frame {ω : Type} {own : Bool} {s s' : State} {x : OMap.Call ω} {o : OMap.Out ω} (h : call c own s x = some (s', o))
    (hx : isClear x = false) : Frame c s s' := by
  cases x with
  | process k w p =>
    simp only [call, Option.map_eq_some_iff, Prod.mk.injEq] at h
    obtain ⟨⟨s1, a⟩, h1, h2, _⟩ := h
    exact h2 ▸ process_frame h1
  | append k v delim =>
    simp only [call] at h
    split at h
    · simp only [Option.map_eq_some_iff, Prod.mk.injEq] at h
      obtain ⟨s1, h1, h2, _⟩ := h
      exact h2 ▸ append_frame h1
    · simp only [Option.map_eq_some_iff, Prod.mk.injEq] at h
      obtain ⟨⟨s1, a⟩, h1, h2, _⟩ := h
      exact h2 ▸ process_frame h1
  | multi l w r =>
    simp only [call, Option.map_eq_some_iff, Prod.mk.injEq] at h
    obtain ⟨⟨s1, a⟩, h1, h2, _⟩ := h
    exact h2 ▸ processMulti_frame h1
  | first w p =>
    simp only [call, Option.map_eq_some_iff, Prod.mk.injEq] at h
    obtain ⟨⟨s1, a⟩, h1, h2, _⟩ := h
    exact h2 ▸ processFirst_frame h1
  | each w p r =>
    simp only [call, Option.map_eq_some_iff, Prod.mk.injEq] at h
    obtain ⟨⟨s1, a⟩, h1, h2, _⟩ := h
    exact h2 ▸ processEach_frame h1
  | count =>
    simp only [call, Option.some.injEq, Prod.mk.injEq] at h
    exact h.1 ▸ Frame.refl s
  | clear => cases hx
  | iterFirst i =>
    simp only [call, first, Option.map_map, Option.map_eq_some_iff, Function.comp_apply, Prod.mk.injEq] at h
    obtain ⟨⟨s1, a⟩, h1, h2, _⟩ := h
    exact h2 ▸ ((setIter_still s i _).trans (setFirst_still h1)).frame
  | iterLast i =>
    simp only [call, last, Option.map_map, Option.map_eq_some_iff, Function.comp_apply, Prod.mk.injEq] at h
    obtain ⟨⟨s1, a⟩, h1, h2, _⟩ := h
    exact h2 ▸ ((setIter_still s i _).trans (setLast_still h1)).frame
  | iterJump i x =>
    simp only [call, Option.some.injEq, Prod.mk.injEq] at h
    exact h.1 ▸ (setIter_still s i _).frame
  | iterJumpLower i x incl =>
    simp only [call, Option.map_eq_some_iff, Prod.mk.injEq] at h
    obtain ⟨s1, h1, h2, _⟩ := h
    exact h2 ▸ (jumpLower_still h1).frame
  | iterJumpUpper i x incl =>
    simp only [call, Option.map_eq_some_iff, Prod.mk.injEq] at h
    obtain ⟨s1, h1, h2, _⟩ := h
    exact h2 ▸ (jumpUpper_still h1).frame
  | iterNext i =>
    simp only [call, next] at h
    split at h
    · simp only [Option.map_some, Option.some.injEq, Prod.mk.injEq] at h
      exact h.1 ▸ Frame.refl s
    · simp only [Option.map_map, Option.map_eq_some_iff, Function.comp_apply, Prod.mk.injEq] at h
      obtain ⟨s1, h1, h2, _⟩ := h
      exact h2 ▸ (nextImpl_still h1).frame
  | iterPrevious i =>
    simp only [call, prev] at h
    split at h
    · simp only [Option.map_some, Option.some.injEq, Prod.mk.injEq] at h
      exact h.1 ▸ Frame.refl s
    · simp only [Option.map_map, Option.map_eq_some_iff, Function.comp_apply, Prod.mk.injEq] at h
      obtain ⟨s1, h1, h2, _⟩ := h
      exact h2 ▸ (prevImpl_still h1).frame
  | iterProcess i w p =>
    simp only [call, Option.map_eq_some_iff, Prod.mk.injEq] at h
    obtain ⟨⟨s1, a⟩, h1, h2, _⟩ := h
    exact h2 ▸ iterProcess_frame h1

/-- Does the call depend on `last_id_`? -/
def usesLast {ω : Type} : OMap.Call ω → Bool
  | .iterLast _ => true
  | .iterJumpLower _ _ _ => true
  | _ => false

/-- The tree `s` with leaves `L` stands for `t`. -/
structure Sim (c : Cfg) (s : State) (L : Layer) (t : OMap.St) : Prop where
  inv : Inv c s L
  recs : contents s.leaves L = t.recs
  iters : ∀ i, (s.iters i).key = t.iters i
  log : s.log = t.log

/-- What an operation on records does to `t`. -/
def after (t : OMap.St) (m : List Rec) (lg : List LogOp) : OMap.St := { t with recs := m, log := t.log ++ lg }

theorem reorgIf_sim (hc : c.Ok) {s : State} {L : Layer} {t : OMap.St} (h : Sim c s L t) (w : Bool) :
    ∃ s' L', reorgIf c s w = some s' ∧ Sim c s' L' t := by
  obtain ⟨s', L', h1, h2, h3, h4⟩ := reorgIf_spec hc h.inv w
  exact ⟨s', L', h1, h2, h3.trans h.recs, fun i => (h4.keys i).trans (h.iters i), h4.log.trans h.log⟩

theorem Did.sim {s s' : State} {L : Layer} {t : OMap.St} {id : Nat} {m : List Rec} {lg : List LogOp} (hd : Did c s s' L id m lg) (h : Sim c s L t) :
    Sim c s' L (after t m lg) :=
  ⟨hd.inv, hd.recs, fun i => by rw [hd.iters]; exact h.iters i, by rw [hd.log, h.log]; rfl⟩

theorem process_sim (hc : c.Ok) {τ : Type} {s : State} {L : Layer} {t : OMap.St} (h : Sim c s L t) (k : Bytes) (w : Bool) (p : Bytes → ProcR τ) :
    ∃ s' L', process c s k w p = some (s', (OMap.process c.lt t.recs k w p).2.2) ∧
      Sim c s' L' (after t (OMap.process c.lt t.recs k w p).1 (OMap.process c.lt t.recs k w p).2.1) := by
  obtain ⟨s1, L1, h1, h2⟩ := reorgIf_sim hc h w
  obtain ⟨A, e, B, h3, h4⟩ := search_spec hc h2.inv.upper h2.inv.lower.seps k
  obtain ⟨s2, h5, h6⟩ := processImpl_spec hc h2.inv h4 w p
  rw [h2.recs] at h5 h6
  exact ⟨s2, L1, by simp only [process, h1, h3, h5, Option.bind_eq_bind, Option.bind_some], h6.sim h2⟩

theorem inv_eager {s : State} {L : Layer} (b : Bool) (h : Inv c s L) : Inv { c with eager := b } s L :=
  ⟨h.upper, ⟨h.lower.seps, h.lower.nodup, h.lower.fresh, h.lower.linked, h.lower.first, h.lower.last,
    fun e he l hl => ⟨(h.lower.leaf e he l hl).sorted, (h.lower.leaf e he l hl).own, (h.lower.leaf e he l hl).page⟩, h.lower.iters⟩, h.reorg, h.count⟩

theorem process_set {τ : Type} (lt : Bytes → Bytes → Bool) (m : List Rec) (k : Bytes) (f : Option Bytes → Bytes) (o : τ) :
    OMap.process lt m k true (fun _ old => (.set (f old), o)) =
      (OMap.put lt k (f ((OMap.get lt k m).map (·.2))) m, [.set k (f ((OMap.get lt k m).map (·.2)))], o) := by
  unfold OMap.process
  cases OMap.get lt k m <;> rfl

theorem append_sim (hc : c.Ok) {s : State} {L : Layer} {t : OMap.St} (h : Sim c s L t) (k v delim : Bytes) :
    ∃ s' L', append c s k v delim = some s' ∧
      Sim c s' L' (after t (OMap.put c.lt k (OMap.appended ((OMap.get c.lt k t.recs).map (·.2)) v delim) t.recs)
        [.set k (OMap.appended ((OMap.get c.lt k t.recs).map (·.2)) v delim)]) := by
  obtain ⟨s1, L1, h1, h2⟩ := reorgIf_sim hc h true
  obtain ⟨A, e, B, h3, h4⟩ := search_spec hc h2.inv.upper h2.inv.lower.seps k
  obtain ⟨s2, h5, h6⟩ := processImpl_spec (c := { c with eager := false }) ⟨hc.weak, hc.big⟩ (inv_eager false h2.inv) h4 true
    (fun _ old => (.set (OMap.appended old v delim), ()))
  rw [process_set] at h5 h6
  rw [h2.recs] at h6
  refine ⟨s2, L1, by simp only [append, h1, h3, Option.bind_eq_bind, Option.bind_some, appendImpl_eq, h5, Option.map_some], ?_⟩
  have h7 : Did c s1 s2 L1 e.2 _ _ := ⟨inv_eager (c := { c with eager := false }) c.eager h6.inv, h6.recs, h6.log, h6.iters, h6.frame⟩
  exact h7.sim h2

/-! ### `ProcessMulti` -/

/-- The leaves of a list of keys. -/
inductive Found (lt : Bytes → Bytes → Bool) (L : Layer) : List Bytes → List Nat → Prop
  | nil : Found lt L [] []
  | cons {k : Bytes} {ks : List Bytes} {id : Nat} {ids : List Nat} (h : ∃ A e B, At lt k L A e B ∧ e.2 = id) (t : Found lt L ks ids) : Found lt L (k :: ks) (id :: ids)

theorem searchAll_spec (hc : c.Ok) {s : State} {L : Layer} (h : Inv c s L) : ∀ ks : List Bytes,
    ∃ ids, searchAll c s ks = some ids ∧ Found c.lt L ks ids
  | [] => ⟨[], rfl, .nil⟩
  | k :: ks => by
    obtain ⟨A, e, B, h1, h2⟩ := search_spec hc h.upper h.lower.seps k
    obtain ⟨ids, h3, h4⟩ := searchAll_spec hc h ks
    exact ⟨e.2 :: ids, by simp only [searchAll, h1, h3, Option.bind_eq_bind, Option.bind_some], .cons ⟨A, e, B, h2, rfl⟩ h4⟩

theorem after_after (t : OMap.St) (m m' : List Rec) (l l' : List LogOp) : after (after t m l) m' l' = after t m' (l ++ l') := by
  simp [after, List.append_assoc]

theorem processAll_sim (hc : c.Ok) {ρ : Type} (w : Bool) : ∀ (l : List (Bytes × ProcS ρ)) (ids : List Nat) (s : State) (L : Layer) (t : OMap.St) (r : ρ),
    Sim c s L t → Found c.lt L (l.map (·.1)) ids →
    ∃ s', processAll c w s ids l r = some (s', (OMap.multi c.lt w t.recs l r).2.2) ∧
      Sim c s' L (after t (OMap.multi c.lt w t.recs l r).1 (OMap.multi c.lt w t.recs l r).2.1)
  | [], ids, s, L, t, r, h, _ => ⟨s, by simp [processAll, OMap.multi], by simpa [OMap.multi, after] using h⟩
  | (k, p) :: l, ids, s, L, t, r, h, hl => by
    rw [List.map_cons] at hl
    cases hl with
    | cons hk hl =>
      obtain ⟨A, e, B, h1, rfl⟩ := hk
      obtain ⟨s1, h2, h3⟩ := processImpl_spec hc h.inv h1 w (fun _ => p r)
      rw [h.recs] at h2 h3
      obtain ⟨s2, h4, h5⟩ := processAll_sim hc w l _ s1 L _ (OMap.process c.lt t.recs k w fun _ => p r).2.2 (h3.sim h) hl
      rw [after_after] at h5
      exact ⟨s2, by simp only [processAll, h2, Option.bind_eq_bind, Option.bind_some, h4]; rfl, h5⟩

theorem processMulti_sim (hc : c.Ok) {ρ : Type} {s : State} {L : Layer} {t : OMap.St} (h : Sim c s L t) (l : List (Bytes × ProcS ρ)) (w : Bool) (r : ρ) :
    ∃ s' L', processMulti c s l w r = some (s', (OMap.multi c.lt w t.recs l r).2.2) ∧
      Sim c s' L' (after t (OMap.multi c.lt w t.recs l r).1 (OMap.multi c.lt w t.recs l r).2.1) := by
  obtain ⟨s1, L1, h1, h2⟩ := reorgIf_sim hc h (w || c.multiReorg)
  obtain ⟨ids, h3, h4⟩ := searchAll_spec hc h2.inv (l.map (·.1))
  obtain ⟨s2, h5, h6⟩ := processAll_sim hc w l ids s1 L1 t r h2 h4
  exact ⟨s2, L1, by simp only [processMulti, h1, h3, h5, Option.bind_eq_bind, Option.bind_some], h6⟩

/-! ### `ProcessFirst` -/

theorem processFirst_sim (hc : c.Ok) {τ : Type} {s : State} {L : Layer} {t : OMap.St} (h : Sim c s L t) (w : Bool) (p : Bytes → ProcR τ) :
    ∃ s' L' o t', processFirst c s w p = some (s', o) ∧ (t', OMap.Out.res o) = OMap.step c.lt c.firstWrites t (.first w p) ∧ Sim c s' L' t' := by
  obtain ⟨s1, L1, h1, h2⟩ := reorgIf_sim hc h (w && c.firstReorg)
  simp only [processFirst, h1, Option.bind_eq_bind, Option.bind_some, OMap.step]
  rw [show some s1.first = headId L1 none from h2.inv.lower.first.symm]
  have hlen := layer_length h2.inv.lower
  rcases nonEmptyFrom_spec (s1.numLeaf + 1) L1 none h2.inv.lower.linked (by omega) with ⟨g1, g2⟩ | ⟨Q1, e, Q2, l, r, rest, g1, g2, g3, g4, g5⟩
  · rw [h2.recs] at g2
    rw [g1, g2]
    exact ⟨s1, L1, none, t, rfl, rfl, h2⟩
  · have hcon : t.recs = r :: (rest ++ contents s1.leaves Q2) := by
      rw [← h2.recs, g1, contents_append, g2, contents_cons, recsAt_some g3, g4]
      rfl
    have hown := (h2.inv.lower.leaf e (by rw [g1]; simp) l g3).own r (by rw [g4]; simp)
    obtain ⟨A, e', B, h3, h4⟩ := at_of_locate hc.weak h2.inv.lower.seps hown
    obtain ⟨s2, h5, h6⟩ := processImpl_spec hc h2.inv h3 (w || c.firstWrites) p
    rw [h2.recs] at h5 h6
    rw [g5]
    simp only [Option.bind_some]
    rw [← h4, h5]
    refine ⟨s2, L1, _, _, rfl, ?_, h6.sim h2⟩
    rw [show t.recs.head? = some r by rw [hcon]; rfl]
    rfl

/-! ### `ProcessEach` -/

theorem each_append {ρ : Type} (lt : Bytes → Bytes → Bool) (w : Bool) (p : ρ → Bytes → ProcR ρ) : ∀ (a b : List Bytes) (m : List Rec) (r : ρ),
    OMap.each lt w p (a ++ b) m r =
      ((OMap.each lt w p b (OMap.each lt w p a m r).1 (OMap.each lt w p a m r).2.2).1,
        (OMap.each lt w p a m r).2.1 ++ (OMap.each lt w p b (OMap.each lt w p a m r).1 (OMap.each lt w p a m r).2.2).2.1,
        (OMap.each lt w p b (OMap.each lt w p a m r).1 (OMap.each lt w p a m r).2.2).2.2)
  | [], b, m, r => by simp [OMap.each]
  | k :: a, b, m, r => by
    simp only [List.cons_append, OMap.each, each_append lt w p a b, List.append_assoc]

/-- Doing nothing. -/
theorem did_refl {s : State} {L : Layer} (h : Inv c s L) (id : Nat) : Did c s s L id (contents s.leaves L) [] :=
  ⟨h, rfl, by simp, rfl, fun _ _ => rfl⟩

theorem eachKeys_spec (hc : c.Ok) {ρ : Type} (p : ρ → Bytes → ProcR ρ) {L : Layer} {id : Nat} : ∀ (ks : List Bytes) (s : State) (r : ρ),
    Inv c s L → (∀ k ∈ ks, locate c.lt k L = some id) →
    ∃ s', eachKeys c id s ks p r = some (s', (OMap.each c.lt true p ks (contents s.leaves L) r).2.2) ∧
      Did c s s' L id (OMap.each c.lt true p ks (contents s.leaves L) r).1 (OMap.each c.lt true p ks (contents s.leaves L) r).2.1
  | [], s, r, h, _ => ⟨s, rfl, did_refl h id⟩
  | k :: ks, s, r, h, hk => by
    obtain ⟨A, e, B, h1, h2⟩ := at_of_locate hc.weak h.lower.seps (hk k (by simp))
    subst h2
    obtain ⟨s1, h3, h4⟩ := processImpl_spec hc h h1 true (p r)
    obtain ⟨s2, h5, h6⟩ := eachKeys_spec hc p ks s1 (OMap.process c.lt (contents s.leaves L) k true (p r)).2.2 h4.inv (fun k' hk' => hk k' (by simp [hk']))
    rw [h4.recs] at h5 h6
    refine ⟨s2, by simp only [eachKeys, h3, Option.bind_eq_bind, Option.bind_some, h5]; rfl, ?_⟩
    refine ⟨h6.inv, h6.recs, ?_, h6.iters.trans h4.iters, fun i hi => (h6.frame i hi).trans (h4.frame i hi)⟩
    rw [h6.log, h4.log, List.append_assoc]
    rfl

theorem each_read {ρ : Type} {lt : Bytes → Bytes → Bool} (hw : StrictWeak lt) (p : ρ → Bytes → ProcR ρ) {m : List Rec} (hm : OrdMap.Sorted lt m) : ∀ (l : List Rec) (r : ρ),
    (∀ x ∈ l, x ∈ m) → OMap.each lt false p (l.map (·.1)) m r = (m, [], l.foldl (fun r x => (p r x.1 (some x.2)).2) r)
  | [], r, _ => rfl
  | x :: l, r, h => by
    have hg : OMap.get lt x.1 m = some x := by
      obtain ⟨P, q, R, hcut⟩ := OMap.exists_cut hw x.1 hm
      rw [hcut.get hw]
      have hx := h x (by simp)
      rw [hcut.eq] at hx
      rcases List.mem_append.1 hx with hx | hx
      · rcases List.mem_append.1 hx with hx | hx
        · have := hcut.lo x hx
          rw [hw.irrefl] at this
          cases this
        · cases q with
          | none => simp at hx
          | some y => simp at hx; rw [hx]
      · have := hcut.hi x hx
        rw [hw.irrefl] at this
        cases this
    have hp : OMap.process lt m x.1 false (p r) = (m, [], (p r x.1 (some x.2)).2) := by
      unfold OMap.process
      rw [hg]
      simp only
      cases (p r x.1 (some x.2)).1 <;> rfl
    simp only [List.map_cons, OMap.each, hp, List.foldl_cons, each_read hw p hm l _ (fun y hy => h y (by simp [hy])), List.append_nil]

theorem eachLeaves_spec (hc : c.Ok) {ρ : Type} (w : Bool) (p : ρ → Bytes → ProcR ρ) {L : Layer} : ∀ (n : Nat) (Q P : Layer) (s : State) (r : ρ),
    Inv c s L → L = P ++ Q → Q.length ≤ n →
    ∃ s', eachLeaves c w p n s (headId Q none) r = some (s', (OMap.each c.lt w p ((contents s.leaves Q).map (·.1)) (contents s.leaves L) r).2.2) ∧
      Inv c s' L ∧ contents s'.leaves L = (OMap.each c.lt w p ((contents s.leaves Q).map (·.1)) (contents s.leaves L) r).1 ∧
      s'.log = s.log ++ (OMap.each c.lt w p ((contents s.leaves Q).map (·.1)) (contents s.leaves L) r).2.1 ∧ s'.iters = s.iters
  | n, [], P, s, r, h, _, _ => ⟨s, by cases n <;> rfl, h, rfl, by simp [contents, OMap.each], rfl⟩
  | 0, e :: Q, P, s, r, h, _, hn => by simp at hn
  | n + 1, e :: Q, P, s, r, h, hL, hn => by
    obtain ⟨l, hl⟩ := h.lower.linked.get (e := e) (by rw [hL]; simp)
    have hks : (contents s.leaves (e :: Q)).map (fun r : Rec => r.1) = l.recs.map (·.1) ++ (contents s.leaves Q).map (·.1) := by
      rw [contents_cons, recsAt_some hl, List.map_append]
    rw [hks, each_append]
    have hnext := (linked_next h.lower hL hl).1
    simp only [headId_cons, eachLeaves, hl, Option.bind_eq_bind, Option.bind_some]
    cases w with
    | true =>
      simp only [if_true]
      obtain ⟨s1, h1, h2⟩ := eachKeys_spec hc p (l.recs.map (·.1)) s r h (id := e.2) (fun k hk => by
        obtain ⟨x, hx, rfl⟩ := List.mem_map.1 hk
        exact (h.lower.leaf e (by rw [hL]; simp) l hl).own x hx)
      rw [h1]
      obtain ⟨l', hl'⟩ := h2.inv.lower.linked.get (e := e) (by rw [hL]; simp)
      simp only [Option.bind_some, hl', (linked_next h2.inv.lower hL hl').1]
      have hQ : contents s1.leaves Q = contents s.leaves Q := by
        apply contents_congr (A := Q) (lv := s.leaves)
        intro x hx
        unfold recsAt
        rw [h2.frame x.2]
        intro heq
        have hnd := h.lower.nodup
        rw [hL, List.map_append, List.map_cons] at hnd
        have := (List.nodup_cons.1 (List.nodup_append.1 hnd).2.1).1
        exact this (heq ▸ List.mem_map_of_mem hx)
      obtain ⟨s2, h3, h4, h5, h6, h7⟩ := eachLeaves_spec hc true p n Q (P ++ [e]) s1
        (OMap.each c.lt true p (l.recs.map (·.1)) (contents s.leaves L) r).2.2 h2.inv (by rw [hL]; simp) (by simpa using hn)
      rw [hQ, h2.recs] at h3 h5 h6
      exact ⟨s2, h3, h4, h5, by rw [h6, h2.log, List.append_assoc], h7.trans h2.iters⟩
    | false =>
      simp only [Bool.false_eq_true, if_false]
      have hr : ∀ r, OMap.each c.lt false p (l.recs.map (·.1)) (contents s.leaves L) r =
          (contents s.leaves L, [], l.recs.foldl (fun r x => (p r x.1 (some x.2)).2) r) := fun r =>
        each_read hc.weak p (contents_sorted hc.weak h.lower) l.recs r (fun x hx => by
          rw [hL, contents_append, contents_cons, recsAt_some hl]
          simp [hx])
      rw [hr]
      simp only [List.nil_append, hnext]
      exact eachLeaves_spec hc false p n Q (P ++ [e]) s _ h (by rw [hL]; simp) (by simpa using hn)

theorem processEach_sim (hc : c.Ok) {ρ : Type} {s : State} {L : Layer} {t : OMap.St} (h : Sim c s L t) (w : Bool) (p : ρ → Bytes → ProcR ρ) (r : ρ) :
    ∃ s' L', processEach c s w p r = some (s', (OMap.each c.lt w p (t.recs.map (·.1)) t.recs r).2.2) ∧
      Sim c s' L' (after t (OMap.each c.lt w p (t.recs.map (·.1)) t.recs r).1 (OMap.each c.lt w p (t.recs.map (·.1)) t.recs r).2.1) := by
  obtain ⟨s1, L1, h1, h2⟩ := reorgIf_sim hc h (w && c.firstReorg)
  have hlen := layer_length h2.inv.lower
  obtain ⟨s2, h3, h4, h5, h6, h7⟩ := eachLeaves_spec hc w p (s1.numLeaf + 1) L1 [] s1 r h2.inv rfl (by omega)
  rw [h2.recs] at h3 h5 h6
  refine ⟨s2, L1, ?_, h4, h5, fun i => by rw [h7]; exact h2.iters i, by rw [h6, h2.log]; rfl⟩
  simp only [processEach, h1, Option.bind_eq_bind, Option.bind_some]
  rw [show some s1.first = headId L1 none from h2.inv.lower.first.symm, h3]

/-! ### Iterators -/

theorem Moved.sim {s s' : State} {L : Layer} {t : OMap.St} {i : Nat} {x : Option Bytes} (hm : Moved c s s' L i x) (h : Sim c s L t) :
    Sim c s' L (t.setIter i x) := by
  obtain ⟨it, h1, h2⟩ := hm.eq
  refine ⟨hm.inv, by rw [hm.leaves.1]; exact h.recs, fun j => ?_, by rw [h1]; exact h.log⟩
  rw [h1]
  simp only [State.setIter, OMap.St.setIter]
  by_cases hj : j = i
  · simp [hj, h2]
  · simp [hj, h.iters j]

theorem next_sim (hc : c.Ok) {s : State} {L : Layer} {t : OMap.St} (h : Sim c s L t) (ω : Type) (fw : Bool) (i : Nat) :
    ∃ s' o t', next c s i = some (s', o) ∧ (t', OMap.Out.code o) = OMap.step (ω := ω) c.lt fw t (.iterNext i) ∧ Sim c s' L t' := by
  simp only [next, OMap.step]
  rw [h.iters i]
  cases hx : t.iters i with
  | none => exact ⟨s, _, t, rfl, rfl, h⟩
  | some x =>
    obtain ⟨s1, h1, h2⟩ := nextImpl_spec hc h.inv i (by rw [h.iters i, hx])
    rw [h.recs] at h2
    exact ⟨s1, .success, _, by simp only [h1]; rfl, rfl, h2.sim h⟩

theorem prev_sim (hc : c.Ok) {s : State} {L : Layer} {t : OMap.St} (h : Sim c s L t) (ω : Type) (fw : Bool) (i : Nat) :
    ∃ s' o t', prev c s i = some (s', o) ∧ OMap.Allowed (ω := ω) c.lt fw t (.iterPrevious i) (.code o) t' ∧ Sim c s' L t' := by
  simp only [prev]
  rw [h.iters i]
  cases hx : t.iters i with
  | none => exact ⟨s, .notFound, t, rfl, Or.inl (by simp only [OMap.step, hx]), h⟩
  | some x =>
    obtain ⟨s1, y, h1, h2, h3, h4⟩ := prevImpl_spec hc h.inv i (by rw [h.iters i, hx])
    rw [h.recs] at h3 h4
    exact ⟨s1, .success, _, by simp only [h1]; rfl, Or.inr ⟨i, rfl, rfl, x, hx, y, rfl, h3, h4⟩, h2.sim h⟩

theorem iterProcess_sim (hc : c.Ok) {τ : Type} {s : State} {L : Layer} {t : OMap.St} (h : Sim c s L t) (fw : Bool) (i : Nat) (w : Bool) (p : Bytes → ProcR τ) :
    ∃ s' L' o t', iterProcess c s i w p = some (s', o) ∧ (t', OMap.Out.res o) = OMap.step c.lt fw t (.iterProcess i w p) ∧ Sim c s' L' t' := by
  obtain ⟨s1, L1, h1, h2⟩ := reorgIf_sim hc h w
  simp only [iterProcess, h1, Option.bind_eq_bind, Option.bind_some, OMap.step]
  rw [h2.iters i]
  cases hx : t.iters i with
  | none => exact ⟨s1, L1, none, t, rfl, rfl, h2⟩
  | some x =>
    simp only
    obtain ⟨s2, y, a1, a2, a3, a4⟩ := sync_spec hc h2.inv i (by rw [h2.iters i, hx])
    rw [h2.recs] at a2 a3
    rw [a1]
    simp only [Option.bind_some]
    have hs := a2.sim h2
    rw [← a3]
    cases y with
    | none =>
      rw [← a3] at hs
      exact ⟨s2, L1, none, _, rfl, rfl, hs⟩
    | some dr =>
      obtain ⟨d, r⟩ := dr
      rw [← a3] at hs
      obtain ⟨b1, b2, l, b3, b4⟩ := a4 d r rfl
      obtain ⟨A, e, B, e1, e2⟩ := at_of_locate hc.weak hs.inv.lower.seps b2
      subst e2
      obtain ⟨s3, h5, h6⟩ := processImpl_spec hc hs.inv e1 w p
      rw [hs.recs] at h5 h6
      cases w with
      | true =>
        simp only [if_true, Option.map_some]
        rw [h5]
        exact ⟨s3, L1, _, _, rfl, rfl, h6.sim hs⟩
      | false =>
        have hr : r ∈ t.recs := by
          rw [← h2.recs, e1.1, contents_append, contents_cons, recsAt_some b3]
          simp [b4]
        have hsorted : OrdMap.Sorted c.lt t.recs := h2.recs ▸ contents_sorted hc.weak h2.inv.lower
        have hp := each_read (ρ := Unit) hc.weak (fun _ k old => ((p k old).1, ())) hsorted [r] () (by simpa using hr)
        have hpp : OMap.process c.lt t.recs r.1 false p = (t.recs, [], (p r.1 (some r.2)).2) := by
          have hg : OMap.get c.lt r.1 t.recs = some r := by
            obtain ⟨P, q, R, hcut⟩ := OMap.exists_cut hc.weak r.1 hsorted
            rw [hcut.get hc.weak]
            rw [hcut.eq] at hr
            rcases List.mem_append.1 hr with hr | hr
            · rcases List.mem_append.1 hr with hr | hr
              · have := hcut.lo r hr
                rw [hc.weak.irrefl] at this
                cases this
              · cases q with
                | none => simp at hr
                | some y => simp at hr; rw [hr]
            · have := hcut.hi r hr
              rw [hc.weak.irrefl] at this
              cases this
          unfold OMap.process
          rw [hg]
          simp only
          cases (p r.1 (some r.2)).1 <;> rfl
        simp only [Bool.false_eq_true, if_false, Option.map_some, hpp]
        refine ⟨s2, L1, _, _, rfl, rfl, ?_⟩
        have : ({ recs := t.recs, iters := (t.setIter i (some r.1)).iters, log := t.log ++ [] } : OMap.St) = t.setIter i (some r.1) := by
          rw [List.append_nil]
          rfl
        rw [this]
        exact hs

/-! ### The start -/

theorem init_inv (c : Cfg) (lg : List LogOp) (b : Bool) : Inv c { init c with log := lg, ub := b } [(none, c.leafBase)] ∧ contents (init c).leaves [(none, c.leafBase)] = [] := by
  have h0 : (init c).leaves c.leafBase = some (c.newLeaf none none) := by simp [init, upd]
  have hcon : contents (init c).leaves [(none, c.leafBase)] = [] := by
    rw [contents_cons, recsAt_some h0]
    rfl
  refine ⟨⟨⟨[], ⟨rfl, rfl, by simp [ids], by simp [ids]⟩⟩, ⟨by simp [SepSorted], by simp, ?_, ?_, rfl, fun _ => rfl, ?_, ?_⟩, ?_, ?_⟩, hcon⟩
  · intro e he
    simp at he
    subst he
    exact Nat.lt_succ_self _
  · exact ⟨⟨_, h0, rfl, rfl⟩, trivial⟩
  · intro e he l hl
    simp at he
    subst he
    have hl : (init c).leaves c.leafBase = some l := hl
    rw [h0] at hl
    cases hl
    exact ⟨by simp [Cfg.newLeaf, OrdMap.Sorted], by simp [Cfg.newLeaf], by simp [Cfg.newLeaf, recsSize]⟩
  · intro i d hd
    simp [init, Iter.clear] at hd
  · intro q hq
    simp [init] at hq
  · show (init c).count = _ ∧ (init c).eff = _
    rw [show ({ init c with log := lg, ub := b } : State).leaves = (init c).leaves from rfl, hcon]
    exact ⟨rfl, rfl⟩

theorem init_sim (c : Cfg) : Sim c (init c) [(none, c.leafBase)] OMap.St.empty :=
  ⟨(init_inv c [] false).1, (init_inv c [] false).2, fun _ => rfl, rfl⟩

/-- Every call is defined and does what the specification says. -/
theorem call_sim (hc : c.Ok) {ω : Type} (own : Bool) {s : State} {L : Layer} {t : OMap.St} (h : Sim c s L t) (x : OMap.Call ω)
    (hok : usesLast x = true → s.lastOk = true) : ∃ s' o L' t', call c own s x = some (s', o) ∧ OMap.Allowed c.lt c.firstWrites t x o t' ∧ Sim c s' L' t' := by
  cases x with
  | process k w p =>
    obtain ⟨s', L', h1, h2⟩ := process_sim hc h k w p
    exact ⟨s', _, L', _, by simp only [call, h1]; rfl, Or.inl rfl, h2⟩
  | append k v delim =>
    cases own with
    | true =>
      obtain ⟨s', L', h1, h2⟩ := append_sim hc h k v delim
      exact ⟨s', _, L', _, by simp only [call, h1, if_true]; rfl, Or.inl rfl, h2⟩
    | false =>
      obtain ⟨s', L', h1, h2⟩ := process_sim hc h k true (fun _ => Api.appendProc v delim)
      have heq : (fun _ => Api.appendProc v delim : Bytes → ProcR Unit) = fun _ old => (.set (OMap.appended old v delim), ()) := by
        funext _ old
        cases old <;> rfl
      rw [heq, process_set] at h2
      exact ⟨s', _, L', _, by simp only [call, h1]; rfl, Or.inl rfl, h2⟩
  | multi l w r =>
    obtain ⟨s', L', h1, h2⟩ := processMulti_sim hc h l w r
    exact ⟨s', _, L', _, by simp only [call, h1]; rfl, Or.inl rfl, h2⟩
  | first w p =>
    obtain ⟨s', L', o, t', h1, h2, h3⟩ := processFirst_sim hc h w p
    exact ⟨s', _, L', t', by simp only [call, h1]; rfl, Or.inl h2, h3⟩
  | each w p r =>
    obtain ⟨s', L', h1, h2⟩ := processEach_sim hc h w p r
    exact ⟨s', _, L', _, by simp only [call, h1]; rfl, Or.inl rfl, h2⟩
  | count =>
    refine ⟨s, _, L, t, rfl, Or.inl ?_, h⟩
    simp only [OMap.step, h.inv.count.1, h.recs]
  | clear =>
    obtain ⟨g1, g2⟩ := init_inv c (s.log ++ [.clear]) s.ub
    exact ⟨_, _, _, _, rfl, Or.inl rfl, g1, g2, fun _ => rfl, by rw [← h.log]; rfl⟩
  | iterFirst i =>
    obtain ⟨s', h1, h2⟩ := first_spec h.inv i
    rw [h.recs] at h2
    exact ⟨s', _, L, _, by simp only [call, h1]; rfl, Or.inl rfl, h2.sim h⟩
  | iterLast i =>
    obtain ⟨s', h1, h2⟩ := last_spec h.inv (hok rfl) i
    rw [h.recs] at h2
    exact ⟨s', _, L, _, by simp only [call, h1]; rfl, Or.inl rfl, h2.sim h⟩
  | iterJump i x => exact ⟨_, _, L, _, rfl, Or.inl rfl, (jump_spec h.inv i x).sim h⟩
  | iterJumpLower i x incl =>
    obtain ⟨s', h1, h2⟩ := jumpLower_spec hc h.inv (hok rfl) i x incl
    rw [h.recs] at h2
    exact ⟨s', _, L, _, by simp only [call, h1]; rfl, Or.inl rfl, h2.sim h⟩
  | iterJumpUpper i x incl =>
    obtain ⟨s', h1, h2⟩ := jumpUpper_spec hc h.inv i x incl
    rw [h.recs] at h2
    exact ⟨s', _, L, _, by simp only [call, h1]; rfl, Or.inl rfl, h2.sim h⟩
  | iterNext i =>
    obtain ⟨s', o, t', h1, h2, h3⟩ := next_sim hc h ω c.firstWrites i
    exact ⟨s', _, L, t', by simp only [call, h1]; rfl, Or.inl h2, h3⟩
  | iterPrevious i =>
    obtain ⟨s', o, t', h1, h2, h3⟩ := prev_sim hc h ω c.firstWrites i
    exact ⟨s', _, L, t', by simp only [call, h1]; rfl, h2, h3⟩
  | iterProcess i w p =>
    obtain ⟨s', L', o, t', h1, h2, h3⟩ := iterProcess_sim hc h c.firstWrites i w p
    exact ⟨s', _, L', t', by simp only [call, h1]; rfl, Or.inl h2, h3⟩

theorem call_lastOk {ω : Type} {own : Bool} {s s' : State} {x : OMap.Call ω} {o : OMap.Out ω} (h : call c own s x = some (s', o)) (hs : s.lastOk = true) :
    s'.lastOk = true := by
  cases hx : isClear x with
  | false => rw [(call_frame h hx).lastOk]; exact hs
  | true =>
    cases x <;> cases hx
    simp only [call, Option.some.injEq, Prod.mk.injEq] at h
    rw [← h.1]
    rfl

theorem calls_sim (hc : c.Ok) {ω : Type} (own : Bool) : ∀ (l : List (OMap.Call ω)) (s : State) (L : Layer) (t : OMap.St), Sim c s L t →
    (∀ x ∈ l, usesLast x = true → s.lastOk = true) →
    ∃ s' outs L' t', calls c own s l = some (s', outs) ∧ outs.map (·.1) = l ∧ OMap.History c.lt c.firstWrites t outs t' ∧ Sim c s' L' t' ∧
      (s.lastOk = true → s'.lastOk = true)
  | [], s, L, t, h, _ => ⟨s, [], L, t, rfl, rfl, rfl, h, id⟩
  | x :: l, s, L, t, h, hok => by
    obtain ⟨s1, o, L1, t1, h1, h2, h3⟩ := call_sim hc own h x (hok x (by simp))
    obtain ⟨s2, outs, L2, t2, h4, h5, h6, h7, h8⟩ := calls_sim hc own l s1 L1 t1 h3 fun y hy hu => call_lastOk h1 (hok y (by simp [hy]) hu)
    exact ⟨s2, (x, o) :: outs, L2, t2, by simp only [calls, h1, h4, Option.bind_eq_bind, Option.bind_some], by simp [h5], ⟨t1, h2, h6⟩, h7,
      fun hs => h8 (call_lastOk h1 hs)⟩

end Verif.BTree
