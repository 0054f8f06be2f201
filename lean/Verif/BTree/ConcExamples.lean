import Verif.BTree.ConcProps
/-
Threads on a concrete BabyDBM and TreeDBM, for C76, and the update that TreeDBM loses.
-/
namespace Verif.BTree.Conc.Examples
open Verif Verif.BTree.Conc
open Verif.TwoPhase (Call HEv Explains Serial Precedes)

def setProc (x : Bytes) : ProcS (Option Bytes) := fun _ o => (.set x, o)
def getProc : ProcS (Option Bytes) := fun _ o => (.noop, o)

def setCall (k v : Bytes) : Call (Option Bytes) := ⟨[(k, setProc v)], true, false, none⟩
def getCall (k : Bytes) : Call (Option Bytes) := ⟨[(k, getProc)], false, false, none⟩

/-- Thread `t` goes on `n` times. -/
def goes (t n : Nat) : List (Nat × Act (Option Bytes)) := List.replicate n (t, .go [])

def rets (s : Sys (Option Bytes)) : List (Nat × Option Bytes) := s.hist.filterMap fun
  | .ret id r => some (id, r)
  | .inv _ _ => none

def invs (s : Sys (Option Bytes)) : List (Nat × List Bytes × Bool) := s.hist.filterMap fun
  | .inv id c => some (id, c.pairs.map (·.1), c.writable)
  | .ret _ _ => none

def quiet (s : Sys (Option Bytes)) : Bool := s.threads.all fun th => match th.pc with
  | .idle => true
  | _ => false

/-- A small page, so that two records need two leaves. -/
def cfg : Cfg := treeCfg bytesLt 26 256 fun _ => 0

def par (write : Bool) : Par := ⟨cfg, true, write⟩

def put (k v : Bytes) : OMap.Call Unit := .process k true fun _ _ => (.set v, ())

/-- Two records; the third call divides the leaf. -/
def before : List (OMap.Call Unit) := [put [1] [10, 10, 10, 10, 10, 10, 10, 10], put [2] [20, 20, 20, 20, 20, 20, 20, 20, 20], .process [2] true fun _ _ => (.noop, ())]

def tree0 : State := ((calls cfg false (init cfg) before).map (·.1)).getD (init cfg)

def old : Bytes := [10, 10, 10, 10, 10, 10, 10, 10]
def new : Bytes := [11, 11, 11, 11, 11, 11, 11, 11]

/-- Thread 0 looks for the key 1 and reads its page. Thread 1 sets the key 1, then reads the key 2 and drops the leaf of the key 1 from the cache. Thread 0 puts the
page that it has read into the cache and returns. Thread 1 reads the key 1. -/
def lost : List (Nat × Act (Option Bytes)) :=
  [(0, .call (getCall [1]))] ++ goes 0 4 ++ [(1, .call (setCall [1] new))] ++ goes 1 12 ++ [(1, .go [])] ++
  [(1, .call (getCall [2]))] ++ goes 1 12 ++ [(1, .go [1])] ++ goes 0 12 ++ [(1, .call (getCall [1]))] ++ goes 1 12

set_option maxRecDepth 100000 in
theorem lost_hist (write : Bool) : (run (par write) tree0 2 lost).hist =
    [.inv 0 (getCall [1]), .inv 1 (setCall [1] new), .ret 1 (some old), .inv 2 (getCall [2]), .ret 2 (some [20, 20, 20, 20, 20, 20, 20, 20, 20]), .ret 0 (some old),
      .inv 3 (getCall [1]), .ret 3 (some old)] := by
  cases write <;> with_unfolding_all rfl

/-- Once the key 1 is set it stays, if the other calls are those of `lost`. -/
theorem stays {x : Nat × Call (Option Bytes) × Option Bytes} {o2 : List (Nat × Call (Option Bytes) × Option Bytes)} {f : Dict} (hx : x.2.1 = getCall [1]) :
    ∀ (o1 : List (Nat × Call (Option Bytes) × Option Bytes)) (d : Dict),
      (∀ y ∈ o1, (y.1 = 1 ∧ y.2.1 = setCall [1] new) ∨ (y.1 ≠ 1 ∧ ∃ k, y.2.1 = getCall k)) → (d [1] = some new ∨ 1 ∈ o1.map (·.1)) → Serial d (o1 ++ x :: o2) f →
      x.2.2 = some new := by
  intro o1
  induction o1 with
  | nil =>
    intro d _ h hs
    rcases h with h | h
    · obtain ⟨id, c, r⟩ := x
      simp only at hx
      subst hx
      have := hs.1
      rw [← this]
      show d [1] = some new
      exact h
    · cases h
  | cons y o1 ih =>
    intro d hy h hs
    obtain ⟨id, c, r⟩ := y
    refine ih _ (fun z hz => hy z (by simp [hz])) ?_ hs.2
    rcases hy (id, c, r) (by simp) with ⟨h1, h2⟩ | ⟨h1, k, h2⟩
    · simp only at h2
      subst h2
      exact .inl rfl
    · simp only at h1 h2
      subst h2
      rcases h with h | h
      · exact .inl h
      · simp only [List.map_cons, List.mem_cons] at h
        rcases h with h | h
        · exact absurd h.symm h1
        · exact .inr h

/-- C76 fails for TreeDBM, whether or not updates are written to their pages at once: a call of `Process` that sets a value returns, and a call that begins after it, with no
other writer, does not see the value; no order of the calls explains this, whatever the records at first. At the end no call is under way and the value is lost. -/
theorem C76_tree_lost_update_violated (write : Bool) :
    ((calls cfg false (init cfg) before).map fun x => records x.1) = some [([1], old), ([2], [20, 20, 20, 20, 20, 20, 20, 20, 20])] ∧
    Quiet (run (par write) tree0 2 lost) ∧ (run (par write) tree0 2 lost).mem.fault = false ∧
    records (run (par write) tree0 2 lost).mem.tree = [([1], old), ([2], [20, 20, 20, 20, 20, 20, 20, 20, 20])] ∧
    ∀ d : Dict, ¬ ∃ ord f, Explains ord (run (par write) tree0 2 lost).hist ∧ Serial d ord f := by
  refine ⟨by decide +kernel, ?_, by cases write <;> decide +kernel, by cases write <;> decide +kernel, ?_⟩
  · have h : quiet (run (par write) tree0 2 lost) = true := by cases write <;> decide +kernel
    intro th hth
    have := (List.all_eq_true.1 h) th hth
    obtain ⟨id, pc⟩ := th
    cases pc <;> first | rfl | cases this
  · rintro d ⟨ord, f, he, hs⟩
    rw [lost_hist] at he
    obtain ⟨c, hc⟩ := he.returned 3 (some old) (by simp)
    have hcall := he.called _ hc
    have hc3 : c = getCall [1] := by
      simp at hcall
      exact hcall
    obtain ⟨o1, o2, rfl⟩ := List.append_of_mem hc
    have h1 : 1 ∈ o1.map (·.1) := he.realTime o1 _ o2 rfl 1
      ⟨[.inv 0 (getCall [1]), .inv 1 (setCall [1] new), .ret 1 (some old), .inv 2 (getCall [2]), .ret 2 (some [20, 20, 20, 20, 20, 20, 20, 20, 20]), .ret 0 (some old)],
        [.inv 3 (getCall [1]), .ret 3 (some old)], some old, getCall [1], rfl, by simp, by simp⟩
    have := stays (x := (3, c, some old)) (o2 := o2) (f := f) hc3 o1 d (fun y hy => by
      have := he.called y (by simp [hy])
      simp at this
      rcases this with h | h | h | h
      · exact .inr ⟨by omega, _, h.2⟩
      · exact .inl h
      · exact .inr ⟨by omega, _, h.2⟩
      · exact .inr ⟨by omega, _, h.2⟩) (.inr h1) hs
    have h2 : some old = some new := this
    exact absurd h2 (by decide)

/-! ### The conditions of the theorems are met -/

/-- A schedule without this: the thread 0 waits for the lock of a leaf, the leaves are dropped between the calls and loaded again. The thread 1 calls `ProcessMulti` for keys
of two leaves, and a leaf is divided. -/
def calm : List (Nat × Act (Option Bytes)) :=
  [(0, .call (setCall [1] new)), (1, .call ⟨[([2], getProc), ([1], getProc), ([3], setProc [30, 30, 30, 30, 30, 30, 30, 30])], true, true, none⟩)] ++ goes 0 8 ++ goes 1 20 ++
  goes 0 8 ++ goes 1 10 ++ [(1, .go [1, 2])] ++ [(0, .call (setCall [4] [40]))] ++ goes 0 11 ++ [(0, .go [2, 1])] ++ [(0, .call (getCall [1]))] ++ goes 0 30

/-- The condition `Calm` as a computation. -/
def calmB (P : Par) (s : Sys (Option Bytes)) : List (Nat × Act (Option Bytes)) → Bool
  | [] => true
  | ev :: es => (match ev.2 with
      | .go ids => ids.all fun id => s.threads.all fun th => decide (th.pc.reading ≠ some id)
      | .call _ => true) && calmB P (step P s ev) es

theorem calm_of (P : Par) : ∀ (es : List (Nat × Act (Option Bytes))) (s : Sys (Option Bytes)), calmB P s es = true → Calm P s es
  | [], _, _ => trivial
  | ev :: es, s, h => by
    simp only [calmB, Bool.and_eq_true] at h
    refine ⟨fun ids he id hid th hth => ?_, calm_of P es _ h.2⟩
    have := h.1
    rw [he] at this
    simpa using (List.all_eq_true.1 ((List.all_eq_true.1 this) id hid)) th hth

/-- The schedule `calm` on TreeDBM: the condition holds, the calls return what they should, a leaf was divided and all leaves that were dropped came back. -/
example : Calm (par false) (start tree0 2) calm ∧ rets (run (par false) tree0 2 calm) = [(0, some old), (1, none), (2, none), (3, some new)] ∧
    records (run (par false) tree0 2 calm).mem.tree = [([1], new), ([2], [20, 20, 20, 20, 20, 20, 20, 20, 20]), ([3], [30, 30, 30, 30, 30, 30, 30, 30]), ([4], [40])] ∧
    (run (par false) tree0 2 calm).mem.tree.numLeaf = 4 ∧ quiet (run (par false) tree0 2 calm) = true :=
  ⟨calm_of _ _ _ (by decide +kernel), by decide +kernel, by decide +kernel, by decide +kernel, by decide +kernel⟩

/-- The same calls on BabyDBM. -/
example : rets (run ⟨babyCfg bytesLt fun _ => 0, false, false⟩ (init (babyCfg bytesLt fun _ => 0)) 2 calm) = [(0, none), (1, none), (2, none), (3, some new)] ∧
    records (run ⟨babyCfg bytesLt fun _ => 0, false, false⟩ (init (babyCfg bytesLt fun _ => 0)) 2 calm).mem.tree =
      [([1], new), ([3], [30, 30, 30, 30, 30, 30, 30, 30]), ([4], [40])] ∧
    quiet (run ⟨babyCfg bytesLt fun _ => 0, false, false⟩ (init (babyCfg bytesLt fun _ => 0)) 2 calm) = true := by
  decide +kernel

/-- The byte order tells all keys apart. -/
example : StrictWeak bytesLt ∧ ∀ a b, eqv bytesLt a b = true → a = b := ⟨bytesLt_weak, fun a b h => (bytesLt_eqv a b).1 h⟩

end Verif.BTree.Conc.Examples
