import Verif.Hash.RebuildConcProps
import Verif.Hash.EachProps
/-
C67: a traversal while another thread rebuilds the database.
-/
namespace Verif.Hash
open Verif.Codec

variable {e : Env}

/-- `ProcessEach` (tkrzw_dbm_hash.cc 503-618) with the update mode that it has read (518) before it locked the records (519, 545). In between, a
`Rebuild` can switch the mode (1721-1724), since both hold the lock of the database in the shared mode. -/
def processEachLate {ρ : Type} (e : Env) (inPlace : Bool) (s : State) (w : Bool) (p : Bytes → ρ → Bytes → Action × ρ) (emp : ρ → ρ) (r : ρ) :
    State × ρ :=
  if w = false ∧ inPlace = true then
    match eachScan (fileReader s.cfg s.file metaMinReadSize) p s.file.length (recordBase s.cfg) (emp r) with
    | none => (s.fail, r)
    | some r => (s, emp r)
  else
    let x := eachBuckets e w p s.cfg.nb 0 s (emp r)
    (x.1, emp x.2)

/-- When nothing happens in between it is `processEach`. -/
theorem processEachLate_now {ρ : Type} (s : State) (w : Bool) (p : Bytes → ρ → Bytes → Action × ρ) (emp : ρ → ρ) (r : ρ) :
    processEachLate e s.cfg.inPlace s w p emp r = processEach e s w p emp r := rfl

theorem processEachLate_begin {ρ : Type} (d : Db) (hm : d.st.cfg.inPlace = true) (p : Bytes → ρ → Bytes → Action × ρ) (emp : ρ → ρ) (r : ρ) :
    (processEachLate e true (rebuildBegin d).st false p emp r).2 = (processEach e d.st false p emp r).2 ∧
    ((processEachLate e true (rebuildBegin d).st false p emp r).1.bad = (processEach e d.st false p emp r).1.bad) := by
  have h1 : eachScan (fileReader (rebuildBegin d).st.cfg (rebuildBegin d).st.file metaMinReadSize) p (rebuildBegin d).st.file.length
      (recordBase (rebuildBegin d).st.cfg) (emp r) =
    eachScan (fileReader d.st.cfg d.st.file metaMinReadSize) p d.st.file.length (recordBase d.st.cfg) (emp r) := rfl
  unfold processEachLate processEach
  rw [if_pos ⟨rfl, rfl⟩, if_pos ⟨rfl, hm⟩, h1]
  generalize eachScan (fileReader d.st.cfg d.st.file metaMinReadSize) p d.st.file.length (recordBase d.st.cfg) (emp r) = o
  cases o <;> exact ⟨rfl, rfl⟩

/-- C67, the part that holds: while a `Rebuild` is running, after any calls of other threads since it began, a read-only `ProcessEach` that reads the
update mode after the switch, or before it when no call has been made since, runs the processor on every record exactly once and on
nothing else. (It locks all records, so that it runs between calls.) What is missing: the mode read before the switch with calls since; there it is
false, see C67_hash_each_race_violated. -/
theorem C67_hash_each_rebuild_partial (he : EnvOk e) {tunes : Int → Tune} (ht : ∀ n, (tunes n).Ok) {c : Cfg} (hc : CfgOk c) {x : Extra} (hx : x.Ok)
    {d0 : Db} {healthy : Bool} (h0 : openImpl x c [] = some (d0, healthy)) (ops : List SOp) (hroom : RunRoom e tunes d0 ops)
    (hfit : SRunFits Dict.empty ops) {d : Db} (hd : d = (run (step e tunes) d0 ops).1)
    (calls : List Call) (hcf : CallsFit (run sstep Dict.empty ops).1 calls) {s : State} (hs : s = (runCalls e (rebuildBegin d).st calls).1) (hr : s.Room)
    {inPlace : Bool} (hm : inPlace = false ∨ calls = [] ∧ inPlace = d.st.cfg.inPlace)
    {ρ : Type} (p : Bytes → ρ → Bytes → Action × ρ) (emp : ρ → ρ) (r : ρ) (hf : ∀ k r v, ActFits hashFits k (p k r v).1) :
    ∃ l, (Dict.calls (run sstep Dict.empty ops).1 calls).1.Lists l ∧ (processEachLate e inPlace s false p emp r).1.bad = false ∧
      (processEachLate e inPlace s false p emp r).2 = emp (Dict.eachFold false p l (Dict.calls (run sstep Dict.empty ops).1 calls).1 (emp r)).2 := by
  obtain ⟨_, _, t, h1, h2, h3, h4⟩ := session_dictionary he ht hc hx h0 ops hroom hfit
  rw [← hd] at h1 h2
  have ev : (run sstep Dict.empty ops).1 = t.view := by rw [← h3]
  rw [ev] at hcf ⊢
  have hb := rebuildBegin_ok h1.toDbInv
  rw [hb.st] at hs
  obtain ⟨⟨t1, g1, g2, g3⟩, g4⟩ := runCalls_spec he calls hb.inv rfl hcf (by rw [← hs]; exact hr)
  have hmt : t1.cfg.inPlace = false := by rw [g3.cfg]; rfl
  have main : ∀ {t : LSt}, t.Inv e → (t.toState e).Room →
      ∃ l, t.view.Lists l ∧ (processEach e (t.toState e) false p emp r).1.bad = false ∧
        (processEach e (t.toState e) false p emp r).2 = emp (Dict.eachFold false p l t.view (emp r)).2 := by
    intro t hi hr
    have hr' : (processEach e (t.toState e) false p emp r).1.Room := by
      rcases (C54_hash_each_read_only (e := e) (t.toState e) p emp r (fun _ _ => (Action.noop, ()))).1 with h | h <;> rw [h] <;> exact hr
    obtain ⟨t', l, g1, g2, _, g4, g5⟩ := processEach_spec he false p emp hf t r hi hr'
    exact ⟨l, g5, by rw [g1]; exact g2.inv.ok, g4⟩
  have late : inPlace = false → ∃ l, (Dict.calls t.view calls).1.Lists l ∧ (processEachLate e inPlace s false p emp r).1.bad = false ∧
      (processEachLate e inPlace s false p emp r).2 = emp (Dict.eachFold false p l (Dict.calls t.view calls).1 (emp r)).2 := by
    intro hz
    have e1 : (t1.toState e).cfg.inPlace = false := hmt
    have hv : t1.view = (Dict.calls t.view calls).1 := g3.view
    have e2 := processEachLate_now (e := e) (t1.toState e) false p emp r
    rw [e1] at e2
    rw [hz, hs, g1, e2, ← hv]
    exact main g3.inv (by rw [← g1, ← hs]; exact hr)
  rcases hm with hz | ⟨rfl, hz⟩
  · exact late hz
  · by_cases hd' : d.st.cfg.inPlace = true
    · rw [← hb.st] at hs
      have hs' : s = (rebuildBegin d).st := hs
      obtain ⟨b1, b2⟩ := processEachLate_begin (e := e) d hd' p emp r
      rw [hz, hd', hs', b1, b2, h1.st]
      exact main h1.inv (by rw [← h1.st]; exact h2)
    · exact late (by rw [hz]; simpa using hd')

/-! ### The race -/
namespace Examples

def raceState : State := (runCalls env (rebuildBegin (concDb true)).st [putCall [1] [99], dropCall [4]]).1

/-- A processor that notes what it is shown. -/
def noteProc (k : Bytes) (r : List (Bytes × Bytes)) (v : Bytes) : Action × List (Bytes × Bytes) := (.noop, r ++ [(k, v)])

/-- C67 is violated: a thread calls `ProcessEach` on a database in the in-place mode and reads the mode; before it locks the records another thread begins a
`Rebuild`, and a third one sets the key [1] anew and removes the key [4].  The traversal then presents the key [1] twice, first with the old value,
and the removed record [4]; at that moment the database has a single record. -/
theorem C67_hash_each_race_violated :
    (processEachLate env (concDb true).st.cfg.inPlace raceState false noteProc id []).2 = [([1], [10, 11]), ([4], [20]), ([1], [99])] ∧
    (Api.get (impl env) raceState [1]).2 = (.success, some [99]) ∧ (Api.get (impl env) raceState [4]).2 = (.notFound, none) ∧
    raceState.mem.num = 1 := by decide +kernel

/-- The same traversal that reads the mode after the switch. -/
example : (processEachLate env raceState.cfg.inPlace raceState false noteProc id []).2 = [([1], [99])] := by decide +kernel

/-- The hypotheses of C67_hash_each_rebuild_partial are met. -/
example : ∃ l, (Dict.calls (run sstep Dict.empty concOps).1 [putCall [1] [99], dropCall [4]]).1.Lists l ∧
    (processEachLate env false raceState false noteProc id []).2 = (Dict.eachFold false noteProc l
      (Dict.calls (run sstep Dict.empty concOps).1 [putCall [1] [99], dropCall [4]]).1 []).2 := by
  obtain ⟨l, h1, _, h2⟩ := C67_hash_each_rebuild_partial env_ok (fun _ => tune_ok) (cfg_ok true) extra_ok (open_db true) concOps (by decide +kernel)
    (by refine ⟨?_, ?_, trivial⟩ <;> simp only [SFits, OpFits] <;> decide +kernel) (d := concDb true) rfl [putCall [1] [99], dropCall [4]]
    (by refine ⟨?_, ?_, trivial⟩ <;> simp only [putCall, dropCall, ActFits] <;> decide +kernel) (s := raceState) rfl (by decide +kernel)
    (inPlace := false) (Or.inl rfl) noteProc id [] (fun _ _ _ => trivial)
  exact ⟨l, h1, h2⟩

end Examples
end Verif.Hash
