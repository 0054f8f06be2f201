import Verif.BTree.Props
import Verif.BTree.Frame
import Verif.File.FlatFold
/-
C28 for BabyDBM: the file that `Synchronize` and `Close` write, opened again.
-/
namespace Verif.BTree
open Verif

/-- The storing step of `ImportRecords` (tkrzw_dbm_baby.cc 1026-1029); `none` stands for a dangling pointer. Unlike `Process` it does not reorganize the
tree before. What the setter stores in its status is not looked at. -/
def importSet (c : Cfg) (s : Option State) (k v : Bytes) : Option State × Code :=
  (s.bind fun s => (search c s k).bind fun id => (processImpl c s id k true fun _ _ => (Action.set v, ())).map (·.1), .success)

/-- The file that `ExportRecords` writes (tkrzw_dbm_baby.cc 1034-1072), `info` standing for the serialized metadata, which holds the wall time. -/
def saved (info : Bytes) (s : State) : Bytes := Flat.saveFile info (records s)

theorem put_last {lt : Bytes → Bytes → Bool} (hw : StrictWeak lt) {done : List Rec} {k v : Bytes} (h : ∀ r ∈ done, lt r.1 k = true) :
    OMap.put lt k v done = done ++ [(k, v)] := by
  have hn : OMap.get lt k done = none := by
    unfold OMap.get
    rw [List.find?_eq_none]
    intro r hr
    simp [eqv, h r hr]
  have h1 : (done.filter fun r => lt r.1 k) = done := List.filter_eq_self.2 h
  have h2 : (done.filter fun r => lt k r.1) = [] := by
    rw [List.filter_eq_nil_iff]
    intro r hr hlt
    have := hw.trans _ _ _ hlt (h r hr)
    rw [hw.irrefl] at this
    cases this
  unfold OMap.put
  rw [hn, h1, h2]
  rfl

theorem import_sim {c : Cfg} (hc : c.Ok) : ∀ (l : List Rec) (done : List Rec) (s : State) (L : Layer) (t : OMap.St), Sim c s L t → t.recs = done →
    OrdMap.Sorted c.lt (done ++ l) → s.lastOk = true →
    ∃ s' L' t', l.foldl (fun s x => (importSet c s x.1 x.2).1) (some s) = some s' ∧ Sim c s' L' t' ∧ t'.recs = done ++ l ∧ t'.iters = t.iters ∧ s'.lastOk = true
  | [], done, s, L, t, h, hd, _, hk => ⟨s, L, t, rfl, h, by rw [hd, List.append_nil], rfl, hk⟩
  | (k, v) :: l, done, s, L, t, h, hd, hs, hk => by
    obtain ⟨A, e, B, h3, h4⟩ := search_spec hc h.inv.upper h.inv.lower.seps k
    obtain ⟨s2, h5, h6⟩ := processImpl_spec hc h.inv h4 true fun _ _ => (Action.set v, ())
    rw [h.recs] at h5 h6
    have hput : OMap.process c.lt t.recs k true (fun _ _ => (Action.set v, ())) = (done ++ [(k, v)], [.set k v], ()) := by
      have := process_set c.lt t.recs k (fun _ => v) ()
      rw [this, hd, put_last hc.weak]
      intro r hr
      exact (List.pairwise_append.1 hs).2.2 r hr (k, v) List.mem_cons_self
    rw [hput] at h5 h6
    have hstep : (importSet c (some s) k v).1 = some s2 := by
      simp only [importSet, Option.bind_some, h3, h5, Option.map_some]
    have hf := (processImpl_frame h5).lastOk
    obtain ⟨s', L', t', g1, g2, g3, g4, g5⟩ := import_sim hc l (done ++ [(k, v)]) s2 L _ (h6.sim h) rfl (by simpa using hs) (by rw [hf]; exact hk)
    exact ⟨s', L', t', by rw [List.foldl_cons, hstep]; exact g1, g2, by simpa using g3, g4, g5⟩

/-- C28 (BabyDBM): after any history of calls, the file saved by `Synchronize` or `Close` and opened again with the same comparator, whatever order
the reorganization of the new tree takes, holds the same records in the same order, with the spelling of their keys, the record count is the same, and any
further history of calls has the outcomes that it has on these records with new iterators; provided that the value of the last record is not empty
(`Flat.C28_violated`). -/
theorem C28_baby_save_load_partial {lt : Bytes → Bytes → Bool} (hw : StrictWeak lt) (pick pick' : List (Nat × Bytes) → Nat) {ω : Type} (ops : List (OMap.Call ω))
    (info : Bytes) (hinfo : info ≠ []) (hsz : info.length < 2 ^ 49) :
    ∃ t0 outs0 u0, calls (babyCfg lt pick) true (init (babyCfg lt pick)) ops = some (t0, outs0) ∧ outs0.map (·.1) = ops ∧ OMap.History lt true OMap.St.empty outs0 u0 ∧
      (Flat.Small u0.recs → (∀ x, u0.recs.getLast? = some x → x.2 ≠ []) →
        ∃ t1 u1, Flat.importFile (saved info t0) (importSet (babyCfg lt pick')) (some (init (babyCfg lt pick'))) = some (some t1, .success) ∧
          records t1 = u0.recs ∧ t1.count = u0.recs.length ∧ u1.recs = u0.recs ∧ u1.iters = OMap.St.empty.iters ∧
          ∀ {ω' : Type} (more : List (OMap.Call ω')), ∃ t2 outs u2, calls (babyCfg lt pick') true t1 more = some (t2, outs) ∧ outs.map (·.1) = more ∧
            OMap.History lt true u1 outs u2) := by
  have hc := babyCfg_ok hw pick
  have hc' := babyCfg_ok hw pick'
  obtain ⟨s, outs, L, t, h1, h2, h3, h4, hk⟩ := calls_sim hc true ops (init (babyCfg lt pick)) _ _ (init_sim _) (fun _ _ _ => rfl)
  refine ⟨s, outs, t, h1, h2, h3, fun hsm hlast => ?_⟩
  have hrec : records s = t.recs := (records_eq h4.inv).trans h4.recs
  have hsort : OrdMap.Sorted lt t.recs := by rw [← h4.recs]; exact contents_sorted hc.weak h4.inv.lower
  obtain ⟨s', L', t', g1, g2, g3, g4, g5⟩ := import_sim hc' t.recs [] (init (babyCfg lt pick')) _ _ (init_sim _) rfl (by rw [List.nil_append]; exact hsort) rfl
  simp only [List.nil_append] at g3
  refine ⟨s', t', ?_, ?_, ?_, g3, g4, fun more => ?_⟩
  · unfold saved
    rw [hrec, Flat.importFile_fold (fun _ _ _ => rfl) info hinfo hsz t.recs hsm hlast, g1]
  · rw [records_eq g2.inv, g2.recs, g3]
  · rw [g2.inv.count.1, g2.recs, g3]
  · obtain ⟨s2, outs2, L2, t2, k1, k2, k3, _⟩ := calls_sim hc' true more s' L' t' g2 (fun _ _ _ => g5)
    exact ⟨s2, outs2, t2, k1, k2, k3⟩

/-! ### An example -/

def saveCfg : Cfg := babyCfg bytesLt fun _ => 0
def saveOps : List (OMap.Call Unit) :=
  [.process [2] true (fun _ _ => (.set [20], ())), .process [1] true (fun _ _ => (.set [10], ())), .process [3] true (fun _ _ => (.set [30], ())),
    .process [2] true (fun _ _ => (.remove, ()))]

example : ((calls saveCfg true (init saveCfg) saveOps).bind fun x =>
      (Flat.importFile (saved [1] x.1) (importSet saveCfg) (some (init saveCfg))).bind fun y => y.1.map fun t => (records t, t.count, y.2)) =
    some ([([1], [10]), ([3], [30])], 2, .success) := by decide +kernel

end Verif.BTree
