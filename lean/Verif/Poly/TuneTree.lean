import Verif.Poly.TuneProps
/-
The modes that TreeDBM and SkipDBM are opened with by PolyDBM (tkrzw_dbm_poly.cc 268-331).
-/
namespace Verif.Poly
open Verif Verif.Codec
open Verif.Text (lowered lowerCase)

/-- `TreeDBM::PageUpdateMode` (tkrzw_dbm_tree.h 173-180). -/
inductive PageUpdate where
  | default | none | write
  deriving DecidableEq

/-- The mode of updates of pages (tkrzw_dbm_poly.cc 274-280). -/
def pageOf (v : Bytes) : PageUpdate :=
  let l := lowerCase v
  if l = asc "page_update_none" ∨ l = asc "none" then .none
  else if l = asc "page_update_write" ∨ l = asc "write" then .write
  else .default

/-- The modes of `TreeDBM::TuningParameters` (tkrzw_dbm_tree.h 185-226). -/
structure TreeTune where
  hash : HashTune
  page : PageUpdate
  deriving DecidableEq

/-- `SetTreeTuningParams`, without the numbers and the comparator, which C82 is about (tkrzw_dbm_poly.cc 268-288). -/
def treeTune (m : Params) : TreeTune := ⟨hashTune m, pageOf (search m (asc "page_update_mode") [])⟩

/-- `SetSkipTuningParams`, without the numbers (tkrzw_dbm_poly.cc 290-331): the mode of restoring. -/
def skipTune (m : Params) : Restore := restoreOf (search m (asc "restore_mode") [])

/-- SPECIFICATION: the names of the modes of updates of pages (tkrzw_dbm_poly.h 319-320). -/
def pageNames : PageUpdate → List Bytes
  | .default => []
  | .none => [asc "PAGE_UPDATE_NONE", asc "NONE"]
  | .write => [asc "PAGE_UPDATE_WRITE", asc "WRITE"]

theorem page_named (v : Bytes) : Named pageNames .default v (pageOf v) := by
  refine named_of _ _ _ rfl ?_ ?_ v
  · intro v y h
    unfold pageOf
    rw [lowerCase_eq]
    generalize lowered v = l at h
    cases y <;> simp only [pageNames, List.map_cons, List.map_nil, List.mem_cons, List.not_mem_nil, or_false] at h
    all_goals rcases h with rfl | rfl <;> decide
  · intro v
    unfold pageOf
    rw [lowerCase_eq]
    generalize lowered v = l
    dsimp only
    repeat' split
    all_goals first
      | exact Or.inr rfl
      | (left; rename_i hl; rcases hl with rfl | rfl <;> decide)

/-- C83: the modes that TreeDBM is opened with are those named by the parameters, all those of HashDBM among them. -/
theorem C83_tree_modes (params : Params) :
    Named updateNames .default (value params (asc "update_mode")) (treeTune params).hash.update ∧
    Named crcNames .default (value params (asc "record_crc_mode")) (treeTune params).hash.crc ∧
    Named comprNames .default (value params (asc "record_comp_mode")) (treeTune params).hash.compr ∧
    Restores (value params (asc "restore_mode")) (treeTune params).hash.restore ∧
    Named pageNames .default (value params (asc "page_update_mode")) (treeTune params).page :=
  ⟨update_named _, crc_named _, compr_named _, restores_of _, page_named _⟩

/-- C83: the mode of restoring that SkipDBM is opened with is the one named by the parameters. -/
theorem C83_skip_modes (params : Params) : Restores (value params (asc "restore_mode")) (skipTune params) := restores_of _

example : treeTune [(asc "page_update_mode", asc "Write"), (asc "restore_mode", asc " Sync : no_shortcuts"), (asc "update_mode", asc "APPENDING")] =
    ⟨⟨.appending, .default, .default, ⟨.sync, true, false⟩⟩, .write⟩ := by decide +kernel

/-- A mode that does not exist is not refused. -/
example : (treeTune [(asc "page_update_mode", asc "written")]).page = .default := by decide +kernel

end Verif.Poly
