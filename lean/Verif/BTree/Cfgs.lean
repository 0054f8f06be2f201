import Verif.BTree.Db
import Verif.Codec.Num
/-
What differs between BabyDBM and TreeDBM.
-/
namespace Verif.BTree
open Verif

/-- BabyDBM: `MAX_LEAF_NODE_RECORDS`, `MAX_INNER_NODE_BRANCHES` (tkrzw_dbm_baby.cc 32-33), `CheckLeafNodeToDivide` and `CheckLeafNodeToMerge`
(728-734: less than `MIN_LEAF_NODE_RECORDS` = 128, line 35), the choice of the neighbour (843-846).  `pick` is the order of the set of nodes to reorganise: it is
ordered by addresses. -/
def babyCfg (lt : Bytes → Bytes → Bool) (pick : List (Nat × Bytes) → Nat) : Cfg where
  lt := lt
  recSize := fun _ => 0
  base := 0
  big := fun l => decide (256 < l.recs.length)
  small := fun l => decide (l.recs.length < 128)
  lighter := fun a b => decide (a.recs.length ≤ b.recs.length)
  branch := 256
  eager := false
  check := false
  multiReorg := true
  firstReorg := false
  firstWrites := true
  caches := true
  leafBase := 0
  innerBase := 0
  pick := pick

/-- TreeDBM with `max_page_size_` and `max_branches_` (tkrzw_dbm_tree.cc 415-420): `GetSerializedSize` (tkrzw_dbm_tree_impl.cc 32-34), the page size of an empty
leaf (tkrzw_dbm_tree.cc 237-241), `CheckLeafNodeToDivide` and `CheckLeafNodeToMerge` (1659-1665), the choice of the neighbour (1810-1811), the first numbers of nodes (51-52).  Numbers are not bounded
here, while `page_size` and the sizes of keys and values are `int32_t` in the code. -/
def treeCfg (lt : Bytes → Bytes → Bool) (maxPage branch : Nat) (pick : List (Nat × Bytes) → Nat) : Cfg where
  lt := lt
  recSize := fun r => (Codec.sizeVarNum r.1.length + r.1.length + Codec.sizeVarNum r.2.length + r.2.length : Nat)
  base := 12
  big := fun l => decide ((maxPage : Int) < l.page) && decide (1 < l.recs.length)
  small := fun l => decide (l.page < ((maxPage / 2 : Nat) : Int))
  lighter := fun a b => decide (a.page ≤ b.page)
  branch := branch
  eager := true
  check := true
  multiReorg := false
  firstReorg := true
  firstWrites := false
  caches := false
  leafBase := 1
  innerBase := 3 * 2 ^ 46
  pick := pick

theorem babyCfg_ok {lt : Bytes → Bytes → Bool} (hw : StrictWeak lt) (pick) : (babyCfg lt pick).Ok :=
  ⟨hw, fun l h => by
    have : 256 < l.recs.length := by simpa [babyCfg] using h
    omega⟩

theorem treeCfg_ok {lt : Bytes → Bytes → Bool} (hw : StrictWeak lt) (maxPage branch : Nat) (pick) : (treeCfg lt maxPage branch pick).Ok :=
  ⟨hw, fun l h => by
    have : (maxPage : Int) < l.page ∧ 1 < l.recs.length := by simpa [treeCfg] using h
    exact this.2⟩

end Verif.BTree
