import Verif.Hash.EachProps
import Verif.Hash.Examples
/-
Concrete databases that meet the hypotheses of the theorems on the traversals of HashDBM.
-/
namespace Verif.Hash.Examples
open Verif.Codec

/-- A processor that lists the records and doubles the values shorter than three bytes, removing the others. -/
def eachP (k : Bytes) (r : List (Bytes × Bytes)) (v : Bytes) : Action × List (Bytes × Bytes) :=
  (if v.length < 3 then .set (v ++ v) else .remove, r ++ [(k, v)])

def ops2 : List SOp := [.call (.set [1] [10, 11] true), .call (.set [4] [20] true), .call (.set [2] [30, 31, 32] true),
  .call (.set [7] [40] true), .call (.remove [7])]

theorem fits_ops2 : SRunFits Dict.empty ops2 := by
  refine ⟨?_, ?_, ?_, ?_, trivial, trivial⟩ <;> simp only [SFits, OpFits] <;> decide +kernel

def db2 (ip : Bool) : Db := (run (step env (fun _ => tune)) (db ip) ops2).1

theorem room2 (ip : Bool) : RunRoom env (fun _ => tune) (db ip) ops2 := by cases ip <;> decide +kernel

/-- `ProcessEach` with updates on a file of three records in two buckets, in both modes; one record was removed before. -/
example : (processEach env (db2 true).st true eachP id []).1.Room ∧
    (processEach env (db2 true).st true eachP id []).2 = [([1], [10, 11]), ([4], [20]), ([2], [30, 31, 32])] ∧
    (processEach env (db2 true).st true eachP id []).1.mem.num = 2 := by decide +kernel

example : (processEach env (db2 false).st true eachP id []).1.Room ∧
    (processEach env (db2 false).st true eachP id []).2 = [([1], [10, 11]), ([4], [20]), ([2], [30, 31, 32])] ∧
    (processEach env (db2 false).st true eachP id []).1.mem.num = 2 := by decide +kernel

/-- The iterator on the same files. -/
example : iterLoop env (db2 true).st 4 Iter.first = some [([1], [10, 11]), ([4], [20]), ([2], [30, 31, 32])] ∧
    iterLoop env (db2 false).st 4 Iter.first = some [([1], [10, 11]), ([4], [20]), ([2], [30, 31, 32])] := by decide +kernel

/-- The hypotheses of C10 are met by this history. -/
example (ip : Bool) : ∃ l, (run sstep Dict.empty ops2).1.Lists l ∧ ∀ fuel, l.length < fuel → iterLoop env (db2 ip).st fuel Iter.first = some l :=
  C10_hash_iterator env_ok (fun _ => tune_ok) (cfg_ok ip) extra_ok (open_db ip) ops2 (room2 ip) fits_ops2 rfl

end Verif.Hash.Examples
