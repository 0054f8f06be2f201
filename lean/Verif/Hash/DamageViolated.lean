import Verif.Hash.DamageExamples
/-
C75: a damaged file whose other records are restored in the appending mode, and the loss of a record that is not damaged.
-/
namespace Verif.Hash.Examples
open Verif.Codec

/-- In the appending mode, with a wrong checksum in the header of the second record and a single record behind it: the
condition of `C75_hash_damage_body` is met, and the record behind is restored. -/
example : BrokenBody env (cfg false) [5, 0, 0, 2, 0, 1, 1, 5, 255, 4, 20, 221, 0, 0, 0, 0] (recsBytes env (cfg true) (dmgRecs.drop 2) ++ List.replicate 0 0) ∧
    (restoreDatabase env extra 9 .default (overwritten (dmgDb false).st.file 4112 [5, 0, 0, 2, 0, 1, 1, 5, 255, 4, 20, 221, 0, 0, 0, 0] 0)).bind
      (fun g => (openOld 4 g).map fun d =>
        ((Api.get (dbImpl env) d.1 [1]).2, (Api.get (dbImpl env) d.1 [4]).2, (Api.get (dbImpl env) d.1 [7]).2)) =
      some ((.success, some [10, 11]), (.notFound, none), (.success, some [1])) := by
  constructor <;> decide +kernel

end Verif.Hash.Examples

namespace Verif.Hash
open Examples

/-- C75 is false as it stands: the second of three records is overwritten with zeros, the third is as it was, and the key of the
third is missing from the restored database. -/
theorem C75_hash_damage_violated :
    (Api.get (dbImpl env) (dmgDb true) [7]).2 = (.success, some [1]) ∧
    (overwritten (dmgDb true).st.file 4112 (List.replicate 16 0) 0).drop 4128 = recBytes env (cfg true) (setData (cfg true) .add 0 [7] [1] 4112) ∧
    (restoreDatabase env extra 9 .default (overwritten (dmgDb true).st.file 4112 (List.replicate 16 0) 0)).bind (fun g => (openOld 4 g).map fun d =>
      ((Api.get (dbImpl env) d.1 [1]).2, (Api.get (dbImpl env) d.1 [4]).2, (Api.get (dbImpl env) d.1 [7]).2)) =
      some ((.success, some [10, 11]), (.notFound, none), (.notFound, none)) := by
  refine ⟨?_, ?_, ?_⟩ <;> decide +kernel

end Verif.Hash
