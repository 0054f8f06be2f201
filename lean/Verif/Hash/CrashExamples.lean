import Verif.Hash.Examples
import Verif.Hash.CrashProps
/-
Concrete crashes that meet the hypotheses of C07 and C65, and the cases in which C65 is false.
-/
namespace Verif.Hash.Examples

instance (e : Env) (x : Extra) (mode : RestoreMode) (f : Bytes) : Decidable (RestoreRoom e x mode f) :=
  decidable_of_iff (∀ d, loadMetadata f = some d → ∀ tmp, restoreTmp e x d mode f = some tmp → tmp.st.Room)
    ⟨fun h d tmp h1 h2 => h d h1 tmp h2, fun h d h1 tmp h2 => h d tmp h1 h2⟩

/-- The file after a crash of a call that comes after the first two calls of `ops`, when `n` writes have been made. -/
def crashed (ip : Bool) {τ : Type} (k : Bytes) (p : ProcR τ) (n : Nat) : Bytes :=
  (crashFile env (run (step env (fun _ => tune)) (db ip) (ops.take 2)).1.st k true p n).getD []

/-- A crash after the first of the three writes of an update that has to move the record: the hypotheses of C07 are met, and
the restored database has the new value of that key. -/
example : ∃ f, crashFile env (run (step env (fun _ => tune)) (db true) (ops.take 2)).1.st [1] true
      (Api.setProc [30, 31, 32, 33, 34, 35, 36] true) 1 = some f ∧ RestoreRoom env extra .default f ∧ f.length ≤ 2 ^ (8 * 4 + 3) ∧
      (openRestore env extra 9 4 48 .default false f).map (fun d => (Api.get (dbImpl env) d [1]).2) =
        some (.success, some [30, 31, 32, 33, 34, 35, 36]) := by
  refine ⟨crashed true [1] (Api.setProc [30, 31, 32, 33, 34, 35, 36] true) 1, some_getD ?_, ?_, ?_, ?_⟩ <;> decide +kernel

/-- A crash after the first of the two writes of a removal: the record is still there, whether the restoration may take
the shortcut or not, and also when the file is followed by zeros. -/
example : ((crashFile env (run (step env (fun _ => tune)) (db true) (ops.take 2)).1.st [4] true Api.removeProc 1).bind
      (openRestore env extra 9 4 48 .default true)).map (fun d => (Api.get (dbImpl env) d [4]).2) = some (.success, some [20]) ∧
    (openRestore env extra 9 4 48 .default false (crashed true [4] Api.removeProc 1 ++ List.replicate 40 0)).map
      (fun d => ((Api.get (dbImpl env) d [4]).2, d.st.mem.num, d.st.mem.eff)) = some ((.success, some [20]), 2, 5) := by
  constructor <;> decide +kernel

/-- The validation rejects a file whose new record is not in its chain yet, so that the restoration makes a new file. -/
example : (openOld 4 (crashed true [7] (Api.setProc [1] true) 1)).map (fun x => shortcut env 48 .default 1048 x.1.st) =
    some (some none) := by decide +kernel

/-- It accepts the file with the zeros cut off after the removal of a record. -/
example : (openOld 4 (crashed true [4] Api.removeProc 2 ++ List.replicate 40 0)).map
    (fun x => (shortcut env 48 .default 1048 x.1.st).map (·.map fun s => (s.file == crashed true [4] Api.removeProc 2, s.mem.num, s.mem.eff))) =
    some (some (some (true, 1, 3))) := by decide +kernel

end Verif.Hash.Examples

namespace Verif.Hash
open Examples

/-- C65 is false in the appending mode. After a crash and the restoration by the shortcut, the effective data size is that of
the last time the metadata were saved: here the database was new then, so it is 0, although there are two records with
5 bytes of keys and values. -/
theorem C65_hash_restored_violated :
    (openRestore env extra 9 4 48 .default false (crashed false [9] Api.removeProc 1)).map
      (fun d => ((Api.get (dbImpl env) d [1]).2, (Api.get (dbImpl env) d [4]).2, d.st.mem.num, d.st.mem.eff)) =
    some ((.success, some [10, 11]), (.success, some [20]), 2, 0) := by decide +kernel

/-- C65 is false in the appending mode for the number of records too, when a processor has asked for the removal of a key that had
been removed already: the restored database says that it has no records, although it has the record of the key 1. -/
theorem C65_hash_count_violated :
    (openRestore env extra 9 4 48 .default false
      (crashFile env (run (step env (fun _ => tune)) (db false) [.call (.set [1] [10] true), .call (.set [4] [20] true), .call (.remove [4])]).1.st [4] true
        (fun _ => (Action.remove, ())) 2 |>.getD [])).map
      (fun d => ((Api.get (dbImpl env) d [1]).2, (Api.get (dbImpl env) d [4]).2, d.st.mem.num)) =
    some ((.success, some [10]), (.notFound, none), 0) := by decide +kernel

end Verif.Hash
