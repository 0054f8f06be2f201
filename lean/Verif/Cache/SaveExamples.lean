import Verif.Cache.Save
import Verif.Cache.Examples
/-
C28 for CacheDBM: a concrete history, and one in which the condition on the memory is not met.
-/
namespace Verif.Cache
open Verif

/-- The database after `hist`, of which one record has been evicted, meets the conditions of `C28_cache_save_load_partial`. -/
example : let s := run realEnv (State.new 64 (-1)) (hist.map Plain.op)
    listed s = [(kC, [3]), (kA, [1]), (kD, [4])] ∧ ((List.range 32).all fun i => decide ((s.slots i).memUsage ≤ slotCapMem s.capMem)) = true ∧
    (((saved [1] s).bind fun f => Flat.importFile f (importSet realEnv) (closed s)).map fun x => (listed x.1, x.1.count, x.2)) =
      some ([(kC, [3]), (kA, [1]), (kD, [4])], 3, .success) := by decide +kernel

/-- A record that was enlarged beyond the memory limit, which an update does not check, drives another one out when the file is opened again: the loaded
database has one of two records. -/
theorem C28_cache_memory_violated :
    let s := run realEnv (State.new 64 5000) ([Plain.set kA [1], .set kB [2], .set kA (List.replicate 100 7)].map Plain.op)
    s.count = 2 ∧ look realEnv s kB = some [2] ∧
    (((saved [1] s).bind fun f => Flat.importFile f (importSet realEnv) (closed s)).map fun x => (x.1.count, look realEnv x.1 kB, x.2)) =
      some (1, none, .success) := by decide +kernel

end Verif.Cache
