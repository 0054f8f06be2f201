import Verif.Hash.SyncProps
import Verif.Hash.Copy
import Verif.Hash.CrashExamples
/-
C66 on concrete databases, and the cases in which C65 and C66 are false.
-/
namespace Verif.Hash
open Examples

/-- `SetUpdateModeAppending` (tkrzw_dbm_hash.cc 971-982): only the member is changed, not the metadata in the file. -/
def setUpdateModeAppending (d : Db) : Db := { d with st := { d.st with cfg := { d.st.cfg with inPlace := false } } }

namespace Examples

/-- The key 1 is written, the database is synchronized, and 1 is written again with a value of the same size. -/
def synced (ip : Bool) : Db := (run (step env (fun _ => tune)) (db ip)
  [.call (.set [1] [11, 12] true), .sync 6, .call (.set [1] [13, 14] true)]).1

/-- A crash of the next call, after its first write. -/
def syncCrashed (ip : Bool) : Bytes := (crashFile env (synced ip).st [4] true (Api.setProc [20] true) 1).getD []

/-- The hypotheses of C66 are met, and the restored database has the value of the time of the synchronization. -/
example : (synced false).st.cfg.inPlace = false ∧ (synced false).st.Room ∧ RestoreRoom env extra .sync (syncCrashed false) ∧
    (openRestore env extra 9 4 48 .sync false (syncCrashed false)).map (fun d => ((Api.get (dbImpl env) d [1]).2, d.st.mem.num, d.st.mem.eff)) =
      some ((.success, some [11, 12]), 1, 3) := by
  refine ⟨?_, ?_, ?_, ?_⟩ <;> decide +kernel

/-- A database in the in-place mode with the keys 1 and 4 in one bucket, changed to the appending mode, after which 1 is written
again and the process dies before it closes the database. -/
def changed : Bytes :=
  (Api.set (dbImpl env) (setUpdateModeAppending (run (step env (fun _ => tune)) (db true)
    [.call (.set [1] [11, 12] true), .call (.set [4] [20] true)]).1) [1] [13, 14] true).1.st.file

/-- The database opened after that. -/
def restored : Option Db := openRestore env extra 9 4 48 .default false changed

end Examples

/-- C66 is false in the in-place mode: the new value of the key 1 has overwritten the one of the time of the synchronization. -/
theorem C66_hash_restore_sync_violated :
    (openRestore env extra 9 4 48 .sync false (syncCrashed true)).map (fun d => (Api.get (dbImpl env) d [1]).2) =
      some (.success, some [13, 14]) := by decide +kernel

/-- C65 is false after `SetUpdateModeAppending`. The metadata still say that the file is in the in-place mode, and so both records
of the key 1 are taken for live ones: the number of records is 3, and the removal of the key brings back its old value. -/
theorem C65_hash_set_mode_violated :
    restored.map (fun d => ((Api.get (dbImpl env) d [1]).2, d.st.mem.num)) = some ((.success, some [13, 14]), 3) ∧
    restored.map (fun d => ((Api.remove (dbImpl env) d [1]).2, (Api.get (dbImpl env) (Api.remove (dbImpl env) d [1]).1 [1]).2)) =
      some ((.success, some [13, 14]), (.success, some [11, 12])) := by
  constructor <;> decide +kernel

/-- C65 is false for a crash inside `Synchronize`, between its two updates of the metadata. The file looks as if it had been closed, so
that the free regions of the last `Close` are taken from it, though one of them has been used since: the restored
database has the key 7, but after writing the key 10 it is lost. -/
theorem C65_hash_sync_crash_violated :
    ((copyFile 6 reused).bind (openRestore env extra 9 4 48 .default false)).map (fun c => (Api.get (dbImpl env) c [7]).2) =
      some (.success, some [13, 14]) ∧
    ((copyFile 6 reused).bind (openRestore env extra 9 4 48 .default false)).map
      (fun c => (Api.get (dbImpl env) (Api.set (dbImpl env) c [10] [1, 1] true).1 [7]).2) = some (.notFound, none) := by
  constructor <;> decide +kernel

end Verif.Hash
