import Verif.Hash.RebuildCrash
import Verif.Hash.CrashExamples
/-
C77 on concrete databases, and the case in which it is false.
-/
namespace Verif.Hash
open Examples
namespace Examples

/-- The file when a crash of the second call during the rebuild, the removal of the key 4, comes after its first write. -/
def rebuildCrashed (ip : Bool) : Bytes :=
  (crashFile env (runCalls env (rebuildBegin (concDb ip)).st [putCall [1] [99]]).1 [4] true (dropCall [4]).proc 1).getD []

/-- The file after the renaming. -/
def rebuildRenamed (ip : Bool) : Bytes := (renamedFile env tune (concSchedule ip) (concDb ip)).getD []

theorem left_crashed (ip : Bool) : Left env tune (concSchedule ip) (concDb ip) false (rebuildCrashed ip) [putCall [1] [99]] [dropCall [4]] := by
  refine .inside _ [putCall [5] [6, 7]] _ 1 _ (concCalls ip) ?_
  refine some_getD ?_
  cases ip <;> decide +kernel

theorem left_idle (ip : Bool) : Left env tune (concSchedule ip) (concDb ip) false (runCalls env (rebuildBegin (concDb ip)).st [putCall [1] [99]]).1.file
    [putCall [1] [99]] [] :=
  .idle _ [dropCall [4], putCall [5] [6, 7]] (concCalls ip)

theorem left_renamed (ip : Bool) : Left env tune (concSchedule ip) (concDb ip) true (rebuildRenamed ip) [putCall [1] [99], dropCall [4], putCall [5] [6, 7]] [] := by
  rw [← concCalls ip]
  refine .renamed _ (some_getD ?_)
  cases ip <;> decide +kernel

end Examples

/-- The hypotheses of C77 are met, and the restored database has the value that was written during the rebuild; the key 4 is removed. -/
example : ∃ (d' : Db) (dict : Dict), openRestore env extra 9 4 48 .default true (rebuildCrashed false ++ List.replicate 7 0) = some d' ∧
    (dict [1] = some [99] ∧ (dict [4] = none ∨ dict [4] = some [20])) ∧ d'.st.bad = false := by
  have hroom : RunRoom env (fun _ => tune) (db false) concOps := by decide +kernel
  have hfit : SRunFits Dict.empty concOps := by
    refine ⟨?_, ?_, trivial⟩ <;> simp only [SFits, OpFits] <;> decide +kernel
  obtain ⟨d', dict, h1, h2, _, h3, _⟩ := C77_hash_rebuild_crash_partial env_ok (fun _ => tune_ok) (cfg_ok false) extra_ok (open_db false) concOps hroom hfit
    (d := concDb false) rfl tune_ok (concSchedule false) (concSeen false)
    (by rw [concCalls]; refine ⟨?_, ?_, ?_, trivial⟩ <;> simp only [putCall, dropCall, ActFits] <;> decide +kernel)
    rfl (by rw [concCalls]; decide +kernel) (by rw [concCalls]; decide +kernel) (left_crashed false) (Or.inl (by decide +kernel)) extra 9 4 48 7 true extra_ok (by decide) (by decide)
    (by decide) (Or.inr ⟨by decide +kernel, by decide +kernel, by decide +kernel⟩)
  refine ⟨d', dict, h1, ?_, h3⟩
  rcases h2 with rfl | rfl
  · exact ⟨by decide +kernel, Or.inr (by decide +kernel)⟩
  · exact ⟨by decide +kernel, Or.inl (by decide +kernel)⟩

/-- After the renaming all calls have had their effect. -/
example : (openRestore env extra 9 4 48 .default false (rebuildRenamed true)).map
    (fun d => ([[1], [4], [5]].map (fun k => (Api.get (dbImpl env) d k).2), d.st.mem.num)) =
      some ([(.success, some [99]), (.notFound, none), (.success, some [6, 7])], 2) := by decide +kernel

/-- C77 is false in the in-place mode, which is the default. `Rebuild` has changed the mode in memory only, so that a call during the rebuild leaves the old
record of its key in the file, and the metadata in the file say that there are no such records.  The process dies after the key 1 has been written
again. In the restored database, which has two keys, the count is 3, and the removal of the key 1 brings back its old value. -/
theorem C77_hash_rebuild_crash_violated : ∃ f, Left env tune (concSchedule true) (concDb true) false f [putCall [1] [99]] [] ∧
    (openRestore env extra 9 4 48 .default false f).map (fun d => ((Api.get (dbImpl env) d [1]).2, d.st.mem.num)) = some ((.success, some [99]), 3) ∧
    (openRestore env extra 9 4 48 .default false f).map (fun d => ((Api.remove (dbImpl env) d [1]).2,
      (Api.get (dbImpl env) (Api.remove (dbImpl env) d [1]).1 [1]).2)) = some ((.success, some [99]), (.success, some [10, 11])) := by
  refine ⟨_, left_idle true, ?_, ?_⟩ <;> decide +kernel

end Verif.Hash
