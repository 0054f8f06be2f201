import Verif.Skip.CrashProps
import Verif.Skip.Props
/-
Cases which meet the hypotheses of the theorems about SkipDBM, and cases in which the code does not do what a user
expects.
-/
namespace Verif.Skip
open Verif

/-! Cases which meet the hypotheses -/

/-- Parameters of a small database. -/
def exParams (inOrder : Bool) : Params := ⟨⟨3, 2, 2⟩, 1000000, inOrder, 4⟩

/-- Get. -/
def opGet (key : Bytes) : Op := .process key (fun _ => .noop) false

/-- The results of a series of calls on a new database. -/
def demo (p : Params) (ops : List Op) : Option (List Out) :=
  match (do let d ← Db.create p 0; run d none ops : Rd (Db × Iter × List Out)) with
  | .ok (_, _, os) => some os
  | _ => none

/-- Two updates and their result. -/
def exState : S := ⟨⟨3, 2, 2⟩, false, [], [], [([2], some [20]), ([1], some [10])], none⟩
def exNew : Recs := [([1], [10]), ([2], [20])]

theorem exNew_synced : Synced exState none exNew := by
  refine ⟨by unfold SortedRecs exNew; decide +kernel, fun key => ?_⟩
  by_cases h1 : key = [1]
  · subst h1; rfl
  · by_cases h2 : key = [2]
    · subst h2; rfl
    · simp [valuesOf, exNew, exState, updatesOf, liveAfter, reduceBy, Ne.symm h1, Ne.symm h2]

theorem exNew_only {new : Recs} (h : Synced exState none new) : new = exNew :=
  sorted_unique h.1 exNew_synced.1 fun k => (h.2 k).trans (exNew_synced.2 k).symm

theorem exNew_fits : Fits ⟨3, 2, 2⟩ exNew ∧ Fits defaultCfg exNew :=
  ⟨⟨by decide +kernel, by decide +kernel⟩, ⟨by decide +kernel, by decide +kernel⟩⟩

theorem removing_ne (b : UInt8) : [b] ≠ removingValue := by
  intro h
  have := congrArg List.length h
  simp [removingValue] at this

/-- The hypotheses of `C18_history_partial` are met by a history with updates, a synchronization and readings, and the
results are those expected. -/
example : AllowedRun ⟨⟨3, 2, 2⟩, false, [], [], [], none⟩
      [.insert [2] (.set [20]), .insert [1] (.set [10]), .sync 1 none, opGet [1], .first, .next, .iter (fun _ _ => .noop) false, .count] ∧
    demo (exParams false) [.insert [2] (.set [20]), .insert [1] (.set [10]), .sync 1 none, opGet [1], .first, .next,
        .iter (fun _ _ => .noop) false, .count] =
      some [Out.of .success, Out.of .success, Out.of .success, ⟨.success, [([1], some [10])], 0⟩, Out.of .success, Out.of .success,
        ⟨.success, [([2], some [20])], 0⟩, ⟨.success, [], 2⟩] := by
  refine ⟨?_, by decide +kernel⟩
  refine ⟨⟨removing_ne 20, fun h => (by cases h)⟩, ?_⟩
  rintro _ _ ⟨rfl, _⟩
  refine ⟨⟨removing_ne 10, fun h => (by cases h)⟩, ?_⟩
  rintro _ _ ⟨rfl, _⟩
  refine ⟨⟨fun h => (by cases h), fun f hf => (by cases hf), fun new h => (by rw [exNew_only h]; exact exNew_fits.1)⟩, ?_⟩
  rintro s3 _ ⟨h3, e3, _⟩
  rw [exNew_only h3] at e3
  subst e3
  refine ⟨fun h => (by cases h), ?_⟩
  rintro _ _ ⟨rfl, _⟩
  refine ⟨trivial, ?_⟩
  rintro _ _ ⟨rfl, _⟩
  refine ⟨trivial, ?_⟩
  rintro _ _ ⟨rfl, _⟩
  refine ⟨fun h => (by cases h), ?_⟩
  rintro _ _ ⟨rfl, _⟩
  exact ⟨fun h => (by cases h), fun _ _ _ => trivial⟩

/-- The records which may be found after a death in the synchronization: none or both. -/
theorem exSurvives {recs : Recs} (h : Survives exState (.sync 1 none) recs) : recs = [] ∨ recs = exNew := by
  rcases h with rfl | ⟨s', o, ⟨hs, _⟩, rfl⟩ | ⟨now, h, _⟩
  · exact Or.inl rfl
  · exact Or.inr (exNew_only hs)
  · cases h

/-- The hypotheses of `C64_history_with_deaths_partial` are met by a history in which the process dies while it writes
the metadata in Synchronize and then again in Open. -/
example : AllowedEvs ⟨⟨3, 2, 2⟩, false, [], [], [], none⟩
    [.call (.insert [2] (.set [20])), .call (.insert [1] (.set [10])), .die (.sync 1 none) 40 4000 [⟨exParams true, 2, 30, 7⟩] (exParams false) 3,
      .call (opGet [1])] := by
  refine ⟨⟨removing_ne 20, fun h => (by cases h)⟩, ?_⟩
  rintro _ _ ⟨_, _, rfl, _⟩
  refine ⟨⟨removing_ne 10, fun h => (by cases h)⟩, ?_⟩
  rintro _ _ ⟨_, _, rfl, _⟩
  refine ⟨⟨⟨fun h => (by cases h), fun f hf => (by cases hf), fun new h => (by rw [exNew_only h]; exact exNew_fits.1)⟩, ?_, fun now h => (by cases h)⟩, ?_⟩
  · intro recs h
    rcases exSurvives h with rfl | rfl
    · exact ⟨by decide +kernel, by decide +kernel⟩
    · exact exNew_fits.2
  · rintro s3 _ _
    exact ⟨fun h => (by cases h), fun _ _ _ => trivial⟩

/-- The results of a series of events on a new database. -/
def demoEv (p : Params) (evs : List Ev) : Option (List (Option Out)) :=
  match (do let d ← Db.create p 0; runEv d none evs : Rd (Db × Iter × List (Option Out))) with
  | .ok (_, _, os) => some os
  | _ => none

/-- Dying before the new file is in its place leaves the old records; dying while the metadata are written leaves the
new ones. -/
example :
    demoEv (exParams false) [.call (.insert [2] (.set [20])), .die (.sync 1 none) 0 0 [] (exParams false) 3, .call (opGet [2])] =
      some [some (Out.of .success), none, some ⟨.success, [([2], none)], 0⟩] ∧
    demoEv (exParams false) [.call (.insert [2] (.set [20])), .die (.sync 1 none) 41 10 [⟨exParams true, 2, 30, 7⟩] (exParams false) 3,
        .call (opGet [2])] =
      some [some (Out.of .success), none, some ⟨.success, [([2], some [20])], 0⟩] := by decide +kernel

/-! Updates which are not as a user expects -/

/-- C58: SkipDBM::Set with overwriting and with a place for the old value does not overwrite (tkrzw_dbm_skip.cc 1794
passes `false`): the status is DUPLICATION_ERROR and the value is the old one, also after Synchronize. -/
theorem C58_skip_set_with_old_value_violated :
    (do let d ← Db.create (exParams false) 0
        let (d, _, _) ← run d none [.insert [2] (.set [20]), .sync 1 none]
        let (d, code, old) ← d.set [2] [21] true true
        let (_, _, os) ← run d none [.sync 2 none, opGet [2]]
        pure (code, old, os) : Rd (Code × Option Bytes × List Out)) =
      .ok (.duplication, some [20], [Out.of .success, ⟨.success, [([2], some [20])], 0⟩]) := by decide +kernel

/-- C58: without a place for the old value, Set overwrites nothing either unless a reducer is given: both values are
kept, and the older one is shown. -/
theorem C58_skip_set_keeps_both_values_violated :
    demo (exParams false) [.insert [2] (.set [20]), .sync 1 none, .insert [2] (.set [21]), .sync 2 none, opGet [2], .count] =
      some [Out.of .success, Out.of .success, Out.of .success, Out.of .success, ⟨.success, [([2], some [20])], 0⟩, ⟨.success, [], 2⟩] := by
  decide +kernel

/-- C18: a value which is equal to the internal mark of removal is lost, once any key has been removed since the database
was opened; otherwise it is kept. -/
theorem C18_value_equal_to_the_mark_violated :
    demo (exParams false) [.insert [3] (.set removingValue), .sync 1 none, opGet [3]] =
      some [Out.of .success, Out.of .success, ⟨.success, [([3], some removingValue)], 0⟩] ∧
    demo (exParams false) [.insert [1] .remove, .sync 1 none, .insert [3] (.set removingValue), .sync 2 none, opGet [3]] =
      some [Out.of .success, Out.of .success, Out.of .success, Out.of .success, ⟨.success, [([3], none)], 0⟩] := by
  decide +kernel

/-- C18: in the in-order mode, removing a key right after storing it has no effect: the record is still there, and the
mark of removal is stored as a second record of the key. -/
theorem C18_in_order_removal_violated :
    demo (exParams true) [.insert [2] (.set [20]), .insert [2] .remove, .sync 1 none, opGet [2], .count, .getByIndex 1] =
      some [Out.of .success, Out.of .success, Out.of .success, ⟨.success, [([2], some [20])], 0⟩, ⟨.success, [], 2⟩,
        ⟨.success, [([2], some removingValue)], 0⟩] := by
  decide +kernel

/-- C17: in the in-order mode with a pending record, Count counts a record which Get does not find, Last fails with
NOT_FOUND_ERROR and JumpUpper to a place after the last record fails with BROKEN_DATA_ERROR. -/
theorem C17_in_order_pending_violated :
    demo (exParams true) [.insert [2] (.set [20]), .sync 1 none, .insert [3] (.set [30]), .count, opGet [3], .last, .jumpUpper [2] false] =
      some [Out.of .success, Out.of .success, Out.of .success, ⟨.success, [], 2⟩, ⟨.success, [([3], none)], 0⟩, Out.of .notFound,
        Out.of .brokenData] := by
  decide +kernel

/-! Clear -/

/-- C64: the process dies in Clear after it has written 47 bytes of the metadata: the lowest byte of the file size is the
old one and the others are new, which makes a size less than that of the metadata, and Open fails with
BROKEN_DATA_ERROR. -/
theorem C64_clear_torn_metadata_violated :
    (do let d ← Db.create (exParams false) 0
        let (d, _, _) ← run d none [.insert [2] (.set (List.replicate 130 7)), .sync 1 none]
        let d2 := d.cleared 2
        let _ ← Db.openFile (exParams false) (torn (d2.saveMetadata d2.file false).2 d2.file 47) 3
        pure () : Rd Unit) = .broken := by
  decide +kernel

/-- C64: a database which was cleared and then closed is reported as one which was not closed at the next Open. -/
theorem C64_cleared_and_closed_reported_as_restored_violated :
    (do let d ← Db.create (exParams false) 0
        let d ← d.clear 1
        let F ← d.close 2
        let d ← Db.openFile (exParams false) F 3
        pure d.autoRestored : Rd Bool) = .ok true ∧
    (do let d ← Db.create (exParams false) 0
        let F ← d.close 2
        let d ← Db.openFile (exParams false) F 3
        pure d.autoRestored : Rd Bool) = .ok false := by
  decide +kernel

/-- What a memory-mapped file leaves on the disk when the process dies after Truncate to `size` (tkrzw_file_mmap.cc
243-270): the file is only cut to the initial allocation size `alloc`, which is a multiple of the page size. -/
def mappedTruncate (F : Bytes) (alloc : Nat) : Bytes := F.take alloc ++ List.replicate (alloc - F.length) 0

/-- C64: Clear of a memory-mapped database is undone if the process dies later on, although Clear was successful: the
bytes of the old record are still in the file, and Open restores it. -/
theorem C64_clear_undone_violated :
    (do let d ← Db.create (exParams false) 0
        let (d, _, _) ← run d none [.insert [2] (.set [20]), .sync 1 none]
        let d2 ← d.clear 2
        let (_, _, os2) ← run d2 none [opGet [2], .count]
        let d3 ← Db.openFile (exParams false) (overwrite (mappedTruncate d.file 4096) 0 d2.file) 3
        let (_, _, os3) ← run d3 none [opGet [2], .count]
        pure (os2, os3) : Rd (List Out × List Out)) =
      .ok ([⟨.success, [([2], none)], 0⟩, ⟨.success, [], 0⟩], [⟨.success, [([2], some [20])], 0⟩, ⟨.success, [], 1⟩]) := by
  decide +kernel

/-- C64: after Clear and the death of the process, a part of the old records is found: those which end before the
initial allocation size. -/
theorem C64_clear_partial_records_violated :
    (do let d ← Db.create (exParams false) 0
        let (d, _, _) ← run d none [.insert [2] (.set (List.replicate 4000 7)), .insert [1] (.set [10]), .sync 1 none]
        let d2 ← d.clear 2
        let d3 ← Db.openFile (exParams false) (overwrite (mappedTruncate d.file 4096) 0 d2.file) 3
        let (_, _, os3) ← run d3 none [opGet [1], opGet [2], .count]
        pure os3 : Rd (List Out)) =
      .ok [⟨.success, [([1], some [10])], 0⟩, ⟨.success, [([2], none)], 0⟩, ⟨.success, [], 1⟩] := by
  decide +kernel

/-! Files which are not well-formed -/

/-- A file with good metadata and given bytes after them. -/
def fileWith (body : Bytes) : Bytes := encodeMeta ⟨3, 2, 2⟩ { newMeta 0 with num := 2, fileSize := metadataSize + body.length } true ++ body

/-- C57: a stored key size of 2^31 or more becomes negative, and reading the record is undefined behaviour. -/
theorem C57_skip_negative_size_violated :
    (do let d ← Db.openFile (exParams false) (fileWith ([255, 0, 0, 0, 0, 0, 0] ++ Codec.writeVarNum (2 ^ 32 - 1) ++ [1, 65, 66])) 0
        let (_, _, os) ← run d none [opGet [1]]
        pure os : Rd (List Out)) = .ub := by
  decide +kernel

/-- C57: a skip link which leads back to the record itself makes Get run forever. -/
theorem C57_skip_backward_link_violated :
    (do let d ← Db.openFile (exParams false) (fileWith [255, 0, 0, 128, 0, 0, 0, 1, 1, 65, 66]) 0
        let (_, _, os) ← run d none [opGet [90]]
        pure os : Rd (List Out)) = .hang := by
  decide +kernel

end Verif.Skip
