import Verif.Poly.TuneNames
/-
C83: the parameters of PolyDBM and PolyFile mean what they say.
-/
namespace Verif.Poly
open Verif Verif.Codec
open Verif.Text (lowered lowerCase)
open Verif.Split (splitChar)
open Verif.Edit (strStripSpace)

theorem flag_iff (p : Prop) [Decidable p] (b : Bool) : (if p then true else b) = true ↔ b = true ∨ p := by
  split <;> simp [*]

theorem step_mode (r : Restore) (e : Bytes) :
    (∃ m, OneOf (strStripSpace e) (modeNames m) ∧ (restoreStep r e).mode = m) ∨
    ((∀ m, ¬ OneOf (strStripSpace e) (modeNames m)) ∧ (restoreStep r e).mode = r.mode) := by
  unfold restoreStep
  rw [lowerCase_eq]
  simp only [oneOf_iff]
  generalize lowered (strStripSpace e) = l
  by_cases h1 : l = asc "restore_sync" ∨ l = asc "sync"
  · left
    refine ⟨.sync, ?_, ?_⟩
    · rcases h1 with rfl | rfl <;> decide
    · rcases h1 with rfl | rfl <;> rfl
  by_cases h2 : l = asc "restore_read_only" ∨ l = asc "read_only"
  · left
    refine ⟨.readOnly, ?_, ?_⟩
    · rcases h2 with rfl | rfl <;> decide
    · rcases h2 with rfl | rfl <;> rfl
  by_cases h3 : l = asc "restore_noop" ∨ l = asc "noop"
  · left
    refine ⟨.noop, ?_, ?_⟩
    · rcases h3 with rfl | rfl <;> decide
    · rcases h3 with rfl | rfl <;> rfl
  right
  constructor
  · intro m hm
    cases m <;> simp only [modeNames, List.map_cons, List.map_nil, List.mem_cons, List.not_mem_nil, or_false] at hm
    · rcases hm with rfl | rfl <;> exact h1 (by decide)
    · rcases hm with rfl | rfl <;> exact h2 (by decide)
    · rcases hm with rfl | rfl <;> exact h3 (by decide)
  · simp only [if_neg h1, if_neg h2, if_neg h3]
    split <;> split <;> rfl

theorem step_flags (r : Restore) (e : Bytes) :
    ((restoreStep r e).noShortcuts = true ↔ r.noShortcuts = true ∨ OneOf (strStripSpace e) [asc "RESTORE_NO_SHORTCUTS", asc "NO_SHORTCUTS"]) ∧
    ((restoreStep r e).hardSync = true ↔ r.hardSync = true ∨ OneOf (strStripSpace e) [asc "RESTORE_WITH_HARDSYNC", asc "WITH_HARDSYNC"]) := by
  unfold restoreStep
  rw [lowerCase_eq]
  simp only [oneOf_iff]
  generalize lowered (strStripSpace e) = l
  have e1 : l ∈ [asc "RESTORE_NO_SHORTCUTS", asc "NO_SHORTCUTS"].map lowered ↔ l = asc "restore_no_shortcuts" ∨ l = asc "no_shortcuts" := by
    rw [show [asc "RESTORE_NO_SHORTCUTS", asc "NO_SHORTCUTS"].map lowered = [asc "restore_no_shortcuts", asc "no_shortcuts"] by decide]; simp only [List.mem_cons, List.not_mem_nil, or_false]
  have e2 : l ∈ [asc "RESTORE_WITH_HARDSYNC", asc "WITH_HARDSYNC"].map lowered ↔ l = asc "restore_with_hardsync" ∨ l = asc "with_hardsync" := by
    rw [show [asc "RESTORE_WITH_HARDSYNC", asc "WITH_HARDSYNC"].map lowered = [asc "restore_with_hardsync", asc "with_hardsync"] by decide]; simp only [List.mem_cons, List.not_mem_nil, or_false]
  rw [e1, e2]
  clear e1 e2
  simp only [apply_ite Restore.noShortcuts, apply_ite Restore.hardSync, ite_self]
  exact ⟨flag_iff _ _, flag_iff _ _⟩

theorem fold_restore : ∀ (l : List Bytes) (r : Restore),
    LastMode r.mode (l.map strStripSpace) (l.foldl restoreStep r).mode ∧
    ((l.foldl restoreStep r).noShortcuts = true ↔
      r.noShortcuts = true ∨ ∃ x ∈ l.map strStripSpace, OneOf x [asc "RESTORE_NO_SHORTCUTS", asc "NO_SHORTCUTS"]) ∧
    ((l.foldl restoreStep r).hardSync = true ↔
      r.hardSync = true ∨ ∃ x ∈ l.map strStripSpace, OneOf x [asc "RESTORE_WITH_HARDSYNC", asc "WITH_HARDSYNC"])
  | [], r => ⟨.none _ (by simp), by simp, by simp⟩
  | e :: l, r => by
    obtain ⟨h1, h2, h3⟩ := fold_restore l (restoreStep r e)
    obtain ⟨g2, g3⟩ := step_flags r e
    rw [List.foldl_cons, List.map_cons]
    refine ⟨?_, ?_, ?_⟩
    · generalize (List.foldl restoreStep (restoreStep r e) l).mode = m at h1
      generalize l.map strStripSpace = L at h1
      cases h1 with
      | none _ h =>
        rcases step_mode r e with ⟨m, hm, hs⟩ | ⟨hn, hs⟩
        · exact .some [] _ _ _ (by rw [hs]; exact hm) h
        · rw [hs]
          refine .none _ ?_
          intro x hx
          rcases List.mem_cons.mp hx with rfl | hx
          · exact hn
          · exact h x hx
      | some l₁ l₂ x m hx h' => exact .some (strStripSpace e :: l₁) l₂ x m hx h'
    · rw [h2, g2]; simp only [List.mem_cons, exists_eq_or_imp, or_assoc]
    · rw [h3, g3]; simp only [List.mem_cons, exists_eq_or_imp, or_assoc]

theorem restores_of (v : Bytes) : Restores v (restoreOf v) := by
  obtain ⟨h1, h2, h3⟩ := fold_restore (splitChar v (ch ':') false) ⟨.default, false, false⟩
  simp only [Bool.false_eq_true, false_or] at h2 h3
  exact ⟨_, elements_split v, h1, h2, h3⟩

/-- C83: the modes that HashDBM and TreeDBM are opened with are those named by the parameters. A mode with a name that does not exist is the default mode. -/
theorem C83_modes (params : Params) :
    Named updateNames .default (value params (asc "update_mode")) (hashTune params).update ∧
    Named crcNames .default (value params (asc "record_crc_mode")) (hashTune params).crc ∧
    Named comprNames .default (value params (asc "record_comp_mode")) (hashTune params).compr ∧
    Restores (value params (asc "restore_mode")) (hashTune params).restore :=
  ⟨update_named _, crc_named _, compr_named _, restores_of _⟩

theorem same_iff (v n : Bytes) : Same v n ↔ lowered v = lowered n := Iff.rfl

theorem step_access (a : Access) (e : Bytes) :
    ((accessStep a e).direct = true ↔ a.direct = true ∨ Same (strStripSpace e) (asc "direct")) ∧
    ((accessStep a e).sync = true ↔ a.sync = true ∨ Same (strStripSpace e) (asc "sync")) ∧
    ((accessStep a e).padding = true ↔ a.padding = true ∨ Same (strStripSpace e) (asc "padding")) ∧
    ((accessStep a e).pagecache = true ↔ a.pagecache = true ∨ Same (strStripSpace e) (asc "pagecache")) := by
  unfold accessStep
  rw [lowerCase_eq]
  simp only [same_iff, show lowered (asc "direct") = asc "direct" by decide, show lowered (asc "sync") = asc "sync" by decide,
    show lowered (asc "padding") = asc "padding" by decide, show lowered (asc "pagecache") = asc "pagecache" by decide]
  generalize lowered (strStripSpace e) = l
  simp only [apply_ite Access.direct, apply_ite Access.sync, apply_ite Access.padding, apply_ite Access.pagecache, ite_self]
  exact ⟨flag_iff _ _, flag_iff _ _, flag_iff _ _, flag_iff _ _⟩

theorem fold_access : ∀ (l : List Bytes) (a : Access),
    ((l.foldl accessStep a).direct = true ↔ a.direct = true ∨ ∃ x ∈ l.map strStripSpace, Same x (asc "direct")) ∧
    ((l.foldl accessStep a).sync = true ↔ a.sync = true ∨ ∃ x ∈ l.map strStripSpace, Same x (asc "sync")) ∧
    ((l.foldl accessStep a).padding = true ↔ a.padding = true ∨ ∃ x ∈ l.map strStripSpace, Same x (asc "padding")) ∧
    ((l.foldl accessStep a).pagecache = true ↔ a.pagecache = true ∨ ∃ x ∈ l.map strStripSpace, Same x (asc "pagecache"))
  | [], a => by simp
  | e :: l, a => by
    obtain ⟨h1, h2, h3, h4⟩ := fold_access l (accessStep a e)
    obtain ⟨g1, g2, g3, g4⟩ := step_access a e
    rw [List.foldl_cons, List.map_cons, h1, h2, h3, h4, g1, g2, g3, g4]
    simp only [List.mem_cons, exists_eq_or_imp, or_assoc, and_self]

theorem accesses_of (v : Bytes) : Accesses v (accessOf v) := by
  have h := fold_access (splitChar v (ch ':') false) ⟨false, false, false, false⟩
  simp only [Bool.false_eq_true, false_or] at h
  exact ⟨_, elements_split v, h⟩

/-! ### SynchronizeAdvanced -/

theorem mergeAll_ok (merges : Bytes → Bool) : ∀ l : List Bytes, (mergeAll merges l).2 = none ↔ ∀ p ∈ l, merges p = true
  | [] => by simp [mergeAll]
  | p :: l => by
    rw [mergeAll]
    by_cases h : merges p = true
    · rw [if_pos h]; simp [h, mergeAll_ok merges l]
    · rw [if_neg h]; simp [h]

theorem mergeAll_all (merges : Bytes → Bool) : ∀ l : List Bytes, (mergeAll merges l).2 = none → (mergeAll merges l).1 = l
  | [], _ => rfl
  | p :: l, h => by
    rw [mergeAll] at h ⊢
    by_cases hp : merges p = true
    · rw [if_pos hp] at h ⊢; exact congrArg (p :: ·) (mergeAll_all merges l h)
    · rw [if_neg hp] at h; cases h

theorem endSync_ran (rest : Params) (r x : Option Reducer) : endSync rest r = .ran x ↔ rest = [] ∧ x = r := by
  cases rest with
  | nil => simp [endSync, eq_comm]
  | cons p l => simp [endSync]

theorem reducerOf_nil : reducerOf [] = none := by decide

theorem paths_asked (params : Params) : AskedPaths params (splitChar (search params (asc "merge") []) (ch ':') true) := by
  refine ⟨_, pieces_split _, ?_⟩
  exact (Split.C39_split_skip _ [] [] _).1

/-- C83: `SynchronizeAdvanced` of a SkipDBM synchronizes, with a reducer or without, if and only if the parameters ask for just that and make sense: they are
`merge` and `reducer`, and all databases to be merged can be. Then exactly the databases asked for have been merged, in order. The first database that cannot
be merged ends the call. Other databases take no parameters. Without a database the call fails.

The full property has it that the short name `Remove` is good in any case like all others (`C83_reducer_violated`), and that a call that is refused
because of its parameters merges nothing (`C83_sync_refused_violated`). -/
theorem C83_sync_partial (merges : Bytes → Bool) (params : Params)
    (hr : Same (value params (asc "reducer")) (asc "remove") → value params (asc "reducer") = asc "remove") :
    (∃ paths, AskedPaths params paths ∧
      (∀ r, (syncAdvanced merges (some .skip) params).2 = .ran r ↔
        (∀ p ∈ params, p.1 ∈ [asc "merge", asc "reducer"]) ∧ AskedReducer params r ∧ ∀ p ∈ paths, merges p = true) ∧
      ((∀ p ∈ paths, merges p = true) → (syncAdvanced merges (some .skip) params).1 = paths) ∧
      (∀ before p after, paths = before ++ p :: after → (∀ q ∈ before, merges q = true) → merges p = false →
        syncAdvanced merges (some .skip) params = (before, .mergeFails p))) ∧
    (∀ k, k ≠ .skip → (syncAdvanced merges (some k) params).1 = [] ∧
      ∀ r, (syncAdvanced merges (some k) params).2 = .ran r ↔ params = [] ∧ r = none) ∧
    syncAdvanced merges none params = ([], .precondition) := by
  refine ⟨⟨_, paths_asked params, ?_, ?_, ?_⟩, ?_, rfl⟩
  · intro r
    have hred : ∀ x, reducerOf (value params (asc "reducer")) = some x ↔ OneOf (value params (asc "reducer")) (reducerNames x) :=
      fun x => reducer_iff _ (fun h => hr (h.trans (by decide))) x
    rw [← mergeAll_ok]
    unfold syncAdvanced
    dsimp only
    rw [if_pos rfl]
    generalize splitChar (search params (asc "merge") []) (ch ':') true = ps
    cases hm : (mergeAll merges ps).2 with
    | some p => simp
    | none =>
      dsimp only
      simp only [and_true]
      have hs : search params (asc "reducer") [] = value params (asc "reducer") := rfl
      rw [hs]
      by_cases hv : value params (asc "reducer") = []
      · rw [if_pos hv, endSync_ran, erase_eq_nil]
        unfold AskedReducer
        simp only [hv, true_and]
        constructor
        · rintro ⟨h1, h2⟩; exact ⟨h1, Or.inl h2⟩
        · rintro ⟨h1, h2 | ⟨x, rfl, h2⟩⟩
          · exact ⟨h1, h2⟩
          · rw [← hv, ← hred, hv, reducerOf_nil] at h2; cases h2
      · rw [if_neg hv]
        unfold AskedReducer
        simp only [hv, false_and, false_or, ← hred]
        cases hx : reducerOf (value params (asc "reducer")) with
        | none => simp
        | some x =>
          dsimp only
          rw [endSync_ran, erase_eq_nil]
          simp only [Option.some.injEq, exists_eq_right]
          constructor
          · rintro ⟨h1, rfl⟩; exact ⟨h1, x, rfl, rfl⟩
          · rintro ⟨h1, y, rfl, rfl⟩; exact ⟨h1, rfl⟩
  · intro hall
    rw [← mergeAll_ok] at hall
    unfold syncAdvanced
    dsimp only
    rw [if_pos rfl, hall]
    dsimp only
    rw [mergeAll_all merges _ hall]
    split
    · rfl
    · split <;> rfl
  · intro before p after he hb hp
    have key : mergeAll merges (before ++ p :: after) = (before, some p) := by
      clear he
      induction before with
      | nil => rw [List.nil_append, mergeAll, if_neg (by simp [hp])]
      | cons b before ih =>
        rw [List.cons_append, mergeAll, if_pos (hb b (by simp)), ih (fun q hq => hb q (List.mem_cons_of_mem _ hq))]
    unfold syncAdvanced
    dsimp only
    rw [if_pos rfl, he, key]
  · intro k hk
    unfold syncAdvanced
    dsimp only
    rw [if_neg hk]
    refine ⟨rfl, fun r => ?_⟩
    rw [endSync_ran]

/-- C83: a call refused because of its parameters, or failing because of them, merges nothing if it is not asked to. -/
theorem C83_sync_no_merge (merges : Bytes → Bool) (inner : Option Kind) (params : Params) (h : value params (asc "merge") = []) :
    (syncAdvanced merges inner params).1 = [] := by
  have hs : search params (asc "merge") [] = [] := h
  have hm : mergeAll merges (splitChar [] (ch ':') true) = ([], none) := rfl
  unfold syncAdvanced
  cases inner with
  | none => rfl
  | some k =>
    dsimp only
    rw [hs, hm]
    dsimp only
    split
    · split
      · rfl
      · split <;> rfl
    · rfl

/-- C83: a call that is refused, because there is no such reducer or no such parameter, has merged the databases. -/
theorem C83_sync_refused_violated :
    syncAdvanced (fun _ => true) (some .skip) [(asc "merge", asc "a.tks:b.tks"), (asc "reducer", asc "None")] =
      ([asc "a.tks", asc "b.tks"], .badReducer) ∧
    syncAdvanced (fun _ => true) (some .skip) [(asc "merge", asc "a.tks:b.tks"), (asc "reduce", asc "First")] =
      ([asc "a.tks", asc "b.tks"], .unsupported (asc "reduce")) := by
  constructor <;> decide

/-- C83: the case of the name of a reducer does not matter, but for `Remove`. -/
theorem C83_reducer_violated :
    AskedReducer [(asc "reducer", asc "Remove")] (some .remove) ∧
    (syncAdvanced (fun _ => true) (some .skip) [(asc "reducer", asc "Remove")]).2 = .badReducer ∧
    (syncAdvanced (fun _ => true) (some .skip) [(asc "reducer", asc "remove")]).2 = .ran (some .remove) ∧
    (syncAdvanced (fun _ => true) (some .skip) [(asc "reducer", asc "First")]).2 = .ran (some .toFirst) := by
  refine ⟨Or.inr ⟨_, rfl, asc "Remove", by decide, rfl⟩, ?_, ?_, ?_⟩ <;> decide

/-! ### RebuildAdvanced -/

theorem endRebuild_ran (rest : Params) (a b x y : Bool) : endRebuild rest a b = .ran x y ↔ rest = [] ∧ x = a ∧ y = b := by
  cases rest with
  | nil => simp [endRebuild, eq_comm]
  | cons p l => simp [endRebuild]

theorem erase_erase (m : Params) (k₁ k₂ : List Bytes) : erase (erase m k₁) k₂ = erase m (k₁ ++ k₂) := by
  simp only [erase, List.filter_filter]
  apply List.filter_congr
  intro p _
  simp only [List.contains_eq_mem, List.mem_append, Bool.decide_or, Bool.not_or]
  exact Bool.and_comm _ _

/-- C83: `RebuildAdvanced` rebuilds if and only if each parameter is one of those that `OpenAdvanced` takes for the class of the database, or, for a database
on a file, `skip_broken_records` or `sync_hard`, which then have their values. Without a database it fails.

The full property is not limited to the classes other than BabyDBM and StdHashDBM (`C83_rebuild_violated`). -/
theorem C83_rebuild_partial (toBool : Bytes → Bool) (k : Kind) (hk : k ≠ .baby ∧ k ≠ .stdHash) (params : Params) (skip hard : Bool) :
    (rebuildAdvanced toBool (some k) params = .ran skip hard ↔
      (∀ p ∈ params, p.1 ∈ kindParams k ++ rebuildParams k) ∧
      skip = (decide (k = .hash ∨ k = .tree ∨ k = .skip) && toBool ((params.lookup (asc "skip_broken_records")).getD (asc "false"))) ∧
      hard = (decide (k = .hash ∨ k = .tree ∨ k = .skip) && toBool ((params.lookup (asc "sync_hard")).getD (asc "false")))) ∧
    rebuildAdvanced toBool none params = .precondition := by
  refine ⟨?_, rfl⟩
  unfold rebuildAdvanced search
  dsimp only
  generalize toBool ((params.lookup (asc "skip_broken_records")).getD (asc "false")) = a
  generalize toBool ((params.lookup (asc "sync_hard")).getD (asc "false")) = b
  cases k with
  | baby => exact absurd rfl hk.1
  | stdHash => exact absurd rfl hk.2
  | hash => dsimp only; rw [endRebuild_ran, erase_erase, erase_eq_nil]; simp [hashKeys, kindParams, hashParams, rebuildParams]
  | tree => dsimp only; rw [endRebuild_ran, erase_erase, erase_erase, erase_eq_nil]; simp [hashKeys, treeKeys, kindParams, hashParams, rebuildParams]
  | skip => dsimp only; rw [endRebuild_ran, erase_erase, erase_eq_nil]; simp [skipKeys, kindParams, rebuildParams]
  | tiny => dsimp only; rw [endRebuild_ran, erase_eq_nil]; simp [kindParams, rebuildParams]
  | cache => dsimp only; rw [endRebuild_ran, erase_eq_nil]; simp [kindParams, rebuildParams]
  | stdTree =>
    dsimp only; rw [endRebuild_ran]
    simp [kindParams, rebuildParams, List.eq_nil_iff_forall_not_mem]

/-- C83: BabyDBM and StdHashDBM are opened with parameters that they refuse when rebuilt, whatever the values. -/
theorem C83_rebuild_violated (toBool : Bytes → Bool) (v : Bytes) :
    asc "key_comparator" ∈ kindParams .baby ∧ asc "num_buckets" ∈ kindParams .stdHash ∧
    rebuildAdvanced toBool (some .baby) [(asc "key_comparator", v)] = .unsupported (asc "key_comparator") ∧
    rebuildAdvanced toBool (some .stdHash) [(asc "num_buckets", v)] = .unsupported (asc "num_buckets") ∧
    ∀ params, rebuildAdvanced toBool (some .baby) params = .ran false false ↔ params = [] := by
  refine ⟨by decide, by decide, rfl, rfl, ?_⟩
  intro params
  unfold rebuildAdvanced
  dsimp only
  rw [endRebuild_ran]; simp

theorem endSync_unsupported (rest : Params) (r : Option Reducer) (key : Bytes) (h : endSync rest r = .unsupported key) : ∃ v, (key, v) ∈ rest := by
  cases rest with
  | nil => cases h
  | cons p l =>
    simp only [endSync, SyncRes.unsupported.injEq] at h
    exact ⟨p.2, by rw [← h]; exact List.mem_cons_self ..⟩

theorem endRebuild_unsupported (rest : Params) (a b : Bool) (key : Bytes) (h : endRebuild rest a b = .unsupported key) : ∃ v, (key, v) ∈ rest := by
  cases rest with
  | nil => cases h
  | cons p l =>
    simp only [endRebuild, RebuildRes.unsupported.injEq] at h
    exact ⟨p.2, by rw [← h]; exact List.mem_cons_self ..⟩

/-- C83: a call is refused for a reason: the parameter that it says is unsupported is among those given, and is none of those that are supported; the reducer that
it says does not exist does not. -/
theorem C83_refused_partial (merges toBool : Bytes → Bool) (k : Kind) (params : Params) (key : Bytes)
    (hr : Same (value params (asc "reducer")) (asc "remove") → value params (asc "reducer") = asc "remove") :
    ((syncAdvanced merges (some k) params).2 = .unsupported key →
      (∃ v, (key, v) ∈ params) ∧ (k = .skip → key ∉ [asc "merge", asc "reducer"])) ∧
    ((syncAdvanced merges (some k) params).2 = .badReducer → k = .skip ∧ ¬ ∃ r, AskedReducer params r) ∧
    (rebuildAdvanced toBool (some k) params = .unsupported key → k ≠ .baby ∧ k ≠ .stdHash →
      (∃ v, (key, v) ∈ params) ∧ key ∉ kindParams k ++ rebuildParams k) := by
  refine ⟨?_, ?_, ?_⟩
  · intro h
    unfold syncAdvanced at h
    dsimp only at h
    by_cases hk : k = .skip
    · rw [if_pos hk] at h
      have key : ∃ v, (key, v) ∈ erase params [asc "merge", asc "reducer"] := by
        split at h
        · cases h
        · split at h
          · exact endSync_unsupported _ _ _ h
          · split at h
            · cases h
            · exact endSync_unsupported _ _ _ h
      obtain ⟨v, hv⟩ := key
      obtain ⟨h1, h2⟩ := (mem_erase _ _ _).mp hv
      exact ⟨⟨v, h1⟩, fun _ => h2⟩
    · rw [if_neg hk] at h
      exact ⟨endSync_unsupported _ _ _ h, fun e => absurd e hk⟩
  · intro h
    unfold syncAdvanced at h
    dsimp only at h
    by_cases hk : k = .skip
    · rw [if_pos hk] at h
      refine ⟨hk, ?_⟩
      have hs : search params (asc "reducer") [] = value params (asc "reducer") := rfl
      have ends : ∀ rest r, endSync rest r ≠ .badReducer := by intro rest r; cases rest <;> simp [endSync]
      have : value params (asc "reducer") ≠ [] ∧ reducerOf (value params (asc "reducer")) = none := by
        rw [hs] at h
        split at h
        · cases h
        · split at h
          · exact absurd h (ends _ _)
          · rename_i hne
            split at h
            · rename_i hx; exact ⟨hne, hx⟩
            · exact absurd h (ends _ _)
      rintro ⟨r, ⟨h1, -⟩ | ⟨x, -, hx⟩⟩
      · exact this.1 h1
      · rw [← reducer_iff _ (fun h => hr (h.trans (by decide))) x, this.2] at hx; cases hx
    · rw [if_neg hk] at h
      cases params <;> simp [endSync] at h
  · intro h hk
    have fin : ∀ keys a b, endRebuild (erase params keys) a b = .unsupported key → (∃ v, (key, v) ∈ params) ∧ key ∉ keys := by
      intro keys a b h
      obtain ⟨v, hv⟩ := endRebuild_unsupported _ _ _ _ h
      obtain ⟨h1, h2⟩ := (mem_erase _ _ _).mp hv
      exact ⟨⟨v, h1⟩, h2⟩
    unfold rebuildAdvanced at h
    dsimp only at h
    cases k with
    | baby => exact absurd rfl hk.1
    | stdHash => exact absurd rfl hk.2
    | hash => dsimp only at h; rw [erase_erase] at h; exact fin _ _ _ h
    | tree => dsimp only at h; rw [erase_erase, erase_erase] at h; exact fin _ _ _ h
    | skip => dsimp only at h; rw [erase_erase] at h; exact fin _ _ _ h
    | tiny => exact fin _ _ _ h
    | cache => exact fin _ _ _ h
    | stdTree => exact ⟨endRebuild_unsupported _ _ _ _ h, by simp [kindParams, rebuildParams]⟩

/-! ### RestoreDatabase -/

theorem restoreClass_eq (path name : Bytes) (k : Kind) : restoreClass path name = some k ↔
    (k = .hash ∨ k = .tree ∨ k = .skip) ∧ classOf (if lowered name = [] then guess path else lowered name) = some k := by
  unfold restoreClass
  rw [lowerCase_eq]
  dsimp only
  generalize (if lowered name = [] then guess path else lowered name) = l
  constructor
  · intro h
    repeat' split at h
    all_goals first
      | (cases h; rename_i hl; rcases hl with rfl | rfl <;> decide)
      | (cases h)
  · rintro ⟨rfl | rfl | rfl, h⟩ <;> rw [classOf_iff] at h
    all_goals
      simp only [kindNames, List.map_cons, List.map_nil, List.mem_cons, List.not_mem_nil, or_false] at h
      rcases h with rfl | rfl <;> decide

/-- C83: `RestoreDatabase` is the one of the class that is named, or without a name that of the extension of the broken database; there has to be one, and it
has to be a database on a file. -/
theorem C83_restore (path name : Bytes) (k : Kind) : restoreClass path name = some k ↔
    (k = .hash ∨ k = .tree ∨ k = .skip) ∧ (OneOf name (kindNames k) ∨ (name = [] ∧ ∃ e ∈ kindExts k, HasExt path e)) := by
  rw [restoreClass_eq]
  refine and_congr_right fun _ => ?_
  by_cases hn : name = []
  · subst hn
    rw [if_pos (show lowered [] = [] from rfl), guess_iff]
    constructor
    · intro h; exact Or.inr ⟨rfl, h⟩
    · rintro (⟨n, hn, he⟩ | ⟨-, h⟩)
      · exact absurd he.symm (names_ne k n hn)
      · exact h
  · rw [if_neg (by rwa [lowered_nil_iff]), classOf_iff, ← oneOf_iff]
    simp [hn]

/-! ### PolyFile -/

/-- SPECIFICATION: the file that is asked for: its class, and if it is positional, the block size, at least 1, and the access options. -/
def AskedMade (toInt : Bytes → Int) (params : Params) (f : Made) : Prop :=
  AskedFile params f.kind ∧
  ((f.kind = .posPara ∨ f.kind = .posAtom) → ∃ size acc, f.strategy = some (size, acc) ∧ Accesses (value params (asc "access_options")) acc ∧
    size = max 1 (toInt ((params.lookup (asc "block_size")).getD (asc "-1")))) ∧
  (¬ (f.kind = .posPara ∨ f.kind = .posAtom) → f.strategy = none)

theorem file_iff (params : Params) (f : FileKind) : AskedFile params f ↔ fileOf (lowerCase (search params (asc "file") [])) = some f := by
  rw [lowerCase_eq, fileOf_iff, ← same_names, lowered_nil_iff]; rfl

theorem makeFile_none (toInt : Bytes → Int) (params : Params) : makeFile toInt params = none ↔ ¬ ∃ f, AskedFile params f := by
  unfold makeFile
  cases h : fileOf (lowerCase (search params (asc "file") [])) with
  | none => simp [file_iff, h]
  | some f => dsimp only; split <;> simp [file_iff, h]

theorem makeFile_some (toInt : Bytes → Int) (params : Params) (f : Made) (hf : makeFile toInt params = some f) : AskedMade toInt params f := by
  unfold makeFile at hf
  cases h : fileOf (lowerCase (search params (asc "file") [])) with
  | none => rw [h] at hf; cases hf
  | some k =>
    rw [h] at hf
    dsimp only at hf
    split at hf
    · rename_i hk
      cases hf
      exact ⟨(file_iff _ _).mpr h, fun _ => ⟨_, _, rfl, accesses_of _, Int.max_comm _ _⟩, fun hn => absurd hk hn⟩
    · rename_i hk
      cases hf
      exact ⟨(file_iff _ _).mpr h, fun hn => absurd hn hk, fun _ => rfl⟩

/-- C83: PolyFile opens the file that is asked for, of the class asked for and with the block size and access options asked for, if it can be opened, and else
stays closed. It has to be closed before, and it stays as it is if it is not. The other calls are those of the file that is open, and fail if there is none; `Close` closes it.

The full property has it that a class that does not exist is refused (`C83_file_class_violated`). -/
theorem C83_file_partial (toInt : Bytes → Int) (opens closes : Bool) (params : Params) (f : Made) (inside : FileRes) :
    ((∃ k, AskedFile params k) → ∃ g, AskedMade toInt params g ∧
      fileOpen toInt opens none params = if opens then (some g, .done) else (none, .fails)) ∧
    fileOpen toInt opens (some f) params = (some f, .precondition) ∧
    fileClose closes (some f) = (none, if closes then .done else .fails) ∧ fileClose closes none = (none, .precondition) ∧
    fileCall (some f) inside = inside ∧ fileCall none inside = .precondition := by
  refine ⟨?_, rfl, rfl, rfl, rfl, rfl⟩
  intro h
  cases hm : makeFile toInt params with
  | none => exact absurd h ((makeFile_none toInt params).mp hm)
  | some g =>
    refine ⟨g, makeFile_some toInt params g hm, ?_⟩
    simp [fileOpen, hm]

/-- C83: every name of a class of files that does not exist makes PolyFile call a method of an object that is not there. -/
theorem C83_file_class_violated (toInt : Bytes → Int) (opens : Bool) (params : Params) :
    (fileOpen toInt opens none params).2 = .undefined ↔ ¬ ∃ f, AskedFile params f := by
  rw [← makeFile_none toInt]
  unfold fileOpen
  cases h : makeFile toInt params with
  | none => simp
  | some f => cases opens <;> simp

/-! ### Examples -/

example : hashTune [(asc "record_comp_mode", asc "AES"), (asc "record_crc_mode", asc "crc-32"), (asc "restore_mode", asc "RESTORE_SYNC : read_only:NO_SHORTCUTS")] =
    ⟨.default, .crc32, .aes, ⟨.readOnly, true, false⟩⟩ := by decide

/-- A mode that does not exist is taken as the default: the database is not encrypted. -/
example : (hashTune [(asc "record_comp_mode", asc "AES256"), (asc "cipher_key", asc "secret")]).compr = .default := by decide

example : syncAdvanced (fun p => p ≠ asc "c") (some .skip) [(asc "merge", asc "a::b"), (asc "reducer", asc "TotalBE")] =
    ([asc "a", asc "b"], .ran (some .toTotalBigEndian)) := by decide
example : Same (value [(asc "merge", asc "a::b"), (asc "reducer", asc "TotalBE")] (asc "reducer")) (asc "remove") →
    value [(asc "merge", asc "a::b"), (asc "reducer", asc "TotalBE")] (asc "reducer") = asc "remove" := fun h => absurd h (by unfold Same; decide)
example : syncAdvanced (fun p => p ≠ asc "c") (some .skip) [(asc "merge", asc "a:c:b")] = ([asc "a"], .mergeFails (asc "c")) := by decide
example : syncAdvanced (fun _ => true) (some .hash) [(asc "merge", asc "a")] = ([], .unsupported (asc "merge")) := by decide

example : rebuildAdvanced (· == asc "true") (some .tree) [(asc "align_pow", asc "4"), (asc "max_branches", asc "8"), (asc "sync_hard", asc "true")] = .ran false true := by
  decide
example : rebuildAdvanced (· == asc "true") (some .tiny) [(asc "sync_hard", asc "true")] = .unsupported (asc "sync_hard") := by decide

example : restoreClass (asc "casket.tkt") [] = some .tree ∧ restoreClass (asc "casket.tkt") (asc "SkipDBM") = some .skip ∧
    restoreClass (asc "casket.tkmt") [] = none := by decide

example : fileOpen (fun _ => 512) true none [(asc "access_options", asc "direct: Padding"), (asc "file", asc "pos-atom")] =
    (some ⟨.posAtom, some (512, ⟨true, false, true, false⟩)⟩, .done) := by decide
example : ∃ k, AskedFile [(asc "access_options", asc "direct: Padding"), (asc "file", asc "pos-atom")] k :=
  ⟨.posAtom, (file_iff _ _).mpr (by decide)⟩
example : fileOpen (fun _ => 0) true none [(asc "file", asc "mmap")] = (none, .undefined) := by decide

end Verif.Poly
