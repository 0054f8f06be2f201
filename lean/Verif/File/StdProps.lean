import Verif.File.StdInv
/-
C81: StdFile is a sequence of bytes.
-/
namespace Verif.StdFile
open Verif

/-- C81: whatever calls are made in whatever order, what they return is what they return for files that are plain sequences of bytes: reads see
the last bytes put, a gap or an extension is zeros, the size is the length, an error changes nothing, `Rename` moves the file, and the files that
are not open are as they should be, as are all once the object is closed. With `fake`, `TruncateFakely` may be used, and the bytes of a gap or
extension may then be anything. Missing: `Rename` that the file system refuses, and the old size from `Expand` by nothing: see below. -/
theorem C81_std_file_partial (fake : Bool) (fs : Files) (cs : List Call) (hk : ∀ c ∈ cs, Kept fake c) :
    ∃ w, Trace fake ⟨fs, none⟩ cs w (run (St.init fs) cs).2 ∧
      (∀ q, (∀ h, w.cur = some h → q ≠ h.node) → (run (St.init fs) cs).1.fs q = w.files q) ∧
      ((run (St.init fs) cs).1.file = none ↔ w.cur = none) := by
  obtain ⟨w, h1, h2⟩ := run_traces fake cs (St.init fs) ⟨fs, none⟩ (Or.inl ⟨rfl, rfl⟩) hk
  refine ⟨w, h1, ?_⟩
  rcases h2 with ⟨hc, rfl⟩ | ⟨p, b, h⟩
  · exact ⟨fun _ _ => rfl, by simp [hc]⟩
  · rw [h.view]
    refine ⟨fun q hq => ?_, by simp [h.file]⟩
    have := hq _ rfl
    simp [Files.set, this]

/-- C81: a `Rename` that the file system refuses leaves the object without its file: it is closed, or on whatever is at the new path. -/
theorem C81_rename_refused_loses_file (s : St) (p new : Bytes) (hf : s.file = some p) (hp : s.path ≠ []) :
    (step s (.rename new false)).2 = .err .system ∧
      ((step s (.rename new false)).1.file = none ∨ (step s (.rename new false)).1.file = some new) := by
  simp only [step, hf, if_neg hp, renameImpl, Bool.false_and, Bool.false_eq_true, if_false, true_and]
  unfold openImpl
  by_cases h1 : pathIsFile (closeImpl s).fs new = true <;> by_cases h2 : s.writable = true <;> by_cases h3 : s.noCreate = true <;>
    by_cases h4 : new = [] <;> simp [h1, h2, h3, h4, closeImpl] <;> simp_all [closeImpl]

/-- Two files. -/
def twoFiles : Files := fun q => if q = [97] then some [1, 2, 3] else if q = [98] then some [9, 9] else none

def renameCalls : List Call := [.open_ [97] true false false, .rename [98] false, .read 0 1, .write 0 [7], .close]

/-- C81: after a `Rename` that is refused, the object reads and overwrites the other file. -/
theorem C81_rename_violated :
    (run (St.init twoFiles) renameCalls).2 = [.done, .err .system, .got [9], .done, .done] ∧
      (run (St.init twoFiles) renameCalls).1.fs [98] = some [7, 9] ∧
      ¬ ∃ w, Trace true ⟨twoFiles, none⟩ renameCalls w (run (St.init twoFiles) renameCalls).2 := by
  have e : (run (St.init twoFiles) renameCalls).2 = [.done, .err .system, .got [9], .done, .done] := by decide
  refine ⟨e, by decide, ?_⟩
  rw [e]
  rintro ⟨w, h⟩
  unfold renameCalls at h
  cases h with | cons h1 h => cases h with | cons h2 h => cases h with | cons h3 h =>
  obtain ⟨rfl, -⟩ : _ ∧ _ := h1
  obtain ⟨f, hf, hd⟩ := h2
  obtain ⟨rfl, -⟩ : _ ∧ _ := hd
  obtain ⟨f, hf, hd⟩ := h3
  have hf' : f = [1, 2, 3] := by
    have : (twoFiles.set [97] (some [1, 2, 3])) [97] = some f := hf
    simpa [Files.set] using this.symm
  subst hf'
  obtain ⟨-, hd⟩ := hd
  rw [if_pos (by decide)] at hd
  obtain ⟨b, hb, -, hr⟩ := hd
  cases hb
  have := hr 0 (by decide)
  simp at this

def expandCalls : List Call := [.open_ [97] true false false, .expand 0]

/-- C81: `Expand` by nothing does not tell the old size. -/
theorem C81_expand_violated :
    (run (St.init twoFiles) expandCalls).2 = [.done, .num 0] ∧
      ¬ ∃ w, Trace true ⟨twoFiles, none⟩ expandCalls w (run (St.init twoFiles) expandCalls).2 := by
  have e : (run (St.init twoFiles) expandCalls).2 = [.done, .num 0] := by decide
  refine ⟨e, ?_⟩
  rw [e]
  rintro ⟨w, h⟩
  unfold expandCalls at h
  cases h with | cons h1 h => cases h with | cons h2 h =>
  obtain ⟨rfl, -⟩ : _ ∧ _ := h1
  obtain ⟨f, hf, hd⟩ := h2
  have hf' : f = [1, 2, 3] := by
    have : (twoFiles.set [97] (some [1, 2, 3])) [97] = some f := hf
    simpa [Files.set] using this.symm
  subst hf'
  obtain ⟨hn, -⟩ : _ ∧ _ := hd
  simp at hn

def truncateCalls : List Call := [.open_ [97] true false false, .truncateFakely 1, .truncate 3, .read 0 3]

/-- C81: after `TruncateFakely`, `Truncate` to more brings bytes back where it promises zeros. -/
theorem C81_truncate_violated :
    (run (St.init twoFiles) truncateCalls).2 = [.done, .done, .done, .got [1, 2, 0]] ∧
      ¬ ∃ w, Trace false ⟨twoFiles, none⟩ truncateCalls w (run (St.init twoFiles) truncateCalls).2 := by
  have e : (run (St.init twoFiles) truncateCalls).2 = [.done, .done, .done, .got [1, 2, 0]] := by decide
  refine ⟨e, ?_⟩
  rw [e]
  rintro ⟨w, h⟩
  unfold truncateCalls at h
  cases h with | cons h1 h => cases h with | cons h2 h => cases h with | cons h3 h => cases h with | cons h4 h =>
  obtain ⟨rfl, -⟩ : _ ∧ _ := h1
  obtain ⟨f, hf, hd⟩ := h2
  have hf' : f = [1, 2, 3] := by
    have : (twoFiles.set [97] (some [1, 2, 3])) [97] = some f := hf
    simpa [Files.set] using this.symm
  subst hf'
  obtain ⟨-, rfl⟩ : _ ∧ _ := hd
  obtain ⟨f, hf, hd⟩ := h3
  have hf' : f = [1] := by
    have := hf.symm
    simpa [Files.set] using this
  subst hf'
  obtain ⟨-, f', hg, rfl⟩ : _ ∧ ∃ f', Grows false [1] 3 f' ∧ _ := hd
  obtain ⟨f, hf, hd⟩ := h4
  have hf' : f = f' := by
    have := hf.symm
    simpa [Files.set] using this
  subst hf'
  obtain ⟨-, hd⟩ := hd
  rw [if_pos (by rw [hg.len]; decide)] at hd
  obtain ⟨b, hb, -, hr⟩ := hd
  cases hb
  have h5 := hr 1 (by decide)
  rw [show 0 + 1 = 1 from rfl, hg.zero rfl 1 (by decide) (by decide)] at h5
  simp at h5

/-- Calls that the theorem takes. -/
def someCalls : List Call :=
  [.open_ [97] true false false, .write 5 [8, 8], .append [4], .truncate 4, .rename [98] true, .expand 2, .read 0 6, .getPath, .getSize,
   .close, .read 0 1, .open_ [98] false false false, .read 5 1, .write 0 [1], .read 5 2, .disablePath, .getPath, .isOpen, .close]

example : ∀ c ∈ someCalls, Kept false c := by simp [someCalls, Kept]

example : (run (St.init twoFiles) someCalls).2 =
    [.done, .done, .num 7, .done, .done, .num 4, .got [1, 2, 3, 0, 0, 0], .path [98], .num 6,
     .done, .err .precondition, .done, .got [0], .err .precondition, .err .infeasible, .done, .err .precondition, .flag true, .done] := by decide

example : ((run (St.init twoFiles) someCalls).1.fs [97], (run (St.init twoFiles) someCalls).1.fs [98]) = (none, some [1, 2, 3, 0, 0, 0]) := by decide

example : ∀ c ∈ [Call.open_ [97] true false false, .truncateFakely 1, .disablePath, .close], Kept true c := by simp [Kept]

/-- What `TruncateFakely` cut off is still there if the object no longer knew the path. -/
example : (run (St.init twoFiles) [.open_ [97] true false false, .truncateFakely 1, .disablePath, .close]).1.fs [97] = some [1, 2, 3] := by decide

example : (run (St.init twoFiles) [.open_ [97] true false false, .truncateFakely 1, .close]).1.fs [97] = some [1] := by decide

end Verif.StdFile
