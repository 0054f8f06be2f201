import Verif.Prelude.Bytes
import Verif.Codec.Text
/-
`WriteFileAtomic`, `WriteFile` and `ReadFile` (tkrzw_file_util.cc 279-342), with `RenameFile` and `RemoveFile` on POSIX.

A file system is a map from paths to files. The answers of the system calls are given by an oracle: any call can fail, and `write`
and `read` can take less than they are asked for. A program gives the states that the file system has after each call, so that a
crash of the process leaves one of them. Directories, links and permissions are not modelled, except as calls that fail.
-/
namespace Verif.AtomicFile
open Verif Verif.Codec

/-- A file: its bytes, and how many of them are certain to be on the device. -/
structure Inode where
  data : Bytes
  synced : Nat
  deriving DecidableEq

abbrev Fs := Bytes → Option Inode

/-- A file system with another file, or none, at a path. -/
def Fs.put (fs : Fs) (path : Bytes) (f : Option Inode) : Fs := fun p => if p = path then f else fs p

/-- The answers of the calls of `WriteFileAtomic`: `open`, each `write` (the number of bytes taken, or a failure), `close`, `rename`. -/
structure Answers where
  opens : Bool
  writes : List (Option Nat)
  closes : Bool
  renames : Bool
  unlinks : Bool

/-- What a program has done: the states of the file system after each call, from the state before the first one, and its status if it has
come to the end. -/
structure Trace where
  states : List Fs
  last : Fs
  done : Option Bool

/-- The loop of `write` calls (tkrzw_file_util.cc 286-296). A call that takes no byte is done again. When the answers come to an end,
the process does not go on. -/
def writeLoop (path : Bytes) : Fs → Bytes → Bytes → List (Option Nat) → Trace
  | fs, _, [], _ => ⟨[], fs, some true⟩
  | fs, _, _ :: _, [] => ⟨[], fs, none⟩
  | fs, _, _ :: _, none :: _ => ⟨[fs], fs, some false⟩
  | fs, written, b :: rest, some n :: as =>
    let step := (b :: rest).take n
    let fs := fs.put path (some ⟨written ++ step, 0⟩)
    let r := writeLoop path fs (written ++ step) ((b :: rest).drop n) as
    ⟨fs :: r.states, r.last, r.done⟩

/-- `WriteFile` (tkrzw_file_util.cc 279-301). -/
def writeFile (a : Answers) (fs : Fs) (path content : Bytes) : Trace :=
  if !a.opens then ⟨[fs], fs, some false⟩
  else
    let fs := fs.put path (some ⟨[], 0⟩)
    let r := writeLoop path fs [] content a.writes
    match r.done with
    | none => ⟨fs :: r.states, r.last, none⟩
    | some ok => ⟨fs :: r.states ++ [r.last], r.last, some (ok && a.closes)⟩

/-- `RenameFile` (tkrzw_file_util.cc 386-420) on POSIX: one `rename` call. -/
def renameFile (a : Answers) (fs : Fs) (src dest : Bytes) : Trace :=
  if a.renames && (fs src).isSome then
    let fs' := if src = dest then fs else (fs.put dest (fs src)).put src none
    ⟨[fs'], fs', some true⟩
  else ⟨[fs], fs, some false⟩

/-- `RemoveFile` (tkrzw_file_util.cc 379-384). -/
def removeFile (a : Answers) (fs : Fs) (path : Bytes) : Fs := if a.unlinks then fs.put path none else fs

/-- The path of the temporary file (tkrzw_file_util.cc 305). -/
def tmpPath (path tmp : Bytes) : Bytes := if tmp = [] then path ++ asc ".tmp" else tmp

/-- `WriteFileAtomic` (tkrzw_file_util.cc 303-316). -/
def writeFileAtomic (a : Answers) (fs : Fs) (path content tmp : Bytes) : Trace :=
  let w := writeFile a fs (tmpPath path tmp) content
  match w.done with
  | none => ⟨fs :: w.states, w.last, none⟩
  | some false => ⟨fs :: w.states, w.last, some false⟩
  | some true =>
    let r := renameFile a w.last (tmpPath path tmp) path
    if r.done = some true then ⟨fs :: w.states ++ r.states, r.last, some true⟩
    else
      let fs' := removeFile a r.last (tmpPath path tmp)
      ⟨fs :: w.states ++ r.states ++ [fs'], fs', some false⟩

/-- The loop of `ReadFile` (tkrzw_file_util.cc 327-336): `rest` is what is left of the file, and the answers tell how many bytes each `read` gives
(one at least, at most the 8192 that it asks for) or that it fails. When the answers come to an end the process does not go on. -/
def readLoop (max : Nat) : Bytes → Bytes → List (Option Nat) → Option (Bytes × Bool)
  | got, rest, as =>
    if ¬ got.length < max then some (got, true)
    else match as with
      | [] => none
      | none :: _ => some (got, false)
      | some n :: as' =>
        if rest = [] then some (got, true)
        else
          let n := min (Nat.max n 1) (min 8192 (max - got.length))
          readLoop max (got ++ rest.take n) (rest.drop n) as'

/-- `ReadFile` (tkrzw_file_util.cc 318-342): the content and whether the status is success. -/
def readFile (fs : Fs) (path : Bytes) (max : Nat) (opens closes : Bool) (as : List (Option Nat)) : Option (Bytes × Bool) :=
  if !opens then some ([], false)
  else match fs path with
    | none => some ([], false)
    | some f => (readLoop max [] f.data as).map fun r => (r.1, r.2 && closes)

/-! ### Specification -/

/-- SPECIFICATION. What a loss of power can leave of a file system: of each file, at least what is on the device. -/
def PowerLoss (fs fs' : Fs) : Prop := ∀ p, match fs p with
  | none => fs' p = none
  | some f => ∃ n, f.synced ≤ n ∧ n ≤ f.data.length ∧ fs' p = some ⟨f.data.take n, n⟩

/-- SPECIFICATION. The bytes of the file at a path. -/
def content (fs : Fs) (path : Bytes) : Option Bytes := (fs path).map (·.data)

/-! ### Lemmas -/

theorem put_same (fs : Fs) (p : Bytes) (f : Option Inode) : (fs.put p f) p = f := by
  unfold Fs.put
  rw [if_pos rfl]

theorem put_other (fs : Fs) {p q : Bytes} (f : Option Inode) (h : q ≠ p) : (fs.put p f) q = fs q := by
  unfold Fs.put
  rw [if_neg h]

theorem writeLoop_spec (path : Bytes) : ∀ (as : List (Option Nat)) (fs : Fs) (written rest : Bytes), content fs path = some written →
    (∀ s ∈ (writeLoop path fs written rest as).states, ∀ q, q ≠ path → s q = fs q) ∧
    (∀ q, q ≠ path → (writeLoop path fs written rest as).last q = fs q) ∧
    ((writeLoop path fs written rest as).done = some true → content (writeLoop path fs written rest as).last path = some (written ++ rest))
  | as, fs, written, [], h => by
    unfold writeLoop
    exact ⟨fun _ hs => (by cases hs), fun _ _ => rfl, fun _ => by simpa using h⟩
  | [], fs, written, b :: rest, h => by
    unfold writeLoop
    exact ⟨fun _ hs => (by cases hs), fun _ _ => rfl, fun hd => (by cases hd)⟩
  | none :: as, fs, written, b :: rest, h => by
    unfold writeLoop
    refine ⟨fun s hs q _ => ?_, fun _ _ => rfl, fun hd => (by cases hd)⟩
    rw [List.mem_singleton] at hs
    rw [hs]
  | some n :: as, fs, written, b :: rest, h => by
    have hc : content (fs.put path (some ⟨written ++ (b :: rest).take n, 0⟩)) path = some (written ++ (b :: rest).take n) := by
      unfold content
      rw [put_same]
      rfl
    obtain ⟨h1, h2, h3⟩ := writeLoop_spec path as _ _ ((b :: rest).drop n) hc
    rw [writeLoop]
    simp only
    refine ⟨fun s hs q hq => ?_, fun q hq => ?_, fun hd => ?_⟩
    · rcases List.mem_cons.1 hs with rfl | hs
      · exact put_other _ _ hq
      · rw [h1 s hs q hq, put_other _ _ hq]
    · rw [h2 q hq, put_other _ _ hq]
    · rw [h3 hd, List.append_assoc, List.take_append_drop]

theorem writeFile_spec (a : Answers) (fs : Fs) (path data : Bytes) :
    (∀ s ∈ (writeFile a fs path data).states, ∀ q, q ≠ path → s q = fs q) ∧
    (∀ q, q ≠ path → (writeFile a fs path data).last q = fs q) ∧
    ((writeFile a fs path data).done = some true → content (writeFile a fs path data).last path = some data) := by
  unfold writeFile
  by_cases ho : (!a.opens) = true
  · rw [if_pos ho]
    refine ⟨fun s hs q _ => ?_, fun _ _ => rfl, fun hd => (by cases hd)⟩
    rw [List.mem_singleton] at hs
    rw [hs]
  · rw [if_neg ho]
    simp only
    obtain ⟨h1, h2, h3⟩ := writeLoop_spec path a.writes (fs.put path (some ⟨[], 0⟩)) [] data (by unfold content; rw [put_same]; rfl)
    cases hr : (writeLoop path (fs.put path (some ⟨[], 0⟩)) [] data a.writes).done with
    | none =>
      simp only
      refine ⟨fun s hs q hq => ?_, fun q hq => ?_, fun hd => (by cases hd)⟩
      · rcases List.mem_cons.1 hs with rfl | hs
        · exact put_other _ _ hq
        · rw [h1 s hs q hq, put_other _ _ hq]
      · rw [h2 q hq, put_other _ _ hq]
    | some ok =>
      simp only
      refine ⟨fun s hs q hq => ?_, fun q hq => ?_, fun hd => ?_⟩
      · rcases List.mem_append.1 hs with hs | hs
        · rcases List.mem_cons.1 hs with rfl | hs
          · exact put_other _ _ hq
          · rw [h1 s hs q hq, put_other _ _ hq]
        · rw [List.mem_singleton] at hs
          rw [hs, h2 q hq, put_other _ _ hq]
      · rw [h2 q hq, put_other _ _ hq]
      · simp only [Option.some.injEq, Bool.and_eq_true] at hd
        rw [h3 (by rw [hr, hd.1]), List.nil_append]

theorem tmpPath_default (path : Bytes) : tmpPath path [] ≠ path := by
  unfold tmpPath
  rw [if_pos rfl]
  intro h
  have := congrArg List.length h
  rw [List.length_append] at this
  have h4 : (asc ".tmp").length = 4 := by decide
  omega

theorem removeFile_other (a : Answers) (fs : Fs) {p q : Bytes} (h : q ≠ p) : removeFile a fs p q = fs q := by
  unfold removeFile
  split
  · exact put_other _ _ h
  · rfl

/-! ### C46 -/

/-- C46: whatever the system calls answer, in every state that the file system goes through, which are those that a crash of the process can leave, the
target has the old content or the whole new content, and no path but the target and the temporary one is changed. -/
theorem C46_atomic (a : Answers) (fs : Fs) (path new tmp : Bytes) (ht : tmpPath path tmp ≠ path) :
    ∀ s ∈ (writeFileAtomic a fs path new tmp).states,
      (content s path = content fs path ∨ content s path = some new) ∧ ∀ q, q ≠ path → q ≠ tmpPath path tmp → s q = fs q := by
  obtain ⟨h1, h2, h3⟩ := writeFile_spec a fs (tmpPath path tmp) new
  have hold : ∀ s, (∀ q, q ≠ tmpPath path tmp → s q = fs q) →
      (content s path = content fs path ∨ content s path = some new) ∧ ∀ q, q ≠ path → q ≠ tmpPath path tmp → s q = fs q := by
    intro s hs
    refine ⟨.inl ?_, fun q _ hq => hs q hq⟩
    unfold content
    rw [hs path (Ne.symm ht)]
  have hw : ∀ s ∈ fs :: (writeFile a fs (tmpPath path tmp) new).states, ∀ q, q ≠ tmpPath path tmp → s q = fs q := by
    intro s hs
    rcases List.mem_cons.1 hs with rfl | hs
    · exact fun _ _ => rfl
    · exact h1 s hs
  intro s hs
  unfold writeFileAtomic at hs
  simp only at hs
  cases hd : (writeFile a fs (tmpPath path tmp) new).done with
  | none => rw [hd] at hs; exact hold s (hw s hs)
  | some ok =>
    rw [hd] at hs
    cases ok with
    | false => exact hold s (hw s hs)
    | true =>
      simp only at hs
      unfold renameFile at hs
      by_cases hr : (a.renames && ((writeFile a fs (tmpPath path tmp) new).last (tmpPath path tmp)).isSome) = true
      · rw [if_pos hr] at hs
        simp only [if_true, if_neg ht] at hs
        rcases List.mem_append.1 hs with hs | hs
        · exact hold s (hw s hs)
        · rw [List.mem_singleton] at hs
          rw [hs]
          refine ⟨.inr ?_, fun q hq hqt => ?_⟩
          · unfold content
            rw [put_other _ _ (Ne.symm ht), put_same]
            exact h3 hd
          · rw [put_other _ _ hqt, put_other _ _ hq, h2 q hqt]
      · rw [if_neg hr] at hs
        simp only [Option.some.injEq, Bool.false_eq_true, if_false] at hs
        rcases List.mem_append.1 hs with hs | hs
        · rcases List.mem_append.1 hs with hs | hs
          · exact hold s (hw s hs)
          · rw [List.mem_singleton] at hs
            rw [hs]
            exact hold _ h2
        · rw [List.mem_singleton] at hs
          rw [hs]
          apply hold
          intro q hq
          rw [removeFile_other _ _ hq, h2 q hq]

/-- C46: with the default name of the temporary file the condition holds. -/
theorem C46_atomic_default (a : Answers) (fs : Fs) (path new : Bytes) :
    ∀ s ∈ (writeFileAtomic a fs path new []).states, content s path = content fs path ∨ content s path = some new :=
  fun s hs => (C46_atomic a fs path new [] (tmpPath_default path) s hs).1

/-- C46: when success is reported, the target has the new content and the temporary file is gone; when a failure is, the target is as before. -/
theorem C46_status (a : Answers) (fs : Fs) (path new tmp : Bytes) (ht : tmpPath path tmp ≠ path) :
    ((writeFileAtomic a fs path new tmp).done = some true →
      content (writeFileAtomic a fs path new tmp).last path = some new ∧ (writeFileAtomic a fs path new tmp).last (tmpPath path tmp) = none) ∧
    ((writeFileAtomic a fs path new tmp).done = some false → (writeFileAtomic a fs path new tmp).last path = fs path) := by
  obtain ⟨h1, h2, h3⟩ := writeFile_spec a fs (tmpPath path tmp) new
  unfold writeFileAtomic
  simp only
  cases hd : (writeFile a fs (tmpPath path tmp) new).done with
  | none => exact ⟨fun h => (by cases h), fun h => (by cases h)⟩
  | some ok =>
    cases ok with
    | false => exact ⟨fun h => (by cases h), fun _ => h2 path (Ne.symm ht)⟩
    | true =>
      simp only
      unfold renameFile
      by_cases hr : (a.renames && ((writeFile a fs (tmpPath path tmp) new).last (tmpPath path tmp)).isSome) = true
      · rw [if_pos hr]
        simp only [if_true, if_neg ht]
        refine ⟨fun _ => ⟨?_, put_same _ _ _⟩, fun h => (by cases h)⟩
        unfold content
        rw [put_other _ _ (Ne.symm ht), put_same]
        exact h3 hd
      · rw [if_neg hr]
        simp only [Option.some.injEq, Bool.false_eq_true, if_false]
        refine ⟨fun h => (by cases h), fun _ => ?_⟩
        rw [removeFile_other _ _ (Ne.symm ht), h2 path (Ne.symm ht)]

theorem last_other (a : Answers) (fs : Fs) (path new tmp : Bytes) (ht : tmpPath path tmp ≠ path) (q : Bytes) (hq : q ≠ path) (hqt : q ≠ tmpPath path tmp) :
    (writeFileAtomic a fs path new tmp).last q = fs q := by
  have h2 := (writeFile_spec a fs (tmpPath path tmp) new).2.1 q hqt
  unfold writeFileAtomic
  simp only
  split
  · exact h2
  · exact h2
  · unfold renameFile
    split
    · simp only [if_true, if_neg ht]
      rw [put_other _ _ hqt, put_other _ _ hq, h2]
    · simp only [Option.some.injEq, Bool.false_eq_true, if_false]
      rw [removeFile_other _ _ hqt, h2]

theorem writeLoop_whole (path : Bytes) (fs : Fs) (w : Bytes) : ∀ (as : List (Option Nat)) (rest : Bytes), (∀ x ∈ as, ∃ n, x = some (n + 1)) → rest.length ≤ as.length →
    ∀ fs w, (writeLoop path fs w rest as).done = some true
  | as, [], _, _, fs, w => by unfold writeLoop; rfl
  | [], b :: rest, _, hl, fs, w => by simp at hl
  | x :: as, b :: rest, h, hl, fs, w => by
    obtain ⟨n, rfl⟩ := h x (List.mem_cons_self ..)
    rw [writeLoop]
    simp only
    refine writeLoop_whole path fs w as _ (fun y hy => h y (List.mem_cons_of_mem _ hy)) ?_ _ _
    simp only [List.drop_succ_cons, List.length_drop, List.length_cons] at hl ⊢
    omega

/-- C46: when no call fails, whatever parts the content is written in, success is reported. -/
theorem C46_succeeds (a : Answers) (fs : Fs) (path new tmp : Bytes) (ho : a.opens = true) (hc : a.closes = true) (hr : a.renames = true)
    (hw : ∀ x ∈ a.writes, ∃ n, x = some (n + 1)) (hl : new.length ≤ a.writes.length) : (writeFileAtomic a fs path new tmp).done = some true := by
  have hd : (writeFile a fs (tmpPath path tmp) new).done = some true := by
    unfold writeFile
    rw [ho]
    simp only [Bool.not_true, Bool.false_eq_true, if_false]
    rw [writeLoop_whole (tmpPath path tmp) fs [] a.writes new hw hl]
    simp [hc]
  have h3 := (writeFile_spec a fs (tmpPath path tmp) new).2.2 hd
  unfold writeFileAtomic
  simp only [hd]
  have hs : ((writeFile a fs (tmpPath path tmp) new).last (tmpPath path tmp)).isSome = true := by
    unfold content at h3
    cases hx : (writeFile a fs (tmpPath path tmp) new).last (tmpPath path tmp) with
    | none => rw [hx] at h3; cases h3
    | some _ => rfl
  unfold renameFile
  rw [hr, hs]
  simp

theorem readLoop_spec (max : Nat) : ∀ (as : List (Option Nat)) (got rest : Bytes), got.length ≤ max → (∀ x ∈ as, x ≠ none) →
    ∀ r, readLoop max got rest as = some r → r = ((got ++ rest).take max, true)
  | [], got, rest, hg, _, r, h => by
    unfold readLoop at h
    split at h
    · rename_i hm
      cases h
      have : got.length = max := by omega
      rw [List.take_left' this]
    · cases h
  | none :: as, got, rest, hg, ha, r, h => absurd rfl (ha none (List.mem_cons_self ..))
  | some n :: as, got, rest, hg, ha, r, h => by
    unfold readLoop at h
    split at h
    · rename_i hm
      cases h
      have : got.length = max := by omega
      rw [List.take_left' this]
    · simp only at h
      split at h
      · rename_i he
        cases h
        rw [he, List.append_nil, List.take_of_length_le hg]
      · have := readLoop_spec max as _ _ (by rw [List.length_append, List.length_take]; omega) (fun x hx => ha x (List.mem_cons_of_mem _ hx)) r h
        rw [List.append_assoc, List.take_append_drop] at this
        exact this

/-- C46: what was written is what `ReadFile` gives, whatever parts it is read in, cut at the size asked for. -/
theorem C46_read_back (a : Answers) (fs : Fs) (path new tmp : Bytes) (ht : tmpPath path tmp ≠ path) (hd : (writeFileAtomic a fs path new tmp).done = some true)
    (max : Nat) (as : List (Option Nat)) (has : ∀ x ∈ as, x ≠ none) (r : Bytes × Bool)
    (hr : readFile (writeFileAtomic a fs path new tmp).last path max true true as = some r) : r = (new.take max, true) := by
  have hc := ((C46_status a fs path new tmp ht).1 hd).1
  unfold readFile at hr
  simp only [Bool.not_true, Bool.false_eq_true, if_false, Bool.and_true] at hr
  unfold content at hc
  cases hx : (writeFileAtomic a fs path new tmp).last path with
  | none => rw [hx] at hc; cases hc
  | some f =>
    rw [hx] at hc hr
    simp only [Option.map_some, Option.some.injEq] at hc
    simp only [hc, Option.map_eq_some_iff] at hr
    obtain ⟨x, h1, h2⟩ := hr
    have := readLoop_spec max as [] new (Nat.zero_le _) has x h1
    rw [this] at h2
    exact h2.symm

/-! ### Where it does not hold -/

def okAnswers : Answers := ⟨true, [some 2, some 5], true, true, true⟩

def oldFs : Fs := fun p => if p = [112] then some ⟨[1, 2, 3], 3⟩ else none

/-- C46 does not hold when the temporary path given is the target itself: there is a moment when the target is empty. -/
theorem C46_same_path_violated : ∃ s ∈ (writeFileAtomic okAnswers oldFs [112] [4, 5, 6] [112]).states, content s [112] = some [] :=
  by decide +kernel

/-- C46 does not hold of a loss of power: the content is never synchronized with the device before the renaming, so that after success is reported
a loss of power can leave a part of the new content, though the old one was safely on the device. -/
theorem C46_power_loss_violated : (writeFileAtomic okAnswers oldFs [112] [4, 5, 6] []).done = some true ∧
    ∃ fs', PowerLoss (writeFileAtomic okAnswers oldFs [112] [4, 5, 6] []).last fs' ∧ content fs' [112] = some [4] := by
  have hlast : (writeFileAtomic okAnswers oldFs [112] [4, 5, 6] []).last [112] = some ⟨[4, 5, 6], 0⟩ := by decide +kernel
  refine ⟨by decide +kernel, fun p => if p = [112] then some ⟨[4], 1⟩ else
    ((writeFileAtomic okAnswers oldFs [112] [4, 5, 6] []).last p).map fun f => ⟨f.data.take (max f.synced f.data.length), max f.synced f.data.length⟩, ?_, by decide⟩
  intro p
  by_cases hp : p = [112]
  · subst hp
    rw [hlast]
    exact ⟨1, by decide, by decide, by simp⟩
  · have hn : (writeFileAtomic okAnswers oldFs [112] [4, 5, 6] []).last p = none := by
      by_cases hq : p = [112] ++ asc ".tmp"
      · rw [hq]; decide +kernel
      · rw [(last_other okAnswers oldFs [112] [4, 5, 6] [] (tmpPath_default _) p hp (by unfold tmpPath; simpa using hq))]
        unfold oldFs
        rw [if_neg hp]
    rw [hn]
    simp [hp, hn]

/-! ### Examples -/

/-- A run in which everything goes well, one in which a `write` fails, and one that stops halfway. -/
example : (writeFileAtomic okAnswers oldFs [112] [4, 5, 6] []).done = some true ∧
    content (writeFileAtomic okAnswers oldFs [112] [4, 5, 6] []).last [112] = some [4, 5, 6] ∧
    (writeFileAtomic okAnswers oldFs [112] [4, 5, 6] []).states.map (content · [112]) =
      [some [1, 2, 3], some [1, 2, 3], some [1, 2, 3], some [1, 2, 3], some [1, 2, 3], some [4, 5, 6]] := by decide +kernel

example : (writeFileAtomic { okAnswers with writes := [some 1, none] } oldFs [112] [4, 5, 6] []).done = some false ∧
    content (writeFileAtomic { okAnswers with writes := [some 1, none] } oldFs [112] [4, 5, 6] []).last [112] = some [1, 2, 3] := by decide +kernel

example : (writeFileAtomic { okAnswers with writes := [some 1] } oldFs [112] [4, 5, 6] []).done = none := by decide +kernel

example : readFile oldFs [112] 2 true true [some 1, some 1] = some ([1, 2], true) := by decide +kernel

end Verif.AtomicFile
