import Verif.Skip.Spec
/-
Which calls leave the file alone.
-/
namespace Verif.Skip
open Verif

/-- Whatever the result is, it has the property. -/
def Rd.All {α : Type} (P : α → Prop) : Rd α → Prop
  | .ok a => P a
  | _ => True

theorem Rd.All.bind {α β : Type} {P : α → Prop} {Q : β → Prop} {x : Rd α} {f : α → Rd β} (h : Rd.All P x) (hf : ∀ a, P a → Rd.All Q (f a)) :
    Rd.All Q (x >>= f) := by
  cases x with
  | ok a => exact hf a h
  | broken => trivial
  | ub => trivial
  | hang => trivial

theorem Rd.All.trivial {α : Type} (x : Rd α) : Rd.All (fun _ => True) x := by cases x <;> exact True.intro

theorem keepAside_keeps (d : Db) (k v : Bytes) : Rd.All (fun d' => d'.file = d.file) (d.keepAside k v) := by
  unfold Db.keepAside
  cases d.sorted with
  | none => cases d.sorter with
    | none => exact True.intro
    | some s => exact rfl
  | some W => exact rfl

theorem updateRecord_keeps (d : Db) (k : Bytes) (a : Action) : Rd.All (fun d' => d'.file = d.file) (d.updateRecord k a) := by
  cases a with
  | noop => exact rfl
  | remove => exact keepAside_keeps { d with removed := true } k _
  | set v => exact keepAside_keeps d k v

theorem updateIf_keeps (d : Db) (w : Bool) (k : Bytes) (a : Action) : Rd.All (fun d' => d'.file = d.file) (d.updateIf w k a) := by
  unfold Db.updateIf
  split
  · exact updateRecord_keeps d k a
  · exact rfl

theorem updateEach_keeps (proc : Bytes → Bytes → Action) : ∀ (l : List (Bytes × Bytes)) (d : Db), Rd.All (fun d' => d'.file = d.file) (d.updateEach proc l)
  | [], d => rfl
  | r :: l, d => by
    refine (updateRecord_keeps d r.1 (proc r.1 r.2)).bind fun d1 h1 => ?_
    have := updateEach_keeps proc l d1
    rwa [h1] at this

theorem search_keeps (d : Db) (k : Bytes) (u : Bool) : Rd.All (fun r => r.1.file = d.file) (d.search k u) := by
  unfold Db.search
  split <;> first | exact True.intro | exact rfl

theorem searchByIndex_keeps (d : Db) (i : Nat) : Rd.All (fun r => r.1.file = d.file) (d.searchByIndex i) := by
  unfold Db.searchByIndex
  split <;> first | exact True.intro | exact rfl

theorem process_keeps (d : Db) (k : Bytes) (proc : Proc) (w : Bool) : Rd.All (fun r => r.1.file = d.file) (d.process k proc w) := by
  unfold Db.process
  refine (search_keeps d k false).bind fun r h => ?_
  obtain ⟨d1, o⟩ := r
  cases o with
  | some r =>
    refine (Rd.All.trivial _).bind fun v _ => ?_
    refine (updateIf_keeps d1 w k _).bind fun d2 h2 => ?_
    exact h2.trans h
  | none =>
    refine (updateIf_keeps d1 w k _).bind fun d2 h2 => ?_
    exact h2.trans h

theorem lowerLoop_keeps (key : Bytes) (b : Bool) : ∀ (n : Nat) (d : Db) (r : Rec) (p : Nat × Nat × Nat),
    Rd.All (fun r => r.1.file = d.file) (lowerLoop key b n d r p)
  | 0, d, r, (o, i, s) => True.intro
  | n + 1, d, r, (o, i, s) => by
    rw [lowerLoop]
    generalize hcc : (if b = true then (!bytesLt key r.key) else bytesLt r.key key) = cc
    cases cc with
    | true => exact rfl
    | false =>
      rw [if_neg (by simp)]
      split
      · exact rfl
      · refine (searchByIndex_keeps d (i - 1)).bind fun x h => ?_
        obtain ⟨d1, x⟩ := x
        cases x with
        | none => exact h
        | some r =>
          have := lowerLoop_keeps key b n d1 r (r.offset, i - 1, r.whole)
          simp only at h
          rwa [h] at this

theorem upperLoop_keeps (key : Bytes) (b : Bool) (d : Db) : ∀ (n : Nat) (r : Rec), Rd.All (fun r => r.1.file = d.file) (upperLoop key b d n r)
  | 0, r => True.intro
  | n + 1, r => by
    rw [upperLoop]
    generalize hcc : (if b = true then (!bytesLt r.key key) else bytesLt key r.key) = cc
    cases cc with
    | true => exact rfl
    | false =>
      rw [if_neg (by simp)]
      split
      · exact rfl
      · split
        · exact upperLoop_keeps key b d n _
        · exact rfl
        · exact True.intro
        · exact True.intro

theorem pair_keeps {F : Bytes} {it : Iter} {x : Rd (Db × Out)} (h : Rd.All (fun r => r.1.file = F) x) :
    Rd.All (fun r => r.1.file = F) (do let (d, o) ← x; pure (d, it, o)) := by
  cases x with
  | ok r => exact h
  | broken => trivial
  | ub => trivial
  | hang => trivial

/-- The calls which change the file at the path. -/
def Op.touches : Op → Bool
  | .clear _ | .sync _ _ | .rebuild _ _ | .reopen _ _ _ => true
  | _ => false

theorem step_keeps (d : Db) (it : Iter) (op : Op) (h : op.touches = false) : Rd.All (fun r => r.1.file = d.file) (step d it op) := by
  cases op with
  | clear _ => cases h
  | sync _ _ => cases h
  | rebuild _ _ => cases h
  | reopen _ _ _ => cases h
  | process key proc w => exact pair_keeps (process_keeps d key proc w)
  | insert key a =>
    refine pair_keeps ?_
    exact (updateRecord_keeps d key a).bind fun d1 h1 => h1
  | getByIndex i =>
    refine pair_keeps ?_
    refine (searchByIndex_keeps d i).bind fun r h => ?_
    obtain ⟨d1, o⟩ := r
    cases o with
    | none => exact h
    | some r => exact (Rd.All.trivial _).bind fun v _ => h
  | processFirst proc w =>
    refine pair_keeps ?_
    unfold Db.processFirst
    by_cases hl : d.file.length ≤ metadataSize
    · rw [if_pos hl]
      show d.file = d.file
      rfl
    · rw [if_neg hl]
      generalize readMetadataKey d.cfg d.file metadataSize 0 = x
      refine (Rd.All.trivial _).bind fun r _ => (Rd.All.trivial _).bind fun v _ => ?_
      exact (updateIf_keeps d w _ _).bind fun d1 h1 => h1
  | processEach proc w =>
    refine pair_keeps ?_
    unfold Db.processEach
    refine (Rd.All.trivial _).bind fun l _ => ?_
    cases w with
    | true => exact (updateEach_keeps proc l d).bind fun d1 h1 => h1
    | false => exact rfl
  | count => exact rfl
  | effSize => exact rfl
  | revert =>
    show (d.discardStorage.prepareStorage).file = d.file
    unfold Db.prepareStorage
    simp only
    split <;> rfl
  | merge src =>
    refine pair_keeps ?_
    unfold Db.mergeSkip
    split
    · exact rfl
    · split
      · exact True.intro
      · exact rfl
  | first => exact rfl
  | last =>
    show Rd.All _ (Iter.last it d)
    unfold Iter.last
    split
    · refine (searchByIndex_keeps d _).bind fun r h => ?_
      obtain ⟨d1, o⟩ := r
      cases o with
      | none => exact h
      | some r => exact h
    · exact rfl
  | jump key =>
    show Rd.All _ (Iter.jump d key)
    refine (search_keeps d _ _).bind fun r h => ?_
    obtain ⟨d1, o⟩ := r
    cases o with
    | none => exact h
    | some r => exact h
  | jumpLower key b =>
    show Rd.All _ (Iter.jumpLower it d key b)
    refine (search_keeps d _ _).bind fun r h => ?_
    obtain ⟨d1, o⟩ := r
    simp only at h
    cases o with
    | none =>
      simp only
      split
      · exact h
      · refine (searchByIndex_keeps d1 _).bind fun r h2 => ?_
        obtain ⟨d2, o⟩ := r
        simp only at h2
        cases o with
        | none => exact h2.trans h
        | some r =>
          have := lowerLoop_keeps key b (r.index + 1) d2 r (r.offset, r.index, r.whole)
          rwa [h2, h] at this
    | some r =>
      have := lowerLoop_keeps key b (r.index + 1) d1 r (r.offset, r.index, r.whole)
      rwa [h] at this
  | jumpUpper key b =>
    show Rd.All _ (Iter.jumpUpper d key b)
    refine (search_keeps d _ _).bind fun r h => ?_
    obtain ⟨d1, o⟩ := r
    simp only at h
    cases o with
    | none => exact h
    | some r =>
      have := upperLoop_keeps key b d1 (d1.file.length + 1) r
      rw [show d1.file = d.file from h] at this
      simp only [h]
      exact this
  | next =>
    show Rd.All _ (Iter.next it d)
    unfold Iter.next
    split
    · exact rfl
    · split
      · exact (Rd.All.trivial _).bind fun r _ => rfl
      · exact rfl
  | previous =>
    show Rd.All _ (Iter.previous it d)
    unfold Iter.previous
    split
    · exact rfl
    · split
      · refine (searchByIndex_keeps d _).bind fun r h => ?_
        obtain ⟨d1, o⟩ := r
        cases o with
        | none => exact h
        | some r => exact h
      · exact rfl
  | iter proc w =>
    show Rd.All _ (Iter.process it d proc w)
    unfold Iter.process
    split
    · exact rfl
    · refine (Rd.All.trivial _).bind fun r _ => (Rd.All.trivial _).bind fun v _ => ?_
      cases w with
      | true =>
        refine (updateRecord_keeps d _ _).bind fun d1 h1 => ?_
        split
        · exact h1
        · exact h1
      | false => exact rfl

end Verif.Skip
