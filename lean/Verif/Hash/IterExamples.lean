import Verif.Hash.IterProps
import Verif.Hash.EachExamples
/-
Concrete traversals that meet the hypotheses of the theorems on the iterator of HashDBM.
-/
namespace Verif.Hash.Examples
open Verif.Codec

/-- A traversal with a removal of a record that is not yet passed, a new record, a `Synchronize` and a removal through the iterator. -/
def evs2 : List Ev := [.next, .db (.call (.remove [4])), .db (.call (.set [5] [50] true)), .next, .db (.sync 9), .proc true (fun _ _ => (.remove, ())), .next]

/-- The records that existed all the time are passed, the removed one is not, and the traversal is not over: the new record is next. -/
example : (evRun env (fun _ => tune) (db2 true) Iter.first evs2).2.2 = [[1], [2], [5]] ∧
    (evRun env (fun _ => tune) (db2 false) Iter.first evs2).2.2 = [[1], [2], [5]] ∧
    (Hash.next (evRun env (fun _ => tune) (db2 true) Iter.first evs2).1.st (evRun env (fun _ => tune) (db2 true) Iter.first evs2).2.1).map (·.2) =
      some false := by decide +kernel

/-- The room along a run, as a computation. -/
def evsRoom (d : Db) (it : Iter) : List Ev → Bool
  | [] => decide d.st.Room
  | ev :: evs => decide d.st.Room && evsRoom (evStep env (fun _ => tune) d it ev).1 (evStep env (fun _ => tune) d it ev).2 evs

theorem evsOk_of (evs : List Ev) (h : ∀ ev ∈ evs, ∀ d, EvOk env (fun _ => tune) d ev) : ∀ (d : Db) (it : Iter), evsRoom d it evs = true →
    EvsOk env (fun _ => tune) d it evs := by
  induction evs with
  | nil => intro d it hr; exact of_decide_eq_true (p := d.st.Room) hr
  | cons ev evs ih =>
    intro d it hr
    simp only [evsRoom, Bool.and_eq_true] at hr
    exact ⟨of_decide_eq_true hr.1, h ev (by simp) d, ih (fun x hx => h x (by simp [hx])) _ _ hr.2⟩

/-- The hypotheses of `C10_hash_iterator_updates` are met. -/
example (ip : Bool) : EvsOk env (fun _ => tune) (db2 ip) Iter.first evs2 ∧ ∀ ev ∈ evs2, EvKeeps ev := by
  constructor
  · apply evsOk_of
    · intro ev hev d
      simp only [evs2, List.mem_cons, List.not_mem_nil, or_false] at hev
      rcases hev with rfl | rfl | rfl | rfl | rfl | rfl | rfl
      · trivial
      · exact ⟨trivial, trivial⟩
      · exact ⟨show hashFits [5] [50] by decide +kernel, trivial⟩
      · trivial
      · exact ⟨show 9 < 2 ^ 64 by decide, trivial⟩
      · exact fun _ _ => trivial
      · trivial
    · cases ip <;> decide +kernel
  · intro ev hev
    simp only [evs2, List.mem_cons, List.not_mem_nil, or_false] at hev
    rcases hev with rfl | rfl | rfl | rfl | rfl | rfl | rfl <;> trivial

end Verif.Hash.Examples
