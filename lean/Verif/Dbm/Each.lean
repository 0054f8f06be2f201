import Verif.Dbm.Core
/-
SPECIFICATION of `ProcessEach`, shared by the databases.
-/
namespace Verif

/-- Run the processor on the records of a list, one after the other. `ρ` is the state of the processor object and `p`
its `ProcessFull`. -/
def Dict.eachFold {ρ : Type} (w : Bool) (p : Bytes → ρ → Bytes → Action × ρ) :
    List (Bytes × Bytes) → Dict → ρ → Dict × ρ
  | [], d, r => (d, r)
  | (k, v) :: rs, d, r => eachFold w p rs (if w then d.act k (p k r v).1 else d) (p k r v).2

/-- `rs` lists the records of `d`, each key once. -/
def Dict.Lists (d : Dict) (rs : List (Bytes × Bytes)) : Prop :=
  (rs.map (·.1)).Nodup ∧ ∀ k v, (k, v) ∈ rs ↔ d k = some v

theorem Dict.eachFold_append {ρ : Type} (w : Bool) (p : Bytes → ρ → Bytes → Action × ρ)
    (x y : List (Bytes × Bytes)) (d : Dict) (r : ρ) :
    Dict.eachFold w p (x ++ y) d r = Dict.eachFold w p y (Dict.eachFold w p x d r).1 (Dict.eachFold w p x d r).2 := by
  induction x generalizing d r with
  | nil => rfl
  | cons a x ih => obtain ⟨k, v⟩ := a; simp only [List.cons_append, eachFold]; rw [ih]

theorem Dict.act_other (d : Dict) {k k' : Bytes} (a : Action) (h : k' ≠ k) : d.act k a k' = d k' := by
  cases a <;> simp [Dict.act, Dict.upd, h]

/-- Keys outside the list are untouched. -/
theorem Dict.eachFold_other {ρ : Type} (w : Bool) (p : Bytes → ρ → Bytes → Action × ρ)
    (x : List (Bytes × Bytes)) (d : Dict) (r : ρ) (k : Bytes) (h : k ∉ x.map (·.1)) :
    (Dict.eachFold w p x d r).1 k = d k := by
  induction x generalizing d r with
  | nil => rfl
  | cons a x ih =>
    obtain ⟨k1, v⟩ := a
    simp only [List.map_cons, List.mem_cons, not_or] at h
    simp only [eachFold]
    rw [ih _ _ h.2]
    cases w
    · rfl
    · simp only [if_true]; exact Dict.act_other _ _ h.1

end Verif
