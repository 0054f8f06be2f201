import Verif.Dbm.ApiProps
/-
Histories of calls on a database, and their specification on a dictionary.
-/
namespace Verif
open Verif.Api (appended)

/-- A call of a database method. `rebuild` carries the tuning parameter of the databases that have one. -/
inductive Op where
  | get (k : Bytes)
  | set (k v : Bytes) (overwrite : Bool)
  | remove (k : Bytes)
  | append (k v delim : Bytes)
  | process (k : Bytes) (writable : Bool) (p : ProcR (Option Bytes))
  | clear
  | rebuild (param : Int)

/-- The outcome of a call: the status and the value reported through an output parameter, if any. -/
abbrev Out := Code × Option Bytes

/-- SPECIFICATION of each call on a dictionary. -/
def Dict.step (d : Dict) : Op → Dict × Out
  | .get k => (d, match d k with | some v => (.success, some v) | none => (.notFound, none))
  | .set k v overwrite =>
    if overwrite = false ∧ (d k).isSome then (d, .duplication, d k) else (d.upd k (some v), .success, d k)
  | .remove k => (d.upd k none, if (d k).isSome then .success else .notFound, d k)
  | .append k v delim => (d.upd k (some (appended (d k) v delim)), .success, none)
  | .process k w p => ((d.process k w p).1, .success, (d.process k w p).2)
  | .clear => (Dict.empty, .success, none)
  | .rebuild _ => (d, .success, none)

/-- SPECIFICATION: the values stored by a call satisfy the size limit. -/
def OpFits (fits : Bytes → Bytes → Prop) (d : Dict) : Op → Prop
  | .set k v _ => fits k v
  | .append k v delim => fits k (appended (d k) v delim)
  | .process k _ p => ActFits fits k (p (d k)).1
  | _ => True

/-- SPECIFICATION: the size limit along a whole history. -/
def RunFits (fits : Bytes → Bytes → Prop) : Dict → List Op → Prop
  | _, [] => True
  | d, op :: ops => OpFits fits d op ∧ RunFits fits (d.step op).1 ops

/-- Run a history, collecting the outcomes. -/
def run {σ ω β : Type} (step : σ → ω → σ × β) : σ → List ω → σ × List β
  | s, [] => (s, [])
  | s, op :: ops =>
    let x := step s op
    let y := run step x.1 ops
    (y.1, x.2 :: y.2)

/-- SPECIFICATION: the history run on a dictionary. -/
def Dict.run (d : Dict) (ops : List Op) : Dict × List Out := Verif.run Dict.step d ops

/-- Simulation of single steps extends to histories. -/
theorem run_sim {σ : Type} (step : σ → Op → σ × Out) (inv : σ → Prop) (view : σ → Dict)
    (fits : Bytes → Bytes → Prop)
    (h : ∀ s op, inv s → OpFits fits (view s) op →
      inv (step s op).1 ∧ (view (step s op).1, (step s op).2) = (view s).step op)
    (ops : List Op) : ∀ s, inv s → RunFits fits (view s) ops →
      inv (run step s ops).1 ∧ (view (run step s ops).1, (run step s ops).2) = (view s).run ops := by
  induction ops with
  | nil => intro s hi _; exact ⟨hi, rfl⟩
  | cons op ops ih =>
    intro s hi hf
    obtain ⟨i1, e1⟩ := h s op hi hf.1
    have ev : view (step s op).1 = ((view s).step op).1 := by rw [← e1]
    have eo : (step s op).2 = ((view s).step op).2 := by rw [← e1]
    obtain ⟨i2, e2⟩ := ih (step s op).1 i1 (by rw [ev]; exact hf.2)
    refine ⟨i2, ?_⟩
    simp only [run, Dict.run]
    have ev2 : view (run step (step s op).1 ops).1 = ((view (step s op).1).run ops).1 := by rw [← e2]
    have eo2 : (run step (step s op).1 ops).2 = ((view (step s op).1).run ops).2 := by rw [← e2]
    rw [ev2, eo2, eo, ev]
    rfl

/-- The calls of a history on a database: `Get`, `Set`, `Remove` are the default methods over `D`; `Append`, `Clear` and
`Rebuild` are given. -/
def apiStep {σ : Type} (D : DbmImpl σ) (append : σ → Bytes → Bytes → Bytes → σ) (clear : σ → σ) (rebuild : σ → Int → σ)
    (s : σ) : Op → σ × Out
  | .get k => Api.get D s k
  | .set k v ow => Api.set D s k v ow
  | .remove k => Api.remove D s k
  | .append k v d => (append s k v d, .success, none)
  | .process k w p => let x := D.process s k w p; (x.1, .success, x.2)
  | .clear => (clear s, .success, none)
  | .rebuild n => (rebuild s n, .success, none)

theorem apiStep_sim {σ : Type} {D : DbmImpl σ} {inv : σ → Prop} {view : σ → Dict} {fits : Bytes → Bytes → Prop}
    (L : Lawful D inv view fits) {append : σ → Bytes → Bytes → Bytes → σ} {clear : σ → σ} {rebuild : σ → Int → σ}
    (ha : ∀ s k v d, inv s → fits k (appended (view s k) v d) → inv (append s k v d) ∧
      view (append s k v d) = (view s).upd k (some (appended (view s k) v d)))
    (hc : ∀ s, inv s → inv (clear s) ∧ view (clear s) = Dict.empty)
    (hb : ∀ s n, inv s → inv (rebuild s n) ∧ view (rebuild s n) = view s)
    (s : σ) (op : Op) (hi : inv s) (hf : OpFits fits (view s) op) :
    inv (apiStep D append clear rebuild s op).1 ∧
    (view (apiStep D append clear rebuild s op).1, (apiStep D append clear rebuild s op).2) = (view s).step op := by
  cases op with
  | get k =>
    have h := Api.C58_get L s k hi
    refine ⟨h.1, ?_⟩
    simp only [apiStep, Dict.step]
    cases hv : view s k with
    | none => rw [h.2.1, h.2.2.2 hv]
    | some v => rw [h.2.1, h.2.2.1 v hv]
  | set k v ow =>
    have h := Api.C58_set L s k v ow hi hf
    refine ⟨h.1, ?_⟩
    have h3 := h.2.2
    simp only [apiStep, Dict.step]
    split at h3
    · rename_i c; rw [if_pos c, h3.2]; simp only [Prod.mk.injEq, true_and]
      exact Prod.ext h3.1 h.2.1
    · rename_i c; rw [if_neg c, h3.2]; simp only [Prod.mk.injEq, true_and]
      exact Prod.ext h3.1 h.2.1
  | remove k =>
    have h := Api.C58_remove L s k hi
    refine ⟨h.1, ?_⟩
    simp only [apiStep, Dict.step]
    rw [h.2.1]; simp only [Prod.mk.injEq, true_and]
    exact Prod.ext h.2.2.2 h.2.2.1
  | append k v d =>
    have h := ha s k v d hi hf
    exact ⟨h.1, by simp only [apiStep, Dict.step, h.2]⟩
  | process k w p =>
    refine ⟨L.process_inv s k w p hi hf, ?_⟩
    have h := L.process_view s k w p hi hf
    simp only [apiStep, Dict.step]
    rw [← h]
  | clear =>
    have h := hc s hi
    exact ⟨h.1, by simp only [apiStep, Dict.step, h.2]⟩
  | rebuild n =>
    have h := hb s n hi
    exact ⟨h.1, by simp only [apiStep, Dict.step, h.2]⟩

end Verif
