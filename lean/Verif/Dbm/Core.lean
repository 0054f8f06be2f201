import Verif.Prelude.Bytes
/-
The common interface of the database classes, as used by the default methods of class `DBM` (tkrzw_dbm.h), and
the specification every database model is proved to meet (`Lawful`).
-/
namespace Verif

/-- A record processor with an own result: given the current value of the record (`none` = `ProcessEmpty`,
`some v` = `ProcessFull`), the action it returns and what it leaves behind in its output variables.
(tkrzw_dbm.h 47-89) -/
abbrev ProcR (τ : Type) := Option Bytes → Action × τ

/-- A record processor of a group that shares mutable variables of type `ρ` (as the processors built by
`CompareExchangeMulti` share `noop`, and those of `Rekey` share `proc_status` and `rec_value`). -/
abbrev ProcS (ρ : Type) := ρ → Option Bytes → Action × ρ

/-- The two virtual methods the default methods of `DBM` are built on: `Process` (tkrzw_dbm.h 1007) and
`ProcessMulti` (tkrzw_dbm.h 1369), on an opened database and without I/O failure.  `σ` is the state of the
database object. -/
structure DbmImpl (σ : Type) where
  process : {τ : Type} → σ → Bytes → Bool → ProcR τ → σ × τ
  processMulti : {ρ : Type} → σ → List (Bytes × ProcS ρ) → Bool → ρ → σ × ρ

/-- SPECIFICATION of `Process` on a dictionary: the processor is shown the value of the key; its action is
performed only if `writable`. -/
def Dict.process {τ : Type} (d : Dict) (k : Bytes) (writable : Bool) (p : ProcR τ) : Dict × τ :=
  (if writable then d.act k (p (d k)).1 else d, (p (d k)).2)

/-- SPECIFICATION of `ProcessMulti`: the processors are run one after the other, sharing `ρ`. -/
def Dict.processMulti {ρ : Type} (d : Dict) : List (Bytes × ProcS ρ) → Bool → ρ → Dict × ρ
  | [], _, r => (d, r)
  | (k, p) :: rest, w, r =>
    let x := d.process k w (p r)
    x.1.processMulti rest w x.2

/-- SPECIFICATION: every value that a call may store satisfies the size limit `fits` of the database. -/
def ActFits (fits : Bytes → Bytes → Prop) (k : Bytes) : Action → Prop
  | .set v => fits k v
  | _ => True

/-- SPECIFICATION: same as `ActFits` for a whole `ProcessMulti` call. -/
def MultiFits {ρ : Type} (fits : Bytes → Bytes → Prop) (d : Dict) : List (Bytes × ProcS ρ) → Bool → ρ → Prop
  | [], _, _ => True
  | (k, p) :: rest, w, r =>
    ActFits fits k (p r (d k)).1 ∧
      MultiFits fits (d.process k w (p r)).1 rest w (d.process k w (p r)).2

/-- SPECIFICATION: `D` behaves as a dictionary: `view` gives the dictionary a state stands for, `inv` is an
invariant of the states, `fits` the size limits on records. -/
structure Lawful {σ : Type} (D : DbmImpl σ) (inv : σ → Prop) (view : σ → Dict) (fits : Bytes → Bytes → Prop) :
    Prop where
  process_inv : ∀ {τ : Type} (s : σ) (k : Bytes) (w : Bool) (p : ProcR τ), inv s →
    ActFits fits k (p (view s k)).1 → inv (D.process s k w p).1
  process_view : ∀ {τ : Type} (s : σ) (k : Bytes) (w : Bool) (p : ProcR τ), inv s →
    ActFits fits k (p (view s k)).1 →
    (view (D.process s k w p).1, (D.process s k w p).2) = (view s).process k w p
  multi_inv : ∀ {ρ : Type} (s : σ) (l : List (Bytes × ProcS ρ)) (w : Bool) (r : ρ), inv s →
    MultiFits fits (view s) l w r → inv (D.processMulti s l w r).1
  multi_view : ∀ {ρ : Type} (s : σ) (l : List (Bytes × ProcS ρ)) (w : Bool) (r : ρ), inv s →
    MultiFits fits (view s) l w r →
    (view (D.processMulti s l w r).1, (D.processMulti s l w r).2) = (view s).processMulti l w r

/-- What the update logger is told: `WriteSet`, `WriteRemove`, `WriteClear` (tkrzw_dbm.h, class UpdateLogger). -/
inductive LogOp where
  | set (k v : Bytes)
  | remove (k : Bytes)
  | clear
deriving DecidableEq, Repr

/-- SPECIFICATION: the effect of one logged operation. -/
def Dict.applyLog (d : Dict) : LogOp → Dict
  | .set k v => d.upd k (some v)
  | .remove k => d.upd k none
  | .clear => Dict.empty

/-- SPECIFICATION: replaying a log. -/
def Dict.replay (d : Dict) (log : List LogOp) : Dict := log.foldl Dict.applyLog d

/-- `ProcessMulti` of the in-memory and hash databases: after taking all locks, `ProcessImpl` is called for each
pair in order (e.g. tkrzw_dbm_tiny.cc 322-346). -/
def seqMulti {σ : Type} (proc : {τ : Type} → σ → Bytes → Bool → ProcR τ → σ × τ) {ρ : Type} (s : σ) :
    List (Bytes × ProcS ρ) → Bool → ρ → σ × ρ
  | [], _, r => (s, r)
  | (k, p) :: rest, w, r =>
    let x := proc s k w (p r)
    seqMulti proc x.1 rest w x.2

/-- A database whose `ProcessMulti` is the sequential loop is lawful as soon as `Process` is. -/
theorem Lawful.ofProcess {σ : Type} (proc : {τ : Type} → σ → Bytes → Bool → ProcR τ → σ × τ)
    {inv : σ → Prop} {view : σ → Dict} {fits : Bytes → Bytes → Prop}
    (h1 : ∀ {τ : Type} (s : σ) (k : Bytes) (w : Bool) (p : ProcR τ), inv s →
      ActFits fits k (p (view s k)).1 → inv (proc s k w p).1)
    (h2 : ∀ {τ : Type} (s : σ) (k : Bytes) (w : Bool) (p : ProcR τ), inv s →
      ActFits fits k (p (view s k)).1 → (view (proc s k w p).1, (proc s k w p).2) = (view s).process k w p) :
    Lawful ⟨proc, seqMulti proc⟩ inv view fits := by
  have key : ∀ {ρ : Type} (l : List (Bytes × ProcS ρ)) (w : Bool) (s : σ) (r : ρ), inv s →
      MultiFits fits (view s) l w r → inv (seqMulti proc s l w r).1 ∧
      (view (seqMulti proc s l w r).1, (seqMulti proc s l w r).2) = (view s).processMulti l w r := by
    intro ρ l w
    induction l with
    | nil => intro s r hi _; exact ⟨hi, rfl⟩
    | cons x rest ih =>
      obtain ⟨k, p⟩ := x
      intro s r hi hf
      simp only [MultiFits] at hf
      have e := h2 s k w (p r) hi hf.1
      have i := h1 s k w (p r) hi hf.1
      simp only [seqMulti, Dict.processMulti]
      have e1 : view (proc s k w (p r)).1 = ((view s).process k w (p r)).1 := by rw [← e]
      have e2 : (proc s k w (p r)).2 = ((view s).process k w (p r)).2 := by rw [← e]
      have := ih (proc s k w (p r)).1 (proc s k w (p r)).2 i (by rw [e1, e2]; exact hf.2)
      rw [e1] at this
      refine ⟨this.1, ?_⟩
      rw [this.2, e2]
  exact ⟨h1, h2, fun s l w r hi hf => (key l w s r hi hf).1, fun s l w r hi hf => (key l w s r hi hf).2⟩

/-- The reference implementation: the dictionary itself. -/
def Dict.impl : DbmImpl Dict := ⟨Dict.process, Dict.processMulti⟩

theorem Dict.lawful (fits) : Lawful Dict.impl (fun _ => True) id fits :=
  ⟨fun _ _ _ _ _ _ => trivial, fun _ _ _ _ _ _ => rfl, fun _ _ _ _ _ _ => trivial, fun _ _ _ _ _ _ => rfl⟩

end Verif
