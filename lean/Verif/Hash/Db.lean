import Verif.Hash.Render
import Verif.Dbm.History
/-
The whole database: the bytes of the file stay the rendering of a well-formed structured file.
-/
namespace Verif.Hash
open Verif.Codec

variable {e : Env}

theorem fits_of_hashFits {c : Cfg} (hc : CfgOk c) {k v : Bytes} (h : hashFits k v) : fits c k v := by
  refine ⟨h, ?_⟩
  have h1 := hc.ow
  have h2 := hc.cw
  have h3 := sizeVarNum_le k.length
  have h4 := sizeVarNum_le v.length
  have h5 := h.2
  have ha : 1 <<< c.ap ≤ 2 ^ 16 := by
    rw [Nat.shiftLeft_eq, Nat.one_mul]; exact Nat.pow_le_pow_right (by omega) hc.ap
  have hb : baseSize c k v ≤ 32 + (2 ^ 31 - 2 ^ 17) := by simp only [baseSize]; omega
  unfold alignNumber
  split <;> omega

/-- The invariant of the record section for the update mode of the file. -/
def LInv (e : Env) (c : Cfg) (L : Lay) (pool : List FB) : Prop :=
  if c.inPlace then InPlace e c L pool else Appending e c L pool

theorem LInv.base {c : Cfg} {L : Lay} {pool} (h : LInv e c L pool) : Base c L := by
  unfold LInv at h; split at h
  · exact h.base
  · exact h.base

theorem LInv.chainOk {c : Cfg} {L : Lay} {pool} (h : LInv e c L pool) {i : Nat} (hi : i < c.nb) : ChainOk c L i := by
  unfold LInv at h; split at h
  · obtain ⟨p, hp⟩ := h.chain i hi; exact ⟨p, hp.path⟩
  · obtain ⟨p, hp⟩ := h.chain i hi; exact ⟨p, hp.path⟩

theorem plan_spec {τ : Type} {c : Cfg} (he : EnvOk e) (hc : CfgOk c) {L : Lay} {m : Mem} (h : LInv e c L m.fbp) (k : Bytes)
    (w : Bool) (p : ProcR τ) (hf : ActFits hashFits k (p (contents L.recs k)).1) :
    ∃ m' ws, plan c (layReader c L) m k (e.hash k c.nb) w p = some (m', ws, (p (contents L.recs k)).2) ∧
      PlanOk e (LInv e c) c L m k w (p (contents L.recs k)).1 m' ws := by
  have hf' : ActFits (fits c) k (p (contents L.recs k)).1 := by
    cases ha : (p (contents L.recs k)).1 with
    | set v => rw [ha] at hf; exact fits_of_hashFits hc hf
    | noop => trivial
    | remove => trivial
  unfold LInv at h
  split at h
  · rename_i hm
    obtain ⟨m', ws, h1, h2⟩ := plan_inPlace he.hash hc hm h k w p hf'
    exact ⟨m', ws, h1, h2.wrs, by unfold LInv; rw [if_pos hm]; exact h2.inv, h2.contents, h2.counted, h2.log, h2.same, h2.mid,
      fun n => (h2.crash n).imp_left fun ⟨pool, hp⟩ => ⟨pool, by unfold LInv; rw [if_pos hm]; exact hp⟩⟩
  · rename_i hm
    obtain ⟨m', ws, h1, h2⟩ := plan_appending he.hash hc (by simpa using hm) h k w p hf'
    exact ⟨m', ws, h1, h2.wrs, by unfold LInv; rw [if_neg hm]; exact h2.inv, h2.contents, h2.counted, h2.log, h2.same, h2.mid,
      fun n => (h2.crash n).imp_left fun ⟨pool, hp⟩ => ⟨pool, by unfold LInv; rw [if_neg hm]; exact hp⟩⟩

/-- A database as a structured file with its members. -/
structure LSt where
  cfg : Cfg
  pre : Bytes
  mid : Bytes
  lay : Lay
  mem : Mem
  bad : Bool

/-- The database whose file has the bytes of the structured file. -/
def LSt.toState (e : Env) (t : LSt) : State := { cfg := t.cfg, file := render e t.cfg t.pre t.mid t.lay, mem := t.mem, bad := t.bad }

/-- The dictionary a database stands for: its records replayed from the first to the last. -/
def LSt.view (t : LSt) : Dict := contents t.lay.recs

/-- The invariant of a database. -/
structure LSt.Inv (e : Env) (t : LSt) : Prop where
  ok : t.bad = false
  cfg : CfgOk t.cfg
  frame : FrameOk t.cfg t.pre t.mid
  inv : LInv e t.cfg t.lay t.mem.fbp
  counted : t.view.Counted t.mem.num t.mem.eff

/-- `process` on the structured file (tkrzw_dbm_hash.cc 395-411, 1427-1613). -/
def processL {τ : Type} (e : Env) (t : LSt) (k : Bytes) (w : Bool) (p : ProcR τ) : LSt × τ :=
  match plan t.cfg (layReader t.cfg t.lay) t.mem k (e.hash k t.cfg.nb) w p with
  | none => ({ t with bad := true }, (p none).2)
  | some (m, ws, x) => ({ t with lay := applyLs t.cfg t.lay ws, mem := m }, x)

def implL (e : Env) : DbmImpl LSt := ⟨processL e, seqMulti (processL e)⟩

theorem setAt_bnd {c : Cfg} {rs a b : List Rec} {base off : Nat} {old r : Rec} (ho : recAt c base rs off = some old) (hs : r.size c = old.size c)
    (h : rs = a ++ b) : ∃ a' b', setAt c base rs off r = a' ++ b' ∧ totalSize c a' = totalSize c a := by
  subst h
  induction a generalizing base with
  | nil => exact ⟨[], _, rfl, rfl⟩
  | cons x a ih =>
    simp only [List.cons_append, recAt, setAt] at ho ⊢
    split at ho
    · rename_i he
      simp only [Option.some.injEq] at ho
      subst ho
      rw [if_pos he]
      exact ⟨r :: a, b, rfl, by simp [totalSize, hs]⟩
    · rename_i he
      rw [if_neg he]
      obtain ⟨a', b', h1, h2⟩ := ih ho
      exact ⟨x :: a', b', by rw [h1]; rfl, by simp [totalSize, h2]⟩

/-- Writes keep the offsets at which records start. -/
theorem applyL_bnd {c : Cfg} {L : Lay} {w : Wr} (h : WrOk c L w) {a b : List Rec} (hab : L.recs = a ++ b) :
    ∃ a' b', (applyL c L w).recs = a' ++ b' ∧ totalSize c a' = totalSize c a := by
  cases w with
  | append r => exact ⟨a, b ++ [r], by simp [applyL, hab], rfl⟩
  | record off r =>
    obtain ⟨_, _, old, ho, hs⟩ := h
    exact setAt_bnd ho hs hab
  | child off ch =>
    obtain ⟨_, _, old, ho⟩ := h
    simp only [applyL, ho]
    exact setAt_bnd (r := { old with child := ch }) ho rfl hab
  | bucket bi v => exact ⟨a, b, hab, rfl⟩

theorem applyLs_bnd {c : Cfg} {L : Lay} {ws : List Wr} (h : WrsOk c L ws) {a b : List Rec} (hab : L.recs = a ++ b) :
    ∃ a' b', (applyLs c L ws).recs = a' ++ b' ∧ totalSize c a' = totalSize c a := by
  induction ws generalizing L a b with
  | nil => exact ⟨a, b, hab, rfl⟩
  | cons w ws ih =>
    obtain ⟨a1, b1, h1, h2⟩ := applyL_bnd h.1 hab
    obtain ⟨a2, b2, h3, h4⟩ := ih h.2 h1
    exact ⟨a2, b2, h3, h4.trans h2⟩

/-- What one call of `Process` does to the structured file. -/
structure StepOk (e : Env) (t t' : LSt) (k : Bytes) (w : Bool) (a : Action) : Prop where
  inv : t'.Inv e
  view : t'.view = if w then t.view.act k a else t.view
  cfg : t'.cfg = t.cfg
  pre : t'.pre = t.pre
  mid : t'.mid = t.mid
  grow : t.lay.end_ t.cfg ≤ t'.lay.end_ t.cfg
  log : ∃ l, t'.mem.log = t.mem.log ++ l ∧ t.view.replay l = t'.view
  same : w = false ∨ a = .noop → t' = t
  bnd : ∀ x y, t.lay.recs = x ++ y → ∃ x' y', t'.lay.recs = x' ++ y' ∧ totalSize t.cfg x' = totalSize t.cfg x

theorem processL_spec {τ : Type} (he : EnvOk e) {t : LSt} (h : t.Inv e) (k : Bytes) (w : Bool) (p : ProcR τ)
    (hf : ActFits hashFits k (p (t.view k)).1) :
    (processL e t k w p).2 = (p (t.view k)).2 ∧ StepOk e t (processL e t k w p).1 k w (p (t.view k)).1 := by
  obtain ⟨m', ws, h1, h2⟩ := plan_spec he h.cfg h.inv k w p hf
  simp only [processL, h1]
  refine ⟨rfl, ⟨h.ok, h.cfg, h.frame, h2.inv, h2.counted h.counted⟩, h2.contents, rfl, rfl, rfl, end_applyLs h2.wrs, h2.log, ?_, fun x y h => applyLs_bnd h2.wrs h⟩
  intro hno
  obtain ⟨rfl, rfl⟩ := h2.same hno
  rfl

/-- HashDBM meets the specification of `Process` and `ProcessMulti` as long as its offsets do not overflow (the structured
file has unbounded offsets); so the theorems on the default methods of `DBM` (C19, C20, C21, C22, C58) hold for it. -/
theorem lawfulL (he : EnvOk e) : Lawful (implL e) (LSt.Inv e) LSt.view hashFits := by
  apply Lawful.ofProcess
  · intro τ s k w p hi hf
    exact (processL_spec he hi k w p hf).2.inv
  · intro τ s k w p hi hf
    obtain ⟨h1, h2⟩ := processL_spec he hi k w p hf
    simp only [Dict.process]
    rw [h1, h2.view]

/-- The file is small enough for its offsets: at most 2^(8·width + align_pow) bytes, and below 2^63. -/
def State.Room (s : State) : Prop := s.file.length ≤ 2 ^ (8 * s.cfg.ow + s.cfg.ap) ∧ s.file.length < 2 ^ 63

instance (s : State) : Decidable s.Room := inferInstanceAs (Decidable (_ ∧ _))

theorem toState_length {t : LSt} (h : t.Inv e) : (t.toState e).file.length = t.lay.end_ t.cfg :=
  render_length h.cfg h.frame h.inv.base.nb

theorem LSt.Inv.room {t : LSt} (h : t.Inv e) (hr : (t.toState e).Room) : Hash.Room t.cfg t.lay := by
  have := hr
  simp only [State.Room, toState_length h] at this; exact this.1

/-- One call of `Process` on the bytes is the call on the structured file. -/
theorem processImpl_sim {τ : Type} (he : EnvOk e) {t : LSt} (h : t.Inv e) (hr : (t.toState e).Room) {minRead : Nat}
    (hm : metaMinReadSize ≤ minRead) (k : Bytes) (w : Bool) (p : ProcR τ) (hf : ActFits hashFits k (p (t.view k)).1) :
    processImpl e minRead (t.toState e) k (e.hash k t.cfg.nb) w p =
      ((processL e t k w p).1.toState e, (processL e t k w p).2) := by
  obtain ⟨m', ws, h1, h2⟩ := plan_spec he h.cfg h.inv k w p hf
  have hi : e.hash k t.cfg.nb < t.cfg.nb := he.hash k t.cfg.nb (by have := h.cfg.nb; omega)
  have hpl : plan t.cfg (fileReader t.cfg (render e t.cfg t.pre t.mid t.lay) minRead) t.mem k (e.hash k t.cfg.nb) w p =
      some (m', ws, (p (contents t.lay.recs k)).2) := by
    rw [plan_render he h.cfg h.frame h.inv.base (h.room hr) hm t.mem k hi (h.inv.chainOk hi), h1]
  have hwr : applyWrs e t.cfg (render e t.cfg t.pre t.mid t.lay) ws =
      some (render e t.cfg t.pre t.mid (applyLs t.cfg t.lay ws)) := applyWrs_render h.cfg h.frame h.inv.base h2.wrs
  simp only [processImpl, processL, LSt.toState, hpl, hwr, h1]

theorem process_sim {τ : Type} (he : EnvOk e) {t : LSt} (h : t.Inv e) (hr : (t.toState e).Room) (k : Bytes) (w : Bool)
    (p : ProcR τ) (hf : ActFits hashFits k (p (t.view k)).1) :
    process e (t.toState e) k w p = ((processL e t k w p).1.toState e, (processL e t k w p).2) :=
  processImpl_sim he h hr (Nat.le_refl _) k w p hf

theorem fwrite_length {f f' : Bytes} {off d} (h : fwrite f off d = some f') : f'.length = f.length := by
  unfold fwrite at h
  split at h
  · cases h; simp only [List.length_append, List.length_take, List.length_drop]; omega
  · cases h

theorem applyWrs_length {c : Cfg} {f f' : Bytes} {ws : List Wr} (h : applyWrs e c f ws = some f') : f.length ≤ f'.length := by
  induction ws generalizing f with
  | nil => cases h; exact Nat.le_refl _
  | cons w ws ih =>
    simp only [applyWrs] at h
    split at h
    · cases h
    · rename_i f1 h1
      refine Nat.le_trans ?_ (ih h)
      cases w with
      | append r => simp only [applyWr, Option.some.injEq] at h1; subst h1; simp
      | record off r => rw [fwrite_length h1]; exact Nat.le_refl _
      | child off r => rw [fwrite_length h1]; exact Nat.le_refl _
      | bucket off r => rw [fwrite_length h1]; exact Nat.le_refl _

/-- The file never shrinks by record operations. -/
theorem process_grow {τ : Type} (s : State) (k : Bytes) (w : Bool) (p : ProcR τ) :
    s.file.length ≤ (process e s k w p).1.file.length ∧ (process e s k w p).1.cfg = s.cfg := by
  simp only [process, processImpl]
  split
  · exact ⟨Nat.le_refl _, rfl⟩
  · split
    · exact ⟨Nat.le_refl _, rfl⟩
    · rename_i h; exact ⟨applyWrs_length h, rfl⟩

theorem seqMulti_grow {ρ : Type} (l : List (Bytes × ProcS ρ)) (w : Bool) (s : State) (r : ρ) :
    s.file.length ≤ (seqMulti (process e) s l w r).1.file.length ∧ (seqMulti (process e) s l w r).1.cfg = s.cfg := by
  induction l generalizing s r with
  | nil => exact ⟨Nat.le_refl _, rfl⟩
  | cons x l ih =>
    obtain ⟨k, p⟩ := x
    have h1 := process_grow (e := e) s k w (p r)
    have h2 := ih (process e s k w (p r)).1 (process e s k w (p r)).2
    exact ⟨Nat.le_trans h1.1 h2.1, h2.2.trans h1.2⟩

/-- `ProcessMulti` on the bytes is `ProcessMulti` on the structured file if the file at the end is small enough. -/
theorem processMulti_sim (he : EnvOk e) {ρ : Type} (l : List (Bytes × ProcS ρ)) (w : Bool) (t : LSt) (r : ρ) (h : t.Inv e)
    (hr : ((impl e).processMulti (t.toState e) l w r).1.Room) (hf : MultiFits hashFits t.view l w r) :
    (impl e).processMulti (t.toState e) l w r =
      (((implL e).processMulti t l w r).1.toState e, ((implL e).processMulti t l w r).2) := by
  induction l generalizing t r with
  | nil => rfl
  | cons x l ih =>
    obtain ⟨k, p⟩ := x
    have hroom : (t.toState e).Room := by
      have := seqMulti_grow (e := e) ((k, p) :: l) w (t.toState e) r
      have hr' := hr
      simp only [State.Room, impl] at hr' ⊢
      rw [this.2] at hr'
      exact ⟨Nat.le_trans this.1 hr'.1, Nat.lt_of_le_of_lt this.1 hr'.2⟩
    have e1 := process_sim he h hroom k w (p r) hf.1
    have e2 := processL_spec he h k w (p r) hf.1
    have ev : (processL e t k w (p r)).1.view = (t.view.process k w (p r)).1 := e2.2.view
    have er : (processL e t k w (p r)).2 = (t.view.process k w (p r)).2 := e2.1
    have hstep : (impl e).processMulti (t.toState e) ((k, p) :: l) w r =
        (impl e).processMulti (process e (t.toState e) k w (p r)).1 l w (process e (t.toState e) k w (p r)).2 := rfl
    have hstepL : (implL e).processMulti t ((k, p) :: l) w r =
        (implL e).processMulti (processL e t k w (p r)).1 l w (processL e t k w (p r)).2 := rfl
    rw [hstep, e1] at hr
    rw [hstep, e1, hstepL]
    exact ih (processL e t k w (p r)).1 (processL e t k w (p r)).2 e2.2.inv hr (by rw [ev, er]; exact hf.2)

end Verif.Hash
