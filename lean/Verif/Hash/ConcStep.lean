import Verif.Hash.ConcWrites
import Verif.Dbm.OrderedFacts
/-
Every step of a thread in `ProcessImpl` of HashDBM keeps the relation between the file and the parts of the dictionary.
-/
namespace Verif.Hash.Conc
open Verif TwoPhase

variable {ρ : Type} {e : Env} {c : Cfg} {lay lay' : Lay} {P P' : Nat → List (Nat × Rec)} {X X' : Nat → Option Nat} {reg : Nat → Dict}
  {L : Locks ρ} {pre mid : Bytes} {log0 : List LogOp} {D0 : Dict} {b0 : Nat} {m m' : CMem} {ts : List (Thread ρ (Inner ρ))} {t id : Nat} {cl : Call ρ}
  {h : List Nat} {rest rest' : List (Bytes × ProcS ρ)} {r r' : ρ} {x x' : Inner ρ} {i : Nat}

/-- The setting of the proofs. -/
structure Ctx (L : Locks ρ) (e : Env) (c : Cfg) (pre mid : Bytes) : Prop where
  env : EnvOk e
  cfg : CfgOk c
  frame : FrameOk c pre mid
  loc : ∀ k, L.loc k = e.hash k c.nb

theorem Ctx.range (C : Ctx L e c pre mid) (k : Bytes) : e.hash k c.nb < c.nb := C.env.hash k c.nb (by have := C.cfg.nb; omega)

theorem put_ok (C : Ctx L e c pre mid) (hfile : m.file = render e c pre mid lay) (hb : Base c lay) {w : Wr} (h : WrOk c lay w) :
    put e c m w = { m with file := render e c pre mid (applyL c lay w) } := by
  simp only [put, hfile, applyWr_render C.cfg C.frame hb h]

/-- A step of a thread that is changing its bucket and leaves the values alone. -/
theorem KK.work (C : Ctx L e c pre mid) (hK : KK L e c pre mid log0 D0 b0 m reg ts lay P X) (hL : LockOk L ts)
    (hth : ts[t]? = some ⟨id, .body cl h rest r x⟩) (hx : workOn x = some i) (hbad : m'.bad = m.bad) (hfile : m'.file = render e c pre mid lay')
    (hlog : m'.log = m.log) (hnum : m'.num = m.num) (heff : m'.eff = m.eff) (hF : Frame e c lay lay' P X i)
    (hstr : Str e c lay' (poolOf c m'.fbp) P' X') (hP : ∀ j, j ≠ i → P' j = P j) (hX : ∀ j, j ≠ i → X' j = X j)
    (hnew : InOk e c lay' P' X' reg cl.writable rest r x')
    (hq : workOn x' = some i ∨ (workOn x' = none ∧ X' i = none ∧ FV e c reg i (P' i) ∧ Cont e c lay' i (reg i)))
    (hpn : pn x' = pn x) (hpe : pe x' = pe x) :
    KK L e c pre mid log0 D0 b0 m' reg (ts.set t ⟨id, .body cl h rest r x'⟩) lay' P' X' := by
  obtain ⟨h1, h2, h3⟩ := (hK.thok t _ _ _ _ _ _ hth).2 i hx
  exact hK.write hL C.loc C.range hth h1 h3 h2 (.inl hx) (hbad.trans hK.bad) hfile
    (fun l hl hl' => ⟨l, by rw [hlog]; exact hl, hl'⟩) hF hstr hP hX (fun _ _ => rfl) hnew hq
    (fun a b hab => by rw [hnum, heff, hpn, hpe]; exact hab)

/-- The relation. -/
def KRel (L : Locks ρ) (e : Env) (c : Cfg) (pre mid : Bytes) (log0 : List LogOp) (D0 : Dict) (b0 : Nat) (m : CMem) (mm : MMem Dict)
    (ts : List (Thread ρ (Inner ρ))) : Prop := ∃ lay P X, KK L e c pre mid log0 D0 b0 m mm.reg ts lay P X

/-- The steps of a thread that is changing its bucket. -/
theorem work_step (C : Ctx L e c pre mid) (hK : KK L e c pre mid log0 D0 b0 m reg ts lay P X) (hL : LockOk L ts)
    (hth : ts[t]? = some ⟨id, .body cl h rest r x⟩) (hx : workOn x = some i) :
    (bodyStep e c m () cl.writable rest r x).2.1 = rest ∧ (bodyStep e c m () cl.writable rest r x).2.2.1 = r ∧
    ∃ lay' P' X', KK L e c pre mid log0 D0 b0 (bodyStep e c m () cl.writable rest r x).1 reg
      (ts.set t ⟨id, .body cl h rest r (bodyStep e c m () cl.writable rest r x).2.2.2⟩) lay' P' X' := by
  obtain ⟨hi, hw, hs⟩ := (hK.thok t _ _ _ _ _ _ hth).2 i hx
  have hin := (hK.thok t _ _ _ _ _ _ hth).1
  have hb := hK.str.base
  have hfile := hK.file
  cases x with
  | enter => cases hx
  | «at» => cases hx
  | log => cases hx
  | num => cases hx
  | eff => cases hx
  | over j off nr acc =>
    injection hx with hx; subst hx
    obtain ⟨h1, h2, h3, h4, h5, a, r0, b, h6, h7, h8, h9, h10⟩ := hin
    obtain ⟨w1, w2, w3⟩ := over_str hK.str hi h1 h2 h6 h3 h7 h8 h9 h4 h5
    refine ⟨rfl, rfl, _, _, _, hK.work C hL hth rfl (lay' := applyL c lay (.record off nr)) (P' := upd P j (a ++ (off, nr) :: b)) (X' := X)
      (by simp only [bodyStep, put_ok C hfile hb w1]) (by simp only [bodyStep, put_ok C hfile hb w1])
      (by simp only [bodyStep, put_ok C hfile hb w1]) (by simp only [bodyStep, put_ok C hfile hb w1])
      (by simp only [bodyStep, put_ok C hfile hb w1]) w2 (by simp only [bodyStep, put_ok C hfile hb w1]; exact w3)
      (fun _ hj => upd_ne hj) (fun _ _ => rfl) trivial (.inr ⟨rfl, h2, by rw [upd_eq]; exact h10, fun hm => by rw [h1] at hm; cases hm⟩) rfl rfl⟩
  | unlink j parent child cur size acc =>
    injection hx with hx; subst hx
    obtain ⟨h1, h2, a, r0, b, h6, h7, h8, h9, h10⟩ := hin
    subst h7; subst h8
    obtain ⟨a', hsh, w1, w2, w3, w4⟩ := unlink_str hK.str hi h1 h2 h6
    have ew : linkWrite j (lastOff a 0) r0.child = Hash.linkWr (lastOff a 0) j r0.child := rfl
    refine ⟨rfl, rfl, _, _, _, hK.work C hL hth rfl (lay' := applyL c lay (Hash.linkWr (lastOff a 0) j r0.child))
      (P' := upd P j (a' ++ b)) (X' := upd X j (some cur))
      (by simp only [bodyStep, ew, put_ok C hfile hb w1]) (by simp only [bodyStep, ew, put_ok C hfile hb w1])
      (by simp only [bodyStep, ew, put_ok C hfile hb w1]) (by simp only [bodyStep, ew, put_ok C hfile hb w1])
      (by simp only [bodyStep, ew, put_ok C hfile hb w1]) w2 (by simp only [bodyStep, ew, put_ok C hfile hb w1]; exact w3)
      (fun _ hj => upd_ne hj) (fun _ hj => upd_ne hj) ⟨h1, upd_eq, ?_, r0, w4, h9⟩ (.inl rfl) rfl rfl⟩
    rw [upd_eq]
    intro k hk
    rw [shape_val hsh]; exact h10 k hk
  | alloc j parent op opFb k v child old acc =>
    injection hx with hx; subst hx
    obtain ⟨h1, h2, h3, h4, h5, h6, a, cut, b, h7⟩ := hin
    have hch := path_head_ok C.cfg hb h7.path
    have happ : KK L e c pre mid log0 D0 b0 m reg (ts.set t ⟨id, .body cl h rest r (.app j parent (setData c op 0 k v child) old acc)⟩) lay P X :=
      hK.work C hL hth rfl rfl hfile rfl rfl rfl (.refl _ _ _ _) hK.str (fun _ _ => rfl) (fun _ _ => rfl)
        ⟨h1, goodRec_setData h2 (by omega) (by simp) hch.1, h6, a, cut, b, h7⟩ (.inl rfl) rfl rfl
    cases hm : c.inPlace with
    | false =>
      refine ⟨by simp only [bodyStep, hm, Bool.false_eq_true, if_false], by simp only [bodyStep, hm, Bool.false_eq_true, if_false], lay, P, X, ?_⟩
      simp only [bodyStep, hm, Bool.false_eq_true, if_false]; exact happ
    | true =>
      cases hfe : fbpFetch ((setData c op 0 k v child).size c) m.fbp with
      | none =>
        refine ⟨by simp only [bodyStep, hm, if_true, hfe], by simp only [bodyStep, hm, if_true, hfe], lay, P, X, ?_⟩
        simp only [bodyStep, hm, if_true, hfe]; exact happ
      | some y =>
        obtain ⟨fb, fr⟩ := y
        have epl : poolOf c m.fbp = m.fbp := by simp only [poolOf, hm, if_true]
        have hstr := hK.str
        rw [epl] at hstr
        obtain ⟨f1, f2, f3, f4⟩ := fbpFetch_spec hfe hstr.poolNodup
        obtain ⟨rv, hr, hv, hsz⟩ := hstr.pool fb f1
        have hgood := (hb.recs rv (recAt_mem hr)).1
        have hne : fb.off ≠ 0 := by have := recAt_ge hr; have := recordBase_pos (c := c); omega
        have hbase : baseSize c k v ≤ fb.size := by
          have : baseSize c k v ≤ (setData c op 0 k v child).size c := by simp only [Rec.size, setData]; omega
          omega
        have hsz' : (setData c opFb fb.size k v child).size c = rv.size c := by
          rw [setData_size, Nat.max_eq_right hbase, alignNumber_self (by rw [← hsz]; exact hgood.align), hsz]
        refine ⟨by simp only [bodyStep, hm, if_true, hfe], by simp only [bodyStep, hm, if_true, hfe], lay, P, upd X j (some fb.off), ?_⟩
        simp only [bodyStep, hm, if_true, hfe, if_neg hne]
        refine hK.work C hL hth rfl rfl hfile rfl rfl rfl (.refl _ _ _ _) ?_ (fun _ _ => rfl) (fun _ hj => upd_ne hj)
          ⟨hm, upd_eq, goodRec_setData h2 (by rw [← hsz]; exact hgood.small) (by rw [← hsz]; exact hgood.align) hch.1, ⟨rv, hr, hv, hsz'⟩,
            a, cut, b, ?_⟩ (.inl rfl) rfl rfl
        · simp only [poolOf, hm, if_true]; exact take_str hstr hi h1 f1 f3 f4
        · refine { h7 with op := h4, ip := fun hm => ⟨h5 hm, (h7.ip hm).2⟩, fv := ?_ }
          intro k' hk'
          rw [← h7.fv k' hk']
          by_cases ek : k = k'
          · by_cases hk2 : ∀ z ∈ a, z.2.key ≠ k'
            · rw [firstVal_some hk2 ek, firstVal_some hk2 ek]
              show (if opFb.isSet = true then some v else none) = if op.isSet = true then some v else none
              rw [h3]
            · exact absurd (fun z hz => by have := (h7.ip hm).2 z (by simp [hz]); rw [← ek]; exact this) hk2
          · rw [firstVal_skip (by exact ek), firstVal_skip (by exact ek)]
  | wnew j parent off nr old acc =>
    injection hx with hx; subst hx
    obtain ⟨h1, h2, h3, ⟨rv, h4, h5, h6⟩, a, cut, b, h7⟩ := hin
    have hch := path_head_ok C.cfg hb h7.path
    obtain ⟨w1, w2, w3, w4, w5⟩ := fill_str hK.str hi h1 h2 h4 h3 hch.2 h6 (h7.ip h1).1
    exact ⟨rfl, rfl, _, _, _, hK.work C hL hth rfl (lay' := applyL c lay (.record off nr)) (P' := P) (X' := X)
      (by simp only [bodyStep, put_ok C hfile hb w1]) (by simp only [bodyStep, put_ok C hfile hb w1])
      (by simp only [bodyStep, put_ok C hfile hb w1]) (by simp only [bodyStep, put_ok C hfile hb w1])
      (by simp only [bodyStep, put_ok C hfile hb w1]) w2 (by simp only [bodyStep, put_ok C hfile hb w1]; exact w3)
      (fun _ _ => rfl) (fun _ _ => rfl) ⟨h2, nr, w5, (fun hm => by rw [h1] at hm; cases hm), a, cut, b, h7.congr w4⟩ (.inl rfl) rfl rfl⟩
  | app j parent nr old acc =>
    injection hx with hx; subst hx
    obtain ⟨h1, h3, h6, a, cut, b, h7⟩ := hin
    have hch := path_head_ok C.cfg hb h7.path
    obtain ⟨w1, w2, w3, w4, w5⟩ := append_str hK.str hi h1 h3 hch.2 (fun hm => (h7.ip hm).1) h7.home
    have hlen : m.file.length = lay.end_ c := by rw [hfile]; exact render_length C.cfg C.frame hb.nb
    refine ⟨rfl, rfl, _, _, _, hK.work C hL hth rfl (lay' := applyL c lay (.append nr)) (P' := P) (X' := upd X j (some (lay.end_ c)))
      (by simp only [bodyStep, put_ok C hfile hb w1]) (by simp only [bodyStep, put_ok C hfile hb w1])
      (by simp only [bodyStep, put_ok C hfile hb w1]) (by simp only [bodyStep, put_ok C hfile hb w1])
      (by simp only [bodyStep, put_ok C hfile hb w1]) w2 (by simp only [bodyStep, put_ok C hfile hb w1]; exact w3)
      (fun _ _ => rfl) (fun _ hj => upd_ne hj) ⟨by rw [upd_eq, hlen], nr, by rw [hlen]; exact w5, ?_, a, cut, b, h7.congr w4⟩ (.inl rfl) rfl rfl⟩
    intro hm k hk
    show contents (lay.recs ++ [nr]) k = _
    rw [contents_append, ← h7.fv k hk, h7.ap hm, List.nil_append]
    by_cases ek : k = nr.key
    · simp only [firstVal, if_pos ek.symm]
      by_cases ho : nr.op = .remove
      · rw [Rec.apply_remove ho, ho, ek, Dict.upd_self]; rfl
      · rw [Rec.apply_set h7.op ho, ek, Dict.upd_self]
        have : nr.op.isSet = true := by have := h7.op; cases hop : nr.op <;> simp_all [OpType.isSet]
        rw [if_pos this]
    · rw [Rec.apply_other _ ek, h6 hm k hk, h7.split, h7.ap hm, List.nil_append,
        firstVal_skips (a := cut) fun z hz => by rw [h7.cutk z hz]; exact Ne.symm ek]
      simp only [firstVal, if_neg (Ne.symm ek)]
  | lnk j parent new old acc =>
    injection hx with hx; subst hx
    obtain ⟨h1, nr, h2, h3, a, cut, b, h7⟩ := hin
    have hpar := h7.par
    subst hpar
    obtain ⟨a', hsh, w1, w2, w3, w4, w5⟩ := link_str C.cfg hK.str hi h1 h2 h7
    have ew : linkWrite j (lastOff a 0) new = Hash.linkWr (lastOff a 0) j new := rfl
    have hfv : FV e c reg j (a' ++ (new, nr) :: b) := by
      intro k hk
      rw [shape_val hsh, firstVal_off _ _ _ 0]; exact h7.fv k hk
    refine ⟨rfl, rfl, _, _, _, hK.work C hL hth rfl (lay' := applyL c lay (Hash.linkWr (lastOff a 0) j new))
      (P' := upd P j (a' ++ (new, nr) :: b)) (X' := upd X j (old.map (·.1)))
      (by simp only [bodyStep, ew, put_ok C hfile hb w1]) (by simp only [bodyStep, ew, put_ok C hfile hb w1])
      (by simp only [bodyStep, ew, put_ok C hfile hb w1]) (by simp only [bodyStep, ew, put_ok C hfile hb w1])
      (by simp only [bodyStep, ew, put_ok C hfile hb w1]) w2 (by simp only [bodyStep, ew, put_ok C hfile hb w1]; exact w3)
      (fun _ hj => upd_ne hj) (fun _ hj => upd_ne hj) ?_ ?_ ?_ ?_⟩
    · cases hold : old with
      | none => trivial
      | some os =>
        obtain ⟨cur, s⟩ := os
        obtain ⟨r0, hr0, hs0⟩ := w4 cur s hold
        rcases h7.old with ⟨h8, _⟩ | ⟨_, _, _, _, hm⟩
        · rw [h8] at hold; cases hold
        · exact ⟨hm, upd_eq, by rw [upd_eq]; exact hfv, r0, hr0, hs0⟩
    · cases hold : old with
      | none =>
        refine .inr ⟨rfl, upd_eq, by rw [upd_eq]; exact hfv, ?_⟩
        intro hm k hk
        rw [w5]; exact h3 hm k hk
      | some os => exact .inl rfl
    · cases old <;> rfl
    · cases old <;> rfl
  | void j cur size acc =>
    injection hx with hx; subst hx
    obtain ⟨h1, h2, h3, r0, h4, h5⟩ := hin
    subst h5
    have hg := (hb.recs r0 (recAt_mem h4)).1
    obtain ⟨w1, w2, w3, w4, w5⟩ := fill_str hK.str hi h1 h2 h4 (goodVoid hg) (end_pos lay) (void_size hg.align _ _) (by simp [setData])
    exact ⟨rfl, rfl, _, _, _, hK.work C hL hth rfl (lay' := applyL c lay (.record cur (setData c .void (r0.size c) [] [] 0))) (P' := P) (X' := X)
      (by simp only [bodyStep, put_ok C hfile hb w1]) (by simp only [bodyStep, put_ok C hfile hb w1])
      (by simp only [bodyStep, put_ok C hfile hb w1]) (by simp only [bodyStep, put_ok C hfile hb w1])
      (by simp only [bodyStep, put_ok C hfile hb w1]) w2 (by simp only [bodyStep, put_ok C hfile hb w1]; exact w3)
      (fun _ _ => rfl) (fun _ _ => rfl) ⟨h1, h2, h3, _, w5, rfl, (void_size hg.align _ _).symm⟩ (.inl rfl) rfl rfl⟩
  | pool j cur size acc =>
    injection hx with hx; subst hx
    obtain ⟨h1, h2, h3, r0, h4, h5, h6⟩ := hin
    have epl : poolOf c m.fbp = m.fbp := by simp only [poolOf, h1, if_true]
    have hstr := hK.str
    rw [epl] at hstr
    obtain ⟨l', f1, f2, f3⟩ := fbpInsert_spec C.cfg.fbp (b := ⟨cur, size⟩) hstr.poolNodup (hstr.xPool j cur hi h2)
    refine ⟨by simp only [bodyStep, f1], by simp only [bodyStep, f1], lay, P, upd X j none, ?_⟩
    simp only [bodyStep, f1]
    refine hK.work C hL hth rfl rfl hfile rfl rfl rfl (.refl _ _ _ _) ?_ (fun _ _ => rfl) (fun _ hj => upd_ne hj) trivial
      (.inr ⟨rfl, upd_eq, h3, fun hm => by rw [h1] at hm; cases hm⟩) rfl rfl
    simp only [poolOf, h1, if_true]
    exact give_str hstr hi h2 h4 h5 h6 f2 f3

end Verif.Hash.Conc
