import Verif.Hash.ConcStep
/-
The other steps in `ProcessImpl` of HashDBM, and the whole run.
-/
namespace Verif.Hash.Conc
open Verif TwoPhase

variable {ρ : Type} {e : Env} {c : Cfg} {lay : Lay} {P : Nat → List (Nat × Rec)} {X : Nat → Option Nat} {reg : Nat → Dict}
  {L : Locks ρ} {pre mid : Bytes} {log0 : List LogOp} {D0 : Dict} {b0 : Nat} {m : CMem} {ts : List (Thread ρ (Inner ρ))} {t id : Nat} {cl : Call ρ}
  {h : List Nat} {rest rest' : List (Bytes × ProcS ρ)} {r r' : ρ} {x : Inner ρ} {i : Nat}

/-- One processor call on a part of the dictionary. -/
def opD (d : Dict) (k : Bytes) (w : Bool) (p : ProcR ρ) : Option (Dict × ρ × List LogOp) := some ((d.process k w p).1, (d.process k w p).2, [])

theorem opD_ok : OpOk (opD (ρ := ρ)) where
  ro := by
    intro d k p y hy
    simp only [opD, Option.some.injEq] at hy
    subst hy
    exact ⟨rfl, rfl⟩
  keyed := by
    intro d k w p y hy
    simp only [opD, Option.some.injEq] at hy
    subst hy
    simp

theorem glob_upd (reg : Nat → Dict) (k : Bytes) (ov : Option Bytes) :
    glob e c (upd reg (e.hash k c.nb) ((reg (e.hash k c.nb)).upd k ov)) = (glob e c reg).upd k ov := by
  funext k'
  simp only [glob, upd]
  by_cases ek : k' = k
  · subst ek; rw [if_pos rfl, Dict.upd_self, Dict.upd_self]
  · rw [Dict.upd_other _ _ ek]
    split
    · rename_i eh; rw [Dict.upd_other _ _ ek]; show _ = reg (e.hash k' c.nb) k'; rw [eh]
    · rfl

theorem fv_new (hfv : FV e c reg i (P i)) {k : Bytes} {ov : Option Bytes} {p : List (Nat × Rec)} (h1 : firstVal p k = ov)
    (h2 : ∀ k', k' ≠ k → firstVal p k' = firstVal (P i) k') : FV e c (upd reg i ((reg i).upd k ov)) i p := by
  intro k' hk'
  rw [upd_eq]
  by_cases ek : k' = k
  · subst ek; rw [Dict.upd_self, h1]
  · rw [Dict.upd_other _ _ ek, h2 k' ek]; exact hfv k' hk'

theorem lastOff_zero (h : Str e c lay pl P X) (hi : i < c.nb) {a b : List (Nat × Rec)} (hP : P i = a ++ b) (h0 : lastOff a 0 = 0) : a = [] := by
  by_cases ha : a = []
  · exact ha
  · exfalso
    obtain ⟨z, hz, ez⟩ := lastOff_in ha
    have := recAt_ge ((h.path i hi).at z (by rw [hP]; simp [hz]))
    have := recordBase_pos (c := c); omega

theorem moveTo_ok {pl : List FB} (h : Str e c lay pl P X) (hi : i < c.nb) (hX : X i = none) (hc : Cont e c lay i (firstVal (P i)))
    (hfv : FV e c reg i (P i)) {a b : List (Nat × Rec)} {cur : Nat} {rc : Rec} (hP : P i = a ++ (cur, rc) :: b) {k v : Bytes} (hk : rc.key = k)
    (ha : ∀ x ∈ a, x.2.key ≠ k) (hh : e.hash k c.nb = i) (hf : fits c k v) {op opFb : OpType} (ho : op ≠ .void) (hoF : opFb ≠ .void)
    (hos : opFb.isSet = op.isSet) (hm : c.inPlace = true → op ≠ .remove ∧ opFb ≠ .remove) (w : Bool) (acc : Acct) {ov : Option Bytes}
    (hov : (if op.isSet then some v else none) = ov) :
    InOk e c lay P X (upd reg i ((reg i).upd k ov)) w rest r
      (moveTo c i (lay.buckets.getD i 0) (lastOff a 0) cur (recR c rc) op opFb k v acc) := by
  have hp := h.path i hi
  have hval : ∀ (a : List (Nat × Rec)) b ch, (∀ x ∈ a, x.2.key ≠ k) → firstVal (a ++ (0, setData c op 0 k v ch) :: b) k = ov := by
    intro a b ch ha
    rw [firstVal_some ha rfl]; exact hov
  refine ⟨hX, hf, hos, hoF, fun h1 => (hm h1).2, hc, ?_⟩
  by_cases him : c.inPlace = true
  · simp only [him, if_true, Bool.true_or]
    have hp' := hp
    rw [hP] at hp'
    have hkn := h.keys him i hi
    rw [hP] at hkn
    simp only [List.map_append, List.map_cons, List.nodup_append, List.nodup_cons, List.mem_cons] at hkn
    refine ⟨a, [(cur, rc)], b, ⟨hP, rfl, hp'.tail, ho, hh, fun _ => ⟨(hm him).1, ?_⟩, ?_, .inr ⟨cur, rc, rfl, rfl, him⟩,
      (fun h1 => by rw [him] at h1; cases h1), by simpa [setData] using hk⟩⟩
    · intro x hx
      rcases List.mem_append.1 hx with h1 | h1
      · exact ha x h1
      · intro e1
        exact hkn.2.1.1 (List.mem_map.2 ⟨x, h1, by rw [hk]; exact e1⟩)
    · refine fv_new hfv (hval _ _ _ ha) ?_
      intro k' hk'
      rw [hP, firstVal_skip (by exact Ne.symm hk'), firstVal_skip (by rw [hk]; exact Ne.symm hk')]
  · have him' : c.inPlace = false := by simpa using him
    simp only [him', Bool.false_eq_true, if_false, Bool.false_or, decide_eq_true_eq]
    by_cases hl : lastOff a 0 = 0
    · have ea := lastOff_zero h hi hP hl
      subst ea
      rw [if_pos hl]
      have hp' := hp
      rw [hP] at hp'
      refine ⟨[], [(cur, rc)], b, ⟨hP, rfl, hp'.tail, ho, hh, (fun h1 => absurd h1 him), ?_, .inl ⟨rfl, fun h1 => absurd h1 him⟩,
        fun _ => rfl, by simpa [setData] using hk⟩⟩
      refine fv_new hfv (hval _ _ _ (by simp)) ?_
      intro k' hk'
      rw [hP, firstVal_skip (by exact Ne.symm hk'), firstVal_skip (by rw [hk]; exact Ne.symm hk')]
    · rw [if_neg hl]
      refine ⟨[], [], P i, ⟨rfl, rfl, hp, ho, hh, (fun h1 => absurd h1 him), ?_, .inl ⟨rfl, fun _ => rfl⟩, fun _ => rfl, by simp⟩⟩
      refine fv_new hfv (hval _ _ _ (by simp)) ?_
      intro k' hk'
      rw [firstVal_skip (by exact Ne.symm hk')]; rfl

theorem pn_todo {c : Cfg} {i : Nat} {k : Bytes} {top parent cur : Nat} {old : RecR} {act : Action} (hn : act ≠ .noop) :
    pn (todo (ρ := ρ) c i k act (.hit top parent cur old)) = (acctHit k old act).1 ∧
    pe (todo (ρ := ρ) c i k act (.hit top parent cur old)) = (acctHit k old act).2 ∧
    workOn (todo (ρ := ρ) c i k act (.hit top parent cur old)) = some i := by
  cases act with
  | noop => exact absurd rfl hn
  | remove => simp only [todo]; split <;> exact ⟨rfl, rfl, rfl⟩
  | set v =>
    simp only [todo]
    generalize (if old.op.isSet = true then OpType.set else .add) = op
    split <;> exact ⟨rfl, rfl, rfl⟩

theorem fits_nil {rc : Rec} (h1 : GoodRec c rc) : fits c rc.key [] := by
  refine ⟨⟨h1.key, by have := h1.kv.2; simp only [List.length_nil]; omega⟩, ?_⟩
  refine Nat.lt_of_le_of_lt (alignNumber_le (m := rc.size c) h1.align ?_) h1.small
  have := Codec.sizeVarNum_pos rc.value.length
  have h0 : Codec.sizeVarNum 0 = 1 := by decide
  simp only [Rec.size, baseSize, List.length_nil]; omega

theorem isSet_of {op : OpType} (h1 : op ≠ .void) (h2 : op ≠ .remove) : op.isSet = true := by cases op <;> simp_all [OpType.isSet]

/-- What a found record is changed to. -/
theorem todo_ok (hc : CfgOk c) {pl : List FB} (h : Str e c lay pl P X) (hi : i < c.nb) (hX : X i = none) (hcn : Cont e c lay i (firstVal (P i)))
    (hfv : FV e c reg i (P i)) {a b : List (Nat × Rec)} {cur : Nat} {rc : Rec} (hP : P i = a ++ (cur, rc) :: b) {k : Bytes} (hk : rc.key = k)
    (ha : ∀ x ∈ a, x.2.key ≠ k) (hh : e.hash k c.nb = i) {act : Action} (hn : act ≠ .noop) (hf : ∀ v, act = .set v → fits c k v) (w : Bool) :
    InOk e c lay P X (upd reg i ((reg i).act k act)) w rest r (todo c i k act (.hit (lay.buckets.getD i 0) (lastOff a 0) cur (recR c rc))) := by
  have hp := h.path i hi
  rw [hP] at hp
  have hra := hp.at (cur, rc) (by simp)
  have hg := (h.base.recs rc (recAt_mem hra)).1
  have hmem := h.home i hi (cur, rc) (by rw [hP]; simp)
  have hkn : c.inPlace = true → ∀ x ∈ b, x.2.key ≠ k := by
    intro him x hx e1
    have hkn := h.keys him i hi
    rw [hP] at hkn
    simp only [List.map_append, List.map_cons, List.nodup_append, List.nodup_cons, List.mem_cons] at hkn
    exact hkn.2.1.1 (List.mem_map.2 ⟨x, hx, by rw [hk]; exact e1⟩)
  cases act with
  | noop => exact absurd rfl hn
  | remove =>
    simp only [todo]
    have e0 : (setData c .void (recR c rc).size [] [] 0).size c = (recR c rc).size := void_size hg.align .void 0
    by_cases him : c.inPlace = true
    · rw [if_pos (by simp only [him, e0, Bool.true_and, decide_true])]
      refine ⟨him, hX, a, rc, b, hP, rfl, rfl, rfl, ?_⟩
      refine fv_new (ov := none) hfv (firstVal_none ?_) ?_
      · intro x hx
        rcases List.mem_append.1 hx with h1 | h1
        · exact ha x h1
        · exact hkn him x h1
      · intro k' hk'
        rw [hP, firstVal_skip (by rw [hk]; exact Ne.symm hk')]
    · rw [if_neg (by simp [him])]
      exact moveTo_ok (ov := none) h hi hX hcn hfv hP hk ha hh (hk ▸ fits_nil hg) (by simp) (by simp) rfl (fun h1 => absurd h1 him) w _ rfl
  | set v =>
    have hf := hf v rfl
    simp only [todo]
    have hop : ∀ b : Bool, (if b = true then OpType.set else .add) ≠ .void ∧ (if b = true then OpType.set else .add) ≠ .remove ∧
        (if b = true then OpType.set else .add).isSet = true := by intro b; cases b <;> simp [OpType.isSet]
    obtain ⟨o1, o2, o3⟩ := hop (recR c rc).op.isSet
    generalize (if (recR c rc).op.isSet = true then OpType.set else .add) = op at o1 o2 o3 ⊢
    by_cases hcond : (c.inPlace && decide ((setData c op (recR c rc).size k v (recR c rc).child).size c = (recR c rc).size)) = true
    · rw [if_pos hcond]
      rw [Bool.and_eq_true, decide_eq_true_eq] at hcond
      obtain ⟨him, hsz⟩ := hcond
      refine ⟨him, hX, goodRec_setData hf hg.small hg.align hg.child, o1, o2, a, rc, b, hP, hsz, rfl, hk.symm, ?_⟩
      refine fv_new (ov := some v) hfv ?_ ?_
      · rw [firstVal_some ha rfl]
        show (if op.isSet = true then some v else none) = some v
        rw [if_pos o3]
      · intro k' hk'
        rw [hP, firstVal_skip (by exact Ne.symm hk'), firstVal_skip (by rw [hk]; exact Ne.symm hk')]
    · rw [if_neg hcond]
      exact moveTo_ok (ov := some v) h hi hX hcn hfv hP hk ha hh hf o1 (by simp) (by rw [o3]; rfl) (fun _ => ⟨o2, by simp⟩) w _ (by rw [if_pos o3])

/-! ### The steps before an update -/

theorem KK.still (C : Ctx L e c pre mid) (hK : KK L e c pre mid log0 D0 b0 m reg ts lay P X) (hL : LockOk L ts)
    (hth : ts[t]? = some ⟨id, .body cl h rest r x⟩) (hx : workOn x = none) {k : Bytes} {p : ProcS ρ} (hr : rest = (k, p) :: rest') :
    L.slot (e.hash k c.nb) ∈ h ∧ X (e.hash k c.nb) = none ∧ FV e c reg (e.hash k c.nb) (P (e.hash k c.nb)) ∧
      Cont e c lay (e.hash k c.nb) (reg (e.hash k c.nb)) := by
  have hs : L.slot (e.hash k c.nb) ∈ h := by
    have := hL.cover t _ _ _ _ _ _ hth (k, p) (by rw [hr]; simp)
    rwa [C.loc] at this
  refine ⟨hs, hK.quiet _ (C.range k) ?_⟩
  intro th hm
  obtain ⟨u, hu⟩ := List.getElem?_of_mem hm
  by_cases hut : u = t
  · subst hut
    rw [hth] at hu
    injection hu with hu
    subst hu
    show workOn x ≠ _
    rw [hx]; simp
  · exact hK.others hL C.loc hth hs hu hut

theorem log_replay {l : List LogOp} {d : Dict} (h : D0.replay l = d) (k : Bytes) {a : Action} : D0.replay (l ++ logged k a) = d.act k a := by
  rw [Verif.OMap.replay_append, h]
  cases a <;> rfl

theorem glob_act (reg : Nat → Dict) (k : Bytes) {a : Action} (hn : a ≠ .noop) :
    glob e c (upd reg (e.hash k c.nb) ((reg (e.hash k c.nb)).act k a)) = (glob e c reg).act k a := by
  cases a with
  | noop => exact absurd rfl hn
  | remove => exact glob_upd reg k none
  | set v => exact glob_upd reg k (some v)

theorem cont_first (hfv : FV e c reg i (P i)) (hc : Cont e c lay i (reg i)) : Cont e c lay i (firstVal (P i)) := by
  intro hm k hk
  rw [hc hm k hk, hfv k hk]

theorem acct_ok {d : Dict} {k : Bytes} {rc : Rec} (hd : d k = if rc.op.isSet then some rc.value else none) {act : Action} (hn : act ≠ .noop)
    {n f : Int} (h : d.Counted n f) : (d.act k act).Counted (n + (acctHit k (recR c rc) act).1) (f + (acctHit k (recR c rc) act).2) := by
  cases hs : rc.op.isSet with
  | true =>
    rw [hs, if_pos rfl] at hd
    cases act with
    | noop => exact absurd rfl hn
    | remove =>
      have := h.del hd
      show (d.upd k none).Counted _ _
      simpa only [acctHit, recR, hs, if_true, Option.getD_some, Int.sub_eq_add_neg] using this
    | set v =>
      have := h.put v hd
      show (d.upd k (some v)).Counted _ _
      simpa only [acctHit, recR, hs, if_true, Option.getD_some, Int.add_zero] using this
  | false =>
    rw [hs, if_neg (by simp)] at hd
    cases act with
    | noop => exact absurd rfl hn
    | remove =>
      have e1 : d.act k .remove = d := by
        funext k'
        show d.upd k none k' = d k'
        by_cases ek : k' = k
        · subst ek; rw [Dict.upd_self, hd]
        · rw [Dict.upd_other _ _ ek]
      rw [e1]
      simpa only [acctHit, recR, hs, Bool.false_eq_true, if_false, Int.add_zero] using h
    | set v =>
      have := h.add v hd
      show (d.upd k (some v)).Counted _ _
      simpa only [acctHit, recR, hs, Bool.false_eq_true, if_false] using this

/-- The step that decides the update. -/
theorem log_step (C : Ctx L e c pre mid) (hK : KK L e c pre mid log0 D0 b0 m reg ts lay P X) (hL : LockOk L ts) {act : Action} {pos : Pos}
    (hth : ts[t]? = some ⟨id, .body cl h rest r (.log act pos r')⟩)
    (hfit : ∀ kp ∈ rest, ∀ (r : ρ) (o : Option Bytes) (v : Bytes), (kp.2 r o).1 = .set v → hashFits kp.1 v) :
    ∃ k p rest', rest = (k, p) :: rest' ∧
      (reg (e.hash k c.nb)).process k cl.writable (p r) = ((reg (e.hash k c.nb)).act k act, r') ∧
      KK L e c pre mid log0 D0 b0 { m with log := m.log ++ logged k act } (upd reg (e.hash k c.nb) ((reg (e.hash k c.nb)).act k act))
        (ts.set t ⟨id, .body cl h rest' r' (todo c (e.hash k c.nb) k act pos)⟩) lay P X := by
  have hin := (hK.thok t _ _ _ _ _ _ hth).1
  cases pos with
  | hit top parent cur old =>
    obtain ⟨h1, h2, k, p, rest', rfl, h3, a, rc, b, h4, h5, h6, h7, h8, h9⟩ := hin
    obtain ⟨s1, s2, s3, s4⟩ := hK.still C hL hth rfl rfl
    subst h3; subst h5; subst h6
    have hv : reg (e.hash k c.nb) k = if rc.op.isSet then some rc.value else none := by
      rw [← s3 k rfl, h4, firstVal_some h8 h7]
    have hf : ∀ v, act = .set v → fits c k v := by
      intro v hv
      exact fits_of_hashFits C.cfg (hfit (k, p) (by simp) r (if rc.op.isSet then some rc.value else none) v (by show (p r _).1 = _; rw [h9]; exact hv))
    refine ⟨k, p, rest', rfl, ?_, ?_⟩
    · simp only [Dict.process, h1, if_true, hv, h9]
    · refine hK.write hL C.loc C.range hth (C.range k) s1 h1 (.inr rfl) hK.bad hK.file ?_ (.refl _ _ _ _) hK.str (fun _ _ => rfl) (fun _ _ => rfl)
        (fun j hj => upd_ne hj)
        (todo_ok C.cfg hK.str (C.range k) s2 (cont_first s3 s4) s3 h4 h7 h8 rfl h2 hf cl.writable) (.inl (pn_todo h2).2.2) ?_
      · intro l hl hl'
        exact ⟨l ++ logged k act, by simp only [hl, List.append_assoc], by rw [log_replay hl', glob_act reg k h2]⟩
      · intro n f hnf
        rw [glob_act reg k h2, (pn_todo h2).1, (pn_todo h2).2.1]
        have := acct_ok (c := c) (d := glob e c reg) (k := k) (rc := rc) hv h2 hnf
        simp only [pn, pe] at this
        rwa [show m.num + (0 + n) + (acctHit k (recR c rc) act).1 = m.num + ((acctHit k (recR c rc) act).1 + n) by omega,
          show m.eff + (0 + f) + (acctHit k (recR c rc) act).2 = m.eff + ((acctHit k (recR c rc) act).2 + f) by omega] at this
  | miss top =>
    obtain ⟨h1, v, rfl, k, p, rest', rfl, h3, h4, h9⟩ := hin
    obtain ⟨s1, s2, s3, s4⟩ := hK.still C hL hth rfl rfl
    subst h3
    have hv : reg (e.hash k c.nb) k = none := by rw [← s3 k rfl, firstVal_none h4]
    have hf : fits c k v := fits_of_hashFits C.cfg (hfit (k, p) (by simp) r none v (by show (p r _).1 = _; rw [h9]))
    refine ⟨k, p, rest', rfl, ?_, ?_⟩
    · simp only [Dict.process, h1, if_true, hv, h9]
    · refine hK.write hL C.loc C.range hth (C.range k) s1 h1 (.inr rfl) hK.bad hK.file ?_ (.refl _ _ _ _) hK.str (fun _ _ => rfl) (fun _ _ => rfl)
        (fun j hj => upd_ne hj) ?_ (.inl rfl) ?_
      · intro l hl hl'
        exact ⟨l ++ logged k (.set v), by simp only [hl, List.append_assoc], by rw [log_replay hl', glob_act reg k (by simp)]⟩
      · refine ⟨s2, hf, rfl, by simp, (fun _ => by simp), cont_first s3 s4, [], [], P (e.hash k c.nb), ⟨rfl, rfl, hK.str.path _ (C.range k),
          by simp [setData], rfl, fun _ => ⟨by simp [setData], fun x hx => h4 x (by simpa using hx)⟩, ?_, .inl ⟨rfl, fun _ => rfl⟩, fun _ => rfl, by simp⟩⟩
        refine fv_new (ov := some v) s3 (firstVal_some (a := []) (by simp) rfl) ?_
        intro k' hk'
        rw [firstVal_skip (by exact Ne.symm hk')]; rfl
      · intro n f hnf
        rw [glob_act reg k (by simp)]
        have := Dict.Counted.add hnf (k := k) v hv
        simp only [pn, pe] at this
        simp only [todo, pn, pe]
        rwa [show m.num + (0 + n) + 1 = m.num + (1 + n) by omega,
          show m.eff + (0 + f) + ((k.length + v.length : Nat) : Int) = m.eff + (((k.length + v.length : Nat) : Int) + f) by omega] at this

theorem lastOff_snoc (a : List (Nat × Rec)) (y : Nat × Rec) : lastOff (a ++ [y]) 0 = y.1 := by
  have : ∀ d, lastOff (a ++ [y]) d = y.1 := by
    induction a with
    | nil => intro d; rfl
    | cons z a ih => intro d; exact ih z.1
  exact this 0

theorem process_same {d : Dict} {k : Bytes} {w : Bool} {p : ProcR ρ}
    (h : w = false ∨ (p (d k)).1 = .noop ∨ ((p (d k)).1 = .remove ∧ d k = none)) : d.process k w p = (d, (p (d k)).2) := by
  simp only [Dict.process]
  rcases h with h | h | ⟨h, h'⟩
  · rw [h]; rfl
  · rw [h]; cases w <;> rfl
  · rw [h]
    have : d.act k .remove = d := by
      funext k'
      show d.upd k none k' = d k'
      by_cases ek : k' = k
      · subst ek; rw [Dict.upd_self, h']
      · rw [Dict.upd_other _ _ ek]
    rw [this]; cases w <;> rfl

/-- The size of the file that offsets can express. -/
def Fit (c : Cfg) (m : CMem) : Prop := m.file.length ≤ 2 ^ (8 * c.ow + c.ap)

/-- A step of the walk along the chain. -/
theorem at_step (C : Ctx L e c pre mid) (hK : KK L e c pre mid log0 D0 b0 m reg ts lay P X) (hL : LockOk L ts) (hroom : Fit c m)
    {top parent cur : Nat} (hth : ts[t]? = some ⟨id, .body cl h rest r (.at top parent cur)⟩) :
    (KK L e c pre mid log0 D0 b0 (bodyStep e c m () cl.writable rest r (.at top parent cur)).1 reg
        (ts.set t ⟨id, .body cl h rest r (bodyStep e c m () cl.writable rest r (.at top parent cur)).2.2.2⟩) lay P X ∧
      (bodyStep e c m () cl.writable rest r (.at top parent cur)).2.1 = rest ∧ (bodyStep e c m () cl.writable rest r (.at top parent cur)).2.2.1 = r) ∨
    ∃ k p rest' r', rest = (k, p) :: rest' ∧ (bodyStep e c m () cl.writable rest r (.at top parent cur)) = (m, rest', r', .enter) ∧
      (reg (e.hash k c.nb)).process k cl.writable (p r) = (reg (e.hash k c.nb), r') ∧
      KK L e c pre mid log0 D0 b0 m reg (ts.set t ⟨id, .body cl h rest' r' .enter⟩) lay P X := by
  have hin := (hK.thok t _ _ _ _ _ _ hth).1
  obtain ⟨k, p, rest', rfl, h1, a, b, h2, h3, h4, h5⟩ := hin
  obtain ⟨s1, s2, s3, s4⟩ := hK.still C hL hth rfl rfl
  have hrm : Room c lay := by
    have := hroom
    rw [Fit, hK.file, render_length C.cfg C.frame hK.str.base.nb] at this
    exact this
  have mv : ∀ (rs : List (Bytes × ProcS ρ)) (r1 : ρ) (y : Inner ρ), workOn y = none → pn y = 0 → pe y = 0 → InOk e c lay P X reg cl.writable rs r1 y →
      KK L e c pre mid log0 D0 b0 m reg (ts.set t ⟨id, .body cl h rs r1 y⟩) lay P X := by
    intro rs r1 y q1 q2 q3 q4
    refine hK.move hth rfl q1 ?_ hK.bad rfl rfl rfl (by show m.num + pn y = m.num + 0; rw [q2]) (by show m.eff + pe y = m.eff + 0; rw [q3])
    intro cl' h' rs' r1' y' e1
    injection e1 with e1 e2 e3 e4 e5
    subst e1; subst e3; subst e4; subst e5
    exact q4
  cases b with
  | nil =>
    have h0 : cur = 0 := h4
    subst h0
    rw [List.append_nil] at h2
    have hv : reg (e.hash k c.nb) k = none := by rw [← s3 k rfl, h2, firstVal_none h5]
    by_cases hset : cl.writable = true ∧ ∃ v, (p r none).1 = .set v
    · obtain ⟨hw, v, hv'⟩ := hset
      refine .inl ?_
      simp only [bodyStep, if_true, hw, hv']
      refine ⟨mv _ _ _ rfl rfl rfl ?_, trivial, trivial⟩
      exact ⟨hw, v, rfl, k, p, rest', rfl, h1, by rw [h2]; exact h5, by rw [← hv']⟩
    · have hsame : (reg (e.hash k c.nb)).process k cl.writable (p r) = (reg (e.hash k c.nb), (p r none).2) := by
        have := process_same (d := reg (e.hash k c.nb)) (k := k) (w := cl.writable) (p := p r) (by
          rw [hv]
          cases hw : cl.writable with
          | false => exact .inl rfl
          | true =>
            cases ha : (p r none).1 with
            | noop => exact .inr (.inl rfl)
            | remove => exact .inr (.inr ⟨rfl, rfl⟩)
            | set v => exact absurd ⟨hw, v, ha⟩ hset)
        rw [hv] at this; exact this
      refine .inr ⟨k, p, rest', (p r none).2, rfl, ?_, hsame, mv _ _ _ rfl rfl rfl trivial⟩
      simp only [bodyStep, if_true]
      cases hw : cl.writable with
      | false => rfl
      | true =>
        cases ha : (p r none).1 with
        | noop => rfl
        | remove => rfl
        | set v => exact absurd ⟨hw, v, ha⟩ hset
  | cons y b =>
    obtain ⟨o, rc⟩ := y
    obtain ⟨e0, hra, hb⟩ := h4
    subst e0
    have hne : cur ≠ 0 := by have := recAt_ge hra; have := recordBase_pos (c := c); omega
    have hrd : (fileReader c m.file metaMinReadSize).record cur = some (recR c rc) := by
      rw [hK.file]; exact fileReader_record C.env C.cfg C.frame hK.str.base hrm (Nat.le_refl _) hra
    by_cases hk : k = rc.key
    · have hv : reg (e.hash k c.nb) k = if rc.op.isSet then some rc.value else none := by
        rw [← s3 k rfl, h2, firstVal_some h5 hk.symm]
      have hov : (if (recR c rc).op.isSet = true then Option.map some (recR c rc).value else some none) =
          some (if rc.op.isSet then some rc.value else none) := by
        simp only [recR]; by_cases h6 : rc.op.isSet = true <;> simp [h6]
      have hstep : bodyStep e c m () cl.writable ((k, p) :: rest') r (.at top parent cur) =
          if cl.writable && (p r (if rc.op.isSet then some rc.value else none)).1 != .noop then
            (m, (k, p) :: rest', r, .log (p r (if rc.op.isSet then some rc.value else none)).1 (.hit top parent cur (recR c rc))
              (p r (if rc.op.isSet then some rc.value else none)).2)
          else (m, rest', (p r (if rc.op.isSet then some rc.value else none)).2, .enter) := by
        simp only [bodyStep, if_neg hne, hrd]
        rw [if_pos (by exact hk)]
        simp only [hov]
      rw [hstep]
      by_cases hcond : (cl.writable && (p r (if rc.op.isSet then some rc.value else none)).1 != .noop) = true
      · rw [if_pos hcond]
        rw [Bool.and_eq_true] at hcond
        refine .inl ⟨mv _ _ _ rfl rfl rfl ?_, rfl, rfl⟩
        exact ⟨hcond.1, by simpa using hcond.2, k, p, rest', rfl, h1, a, rc, b, h2, h3, rfl, hk.symm, h5, rfl⟩
      · rw [if_neg hcond]
        refine .inr ⟨k, p, rest', _, rfl, rfl, ?_, mv _ _ _ rfl rfl rfl trivial⟩
        rw [← hv] at hcond ⊢
        refine process_same ?_
        cases hw : cl.writable with
        | false => exact .inl rfl
        | true => rw [hw] at hcond; exact .inr (.inl (by simpa using hcond))
    · refine .inl ?_
      have hstep : bodyStep e c m () cl.writable ((k, p) :: rest') r (.at top parent cur) = (m, (k, p) :: rest', r, .at top cur rc.child) := by
        simp only [bodyStep, if_neg hne, hrd]
        rw [if_neg (by exact hk)]
        rfl
      rw [hstep]
      refine ⟨mv _ _ _ rfl rfl rfl ?_, rfl, rfl⟩
      refine ⟨k, p, rest', rfl, h1, a ++ [(cur, rc)], b, by rw [h2]; simp, (lastOff_snoc a (cur, rc)).symm, hb, ?_⟩
      intro x hx
      rcases List.mem_append.1 hx with h6 | h6
      · exact h5 x h6
      · rw [List.mem_singleton.1 h6]; exact Ne.symm hk

/-- SPECIFICATION: every value that the processors of a call may store is within the size limits. -/
def CallFits (cl : Call ρ) : Prop :=
  ∀ kp ∈ cl.pairs, ∀ (r : ρ) (o : Option Bytes) (v : Bytes), (kp.2 r o).1 = .set v → hashFits kp.1 v

theorem calm_work {pc : Pc ρ (Inner ρ)} (hc : Calm (body e c) pc) (id : Nat) : workT ⟨id, pc⟩ = none ∧ pnT ⟨id, pc⟩ = 0 ∧ peT ⟨id, pc⟩ = 0 ∧
    ∀ cl h rest r x, pc = .body cl h rest r x → x = .enter := by
  cases pc with
  | body cl h rest r x =>
    have hx : x = .enter := by
      rcases hc with hc | hc
      · exact hc
      · simp only [body, Bool.and_eq_true] at hc
        have := hc.2
        cases x <;> first | rfl | cases this
    subst hx
    refine ⟨rfl, rfl, rfl, ?_⟩
    intro _ _ _ _ _ e1
    injection e1 with _ _ _ _ e5
    exact e5.symm
  | _ => exact ⟨rfl, rfl, rfl, fun _ _ _ _ _ e1 => by cases e1⟩

theorem hash_sim (C : Ctx L e c pre mid) (log0 : List LogOp) (D0 : Dict) (b0 : Nat) :
    Sim L (body e c) (opD (ρ := ρ)) (KRel L e c pre mid log0 D0 b0) (Fit c) CallFits where
  done := by
    intro rest x hd
    simp only [body, Bool.and_eq_true] at hd
    simpa using hd.1
  move := by
    rintro mem mm ts t ⟨id, pc⟩ ⟨id', pc'⟩ ⟨lay, P, X, hK⟩ hth hc hc'
    obtain ⟨a1, a2, a3, _⟩ := calm_work hc id
    obtain ⟨b1, b2, b3, b4⟩ := calm_work hc' id'
    refine ⟨lay, P, X, hK.move hth a1 b1 ?_ hK.bad rfl rfl rfl (by rw [a2, b2]) (by rw [a3, b3])⟩
    intro cl h rest r x e1
    rw [b4 cl h rest r x e1]
    trivial
  body := by
    rintro mem mm ts t id cl h rest r x ⟨⟩ ⟨lay, P, X, hK⟩ hL hth hfit hsuf hd h1 h2
    have hfit' : ∀ kp ∈ rest, ∀ (r : ρ) (o : Option Bytes) (v : Bytes), (kp.2 r o).1 = .set v → hashFits kp.1 v :=
      fun kp hk => hfit kp (hsuf kp hk)
    show (KRel L e c pre mid log0 D0 b0 (bodyStep e c mem () cl.writable rest r x).1 mm _ ∧ _) ∨ _
    by_cases hx : ∃ i, workOn x = some i
    · obtain ⟨i, hx⟩ := hx
      obtain ⟨q1, q2, lay', P', X', q3⟩ := work_step C hK hL hth hx
      exact .inl ⟨⟨lay', P', X', q3⟩, q1, q2⟩
    cases x with
    | over j off nr acc => exact absurd ⟨j, rfl⟩ hx
    | unlink j => exact absurd ⟨j, rfl⟩ hx
    | alloc j => exact absurd ⟨j, rfl⟩ hx
    | wnew j => exact absurd ⟨j, rfl⟩ hx
    | app j => exact absurd ⟨j, rfl⟩ hx
    | lnk j => exact absurd ⟨j, rfl⟩ hx
    | void j => exact absurd ⟨j, rfl⟩ hx
    | pool j => exact absurd ⟨j, rfl⟩ hx
    | num acc =>
      refine .inl ⟨⟨lay, P, X, hK.move hth rfl rfl ?_ hK.bad rfl rfl rfl ?_ ?_⟩, rfl, rfl⟩
      · intro _ _ _ _ _ e1; injection e1 with _ _ _ _ e5; rw [← e5]; trivial
      · show mem.num + acc.1 + 0 = mem.num + acc.1; omega
      · rfl
    | eff de =>
      refine .inl ⟨⟨lay, P, X, hK.move hth rfl rfl ?_ hK.bad rfl rfl rfl ?_ ?_⟩, rfl, rfl⟩
      · intro _ _ _ _ _ e1; injection e1 with _ _ _ _ e5; rw [← e5]; trivial
      · rfl
      · show mem.eff + de + 0 = mem.eff + de; omega
    | enter =>
      cases rest with
      | nil => cases hd
      | cons kp rest' =>
        obtain ⟨k, p⟩ := kp
        have hrm : Room c lay := by
          have := h1
          rw [Fit, hK.file, render_length C.cfg C.frame hK.str.base.nb] at this
          exact this
        have hbk : getBucket c mem.file (e.hash k c.nb) = some (lay.buckets.getD (e.hash k c.nb) 0) := by
          have := fileReader_bucket (e := e) C.cfg C.frame hK.str.base hrm (minRead := metaMinReadSize) (C.range k)
          rw [← hK.file] at this
          have h3 : getBucket c mem.file (e.hash k c.nb) = lay.buckets[e.hash k c.nb]? := this
          rw [h3, List.getD_eq_getElem?_getD, List.getElem?_eq_getElem (by rw [hK.str.base.nb]; exact C.range k)]; rfl
        refine .inl ?_
        simp only [body, bodyStep, hbk]
        refine ⟨⟨lay, P, X, hK.move hth rfl rfl ?_ hK.bad rfl rfl rfl rfl rfl⟩, trivial, trivial⟩
        intro _ _ _ _ _ e1
        injection e1 with e1 e2 e3 e4 e5
        subst e1; subst e3; subst e4; subst e5
        exact ⟨k, p, rest', rfl, rfl, [], P (e.hash k c.nb), rfl, rfl, hK.str.path _ (C.range k), by simp⟩
    | «at» top parent cur =>
      rcases at_step C hK hL h1 hth with ⟨q1, q2, q3⟩ | ⟨k, p, rest', r', rfl, q2, q3, q4⟩
      · exact .inl ⟨⟨lay, P, X, q1⟩, q2, q3⟩
      · refine .inr ⟨k, p, rest', (mm.reg (e.hash k c.nb), r', []), rfl, ?_, ?_, ?_, ?_⟩
        · simp only [body, q2]
        · simp only [body, q2]
        · rw [C.loc]; simp only [opD, q3]
        · rw [C.loc]
          simp only [body, q2]
          refine ⟨lay, P, X, ?_⟩
          rw [upd_self rfl]; exact q4
    | log act pos r' =>
      obtain ⟨k, p, rest', rfl, q1, q2⟩ := log_step C hK hL hth hfit'
      refine .inr ⟨k, p, rest', ((mm.reg (e.hash k c.nb)).act k act, r', []), rfl, rfl, rfl, ?_, ?_⟩
      · rw [C.loc]; simp only [opD, q1]
      · rw [C.loc]
        exact ⟨lay, P, X, q2⟩

end Verif.Hash.Conc
