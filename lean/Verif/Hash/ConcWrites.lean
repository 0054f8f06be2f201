import Verif.Hash.ConcInv
/-
The effect of each write of `ProcessImpl` of HashDBM on the chains, the pool and the blocks between them.
-/
namespace Verif.Hash.Conc
open Verif TwoPhase

variable {ρ : Type} {e : Env} {c : Cfg} {lay lay' : Lay} {pl pl' : List FB} {P : Nat → List (Nat × Rec)} {X : Nat → Option Nat} {reg : Nat → Dict}

theorem upd_ne {R : Type} {A : Nat → R} {i j : Nat} {x : R} (h : j ≠ i) : upd A i x j = A j := if_neg h
theorem upd_eq {R : Type} {A : Nat → R} {i : Nat} {x : R} : upd A i x i = x := if_pos rfl

/-! ### Values of chains -/

theorem firstVal_skip {a b : List (Nat × Rec)} {cur : Nat} {r : Rec} {k : Bytes} (h : r.key ≠ k) :
    firstVal (a ++ (cur, r) :: b) k = firstVal (a ++ b) k := by
  induction a with
  | nil => simp only [List.nil_append, firstVal, if_neg h]
  | cons x a ih => simp only [List.cons_append, firstVal, ih]

theorem firstVal_skips {a b : List (Nat × Rec)} {k : Bytes} (h : ∀ x ∈ a, x.2.key ≠ k) : firstVal (a ++ b) k = firstVal b k := by
  induction a with
  | nil => rfl
  | cons x a ih =>
    simp only [List.cons_append, firstVal, if_neg (h x (by simp))]
    exact ih fun y hy => h y (by simp [hy])

theorem firstVal_off (a b : List (Nat × Rec)) (o o' : Nat) (r : Rec) (k : Bytes) :
    firstVal (a ++ (o, r) :: b) k = firstVal (a ++ (o', r) :: b) k := by
  induction a with
  | nil => rfl
  | cons x a ih => simp only [List.cons_append, firstVal, ih]

/-- A chain element without its link. -/
def shape (x : Nat × Rec) : Nat × OpType × Bytes × Bytes := (x.1, x.2.op, x.2.key, x.2.value)

theorem shape_fst {a a' : List (Nat × Rec)} (h : a'.map shape = a.map shape) : a'.map (·.1) = a.map (·.1) := by
  have := congrArg (List.map (·.1)) h
  rw [List.map_map, List.map_map] at this
  exact this

theorem shape_key {a a' : List (Nat × Rec)} (h : a'.map shape = a.map shape) : a'.map (·.2.key) = a.map (·.2.key) := by
  have := congrArg (List.map (·.2.2.1)) h
  rw [List.map_map, List.map_map] at this
  exact this

theorem shape_mem {a a' : List (Nat × Rec)} (h : a'.map shape = a.map shape) {x : Nat × Rec} (hx : x ∈ a') :
    ∃ z ∈ a, z.1 = x.1 ∧ z.2.op = x.2.op ∧ z.2.key = x.2.key := by
  have : shape x ∈ a.map shape := by rw [← h]; exact List.mem_map.2 ⟨x, hx, rfl⟩
  obtain ⟨z, hz, ez⟩ := List.mem_map.1 this
  simp only [shape, Prod.mk.injEq] at ez
  exact ⟨z, hz, ez.1, ez.2.1, ez.2.2.1⟩

theorem shape_val {a a' q : List (Nat × Rec)} (h : a'.map shape = a.map shape) (k : Bytes) : firstVal (a' ++ q) k = firstVal (a ++ q) k := by
  induction a generalizing a' with
  | nil => simp at h; rw [h]
  | cons x a ih =>
    cases a' with
    | nil => simp at h
    | cons y a' =>
      simp only [List.map_cons, List.cons.injEq, shape, Prod.mk.injEq] at h
      obtain ⟨⟨_, e1, e2, e3⟩, h⟩ := h
      simp only [List.cons_append, firstVal, e1, e2, e3, ih h]

theorem shape_of {a a' : List (Nat × Rec)} (h1 : a'.map (·.1) = a.map (·.1)) (h2 : ∀ y ∈ a', ∀ z ∈ a, z.1 = y.1 → shape y = shape z) :
    a'.map shape = a.map shape := by
  induction a generalizing a' with
  | nil => simp at h1; rw [h1]
  | cons x a ih =>
    cases a' with
    | nil => simp at h1
    | cons y a' =>
      simp only [List.map_cons, List.cons.injEq] at h1
      simp only [List.map_cons, List.cons.injEq]
      exact ⟨h2 y (by simp) x (by simp) h1.1.symm, ih h1.2 fun y' hy z hz => h2 y' (by simp [hy]) z (by simp [hz])⟩

theorem relinked_shape {L L' : Lay} {i : Nat} {a q rest : List (Nat × Rec)} {w : Wr} (R : Relinked c L L' i a q w) {o : Nat}
    (hp : Path c L.recs o (a ++ rest)) : ∃ a', a'.map shape = a.map shape ∧ Path c L'.recs (L'.buckets.getD i 0) (a' ++ q) := by
  obtain ⟨a', h1, _, h3⟩ := R.path
  refine ⟨a', shape_of h1 ?_, h3⟩
  intro y hy z hz e1
  obtain ⟨ch, hk⟩ := R.keep z.1 z.2 (hp.at z (by simp [hz]))
  have := h3.at y (by simp [hy])
  rw [← e1, hk] at this
  injection this with this
  simp only [shape, ← this, e1]

/-- The record that a relink leaves at an offset. -/
theorem relinked_back {L L' : Lay} {i : Nat} {a q : List (Nat × Rec)} {w : Wr} (R : Relinked c L L' i a q w) {o : Nat} {r : Rec}
    (h : recAt c (recordBase c) L'.recs o = some r) (hv : r.op ≠ .void) (ho : o ∉ a.map (·.1)) : recAt c (recordBase c) L.recs o = some r := by
  have h1 : live c L'.recs o = some (r.key, r.value) := live_some.2 ⟨r, h, hv, rfl, rfl⟩
  rw [R.live] at h1
  obtain ⟨r', h2, _⟩ := live_some.1 h1
  have := R.same o r' h2 (by
    by_cases ha : a = []
    · exact .inl ha
    · exact .inr fun e1 => ho (e1 ▸ lastOff_mem a 0 ha))
  rw [h] at this
  injection this with this
  rw [this]; exact h2

theorem relinked_keep {L L' : Lay} {i : Nat} {a q : List (Nat × Rec)} {w : Wr} (R : Relinked c L L' i a q w) {o : Nat} {r : Rec}
    (h : recAt c (recordBase c) L.recs o = some r) (ho : o ∉ a.map (·.1)) : recAt c (recordBase c) L'.recs o = some r :=
  R.same o r h (by
    by_cases ha : a = []
    · exact .inl ha
    · exact .inr fun e1 => ho (e1 ▸ lastOff_mem a 0 ha))

theorem path_head_ok (hc : CfgOk c) (hb : Base c lay) {o : Nat} {p : List (Nat × Rec)} (h : Path c lay.recs o p) :
    o % (1 <<< c.ap) = 0 ∧ o < lay.end_ c := by
  rcases h.head with h1 | ⟨r, h1⟩
  · rw [h1]; exact ⟨by simp, end_pos lay⟩
  · refine ⟨hb.off_aligned hc h1, ?_⟩
    have := recAt_lt h1
    have := size_pos (c := c) r
    simp only [Lay.end_]; omega

theorem notPool (h : Str e c lay pl P X) {o : Nat} {r : Rec} (hr : recAt c (recordBase c) lay.recs o = some r) (hv : r.op ≠ .void) :
    o ∉ pl.map (·.off) := by
  intro hm
  obtain ⟨b, hb, eb⟩ := List.mem_map.1 hm
  obtain ⟨r', h1, h2, _⟩ := h.pool b hb
  rw [eb, hr] at h1
  injection h1 with h1
  exact hv (h1 ▸ h2)

theorem Relo.congr {lay2 : Lay} {i parent : Nat} {nr : Rec} {old : Old} {a cut b} (h : Relo e c lay P reg i parent nr old a cut b)
    (hs : ∀ x ∈ P i, recAt c (recordBase c) lay2.recs x.1 = some x.2) : Relo e c lay2 P reg i parent nr old a cut b :=
  { h with path := path_congr h.path fun x hx => hs x (by rw [h.split]; simp [hx]) }

/-! ### Overwriting a record -/

theorem over_str (h : Str e c lay pl P X) {i : Nat} (hi : i < c.nb) (hm : c.inPlace = true) (hX : X i = none) {a b : List (Nat × Rec)}
    {off : Nat} {r0 nr : Rec} (hP : P i = a ++ (off, r0) :: b) (hg : GoodRec c nr) (hs : nr.size c = r0.size c) (hch : nr.child = r0.child)
    (hk : nr.key = r0.key) (ho : nr.op ≠ .void) (ho' : nr.op ≠ .remove) :
    WrOk c lay (.record off nr) ∧ Frame e c lay (applyL c lay (.record off nr)) P X i ∧
    Str e c (applyL c lay (.record off nr)) pl (upd P i (a ++ (off, nr) :: b)) X := by
  have hp := h.path i hi
  rw [hP] at hp
  have hr : recAt c (recordBase c) lay.recs off = some r0 := hp.at (off, r0) (by simp)
  have hwr : WrOk c lay (.record off nr) := ⟨hg, hch ▸ (h.base.recs r0 (recAt_mem hr)).2, r0, hr, hs⟩
  have hnd := hp.nodup
  simp only [List.map_append, List.map_cons, List.nodup_append, List.nodup_cons, List.mem_cons] at hnd
  have na : off ∉ a.map (·.1) := fun h1 => hnd.2.2 off h1 off (.inl rfl) rfl
  have nb : off ∉ b.map (·.1) := hnd.2.1.1
  have hF : Frame e c lay (applyL c lay (.record off nr)) P X i := by
    refine ⟨fun j _ => rfl, ?_, (fun h1 => by rw [hm] at h1; cases h1), fun _ _ h1 => applyL_bnd hwr h1⟩
    intro o r h1 h2 _
    have : o ≠ off := by intro e1; rw [e1, hP] at h2; exact h2 (by simp)
    exact (recAt_setAt_other hr hs this).trans h1
  refine ⟨hwr, hF, h.write hF hi (fun j hj => upd_ne hj) (fun _ _ => rfl) (h.base.applyL hwr) ?_ ?_ ?_ ?_ (fun b hb => .inl hb)
    h.poolNodup ?_ ?_ ?_⟩
  · rw [upd_eq]
    have := hp.repl hr hs hch
    rw [List.map_append, List.map_cons, repl_notin na, repl_notin nb] at this
    simp only [repl, if_true] at this
    exact this
  · rw [upd_eq]
    intro x hx
    have h0 := h.home i hi
    rw [hP] at h0
    rcases List.mem_append.1 hx with h1 | h1
    · exact h0 x (by simp [h1])
    · rcases List.mem_cons.1 h1 with rfl | h1
      · exact ⟨ho, by show e.hash nr.key c.nb = i; rw [hk]; exact (h0 (off, r0) (by simp)).2⟩
      · exact h0 x (by simp [h1])
  · intro _
    rw [upd_eq]
    have := h.keys hm i hi
    rw [hP] at this
    simpa only [List.map_append, List.map_cons, hk] using this
  · intro _ x hx
    rcases mem_setAt hr hs hx with rfl | hx
    · exact ho'
    · exact h.noRem hm x hx
  · intro o h1; rw [hX] at h1; cases h1
  · intro o h1
    rw [upd_eq] at h1
    rw [hP]
    exact .inl (by simpa using h1)
  · intro _ o r h1 h2
    by_cases eo : o = off
    · exact .inl (by rw [upd_eq, eo]; simp)
    · have h3 : recAt c (recordBase c) lay.recs o = some r := (recAt_setAt_other hr hs eo).symm.trans h1
      by_cases h4 : o ∈ (P i).map (·.1)
      · exact .inl (by rw [upd_eq]; rw [hP] at h4; simpa using h4)
      · exact .inr (.inr ⟨h3, h4, by rw [hX]; simp⟩)

/-! ### Writing into the block between -/

theorem fill_str (h : Str e c lay pl P X) {i : Nat} (hi : i < c.nb) (hm : c.inPlace = true) {o : Nat} (hX : X i = some o) {r0 nr : Rec}
    (hr : recAt c (recordBase c) lay.recs o = some r0) (hg : GoodRec c nr) (hch : nr.child < lay.end_ c) (hs : nr.size c = r0.size c)
    (ho' : nr.op ≠ .remove) :
    WrOk c lay (.record o nr) ∧ Frame e c lay (applyL c lay (.record o nr)) P X i ∧ Str e c (applyL c lay (.record o nr)) pl P X ∧
    (∀ x ∈ P i, recAt c (recordBase c) (applyL c lay (.record o nr)).recs x.1 = some x.2) ∧
    recAt c (recordBase c) (applyL c lay (.record o nr)).recs o = some nr := by
  have hwr : WrOk c lay (.record o nr) := ⟨hg, hch, r0, hr, hs⟩
  have hn := h.xChain i i o hi hi hX
  have hself : recAt c (recordBase c) (applyL c lay (.record o nr)).recs o = some nr := recAt_setAt_self hr hs
  have hF : Frame e c lay (applyL c lay (.record o nr)) P X i := by
    refine ⟨fun j _ => rfl, ?_, (fun h1 => by rw [hm] at h1; cases h1), fun _ _ h1 => applyL_bnd hwr h1⟩
    intro o' r h1 _ h3
    have : o' ≠ o := by intro e1; rw [e1] at h3; exact h3 hX
    exact (recAt_setAt_other hr hs this).trans h1
  refine ⟨hwr, hF, h.write hF hi (fun _ _ => rfl) (fun _ _ => rfl) (h.base.applyL hwr) ((h.path i hi).setAt hr hs hn) (h.home i hi)
    (fun hm => h.keys hm i hi) ?_ (fun b hb => .inl hb) h.poolNodup ?_ (fun o' h1 => .inl h1) ?_, ?_, hself⟩
  · intro _ x hx
    rcases mem_setAt hr hs hx with rfl | hx
    · exact ho'
    · exact h.noRem hm x hx
  · intro o' h1
    have : o' = o := by rw [hX] at h1; injection h1 with h1; exact h1.symm
    subst this
    exact ⟨.inr (.inl hX), ⟨nr, hself⟩, hn, h.xPool i _ hi hX⟩
  · intro _ o' r h1 h2
    by_cases eo : o' = o
    · exact .inr (.inl (by rw [eo]; exact hX))
    · by_cases h4 : o' ∈ (P i).map (·.1)
      · exact .inl h4
      · exact .inr (.inr ⟨(recAt_setAt_other hr hs eo).symm.trans h1, h4, by rw [hX]; intro e1; injection e1 with e1; exact eo e1.symm⟩)
  · intro x hx
    have : x.1 ≠ o := fun e1 => hn (e1 ▸ List.mem_map.2 ⟨x, hx, rfl⟩)
    exact (recAt_setAt_other hr hs this).trans ((h.path i hi).at x hx)

/-! ### Appending -/

theorem append_str (h : Str e c lay pl P X) {i : Nat} (hi : i < c.nb) (hX : X i = none) {nr : Rec} (hg : GoodRec c nr)
    (hch : nr.child < lay.end_ c) (ho : c.inPlace = true → nr.op ≠ .remove) (hh : e.hash nr.key c.nb = i) :
    WrOk c lay (.append nr) ∧ Frame e c lay (applyL c lay (.append nr)) P X i ∧
    Str e c (applyL c lay (.append nr)) pl P (upd X i (some (lay.end_ c))) ∧
    (∀ x ∈ P i, recAt c (recordBase c) (applyL c lay (.append nr)).recs x.1 = some x.2) ∧
    recAt c (recordBase c) (applyL c lay (.append nr)).recs (lay.end_ c) = some nr := by
  have hwr : WrOk c lay (.append nr) := ⟨hg, hch⟩
  have hnone : recAt c (recordBase c) lay.recs (lay.end_ c) = none := by
    cases hh : recAt c (recordBase c) lay.recs (lay.end_ c) with
    | none => rfl
    | some r => have := recAt_lt hh; have := size_pos (c := c) r; simp only [Lay.end_] at *; omega
  have hself : recAt c (recordBase c) (applyL c lay (.append nr)).recs (lay.end_ c) = some nr := recAt_new _ _
  have hF : Frame e c lay (applyL c lay (.append nr)) P X i := by
    refine ⟨fun j _ => rfl, fun o r h1 _ _ => recAt_append_left _ h1, fun _ k hk => ?_, fun _ _ h1 => applyL_bnd hwr h1⟩
    show contents (lay.recs ++ [nr]) k = _
    rw [contents_append]
    exact Rec.apply_other _ fun e1 => hk (by rw [e1]; exact hh)
  refine ⟨hwr, hF, h.write hF hi (fun _ _ => rfl) (fun j hj => upd_ne hj) (h.base.applyL hwr) ((h.path i hi).append nr) (h.home i hi)
    (fun hm => h.keys hm i hi) ?_ (fun b hb => .inl hb) h.poolNodup ?_ (fun o' h1 => .inl h1) ?_, ?_, hself⟩
  · intro hm x hx
    rcases List.mem_append.1 hx with hx | hx
    · exact h.noRem hm x hx
    · rw [List.mem_singleton.1 hx]; exact ho hm
  · intro o' h1
    rw [upd_eq] at h1
    injection h1 with h1
    subst h1
    refine ⟨.inl hnone, ⟨nr, hself⟩, ?_, ?_⟩
    · intro h2
      obtain ⟨x, hx, ex⟩ := List.mem_map.1 h2
      have := (h.path i hi).at x hx
      rw [ex, hnone] at this; cases this
    · intro h2
      obtain ⟨b, hb, eb⟩ := List.mem_map.1 h2
      obtain ⟨r, hr, _⟩ := h.pool b hb
      rw [eb, hnone] at hr; cases hr
  · intro _ o' r h1 h2
    rcases recAt_append_inv h1 with h3 | ⟨h3, _⟩
    · by_cases h4 : o' ∈ (P i).map (·.1)
      · exact .inl h4
      · exact .inr (.inr ⟨h3, h4, by rw [hX]; simp⟩)
    · exact .inr (.inl (by rw [upd_eq, h3]; rfl))
  · intro x hx
    exact recAt_append_left _ ((h.path i hi).at x hx)

/-! ### The pool -/

theorem take_str (h : Str e c lay pl P X) {i : Nat} (hi : i < c.nb) (hX : X i = none) {fb : FB} {rest : List FB} (h1 : fb ∈ pl)
    (h2 : ∀ x ∈ rest, x ∈ pl ∧ x.off ≠ fb.off) (h3 : (rest.map (·.off)).Nodup) : Str e c lay rest P (upd X i (some fb.off)) := by
  obtain ⟨r, hr, hv, _⟩ := h.pool fb h1
  refine h.write (.refl _ _ _ i) hi (fun _ _ => rfl) (fun j hj => upd_ne hj) h.base (h.path i hi) (h.home i hi)
    (fun hm => h.keys hm i hi) h.noRem (fun b hb => .inl (h2 b hb).1) h3 ?_ (fun o' h1 => .inl h1) ?_
  · intro o ho
    rw [upd_eq] at ho
    injection ho with ho
    subst ho
    refine ⟨.inr (.inr (.inr (List.mem_map.2 ⟨fb, h1, rfl⟩))), ⟨r, hr⟩, ?_, ?_⟩
    · intro h4
      obtain ⟨x, hx, ex⟩ := List.mem_map.1 h4
      have := (h.path i hi).at x hx
      rw [ex, hr] at this
      injection this with this
      exact (h.home i hi x hx).1 (this ▸ hv)
    · intro h4
      obtain ⟨x, hx, ex⟩ := List.mem_map.1 h4
      exact (h2 x hx).2 ex
  · intro _ o r' h4 _
    by_cases h5 : o ∈ (P i).map (·.1)
    · exact .inl h5
    · exact .inr (.inr ⟨h4, h5, by rw [hX]; simp⟩)

theorem give_str (h : Str e c lay pl P X) {i : Nat} (hi : i < c.nb) {o size : Nat} (hX : X i = some o) {r0 : Rec}
    (hr : recAt c (recordBase c) lay.recs o = some r0) (hv : r0.op = .void) (hs : size = r0.size c) {rest : List FB}
    (h2 : ∀ x ∈ rest, x = ⟨o, size⟩ ∨ x ∈ pl) (h3 : (rest.map (·.off)).Nodup) : Str e c lay rest P (upd X i none) := by
  refine h.write (.refl _ _ _ i) hi (fun _ _ => rfl) (fun j hj => upd_ne hj) h.base (h.path i hi) (h.home i hi)
    (fun hm => h.keys hm i hi) h.noRem ?_ h3 ?_ (fun o' h1 => .inl h1) ?_
  · intro b hb
    rcases h2 b hb with rfl | h4
    · exact .inr ⟨hX, r0, hr, hv, hs.symm⟩
    · exact .inl h4
  · intro o' ho; rw [upd_eq] at ho; cases ho
  · intro _ o' r' h4 h5
    by_cases h6 : o' ∈ (P i).map (·.1)
    · exact .inl h6
    · refine .inr (.inr ⟨h4, h6, ?_⟩)
      rw [hX]; intro e1
      injection e1 with e1
      rw [← e1, hr] at h4
      injection h4 with h4
      exact h5 (h4 ▸ hv)

/-! ### Unlinking and linking -/

theorem unlink_str (h : Str e c lay pl P X) {i : Nat} (hi : i < c.nb) (hm : c.inPlace = true) (hX : X i = none) {a b : List (Nat × Rec)}
    {cur : Nat} {r0 : Rec} (hP : P i = a ++ (cur, r0) :: b) :
    ∃ a', a'.map shape = a.map shape ∧ WrOk c lay (Hash.linkWr (lastOff a 0) i r0.child) ∧
      Frame e c lay (applyL c lay (Hash.linkWr (lastOff a 0) i r0.child)) P X i ∧
      Str e c (applyL c lay (Hash.linkWr (lastOff a 0) i r0.child)) pl (upd P i (a' ++ b)) (upd X i (some cur)) ∧
      recAt c (recordBase c) (applyL c lay (Hash.linkWr (lastOff a 0) i r0.child)).recs cur = some r0 := by
  have hp := h.path i hi
  rw [hP] at hp
  have hr : recAt c (recordBase c) lay.recs cur = some r0 := hp.at (cur, r0) (by simp)
  have hnd := hp.nodup
  simp only [List.map_append, List.map_cons, List.nodup_append, List.nodup_cons, List.mem_cons] at hnd
  obtain ⟨n1, ⟨n2, n3⟩, n4⟩ := hnd
  have na : cur ∉ a.map (·.1) := fun h1 => n4 cur h1 cur (.inl rfl) rfl
  have hg := h.base.recs r0 (recAt_mem hr)
  have R := relink_spec h.base hi hp n1 hp.tail
    (by by_cases ha : a = []
        · exact .inl ha
        · exact .inr fun h1 => n4 _ (lastOff_mem a 0 ha) _ (.inr h1) rfl) ⟨hg.1.child, hg.2⟩
  obtain ⟨a', hsh, hpath⟩ := relinked_shape R hp
  have hcur := relinked_keep R hr na
  have hF : Frame e c lay (applyL c lay (Hash.linkWr (lastOff a 0) i r0.child)) P X i := by
    refine ⟨R.other, ?_, (fun h1 => by rw [hm] at h1; cases h1), fun _ _ h1 => applyL_bnd R.wr h1⟩
    intro o r h1 h2 _
    exact relinked_keep R h1 fun h3 => h2 (by rw [hP]; simp only [List.map_append, List.mem_append]; exact .inl h3)
  refine ⟨a', hsh, R.wr, hF, ?_, hcur⟩
  have hfst := shape_fst hsh
  have hh := h.home i hi
  rw [hP] at hh
  refine h.write hF hi (fun j hj => upd_ne hj) (fun j hj => upd_ne hj) (h.base.applyL R.wr) (by rw [upd_eq]; exact hpath) ?_ ?_ ?_
    (fun b hb => .inl hb) h.poolNodup ?_ ?_ ?_
  · rw [upd_eq]
    intro x hx
    rcases List.mem_append.1 hx with h1 | h1
    · obtain ⟨z, hz, _, e2, e3⟩ := shape_mem hsh h1
      rw [← e2, ← e3]; exact hh z (by simp [hz])
    · exact hh x (by simp [h1])
  · intro _
    rw [upd_eq]
    have := h.keys hm i hi
    rw [hP] at this
    rw [List.map_append, shape_key hsh]
    simp only [List.map_append, List.map_cons] at this
    exact this.sublist (List.Sublist.append_left (List.sublist_cons_self _ _) _)
  · intro _ r hr'
    obtain ⟨r', h1, h2⟩ := R.ops r hr'
    rw [h2]; exact h.noRem hm r' h1
  · intro o ho
    rw [upd_eq] at ho
    injection ho with ho
    subst ho
    refine ⟨.inr (.inr (.inl (by rw [hP]; simp))), ⟨r0, hcur⟩, ?_, notPool h hr (hh (cur, r0) (by simp)).1⟩
    rw [upd_eq, List.map_append, hfst, List.mem_append]
    rintro (h1 | h1)
    · exact na h1
    · exact n2 h1
  · intro o ho
    rw [upd_eq, List.map_append, hfst] at ho
    rw [hP]
    refine .inl ?_
    simp only [List.map_append, List.map_cons, List.mem_append, List.mem_cons] at ho ⊢
    rcases ho with h1 | h1
    · exact .inl h1
    · exact .inr (.inr h1)
  · intro _ o r h1 h2
    by_cases h3 : o ∈ (P i).map (·.1)
    · rw [hP] at h3
      simp only [List.map_append, List.map_cons, List.mem_append, List.mem_cons] at h3
      rw [upd_eq, upd_eq, List.map_append, hfst]
      rcases h3 with h3 | h3 | h3
      · exact .inl (List.mem_append.2 (.inl h3))
      · exact .inr (.inl (by rw [h3]))
      · exact .inl (List.mem_append.2 (.inr h3))
    · refine .inr (.inr ⟨relinked_back R h1 h2 fun h4 => h3 ?_, h3, by rw [hX]; simp⟩)
      rw [hP]; simp only [List.map_append, List.mem_append]; exact .inl h4

theorem link_str (hc : CfgOk c) (h : Str e c lay pl P X) {i : Nat} (hi : i < c.nb) {new parent : Nat} (hX : X i = some new) {nr : Rec} {old : Old}
    (hr : recAt c (recordBase c) lay.recs new = some nr) {a cut b : List (Nat × Rec)} (hR : Relo e c lay P reg i parent nr old a cut b) :
    ∃ a', a'.map shape = a.map shape ∧ WrOk c lay (Hash.linkWr (lastOff a 0) i new) ∧
      Frame e c lay (applyL c lay (Hash.linkWr (lastOff a 0) i new)) P X i ∧
      Str e c (applyL c lay (Hash.linkWr (lastOff a 0) i new)) pl (upd P i (a' ++ (new, nr) :: b)) (upd X i (old.map (·.1))) ∧
      (∀ o s, old = some (o, s) → ∃ r0, recAt c (recordBase c) (applyL c lay (Hash.linkWr (lastOff a 0) i new)).recs o = some r0 ∧ s = r0.size c) ∧
      contents (applyL c lay (Hash.linkWr (lastOff a 0) i new)).recs = contents lay.recs := by
  have hp := h.path i hi
  have hn := h.xChain i i new hi hi hX
  rw [hR.split] at hp hn
  have hnd := hp.nodup
  simp only [List.map_append, List.nodup_append, List.mem_append] at hnd hn
  obtain ⟨n1, ⟨n2, n3, n4⟩, n5⟩ := hnd
  rw [not_or, not_or] at hn
  have hq : Path c lay.recs new ((new, nr) :: b) := ⟨rfl, hr, hR.path⟩
  have R := relink_spec h.base hi hp n1 hq
    (by by_cases ha : a = []
        · exact .inl ha
        · refine .inr fun h1 => ?_
          simp only [List.map_cons, List.mem_cons] at h1
          rcases h1 with h1 | h1
          · exact hn.1 (h1 ▸ lastOff_mem a 0 ha)
          · exact n5 _ (lastOff_mem a 0 ha) _ (.inr h1) rfl) (path_head_ok hc h.base hq)
  obtain ⟨a', hsh, hpath⟩ := relinked_shape R hp
  have hcont : contents (applyL c lay (Hash.linkWr (lastOff a 0) i new)).recs = contents lay.recs := by
    apply contents_link
    simp only [Hash.linkWr]
    split
    · exact .inl ⟨_, _, rfl⟩
    · exact .inr ⟨_, _, rfl⟩
  have hF : Frame e c lay (applyL c lay (Hash.linkWr (lastOff a 0) i new)) P X i := by
    refine ⟨R.other, ?_, (fun _ k _ => by rw [hcont]), fun _ _ h1 => applyL_bnd R.wr h1⟩
    intro o r h1 h2 _
    exact relinked_keep R h1 fun h3 => h2 (by rw [hR.split]; simp only [List.map_append, List.mem_append]; exact .inl h3)
  have hfst := shape_fst hsh
  have hh := h.home i hi
  rw [hR.split] at hh
  have hcut : ∀ o s, old = some (o, s) → ∃ r0, cut = [(o, r0)] ∧ s = r0.size c ∧ recAt c (recordBase c) lay.recs o = some r0 ∧
      r0.op ≠ .void ∧ o ∉ a.map (·.1) ∧ o ∉ b.map (·.1) := by
    intro o s h1
    rcases hR.old with ⟨h2, _⟩ | ⟨cur, r0, h2, h3, _⟩
    · rw [h2] at h1; cases h1
    · rw [h2] at h1
      injection h1 with h1
      injection h1 with e1 e2
      subst e1
      refine ⟨r0, h3, e2.symm, hp.at (cur, r0) (by simp [h3]), (hh (cur, r0) (by simp [h3])).1, ?_, ?_⟩
      · intro h4; exact n5 _ h4 cur (.inl (by simp [h3])) rfl
      · intro h4; exact n4 cur (by simp [h3]) cur h4 rfl
  refine ⟨a', hsh, R.wr, hF, ?_, ?_, hcont⟩
  · refine h.write hF hi (fun j hj => upd_ne hj) (fun j hj => upd_ne hj) (h.base.applyL R.wr) (by rw [upd_eq]; exact hpath) ?_ ?_ ?_
      (fun b hb => .inl hb) h.poolNodup ?_ ?_ ?_
    · rw [upd_eq]
      intro x hx
      rcases List.mem_append.1 hx with h1 | h1
      · obtain ⟨z, hz, _, e2, e3⟩ := shape_mem hsh h1
        rw [← e2, ← e3]; exact hh z (by simp [hz])
      · rcases List.mem_cons.1 h1 with rfl | h1
        · exact ⟨hR.op, hR.home⟩
        · exact hh x (by simp [h1])
    · intro hm
      rw [upd_eq]
      have := h.keys hm i hi
      rw [hR.split] at this
      rw [List.map_append, shape_key hsh]
      have hk := (hR.ip hm).2
      simp only [List.map_append, List.map_cons, List.nodup_append, List.nodup_cons, List.mem_append, List.mem_cons] at this ⊢
      refine ⟨this.1, ⟨?_, this.2.1.2.1⟩, ?_⟩
      · intro h1
        obtain ⟨x, hx, ex⟩ := List.mem_map.1 h1
        exact hk x (by simp [hx]) ex
      · rintro k1 h1 k2 (h2 | h2)
        · obtain ⟨x, hx, ex⟩ := List.mem_map.1 h1
          rw [h2, ← ex]; exact hk x (by simp [hx])
        · exact this.2.2 k1 h1 k2 (.inr h2)
    · intro hm r hr'
      obtain ⟨r', h1, h2⟩ := R.ops r hr'
      rw [h2]; exact h.noRem hm r' h1
    · intro o ho
      rw [upd_eq] at ho
      cases hold : old with
      | none => rw [hold] at ho; cases ho
      | some os =>
        obtain ⟨o', s⟩ := os
        rw [hold] at ho
        simp only [Option.map_some, Option.some.injEq] at ho
        subst ho
        obtain ⟨r0, c1, _, c3, c4, c5, c6⟩ := hcut _ _ hold
        refine ⟨.inr (.inr (.inl (by rw [hR.split, c1]; simp))), ⟨r0, relinked_keep R c3 c5⟩, ?_, notPool h c3 c4⟩
        rw [upd_eq, List.map_append, hfst, List.mem_append]
        rintro (h1 | h1)
        · exact c5 h1
        · simp only [List.map_cons, List.mem_cons] at h1
          rcases h1 with h1 | h1
          · exact hn.2.1 (by rw [← h1, c1]; simp)
          · exact c6 h1
    · intro o ho
      rw [upd_eq, List.map_append, hfst] at ho
      rw [hR.split]
      simp only [List.map_append, List.map_cons, List.mem_append, List.mem_cons] at ho ⊢
      rcases ho with h1 | h1 | h1
      · exact .inl (.inl h1)
      · exact .inr (by rw [h1]; exact hX)
      · exact .inl (.inr (.inr h1))
    · intro hm o r h1 h2
      rw [upd_eq, upd_eq, List.map_append, hfst, List.map_cons]
      by_cases hon : o = new
      · exact .inl (by simp [hon])
      by_cases h3 : o ∈ (P i).map (·.1)
      · rw [hR.split] at h3
        simp only [List.map_append, List.mem_append] at h3
        rcases h3 with h3 | h3 | h3
        · exact .inl (List.mem_append.2 (.inl h3))
        · rcases hR.old with ⟨_, h4⟩ | ⟨cur, r0, h4, h5, _⟩
          · rw [h4 hm] at h3; cases h3
          · rw [h5] at h3
            simp at h3
            exact .inr (.inl (by rw [h4, h3]; rfl))
        · exact .inl (by simp only [List.mem_append, List.mem_cons]; exact .inr (.inr h3))
      · refine .inr (.inr ⟨relinked_back R h1 h2 fun h4 => h3 ?_, h3, by rw [hX]; intro e1; injection e1 with e1; exact hon e1.symm⟩)
        rw [hR.split]; simp only [List.map_append, List.mem_append]; exact .inl h4
  · intro o s hold
    obtain ⟨r0, _, c2, c3, _, c5, _⟩ := hcut _ _ hold
    exact ⟨r0, relinked_keep R c3 c5, c2⟩

end Verif.Hash.Conc
