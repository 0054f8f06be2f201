import Verif.Hash.RebuildConc
import Verif.Hash.SyncRestore
/-
A rebuild while other threads update the database.
-/
namespace Verif.Hash
open Verif.Codec

variable {e : Env} {c : Cfg}

/-! ### What the rebuilding thread reads -/

/-- The file has the records `y` after the records `x`, whatever comes before and after. -/
def Shows (e : Env) (c : Cfg) (f : Bytes) (x y : List Rec) : Prop :=
  ∀ y1 r y2, y = y1 ++ r :: y2 → ∃ P Q : Bytes, P.length = recordBase c + totalSize c (x ++ y1) ∧ f = P ++ (recBytes e c r ++ Q)

theorem render_shows (hc : CfgOk c) {pre mid : Bytes} (hf : FrameOk c pre mid) {L : Lay} (hn : L.buckets.length = c.nb)
    {x y z : List Rec} (h : L.recs = x ++ (y ++ z)) : Shows e c (render e c pre mid L) x y := by
  intro y1 r y2 hy
  have hat : recAt c (recordBase c) L.recs (recordBase c + totalSize c (x ++ y1)) = some r := by
    rw [h, hy]
    have := recAt_mid (c := c) (recordBase c) (x ++ y1) (y2 ++ z) r
    simpa using this
  obtain ⟨P, Q, hP, e1, _⟩ := render_rec (e := e) hc hf hn hat
  exact ⟨P, Q, hP, e1⟩

/-- A record that can be read back. -/
def Readable (c : Cfg) (r : Rec) : Prop := FmtRec c r ∧ r.child < 2 ^ (8 * c.ow + c.ap)

theorem read_shown (he : EnvOk e) (hc : CfgOk c) {f : Bytes} {x y y1 y2 : List Rec} {r : Rec} (h : Shows e c f x y) (hy : y = y1 ++ r :: y2)
    (hr : Readable c r) :
    ∃ m, readMeta c f (recordBase c + totalSize c (x ++ y1)) metaMinReadSize = some m ∧
      checkCrc e c f (recordBase c + totalSize c (x ++ y1)) m = true ∧
      readValue f (recordBase c + totalSize c (x ++ y1)) m = some r.value ∧ m.op = r.op ∧ m.key = r.key ∧ m.whole = r.size c := by
  obtain ⟨P, Q, hP, e1⟩ := h y1 r y2 hy
  obtain ⟨m, h1, h2, h3, h4, h5, h6, h7, h8, h9, h10, h11, h12⟩ := readMeta_rec he hc hr.1 hr.2 P Q (Nat.le_refl metaMinReadSize)
  rw [← hP, e1]
  refine ⟨m, h1, ?_, h12, h2, h11, h10⟩
  simp only [checkCrc, h12, h3, h11, decide_true, Bool.true_and]
  by_cases hz : c.cw = 0
  · simp [hz]
  · simp [hz, h8 (by omega)]

theorem scanAt_spec (he : EnvOk e) (hc : CfgOk c) {snap : Nat → Bytes} {x y : List Rec} (hs : ∀ i, Shows e c (snap i) x y)
    (hr : ∀ r ∈ y, Readable c r) : ∀ (y2 y1 : List Rec) (n i : Nat), y = y1 ++ y2 → y2.length < n →
      scanAt e c snap (recordBase c + totalSize c (x ++ y)) n i (recordBase c + totalSize c (x ++ y1)) = some (y2.map Rec.ent) := by
  intro y2
  induction y2 with
  | nil =>
    intro y1 n i h hn
    obtain ⟨n, rfl⟩ : ∃ k, n = k + 1 := ⟨n - 1, by simp at hn; omega⟩
    rw [List.append_nil] at h
    subst h
    simp [scanAt]
  | cons r y2 ih =>
    intro y1 n i h hn
    obtain ⟨n, rfl⟩ : ∃ k, n = k + 1 := ⟨n - 1, by simp at hn; omega⟩
    obtain ⟨m, h1, h2, h3, h4, h5, h6⟩ := read_shown he hc (hs i) h (hr r (by rw [h]; simp))
    have hlt : recordBase c + totalSize c (x ++ y1) < recordBase c + totalSize c (x ++ y) := by
      have := size_pos (c := c) r
      rw [h]
      simp only [totalSize_app, totalSize]; omega
    simp only [scanAt, if_pos hlt, h1, h2, h3, h4, h5, h6, if_true]
    have := ih (y1 ++ [r]) n (i + 1) (by rw [h]; simp) (by simp at hn; omega)
    have e1 : recordBase c + totalSize c (x ++ (y1 ++ [r])) = recordBase c + totalSize c (x ++ y1) + r.size c := by
      simp only [totalSize_app, totalSize]; omega
    rw [e1] at this
    rw [this]
    rfl

theorem extractAt_spec (he : EnvOk e) (hc : CfgOk c) {snap : Nat → Bytes} {y : List Rec} (hs : ∀ i, Shows e c (snap i) [] y)
    (hr : ∀ r ∈ y, Readable c r) (ho : ∀ y1 r y2, y = y1 ++ r :: y2 → (recordBase c + totalSize c y1) % (1 <<< c.ap) = 0 ∧
      recordBase c + totalSize c y1 < 2 ^ (8 * c.ow + c.ap)) : ∀ (y2 y1 : List Rec) (n i : Nat), y = y1 ++ y2 → y2.length < n →
      ∃ j, extractAt c snap (recordBase c + totalSize c y) n i (recordBase c + totalSize c y1) =
        some (offsFrom c (recordBase c + totalSize c y1) y2, j) := by
  intro y2
  induction y2 with
  | nil =>
    intro y1 n i h hn
    obtain ⟨n, rfl⟩ : ∃ k, n = k + 1 := ⟨n - 1, by simp at hn; omega⟩
    rw [List.append_nil] at h
    subst h
    exact ⟨i, by simp [extractAt, offsFrom]⟩
  | cons r y2 ih =>
    intro y1 n i h hn
    obtain ⟨n, rfl⟩ : ∃ k, n = k + 1 := ⟨n - 1, by simp at hn; omega⟩
    obtain ⟨m, h1, h2, h3, h4, h5, h6⟩ := read_shown he hc (hs i) h (hr r (by rw [h]; simp))
    simp only [List.nil_append] at h1 h2 h3
    have hlt : recordBase c + totalSize c y1 < recordBase c + totalSize c y := by
      have := size_pos (c := c) r
      rw [h]
      simp only [totalSize_app, totalSize]; omega
    obtain ⟨j, hj⟩ := ih (y1 ++ [r]) n (i + 1) (by rw [h]; simp) (by simp at hn; omega)
    have e1 : recordBase c + totalSize c (y1 ++ [r]) = recordBase c + totalSize c y1 + r.size c := by
      simp only [totalSize_app, totalSize]; omega
    rw [e1] at hj
    refine ⟨j, ?_⟩
    simp only [extractAt, if_pos hlt, h1, h4, h6, hj]
    obtain ⟨ho1, ho2⟩ := ho y1 r y2 h
    simp only [offsFrom, offset_rt hc ho1 ho2]

theorem readEntsAt_spec (he : EnvOk e) (hc : CfgOk c) {snap : Nat → Bytes} {y : List Rec} (hs : ∀ i, Shows e c (snap i) [] y)
    (hr : ∀ r ∈ y, Readable c r) : ∀ (l : List (Nat × Rec)) (i : Nat),
      (∀ q ∈ l, ∃ y1 y2, y = y1 ++ q.2 :: y2 ∧ q.1 = recordBase c + totalSize c y1) →
      readEntsAt e c snap i (l.map (·.1)) = some (l.map fun q => q.2.ent) := by
  intro l
  induction l with
  | nil => intro i _; rfl
  | cons q l ih =>
    intro i h
    obtain ⟨o, r⟩ := q
    obtain ⟨y1, y2, hy, ho⟩ := h (o, r) (by simp)
    dsimp only at hy ho
    subst ho
    obtain ⟨m, h1, h2, h3, h4, h5, h6⟩ := read_shown he hc (hs i) hy (hr r (by rw [hy]; simp))
    simp only [List.nil_append] at h1 h2 h3
    simp only [List.map_cons, readEntsAt, h1, h2, h3, h4, h5, if_true]
    rw [ih (i + 1) fun q hq => h q (by simp [hq])]
    rfl

/-- The offsets with the records. -/
def offsRecs (c : Cfg) : Nat → List Rec → List (Nat × Rec)
  | _, [] => []
  | o, r :: rs => if r.op = .void then offsRecs c (o + r.size c) rs else (o, r) :: offsRecs c (o + r.size c) rs

theorem offsRecs_fst (y : List Rec) : ∀ o, (offsRecs c o y).map (·.1) = offsFrom c o y := by
  induction y with
  | nil => intro o; rfl
  | cons r y ih => intro o; simp only [offsRecs, offsFrom]; split <;> simp [ih]

theorem offsRecs_snd (y : List Rec) : ∀ o, (offsRecs c o y).map (fun q => q.2.ent) = (y.filter fun r => r.op ≠ .void).map Rec.ent := by
  induction y with
  | nil => intro o; rfl
  | cons r y ih =>
    intro o
    simp only [offsRecs, List.filter_cons]
    by_cases h : r.op = .void
    · simp only [h, if_true, ne_eq, not_true, decide_false, Bool.false_eq_true, if_false]; exact ih _
    · simp only [h, if_false, ne_eq, not_false_eq_true, decide_true, if_true, List.map_cons, ih]

theorem offsRecs_mem (y : List Rec) : ∀ y1, ∀ q ∈ offsRecs c (recordBase c + totalSize c y1) y, ∃ a b, y1 ++ y = a ++ q.2 :: b ∧ q.1 = recordBase c + totalSize c a := by
  induction y with
  | nil => intro y1 q hq; simp [offsRecs] at hq
  | cons r y ih =>
    intro y1 q hq
    have e1 : recordBase c + totalSize c y1 + r.size c = recordBase c + totalSize c (y1 ++ [r]) := by
      simp only [totalSize_app, totalSize]; omega
    have hrest : q ∈ offsRecs c (recordBase c + totalSize c y1 + r.size c) y → ∃ a b, y1 ++ r :: y = a ++ q.2 :: b ∧ q.1 = recordBase c + totalSize c a := by
      intro hq
      rw [e1] at hq
      obtain ⟨a, b, h1, h2⟩ := ih (y1 ++ [r]) q hq
      exact ⟨a, b, by rw [← h1]; simp, h2⟩
    simp only [offsRecs] at hq
    split at hq
    · exact hrest hq
    · rcases List.mem_cons.1 hq with rfl | hq
      · exact ⟨y1, y, rfl, rfl⟩
      · exact hrest hq

theorem importFirst_spec (he : EnvOk e) (hc : CfgOk c) {snap : Nat → Bytes} {y : List Rec} (hs : ∀ i, Shows e c (snap i) [] y)
    (hr : ∀ r ∈ y, Readable c r) (ho : ∀ y1 r y2, y = y1 ++ r :: y2 → (recordBase c + totalSize c y1) % (1 <<< c.ap) = 0 ∧
      recordBase c + totalSize c y1 < 2 ^ (8 * c.ow + c.ap)) (ip : Bool) (tmp : State) :
    importFirst e c snap ip (recordBase c + totalSize c y) tmp = some
      (if ip then importForward (impl e) tmp (y.map Rec.ent)
        else importBackward (impl e) tmp ((y.filter fun r => r.op ≠ .void).map Rec.ent).reverse) := by
  have hl := length_le_total (c := c) y
  unfold importFirst
  cases ip with
  | true =>
    have := scanAt_spec he hc hs hr y [] (recordBase c + totalSize c y + 1) 0 rfl (by omega)
    simp only [List.nil_append, totalSize, Nat.add_zero] at this
    simp only [if_true, this, Option.map_some]
  | false =>
    obtain ⟨j, hj⟩ := extractAt_spec he hc hs hr ho y [] (recordBase c + totalSize c y + 1) 0 rfl (by omega)
    simp only [totalSize, Nat.add_zero] at hj
    simp only [Bool.false_eq_true, if_false, hj]
    have := readEntsAt_spec he hc hs hr (offsRecs c (recordBase c) y).reverse j (by
      intro q hq
      obtain ⟨a, b, h1, h2⟩ := offsRecs_mem (c := c) y [] q (by simpa [totalSize] using hq)
      exact ⟨a, b, by simpa using h1, h2⟩)
    rw [List.map_reverse, List.map_reverse, offsRecs_fst, offsRecs_snd] at this
    rw [this]
    rfl

/-! ### The calls of the other threads -/

/-- SPECIFICATION: the calls on a dictionary. -/
def Dict.calls (d : Dict) : List Call → Dict × List Out
  | [] => (d, [])
  | a :: l =>
    let x := d.process a.key a.writable a.proc
    let y := Dict.calls x.1 l
    (y.1, x.2 :: y.2)

/-- SPECIFICATION: the size limits along a series of calls. -/
def CallsFit (d : Dict) : List Call → Prop
  | [] => True
  | a :: l => ActFits hashFits a.key (a.proc (d a.key)).1 ∧ CallsFit (d.process a.key a.writable a.proc).1 l

theorem calls_append (l1 l2 : List Call) : ∀ d : Dict, Dict.calls d (l1 ++ l2) =
    ((Dict.calls (Dict.calls d l1).1 l2).1, (Dict.calls d l1).2 ++ (Dict.calls (Dict.calls d l1).1 l2).2) := by
  induction l1 with
  | nil => intro d; rfl
  | cons a l1 ih => intro d; simp only [List.cons_append, Dict.calls, ih]

theorem callsFit_append (l1 l2 : List Call) : ∀ d : Dict, CallsFit d (l1 ++ l2) ↔ CallsFit d l1 ∧ CallsFit (Dict.calls d l1).1 l2 := by
  induction l1 with
  | nil => intro d; simp [CallsFit, Dict.calls]
  | cons a l1 ih => intro d; simp only [List.cons_append, CallsFit, Dict.calls, ih, and_assoc]

theorem runCalls_append (l1 l2 : List Call) : ∀ s : State, runCalls e s (l1 ++ l2) =
    ((runCalls e (runCalls e s l1).1 l2).1, (runCalls e s l1).2 ++ (runCalls e (runCalls e s l1).1 l2).2) := by
  induction l1 with
  | nil => intro s; rfl
  | cons a l1 ih => intro s; simp only [List.cons_append, runCalls, ih]

theorem runCalls_grow (l : List Call) : ∀ s : State, s.file.length ≤ (runCalls e s l).1.file.length ∧ (runCalls e s l).1.cfg = s.cfg := by
  induction l with
  | nil => intro s; exact ⟨Nat.le_refl _, rfl⟩
  | cons a l ih =>
    intro s
    have h1 := process_grow (e := e) s a.key a.writable a.proc
    have h2 := ih (process e s a.key a.writable a.proc).1
    simp only [runCalls]
    exact ⟨Nat.le_trans h1.1 h2.1, h2.2.trans h1.2⟩

/-- What a series of calls does in the appending mode. -/
structure Ran (e : Env) (t t' : LSt) (l : List Call) : Prop where
  inv : t'.Inv e
  cfg : t'.cfg = t.cfg
  view : t'.view = (Dict.calls t.view l).1
  grow : ∃ rs, t'.lay.recs = t.lay.recs ++ rs
  log : ∃ u, t'.mem.log = t.mem.log ++ u ∧ t.view.replay u = t'.view

theorem runCalls_spec (he : EnvOk e) (l : List Call) : ∀ {t : LSt}, t.Inv e → t.cfg.inPlace = false → CallsFit t.view l →
    (runCalls e (t.toState e) l).1.Room →
    (∃ t', (runCalls e (t.toState e) l).1 = t'.toState e ∧ (runCalls e (t.toState e) l).2 = (Dict.calls t.view l).2 ∧ Ran e t t' l) ∧
    ∀ f, Moment e (t.toState e) l f → Shows e t.cfg f [] t.lay.recs := by
  induction l with
  | nil =>
    intro t hi hm _ hr
    refine ⟨⟨t, rfl, rfl, hi, rfl, rfl, ⟨[], by simp⟩, [], by simp, rfl⟩, ?_⟩
    intro f hf
    cases hf with
    | now => exact render_shows hi.cfg hi.frame hi.inv.base.nb (z := []) (by simp)
  | cons a l ih =>
    intro t hi hm hf hr
    simp only [runCalls] at hr ⊢
    have hr0 : (t.toState e).Room := by
      have h1 := process_grow (e := e) (t.toState e) a.key a.writable a.proc
      have h2 := runCalls_grow (e := e) l (process e (t.toState e) a.key a.writable a.proc).1
      exact room_mono ⟨Nat.le_trans h1.1 h2.1, h2.2.trans h1.2⟩ hr
    have hsim := process_sim he hi hr0 a.key a.writable a.proc hf.1
    obtain ⟨h1, h2⟩ := processL_spec he hi a.key a.writable a.proc hf.1
    obtain ⟨rs, hrs⟩ := processL_grows he hi hm a.key a.writable a.proc hf.1
    rw [hsim] at hr ⊢
    have hv : (processL e t a.key a.writable a.proc).1.view = (t.view.process a.key a.writable a.proc).1 := by rw [h2.view]; rfl
    obtain ⟨⟨t', g1, g2, g3⟩, g4⟩ := ih h2.inv (by rw [h2.cfg]; exact hm) (by rw [hv]; exact hf.2) hr
    refine ⟨⟨t', g1, ?_, g3.inv, g3.cfg.trans h2.cfg, ?_, ?_, ?_⟩, ?_⟩
    · simp only [Dict.calls]
      rw [g2, h1, hv]
      rfl
    · rw [g3.view, hv]; rfl
    · obtain ⟨rs', h⟩ := g3.grow
      exact ⟨rs ++ rs', by rw [h, hrs, List.append_assoc]⟩
    · obtain ⟨u, hu1, hu2⟩ := h2.log
      obtain ⟨u', hv1, hv2⟩ := g3.log
      refine ⟨u ++ u', by rw [hv1, hu1, List.append_assoc], ?_⟩
      rw [show t.view.replay (u ++ u') = (t.view.replay u).replay u' from by simp [Dict.replay], hu2, hv2]
    · intro f hfm
      cases hfm with
      | now => exact render_shows hi.cfg hi.frame hi.inv.base.nb (z := []) (by simp)
      | during _ _ _ n _ h =>
        obtain ⟨L, rs', k1, k2, k3, _⟩ := crashFile_grows he hi hr0 hm a.key a.writable a.proc hf.1 n
        rw [k1] at h
        cases h
        exact render_shows hi.cfg hi.frame k2.nb (z := rs') (by simp [k3])
      | later _ _ _ _ h =>
        rw [hsim] at h
        have := g4 f h
        rw [h2.cfg, hrs] at this
        intro y1 r y2 hy
        exact this y1 r (y2 ++ rs) (by rw [hy]; simp)

end Verif.Hash
