import Verif.Hash.Open
import Verif.Hash.Rebuild
/-
`Rebuild` and `Clear` keep what they promise.
-/
namespace Verif.Hash
open Verif.Codec

variable {e : Env} {c : Cfg}

/-- What is read of a record. -/
def Rec.ent (r : Rec) : Ent := (r.op, r.key, r.value)

/-! ### Scanning the file -/

theorem recAt_mid (b : Nat) (x y : List Rec) (r : Rec) : recAt c b (x ++ r :: y) (b + totalSize c x) = some r := by
  have := recAt_append_left (c := c) y (recAt_new (b := b) x r)
  rwa [List.append_assoc] at this

theorem totalSize_app (x y : List Rec) : totalSize c (x ++ y) = totalSize c x + totalSize c y := by
  induction x with
  | nil => simp [totalSize]
  | cons r x ih => simp only [List.cons_append, totalSize, ih]; omega

theorem length_le_total (x : List Rec) : x.length ≤ totalSize c x := by
  induction x with
  | nil => simp
  | cons r x ih => have := size_pos (c := c) r; simp only [List.length_cons, totalSize]; omega

/-- Reading one record of the file. -/
theorem read_one (he : EnvOk e) (hc : CfgOk c) {pre mid : Bytes} (hf : FrameOk c pre mid) {L : Lay} (hb : Base c L) (hr : Room c L)
    {x y : List Rec} {r : Rec} (h : L.recs = x ++ r :: y) :
    ∃ m, readMeta c (render e c pre mid L) (recordBase c + totalSize c x) metaMinReadSize = some m ∧
      checkCrc e c (render e c pre mid L) (recordBase c + totalSize c x) m = true ∧
      readValue (render e c pre mid L) (recordBase c + totalSize c x) m = some r.value ∧ m.op = r.op ∧ m.key = r.key ∧
      m.whole = r.size c := by
  have hat : recAt c (recordBase c) L.recs (recordBase c + totalSize c x) = some r := by rw [h]; exact recAt_mid _ _ _ _
  obtain ⟨P, Q, hP, e1, _⟩ := render_rec (e := e) hc hf hb.nb hat
  have hg := hb.recs r (recAt_mem hat)
  obtain ⟨m, h1, h2, h3, h4, h5, h6, h7, h8, h9, h10, h11, h12⟩ := readMeta_rec he hc hg.1.toFmtRec
    (Nat.lt_of_lt_of_le hg.2 hr) P Q (Nat.le_refl _)
  rw [← hP, e1]
  refine ⟨m, h1, ?_, h12, h2, h11, h10⟩
  simp only [checkCrc, h12, h3, h11, decide_true, Bool.true_and]
  by_cases hz : c.cw = 0
  · simp [hz]
  · simp [hz, h8 (by omega)]

theorem scan_render (he : EnvOk e) (hc : CfgOk c) {pre mid : Bytes} (hf : FrameOk c pre mid) {L : Lay} (hb : Base c L) (hr : Room c L)
    (y : List Rec) : ∀ {x z : List Rec} {n : Nat}, L.recs = x ++ (y ++ z) → y.length < n →
      scan e c (render e c pre mid L) (recordBase c + totalSize c (x ++ y)) n (recordBase c + totalSize c x) = some (y.map Rec.ent) := by
  induction y with
  | nil =>
    intro x z n _ hn
    obtain ⟨n, rfl⟩ : ∃ k, n = k + 1 := ⟨n - 1, by simp at hn; omega⟩
    simp [scan]
  | cons r y ih =>
    intro x z n h hn
    obtain ⟨n, rfl⟩ : ∃ k, n = k + 1 := ⟨n - 1, by simp at hn; omega⟩
    obtain ⟨m, h1, h2, h3, h4, h5, h6⟩ := read_one he hc hf hb hr (e := e) (x := x) (r := r) (y := y ++ z) (by rw [h]; rfl)
    have hlt : recordBase c + totalSize c x < recordBase c + totalSize c (x ++ r :: y) := by
      have := size_pos (c := c) r
      simp only [totalSize_app, totalSize]; omega
    simp only [scan, if_pos hlt, h1, h2, h3, h4, h5, h6, if_true]
    have := ih (x := x ++ [r]) (z := z) (n := n) (by rw [h]; simp) (by simp at hn; omega)
    have e1 : recordBase c + totalSize c (x ++ [r]) = recordBase c + totalSize c x + r.size c := by
      simp only [totalSize_app, totalSize]; omega
    have e2 : x ++ [r] ++ y = x ++ r :: y := by simp
    rw [e1, e2] at this
    rw [this]
    rfl

theorem offset_rt (hc : CfgOk c) {off : Nat} (h1 : off % (1 <<< c.ap) = 0) (h2 : off < 2 ^ (8 * c.ow + c.ap)) :
    readFixNum (writeFixNum (off >>> c.ap) c.ow) c.ow <<< c.ap = off := by
  have how := hc.ow
  have := (C33_fixnum_roundtrip (off >>> c.ap) c.ow (by omega) (shift_lt h2) []).1
  rw [List.append_nil] at this
  rw [this, shift_back h1]

/-- The offsets of the records that are not void. -/
def offsFrom (c : Cfg) : Nat → List Rec → List Nat
  | _, [] => []
  | o, r :: rs => if r.op = .void then offsFrom c (o + r.size c) rs else o :: offsFrom c (o + r.size c) rs

theorem extract_render (he : EnvOk e) (hc : CfgOk c) {pre mid : Bytes} (hf : FrameOk c pre mid) {L : Lay} (hb : Base c L) (hr : Room c L)
    (y : List Rec) : ∀ {x z : List Rec} {n : Nat}, L.recs = x ++ (y ++ z) → y.length < n →
      extractOffsets c (render e c pre mid L) (recordBase c + totalSize c (x ++ y)) n (recordBase c + totalSize c x) =
        some (offsFrom c (recordBase c + totalSize c x) y) := by
  induction y with
  | nil =>
    intro x z n _ hn
    obtain ⟨n, rfl⟩ : ∃ k, n = k + 1 := ⟨n - 1, by simp at hn; omega⟩
    simp [extractOffsets, offsFrom]
  | cons r y ih =>
    intro x z n h hn
    obtain ⟨n, rfl⟩ : ∃ k, n = k + 1 := ⟨n - 1, by simp at hn; omega⟩
    have hL : L.recs = x ++ r :: (y ++ z) := by rw [h]; rfl
    obtain ⟨m, h1, h2, h3, h4, h5, h6⟩ := read_one he hc hf hb hr (e := e) (x := x) (r := r) (y := y ++ z) hL
    have hlt : recordBase c + totalSize c x < recordBase c + totalSize c (x ++ r :: y) := by
      have := size_pos (c := c) r
      simp only [totalSize_app, totalSize]; omega
    have hat : recAt c (recordBase c) L.recs (recordBase c + totalSize c x) = some r := by rw [hL]; exact recAt_mid _ _ _ _
    have hoff : recordBase c + totalSize c x < 2 ^ (8 * c.ow + c.ap) := by
      have := recAt_lt hat
      have h' := hr
      have := size_pos (c := c) r
      simp only [Room, Lay.end_] at h'; omega
    simp only [extractOffsets, if_pos hlt, h1, h4, h6]
    have := ih (x := x ++ [r]) (z := z) (n := n) (by rw [h]; simp) (by simp at hn; omega)
    have e1 : recordBase c + totalSize c (x ++ [r]) = recordBase c + totalSize c x + r.size c := by
      simp only [totalSize_app, totalSize]; omega
    have e2 : x ++ [r] ++ y = x ++ r :: y := by simp
    rw [e1, e2] at this
    rw [this]
    simp only [offsFrom, offset_rt hc (hb.off_aligned hc hat) hoff]
    split <;> rfl

theorem readEnts_append (file : Bytes) (a b : List Nat) {x y : List Ent} (ha : readEnts e c file a = some x)
    (hb : readEnts e c file b = some y) : readEnts e c file (a ++ b) = some (x ++ y) := by
  induction a generalizing x with
  | nil => simp only [readEnts, Option.some.injEq] at ha; subst ha; simpa using hb
  | cons o a ih =>
    simp only [readEnts, List.cons_append] at ha ⊢
    split at ha
    · cases ha
    · rename_i m hm
      split at ha
      · rename_i hcr
        split at ha
        · cases ha
        · rename_i v hv
          cases hx : readEnts e c file a with
          | none => rw [hx] at ha; cases ha
          | some w =>
            rw [hx] at ha
            simp only [Option.map_some, Option.some.injEq] at ha
            subst ha
            simp only [hcr, if_true, hv, ih hx]
            rfl
      · cases ha

theorem readEnts_reverse (file : Bytes) (l : List Nat) {x : List Ent} (h : readEnts e c file l = some x) :
    readEnts e c file l.reverse = some x.reverse := by
  induction l generalizing x with
  | nil => simp only [readEnts, Option.some.injEq] at h; subst h; rfl
  | cons o l ih =>
    simp only [readEnts] at h
    split at h
    · cases h
    · rename_i m hm
      split at h
      · rename_i hcr
        split at h
        · cases h
        · rename_i v hv
          cases hx : readEnts e c file l with
          | none => rw [hx] at h; cases h
          | some w =>
            rw [hx] at h
            simp only [Option.map_some, Option.some.injEq] at h
            subst h
            simp only [List.reverse_cons]
            refine readEnts_append file _ _ (ih hx) ?_
            simp only [readEnts, hm, hcr, if_true, hv, Option.map_some]
      · cases h

theorem readEnts_render (he : EnvOk e) (hc : CfgOk c) {pre mid : Bytes} (hf : FrameOk c pre mid) {L : Lay} (hb : Base c L) (hr : Room c L)
    (y : List Rec) : ∀ {x z : List Rec}, L.recs = x ++ (y ++ z) →
      readEnts e c (render e c pre mid L) (offsFrom c (recordBase c + totalSize c x) y) =
        some ((y.filter fun r => r.op ≠ .void).map Rec.ent) := by
  induction y with
  | nil => intro x z _; rfl
  | cons r y ih =>
    intro x z h
    have hL : L.recs = x ++ r :: (y ++ z) := by rw [h]; rfl
    obtain ⟨m, h1, h2, h3, h4, h5, h6⟩ := read_one he hc hf hb hr (e := e) (x := x) (r := r) (y := y ++ z) hL
    have := ih (x := x ++ [r]) (z := z) (by rw [h]; simp)
    have e1 : recordBase c + totalSize c (x ++ [r]) = recordBase c + totalSize c x + r.size c := by
      simp only [totalSize_app, totalSize]; omega
    rw [e1] at this
    by_cases hv : r.op = .void
    · simp only [offsFrom, hv, if_true, List.filter_cons, ne_eq, not_true, decide_false, Bool.false_eq_true, if_false]
      exact this
    · rw [offsFrom, if_neg hv]
      simp only [List.filter_cons, ne_eq, hv, not_false_eq_true, decide_true, if_true, readEnts, h1, h2, h3, h4, h5,
        Option.map_some, List.map_cons]
      rw [this]
      rfl

/-- What `RebuildImpl` reads of a file. -/
theorem rebuildEnts_render (he : EnvOk e) (hc : CfgOk c) {pre mid : Bytes} (hf : FrameOk c pre mid) {L : Lay} (hb : Base c L) (hr : Room c L)
    {a b : List Rec} (h : L.recs = a ++ b) (ip : Bool) :
    rebuildEnts e c (render e c pre mid L) ip (recordBase c + totalSize c a) =
      some (if ip then a.map Rec.ent else ((a.filter fun r => r.op ≠ .void).map Rec.ent).reverse, b.map Rec.ent) := by
  have hlen := render_length (e := e) hc hf hb.nb
  have hla := length_le_total (c := c) a
  have hlb := length_le_total (c := c) b
  have hend : L.end_ c = recordBase c + totalSize c (a ++ b) := by rw [Lay.end_, h]
  have hta := totalSize_app (c := c) a b
  have hb1 : scan e c (render e c pre mid L) (L.end_ c) (L.end_ c + 1) (recordBase c + totalSize c a) = some (b.map Rec.ent) := by
    rw [hend]
    exact scan_render he hc hf hb hr b (x := a) (z := []) (by simpa using h) (by omega)
  have ha0 : recordBase c = recordBase c + totalSize c [] := rfl
  simp only [rebuildEnts, hlen]
  cases ip with
  | true =>
    have ha1 := scan_render he hc hf hb hr a (x := []) (z := b) (n := L.end_ c + 1) (by simpa using h) (by omega)
    simp only [List.nil_append, totalSize, Nat.add_zero] at ha1
    simp only [if_true, ha1, hb1]
  | false =>
    have ha1 := extract_render he hc hf hb hr a (x := []) (z := b) (n := L.end_ c + 1) (by simpa using h) (by omega)
    have ha2 := readEnts_reverse _ _ (readEnts_render he hc hf hb hr a (x := []) (z := b) (by simpa using h))
    simp only [List.nil_append, totalSize, Nat.add_zero] at ha1 ha2
    simp only [Bool.false_eq_true, if_false, ha1, ha2, hb1]

/-! ### The imports on any database that meets the specification -/

section
variable {σ : Type} {D : DbmImpl σ} {inv : σ → Prop} {view : σ → Dict} {fits : Bytes → Bytes → Prop}

theorem importForward_spec (hL : Lawful D inv view fits) (rs : List Rec) : ∀ {s : σ}, inv s → (∀ r ∈ rs, fits r.key r.value) →
    inv (importForward D s (rs.map Rec.ent)) ∧
      view (importForward D s (rs.map Rec.ent)) = rs.foldl Rec.apply (view s) := by
  induction rs with
  | nil => intro s h _; exact ⟨h, rfl⟩
  | cons r rs ih =>
    intro s h hf
    have hstep : inv (importEnt D s r.ent) ∧ view (importEnt D s r.ent) = Rec.apply (view s) r := by
      have h1 := Api.C58_set hL s r.key r.value true h (hf r (by simp))
      have h2 := Api.C58_remove hL s r.key h
      simp only [Bool.true_eq_false, false_and, if_false] at h1
      unfold Rec.ent Rec.apply
      cases r.op with
      | void => exact ⟨h, rfl⟩
      | remove => exact ⟨h2.1, h2.2.1⟩
      | set => exact ⟨h1.1, h1.2.2.2⟩
      | add => exact ⟨h1.1, h1.2.2.2⟩
    have := ih hstep.1 (fun r' hr' => hf r' (by simp [hr']))
    simp only [importForward, List.map_cons, List.foldl_cons] at this ⊢
    rw [← hstep.2]
    exact this

/-- The last word of the records on a key: `none` if there is none. -/
def lastWord (k : Bytes) : List Rec → Option (Option Bytes)
  | [] => none
  | r :: rs =>
    match lastWord k rs with
    | some x => some x
    | none => if r.op = .void ∨ r.key ≠ k then none else some (if r.op = .remove then none else some r.value)

theorem foldl_lastWord (k : Bytes) (rs : List Rec) : ∀ d : Dict, rs.foldl Rec.apply d k = (lastWord k rs).getD (d k) := by
  induction rs with
  | nil => intro d; rfl
  | cons r rs ih =>
    intro d
    rw [List.foldl_cons, ih]
    simp only [lastWord]
    cases lastWord k rs with
    | some x => rfl
    | none =>
      simp only [Option.getD_none]
      by_cases hv : r.op = .void
      · simp [Rec.apply_void hv, hv]
      · by_cases hr : r.op = .remove
        · rw [Rec.apply_remove hr]
          by_cases hk : r.key = k
          · subst hk; simp [Dict.upd, hr]
          · have hk' : ¬ k = r.key := fun h => hk h.symm
            simp [Dict.upd, hk, hk']
        · rw [Rec.apply_set hv hr]
          by_cases hk : r.key = k
          · subst hk; simp [Dict.upd, hr, hv]
          · have hk' : ¬ k = r.key := fun h => hk h.symm
            simp [Dict.upd, hk, hk']

theorem lastWord_filter (k : Bytes) (rs : List Rec) : lastWord k (rs.filter fun r => r.op ≠ .void) = lastWord k rs := by
  induction rs with
  | nil => rfl
  | cons r rs ih =>
    by_cases hv : r.op = .void
    · simp only [List.filter_cons, hv, ne_eq, not_true, decide_false, Bool.false_eq_true, if_false, lastWord, ih, true_or, if_true]
      cases lastWord k rs <;> rfl
    · simp only [List.filter_cons, hv, ne_eq, not_false_eq_true, decide_true, if_true, lastWord, ih]

theorem importBackward_spec (hL : Lawful D inv view fits) {s : σ} (h0 : inv s) (hv0 : view s = Dict.empty) (rs : List Rec)
    (hnv : ∀ r ∈ rs, r.op ≠ .void) (hf : ∀ r ∈ rs, fits r.key r.value) :
    inv (importBackward D s (rs.map Rec.ent).reverse) ∧
      view (importBackward D s (rs.map Rec.ent).reverse) = rs.foldl Rec.apply Dict.empty := by
  have key : ∀ rs : List Rec, (∀ r ∈ rs, r.op ≠ .void) → (∀ r ∈ rs, fits r.key r.value) →
      inv ((rs.map Rec.ent).reverse.foldl (importBack D) (s, [])).1 ∧
      (∀ k, view ((rs.map Rec.ent).reverse.foldl (importBack D) (s, [])).1 k = (lastWord k rs).join) ∧
      (∀ k, k ∈ ((rs.map Rec.ent).reverse.foldl (importBack D) (s, [])).2 ↔ lastWord k rs = some none) := by
    intro rs
    induction rs with
    | nil => intro _ _; exact ⟨h0, by intro k; simp [hv0, Dict.empty, lastWord], by intro k; simp [lastWord]⟩
    | cons r rs ih =>
      intro hnv hf
      obtain ⟨i1, i2, i3⟩ := ih (fun x hx => hnv x (by simp [hx])) (fun x hx => hf x (by simp [hx]))
      simp only [List.map_cons, List.reverse_cons, List.foldl_append, List.foldl_cons, List.foldl_nil]
      generalize (rs.map Rec.ent).reverse.foldl (importBack D) (s, []) = x at i1 i2 i3
      have hvr := hnv r (by simp)
      have hfr := hf r (by simp)
      have hset : r.op ≠ .remove → inv (importBack D x (.set, r.key, r.value)).1 ∧
          (∀ k, view (importBack D x (.set, r.key, r.value)).1 k = (lastWord k (r :: rs)).join) ∧
          (∀ k, k ∈ (importBack D x (.set, r.key, r.value)).2 ↔ lastWord k (r :: rs) = some none) := by
        intro hrm
        simp only [importBack]
        by_cases hd : r.key ∈ x.2
        · rw [if_pos hd]
          have hl := (i3 _).1 hd
          refine ⟨i1, ?_, ?_⟩
          · intro k
            rw [i2]
            simp only [lastWord]
            cases hk : lastWord k rs with
            | some _ => rfl
            | none =>
              have : r.key ≠ k := by intro h; subst h; rw [hl] at hk; cases hk
              simp [this]
          · intro k
            rw [i3]
            simp only [lastWord]
            cases hk : lastWord k rs with
            | some _ => rfl
            | none =>
              have : r.key ≠ k := by intro h; subst h; rw [hl] at hk; cases hk
              simp [this]
        · rw [if_neg hd]
          have h1 := Api.C58_set hL x.1 r.key r.value false i1 hfr
          refine ⟨h1.1, ?_, ?_⟩
          · intro k
            have h3 := h1.2.2
            split at h3
            · rename_i hh
              rw [h3.2, i2]
              simp only [lastWord]
              cases hk : lastWord k rs with
              | some _ => rfl
              | none =>
                have : r.key ≠ k := by
                  intro h; subst h
                  have := hh.2
                  rw [i2, hk] at this
                  simp at this
                simp [this]
            · rename_i hh
              have hn : view x.1 r.key = none := by
                cases hvv : view x.1 r.key with
                | none => rfl
                | some v => exact absurd ⟨rfl, by simp [hvv]⟩ hh
              rw [h3.2]
              simp only [Dict.upd, lastWord]
              by_cases hkk : k = r.key
              · subst hkk
                have hl : lastWord r.key rs = none := by
                  have h4 := i2 r.key
                  rw [hn] at h4
                  cases hl : lastWord r.key rs with
                  | none => rfl
                  | some o =>
                    cases o with
                    | none => exact absurd ((i3 _).2 hl) hd
                    | some v => rw [hl] at h4; cases h4
                simp [hl, hvr, hrm]
              · have hkk' : r.key ≠ k := fun h => hkk h.symm
                rw [if_neg hkk, i2]
                cases lastWord k rs <;> simp [hkk']
          · intro k
            show k ∈ x.2 ↔ _
            rw [i3]
            simp only [lastWord]
            cases hk : lastWord k rs with
            | some _ => rfl
            | none => simp [hrm]
      have hrem : r.op = .remove → inv (importBack D x (.remove, r.key, r.value)).1 ∧
          (∀ k, view (importBack D x (.remove, r.key, r.value)).1 k = (lastWord k (r :: rs)).join) ∧
          (∀ k, k ∈ (importBack D x (.remove, r.key, r.value)).2 ↔ lastWord k (r :: rs) = some none) := by
        intro hrm
        have h1 := Api.C58_get hL x.1 r.key i1
        simp only [importBack]
        have hview : ∀ k, view (Api.get D x.1 r.key).1 k = (lastWord k (r :: rs)).join := by
          intro k
          rw [h1.2.1, i2]
          simp only [lastWord]
          cases hk : lastWord k rs with
          | some _ => rfl
          | none => simp only [hrm]; split <;> rfl
        cases hg : view x.1 r.key with
        | some v =>
          have hl : lastWord r.key rs = some (some v) := by
            have h4 := i2 r.key
            rw [hg] at h4
            cases hl : lastWord r.key rs with
            | none => rw [hl] at h4; cases h4
            | some o => rw [hl] at h4; simp only [Option.join_some] at h4; rw [h4]
          have h5 := h1.2.2.1 v hg
          rw [h5, if_pos rfl]
          refine ⟨h1.1, hview, ?_⟩
          intro k
          rw [i3]
          simp only [lastWord]
          cases hk : lastWord k rs with
          | some _ => rfl
          | none =>
            have : r.key ≠ k := by intro h; subst h; rw [hl] at hk; cases hk
            simp [this]
        | none =>
          have h5 := h1.2.2.2 hg
          rw [h5, if_neg (by simp)]
          refine ⟨h1.1, hview, ?_⟩
          intro k
          have hmem : k ∈ (if r.key ∈ x.2 then x.2 else r.key :: x.2) ↔ k = r.key ∨ k ∈ x.2 := by
            split
            · rename_i hin
              constructor
              · exact Or.inr
              · rintro (rfl | h)
                · exact hin
                · exact h
            · simp
          rw [hmem, i3]
          simp only [lastWord]
          cases hk : lastWord k rs with
          | some o =>
            have : k = r.key → o = none := by
              intro h; subst h
              have h4 := i2 r.key
              rw [hg, hk] at h4
              simpa using h4.symm
            simp only [Option.some.injEq]
            constructor
            · rintro (h | h)
              · exact this h
              · exact h
            · exact Or.inr
          | none => simp [hvr, hrm, eq_comm]
      unfold Rec.ent
      by_cases hrm : r.op = .remove
      · rw [hrm]; exact hrem hrm
      · have := hset hrm
        cases ho : r.op with
        | void => exact absurd ho hvr
        | remove => exact absurd ho hrm
        | set => exact this
        | add => exact this
  obtain ⟨k1, k2, _⟩ := key rs hnv hf
  refine ⟨k1, ?_⟩
  funext k
  rw [foldl_lastWord]
  refine (k2 k).trans ?_
  cases lastWord k rs <;> rfl

/-- The two imports give the contents of the file. -/
theorem rebuildImport_spec (hL : Lawful D inv view fits) {s : σ} (h0 : inv s) (hv0 : view s = Dict.empty) (a b : List Rec)
    (hf : ∀ r ∈ a ++ b, fits r.key r.value) (ip : Bool) {s' : σ}
    (hs : s' = rebuildImport D s ip (if ip then a.map Rec.ent else ((a.filter fun r => r.op ≠ .void).map Rec.ent).reverse, b.map Rec.ent)) :
    inv s' ∧ view s' = contents (a ++ b) := by
  subst hs
  have hfa : ∀ r ∈ a, fits r.key r.value := fun r hr => hf r (by simp [hr])
  have hfb : ∀ r ∈ b, fits r.key r.value := fun r hr => hf r (by simp [hr])
  simp only [contents, List.foldl_append]
  cases ip with
  | true =>
    have h1 := importForward_spec hL a h0 hfa
    have h2 := importForward_spec hL b h1.1 hfb
    rw [h1.2, hv0] at h2
    exact h2
  | false =>
    have h1 := importBackward_spec hL h0 hv0 (a.filter fun r => r.op ≠ .void) (fun r hr => by simpa using (List.mem_filter.1 hr).2)
      (fun r hr => hfa r (List.mem_filter.1 hr).1)
    have h2 := importForward_spec hL b h1.1 hfb
    have e1 : (a.filter fun r => r.op ≠ .void).foldl Rec.apply Dict.empty = a.foldl Rec.apply Dict.empty := by
      funext k
      rw [foldl_lastWord, foldl_lastWord, lastWord_filter]
    rw [h1.2, e1] at h2
    exact h2

end

end Verif.Hash
