import Verif.Hash.Validate
import Verif.Hash.RebuildLemmas
import Verif.Hash.Irrel
import Verif.Hash.EachLemmas
import Mathlib.Data.List.Induction
/-
What the validation and the scan of `Open` find in a well-formed file with zeros behind it.
-/
namespace Verif.Hash
open Verif.Codec

variable {e : Env} {c : Cfg}

/-- The bytes `f` read like the structured file `L`. -/
structure FileOf (e : Env) (c : Cfg) (L : Lay) (f : Bytes) : Prop where
  bucket : ∀ i, i < c.nb → getBucket c f i = some (L.buckets.getD i 0)
  record : ∀ off r mr, metaMinReadSize ≤ mr → recAt c (recordBase c) L.recs off = some r →
    ∃ m, readMeta c f off mr = some m ∧ checkCrc e c f off m = true ∧ readValue f off m = some r.value ∧ m.op = r.op ∧
      m.key = r.key ∧ m.whole = r.size c ∧ m.child = r.child ∧ m.valueSize = r.value.length
  behind : ∀ off mr, L.end_ c ≤ off → readMeta c f off mr = none
  zero : zeroRegion f (L.end_ c) = true
  len : L.end_ c ≤ f.length

theorem fileOf_render (he : EnvOk e) (hc : CfgOk c) {pre mid : Bytes} (hf : FrameOk c pre mid) {L : Lay} (hb : Base c L)
    (hr : Room c L) (z : Nat) : FileOf e c L (render e c pre mid L ++ List.replicate z 0) := by
  have hlen := render_length (e := e) hc hf hb.nb
  have how := hc.ow
  refine ⟨?_, ?_, ?_, ?_, ?_⟩
  · intro i hi
    obtain ⟨P, Q, v, h1, h2, h3, _⟩ := render_bucket (e := e) hc hf hb.nb hi
    have hw := writeFixNum_length (v >>> c.ap) (w := c.ow) (by omega)
    have hv := hb.bkt v (List.mem_of_getElem? h1)
    simp only [getBucket, fread, h3, ← h2, List.append_assoc]
    rw [if_pos (by simp only [List.length_append, hw]; omega), List.drop_left, List.take_left' hw, List.getD_eq_getElem?_getD, h1]
    have := (C33_fixnum_roundtrip (v >>> c.ap) c.ow (by omega) (shift_lt (Nat.lt_of_lt_of_le hv.2 hr)) []).1
    rw [List.append_nil] at this
    simp only [Option.map_some, this, shift_back hv.1, Option.getD_some]
  · intro off r mr hm hat
    obtain ⟨P, Q, hP, e1, _⟩ := render_rec (e := e) hc hf hb.nb hat
    have hg := hb.recs r (recAt_mem hat)
    obtain ⟨m, h1, h2, h3, h4, h5, h6, h7, h8, h9, h10, h11, h12⟩ := readMeta_rec he hc hg.1.toFmtRec
      (Nat.lt_of_lt_of_le hg.2 hr) P (Q ++ List.replicate z 0) hm
    rw [← hP, e1, List.append_assoc, List.append_assoc]
    refine ⟨m, h1, ?_, h12, h2, h11, h10, h4, h6⟩
    simp only [checkCrc, h12, h3, h11, decide_true, Bool.true_and]
    by_cases hz : c.cw = 0
    · simp [hz]
    · simp [hz, h8 (by omega)]
  · intro off mr h
    obtain ⟨j, rfl⟩ : ∃ j, off = L.end_ c + j := ⟨off - L.end_ c, by omega⟩
    unfold readMeta
    split
    · rfl
    · have e1 : (render e c pre mid L ++ List.replicate z 0).drop (L.end_ c + j) = List.replicate (z - j) 0 := by
        rw [← hlen, ← List.drop_drop, List.drop_left, List.drop_replicate]
      simp only [e1, List.take_replicate]
      generalize min _ (z - j) = q
      cases q with
      | zero => rfl
      | succ q => simp [List.replicate_succ]
  · rw [zeroRegion, ← hlen, List.drop_left, List.take_replicate]
    simp
  · simp [hlen]

theorem FileOf.sound {L : Lay} {f : Bytes} (h : FileOf e c L f) {off r mr} (hm : metaMinReadSize ≤ mr)
    (hr : recAt c (recordBase c) L.recs off = some r) :
    ∃ m, readSound e c f mr off = some m ∧ readValue f off m = some r.value ∧ m.op = r.op ∧ m.key = r.key ∧ m.whole = r.size c := by
  obtain ⟨m, h1, h2, h3, h4, h5, h6, _⟩ := h.record off r mr hm hr
  exact ⟨m, by simp [readSound, h1, h2], h3, h4, h5, h6⟩

theorem FileOf.unsound {L : Lay} {f : Bytes} (h : FileOf e c L f) {off mr} (ho : L.end_ c ≤ off) : readSound e c f mr off = none := by
  simp [readSound, h.behind off mr ho]

theorem FileOf.findNext {L : Lay} {f : Bytes} (h : FileOf e c L f) {off mr} (ho : L.end_ c ≤ off) : findNext e c f mr off = none := by
  have key : ∀ n off, L.end_ c ≤ off → findNextLoop e c f mr n off = none := by
    intro n
    induction n with
    | zero => intro off _; rfl
    | succ n ih =>
      intro off ho
      simp only [findNextLoop, h.unsound ho, Bool.false_eq_true, if_false, ih _ (Nat.le_trans ho (Nat.le_add_right off (1 <<< c.ap))), ite_self]
  apply key
  unfold alignNumber
  split <;> omega

/-! ### The scan -/

theorem FileOf.scan {L : Lay} {f : Bytes} (h : FileOf e c L f) {mr} (hm : metaMinReadSize ≤ mr) {endOff : Nat} (y : List Rec) :
    ∀ {x z : List Rec} {n : Nat}, L.recs = x ++ (y ++ z) → y.length + 1 < n → recordBase c + totalSize c (x ++ y) ≤ endOff →
      (endOff = recordBase c + totalSize c (x ++ y) ∨ z = []) →
      scanSkip e c f mr endOff n (recordBase c + totalSize c x) = some (y.map Rec.ent) := by
  induction y with
  | nil =>
    intro x z n hL hn hle hz
    obtain ⟨n, rfl⟩ : ∃ k, n = k + 1 := ⟨n - 1, by simp at hn; omega⟩
    rw [scanSkip]
    split
    · rename_i hlt
      rw [List.append_nil] at hz
      have hz : z = [] := by rcases hz with hz | hz
                             · omega
                             · exact hz
      have hend : L.end_ c ≤ recordBase c + totalSize c x := by simp [Lay.end_, hL, hz]
      simp only [h.unsound hend, h.findNext hend]; rfl
    · rfl
  | cons r y ih =>
    intro x z n hL hn hle hz
    obtain ⟨n, rfl⟩ : ∃ k, n = k + 1 := ⟨n - 1, by simp at hn; omega⟩
    have hat : recAt c (recordBase c) L.recs (recordBase c + totalSize c x) = some r := by rw [hL]; exact recAt_mid _ _ _ _
    obtain ⟨m, h1, h3, h4, h5, h6⟩ := h.sound hm hat
    have hlt : recordBase c + totalSize c x < endOff := by
      have := size_pos (c := c) r
      simp only [totalSize_app, totalSize] at hle; omega
    simp only [scanSkip, if_pos hlt, h1, h3, h4, h5, h6]
    have e1 : recordBase c + totalSize c (x ++ [r]) = recordBase c + totalSize c x + r.size c := by
      simp only [totalSize_app, totalSize]; omega
    have e2 : x ++ [r] ++ y = x ++ r :: y := by simp
    have := ih (x := x ++ [r]) (z := z) (n := n) (by rw [hL]; simp) (by simp at hn; omega) (by rw [e2]; exact hle)
      (by rw [e2]; exact hz)
    rw [e1] at this
    rw [this]
    rfl

theorem FileOf.extract (hc : CfgOk c) {L : Lay} (hb : Base c L) (hr : Room c L) {f : Bytes} (h : FileOf e c L f) {endOff : Nat} (y : List Rec) :
    ∀ {x z : List Rec} {n : Nat}, L.recs = x ++ (y ++ z) → y.length + 1 < n → recordBase c + totalSize c (x ++ y) ≤ endOff →
      (endOff = recordBase c + totalSize c (x ++ y) ∨ z = []) →
      extractSkip e c f endOff n (recordBase c + totalSize c x) = some (offsFrom c (recordBase c + totalSize c x) y) := by
  induction y with
  | nil =>
    intro x z n hL hn hle hz
    obtain ⟨n, rfl⟩ : ∃ k, n = k + 1 := ⟨n - 1, by simp at hn; omega⟩
    rw [extractSkip]
    split
    · rename_i hlt
      rw [List.append_nil] at hz
      have hz : z = [] := by rcases hz with hz | hz
                             · omega
                             · exact hz
      have hend : L.end_ c ≤ recordBase c + totalSize c x := by simp [Lay.end_, hL, hz]
      simp only [h.behind _ _ hend, h.findNext hend]; rfl
    · rfl
  | cons r y ih =>
    intro x z n hL hn hle hz
    obtain ⟨n, rfl⟩ : ∃ k, n = k + 1 := ⟨n - 1, by simp at hn; omega⟩
    have hL' : L.recs = x ++ r :: (y ++ z) := by rw [hL]; rfl
    have hat : recAt c (recordBase c) L.recs (recordBase c + totalSize c x) = some r := by rw [hL']; exact recAt_mid _ _ _ _
    obtain ⟨m, h1, _, h3, h4, h5, h6, _⟩ := h.record _ r metaMinReadSize (Nat.le_refl _) hat
    have hlt : recordBase c + totalSize c x < endOff := by
      have := size_pos (c := c) r
      simp only [totalSize_app, totalSize] at hle; omega
    have hoff : recordBase c + totalSize c x < 2 ^ (8 * c.ow + c.ap) := by
      have := recAt_lt hat
      have h' := hr
      have := size_pos (c := c) r
      simp only [Room, Lay.end_] at h'; omega
    simp only [extractSkip, if_pos hlt, h1, h4, h6]
    have e1 : recordBase c + totalSize c (x ++ [r]) = recordBase c + totalSize c x + r.size c := by
      simp only [totalSize_app, totalSize]; omega
    have e2 : x ++ [r] ++ y = x ++ r :: y := by simp
    have := ih (x := x ++ [r]) (z := z) (n := n) (by rw [hL]; simp) (by simp at hn; omega) (by rw [e2]; exact hle)
      (by rw [e2]; exact hz)
    rw [e1] at this
    rw [this]
    simp only [offsFrom, offset_rt hc (hb.off_aligned hc hat) hoff]
    split <;> rfl

theorem readEntsSkip_append (f : Bytes) (mr : Nat) (a b : List Nat) :
    readEntsSkip e c f mr (a ++ b) = readEntsSkip e c f mr a ++ readEntsSkip e c f mr b := by
  induction a with
  | nil => rfl
  | cons o a ih =>
    simp only [List.cons_append, readEntsSkip, ih]
    split
    · rfl
    · split <;> rfl

theorem readEntsSkip_reverse (f : Bytes) (mr : Nat) (l : List Nat) :
    readEntsSkip e c f mr l.reverse = (readEntsSkip e c f mr l).reverse := by
  induction l with
  | nil => rfl
  | cons o l ih =>
    rw [List.reverse_cons, readEntsSkip_append, ih]
    simp only [readEntsSkip]
    split
    · simp
    · split <;> simp

theorem FileOf.readEnts {L : Lay} {f : Bytes} (h : FileOf e c L f) {mr} (hm : metaMinReadSize ≤ mr) (y : List Rec) :
    ∀ {x z : List Rec}, L.recs = x ++ (y ++ z) →
      readEntsSkip e c f mr (offsFrom c (recordBase c + totalSize c x) y) = (y.filter fun r => r.op ≠ .void).map Rec.ent := by
  induction y with
  | nil => intro x z _; rfl
  | cons r y ih =>
    intro x z hL
    have hat : recAt c (recordBase c) L.recs (recordBase c + totalSize c x) = some r := by
      rw [hL]; exact recAt_mid _ x (y ++ z) r
    obtain ⟨m, h1, h3, h4, h5, h6⟩ := h.sound hm hat
    have := ih (x := x ++ [r]) (z := z) (by rw [hL]; simp)
    have e1 : recordBase c + totalSize c (x ++ [r]) = recordBase c + totalSize c x + r.size c := by
      simp only [totalSize_app, totalSize]; omega
    rw [e1] at this
    by_cases hv : r.op = .void
    · simp only [offsFrom, hv, if_true, List.filter_cons, ne_eq, not_true, decide_false, Bool.false_eq_true, if_false]
      exact this
    · rw [offsFrom, if_neg hv]
      simp only [List.filter_cons, ne_eq, hv, not_false_eq_true, decide_true, if_true, readEntsSkip, h1, h3, h4, h5, List.map_cons]
      rw [this]
      rfl

/-- What `RestoreDatabase` reads of a file up to an offset at which a record starts, or of the whole file. -/
theorem FileOf.restoreEnts (hc : CfgOk c) {L : Lay} (hb : Base c L) (hr : Room c L) {f : Bytes} (h : FileOf e c L f) {mr} (hm : metaMinReadSize ≤ mr)
    {a b : List Rec} (hab : L.recs = a ++ b) {endOff : Nat} (h1 : recordBase c + totalSize c a ≤ endOff)
    (h2 : endOff = recordBase c + totalSize c a ∨ b = []) :
    restoreEnts e c f mr endOff =
      some (if c.inPlace then a.map Rec.ent else ((a.filter fun r => r.op ≠ .void).map Rec.ent).reverse) := by
  have hlen := h.len
  have hla := length_le_total (c := c) a
  have hend : L.end_ c = recordBase c + totalSize c (a ++ b) := by rw [Lay.end_, hab]
  have hta := totalSize_app (c := c) a b
  have hpos := recordBase_pos (c := c)
  unfold Hash.restoreEnts
  split
  · have := h.scan hm (endOff := endOff) a (x := []) (z := b) (n := f.length + 1) (by simpa using hab) (by omega) (by simpa using h1)
      (by simpa using h2)
    simpa [totalSize] using this
  · have e1 := h.extract hc hb hr (endOff := endOff) a (x := []) (z := b) (n := f.length + 1) (by simpa using hab) (by omega)
      (by simpa using h1) (by simpa using h2)
    have e2 := h.readEnts hm a (x := []) (z := b) (by simpa using hab)
    simp only [totalSize, Nat.add_zero] at e1 e2
    rw [e1, Option.map_some, readEntsSkip_reverse, e2]

/-! ### Validation -/

theorem FileOf.checkChain {L : Lay} {f : Bytes} (h : FileOf e c L f) (off : Nat) (key : Bytes) (bi : Nat) {cur p} (hp : Path c L.recs cur p)
    {fuel : Nat} (hf : p.length ≤ fuel) :
    ∃ b, checkChain e c f off key bi fuel cur = some b ∧
      (off ∉ p.map (·.1) → c.inPlace = true ∨ (∀ x ∈ p, x.1 < off) → b = false) := by
  induction p generalizing cur fuel with
  | nil =>
    have : cur = 0 := hp
    subst this
    cases fuel <;> exact ⟨false, rfl, fun _ _ => rfl⟩
  | cons x p ih =>
    obtain ⟨o, r⟩ := x
    obtain ⟨rfl, h1, h2⟩ := hp
    obtain ⟨fuel, rfl⟩ : ∃ k, fuel = k + 1 := ⟨fuel - 1, by simp at hf; omega⟩
    have hpos := recordBase_pos (c := c)
    have hge := recAt_ge h1
    have hne : ¬ cur = 0 := by omega
    obtain ⟨m, g1, _, _, _, g5, _, g7, _⟩ := h.record cur r metaMinReadSize (Nat.le_refl _) h1
    simp only [Hash.checkChain, if_neg hne]
    by_cases ho : cur = off
    · exact ⟨true, by simp [ho], fun hn => absurd (by simp [ho]) hn⟩
    · simp only [if_neg ho, g1, g5, g7]
      by_cases hh : e.hash r.key c.nb ≠ bi
      · exact ⟨false, by simp [hh], fun _ _ => rfl⟩
      · simp only [if_neg hh]
        obtain ⟨b, i1, i2⟩ := ih h2 (fuel := fuel) (by simp at hf; omega)
        by_cases hs : (!c.inPlace && decide (cur > off) && decide (r.key = key)) = true
        · refine ⟨true, by simp [hs], ?_⟩
          intro hn hc
          simp only [Bool.and_eq_true, Bool.not_eq_true', decide_eq_true_eq] at hs
          rcases hc with hc | hc
          · rw [hs.1.1] at hc; cases hc
          · have := hc (cur, r) (by simp); simp only at this; omega
        · refine ⟨b, by simp only [if_neg hs, i1], ?_⟩
          intro hn hc
          refine i2 (fun hm => hn (by simp only [List.map_cons, List.mem_cons]; exact Or.inr hm)) ?_
          exact hc.imp_right fun hc x hx => hc x (by simp [hx])

/-- The records of a region, counted as the validation does. -/
def weights (c : Cfg) (y : List Rec) : Int := (y.map fun r => r.op.weight c.inPlace).sum

def weightsEff (c : Cfg) (y : List Rec) : Int :=
  (y.map fun r => r.op.weight c.inPlace * ((r.key.length + r.value.length : Nat) : Int)).sum

theorem FileOf.validate (he : EnvOk e) (hc : CfgOk c) {L : Lay} {f : Bytes} (h : FileOf e c L f)
    (hp : ∀ i, i < c.nb → ∃ p, Path c L.recs (L.buckets.getD i 0) p) {mr} (hm : metaMinReadSize ≤ mr) (y : List Rec) :
    ∀ {x : List Rec} {n : Nat}, L.recs = x ++ y → y.length + 1 < n →
      ∃ res, validateRecords e c f mr n (recordBase c + totalSize c x) = some res ∧ ∀ v, res = some v →
        (v.nullEnd = some (L.end_ c) ∨ v.nullEnd = none ∧ f.length = L.end_ c) ∧
        v.count = weights c y ∧ v.eff = weightsEff c y ∧
        ∀ o r, recAt c (recordBase c) L.recs o = some r → recordBase c + totalSize c x ≤ o → r.op ≠ .void →
          checkHashChain e c f o r.key = some true := by
  induction y with
  | nil =>
    intro x n hL hn
    obtain ⟨n, rfl⟩ : ∃ k, n = k + 1 := ⟨n - 1, by simp at hn; omega⟩
    have hend : L.end_ c = recordBase c + totalSize c x := by simp [Lay.end_, hL]
    have hlast : ∀ o r, recAt c (recordBase c) L.recs o = some r → recordBase c + totalSize c x ≤ o → r.op ≠ .void →
        checkHashChain e c f o r.key = some true := by
      intro o r ho hle
      have h1 := recAt_lt ho
      have h2 := size_pos (c := c) r
      have h3 : recordBase c + totalSize c L.recs = recordBase c + totalSize c x := hend
      omega
    rw [validateRecords]
    split
    · simp only [h.behind _ mr (Nat.le_of_eq hend)]
      rw [← hend, h.zero, if_pos rfl]
      refine ⟨_, rfl, ?_⟩
      rintro v ⟨⟩
      exact ⟨Or.inl rfl, rfl, rfl, by rw [hend]; exact hlast⟩
    · rename_i hlt
      have hlen := h.len
      have he1 : recordBase c + totalSize c x = f.length := by omega
      rw [if_pos he1]
      refine ⟨_, rfl, ?_⟩
      rintro v ⟨⟩
      exact ⟨Or.inr ⟨rfl, by omega⟩, rfl, rfl, hlast⟩
  | cons r y ih =>
    intro x n hL hn
    obtain ⟨n, rfl⟩ : ∃ k, n = k + 1 := ⟨n - 1, by simp at hn; omega⟩
    have hat : recAt c (recordBase c) L.recs (recordBase c + totalSize c x) = some r := by rw [hL]; exact recAt_mid _ _ _ _
    obtain ⟨m, h1, h2, h3, h4, h5, h6, h7, h8⟩ := h.record _ r mr hm hat
    have e1 : recordBase c + totalSize c (x ++ [r]) = recordBase c + totalSize c x + r.size c := by
      simp only [totalSize_app, totalSize]; omega
    obtain ⟨res, i1, i2⟩ := ih (x := x ++ [r]) (n := n) (by rw [hL]; simp) (by simp at hn; omega)
    rw [e1] at i1 i2
    have hlt : recordBase c + totalSize c x < f.length := by
      have := recAt_lt hat
      have h' := h.len
      have := size_pos (c := c) r
      simp only [Lay.end_] at h'; omega
    simp only [validateRecords, if_pos hlt, h1, h2, if_true, h4, h5, h6]
    have hsplit : ∀ o r', recAt c (recordBase c) L.recs o = some r' → recordBase c + totalSize c x ≤ o →
        (o = recordBase c + totalSize c x ∧ r' = r) ∨ recordBase c + totalSize c x + r.size c ≤ o := by
      intro o r' ho hle
      by_cases hq : o = recordBase c + totalSize c x
      · subst hq; rw [hat] at ho; cases ho; exact Or.inl ⟨rfl, rfl⟩
      · right
        have := recAt_disjoint hat ho (Ne.symm hq)
        have := size_pos (c := c) r'
        omega
    by_cases hv : r.op = .void
    · rw [if_pos hv]
      refine ⟨res, i1, ?_⟩
      intro v hres
      obtain ⟨j1, j2, j3, j4⟩ := i2 v hres
      refine ⟨j1, ?_, ?_, ?_⟩
      · simp [j2, weights, hv, OpType.weight]
      · simp [j3, weightsEff, hv, OpType.weight]
      · intro o r' ho hle hnv
        rcases hsplit o r' ho hle with ⟨_, rfl⟩ | hle
        · exact absurd hv hnv
        · exact j4 o r' ho hle hnv
    · rw [if_neg hv]
      have hhash := he.hash r.key c.nb (by have := hc.nb; omega)
      obtain ⟨p, hp⟩ := hp _ hhash
      obtain ⟨b, k1, k2⟩ := h.checkChain (recordBase c + totalSize c x) r.key (e.hash r.key c.nb) hp (fuel := f.length) (by
        have h1 : p.length ≤ recordBase c + totalSize c L.recs := hp.length_le hp.nodup
        have h2 := h.len
        simp only [Lay.end_] at h2; omega)
      have k3 : checkHashChain e c f (recordBase c + totalSize c x) r.key = some b := by
        simp only [checkHashChain, h.bucket _ hhash, k1]
      rw [k3]
      cases b with
      | false => exact ⟨none, rfl, fun v h => by cases h⟩
      | true =>
        simp only [i1]
        split
        · refine ⟨res.map (Valid.add c m), rfl, ?_⟩
          intro v hres
          cases res with
          | none => cases hres
          | some v0 =>
            obtain ⟨j1, j2, j3, j4⟩ := i2 v0 rfl
            simp only [Option.map_some, Option.some.injEq] at hres
            subst hres
            refine ⟨j1, ?_, ?_, ?_⟩
            · simp [Valid.add, j2, weights, h4]
            · simp [Valid.add, j3, weightsEff, h4, h5, h8]
            · intro o r' ho hle hnv
              rcases hsplit o r' ho hle with ⟨rfl, rfl⟩ | hle
              · exact k3
              · exact j4 o r' ho hle hnv
        · exact ⟨none, rfl, fun v h => by cases h⟩

/-! ### Counting -/

/-- The records of a file have some count. -/
theorem contents_counted (rs : List Rec) : ∃ num eff : Int, (contents rs).Counted num eff := by
  induction rs using List.reverseRecOn with
  | nil => exact ⟨0, 0, Dict.counted_empty⟩
  | append_singleton rs r ih =>
    obtain ⟨num, eff, h⟩ := ih
    rw [contents_append]
    by_cases hv : r.op = .void
    · rw [Rec.apply_void hv]; exact ⟨num, eff, h⟩
    · by_cases hr : r.op = .remove
      · rw [Rec.apply_remove hr]
        cases hk : contents rs r.key with
        | none =>
          have : (contents rs).upd r.key none = contents rs := by
            funext k
            simp only [Dict.upd]
            split
            · rename_i e1; rw [e1, hk]
            · rfl
          rw [this]; exact ⟨num, eff, h⟩
        | some v => exact ⟨_, _, h.del hk⟩
      · rw [Rec.apply_set hv hr]
        cases hk : contents rs r.key with
        | none => exact ⟨_, _, h.add _ hk⟩
        | some v => exact ⟨_, _, h.put _ hk⟩

theorem InPlace.weights {L : Lay} {pool : List FB} (h : InPlace e c L pool) (hm : c.inPlace = true) :
    (contents L.recs).Counted (weights c L.recs) (weightsEff c L.recs) := by
  refine ⟨liveList L.recs, liveList_lists h.noRemove h.uniq, ?_, ?_⟩
  · have hn := h.noRemove
    generalize L.recs = rs at hn
    induction rs with
    | nil => rfl
    | cons r rs ih =>
      have h1 := ih (fun x hx => hn x (by simp [hx]))
      have h2 := hn r (by simp)
      simp only [Hash.weights, List.map_cons, List.sum_cons, liveList] at h1 ⊢
      rw [h1]
      cases ho : r.op <;> simp_all [OpType.weight, OpType.isSet, List.filter_cons] <;> omega
  · have hn := h.noRemove
    generalize L.recs = rs at hn
    induction rs with
    | nil => rfl
    | cons r rs ih =>
      have h1 := ih (fun x hx => hn x (by simp [hx]))
      have h2 := hn r (by simp)
      simp only [weightsEff, List.map_cons, List.sum_cons, liveList] at h1 ⊢
      rw [h1]
      cases ho : r.op <;> simp_all [OpType.weight, OpType.isSet, List.filter_cons]

/-! ### The shortcuts -/

theorem Stray.fails {L0 L : Lay} (hs : Stray e c L0 L) {f : Bytes} (h : FileOf e c L f) (he : EnvOk e) (hc : CfgOk c) {start : Nat}
    (hst : if c.inPlace then start ≤ recordBase c else start ≤ L0.end_ c) :
    ∃ o r, recAt c (recordBase c) L.recs o = some r ∧ start ≤ o ∧ r.op ≠ .void ∧ checkHashChain e c f o r.key = some false := by
  obtain ⟨o, r, p, h1, h2, h3, h4, h5⟩ := hs.stray
  have hhash := he.hash r.key c.nb (by have := hc.nb; omega)
  obtain ⟨b, k1, k2⟩ := h.checkChain o r.key (e.hash r.key c.nb) h3 (fuel := f.length) (by
    have h1 : p.length ≤ recordBase c + totalSize c L.recs := h3.length_le h3.nodup
    have h2 := h.len
    simp only [Lay.end_] at h2; omega)
  have hb := k2 h4 (h5.imp_right fun h => h.2)
  subst hb
  refine ⟨o, r, h1, ?_, h2, by simp only [checkHashChain, h.bucket _ hhash, k1]⟩
  split at hst
  · exact Nat.le_trans hst (recAt_ge h1)
  · rename_i hm
    rcases h5 with h5 | h5
    · exact absurd h5 hm
    · exact Nat.le_trans hst h5.1

/-- When a shortcut applies to a file that a crash has left, the file is a well-formed database. -/
theorem shortcut_spec (he : EnvOk e) {L0 L : Lay} {s : State} (hc : CfgOk s.cfg) (h : FileOf e s.cfg L s.file)
    (hw : (∃ pool, LInv e s.cfg L pool) ∨ Stray e s.cfg L0 L) {mr} (hm : metaMinReadSize ≤ mr) (mode : RestoreMode)
    {a b : List Rec} (hab : L.recs = a ++ b) {size : Nat} (hsz : size = recordBase s.cfg + totalSize s.cfg a) (hle : size ≤ L0.end_ s.cfg) :
    ∃ res, shortcut e mr mode size s = some res ∧ ∀ s', res = some s' →
      (∃ pool, LInv e s.cfg L pool) ∧
      s' = { s with file := s.file.take (L.end_ s.cfg), mem := { s.mem with num := s'.mem.num, eff := s'.mem.eff } } ∧
      (s.cfg.inPlace = true → s'.mem.num = weights s.cfg L.recs ∧ s'.mem.eff = weightsEff s.cfg L.recs) := by
  have hch : ∀ i, i < s.cfg.nb → ∃ p, Path s.cfg L.recs (L.buckets.getD i 0) p := by
    rcases hw with ⟨pool, hw⟩ | hw
    · exact fun i hi => hw.chainOk hi
    · exact hw.chains
  have hlen := h.len
  have hend : L.end_ s.cfg = recordBase s.cfg + totalSize s.cfg a + totalSize s.cfg b := by rw [Lay.end_, hab, totalSize_app]; omega
  unfold shortcut
  split
  · rename_i hcond
    refine ⟨_, rfl, ?_⟩
    rintro s' ⟨⟩
    simp only [Bool.and_eq_true, Bool.not_eq_true', beq_iff_eq] at hcond
    have hf : s.file.length = L.end_ s.cfg := by omega
    refine ⟨?_, ?_, ?_⟩
    · rcases hw with hw | hw
      · exact hw
      · obtain ⟨o, r, p, h1, _, _, _, h5⟩ := hw.stray
        have hlt := recAt_lt h1
        have := size_pos (c := s.cfg) r
        rcases h5 with h5 | h5
        · rw [hcond.1.1] at h5; cases h5
        · simp only [Lay.end_] at hend hf; omega
    · rw [← hf, List.take_length]
    · intro hi; rw [hcond.1.1] at hi; cases hi
  · split
    · obtain ⟨x, y, hxy, hstart, hst⟩ : ∃ x y, L.recs = x ++ y ∧
          (if s.cfg.inPlace then recordBase s.cfg else size) = recordBase s.cfg + totalSize s.cfg x ∧
          (s.cfg.inPlace = true → y = L.recs) := by
        split
        · exact ⟨[], L.recs, rfl, rfl, fun _ => rfl⟩
        · rename_i hi; exact ⟨a, b, hab, hsz, fun hi' => absurd hi' hi⟩
      have hpos := recordBase_pos (c := s.cfg)
      have hly : y.length + 1 < s.file.length + 1 := by
        have := length_le_total (c := s.cfg) y
        have e1 : L.end_ s.cfg = recordBase s.cfg + totalSize s.cfg x + totalSize s.cfg y := by rw [Lay.end_, hxy, totalSize_app]; omega
        omega
      obtain ⟨res, v1, v2⟩ := h.validate he hc hch hm y (x := x) (n := s.file.length + 1) hxy hly
      rw [hstart, v1]
      cases res with
      | none => exact ⟨none, rfl, fun _ h => by cases h⟩
      | some v =>
        obtain ⟨w1, w2, w3, w4⟩ := v2 v rfl
        refine ⟨_, rfl, ?_⟩
        rintro s' ⟨⟩
        have hfile : v.cut s.file = s.file.take (L.end_ s.cfg) := by
          unfold Valid.cut
          rcases w1 with w1 | ⟨w1, w5⟩
          · rw [w1]
          · rw [w1, ← w5, List.take_length]
        refine ⟨?_, ?_, ?_⟩
        · rcases hw with hw | hw
          · exact hw
          · obtain ⟨o, r, u1, u2, u3, u4⟩ := hw.fails h he hc (start := recordBase s.cfg + totalSize s.cfg x) (by
              rw [← hstart]; split
              · exact Nat.le_refl _
              · exact hle)
            rw [w4 o r u1 u2 u3] at u4; cases u4
        · simp only [hfile]
          rcases Bool.eq_false_or_eq_true s.cfg.inPlace with hi | hi <;> simp [Mem.validated, hi]
        · intro hi
          simp only [Mem.validated, hi, if_true, w2, w3, hst hi, and_self]
    · exact ⟨none, rfl, fun _ h => by cases h⟩

end Verif.Hash
