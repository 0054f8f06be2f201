import Verif.Hash.ValidateLemmas
/-
What the scan of the restoration reads of a file in which some bytes between records have been damaged
(tkrzw_dbm_hash_impl.cc 312-483, tkrzw_dbm_hash.cc 1888-2034).
-/
namespace Verif.Hash
open Verif.Codec

/-- SPECIFICATION: nothing in the bytes `D`, which stand in the file in front of `tail`, looks like a record: at no aligned
offset in them can a record be read with a right checksum, and, in the appending mode, where the first pass of the restoration
reads headers only, no header can be read at the first of them either. -/
def Unreadable (e : Env) (c : Cfg) (D tail : Bytes) : Prop :=
  (∀ o, o < D.length → o % (1 <<< c.ap) = 0 →
    readSound e c (D ++ tail) (if c.inPlace then max metaMinReadSize (1 <<< c.ap) else metaMinReadSize) o = none) ∧
  (c.inPlace = false → readMeta c (D ++ tail) 0 metaMinReadSize = none)

instance (e : Env) (c : Cfg) (D tail : Bytes) : Decidable (Unreadable e c D tail) := inferInstanceAs (Decidable (_ ∧ _))

/-- SPECIFICATION: the header of the damaged record can still be read and gives its old size, but the checksum is wrong. -/
def BrokenBody (e : Env) (c : Cfg) (D tail : Bytes) : Prop :=
  (readMeta c (D ++ tail) 0 metaMinReadSize).map (·.whole) = some D.length ∧
  readSound e c (D ++ tail) (max metaMinReadSize (1 <<< c.ap)) 0 = none

instance (e : Env) (c : Cfg) (D tail : Bytes) : Decidable (BrokenBody e c D tail) := inferInstanceAs (Decidable (_ ∧ _))

variable {e : Env} {c : Cfg}

/-! ### Reading depends on what is behind the offset only -/

theorem fread_shift (P g : Bytes) (o n : Nat) : fread (P ++ g) (P.length + o) n = fread g o n := by
  unfold fread
  rw [List.length_append, Nat.add_assoc, ← List.drop_drop, List.drop_left]
  by_cases h : o + n ≤ g.length
  · rw [if_pos h, if_pos (by omega)]
  · rw [if_neg h, if_neg (by omega)]

theorem readMeta_shift (P g : Bytes) (o mr : Nat) : readMeta c (P ++ g) (P.length + o) mr = readMeta c g o mr := by
  unfold readMeta
  have h1 : ∀ k, (P ++ g).length < P.length + o + k ↔ g.length < o + k := by intro k; simp only [List.length_append]; omega
  have h2 : (P ++ g).length - (P.length + o) = g.length - o := by simp only [List.length_append]; omega
  have h3 : (P ++ g).drop (P.length + o) = g.drop o := by rw [← List.drop_drop, List.drop_left]
  have h4 : ∀ k n, fread (P ++ g) (P.length + o + k) n = fread g (o + k) n := by
    intro k n; rw [Nat.add_assoc]; exact fread_shift P g _ n
  have h5 : ∀ k, P.length + o + k > (P ++ g).length ↔ o + k > g.length := by intro k; simp only [List.length_append]; omega
  simp only [h1, h2, h3, h4, h5]

theorem readValue_shift (P g : Bytes) (o : Nat) (m : Meta) : readValue (P ++ g) (P.length + o) m = readValue g o m := by
  unfold readValue
  cases m.value with
  | some v => rfl
  | none => simp only [Nat.add_assoc, fread_shift]

theorem readSound_shift (P g : Bytes) (o mr : Nat) : readSound e c (P ++ g) mr (P.length + o) = readSound e c g mr o := by
  have h : ∀ m, checkCrc e c (P ++ g) (P.length + o) m = checkCrc e c g o m := by
    intro m; unfold checkCrc; rw [readValue_shift]
  simp only [readSound, readMeta_shift, h]

/-! ### Runs of records -/

/-- The record `r` can be read at `off`. -/
def IsAt (e : Env) (c : Cfg) (f : Bytes) (off : Nat) (r : Rec) : Prop :=
  ∀ mr, metaMinReadSize ≤ mr → ∃ m, readMeta c f off mr = some m ∧ checkCrc e c f off m = true ∧ readValue f off m = some r.value ∧
    m.op = r.op ∧ m.key = r.key ∧ m.whole = r.size c

/-- The records stand one behind the other from `off` on. -/
def AllAt (e : Env) (c : Cfg) (f : Bytes) : Nat → List Rec → Prop
  | _, [] => True
  | off, r :: y => IsAt e c f off r ∧ r.size c % (1 <<< c.ap) = 0 ∧ AllAt e c f (off + r.size c) y

theorem allAt_bytes (he : EnvOk e) (hc : CfgOk c) (y : List Rec) : ∀ (P Q : Bytes),
    (∀ r ∈ y, FmtRec c r ∧ r.child < 2 ^ (8 * c.ow + c.ap)) → AllAt e c (P ++ (recsBytes e c y ++ Q)) P.length y := by
  induction y with
  | nil => intro P Q _; trivial
  | cons r y ih =>
    intro P Q h
    have h1 := h r (by simp)
    have e1 : P ++ (recsBytes e c (r :: y) ++ Q) = P ++ (recBytes e c r ++ (recsBytes e c y ++ Q)) := by
      simp [recsBytes, List.append_assoc]
    rw [e1]
    refine ⟨?_, h1.1.align, ?_⟩
    · intro mr hm
      obtain ⟨m, g1, g2, g3, g4, g5, g6, g7, g8, g9, g10, g11, g12⟩ := readMeta_rec he hc h1.1 h1.2 P (recsBytes e c y ++ Q) hm
      refine ⟨m, g1, ?_, g12, g2, g11, g10⟩
      simp only [checkCrc, g12, g3, g11, decide_true, Bool.true_and]
      by_cases hz : c.cw = 0
      · simp [hz]
      · simp [hz, g8 (by omega)]
    · have := ih (P ++ recBytes e c r) Q (fun r hr => h r (by simp [hr]))
      rw [List.length_append, recBytes_length hc, List.append_assoc] at this
      exact this

theorem IsAt.sound {f : Bytes} {off : Nat} {r : Rec} (h : IsAt e c f off r) {mr : Nat} (hm : metaMinReadSize ≤ mr) :
    ∃ m, readSound e c f mr off = some m ∧ readValue f off m = some r.value ∧ m.op = r.op ∧ m.key = r.key ∧ m.whole = r.size c := by
  obtain ⟨m, h1, h2, h3, h4, h5, h6⟩ := h mr hm
  exact ⟨m, by simp [readSound, h1, h2], h3, h4, h5, h6⟩

theorem scan_run {f : Bytes} {mr endOff : Nat} (hm : metaMinReadSize ≤ mr) (y : List Rec) : ∀ {off n : Nat}, AllAt e c f off y →
    off + totalSize c y ≤ endOff →
    scanSkip e c f mr endOff (y.length + n) off = (scanSkip e c f mr endOff n (off + totalSize c y)).map (y.map Rec.ent ++ ·) := by
  induction y with
  | nil =>
    intro off n _ _
    simp only [List.length_nil, Nat.zero_add, totalSize, Nat.add_zero, List.map_nil, List.nil_append]
    cases scanSkip e c f mr endOff n off <;> rfl
  | cons r y ih =>
    intro off n h hle
    obtain ⟨h1, _, h2⟩ := h
    obtain ⟨m, g1, g2, g3, g4, g5⟩ := h1.sound hm
    have hp := size_pos (c := c) r
    simp only [totalSize] at hle ⊢
    have hlt : off < endOff := by omega
    rw [List.length_cons, Nat.add_right_comm]
    simp only [scanSkip, if_pos hlt, g1, g2, g3, g4, g5]
    rw [ih h2 (by omega), Nat.add_assoc]
    cases scanSkip e c f mr endOff n (off + (r.size c + totalSize c y)) <;> rfl

theorem extract_run (hc : CfgOk c) {f : Bytes} {endOff : Nat} (y : List Rec) : ∀ {off n : Nat}, AllAt e c f off y →
    off + totalSize c y ≤ endOff → off % (1 <<< c.ap) = 0 → off + totalSize c y ≤ 2 ^ (8 * c.ow + c.ap) →
    extractSkip e c f endOff (y.length + n) off = (extractSkip e c f endOff n (off + totalSize c y)).map (offsFrom c off y ++ ·) := by
  induction y with
  | nil =>
    intro off n _ _ _ _
    simp only [List.length_nil, Nat.zero_add, totalSize, Nat.add_zero, offsFrom, List.nil_append]
    cases extractSkip e c f endOff n off <;> rfl
  | cons r y ih =>
    intro off n h hle ha hb
    obtain ⟨h1, hal, h2⟩ := h
    obtain ⟨m, g1, _, g2, g3, g4, g5⟩ := h1 metaMinReadSize (Nat.le_refl _)
    have hp := size_pos (c := c) r
    simp only [totalSize] at hle hb ⊢
    have hlt : off < endOff := by omega
    rw [List.length_cons, Nat.add_right_comm]
    simp only [extractSkip, if_pos hlt, g1, g3, g5]
    rw [ih h2 (by omega) (by rw [Nat.add_mod, ha, hal]; simp) (by omega), Nat.add_assoc]
    cases extractSkip e c f endOff n (off + (r.size c + totalSize c y)) with
    | none => rfl
    | some l =>
      simp only [Option.map_some, offset_rt hc ha (by omega : off < 2 ^ (8 * c.ow + c.ap)), offsFrom]
      split <;> rfl

theorem readEnts_run {f : Bytes} {mr : Nat} (hm : metaMinReadSize ≤ mr) (y : List Rec) : ∀ {off : Nat}, AllAt e c f off y →
    readEntsSkip e c f mr (offsFrom c off y) = (y.filter fun r => r.op ≠ .void).map Rec.ent := by
  induction y with
  | nil => intro off _; rfl
  | cons r y ih =>
    intro off h
    obtain ⟨h1, _, h2⟩ := h
    obtain ⟨m, g1, g2, g3, g4, g5⟩ := h1.sound hm
    by_cases hv : r.op = .void
    · simp only [offsFrom, hv, if_true, List.filter_cons, ne_eq, not_true, decide_false, Bool.false_eq_true, if_false]
      exact ih h2
    · rw [offsFrom, if_neg hv]
      simp only [List.filter_cons, ne_eq, hv, not_false_eq_true, decide_true, if_true, readEntsSkip, g1, g2, g3, g4, List.map_cons]
      rw [ih h2]
      rfl

/-! ### The search for the next record -/

theorem ahead_run {f : Bytes} {mr : Nat} (hm : metaMinReadSize ≤ mr) (n : Nat) : ∀ {off : Nat} {y : List Rec}, AllAt e c f off y →
    off + totalSize c y ≤ f.length → n ≤ y.length ∨ (y ≠ [] ∧ off + totalSize c y = f.length) → soundAhead e c f mr n off = true := by
  induction n with
  | zero => intro off y _ _ _; rfl
  | succ n ih =>
    intro off y h hle hn
    cases y with
    | nil =>
      rcases hn with hn | hn
      · simp at hn
      · exact absurd rfl hn.1
    | cons r y =>
      obtain ⟨h1, ha, h2⟩ := h
      obtain ⟨m, g1, _, _, _, g5⟩ := h1.sound hm
      have hp := size_pos (c := c) r
      simp only [totalSize] at hle hn
      have hlt : off < f.length := by omega
      simp only [soundAhead, if_pos hlt, g1, g5, ha, ne_eq, not_true, and_false, if_false]
      split
      · rfl
      · rename_i hne
        refine ih h2 (by omega) ?_
        rcases hn with hn | hn
        · exact Or.inl (by simp at hn; omega)
        · refine Or.inr ⟨?_, by omega⟩
          rintro rfl
          simp only [totalSize] at hn; omega

/-- Too few records behind the candidate. -/
theorem ahead_short {f : Bytes} {mr : Nat} (hm : metaMinReadSize ≤ mr) {n : Nat} {z : Nat} : ∀ {off : Nat} {y : List Rec}, AllAt e c f off y →
    off + totalSize c y + z = f.length → y.length < n → readSound e c f mr (off + totalSize c y) = none → y = [] ∨ 0 < z →
    soundAhead e c f mr n off = false := by
  induction n with
  | zero => intro off y _ _ h; simp at h
  | succ n ih =>
    intro off y h hle hn hu hz
    cases y with
    | nil =>
      simp only [totalSize, Nat.add_zero] at hu
      simp only [soundAhead, hu, ite_self]
    | cons r y =>
      obtain ⟨h1, ha, h2⟩ := h
      obtain ⟨m, g1, _, _, _, g5⟩ := h1.sound hm
      have hp := size_pos (c := c) r
      have hz : 0 < z := by
        rcases hz with hz | hz
        · cases hz
        · exact hz
      simp only [totalSize] at hle hu
      have hlt : off < f.length := by omega
      have hne : ¬ off + r.size c = f.length := by omega
      simp only [soundAhead, if_pos hlt, g1, g5, ha, ne_eq, not_true, and_false, if_false, if_neg hne]
      exact ih h2 (by omega) (by simp at hn; omega) (by rw [Nat.add_assoc]; exact hu) (Or.inr hz)

theorem find_hit {f : Bytes} {mr : Nat} (n : Nat) : ∀ {off k : Nat}, k < n →
    (∀ j, j < k → readSound e c f mr (off + j * (1 <<< c.ap)) = none) → off + k * (1 <<< c.ap) < f.length →
    ∀ {m}, readSound e c f mr (off + k * (1 <<< c.ap)) = some m → soundAhead e c f mr 3 (off + k * (1 <<< c.ap) + m.whole) = true →
    findNextLoop e c f mr n off = some (off + k * (1 <<< c.ap)) := by
  induction n with
  | zero => intro off k h; omega
  | succ n ih =>
    intro off k hk hj hlt m hm ha
    cases k with
    | zero =>
      simp only [Nat.zero_mul, Nat.add_zero] at hlt hm ha ⊢
      simp only [findNextLoop, if_pos hlt, hm, ha, if_true]
    | succ k =>
      have h0 := hj 0 (by omega)
      simp only [Nat.zero_mul, Nat.add_zero] at h0
      have e1 : ∀ j, off + 1 <<< c.ap + j * (1 <<< c.ap) = off + (j + 1) * (1 <<< c.ap) := by intro j; rw [Nat.succ_mul]; omega
      have hlt0 : off < f.length := Nat.lt_of_le_of_lt (Nat.le_add_right _ _) hlt
      simp only [findNextLoop, if_pos hlt0, h0, Bool.false_eq_true, if_false]
      have := ih (off := off + 1 <<< c.ap) (k := k) (by omega) (fun j hjk => by rw [e1]; exact hj (j + 1) (by omega)) (by rw [e1]; exact hlt)
        (m := m) (by rw [e1]; exact hm) (by rw [e1]; exact ha)
      rw [this, e1]

theorem find_miss {f : Bytes} {mr : Nat} (n : Nat) : ∀ {off : Nat},
    (∀ j, j < n → ∀ m, readSound e c f mr (off + j * (1 <<< c.ap)) = some m → soundAhead e c f mr 3 (off + j * (1 <<< c.ap) + m.whole) = false) →
    findNextLoop e c f mr n off = none := by
  induction n with
  | zero => intro off _; rfl
  | succ n ih =>
    intro off h
    have e1 : ∀ j, off + 1 <<< c.ap + j * (1 <<< c.ap) = off + (j + 1) * (1 <<< c.ap) := by intro j; rw [Nat.succ_mul]; omega
    have h0 := h 0 (by omega)
    simp only [Nat.zero_mul, Nat.add_zero] at h0
    have hr := ih (off := off + 1 <<< c.ap) (fun j hj m hm => by rw [e1] at hm ⊢; exact h (j + 1) (by omega) m hm)
    simp only [findNextLoop]
    split
    · cases hs : readSound e c f mr off with
      | none => simp only [Bool.false_eq_true, if_false, hr]
      | some m => simp only [h0 m hs, Bool.false_eq_true, if_false, hr]
    · rfl

/-! ### The damaged file -/

/-- A file whose records are `x`, then the damaged bytes `D`, then `y`, and zeros. -/
structure Dam (e : Env) (c : Cfg) (f : Bytes) (x : List Rec) (D : Bytes) (y : List Rec) (z : Nat) : Prop where
  front : ∃ P : Bytes, P.length = recordBase c ∧ f = P ++ (recsBytes e c x ++ (D ++ (recsBytes e c y ++ List.replicate z 0)))
  recs : ∀ r ∈ x ++ y, FmtRec c r ∧ r.child < 2 ^ (8 * c.ow + c.ap)
  least : 1 + c.ow + 3 + c.cw ≤ D.length
  align : D.length % (1 <<< c.ap) = 0

/-- Where the damaged bytes start. -/
def damAt (c : Cfg) (x : List Rec) : Nat := recordBase c + totalSize c x

section
variable {f : Bytes} {x y : List Rec} {D : Bytes} {z : Nat}

theorem Dam.length (hc : CfgOk c) (h : Dam e c f x D y z) : f.length = damAt c x + D.length + totalSize c y + z := by
  obtain ⟨P, h1, h2⟩ := h.front
  rw [h2]
  simp only [List.length_append, recsBytes_length hc, List.length_replicate, damAt]; omega

theorem Dam.left (he : EnvOk e) (hc : CfgOk c) (h : Dam e c f x D y z) : AllAt e c f (recordBase c) x := by
  obtain ⟨P, h1, h2⟩ := h.front
  rw [h2, ← h1]
  exact allAt_bytes he hc x P _ fun r hr => h.recs r (by simp [hr])

theorem Dam.right (he : EnvOk e) (hc : CfgOk c) (h : Dam e c f x D y z) : AllAt e c f (damAt c x + D.length) y := by
  obtain ⟨P, h1, h2⟩ := h.front
  have := allAt_bytes he hc y (P ++ (recsBytes e c x ++ D)) (List.replicate z 0) fun r hr => h.recs r (by simp [hr])
  simp only [List.length_append, recsBytes_length hc, h1, List.append_assoc] at this
  rw [h2, damAt, Nat.add_assoc]
  exact this

theorem Dam.shift (hc : CfgOk c) (h : Dam e c f x D y z) (mr o : Nat) :
    readSound e c f mr (damAt c x + o) = readSound e c (D ++ (recsBytes e c y ++ List.replicate z 0)) mr o ∧
    readMeta c f (damAt c x + o) mr = readMeta c (D ++ (recsBytes e c y ++ List.replicate z 0)) o mr := by
  obtain ⟨P, h1, h2⟩ := h.front
  have hl : (P ++ recsBytes e c x).length = damAt c x := by rw [List.length_append, recsBytes_length hc, h1, damAt]
  rw [h2, ← List.append_assoc P, ← hl]
  exact ⟨readSound_shift _ _ _ _, readMeta_shift _ _ _ _⟩

theorem Dam.shiftY (hc : CfgOk c) (h : Dam e c f x D y z) (mr o : Nat) :
    readSound e c f mr (damAt c x + D.length + o) = readSound e c (recsBytes e c y ++ List.replicate z 0) mr o := by
  rw [Nat.add_assoc, (h.shift hc mr _).1]
  exact readSound_shift _ _ _ _

theorem Dam.behind (hc : CfgOk c) (h : Dam e c f x D y z) {off mr : Nat} (ho : damAt c x + D.length + totalSize c y ≤ off) :
    readMeta c f off mr = none := by
  obtain ⟨P, h1, h2⟩ := h.front
  have hl : (P ++ (recsBytes e c x ++ (D ++ recsBytes e c y))).length = damAt c x + D.length + totalSize c y := by
    simp only [List.length_append, recsBytes_length hc, h1, damAt]; omega
  obtain ⟨j, rfl⟩ : ∃ j, off = damAt c x + D.length + totalSize c y + j := ⟨off - (damAt c x + D.length + totalSize c y), by omega⟩
  have e1 : f = (P ++ (recsBytes e c x ++ (D ++ recsBytes e c y))) ++ List.replicate z 0 := by rw [h2]; simp only [List.append_assoc]
  rw [e1, ← hl, readMeta_shift]
  unfold readMeta
  split
  · rfl
  · simp only [List.drop_replicate, List.take_replicate]
    generalize min _ (z - j) = q
    cases q with
    | zero => rfl
    | succ q => simp [List.replicate_succ]

theorem Dam.unsound (hc : CfgOk c) (h : Dam e c f x D y z) {off mr : Nat} (ho : damAt c x + D.length + totalSize c y ≤ off) :
    readSound e c f mr off = none := by
  simp [readSound, h.behind hc ho]

theorem Dam.aligned (hc : CfgOk c) (h : Dam e c f x D y z) : damAt c x % (1 <<< c.ap) = 0 := by
  have h1 := recordBase_aligned (c := c) hc.ap
  have h2 := totalSize_aligned (c := c) (rs := x) (fun r hr => (h.recs r (by simp [hr])).1.align)
  rw [damAt, Nat.add_mod, h1, h2]; simp

theorem alignNumber_add {a n k : Nat} (ha : a % k = 0) : alignNumber (a + n) k = a + alignNumber n k := by
  have e1 : (a + n) % k = n % k := by rw [Nat.add_mod, ha, Nat.zero_add, Nat.mod_mod]
  unfold alignNumber
  rw [e1]
  split <;> omega

/-- The offsets that `FindNextOffset` tries, seen from the start of the damaged bytes. -/
theorem Dam.start (hc : CfgOk c) (h : Dam e c f x D y z) : ∃ q k, alignNumber (1 + c.ow + 3 + c.cw) (1 <<< c.ap) = q ∧
    alignNumber (damAt c x + (1 + c.ow + 3 + c.cw)) (1 <<< c.ap) = damAt c x + q ∧
    q % (1 <<< c.ap) = 0 ∧ D.length = q + k * (1 <<< c.ap) := by
  have hp := align_pos (c := c)
  have hmod := alignNumber_mod (1 + c.ow + 3 + c.cw) (1 <<< c.ap) hp
  have hle : alignNumber (1 + c.ow + 3 + c.cw) (1 <<< c.ap) ≤ D.length := alignNumber_le h.align h.least
  refine ⟨_, (D.length - alignNumber (1 + c.ow + 3 + c.cw) (1 <<< c.ap)) / (1 <<< c.ap), rfl, alignNumber_add (h.aligned hc), hmod, ?_⟩
  generalize alignNumber (1 + c.ow + 3 + c.cw) (1 <<< c.ap) = q at *
  have hd : (D.length - q) % (1 <<< c.ap) = 0 := by
    have e1 : D.length = q + (D.length - q) := by omega
    have h2 := h.align
    rw [e1, Nat.add_mod, hmod, Nat.zero_add, Nat.mod_mod] at h2
    exact h2
  have := Nat.div_add_mod (D.length - q) (1 <<< c.ap)
  rw [hd, Nat.add_zero, Nat.mul_comm] at this
  omega

/-- Nothing in the damaged bytes can be read. -/
def Dark (e : Env) (c : Cfg) (f : Bytes) (mr : Nat) (x : List Rec) (D : Bytes) : Prop :=
  ∀ o, o < D.length → o % (1 <<< c.ap) = 0 → readSound e c f mr (damAt c x + o) = none

theorem Dam.tries (_h : Dam e c f x D y z) {mr : Nat} (hd : Dark e c f mr x D) {q k : Nat} (hq : q % (1 <<< c.ap) = 0)
    (hk : D.length = q + k * (1 <<< c.ap)) {j : Nat} (hj : j < k) : readSound e c f mr (damAt c x + q + j * (1 <<< c.ap)) = none := by
  rw [Nat.add_assoc]
  apply hd
  · have := Nat.mul_lt_mul_of_pos_right hj (align_pos (c := c))
    omega
  · rw [Nat.add_mul_mod_self_right]; exact hq

/-- The next record is found. -/
theorem Dam.found (he : EnvOk e) (hc : CfgOk c) (h : Dam e c f x D y z) {mr : Nat} (hm : metaMinReadSize ≤ mr) (hd : Dark e c f mr x D)
    (hsmall : D.length < alignNumber (1 + c.ow + 3 + c.cw) (1 <<< c.ap) + 1000 <<< c.ap) (hy : 4 ≤ y.length ∨ (2 ≤ y.length ∧ z = 0)) :
    findNext e c f mr (damAt c x) = some (damAt c x + D.length) := by
  obtain ⟨q, k, h0, h1, h2, h3⟩ := h.start hc
  rw [h0] at hsmall
  have hlen := h.length hc
  have hk : k < 1000 := by
    apply Nat.lt_of_not_le
    intro hle
    have := Nat.mul_le_mul_right (1 <<< c.ap) hle
    rw [Nat.shiftLeft_eq] at hsmall
    rw [Nat.shiftLeft_eq, Nat.one_mul] at this h3
    omega
  have hR := h.right he hc
  cases y with
  | nil => simp at hy
  | cons r y =>
    obtain ⟨g1, _, g3⟩ := hR
    obtain ⟨m, s1, _, _, _, s5⟩ := g1.sound hm
    have hp := size_pos (c := c) r
    simp only [totalSize] at hlen
    have e1 : damAt c x + q + k * (1 <<< c.ap) = damAt c x + D.length := by omega
    rw [findNext, h1, ← e1]
    apply find_hit 1000 hk (fun j hj => h.tries hd h2 h3 hj) (by omega) (m := m) (by rw [e1]; exact s1)
    rw [e1, s5]
    apply ahead_run hm 3 g3 (by omega)
    simp only [List.length_cons] at hy
    rcases hy with hy | hy
    · exact Or.inl (by omega)
    · refine Or.inr ⟨?_, by omega⟩
      rintro rfl
      simp at hy

/-- No next record is found if every record behind is rejected, or if the damaged bytes are too many. -/
theorem Dam.notFound (hc : CfgOk c) (h : Dam e c f x D y z) {mr : Nat} (hd : Dark e c f mr x D)
    (hy : (∀ o m, o < totalSize c y → o % (1 <<< c.ap) = 0 → readSound e c f mr (damAt c x + D.length + o) = some m →
        soundAhead e c f mr 3 (damAt c x + D.length + o + m.whole) = false) ∨ alignNumber (1 + c.ow + 3 + c.cw) (1 <<< c.ap) + 1000 <<< c.ap ≤ D.length) :
    findNext e c f mr (damAt c x) = none := by
  obtain ⟨q, k, h0, h1, h2, h3⟩ := h.start hc
  rw [h0] at hy
  rw [findNext, h1]
  apply find_miss
  intro j hj m hm
  by_cases hjk : j < k
  · rw [h.tries hd h2 h3 hjk] at hm; cases hm
  · obtain ⟨i, rfl⟩ : ∃ i, j = k + i := ⟨j - k, by omega⟩
    rcases hy with hy | hy
    · have e1 : damAt c x + q + (k + i) * (1 <<< c.ap) = damAt c x + D.length + i * (1 <<< c.ap) := by rw [Nat.add_mul]; omega
      rw [e1] at hm ⊢
      by_cases hb : i * (1 <<< c.ap) < totalSize c y
      · exact hy _ m hb (Nat.mul_mod_left _ _) hm
      · rw [h.unsound hc (by omega)] at hm; cases hm
    · exfalso
      have : k * (1 <<< c.ap) ≤ 999 * (1 <<< c.ap) := Nat.mul_le_mul_right _ (by omega)
      rw [Nat.shiftLeft_eq 1000] at hy
      rw [Nat.shiftLeft_eq, Nat.one_mul] at *
      omega

/-- Where an offset lies in a list of records. -/
theorem total_split (y : List Rec) : ∀ {o : Nat}, o < totalSize c y →
    ∃ y1 r y2 i, y = y1 ++ r :: y2 ∧ o = totalSize c y1 + i ∧ i < r.size c := by
  induction y with
  | nil => intro o h; simp [totalSize] at h
  | cons r y ih =>
    intro o h
    by_cases hr : o < r.size c
    · exact ⟨[], r, y, o, rfl, by simp [totalSize], hr⟩
    · simp only [totalSize] at h
      obtain ⟨y1, r1, y2, i, h1, h2, h3⟩ := ih (o := o - r.size c) (by omega)
      exact ⟨r :: y1, r1, y2, i, by rw [h1]; rfl, by simp only [totalSize]; omega, h3⟩

theorem allAt_split (y1 : List Rec) : ∀ {off : Nat} {y2 : List Rec}, AllAt e c f off (y1 ++ y2) → AllAt e c f (off + totalSize c y1) y2 := by
  induction y1 with
  | nil => intro off y2 h; exact h
  | cons r y1 ih =>
    intro off y2 h
    have := ih h.2.2
    simpa only [totalSize, Nat.add_assoc] using this

/-- Too few records behind the damaged bytes: all of them are rejected. -/
theorem Dam.short (he : EnvOk e) (hc : CfgOk c) (h : Dam e c f x D y z) {mr : Nat} (hm : metaMinReadSize ≤ mr)
    (hin : ∀ y1 r y2 i, y = y1 ++ r :: y2 → 0 < i → i < r.size c → i % (1 <<< c.ap) = 0 →
      readSound e c (recsBytes e c y ++ List.replicate z 0) mr (totalSize c y1 + i) = none)
    (hy : y.length ≤ 1 ∨ (y.length ≤ 3 ∧ 0 < z)) :
    ∀ o m, o < totalSize c y → o % (1 <<< c.ap) = 0 → readSound e c f mr (damAt c x + D.length + o) = some m →
      soundAhead e c f mr 3 (damAt c x + D.length + o + m.whole) = false := by
  intro o m ho ha hs
  have hlen := h.length hc
  obtain ⟨y1, r, y2, i, h1, h2, h3⟩ := total_split y ho
  have hal : totalSize c y1 % (1 <<< c.ap) = 0 := totalSize_aligned fun r hr => (h.recs r (by simp [h1, hr])).1.align
  by_cases hi : i = 0
  · subst hi
    have hA := allAt_split y1 (h1 ▸ h.right he hc)
    obtain ⟨g1, _, g3⟩ := hA
    obtain ⟨m', s1, _, _, _, s5⟩ := g1.sound hm
    rw [Nat.add_zero] at h2
    subst h2
    rw [s1] at hs
    cases hs
    rw [s5]
    have ht : totalSize c y = totalSize c y1 + (r.size c + totalSize c y2) := by rw [h1, totalSize_app]; rfl
    have hl : y.length = y1.length + (y2.length + 1) := by rw [h1]; simp
    refine ahead_short hm (z := z) g3 (by omega) (by omega) (h.unsound hc (by omega)) ?_
    rcases hy with hy | hy
    · exact Or.inl (List.length_eq_zero_iff.1 (by omega))
    · exact Or.inr hy.2
  · exfalso
    rw [h2, h.shiftY hc, hin y1 r y2 i h1 (by omega) h3 (by rw [h2, Nat.add_mod, hal] at ha; simpa using ha)] at hs
    cases hs

theorem Dam.endFind (hc : CfgOk c) (h : Dam e c f x D y z) {mr : Nat} :
    findNext e c f mr (damAt c x + D.length + totalSize c y) = none := by
  unfold findNext
  apply find_miss
  intro j _ m hm
  have := alignNumber_ge (damAt c x + D.length + totalSize c y + (1 + c.ow + 3 + c.cw)) (1 <<< c.ap)
  rw [h.unsound hc (by omega)] at hm
  cases hm

theorem Dam.scanEnd (hc : CfgOk c) (h : Dam e c f x D y z) {mr endOff n : Nat} :
    scanSkip e c f mr endOff (n + 1) (damAt c x + D.length + totalSize c y) = some [] := by
  simp only [scanSkip, h.unsound hc (Nat.le_refl _), h.endFind hc, ite_self]

theorem Dam.extractEnd (hc : CfgOk c) (h : Dam e c f x D y z) {endOff n : Nat} :
    extractSkip e c f endOff (n + 1) (damAt c x + D.length + totalSize c y) = some [] := by
  simp only [extractSkip, h.behind hc (Nat.le_refl _), h.endFind hc, ite_self]

/-- What the restoration in the in-place mode reads of a damaged file. -/
theorem Dam.scan (he : EnvOk e) (hc : CfgOk c) (h : Dam e c f x D y z) {mr : Nat} (hm : metaMinReadSize ≤ mr) (hd : Dark e c f mr x D)
    {next : Option Nat} (hn : findNext e c f mr (damAt c x) = next) (hs : next = none ∨ next = some (damAt c x + D.length)) :
    scanSkip e c f mr f.length (f.length + 1) (recordBase c) =
      some (x.map Rec.ent ++ if next = none then [] else y.map Rec.ent) := by
  have hlen := h.length hc
  have hl := h.least
  have hx := length_le_total (c := c) x
  have hy := length_le_total (c := c) y
  have hpos := recordBase_pos (c := c)
  have hd0 := hd 0 (by omega) (by simp)
  rw [Nat.add_zero] at hd0
  have hdam : damAt c x = recordBase c + totalSize c x := rfl
  obtain ⟨n, hn1⟩ : ∃ n, f.length + 1 = x.length + (y.length + (n + 1) + 1) := ⟨f.length + 1 - x.length - y.length - 2, by omega⟩
  rw [hn1, scan_run hm x (h.left he hc) (by omega), ← hdam]
  have hlt : damAt c x < f.length := by omega
  rcases hs with rfl | rfl
  · rw [scanSkip, if_pos hlt]
    simp only [hd0, hn, if_true, Option.map_some]
  · rw [scanSkip, if_pos hlt]
    simp only [hd0, hn]
    rw [scan_run hm y (h.right he hc) (by omega), h.scanEnd hc]
    simp

/-- What the restoration in the appending mode reads of a damaged file whose damaged header cannot be read. -/
theorem Dam.extract (he : EnvOk e) (hc : CfgOk c) (h : Dam e c f x D y z) (hroom : damAt c x + D.length + totalSize c y ≤ 2 ^ (8 * c.ow + c.ap))
    (hd : readMeta c f (damAt c x) metaMinReadSize = none)
    {next : Option Nat} (hn : findNext e c f metaMinReadSize (damAt c x) = next) (hs : next = none ∨ next = some (damAt c x + D.length)) :
    extractSkip e c f f.length (f.length + 1) (recordBase c) =
      some (offsFrom c (recordBase c) x ++ if next = none then [] else offsFrom c (damAt c x + D.length) y) := by
  have hlen := h.length hc
  have hl := h.least
  have hx := length_le_total (c := c) x
  have hy := length_le_total (c := c) y
  have hpos := recordBase_pos (c := c)
  have hdam : damAt c x = recordBase c + totalSize c x := rfl
  obtain ⟨n, hn1⟩ : ∃ n, f.length + 1 = x.length + (y.length + (n + 1) + 1) := ⟨f.length + 1 - x.length - y.length - 2, by omega⟩
  rw [hn1, extract_run hc x (h.left he hc) (by omega) (recordBase_aligned hc.ap) (by omega), ← hdam]
  have hlt : damAt c x < f.length := by omega
  rcases hs with rfl | rfl
  · rw [extractSkip, if_pos hlt]
    simp only [hd, hn, if_true, Option.map_some]
  · rw [extractSkip, if_pos hlt]
    simp only [hd, hn]
    rw [extract_run hc y (h.right he hc) (by omega) (by rw [Nat.add_mod, h.aligned hc, h.align]; simp) (by omega), h.extractEnd hc]
    simp

/-- The same when the damaged header can be read and gives the right size: the offset of the damaged record, if it is not
taken for a void one, is among those that are read in the second pass. -/
theorem Dam.extractBody (he : EnvOk e) (hc : CfgOk c) (h : Dam e c f x D y z) (hroom : damAt c x + D.length + totalSize c y ≤ 2 ^ (8 * c.ow + c.ap))
    {m : Meta} (hd : readMeta c f (damAt c x) metaMinReadSize = some m) (hw : m.whole = D.length) :
    extractSkip e c f f.length (f.length + 1) (recordBase c) =
      some (offsFrom c (recordBase c) x ++ ((if m.op = .void then [] else [damAt c x]) ++ offsFrom c (damAt c x + D.length) y)) := by
  have hlen := h.length hc
  have hl := h.least
  have hx := length_le_total (c := c) x
  have hy := length_le_total (c := c) y
  have hpos := recordBase_pos (c := c)
  have hdam : damAt c x = recordBase c + totalSize c x := rfl
  obtain ⟨n, hn1⟩ : ∃ n, f.length + 1 = x.length + (y.length + (n + 1) + 1) := ⟨f.length + 1 - x.length - y.length - 2, by omega⟩
  rw [hn1, extract_run hc x (h.left he hc) (by omega) (recordBase_aligned hc.ap) (by omega), ← hdam]
  have hlt : damAt c x < f.length := by omega
  rw [extractSkip, if_pos hlt]
  simp only [hd, hw]
  rw [extract_run hc y (h.right he hc) (by omega) (by rw [Nat.add_mod, h.aligned hc, h.align]; simp) (by omega), h.extractEnd hc]
  simp only [Option.map_some, List.append_nil, offset_rt hc (h.aligned hc) (by omega : damAt c x < 2 ^ (8 * c.ow + c.ap))]
  by_cases hv : m.op = .void
  · simp [hv]
  · simp [hv]

/-- The records that are handed to the new database, in its order. -/
def entsOf (c : Cfg) (rs : List Rec) : List Ent :=
  if c.inPlace then rs.map Rec.ent else ((rs.filter fun r => r.op ≠ .void).map Rec.ent).reverse

theorem Dam.restore (he : EnvOk e) (hc : CfgOk c) (h : Dam e c f x D y z) (hroom : damAt c x + D.length + totalSize c y ≤ 2 ^ (8 * c.ow + c.ap))
    (hu : Unreadable e c D (recsBytes e c y ++ List.replicate z 0)) {next : Option Nat}
    (hn : findNext e c f (if c.inPlace then max metaMinReadSize (1 <<< c.ap) else metaMinReadSize) (damAt c x) = next)
    (hs : next = none ∨ next = some (damAt c x + D.length)) :
    restoreEnts e c f (max metaMinReadSize (1 <<< c.ap)) f.length = some (entsOf c (x ++ if next = none then [] else y)) := by
  have hm : metaMinReadSize ≤ max metaMinReadSize (1 <<< c.ap) := Nat.le_max_left _ _
  unfold restoreEnts entsOf
  by_cases hi : c.inPlace = true
  · rw [if_pos hi] at hn
    rw [if_pos hi, if_pos hi]
    have hd : Dark e c f (max metaMinReadSize (1 <<< c.ap)) x D := by
      intro o h1 h2
      rw [(h.shift hc _ o).1]
      have := hu.1 o h1 h2
      rwa [if_pos hi] at this
    rw [h.scan he hc hm hd hn hs]
    split <;> simp
  · rw [if_neg hi] at hn
    rw [if_neg hi, if_neg hi]
    have hd : readMeta c f (damAt c x) metaMinReadSize = none := by
      have := (h.shift hc metaMinReadSize 0).2
      rw [Nat.add_zero] at this
      rw [this]
      exact hu.2 (by simpa using hi)
    rw [h.extract he hc hroom hd hn hs, Option.map_some, readEntsSkip_reverse, readEntsSkip_append, readEnts_run hm x (h.left he hc)]
    split
    · simp [readEntsSkip]
    · rw [readEnts_run hm y (h.right he hc)]
      simp

theorem Dam.restoreBody (he : EnvOk e) (hc : CfgOk c) (h : Dam e c f x D y z) (hroom : damAt c x + D.length + totalSize c y ≤ 2 ^ (8 * c.ow + c.ap))
    (hi : c.inPlace = false) (hu : BrokenBody e c D (recsBytes e c y ++ List.replicate z 0)) :
    restoreEnts e c f (max metaMinReadSize (1 <<< c.ap)) f.length = some (entsOf c (x ++ y)) := by
  have hm : metaMinReadSize ≤ max metaMinReadSize (1 <<< c.ap) := Nat.le_max_left _ _
  unfold restoreEnts entsOf
  rw [if_neg (by simp [hi]), if_neg (by simp [hi])]
  have h0 := fun mr => h.shift hc mr 0
  simp only [Nat.add_zero] at h0
  obtain ⟨m, h1, h2⟩ := Option.map_eq_some_iff.1 hu.1
  rw [← (h0 _).2] at h1
  have h3 := hu.2
  rw [← (h0 _).1] at h3
  rw [h.extractBody he hc hroom h1 h2, Option.map_some, readEntsSkip_reverse, readEntsSkip_append, readEntsSkip_append,
    readEnts_run hm x (h.left he hc), readEnts_run hm y (h.right he hc)]
  have h4 : readEntsSkip e c f (max metaMinReadSize (1 <<< c.ap)) (if m.op = .void then [] else [damAt c x]) = [] := by
    split
    · rfl
    · simp only [readEntsSkip, h3]
  rw [h4]
  simp

end

end Verif.Hash
