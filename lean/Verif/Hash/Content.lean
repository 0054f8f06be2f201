import Verif.Hash.Chain
import Verif.Codec.NumLemmas
/-
What a structured file stands for, which writes keep it well-formed, and the facts about sizes and offsets.
-/
namespace Verif.Hash
open Verif.Codec

/-- SPECIFICATION: the effect of a record of the file on the dictionary, when the file is read from its beginning. -/
def Rec.apply (d : Dict) (r : Rec) : Dict :=
  match r.op with
  | .void => d
  | .remove => d.upd r.key none
  | _ => d.upd r.key (some r.value)

/-- SPECIFICATION: the dictionary a file of records stands for: its records applied in file order. -/
def contents (rs : List Rec) : Dict := rs.foldl Rec.apply Dict.empty

theorem contents_append (rs : List Rec) (r : Rec) : contents (rs ++ [r]) = Rec.apply (contents rs) r := by
  simp only [contents, List.foldl_append, List.foldl_cons, List.foldl_nil]

theorem Rec.apply_void {d : Dict} {r : Rec} (h : r.op = .void) : Rec.apply d r = d := by simp [Rec.apply, h]

theorem Rec.apply_remove {d : Dict} {r : Rec} (h : r.op = .remove) : Rec.apply d r = d.upd r.key none := by
  simp [Rec.apply, h]

theorem Rec.apply_set {d : Dict} {r : Rec} (h1 : r.op ≠ .void) (h2 : r.op ≠ .remove) :
    Rec.apply d r = d.upd r.key (some r.value) := by
  unfold Rec.apply
  cases h : r.op <;> simp_all

/-- SPECIFICATION: the admissible parameters of a database. -/
structure CfgOk (c : Cfg) : Prop where
  ow : 3 ≤ c.ow ∧ c.ow ≤ 6
  ap : c.ap ≤ 16
  cw : c.cw = 0 ∨ c.cw = 1 ∨ c.cw = 2 ∨ c.cw = 4
  nb : 1 ≤ c.nb ∧ c.nb ≤ 1099511627689
  fbp : 1 ≤ c.fbpCap

/-- The size limits on records for every choice of the parameters: keys below 8 MiB; key and value together below 2 GiB
less 128 KiB. -/
def hashFits (k v : Bytes) : Prop := k.length ≤ maxKeySize ∧ k.length + v.length ≤ 2 ^ 31 - 2 ^ 17

instance (k v : Bytes) : Decidable (hashFits k v) := inferInstanceAs (Decidable (_ ∧ _))

/-- The size limits of a record in a given file: the key is smaller than 8 MiB and the whole record, with its alignment,
smaller than 2 GiB. -/
def fits (c : Cfg) (k v : Bytes) : Prop :=
  hashFits k v ∧ alignNumber (baseSize c k v) (1 <<< c.ap) < 2 ^ 31

instance (c : Cfg) (k v : Bytes) : Decidable (fits c k v) := inferInstanceAs (Decidable (_ ∧ _))

/-! ### Sizes -/

theorem alignNumber_mod (n a : Nat) (ha : 0 < a) : alignNumber n a % a = 0 := by
  unfold alignNumber
  split
  · have h := Nat.mod_add_div n a
    have : n + (a - n % a) = a * (n / a + 1) := by
      have := Nat.mod_lt n ha
      rw [Nat.mul_add, Nat.mul_one]; omega
    rw [this]; exact Nat.mul_mod_right _ _
  · omega

theorem alignNumber_ge (n a : Nat) : n ≤ alignNumber n a := by unfold alignNumber; split <;> omega

theorem alignNumber_self {n a : Nat} (h : n % a = 0) : alignNumber n a = n := by simp [alignNumber, h]

theorem alignNumber_le {n m a : Nat} (hm : m % a = 0) (hnm : n ≤ m) : alignNumber n a ≤ m := by
  unfold alignNumber
  split
  · rename_i h
    have ha : 0 < a := by
      rcases Nat.eq_zero_or_pos a with rfl | h'
      · simp at hm; omega
      · exact h'
    have h1 := Nat.mod_add_div n a
    have h2 := Nat.mod_add_div m a
    rw [hm] at h2
    have := Nat.mod_lt n ha
    have hlt : n / a < m / a := by
      apply Nat.lt_of_not_le
      intro hle
      have := Nat.mul_le_mul_left a hle
      omega
    have := Nat.mul_le_mul_left a (Nat.succ_le_of_lt hlt)
    rw [Nat.mul_succ] at this
    omega
  · exact hnm

variable {c : Cfg}

theorem setData_size (op : OpType) (ideal : Nat) (k v : Bytes) (ch : Nat) :
    (setData c op ideal k v ch).size c = alignNumber (max (baseSize c k v) ideal) (1 <<< c.ap) := by
  have := alignNumber_ge (max (baseSize c k v) ideal) (1 <<< c.ap)
  simp only [Rec.size, setData]; omega

theorem align_pos : 0 < 1 <<< c.ap := by rw [Nat.shiftLeft_eq]; have := Nat.two_pow_pos c.ap; omega

theorem baseSize_nil_le (k v : Bytes) : baseSize c [] [] ≤ baseSize c k v := by
  simp only [baseSize, List.length_nil]
  have h0 : sizeVarNum 0 = 1 := by decide
  have h1 := sizeVarNum_pos k.length
  have h2 := sizeVarNum_pos v.length
  omega

/-- A record of the file: aligned, with the sizes the reader accepts. -/
structure FmtRec (c : Cfg) (r : Rec) : Prop where
  align : r.size c % (1 <<< c.ap) = 0
  small : r.size c < 2 ^ 31
  key : r.key.length ≤ maxKeySize
  child : r.child % (1 <<< c.ap) = 0

/-- A record that also satisfies the limits on keys and values. -/
structure GoodRec (c : Cfg) (r : Rec) : Prop extends FmtRec c r where
  kv : hashFits r.key r.value

theorem void_size {r : Rec} (h : r.size c % (1 <<< c.ap) = 0) (op : OpType) (ch : Nat) :
    (setData c op (r.size c) [] [] ch).size c = r.size c := by
  rw [setData_size, Nat.max_eq_right, alignNumber_self h]
  have := baseSize_nil_le (c := c) r.key r.value
  simp only [Rec.size]; omega

/-! ### Well-formed files and writes -/

/-- The end of the file. -/
def Lay.end_ (c : Cfg) (L : Lay) : Nat := recordBase c + totalSize c L.recs

/-- Every number in the file can be read back. -/
structure Base (c : Cfg) (L : Lay) : Prop where
  nb : L.buckets.length = c.nb
  recs : ∀ r ∈ L.recs, GoodRec c r ∧ r.child < L.end_ c
  bkt : ∀ v ∈ L.buckets, v % (1 <<< c.ap) = 0 ∧ v < L.end_ c

/-- A write that keeps the file well-formed. -/
def WrOk (c : Cfg) (L : Lay) : Wr → Prop
  | .append r => GoodRec c r ∧ r.child < L.end_ c
  | .record off r => GoodRec c r ∧ r.child < L.end_ c ∧
      ∃ old, recAt c (recordBase c) L.recs off = some old ∧ r.size c = old.size c
  | .child off ch => ch % (1 <<< c.ap) = 0 ∧ ch < L.end_ c ∧ ∃ old, recAt c (recordBase c) L.recs off = some old
  | .bucket bi v => bi < c.nb ∧ v % (1 <<< c.ap) = 0 ∧ v < L.end_ c

def WrsOk (c : Cfg) : Lay → List Wr → Prop
  | _, [] => True
  | L, w :: ws => WrOk c L w ∧ WrsOk c (applyL c L w) ws

theorem end_applyL {L : Lay} {w : Wr} (h : WrOk c L w) : L.end_ c ≤ (applyL c L w).end_ c := by
  cases w with
  | append r => simp only [applyL, Lay.end_, totalSize_append]; omega
  | record off r =>
    obtain ⟨_, _, old, ho, hs⟩ := h
    simp only [applyL, Lay.end_, totalSize_setAt ho hs]; omega
  | child off ch =>
    obtain ⟨_, _, old, ho⟩ := h
    simp only [applyL, ho, Lay.end_]
    rw [totalSize_setAt (r' := { old with child := ch }) ho rfl]; omega
  | bucket bi v => simp only [applyL, Lay.end_]; omega

theorem Base.applyL {L : Lay} (hb : Base c L) {w : Wr} (h : WrOk c L w) : Base c (applyL c L w) := by
  have hend := end_applyL h
  cases w with
  | append r =>
    refine ⟨hb.nb, ?_, fun v hv => ⟨(hb.bkt v hv).1, Nat.lt_of_lt_of_le (hb.bkt v hv).2 hend⟩⟩
    intro x hx
    simp only [Hash.applyL, List.mem_append, List.mem_singleton] at hx
    rcases hx with hx | rfl
    · exact ⟨(hb.recs x hx).1, Nat.lt_of_lt_of_le (hb.recs x hx).2 hend⟩
    · exact ⟨h.1, Nat.lt_of_lt_of_le h.2 hend⟩
  | record off r =>
    obtain ⟨h1, h2, old, ho, hs⟩ := h
    refine ⟨hb.nb, ?_, fun v hv => ⟨(hb.bkt v hv).1, Nat.lt_of_lt_of_le (hb.bkt v hv).2 hend⟩⟩
    intro x hx
    rcases mem_setAt ho hs hx with rfl | hx
    · exact ⟨h1, Nat.lt_of_lt_of_le h2 hend⟩
    · exact ⟨(hb.recs x hx).1, Nat.lt_of_lt_of_le (hb.recs x hx).2 hend⟩
  | child off ch =>
    obtain ⟨h1, h2, old, ho⟩ := h
    simp only [Hash.applyL, ho] at hend ⊢
    refine ⟨hb.nb, ?_, fun v hv => ⟨(hb.bkt v hv).1, Nat.lt_of_lt_of_le (hb.bkt v hv).2 hend⟩⟩
    intro x hx
    rcases mem_setAt (r' := { old with child := ch }) ho rfl hx with rfl | hx
    · have hg := (hb.recs old (recAt_mem ho)).1
      exact ⟨⟨⟨hg.align, hg.small, hg.key, h1⟩, hg.kv⟩, Nat.lt_of_lt_of_le h2 hend⟩
    · exact ⟨(hb.recs x hx).1, Nat.lt_of_lt_of_le (hb.recs x hx).2 hend⟩
  | bucket bi v =>
    refine ⟨by simpa [Hash.applyL] using hb.nb, fun x hx => hb.recs x hx, ?_⟩
    intro x hx
    simp only [Hash.applyL] at hx
    rcases List.mem_or_eq_of_mem_set hx with hx | rfl
    · exact hb.bkt x hx
    · exact h.2

theorem Base.applyLs {L : Lay} (hb : Base c L) {ws : List Wr} (h : WrsOk c L ws) : Base c (applyLs c L ws) := by
  induction ws generalizing L with
  | nil => exact hb
  | cons w ws ih => exact ih (hb.applyL h.1) h.2

/-! ### Offsets are aligned -/

theorem recordBase_aligned (h : c.ap ≤ 16) : recordBase c % (1 <<< c.ap) = 0 := by
  unfold recordBase recordBaseAlign
  have hp : ∀ n, 0 < 1 <<< n := fun n => by rw [Nat.shiftLeft_eq]; have := Nat.two_pow_pos n; omega
  by_cases h1 : c.ap ≤ 12
  · have e : max 4096 (1 <<< c.ap) = 4096 := by
      have : 1 <<< c.ap ≤ 4096 := by
        rw [Nat.shiftLeft_eq, Nat.one_mul]; exact Nat.pow_le_pow_right (by omega) h1
      omega
    rw [e]
    have := alignNumber_mod (metadataSize + c.nb * c.ow + fbpSectionSize + recordBaseHeaderSize) 4096 (by omega)
    have hd : (1 <<< c.ap) ∣ 4096 := by
      rw [Nat.shiftLeft_eq, Nat.one_mul]; exact Nat.pow_dvd_pow (n := 12) 2 h1
    exact Nat.mod_eq_zero_of_dvd (Nat.dvd_trans hd (Nat.dvd_of_mod_eq_zero this))
  · have e : max 4096 (1 <<< c.ap) = 1 <<< c.ap := by
      have : 4096 ≤ 1 <<< c.ap := by
        rw [Nat.shiftLeft_eq, Nat.one_mul]; exact Nat.pow_le_pow_right (n := 2) (i := 12) (by omega) (by omega)
      omega
    rw [e]; exact alignNumber_mod _ _ (hp _)

theorem totalSize_aligned {rs : List Rec} (h : ∀ r ∈ rs, r.size c % (1 <<< c.ap) = 0) :
    totalSize c rs % (1 <<< c.ap) = 0 := by
  induction rs with
  | nil => simp [totalSize]
  | cons r rs ih =>
    simp only [totalSize]
    rw [Nat.add_mod, h r (by simp), ih (fun x hx => h x (by simp [hx]))]; simp

theorem recAt_aligned {rs : List Rec} {b off r} (h : ∀ r ∈ rs, r.size c % (1 <<< c.ap) = 0) (hb : b % (1 <<< c.ap) = 0)
    (hr : recAt c b rs off = some r) : off % (1 <<< c.ap) = 0 := by
  induction rs generalizing b with
  | nil => simp [recAt] at hr
  | cons x rs ih =>
    simp only [recAt] at hr
    split at hr
    · rename_i e; rw [e]; exact hb
    · refine ih (fun y hy => h y (by simp [hy])) ?_ hr
      rw [Nat.add_mod, hb, h x (by simp)]; simp

theorem Base.off_aligned {L : Lay} (hc : CfgOk c) (hb : Base c L) {off r}
    (h : recAt c (recordBase c) L.recs off = some r) : off % (1 <<< c.ap) = 0 :=
  recAt_aligned (fun r hr => (hb.recs r hr).1.align) (recordBase_aligned hc.ap) h

theorem Base.end_aligned {L : Lay} (hc : CfgOk c) (hb : Base c L) : L.end_ c % (1 <<< c.ap) = 0 := by
  rw [Lay.end_, Nat.add_mod, recordBase_aligned hc.ap, totalSize_aligned (fun r hr => (hb.recs r hr).1.align)]; simp

theorem goodRec_setData {op ideal k v ch} (hf : fits c k v) (hi : ideal < 2 ^ 31) (ha : ideal % (1 <<< c.ap) = 0)
    (hch : ch % (1 <<< c.ap) = 0) : GoodRec c (setData c op ideal k v ch) := by
  refine ⟨⟨?_, ?_, hf.1.1, hch⟩, hf.1⟩
  · rw [setData_size]; exact alignNumber_mod _ _ align_pos
  · rw [setData_size]
    rcases Nat.le_total (baseSize c k v) ideal with h | h
    · rw [Nat.max_eq_right h, alignNumber_self ha]; exact hi
    · rw [Nat.max_eq_left h]; exact hf.2

/-! ### Contents after a single write -/

/-- What a list of records does to a key: nothing, or it gives the key a value that does not depend on the past. -/
theorem foldl_cases (k : Bytes) (rs : List Rec) : (∀ d : Dict, rs.foldl Rec.apply d k = d k) ∨ ∃ o, ∀ d : Dict, rs.foldl Rec.apply d k = o := by
  induction rs with
  | nil => exact Or.inl fun _ => rfl
  | cons r rs ih =>
    rcases ih with h | ⟨o, h⟩
    · by_cases hk : r.op ≠ .void ∧ r.key = k
      · obtain ⟨hv, rfl⟩ := hk
        refine Or.inr ⟨if r.op = .remove then none else some r.value, fun d => ?_⟩
        rw [List.foldl_cons, h]
        by_cases hr : r.op = .remove
        · rw [Rec.apply_remove hr, Dict.upd_self, if_pos hr]
        · rw [Rec.apply_set hv hr, Dict.upd_self, if_neg hr]
      · refine Or.inl fun d => ?_
        rw [List.foldl_cons, h]
        by_cases hv : r.op = .void
        · rw [Rec.apply_void hv]
        · have hne : k ≠ r.key := fun e => hk ⟨hv, e.symm⟩
          by_cases hr : r.op = .remove
          · rw [Rec.apply_remove hr, Dict.upd_other _ _ hne]
          · rw [Rec.apply_set hv hr, Dict.upd_other _ _ hne]
    · exact Or.inr ⟨o, fun d => by rw [List.foldl_cons, h]⟩

/-- Writing a record over a void one changes nothing or gives its key its value. -/
theorem contents_fill {rs : List Rec} {off : Nat} {r nr : Rec} (h : recAt c (recordBase c) rs off = some r) (hv : r.op = .void)
    (h1 : nr.op ≠ .void) (h2 : nr.op ≠ .remove) : contents (setAt c (recordBase c) rs off nr) = contents rs ∨
      contents (setAt c (recordBase c) rs off nr) = (contents rs).upd nr.key (some nr.value) := by
  obtain ⟨x, y, rfl, _, h3⟩ := recAt_split h
  rw [h3]
  have e1 : contents (x ++ r :: y) = y.foldl Rec.apply (contents x) := by
    simp only [contents, List.foldl_append, List.foldl_cons, Rec.apply_void hv]
  have e2 : contents (x ++ nr :: y) = y.foldl Rec.apply ((contents x).upd nr.key (some nr.value)) := by
    simp only [contents, List.foldl_append, List.foldl_cons, Rec.apply_set h1 h2]
  rw [e1, e2]
  have hother : ∀ k, k ≠ nr.key → y.foldl Rec.apply ((contents x).upd nr.key (some nr.value)) k = y.foldl Rec.apply (contents x) k := by
    intro k hk
    rcases foldl_cases k y with h | ⟨o, h⟩
    · rw [h, h, Dict.upd_other _ _ hk]
    · rw [h, h]
  rcases foldl_cases nr.key y with h | ⟨o, h⟩
  · right; funext k
    by_cases hk : k = nr.key
    · subst hk; rw [h, Dict.upd_self, Dict.upd_self]
    · rw [hother k hk, Dict.upd_other _ _ hk]
  · left; funext k
    by_cases hk : k = nr.key
    · subst hk; rw [h, h]
    · exact hother k hk

/-- Writing a link changes no contents. -/
theorem contents_link {L : Lay} (w : Wr) (h : (∃ off ch, w = .child off ch) ∨ ∃ bi v, w = .bucket bi v) :
    contents (applyL c L w).recs = contents L.recs := by
  rcases h with ⟨off, ch, rfl⟩ | ⟨bi, v, rfl⟩
  · simp only [applyL]
    cases hr : recAt c (recordBase c) L.recs off with
    | none => rfl
    | some r =>
      obtain ⟨x, y, h1, _, h3⟩ := recAt_split hr
      simp only [h3]
      rw [h1]
      have ha : ∀ d, Rec.apply d { r with child := ch } = Rec.apply d r := fun d => rfl
      simp only [contents, List.foldl_append, List.foldl_cons, ha]
  · rfl

end Verif.Hash
