import Verif.Hash.File
import Verif.Hash.Irrel
/-
Reading back what `SaveMetadata` and `SaveFBP` have written.
-/
namespace Verif.Hash
open Verif.Codec

variable {e : Env} {c : Cfg}

/-- The members saved in the metadata are in their ranges. -/
structure Extra.Ok (x : Extra) : Prop where
  cyc : x.cyc < 256
  major : x.major < 256
  minor : x.minor < 256
  version : 1 ≤ x.major ∨ 1 ≤ x.minor
  stamp : x.stamp < 2 ^ 64
  dbType : x.dbType < 2 ^ 32
  opaq : x.opaq.length ≤ 64

theorem Extra.Ok.next {x : Extra} (h : x.Ok) : x.next.Ok :=
  ⟨by simp only [Extra.next]; omega, h.major, h.minor, h.version, h.stamp, h.dbType, h.opaq⟩

theorem metaBytes_length (x : Extra) (c : Cfg) (b : Bool) (num eff : Int) (fs : Nat) :
    (metaBytes x c b num eff fs).length = 128 := by
  have h : ∀ n, (writeFixNum n 1).length = 1 := fun n => writeFixNum_length n (by omega)
  have h8 : ∀ n, (writeFixNum n 8).length = 8 := fun n => writeFixNum_length n (by omega)
  have h4 : ∀ n, (writeFixNum n 4).length = 4 := fun n => writeFixNum_length n (by omega)
  simp only [metaBytes, metaMagic, List.length_append, h, h8, h4, List.length_cons, List.length_nil, List.length_take,
    List.length_replicate]
  omega

theorem numAt_mid {A B : Bytes} {n w off : Nat} (ha : A.length = off) (hw : w ≤ 8) (hn : n < 2 ^ (8 * w)) :
    numAt (A ++ (writeFixNum n w ++ B)) off w = n := by
  subst ha
  rw [numAt, List.drop_left, (C33_fixnum_roundtrip n w hw hn B).1]

theorem numAt_shift {A B : Bytes} {off m w : Nat} (h : A.length + m = off) : numAt (A ++ B) off w = numAt B m w := by
  subst h
  rw [numAt, numAt, ← List.drop_drop, List.drop_left]

theorem numAt_here {B : Bytes} {n w : Nat} (hw : w ≤ 8) (hn : n < 2 ^ (8 * w)) : numAt (writeFixNum n w ++ B) 0 w = n := by
  rw [numAt, List.drop_zero, (C33_fixnum_roundtrip n w hw hn B).1]

theorem staticFlags_lt (c : Cfg) : staticFlags c < 16 := by
  unfold staticFlags; split <;> split <;> (try split) <;> (try split) <;> omega

/-- The metadata read from a file that begins with the saved metadata. -/
theorem readMetadata_meta {x : Extra} (hx : x.Ok) (hc : CfgOk c) (b : Bool) {num eff fs : Nat} (h1 : num < 2 ^ 63)
    (h2 : eff < 2 ^ 63) (h3 : fs < 2 ^ 63) (rest : Bytes) :
    readMetadata (metaBytes x c b num eff fs ++ rest) = some
      { cyc := x.cyc, major := x.major, minor := x.minor, static := staticFlags c, ow := c.ow, ap := c.ap,
        closure := if b then 1 else 0, nb := c.nb, num := num, eff := eff, fileSize := fs, stamp := x.stamp,
        dbType := x.dbType, opaq := x.opaq ++ List.replicate (64 - x.opaq.length) 0, torn := false } := by
  have hl := metaBytes_length x c b num eff fs
  have hs := staticFlags_lt c
  have how := hc.ow
  have hap := hc.ap
  have hnb := hc.nb
  have hq := hx.opaq
  have h := fun n => writeFixNum_length (w := 1) n (by omega)
  have h8 := fun n => writeFixNum_length (w := 8) n (by omega)
  have h4 := fun n => writeFixNum_length (w := 4) n (by omega)
  have hm : metaMagic.length = 9 := rfl
  unfold readMetadata
  rw [if_neg (by rw [List.length_append, hl, metadataSize]; omega)]
  have hmg : (metaBytes x c b num eff fs ++ rest).take 9 = metaMagic := by
    simp only [metaBytes, List.append_assoc]
    rw [List.take_left' hm]
  rw [if_neg (by rw [hmg]; simp)]
  have hnum : (max 0 (num : Int)).toNat = num := by omega
  have heff : (max 0 (eff : Int)).toNat = eff := by omega
  have hcl : (if b = true then 1 else 0) < 2 ^ (8 * 1) := by split <;> omega
  have htk : x.opaq.take 64 = x.opaq := List.take_of_length_le hq
  simp only [metaBytes, List.append_assoc, hnum, heff, htk]
  have e9 := numAt_shift (A := metaMagic) (m := 0) (off := 9) (w := 1) (B := writeFixNum x.cyc 1 ++ (writeFixNum x.major 1 ++ (writeFixNum x.minor 1 ++
    (writeFixNum (staticFlags c) 1 ++ (writeFixNum c.ow 1 ++ (writeFixNum c.ap 1 ++ (writeFixNum (if b then 1 else 0) 1 ++
    (writeFixNum c.nb 8 ++ (writeFixNum num 8 ++ (writeFixNum eff 8 ++
    (writeFixNum fs 8 ++ (writeFixNum x.stamp 8 ++ (writeFixNum x.dbType 4 ++ ([0, 0] ++
    (x.opaq ++ (List.replicate (64 - x.opaq.length) 0 ++ ([0] ++ (writeFixNum x.cyc 1 ++ rest)))))))))))))))))) rfl
  rw [numAt_here (by omega) (by have := hx.cyc; omega)] at e9
  have st : ∀ {n w w' off : Nat} {B : Bytes}, w' ≤ 8 → w' ≤ off →
      numAt (writeFixNum n w' ++ B) off w = numAt B (off - w') w := by
    intro n w w' off B h1 h2
    exact numAt_shift (by rw [writeFixNum_length n h1]; omega)
  have sm : ∀ {off w : Nat} {B : Bytes}, 9 ≤ off → numAt (metaMagic ++ B) off w = numAt B (off - 9) w := by
    intro off w B h; exact numAt_shift (by rw [hm]; omega)
  have hx1 := hx.major
  have hx2 := hx.minor
  have hx3 := hx.stamp
  have hx4 := hx.dbType
  have hx5 := hx.cyc
  simp only [e9]
  have hr : (List.replicate (64 - x.opaq.length) (0 : UInt8)).length = 64 - x.opaq.length := List.length_replicate
  have e127 : numAt (metaMagic ++ (writeFixNum x.cyc 1 ++ (writeFixNum x.major 1 ++ (writeFixNum x.minor 1 ++
    (writeFixNum (staticFlags c) 1 ++ (writeFixNum c.ow 1 ++ (writeFixNum c.ap 1 ++ (writeFixNum (if b then 1 else 0) 1 ++
    (writeFixNum c.nb 8 ++ (writeFixNum num 8 ++ (writeFixNum eff 8 ++
    (writeFixNum fs 8 ++ (writeFixNum x.stamp 8 ++ (writeFixNum x.dbType 4 ++ ([0, 0] ++
    (x.opaq ++ (List.replicate (64 - x.opaq.length) 0 ++ ([0] ++ (writeFixNum x.cyc 1 ++ rest))))))))))))))))))) 127 1 = x.cyc := by
    rw [sm (by omega), st (by omega) (by omega), st (by omega) (by omega), st (by omega) (by omega), st (by omega) (by omega),
      st (by omega) (by omega), st (by omega) (by omega), st (by omega) (by omega), st (by omega) (by omega),
      st (by omega) (by omega), st (by omega) (by omega), st (by omega) (by omega), st (by omega) (by omega),
      st (by omega) (by omega)]
    show numAt ([0, 0] ++ (x.opaq ++ (List.replicate (64 - x.opaq.length) 0 ++ ([0] ++ (writeFixNum x.cyc 1 ++ rest))))) 67 1 = x.cyc
    rw [numAt_shift (A := [0, 0]) (off := 67) (m := 65) rfl, numAt_shift (A := x.opaq) (off := 65) (m := 65 - x.opaq.length) (by omega),
      numAt_shift (off := 65 - x.opaq.length) (m := 1) (by rw [hr]; omega), numAt_shift (A := [0]) (off := 1) (m := 0) rfl, numAt_here (by omega) (by omega)]
  rw [e127]
  rw [sm (by omega), st (by omega) (by omega), numAt_here (by omega) (by omega)]
  rw [sm (by omega), st (by omega) (by omega), st (by omega) (by omega), numAt_here (by omega) (by omega)]
  rw [sm (by omega), st (by omega) (by omega), st (by omega) (by omega), st (by omega) (by omega), numAt_here (by omega) (by omega)]
  rw [sm (by omega), st (by omega) (by omega), st (by omega) (by omega), st (by omega) (by omega), st (by omega) (by omega),
    numAt_here (by omega) (by omega)]
  rw [sm (by omega), st (by omega) (by omega), st (by omega) (by omega), st (by omega) (by omega), st (by omega) (by omega),
    st (by omega) (by omega), numAt_here (by omega) (by omega)]
  rw [sm (by omega), st (by omega) (by omega), st (by omega) (by omega), st (by omega) (by omega), st (by omega) (by omega),
    st (by omega) (by omega), st (by omega) (by omega), numAt_here (by omega) hcl]
  rw [sm (by omega), st (by omega) (by omega), st (by omega) (by omega), st (by omega) (by omega), st (by omega) (by omega),
    st (by omega) (by omega), st (by omega) (by omega), st (by omega) (by omega), numAt_here (by omega) (by omega)]
  rw [sm (by omega), st (by omega) (by omega), st (by omega) (by omega), st (by omega) (by omega), st (by omega) (by omega),
    st (by omega) (by omega), st (by omega) (by omega), st (by omega) (by omega), st (by omega) (by omega), numAt_here (by omega) (by omega)]
  rw [sm (by omega), st (by omega) (by omega), st (by omega) (by omega), st (by omega) (by omega), st (by omega) (by omega),
    st (by omega) (by omega), st (by omega) (by omega), st (by omega) (by omega), st (by omega) (by omega), st (by omega) (by omega),
    numAt_here (by omega) (by omega)]
  rw [sm (by omega), st (by omega) (by omega), st (by omega) (by omega), st (by omega) (by omega), st (by omega) (by omega),
    st (by omega) (by omega), st (by omega) (by omega), st (by omega) (by omega), st (by omega) (by omega), st (by omega) (by omega),
    st (by omega) (by omega), numAt_here (by omega) (by omega)]
  rw [sm (by omega), st (by omega) (by omega), st (by omega) (by omega), st (by omega) (by omega), st (by omega) (by omega),
    st (by omega) (by omega), st (by omega) (by omega), st (by omega) (by omega), st (by omega) (by omega), st (by omega) (by omega),
    st (by omega) (by omega), st (by omega) (by omega), numAt_here (by omega) (by omega)]
  rw [sm (by omega), st (by omega) (by omega), st (by omega) (by omega), st (by omega) (by omega), st (by omega) (by omega),
    st (by omega) (by omega), st (by omega) (by omega), st (by omega) (by omega), st (by omega) (by omega), st (by omega) (by omega),
    st (by omega) (by omega), st (by omega) (by omega), st (by omega) (by omega), numAt_here (by omega) (by omega)]
  have hopq : ((metaMagic ++ (writeFixNum x.cyc 1 ++ (writeFixNum x.major 1 ++ (writeFixNum x.minor 1 ++
    (writeFixNum (staticFlags c) 1 ++ (writeFixNum c.ow 1 ++ (writeFixNum c.ap 1 ++ (writeFixNum (if b then 1 else 0) 1 ++
    (writeFixNum c.nb 8 ++ (writeFixNum num 8 ++ (writeFixNum eff 8 ++
    (writeFixNum fs 8 ++ (writeFixNum x.stamp 8 ++ (writeFixNum x.dbType 4 ++ ([0, 0] ++
    (x.opaq ++ (List.replicate (64 - x.opaq.length) 0 ++ ([0] ++ (writeFixNum x.cyc 1 ++ rest))))))))))))))))))).drop 62).take 64 =
      x.opaq ++ List.replicate (64 - x.opaq.length) 0 := by
    have dt : ∀ {n w' off : Nat} {B : Bytes}, w' ≤ 8 → w' ≤ off → (writeFixNum n w' ++ B).drop off = B.drop (off - w') := by
      intro n w' off B h1 h2
      rw [show off = (writeFixNum n w').length + (off - w') by rw [writeFixNum_length n h1]; omega, ← List.drop_drop,
        List.drop_left, writeFixNum_length n h1, Nat.add_sub_cancel_left]
    have dm : ∀ {B : Bytes}, (metaMagic ++ B).drop 62 = B.drop 53 := by
      intro B; rw [show 62 = metaMagic.length + 53 from rfl, ← List.drop_drop, List.drop_left]
    rw [dm, dt (by omega) (by omega), dt (by omega) (by omega), dt (by omega) (by omega), dt (by omega) (by omega),
      dt (by omega) (by omega), dt (by omega) (by omega), dt (by omega) (by omega), dt (by omega) (by omega),
      dt (by omega) (by omega), dt (by omega) (by omega), dt (by omega) (by omega), dt (by omega) (by omega), dt (by omega) (by omega)]
    show ((x.opaq ++ (List.replicate (64 - x.opaq.length) 0 ++ ([0] ++ (writeFixNum x.cyc 1 ++ rest))))).take 64 = _
    rw [← List.append_assoc, List.take_left' (by simp only [List.length_append, hr]; omega)]
  rw [hopq]
  simp

theorem static_flags (hc : CfgOk c) : (staticFlags c &&& 1 ≠ 0 ↔ c.inPlace = true) ∧
    ¬(staticFlags c &&& 1 = 0 ∧ staticFlags c &&& 2 = 0) ∧ staticFlags c &&& 112 = 0 ∧ crcWidth (staticFlags c) = c.cw := by
  unfold staticFlags
  rcases hc.cw with h | h | h | h <;> cases c.inPlace <;> rw [h] <;> decide

theorem loadMetadata_meta_all {x : Extra} (hx : x.Ok) (hc : CfgOk c) (b : Bool) {num eff fs : Nat} (h1 : num < 2 ^ 63)
    (h2 : eff < 2 ^ 63) (h3 : fs < 2 ^ 63) (h4 : 128 ≤ fs) :
    ∃ d, (∀ rest, loadMetadata (metaBytes x c b num eff fs ++ rest) = some d) ∧ (∀ cap, d.cfg cap = c.re c.inPlace cap) ∧
      d.extra = { x with opaq := x.opaq ++ List.replicate (64 - x.opaq.length) 0 } ∧ d.torn = false ∧ d.fileSize = fs ∧
      d.num = num ∧ d.eff = eff ∧ d.closure = if b then 1 else 0 := by
  obtain ⟨s1, s2, s3, s4⟩ := static_flags hc
  have hv := hx.version
  have ho := hc.ow
  have ha := hc.ap
  have hn := hc.nb
  have hrd := readMetadata_meta hx hc b h1 h2 h3
  have hld : ∀ rest, loadMetadata (metaBytes x c b num eff fs ++ rest) = readMetadata (metaBytes x c b num eff fs ++ rest) := by
    intro rest
    simp only [loadMetadata, hrd]
    rw [if_neg (by omega), if_neg s2, if_neg (by omega), if_neg (by omega), if_neg (by omega), if_neg (by omega),
      if_neg (by rw [metadataSize]; omega), if_neg (by omega)]
  refine ⟨_, fun rest => (hld rest).trans (hrd rest), ?_, rfl, rfl, rfl, rfl, rfl, rfl⟩
  · intro cap
    simp only [Md.cfg, Cfg.re, s4]
    have : decide (staticFlags c &&& 1 ≠ 0) = c.inPlace := by
      cases hi : c.inPlace
      · rw [decide_eq_false]; intro h; rw [s1, hi] at h; cases h
      · rw [decide_eq_true]; exact s1.2 hi
    rw [this]

theorem loadMetadata_meta {x : Extra} (hx : x.Ok) (hc : CfgOk c) (b : Bool) {num eff fs : Nat} (h1 : num < 2 ^ 63)
    (h2 : eff < 2 ^ 63) (h3 : fs < 2 ^ 63) (h4 : 128 ≤ fs) (rest : Bytes) :
    ∃ d, loadMetadata (metaBytes x c b num eff fs ++ rest) = some d ∧ (∀ cap, d.cfg cap = c.re c.inPlace cap) ∧
      d.extra = { x with opaq := x.opaq ++ List.replicate (64 - x.opaq.length) 0 } ∧ d.torn = false ∧ d.fileSize = fs ∧
      d.num = num ∧ d.eff = eff ∧ d.closure = if b then 1 else 0 := by
  obtain ⟨d, hd, h⟩ := loadMetadata_meta_all hx hc b h1 h2 h3 h4
  exact ⟨d, hd rest, h⟩

/-! ### The free block pool -/

theorem fbpBody_length (hc : CfgOk c) (l : List FB) :
    (l.flatMap fun b => writeFixNum (b.off >>> c.ap) c.ow ++ writeFixNum b.size 4).length = l.length * (c.ow + 4) := by
  have := hc.ow
  induction l with
  | nil => simp
  | cons b l ih =>
    simp only [List.flatMap_cons, List.length_append, List.length_cons, ih]
    rw [writeFixNum_length _ (by omega), writeFixNum_length _ (by omega), Nat.succ_mul]; omega

theorem fbpSerialize_length (hc : CfgOk c) (l : List FB) : (fbpSerialize c l).length = 1008 := by
  have h1 : (l.reverse.take (fbpSectionSize / (c.ow + 4))).length * (c.ow + 4) ≤ 1008 := by
    rw [List.length_take]
    calc _ ≤ fbpSectionSize / (c.ow + 4) * (c.ow + 4) := Nat.mul_le_mul_right _ (Nat.min_le_left _ _)
      _ ≤ fbpSectionSize := Nat.div_mul_le_self _ _
  simp only [fbpSerialize, List.length_append, List.length_replicate, fbpBody_length hc]
  rw [fbpSectionSize] at *; omega

/-- Reading back blocks one after the other. -/
theorem fbpLoop_spec (hc : CfgOk c) : ∀ (l : List FB) (n : Nat) (rest : Bytes) (acc : List FB),
    (∀ b ∈ l, b.off % (1 <<< c.ap) = 0 ∧ b.off < 2 ^ (8 * c.ow + c.ap) ∧ 1 ≤ b.size ∧ b.size < 2 ^ 31) →
    (n ≤ l.length ∨ ∃ r, rest = List.replicate r 0) →
    fbpLoop c n ((l.flatMap fun b => writeFixNum (b.off >>> c.ap) c.ow ++ writeFixNum b.size 4) ++ rest) acc =
      (l.take n).foldl (fun a b => fbpIns b a) acc := by
  have ho := hc.ow
  intro l
  induction l with
  | nil =>
    intro n rest acc _ hz
    simp only [List.flatMap_nil, List.nil_append, List.take_nil, List.foldl_nil]
    cases n with
    | zero => rfl
    | succ n =>
      rcases hz with hz | ⟨r, rfl⟩
      · simp at hz
      · have : readFixNum ((List.replicate r (0 : UInt8)).drop c.ow) 4 = 0 := by
          rw [List.drop_replicate, readFixNum, List.take_replicate, List.replicate_append_replicate]
          have h0 : ∀ m, fromBe64 (List.replicate m 0) = 0 := by
            intro m
            unfold fromBe64
            induction m with
            | zero => rfl
            | succ m ih => rw [List.replicate_succ, List.foldl_cons]; simpa using ih
          rw [h0]; simp
        simp only [fbpLoop, this]
        rw [if_pos (Or.inl (by omega))]
  | cons b l ih =>
    intro n rest acc hb hz
    rw [List.forall_mem_cons] at hb
    obtain ⟨⟨b1, b2, b3, b4⟩, hb⟩ := hb
    cases n with
    | zero => rfl
    | succ n =>
      simp only [List.flatMap_cons, List.append_assoc, List.take_succ_cons, List.foldl_cons]
      have hw := writeFixNum_length (b.off >>> c.ap) (w := c.ow) (by omega)
      have hw4 := writeFixNum_length b.size (w := 4) (by omega)
      have e1 := (C33_fixnum_roundtrip (b.off >>> c.ap) c.ow (by omega) (shift_lt b2) (writeFixNum b.size 4 ++
        ((l.flatMap fun b => writeFixNum (b.off >>> c.ap) c.ow ++ writeFixNum b.size 4) ++ rest))).1
      have e2 := (C33_fixnum_roundtrip b.size 4 (by omega) (by omega)
        ((l.flatMap fun b => writeFixNum (b.off >>> c.ap) c.ow ++ writeFixNum b.size 4) ++ rest)).1
      simp only [fbpLoop, e1, List.drop_left' hw, e2, shift_back b1]
      rw [if_neg (by omega), ← List.drop_drop, List.drop_left' hw, List.drop_left' hw4]
      exact ih n rest _ hb (by
        rcases hz with hz | hz
        · left; simpa using hz
        · right; exact hz)

theorem foldl_fbpIns (l acc : List FB) (h : ((l ++ acc).map (·.off)).Nodup) :
    (∀ b ∈ l.foldl (fun a b => fbpIns b a) acc, b ∈ l ++ acc) ∧
    ((l.foldl (fun a b => fbpIns b a) acc).map (·.off)).Nodup := by
  induction l generalizing acc with
  | nil => exact ⟨fun b hb => hb, h⟩
  | cons b l ih =>
    simp only [List.cons_append, List.map_cons, List.nodup_cons, List.map_append, List.mem_append] at h
    obtain ⟨h1, h2⟩ := h
    rw [List.nodup_append] at h2
    obtain ⟨n1, n2, n3⟩ := h2
    have hacc := fbpIns_nodup (b := b) n2 (fun hm => h1 (Or.inr hm))
    have key := ih (fbpIns b acc) (by
      rw [List.map_append, List.nodup_append]
      refine ⟨n1, hacc, ?_⟩
      intro x hx y hy
      obtain ⟨z, hz, rfl⟩ := List.mem_map.1 hy
      rcases mem_fbpIns hz with rfl | hz
      · rintro rfl; exact h1 (Or.inl hx)
      · exact n3 x hx _ (List.mem_map.2 ⟨z, hz, rfl⟩))
    refine ⟨?_, key.2⟩
    intro x hx
    rcases List.mem_append.1 (key.1 x hx) with hx | hx
    · simp [hx]
    · rcases mem_fbpIns hx with rfl | hx
      · simp
      · simp [hx]

/-- The pool that is loaded is part of the pool that was saved. -/
theorem fbpDeserialize_spec (hc : CfgOk c) {l : List FB} (hn : (l.map (·.off)).Nodup)
    (hb : ∀ b ∈ l, b.off % (1 <<< c.ap) = 0 ∧ b.off < 2 ^ (8 * c.ow + c.ap) ∧ 1 ≤ b.size ∧ b.size < 2 ^ 31) (ip : Bool) (cap : Nat) :
    (∀ b ∈ fbpDeserialize (c.re ip cap) (fbpSerialize c l), b ∈ l) ∧
    ((fbpDeserialize (c.re ip cap) (fbpSerialize c l)).map (·.off)).Nodup := by
  have e : fbpDeserialize (c.re ip cap) (fbpSerialize c l) =
      ((l.reverse.take (fbpSectionSize / (c.ow + 4))).take (min (1008 / (c.ow + 4)) cap)).foldl (fun a b => fbpIns b a) [] := by
    unfold fbpDeserialize
    rw [fbpSerialize_length hc]
    have hloop : ∀ n buf acc, fbpLoop (c.re ip cap) n buf acc = fbpLoop c n buf acc := by
      intro n
      induction n with
      | zero => intro _ _; rfl
      | succ n ih => intro buf acc; simp only [fbpLoop, ih]; rfl
    rw [hloop]
    simp only [fbpSerialize]
    rw [fbpLoop_spec hc]
    · rfl
    · intro b hm; exact hb b (by have := List.mem_of_mem_take hm; simpa using this)
    · right; exact ⟨_, rfl⟩
  rw [e, List.take_take]
  have hsub : ((l.reverse.take (min (min (1008 / (c.ow + 4)) cap) (fbpSectionSize / (c.ow + 4)))).Sublist l.reverse) := List.take_sublist _ _
  have hnd : ((l.reverse.take (min (min (1008 / (c.ow + 4)) cap) (fbpSectionSize / (c.ow + 4)))).map (·.off)).Nodup := by
    refine (hsub.map _).nodup ?_
    rw [List.map_reverse, List.Nodup, List.pairwise_reverse]
    exact List.Pairwise.imp (fun h => Ne.symm h) hn
  have := foldl_fbpIns _ [] (by rw [List.append_nil]; exact hnd)
  refine ⟨?_, this.2⟩
  intro b hm
  have h1 := this.1 b hm
  rw [List.append_nil] at h1
  simpa using hsub.subset h1

/-! ### Counters -/

theorem entries_le {rs : List Rec} : ∀ (l : List (Bytes × Bytes)), (l.map (·.1)).Nodup →
    (∀ x ∈ l, contents rs x.1 = some x.2) →
    (l.map fun x => x.1.length + x.2.length + 1).sum ≤ totalSize c rs := by
  generalize hlen : rs.length = n
  induction n generalizing rs with
  | zero =>
    intro l _ h
    cases List.length_eq_zero_iff.1 hlen
    cases l with
    | nil => simp
    | cons x l => have := h x (by simp); simp [contents, Dict.empty] at this
  | succ n ih =>
    intro l hn h
    obtain ⟨rs, r, rfl⟩ : ∃ rs' r, rs = rs' ++ [r] := by
      rcases List.eq_nil_or_concat rs with rfl | ⟨a, b, h⟩
      · simp at hlen
      · exact ⟨a, b, by simpa using h⟩
    have ih := ih (rs := rs) (by simpa using hlen)
    rw [totalSize_append]
    have hr : totalSize c [r] = r.size c := by simp [totalSize]
    by_cases hs : r.op ≠ .void ∧ r.op ≠ .remove
    · have hap : ∀ k, contents (rs ++ [r]) k = if k = r.key then some r.value else contents rs k := by
        intro k
        rw [contents_append, Rec.apply_set hs.1 hs.2]; rfl
      by_cases hx : r.key ∈ l.map (·.1)
      · obtain ⟨x, hx, hk⟩ := List.mem_map.1 hx
        obtain ⟨a, b, rfl⟩ := List.append_of_mem hx
        have hv := h x hx
        rw [hap, if_pos hk] at hv
        rw [List.map_append, List.map_cons, List.nodup_append, List.nodup_cons] at hn
        have hno : ∀ y ∈ a ++ b, y.1 ≠ r.key := by
          intro y hy he
          rcases List.mem_append.1 hy with hy | hy
          · exact hn.2.2 y.1 (List.mem_map.2 ⟨y, hy, rfl⟩) x.1 (by simp) (by rw [he, hk])
          · exact hn.2.1.1 (List.mem_map.2 ⟨y, hy, by rw [he, hk]⟩)
        have := ih (a ++ b) (by
          rw [List.map_append, List.nodup_append]
          exact ⟨hn.1, hn.2.1.2, fun y hy z hz => hn.2.2 y hy z (by simp [hz])⟩) (by
          intro y hy
          have := h y (by rcases List.mem_append.1 hy with hy | hy <;> simp [hy])
          rwa [hap, if_neg (hno y hy)] at this)
        simp only [List.map_append, List.map_cons, List.sum_append, List.sum_cons] at this ⊢
        rw [hr]
        have hsz : x.1.length + x.2.length + 1 ≤ r.size c := by
          simp only [Option.some.injEq] at hv
          rw [hk, ← hv]
          simp only [Rec.size, baseSize]; omega
        omega
      · have := ih l hn (by
          intro y hy
          have := h y hy
          rwa [hap, if_neg (fun he => hx (List.mem_map.2 ⟨y, hy, he⟩))] at this)
        omega
    · have := ih l hn (by
        intro y hy
        have hy' := h y hy
        rw [contents_append] at hy'
        by_cases hv : r.op = .void
        · rwa [Rec.apply_void hv] at hy'
        · have hrm : r.op = .remove := by
            by_cases hrm : r.op = .remove
            · exact hrm
            · exact absurd ⟨hv, hrm⟩ hs
          rw [Rec.apply_remove hrm] at hy'
          simp only [Dict.upd] at hy'
          split at hy'
          · cases hy'
          · exact hy')
      omega

/-- The counters of a file are smaller than the file. -/
theorem counted_le {rs : List Rec} {num eff : Int} (h : (contents rs).Counted num eff) :
    ∃ n f : Nat, num = n ∧ eff = f ∧ n ≤ totalSize c rs ∧ f ≤ totalSize c rs := by
  obtain ⟨l, h1, rfl, rfl⟩ := h
  have hle := entries_le (c := c) l h1.1 (fun x hx => (h1.2 x.1 x.2).1 hx)
  have e : ∀ l : List (Bytes × Bytes), (l.map fun x => ((x.1.length + x.2.length : Nat) : Int)).sum =
      (((l.map fun x => x.1.length + x.2.length).sum : Nat) : Int) ∧
      (l.map fun x => x.1.length + x.2.length + 1).sum = (l.map fun x => x.1.length + x.2.length).sum + l.length := by
    intro l
    induction l with
    | nil => simp
    | cons x l ih =>
      simp only [List.map_cons, List.sum_cons, List.length_cons]
      rw [ih.1, ih.2]; omega
  obtain ⟨e1, e2⟩ := e l
  exact ⟨l.length, _, rfl, e1, by omega, by omega⟩

end Verif.Hash
