import Verif.Hash.RecBytes
import Verif.Hash.Appending
/-
The bytes of a structured file; reading and writing the bytes agrees with reading and writing the structure.
-/
namespace Verif.Hash
open Verif.Codec

variable {e : Env} {c : Cfg}

/-- The hash table section. -/
def bucketBytes (c : Cfg) (bs : List Nat) : Bytes := bs.flatMap fun v => writeFixNum (v >>> c.ap) c.ow

/-- The record section. -/
def recsBytes (e : Env) (c : Cfg) (rs : List Rec) : Bytes := rs.flatMap (recBytes e c)

/-- The file: metadata, buckets, the sections up to the record base, and the records. -/
def render (e : Env) (c : Cfg) (pre mid : Bytes) (L : Lay) : Bytes :=
  pre ++ (bucketBytes c L.buckets ++ (mid ++ recsBytes e c L.recs))

/-- The sizes of the parts in front of the records. -/
structure FrameOk (c : Cfg) (pre mid : Bytes) : Prop where
  pre : pre.length = metadataSize
  mid : metadataSize + c.nb * c.ow + mid.length = recordBase c

theorem bucketBytes_length (hc : CfgOk c) (bs : List Nat) : (bucketBytes c bs).length = bs.length * c.ow := by
  have := hc.ow
  induction bs with
  | nil => simp [bucketBytes]
  | cons b bs ih =>
    simp only [bucketBytes, List.flatMap_cons, List.length_append, List.length_cons] at *
    rw [ih, writeFixNum_length _ (by omega), Nat.succ_mul, Nat.add_comm]

theorem recsBytes_length (hc : CfgOk c) (rs : List Rec) : (recsBytes e c rs).length = totalSize c rs := by
  induction rs with
  | nil => rfl
  | cons r rs ih =>
    simp only [recsBytes, List.flatMap_cons, List.length_append, totalSize] at *
    rw [ih, recBytes_length hc]

theorem render_length (hc : CfgOk c) {pre mid : Bytes} (hf : FrameOk c pre mid) {L : Lay} (hn : L.buckets.length = c.nb) :
    (render e c pre mid L).length = L.end_ c := by
  have h1 := hf.mid
  have h2 := hf.pre
  simp only [render, List.length_append, bucketBytes_length hc, recsBytes_length hc, hn, h2, Lay.end_]; omega

theorem recsBytes_split (x y : List Rec) (r : Rec) :
    recsBytes e c (x ++ r :: y) = recsBytes e c x ++ (recBytes e c r ++ recsBytes e c y) := by
  simp [recsBytes]

/-- A record in the file, with what is in front of it and behind it. -/
theorem render_rec (hc : CfgOk c) {pre mid : Bytes} (hf : FrameOk c pre mid) {L : Lay} (hn : L.buckets.length = c.nb)
    {off r} (h : recAt c (recordBase c) L.recs off = some r) : ∃ P Q : Bytes, P.length = off ∧
      render e c pre mid L = P ++ (recBytes e c r ++ Q) ∧
      ∀ r', render e c pre mid { L with recs := setAt c (recordBase c) L.recs off r' } = P ++ (recBytes e c r' ++ Q) := by
  obtain ⟨x, y, h1, h2, h3⟩ := recAt_split h
  refine ⟨pre ++ (bucketBytes c L.buckets ++ (mid ++ recsBytes e c x)), recsBytes e c y, ?_, ?_, ?_⟩
  · have := hf.mid
    have := hf.pre
    simp only [List.length_append, bucketBytes_length hc, recsBytes_length hc, hn]; omega
  · rw [render, h1, recsBytes_split]; simp only [List.append_assoc]
  · intro r'
    rw [render, h3, recsBytes_split]; simp only [List.append_assoc]

/-- Every offset can be stored. -/
def Room (c : Cfg) (L : Lay) : Prop := L.end_ c ≤ 2 ^ (8 * c.ow + c.ap)

theorem fileReader_record (he : EnvOk e) (hc : CfgOk c) {pre mid : Bytes} (hf : FrameOk c pre mid) {L : Lay} (hb : Base c L)
    (hr : Room c L) {minRead : Nat} (hm : metaMinReadSize ≤ minRead) {off r} (h : recAt c (recordBase c) L.recs off = some r) :
    (fileReader c (render e c pre mid L) minRead).record off = some (recR c r) := by
  obtain ⟨P, Q, rfl, e1, _⟩ := render_rec (e := e) hc hf hb.nb h
  have hg := hb.recs r (recAt_mem h)
  obtain ⟨m, h1, h2, h3, h4, h5, h6, h7, h8, h9, h10, h11, h12⟩ := readMeta_rec he hc hg.1.toFmtRec
    (Nat.lt_of_lt_of_le hg.2 hr) P Q hm
  simp only [fileReader, e1, h1, Option.map_some, recR, h2, h4, h10, h11, h12]

theorem bucket_split {bs : List Nat} {i : Nat} (hi : i < bs.length) : ∃ x y v, bs = x ++ v :: y ∧ x.length = i ∧
    bs[i]? = some v ∧ ∀ v', bs.set i v' = x ++ v' :: y := by
  induction bs generalizing i with
  | nil => simp at hi
  | cons b bs ih =>
    cases i with
    | zero => exact ⟨[], bs, b, rfl, rfl, rfl, fun v' => rfl⟩
    | succ i =>
      obtain ⟨x, y, v, h1, h2, h3, h4⟩ := ih (i := i) (by simpa using hi)
      exact ⟨b :: x, y, v, by rw [h1]; rfl, by simp [h2], by simpa using h3, fun v' => by simp [h4]⟩

/-- A bucket in the file. -/
theorem render_bucket (hc : CfgOk c) {pre mid : Bytes} (hf : FrameOk c pre mid) {L : Lay} (hn : L.buckets.length = c.nb)
    {i : Nat} (hi : i < c.nb) : ∃ P Q : Bytes, ∃ v, L.buckets[i]? = some v ∧ P.length = metadataSize + i * c.ow ∧
      render e c pre mid L = P ++ (writeFixNum (v >>> c.ap) c.ow ++ Q) ∧
      ∀ v', render e c pre mid { L with buckets := L.buckets.set i v' } = P ++ (writeFixNum (v' >>> c.ap) c.ow ++ Q) := by
  obtain ⟨x, y, v, h1, h2, h3, h4⟩ := bucket_split (bs := L.buckets) (i := i) (by rw [hn]; exact hi)
  have hs : ∀ v, bucketBytes c (x ++ v :: y) = bucketBytes c x ++ (writeFixNum (v >>> c.ap) c.ow ++ bucketBytes c y) := by
    intro v; simp [bucketBytes]
  refine ⟨pre ++ bucketBytes c x, bucketBytes c y ++ (mid ++ recsBytes e c L.recs), v, h3, ?_, ?_, ?_⟩
  · simp only [List.length_append, bucketBytes_length hc, h2, hf.pre]
  · rw [render, h1, hs]; simp only [List.append_assoc]
  · intro v'; rw [render, h4, hs]; simp only [List.append_assoc]

theorem fileReader_bucket (hc : CfgOk c) {pre mid : Bytes} (hf : FrameOk c pre mid) {L : Lay} (hb : Base c L)
    (hr : Room c L) {minRead : Nat} {i : Nat} (hi : i < c.nb) :
    (fileReader c (render e c pre mid L) minRead).bucket i = L.buckets[i]? := by
  have how := hc.ow
  obtain ⟨P, Q, v, h1, h2, h3, _⟩ := render_bucket (e := e) hc hf hb.nb hi
  have hw := writeFixNum_length (v >>> c.ap) (w := c.ow) (by omega)
  have hv := hb.bkt v (List.mem_of_getElem? h1)
  simp only [fileReader, getBucket, fread, h3, ← h2]
  rw [if_pos (by simp only [List.length_append, hw]; omega), List.drop_left, List.take_left' hw, h1]
  have := (C33_fixnum_roundtrip (v >>> c.ap) c.ow (by omega) (shift_lt (Nat.lt_of_lt_of_le hv.2 hr)) []).1
  rw [List.append_nil] at this
  simp only [Option.map_some, this, shift_back hv.1]

theorem fwrite_mid (P old new Q : Bytes) (h : old.length = new.length) :
    fwrite (P ++ (old ++ Q)) P.length new = some (P ++ (new ++ Q)) := by
  unfold fwrite
  rw [if_pos (by simp only [List.length_append]; omega), List.take_left, ← h, ← List.drop_drop, List.drop_left, List.drop_left]

theorem applyWr_render (hc : CfgOk c) {pre mid : Bytes} (hf : FrameOk c pre mid) {L : Lay} (hb : Base c L) {w : Wr}
    (h : WrOk c L w) : applyWr e c (render e c pre mid L) w = some (render e c pre mid (applyL c L w)) := by
  have how := hc.ow
  cases w with
  | append r =>
    simp only [applyWr, applyL, render, recsBytes, List.flatMap_append, List.flatMap_cons, List.flatMap_nil, List.append_nil,
      List.append_assoc]
  | record off r =>
    obtain ⟨_, _, old, h1, h2⟩ := h
    obtain ⟨P, Q, rfl, e1, e2⟩ := render_rec (e := e) hc hf hb.nb h1
    simp only [applyWr, applyL, e1, e2]
    exact fwrite_mid _ _ _ _ (by rw [recBytes_length hc, recBytes_length hc, h2])
  | child off ch =>
    obtain ⟨_, _, old, h1⟩ := h
    obtain ⟨P, Q, rfl, e1, e2⟩ := render_rec (e := e) hc hf hb.nb h1
    simp only [applyWr, applyL, h1, e1, e2]
    simp only [recBytes, headBytes, List.cons_append, List.append_assoc]
    have := fwrite_mid (P ++ [byte (e.sum old.key old.value ||| old.op.magic)]) (writeFixNum (old.child >>> c.ap) c.ow)
      (writeFixNum (ch >>> c.ap) c.ow) (writeVarNum old.key.length ++ (writeVarNum old.value.length ++ (writeVarNum old.pad ++
        ((if c.cw > 0 then writeFixNum (e.crc c.cw old.key old.value) c.cw else []) ++ (old.key ++ (old.value ++
          (padBytes old.pad ++ Q)))))))
      (by rw [writeFixNum_length _ (by omega), writeFixNum_length _ (by omega)])
    simpa using this
  | bucket bi v =>
    obtain ⟨P, Q, v0, h1, h2, h3, h4⟩ := render_bucket (e := e) hc hf hb.nb h.1
    simp only [applyWr, applyL, h3, h4, ← h2]
    exact fwrite_mid _ _ _ _ (by rw [writeFixNum_length _ (by omega), writeFixNum_length _ (by omega)])

theorem applyWrs_render (hc : CfgOk c) {pre mid : Bytes} (hf : FrameOk c pre mid) {L : Lay} (hb : Base c L) {ws : List Wr}
    (h : WrsOk c L ws) : applyWrs e c (render e c pre mid L) ws = some (render e c pre mid (applyLs c L ws)) := by
  induction ws generalizing L with
  | nil => rfl
  | cons w ws ih =>
    simp only [applyWrs, applyWr_render hc hf hb h.1]
    exact ih (hb.applyL h.1) h.2

theorem end_applyLs {L : Lay} {ws : List Wr} (h : WrsOk c L ws) : L.end_ c ≤ (applyLs c L ws).end_ c := by
  induction ws generalizing L with
  | nil => exact Nat.le_refl _
  | cons w ws ih => exact Nat.le_trans (end_applyL h.1) (ih h.2)

/-- A reader that agrees with the structure on its records finds the same record. -/
theorem findRec_congr {rd : Reader} {L : Lay} (k : Bytes)
    (h : ∀ o r, recAt c (recordBase c) L.recs o = some r → rd.record o = some (recR c r)) {o p} (hp : Path c L.recs o p)
    (fuel parent : Nat) : findRec rd k fuel parent o = findRec (layReader c L) k fuel parent o := by
  induction fuel generalizing o p parent with
  | zero => rfl
  | succ fuel ih =>
    cases p with
    | nil => have : o = 0 := hp; simp [findRec, this]
    | cons a p =>
      obtain ⟨o', r⟩ := a
      obtain ⟨rfl, h1, h2⟩ := hp
      simp only [findRec, h o r h1, layReader_record, h1, Option.map_some]
      rw [ih (o := (recR c r).child) h2]

/-- The bucket of a key leads to a chain of records. -/
def ChainOk (c : Cfg) (L : Lay) (i : Nat) : Prop := ∃ p, Path c L.recs (L.buckets.getD i 0) p

/-- Planning on the bytes is planning on the structure. -/
theorem plan_render {τ : Type} (he : EnvOk e) (hc : CfgOk c) {pre mid : Bytes} (hf : FrameOk c pre mid) {L : Lay}
    (hb : Base c L) (hr : Room c L) {minRead : Nat} (hm : metaMinReadSize ≤ minRead) (m : Mem) (k : Bytes) {i : Nat}
    (hi : i < c.nb) (hp : ChainOk c L i) (w : Bool) (p : ProcR τ) :
    plan c (fileReader c (render e c pre mid L) minRead) m k i w p = plan c (layReader c L) m k i w p := by
  obtain ⟨pa, hp⟩ := hp
  have hbk : (layReader c L).bucket i = L.buckets[i]? := rfl
  have hge : L.buckets[i]? = some (L.buckets.getD i 0) := by
    rw [List.getD_eq_getElem?_getD, List.getElem?_eq_getElem (by rw [hb.nb]; exact hi)]; rfl
  have hsz : (fileReader c (render e c pre mid L) minRead).size = (layReader c L).size := render_length hc hf hb.nb
  simp only [plan, fileReader_bucket hc hf hb hr hi, hbk, hge, hsz]
  rw [findRec_congr k (fun o r h => fileReader_record he hc hf hb hr hm h) hp]

end Verif.Hash
