import Verif.Hash.FileLemmas
/-
Creating, closing and opening a database, on the structured file.
-/
namespace Verif.Hash
open Verif.Codec

variable {e : Env} {c : Cfg}

theorem fwrite_pre {pre pre' rest : Bytes} (h : pre'.length = pre.length) : fwrite (pre ++ rest) 0 pre' = some (pre' ++ rest) := by
  have := fwrite_mid [] pre pre' rest h.symm
  simpa using this

theorem render_pre {pre pre' mid : Bytes} {L : Lay} (h : pre'.length = pre.length) :
    fwrite (render e c pre mid L) 0 pre' = some (render e c pre' mid L) := fwrite_pre h

theorem alignNumber_lt {n a : Nat} (ha : 0 < a) : alignNumber n a < n + a := by
  unfold alignNumber
  have := Nat.mod_lt n ha
  split <;> omega

theorem recordBase_bounds (hc : CfgOk c) : 128 + c.nb * c.ow + 1024 ≤ recordBase c ∧ recordBase c < 2 ^ 63 := by
  have h1 := hc.ow
  have h2 := hc.ap
  have h3 := hc.nb
  have ha : 1 <<< c.ap ≤ 2 ^ 16 := by
    rw [Nat.shiftLeft_eq, Nat.one_mul]; exact Nat.pow_le_pow_right (by omega) hc.ap
  have hm : 0 < max recordBaseAlign (1 <<< c.ap) := by simp only [recordBaseAlign]; omega
  have hm2 : max recordBaseAlign (1 <<< c.ap) ≤ 2 ^ 16 := by simp only [recordBaseAlign]; omega
  have g1 := alignNumber_ge (metadataSize + c.nb * c.ow + fbpSectionSize + recordBaseHeaderSize) (max recordBaseAlign (1 <<< c.ap))
  have g2 := alignNumber_lt (n := metadataSize + c.nb * c.ow + fbpSectionSize + recordBaseHeaderSize) hm
  have h4 : c.nb * c.ow ≤ 1099511627689 * 6 := Nat.mul_le_mul h3.2 h1.2
  simp only [recordBase, metadataSize, fbpSectionSize, recordBaseHeaderSize] at *
  omega

/-- The section of the free block pool inside the bytes between the buckets and the records. -/
theorem mid_split (hc : CfgOk c) {pre mid : Bytes} (hf : FrameOk c pre mid) : ∃ a b z : Bytes, mid = a ++ (b ++ z) ∧
    b.length = 1008 ∧ z.length = 16 ∧ metadataSize + c.nb * c.ow + a.length = fbpOffset c := by
  have h1 := recordBase_bounds hc
  have h2 := hf.mid
  simp only [metadataSize] at h2
  refine ⟨mid.take (mid.length - 1024), (mid.drop (mid.length - 1024)).take 1008, mid.drop (mid.length - 16), ?_, ?_, ?_, ?_⟩
  · have : mid.drop (mid.length - 16) = (mid.drop (mid.length - 1024)).drop 1008 := by
      rw [List.drop_drop]; congr 1; omega
    rw [this, List.take_append_drop, List.take_append_drop]
  · simp only [List.length_take, List.length_drop]; omega
  · simp only [List.length_drop]; omega
  · simp only [List.length_take, fbpOffset, fbpSectionSize, recordBaseHeaderSize, metadataSize]; omega

/-- Writing and reading the section of the free block pool. -/
theorem render_fbp (hc : CfgOk c) {pre mid : Bytes} (hf : FrameOk c pre mid) {L : Lay} (hn : L.buckets.length = c.nb)
    {s : Bytes} (hs : s.length = 1008) : ∃ mid', FrameOk c pre mid' ∧
      fwrite (render e c pre mid L) (fbpOffset c) s = some (render e c pre mid' L) ∧
      ∀ pre', pre'.length = metadataSize → fread (render e c pre' mid' L) (fbpOffset c) 1008 = some s := by
  obtain ⟨a, b, z, rfl, hb, hz, ha⟩ := mid_split hc hf
  have hp := hf.pre
  have hm := hf.mid
  have hlen : ∀ pre' : Bytes, pre'.length = metadataSize → (pre' ++ (bucketBytes c L.buckets ++ a)).length = fbpOffset c := by
    intro pre' h
    rw [List.length_append, List.length_append, bucketBytes_length hc, hn, h]; omega
  have hr : ∀ pre' x, render e c pre' (a ++ (x ++ z)) L =
      (pre' ++ (bucketBytes c L.buckets ++ a)) ++ (x ++ (z ++ recsBytes e c L.recs)) := by
    intro pre' x; simp only [render, List.append_assoc]
  refine ⟨a ++ (s ++ z), ⟨hp, ?_⟩, ?_, ?_⟩
  · rw [← hm]; simp only [List.length_append, hs, hb]
  · rw [hr, hr, ← hlen pre hp]
    exact fwrite_mid _ _ _ _ (by rw [hb, hs])
  · intro pre' hp'
    rw [hr, ← hlen pre' hp', fread, if_pos (by simp only [List.length_append, hs]; omega), List.drop_left, List.take_left' hs]

/-- The metadata in the file is that of an unclosed database, and the file size in it is an offset at which a record starts or
ends. -/
def LSt.Saved (t : LSt) : Prop :=
  ∃ (x : Extra) (num eff : Nat) (a b : List Rec), x.Ok ∧ num < 2 ^ 63 ∧ eff < 2 ^ 63 ∧ recordBase t.cfg + totalSize t.cfg a < 2 ^ 63 ∧
    t.lay.recs = a ++ b ∧ t.pre = metaBytes x t.cfg false num eff (recordBase t.cfg + totalSize t.cfg a)

theorem StepOk.saved {t t' : LSt} {k w a} (h : StepOk e t t' k w a) (hs : t.Saved) : t'.Saved := by
  obtain ⟨x, num, eff, p, q, h1, h2, h3, h4, h5, h6⟩ := hs
  obtain ⟨p', q', h7, h8⟩ := h.bnd p q h5
  refine ⟨x, num, eff, p', q', h1, h2, h3, ?_, h7, ?_⟩
  · rw [h.cfg, h8]; exact h4
  · rw [h.pre, h.cfg, h8]; exact h6

/-- What is true of a reopened database. -/
structure Reopened (e : Env) (t t' : LSt) (cap : Nat) : Prop where
  inv : t'.Inv e
  lay : t'.lay = t.lay
  cfg : t'.cfg = t.cfg.re t.cfg.inPlace cap
  num : t'.mem.num = t.mem.num
  eff : t'.mem.eff = t.mem.eff
  log : t'.mem.log = []
  len : (t'.toState e).file.length = (t.toState e).file.length
  saved : t'.Saved

theorem pool_ok {t : LSt} (h : t.Inv e) (hr : Hash.Room t.cfg t.lay) (hi : t.cfg.inPlace = true) :
    (t.mem.fbp.map (·.off)).Nodup ∧ ∀ b ∈ t.mem.fbp, b.off % (1 <<< t.cfg.ap) = 0 ∧ b.off < 2 ^ (8 * t.cfg.ow + t.cfg.ap) ∧
      1 ≤ b.size ∧ b.size < 2 ^ 31 := by
  have hip : InPlace e t.cfg t.lay t.mem.fbp := by have := h.inv; unfold LInv at this; rwa [if_pos hi] at this
  refine ⟨hip.fbpNodup, ?_⟩
  intro b hb
  obtain ⟨r, h1, h2, h3⟩ := hip.fbp b hb
  have hg := (hip.base.recs r (recAt_mem h1)).1
  have hlt := recAt_lt h1
  have hsp := size_pos (c := t.cfg) r
  have := hr
  simp only [Hash.Room, Lay.end_] at this
  exact ⟨hip.base.off_aligned h.cfg h1, by omega, by omega, by rw [← h3]; exact hg.small⟩

theorem re_end' {ip : Bool} {cap : Nat} (c : Cfg) (L : Lay) : recordBase (c.re ip cap) + totalSize (c.re ip cap) L.recs = L.end_ c := by
  rw [re_totalSize]; rfl

/-- `Close` and then `Open` give back the database. -/
theorem close_open {t : LSt} (h : t.Inv e) (hr : (t.toState e).Room)
    {x : Extra} (hx : x.Ok) {stamp : Nat} (hs : stamp < 2 ^ 64) {cap : Nat} (hcap : 1 ≤ cap) :
    ∃ f t' x', closeFile stamp ⟨t.toState e, x⟩ = some f ∧ openOld cap f = some (⟨t'.toState e, x'⟩, true) ∧
      Reopened e t t' cap ∧ x'.Ok := by
  have hroom := h.room hr
  have h63 : (t.toState e).file.length < 2 ^ 63 := hr.2
  have hlen := toState_length h
  have hb := h.inv.base
  obtain ⟨n, f, hn, hf, hnl, hfl⟩ := counted_le (c := t.cfg) h.counted
  have hend : t.lay.end_ t.cfg < 2 ^ 63 := by omega
  have hend2 : recordBase t.cfg ≤ t.lay.end_ t.cfg := by simp only [Lay.end_]; omega
  have hnum : n < 2 ^ 63 := by simp only [Lay.end_] at hend; omega
  have heff : f < 2 ^ 63 := by simp only [Lay.end_] at hend; omega
  have hbase := recordBase_bounds h.cfg
  let xs : Extra := { x.next with stamp := stamp }
  have hxs : xs.Ok := by
    have := hx.next
    exact ⟨this.cyc, this.major, this.minor, this.version, hs, this.dbType, this.opaq⟩
  let pre1 := metaBytes xs t.cfg true n f (t.lay.end_ t.cfg)
  have hpre1 : pre1.length = 128 := metaBytes_length _ _ _ _ _ _
  have hframe1 : FrameOk t.cfg pre1 t.mid := ⟨hpre1, h.frame.mid⟩
  obtain ⟨mid', hframe2, hw2, hrd⟩ := render_fbp (e := e) h.cfg hframe1 hb.nb (fbpSerialize_length h.cfg t.mem.fbp)
  have hclose : closeFile stamp ⟨t.toState e, x⟩ = some (render e t.cfg pre1 mid' t.lay) := by
    have hw1 : fwrite (t.toState e).file 0 (metaBytes xs t.cfg true (t.toState e).mem.num (t.toState e).mem.eff (t.toState e).file.length) =
        some (render e t.cfg pre1 t.mid t.lay) := by
      rw [hlen]
      show fwrite (render e t.cfg t.pre t.mid t.lay) 0 (metaBytes xs t.cfg true t.mem.num t.mem.eff (t.lay.end_ t.cfg)) = _
      rw [hn, hf]
      exact render_pre (by rw [hpre1, h.frame.pre]; rfl)
    have : closeFile stamp ⟨t.toState e, x⟩ = match fwrite (t.toState e).file 0 (metaBytes xs t.cfg true (t.toState e).mem.num (t.toState e).mem.eff (t.toState e).file.length) with
        | none => none
        | some f => fwrite f (fbpOffset t.cfg) (fbpSerialize t.cfg t.mem.fbp) := rfl
    rw [this, hw1]
    exact hw2
  obtain ⟨d, hd, hdc, hdx, hdt, hdf, hdn, hde, hdcl⟩ := loadMetadata_meta hxs h.cfg true hnum heff hend (by omega)
    (bucketBytes t.cfg t.lay.buckets ++ (mid' ++ recsBytes e t.cfg t.lay.recs))
  have hlen2 : (render e t.cfg pre1 mid' t.lay).length = t.lay.end_ t.cfg := render_length h.cfg hframe2 hb.nb
  have hxo : d.extra.Ok := by
    rw [hdx]
    refine ⟨hxs.cyc, hxs.major, hxs.minor, hxs.version, hxs.stamp, hxs.dbType, ?_⟩
    have := hxs.opaq
    simp only [List.length_append, List.length_replicate]; omega
  let pre2 := metaBytes d.extra.next (t.cfg.re t.cfg.inPlace cap) false n f (t.lay.end_ t.cfg)
  have hpre2 : pre2.length = 128 := metaBytes_length _ _ _ _ _ _
  let pool := if t.cfg.inPlace then fbpDeserialize (t.cfg.re t.cfg.inPlace cap) (fbpSerialize t.cfg t.mem.fbp) else []
  let t' : LSt := { cfg := t.cfg.re t.cfg.inPlace cap, pre := pre2, mid := mid', lay := t.lay, mem := ⟨pool, n, f, []⟩, bad := false }
  have hti : t'.Inv e := by
    refine ⟨rfl, re_cfgOk h.cfg hcap, re_frame ⟨hpre2, hframe2.mid⟩, ?_, ?_⟩
    · have hl := h.inv
      unfold LInv at hl ⊢
      show if t.cfg.inPlace = true then _ else _
      split at hl
      · rename_i hi
        rw [if_pos hi]
        have hp := pool_ok h hroom hi
        have sp := fbpDeserialize_spec h.cfg hp.1 hp.2 t.cfg.inPlace cap
        have he : t'.mem.fbp = fbpDeserialize (t.cfg.re t.cfg.inPlace cap) (fbpSerialize t.cfg t.mem.fbp) := by
          show pool = _; simp only [pool, if_pos hi]
        rw [he]
        exact re_inPlace (hl.pool sp.1 sp.2)
      · rename_i hi
        rw [if_neg hi]
        exact re_appending hl
    · have := h.counted
      rw [hn, hf] at this; exact this
  have hstate : t'.toState e = ⟨t.cfg.re t.cfg.inPlace cap, render e t.cfg pre2 mid' t.lay, ⟨pool, n, f, []⟩, false⟩ := by
    simp only [LSt.toState, t', re_render]
  refine ⟨_, t', d.extra.next, hclose, ?_, ⟨hti, rfl, rfl, hn.symm, hf.symm, rfl, ?_,
    ⟨d.extra.next, n, f, t.lay.recs, [], hxo.next, hnum, heff, by rw [← re_end'] at hend; exact hend, by simp [t'],
      by show pre2 = metaBytes d.extra.next (t.cfg.re t.cfg.inPlace cap) false n f _; rw [re_end']⟩⟩, hxo.next⟩
  · have hdd : loadMetadata (render e t.cfg pre1 mid' t.lay) = some d := hd
    simp only [openOld, hdd, hdc, hdt, hdf, hdn, hde, hdcl, hlen2]
    have hw : fwrite (render e t.cfg pre1 mid' t.lay) 0 pre2 = some (render e t.cfg pre2 mid' t.lay) :=
      render_pre (by rw [hpre1, hpre2])
    have hrd2 := hrd pre2 hpre2
    have hoff : fbpOffset (t.cfg.re t.cfg.inPlace cap) = fbpOffset t.cfg := rfl
    simp only [if_true, Bool.false_eq_true, if_false]
    have hone : decide ((1 : Nat) &&& 1 ≠ 0) = true := by decide
    simp only [hone, if_true]
    rw [show metaBytes d.extra.next (t.cfg.re t.cfg.inPlace cap) false n f (t.lay.end_ t.cfg) = pre2 from rfl, hw]
    simp only [hoff, fbpSectionSize, hrd2]
    rw [hstate]
    by_cases hi : t.cfg.inPlace = true
    · have hi' : (t.cfg.re t.cfg.inPlace cap).inPlace = true := hi
      rw [if_pos hi']
      simp only [pool, if_pos hi]
    · have hi' : ¬ (t.cfg.re t.cfg.inPlace cap).inPlace = true := hi
      rw [if_neg hi']
      simp only [pool, if_neg hi]
  · rw [toState_length hti, hlen]; exact re_end _

/-! ### A new database -/

/-- The structured file of a new database. -/
def emptyLay (c : Cfg) : Lay := ⟨List.replicate c.nb 0, []⟩

theorem empty_inPlace (c : Cfg) : InPlace e c (emptyLay c) [] where
  base := by
    refine ⟨by simp [emptyLay], by simp [emptyLay], ?_⟩
    intro v hv
    have := List.eq_of_mem_replicate hv
    subst this
    exact ⟨by simp, end_pos _⟩
  noRemove := by simp [emptyLay]
  uniq := by intro o o' k v v' h; simp [live, emptyLay, recAt] at h
  chain := by
    intro i hi
    refine ⟨[], ?_, by simp, by simp, ?_⟩
    · show (List.replicate c.nb 0).getD i 0 = 0
      simp [List.getD_eq_getElem?_getD, List.getElem?_replicate, hi]
    · intro o k v h; simp [live, emptyLay, recAt] at h
  fbp := by simp
  fbpNodup := by simp

theorem empty_inv (c : Cfg) : LInv e c (emptyLay c) [] := by
  unfold LInv
  split
  · exact empty_inPlace c
  · exact (empty_inPlace c).toAppending

theorem writeFixNum_zero {w : Nat} (h : w ≤ 8) : writeFixNum 0 w = List.replicate w 0 := by
  have : w = 0 ∨ w = 1 ∨ w = 2 ∨ w = 3 ∨ w = 4 ∨ w = 5 ∨ w = 6 ∨ w = 7 ∨ w = 8 := by omega
  rcases this with rfl | rfl | rfl | rfl | rfl | rfl | rfl | rfl | rfl <;> decide

theorem bucketBytes_zero (hc : CfgOk c) (n : Nat) : bucketBytes c (List.replicate n 0) = List.replicate (n * c.ow) 0 := by
  have := hc.ow
  induction n with
  | zero => simp [bucketBytes]
  | succ n ih =>
    simp only [bucketBytes, List.replicate_succ, List.flatMap_cons] at ih ⊢
    rw [ih, Nat.zero_shiftRight, writeFixNum_zero (by omega), List.replicate_append_replicate, Nat.succ_mul, Nat.add_comm]

/-- The structured database after creation. -/
theorem open_new (hc : CfgOk c) {x : Extra} (hx : x.Ok) : ∃ (t : LSt) (x' : Extra), openImpl x c [] = some (⟨t.toState e, x'⟩, true) ∧
    t.Inv e ∧ t.cfg = c ∧ t.lay = emptyLay c ∧ t.mem = ⟨[], 0, 0, []⟩ ∧ x'.Ok ∧ t.Saved := by
  have hb := recordBase_bounds hc
  have ho := hc.ow
  let mid : Bytes := List.replicate (recordBase c - 144 - c.nb * c.ow) 0 ++ recHeader c
  have hrl : (recHeader c).length = 16 := by
    simp only [recHeader, recMagic, List.length_append, List.length_cons, List.length_nil, List.length_replicate]
    rw [writeFixNum_length _ (by omega), writeFixNum_length _ (by omega), writeFixNum_length _ (by omega)]
  let pre1 := metaBytes x.next c true 0 0 (recordBase c)
  have hpre1 : pre1.length = 128 := metaBytes_length _ _ _ _ _ _
  have hmid : FrameOk c pre1 mid := by
    refine ⟨hpre1, ?_⟩
    simp only [mid, List.length_append, List.length_replicate, hrl, metadataSize]; omega
  have hfile : newFile x c = render e c pre1 mid (emptyLay c) := by
    simp only [newFile, render, emptyLay, bucketBytes_zero hc, recsBytes, List.flatMap_nil, List.append_nil, mid]
    rw [← List.append_assoc (List.replicate (c.nb * c.ow) 0), List.replicate_append_replicate]
    have hz : recordBase c - metadataSize - recordBaseHeaderSize = c.nb * c.ow + (recordBase c - 144 - c.nb * c.ow) := by
      simp only [metadataSize, recordBaseHeaderSize]; omega
    rw [hz]
  have hlen : (newFile x c).length = recordBase c := by
    rw [hfile, render_length hc hmid (by simp [emptyLay])]
    simp [Lay.end_, emptyLay, totalSize]
  obtain ⟨d, hd, hdc, hdx, hdt, hdf, hdn, hde, hdcl⟩ := loadMetadata_meta hx.next hc true (num := 0) (eff := 0) (by omega) (by omega)
    hb.2 (by omega) (bucketBytes c (emptyLay c).buckets ++ (mid ++ recsBytes e c (emptyLay c).recs))
  have hdd : loadMetadata (newFile x c) = some d := by rw [hfile]; exact hd
  have hre : c.re c.inPlace c.fbpCap = c := rfl
  have hxo : d.extra.Ok := by
    rw [hdx]
    have hxs := hx.next
    refine ⟨hxs.cyc, hxs.major, hxs.minor, hxs.version, hxs.stamp, hxs.dbType, ?_⟩
    have := hxs.opaq
    simp only [List.length_append, List.length_replicate]; omega
  let pre2 := metaBytes d.extra.next c false 0 0 (recordBase c)
  have hpre2 : pre2.length = 128 := metaBytes_length _ _ _ _ _ _
  let t : LSt := { cfg := c, pre := pre2, mid := mid, lay := emptyLay c, mem := ⟨[], 0, 0, []⟩, bad := false }
  have hti : t.Inv e := ⟨rfl, hc, ⟨hpre2, hmid.mid⟩, empty_inv c, Dict.counted_empty⟩
  have hw : fwrite (newFile x c) 0 pre2 = some (render e c pre2 mid (emptyLay c)) := by
    rw [hfile]; exact render_pre (by rw [hpre1, hpre2])
  refine ⟨t, d.extra.next, ?_, hti, rfl, rfl, rfl, hxo.next,
    ⟨d.extra.next, 0, 0, [], [], hxo.next, by omega, by omega, by simp [t, totalSize]; omega, rfl, rfl⟩⟩
  have hone : decide ((1 : Nat) &&& 1 ≠ 0) = true := by decide
  simp only [openImpl, if_true, openOld, hdd, hdc, hdt, hdf, hdn, hde, hdcl, hlen, Bool.false_eq_true, if_false, hone, hre]
  rw [show metaBytes d.extra.next c false ((0 : Nat) : Int) ((0 : Nat) : Int) (recordBase c) = pre2 from rfl, hw]
  have hts : t.toState e = ⟨c, render e c pre2 mid (emptyLay c), ⟨[], 0, 0, []⟩, false⟩ := rfl
  rw [hts]
  dsimp only
  by_cases hi : c.inPlace = true
  · obtain ⟨N, hN⟩ : ∃ N, N = fbpSectionSize := ⟨_, rfl⟩
    have hN2 : N = 1008 := hN
    rw [if_pos hi, ← hN]
    have hz : fread (render e c pre2 mid (emptyLay c)) (fbpOffset c) N = some (List.replicate N 0) := by
      have hr : render e c pre2 mid (emptyLay c) =
          (pre2 ++ List.replicate (c.nb * c.ow + (recordBase c - 144 - c.nb * c.ow - N)) 0) ++ (List.replicate N 0 ++ recHeader c) := by
        simp only [render, emptyLay, bucketBytes_zero hc, recsBytes, List.flatMap_nil, List.append_nil, mid]
        rw [← List.append_assoc (List.replicate (c.nb * c.ow) 0), List.replicate_append_replicate, List.append_assoc,
          ← List.append_assoc (List.replicate _ 0) (List.replicate N 0), List.replicate_append_replicate]
        have : c.nb * c.ow + (recordBase c - 144 - c.nb * c.ow - N) + N = c.nb * c.ow + (recordBase c - 144 - c.nb * c.ow) := by omega
        rw [this]
      have hl : (pre2 ++ List.replicate (c.nb * c.ow + (recordBase c - 144 - c.nb * c.ow - N)) (0 : UInt8)).length = fbpOffset c := by
        simp only [List.length_append, List.length_replicate, hpre2, fbpOffset, recordBaseHeaderSize, fbpSectionSize]; omega
      rw [hr, ← hl, fread, if_pos (by simp only [List.length_append, List.length_replicate]; omega), List.drop_left,
        List.take_left' (by simp)]
    rw [hz]
    have hf : fbpDeserialize c (List.replicate N 0) = [] := by
      unfold fbpDeserialize
      have := fbpLoop_spec hc [] (min ((List.replicate N (0 : UInt8)).length / (c.ow + 4)) c.fbpCap) (List.replicate N 0) []
        (by simp) (Or.inr ⟨N, rfl⟩)
      simpa using this
    simp only [hf]
    rfl
  · rw [if_neg hi]
    rfl

end Verif.Hash
