import Verif.Hash.SessionLemmas
import Verif.Hash.ValidateLemmas
/-
Model of a crash in the middle of a record operation and of the restoration of the file at the next `Open`
(tkrzw_dbm_hash.cc 257-380, 2824-2990).

A crash leaves the file as it is after some of the writes of the operation: each single write is taken to be atomic (no torn
writes), and the writes reach the file in the order in which they are made.
-/
namespace Verif.Hash
open Verif.Codec

/-- The bytes of the file when `Process` crashes after `n` of its writes (tkrzw_dbm_hash.cc 1427-1636). -/
def crashFile {τ : Type} (e : Env) (s : State) (k : Bytes) (w : Bool) (p : ProcR τ) (n : Nat) : Option Bytes :=
  match plan s.cfg (fileReader s.cfg s.file metaMinReadSize) s.mem k (e.hash k s.cfg.nb) w p with
  | none => none
  | some (_, ws, _) => applyWrs e s.cfg s.file (ws.take n)

/-- The file of the restored database stays small enough. -/
def RestoreRoom (e : Env) (x : Extra) (mode : RestoreMode) (file : Bytes) : Prop :=
  ∀ d tmp, loadMetadata file = some d → restoreTmp e x d mode file = some tmp → tmp.st.Room

variable {e : Env}

theorem WrsOk.take {c : Cfg} {L : Lay} {ws : List Wr} (h : WrsOk c L ws) (n : Nat) : WrsOk c L (ws.take n) := by
  induction ws generalizing L n with
  | nil => simp [WrsOk]
  | cons w ws ih =>
    cases n with
    | zero => trivial
    | succ n => exact ⟨h.1, ih h.2 n⟩

/-- The file after a crash: the old or the new contents, well-formed. -/
theorem crashFile_spec {τ : Type} (he : EnvOk e) {t : LSt} (h : t.Inv e) (hr : (t.toState e).Room) (k : Bytes) (w : Bool)
    (p : ProcR τ) (hf : ActFits hashFits k (p (t.view k)).1) (n : Nat) :
    ∃ L, crashFile e (t.toState e) k w p n = some (render e t.cfg t.pre t.mid L) ∧ Base t.cfg L ∧
      (contents L.recs = t.view ∨ contents L.recs = if w then t.view.act k (p (t.view k)).1 else t.view) ∧
      (∀ a b, t.lay.recs = a ++ b → ∃ a' b', L.recs = a' ++ b' ∧ totalSize t.cfg a' = totalSize t.cfg a) ∧
      ((∃ pool, LInv e t.cfg L pool) ∨ Stray e t.cfg t.lay L) := by
  obtain ⟨m', ws, h1, h2⟩ := plan_spec he h.cfg h.inv k w p hf
  have hi : e.hash k t.cfg.nb < t.cfg.nb := he.hash k t.cfg.nb (by have := h.cfg.nb; omega)
  have hpl : plan t.cfg (fileReader t.cfg (render e t.cfg t.pre t.mid t.lay) metaMinReadSize) t.mem k (e.hash k t.cfg.nb) w p =
      some (m', ws, (p (contents t.lay.recs k)).2) := by
    rw [plan_render he h.cfg h.frame h.inv.base (h.room hr) (Nat.le_refl _) t.mem k hi (h.inv.chainOk hi), h1]
  have hw := h2.wrs.take n
  refine ⟨applyLs t.cfg t.lay (ws.take n), ?_, h.inv.base.applyLs hw, ?_, fun a b hab => applyLs_bnd hw hab, h2.crash n⟩
  · simp only [crashFile, LSt.toState, hpl]
    exact applyWrs_render h.cfg h.frame h.inv.base hw
  · rcases h2.mid n with h3 | h3
    · exact Or.inl h3
    · exact Or.inr (h3.trans h2.contents)

/-- The file starts a record where a record starts, so it is not a region of zeros. -/
theorem zeroRegion_rec (he : EnvOk e) {c : Cfg} (hc : CfgOk c) {pre mid : Bytes} (hf : FrameOk c pre mid) {L : Lay} (hb : Base c L)
    {a b : List Rec} {r : Rec} (h : L.recs = a ++ r :: b)
    (rest : Bytes) : zeroRegion (render e c pre mid L ++ rest) (recordBase c + totalSize c a) = false := by
  have hat : recAt c (recordBase c) L.recs (recordBase c + totalSize c a) = some r := by rw [h]; exact recAt_mid _ _ _ _
  obtain ⟨P, Q, hP, e1, _⟩ := render_rec (e := e) hc hf hb.nb hat
  rw [e1, zeroRegion, ← hP, List.append_assoc, List.drop_left]
  have hs := he.sum
  have hm := (opOfMagic_magic (e.sum r.key r.value) (hs r.key r.value).2 r.op).2
  have hne : (byte (e.sum r.key r.value ||| r.op.magic) == 0) = false := by
    rw [beq_eq_false_iff_ne]
    intro h0
    rw [h0] at hm
    have := (hs r.key r.value).1
    simp at hm; omega
  simp [recBytes, headBytes, hne]

theorem take_zeros {f : Bytes} {n z : Nat} (h : f.length = n) : (f ++ List.replicate z 0).take n = f := by
  rw [← h, List.take_left]

/-- Opening an unclosed file, possibly with zeros behind its records. -/
theorem openOld_unhealthy {x : Extra} (hx : x.Ok) {c : Cfg} (hc : CfgOk c) {num eff : Nat} (h1 : num < 2 ^ 63) (h2 : eff < 2 ^ 63)
    {mid : Bytes} {L : Lay} (he : EnvOk e) (hb : Base c L) {a b : List Rec} (hab : L.recs = a ++ b)
    (h3 : recordBase c + totalSize c a < 2 ^ 63)
    (hf : FrameOk c (metaBytes x c false num eff (recordBase c + totalSize c a)) mid) (z : Nat) :
    ∃ d, (∀ z, loadMetadata (render e c (metaBytes x c false num eff (recordBase c + totalSize c a)) mid L ++ List.replicate z 0) = some d) ∧
      (∀ cap, d.cfg cap = c.re c.inPlace cap) ∧ d.extra.Ok ∧ d.torn = false ∧ d.fileSize = recordBase c + totalSize c a ∧
      d.ap = c.ap ∧ d.num = num ∧ d.eff = eff ∧
      ∃ z', (z' = z ∨ z' = 0) ∧ ∀ cap, openOld cap (render e c (metaBytes x c false num eff (recordBase c + totalSize c a)) mid L ++ List.replicate z 0) =
        some (⟨⟨d.cfg cap, render e c (metaBytes x c false num eff (recordBase c + totalSize c a)) mid L ++ List.replicate z' 0,
          ⟨[], d.num, d.eff, []⟩, false⟩, d.extra⟩, false) := by
  have hbase := recordBase_bounds hc
  obtain ⟨d, hdm, hdc, hdx, hdt, hdf, hdn, hde, hdcl⟩ := loadMetadata_meta_all hx hc false h1 h2 h3 (by omega)
  have hlen : (render e c (metaBytes x c false num eff (recordBase c + totalSize c a)) mid L).length = L.end_ c := render_length hc hf hb.nb
  have hdd : ∀ z, loadMetadata (render e c (metaBytes x c false num eff (recordBase c + totalSize c a)) mid L ++ List.replicate z 0) = some d := by
    intro z
    rw [render, List.append_assoc]; exact hdm _
  have hxo : d.extra.Ok := by
    rw [hdx]
    refine ⟨hx.cyc, hx.major, hx.minor, hx.version, hx.stamp, hx.dbType, ?_⟩
    have := hx.opaq
    simp only [List.length_append, List.length_replicate]; omega
  have hone : decide ((0 : Nat) &&& 1 ≠ 0) = false := by decide
  have hend : L.end_ c = recordBase c + totalSize c a + totalSize c b := by rw [Lay.end_, hab, totalSize_app]; omega
  have hap : d.ap = c.ap := congrArg Cfg.ap (hdc 0)
  generalize hR : render e c (metaBytes x c false num eff (recordBase c + totalSize c a)) mid L = R at *
  have hlz : (R ++ List.replicate z 0).length = L.end_ c + z := by simp [hlen]
  refine ⟨d, hdd, hdc, hxo, hdt, hdf, hap, hdn, hde, ?_⟩
  cases b with
  | nil =>
    have heq : recordBase c + totalSize c a = L.end_ c := by rw [hend]; simp [totalSize]
    refine ⟨0, Or.inr rfl, fun cap => ?_⟩
    simp only [openOld, hdd, hdt, hdf, hdcl, hlz, heq, Bool.false_eq_true, if_false, hone]
    by_cases hz : z = 0
    · subst hz; simp
    · have n1 : ¬ L.end_ c = L.end_ c + z := by omega
      have n2 : ¬ L.end_ c > L.end_ c + z := by omega
      have n3 : zeroRegion (R ++ List.replicate z 0) (L.end_ c) = true := by
        rw [zeroRegion, ← hlen, List.drop_left, List.take_replicate]; simp
      simp only [n1, n2, n3, if_false, if_true, Bool.false_eq_true, take_zeros hlen]
      simp
  | cons r b =>
    have hp := size_pos (c := c) r
    have hz : zeroRegion (R ++ List.replicate z 0) (recordBase c + totalSize c a) = false := by
      rw [← hR]; exact zeroRegion_rec he hc hf hb hab _
    have n1 : ¬ recordBase c + totalSize c a = L.end_ c + z := by rw [hend]; simp only [totalSize]; omega
    have n2 : ¬ recordBase c + totalSize c a > L.end_ c + z := by rw [hend]; simp only [totalSize]; omega
    refine ⟨z, Or.inl rfl, fun cap => ?_⟩
    simp only [openOld, hdd, hdt, hdf, hdcl, hlz, Bool.false_eq_true, if_false, hone, n1, n2, hz]

theorem recordBase_align {c : Cfg} : recordBaseAlign ≤ recordBase c := by
  unfold recordBase
  have h1 : recordBaseAlign ≤ max recordBaseAlign (1 <<< c.ap) := Nat.le_max_left _ _
  generalize max recordBaseAlign (1 <<< c.ap) = a at h1
  have h0 : 0 < metadataSize + c.nb * c.ow + fbpSectionSize + recordBaseHeaderSize := by simp only [metadataSize]; omega
  generalize metadataSize + c.nb * c.ow + fbpSectionSize + recordBaseHeaderSize = n at h0
  have ha : 0 < a := by simp only [recordBaseAlign] at h1; omega
  have hm := Nat.mod_lt n ha
  unfold alignNumber
  split
  · have := Nat.mod_le n a
    omega
  · have := Nat.div_add_mod n a
    have h3 : 0 < n / a := by
      rcases Nat.eq_zero_or_pos (n / a) with h | h
      · rw [h] at this; omega
      · exact h
    have := Nat.mul_le_mul_left a h3
    omega

/-- Restoring a file gives a database of the records that are read. -/
theorem restoreDatabase_ents (he : EnvOk e) {c : Cfg} (hc : CfgOk c) {f : Bytes} {d : Md} (hd : loadMetadata f = some d)
    (hdc : ∀ cap, d.cfg cap = c.re c.inPlace cap) (hdx : d.extra.Ok) (hdt : d.torn = false) {mode : RestoreMode} {a : List Rec}
    (hents : restoreEnts e (d.cfg 2048) f (max 48 (1 <<< d.ap)) (restoreEnd d mode f) =
      some (if (d.cfg 2048).inPlace then a.map Rec.ent else ((a.filter fun r => r.op ≠ .void).map Rec.ent).reverse))
    (hfit0 : ∀ r ∈ a, hashFits r.key r.value) (hbig : ¬ f.length < recordBaseAlign) {x : Extra} (hx : x.Ok) {stamp cap : Nat} (hs : stamp < 2 ^ 64)
    (hcap : 1 ≤ cap) (hroom : ∀ tmp, restoreTmp e x d mode f = some tmp → tmp.st.Room) :
    ∃ g d' t, restoreDatabase e x stamp mode f = some g ∧ openOld cap g = some (d', true) ∧ DbOk e d' t ∧ d'.st.Room ∧
      t.view = contents a := by
  have hcfg1 : CfgOk (d.cfg 2048) := by rw [hdc]; exact re_cfgOk hc (by omega)
  have hres : d.restored = d := by simp [Md.restored, hdt]
  obtain ⟨t0, x1, ho, hi0, hc0, hl0, hm0, hx1, _⟩ := open_new (e := e) hcfg1 hx
  have hv0 : t0.view = Dict.empty := by simp [LSt.view, hl0, emptyLay, contents]
  have hfit : ∀ r ∈ a ++ [], hashFits r.key r.value := fun r hr => hfit0 r (by simpa using hr)
  generalize hip : (d.cfg 2048).inPlace = ip at *
  obtain ⟨y, hyd⟩ : ∃ y, y = ((if ip then a.map Rec.ent else ((a.filter fun r => r.op ≠ .void).map Rec.ent).reverse, [].map Rec.ent) : List Ent × List Ent) := ⟨_, rfl⟩
  have hy1 : (if ip then a.map Rec.ent else ((a.filter fun r => r.op ≠ .void).map Rec.ent).reverse) = y.1 := by rw [hyd]
  have hy2 : y.2 = [] := by rw [hyd]; rfl
  rw [hy1] at hents
  have himp : ∀ s : State, rebuildImport (impl e) s ip y = if ip then importForward (impl e) s y.1 else importBackward (impl e) s y.1 := by
    intro s; unfold rebuildImport; rw [hy2]; rfl
  have htmp : restoreTmp e x d mode f = some ⟨rebuildImport (impl e) (t0.toState e) ip y, { x1 with dbType := d.dbType, opaq := d.opaq }⟩ := by
    simp only [restoreTmp, hres, hip, hents, ho, himp]
  have hr1 := hroom _ htmp
  simp only at hr1
  have hsim := rebuildImport_sim he hi0 hv0 ip a [] hfit hyd hr1
  obtain ⟨hi1, hv1⟩ := rebuildImport_spec (lawfulL he) hi0 hv0 a [] hfit ip (s' := rebuildImport (implL e) t0 ip y) (by rw [hyd])
  rw [hsim] at hr1 htmp
  generalize rebuildImport (implL e) t0 ip y = t1 at *
  have hx2 : ({ x1 with dbType := d.dbType, opaq := d.opaq } : Extra).Ok :=
    ⟨hx1.cyc, hx1.major, hx1.minor, hx1.version, hx1.stamp, hdx.dbType, hdx.opaq⟩
  obtain ⟨g, t3, x3, hcl, hop3, hre, hx3⟩ := close_open hi1 hr1 hx2 hs hcap
  refine ⟨g, ⟨t3.toState e, x3⟩, t3, ?_, hop3, ⟨⟨rfl, hre.inv, hx3⟩, hre.saved⟩, ?_, ?_⟩
  · simp only [restoreDatabase, if_neg hbig, hd, htmp, hcl]
  · rw [State.Room] at hr1 ⊢
    rw [hre.len]
    have : (t3.toState e).cfg = t1.cfg.re t1.cfg.inPlace cap := hre.cfg
    rw [this]; exact hr1
  · show contents t3.lay.recs = _
    rw [hre.lay]
    show t1.view = _
    rw [hv1, List.append_nil]

/-- Restoring a well-formed unclosed file gives a database of the records that are read. -/
theorem restoreDatabase_spec (he : EnvOk e) {c : Cfg} (hc : CfgOk c) {L : Lay} (hb : Base c L) (hrm : Room c L) {pre mid : Bytes}
    (hf : FrameOk c pre mid) {f : Bytes} {z : Nat} (hfile : f = render e c pre mid L ++ List.replicate z 0) {d : Md} (hd : loadMetadata f = some d)
    (hdc : ∀ cap, d.cfg cap = c.re c.inPlace cap) (hdx : d.extra.Ok) (hdt : d.torn = false)
    {mode : RestoreMode} {a b : List Rec} (hab : L.recs = a ++ b) (h1 : recordBase c + totalSize c a ≤ restoreEnd d mode f)
    (h2 : restoreEnd d mode f = recordBase c + totalSize c a ∨ b = []) {x : Extra} (hx : x.Ok) {stamp cap : Nat} (hs : stamp < 2 ^ 64)
    (hcap : 1 ≤ cap) (hroom : ∀ tmp, restoreTmp e x d mode f = some tmp → tmp.st.Room) :
    ∃ g d' t, restoreDatabase e x stamp mode f = some g ∧ openOld cap g = some (d', true) ∧ DbOk e d' t ∧ d'.st.Room ∧
      t.view = contents a := by
  have hcfg1 : CfgOk (d.cfg 2048) := by rw [hdc]; exact re_cfgOk hc (by omega)
  have hcfg2 : d.cfg 2048 = c.re c.inPlace 2048 := hdc 2048
  have hFO : FileOf e (d.cfg 2048) L f := by
    have := fileOf_render (L := L) he hcfg1 (pre := pre) (mid := mid) (by rw [hcfg2]; exact re_frame hf) (by rw [hcfg2]; exact re_base hb)
      (by rw [hcfg2]; unfold Room; rw [re_end]; exact hrm) z
    rwa [hcfg2, re_render, ← hcfg2, ← hfile] at this
  have hmr : metaMinReadSize ≤ max 48 (1 <<< d.ap) := Nat.le_max_left _ _
  have hents := hFO.restoreEnts hcfg1 (by rw [hcfg2]; exact re_base hb) (by rw [hcfg2]; unfold Room; rw [re_end]; exact hrm) hmr hab
    (endOff := restoreEnd d mode f) (by rw [hcfg2, re_totalSize]; exact h1) (by rw [hcfg2, re_totalSize]; exact h2)
  have hbig : ¬ f.length < recordBaseAlign := by
    have := hFO.len
    have h3 : recordBaseAlign ≤ recordBase (d.cfg 2048) := recordBase_align
    simp only [Lay.end_] at this; omega
  exact restoreDatabase_ents he hc hd hdc hdx hdt hents (fun r hr => (hb.recs r (by rw [hab]; simp [hr])).1.kv) hbig hx hs hcap hroom

/-- A database with other counters. -/
def Db.counters (d : Db) (num eff : Int) : Db := { d with st := { d.st with mem := { d.st.mem with num := num, eff := eff } } }

theorem plan_read {τ : Type} {c : Cfg} {rd : Reader} (m m' : Mem) (k : Bytes) (bi : Nat) (p : ProcR τ) :
    (plan c rd m k bi false p).map (fun y => (y.2.1, y.2.2)) = (plan c rd m' k bi false p).map (fun y => (y.2.1, y.2.2)) := by
  unfold plan
  split
  · rfl
  · split
    · rfl
    · split
      · rfl
      · simp
    · simp

/-- Reading does not look at the counters. -/
theorem get_counters (d : Db) (num eff : Int) (k : Bytes) :
    (Api.get (dbImpl e) (d.counters num eff) k).2 = (Api.get (dbImpl e) d k).2 := by
  have h := plan_read (c := d.st.cfg) (rd := fileReader d.st.cfg d.st.file metaMinReadSize) d.st.mem (d.counters num eff).st.mem k (e.hash k d.st.cfg.nb)
    Api.getProc
  have hp : (process e (d.counters num eff).st k false Api.getProc).2 = (process e d.st k false Api.getProc).2 := by
    have e1 : (d.counters num eff).st.cfg = d.st.cfg := rfl
    have e2 : (d.counters num eff).st.file = d.st.file := rfl
    simp only [process, processImpl, e1, e2]
    cases h1 : plan d.st.cfg (fileReader d.st.cfg d.st.file metaMinReadSize) d.st.mem k (e.hash k d.st.cfg.nb) false Api.getProc with
    | none =>
      rw [h1] at h
      cases h2 : plan d.st.cfg (fileReader d.st.cfg d.st.file metaMinReadSize) (d.counters num eff).st.mem k (e.hash k d.st.cfg.nb) false Api.getProc with
      | none => rfl
      | some y => rw [h2] at h; cases h
    | some x =>
      rw [h1] at h
      cases h2 : plan d.st.cfg (fileReader d.st.cfg d.st.file metaMinReadSize) (d.counters num eff).st.mem k (e.hash k d.st.cfg.nb) false Api.getProc with
      | none => rw [h2] at h; cases h
      | some y =>
        rw [h2] at h
        simp only [Option.map_some, Option.some.injEq, Prod.mk.injEq] at h
        obtain ⟨a1, a2, a3⟩ := x
        obtain ⟨b1, b2, b3⟩ := y
        obtain ⟨rfl, rfl⟩ := h
        simp only
        split <;> rfl
  simp only [Api.get, dbImpl, hp]

theorem re_linv {c : Cfg} {L : Lay} {pool : List FB} {cap : Nat} (h : LInv e c L pool) : LInv e (c.re c.inPlace cap) L pool := by
  unfold LInv at h ⊢
  have : (c.re c.inPlace cap).inPlace = c.inPlace := rfl
  rw [this]
  split at h
  · rename_i hi; rw [if_pos hi]; exact re_inPlace h
  · rename_i hi; rw [if_neg hi]; exact re_appending h

theorem re_stray {c : Cfg} {L0 L : Lay} {cap : Nat} (h : Stray e c L0 L) : Stray e (c.re c.inPlace cap) L0 L := by
  obtain ⟨o, r, p, h1, h2, h3, h4, h5⟩ := h.stray
  refine ⟨?_, o, r, p, by simpa using h1, h2, (re_path _ _ _).2 h3, h4, ?_⟩
  · intro i hi
    obtain ⟨p, hp⟩ := h.chains i hi
    exact ⟨p, (re_path _ _ _).2 hp⟩
  · rw [re_end]; exact h5

theorem LInv.noPool {c : Cfg} {L : Lay} {pool : List FB} (h : LInv e c L pool) : LInv e c L [] := by
  unfold LInv at h ⊢
  split at h
  · rename_i hi; rw [if_pos hi]; exact h.pool (by simp) (by simp)
  · rename_i hi; rw [if_neg hi]; exact ⟨h.base, h.chain⟩

/-- The zeros behind the records do not change what is restored. -/
theorem restoreTmp_zeros (he : EnvOk e) {c : Cfg} (hc : CfgOk c) {L : Lay} (hb : Base c L) (hrm : Room c L) {pre mid : Bytes}
    (hf : FrameOk c pre mid) (z : Nat) {d : Md} (hdc : ∀ cap, d.cfg cap = c.re c.inPlace cap) (x : Extra) :
    restoreTmp e x d .default (render e c pre mid L ++ List.replicate z 0) = restoreTmp e x d .default (render e c pre mid L) := by
  have hcfg1 : CfgOk (d.cfg 2048) := by rw [hdc]; exact re_cfgOk hc (by omega)
  have hcfg2 : d.cfg 2048 = c.re c.inPlace 2048 := hdc 2048
  have hFO : ∀ z, FileOf e (d.cfg 2048) L (render e c pre mid L ++ List.replicate z 0) := by
    intro z
    have := fileOf_render (L := L) he hcfg1 (pre := pre) (mid := mid) (by rw [hcfg2]; exact re_frame hf) (by rw [hcfg2]; exact re_base hb)
      (by rw [hcfg2]; unfold Room; rw [re_end]; exact hrm) z
    rwa [hcfg2, re_render, ← hcfg2] at this
  have hmr : metaMinReadSize ≤ max 48 (1 <<< d.ap) := Nat.le_max_left _ _
  have hents : ∀ z, restoreEnts e (d.cfg 2048) (render e c pre mid L ++ List.replicate z 0) (max 48 (1 <<< d.ap))
      (restoreEnd d .default (render e c pre mid L ++ List.replicate z 0)) = _ := fun z =>
    (hFO z).restoreEnts hcfg1 (by rw [hcfg2]; exact re_base hb) (by rw [hcfg2]; unfold Room; rw [re_end]; exact hrm) hmr
      (a := L.recs) (b := []) (by simp) (by simpa [restoreEnd, Lay.end_] using (hFO z).len) (Or.inr rfl)
  have h0 := hents 0
  simp only [List.replicate_zero, List.append_nil] at h0
  simp only [restoreTmp, hents z, h0]

/-- Opening what a crash has left gives a database of the records in the file; the counters need not be right after a shortcut
in the appending mode. -/
theorem openRestore_spec (he : EnvOk e) {x0 : Extra} (hx0 : x0.Ok) {c : Cfg} (hc : CfgOk c) {num eff : Nat} (h1 : num < 2 ^ 63) (h2 : eff < 2 ^ 63)
    {mid : Bytes} {L0 L : Lay} (hb : Base c L) (hrm : Room c L) (hsm : L.end_ c < 2 ^ 63) {a b : List Rec} (hab : L.recs = a ++ b)
    (h3 : recordBase c + totalSize c a < 2 ^ 63)
    (hf : FrameOk c (metaBytes x0 c false num eff (recordBase c + totalSize c a)) mid) {f : Bytes}
    (hfile : f = render e c (metaBytes x0 c false num eff (recordBase c + totalSize c a)) mid L)
    (hw : (∃ pool, LInv e c L pool) ∨ Stray e c L0 L) (hle : recordBase c + totalSize c a ≤ L0.end_ c) {x : Extra} (hx : x.Ok)
    {stamp cap mr : Nat} (hs : stamp < 2 ^ 64) (hcap : 1 ≤ cap) (hmr : 48 ≤ mr) (noShortcuts : Bool) (z : Nat)
    (hroom : RestoreRoom e x .default f) :
    ∃ d t num eff, openRestore e x stamp cap mr .default noShortcuts (f ++ List.replicate z 0) = some d ∧ DbOk e (d.counters num eff) t ∧
      d.st.Room ∧ t.view = contents L.recs ∧ (c.inPlace = true ∨ noShortcuts = true → d = d.counters num eff) := by
  obtain ⟨md, hmd, hdc, hdx, hdt, hdf, hap, hdn, hde, z', hz', hop⟩ := openOld_unhealthy hx0 hc h1 h2 he hb hab h3 hf z
  rw [← hfile] at hop
  have hmd' : ∀ z, loadMetadata (f ++ List.replicate z 0) = some md := by rw [hfile]; exact hmd
  have hr0 : ∀ tmp, restoreTmp e x md .default (f ++ List.replicate z' 0) = some tmp → tmp.st.Room := by
    intro tmp ht
    refine hroom md tmp (by have := hmd' 0; simpa using this) ?_
    rw [hfile, restoreTmp_zeros he hc hb hrm hf z' hdc] at ht
    rw [hfile]; exact ht
  have hlen : f.length = L.end_ c := by rw [hfile]; exact render_length hc hf hb.nb
  have hend : restoreEnd md .default (f ++ List.replicate z' 0) = (f ++ List.replicate z' 0).length := by simp [restoreEnd]
  obtain ⟨g, d', t, r1, r2, r3, r4, r5⟩ := restoreDatabase_spec he hc hb hrm hf (f := f ++ List.replicate z' 0) (z := z') (by rw [hfile])
    (hmd' z') hdc hdx hdt (mode := .default) (a := L.recs) (b := []) (by simp) (by rw [hend]; simp only [List.length_append, hlen, Lay.end_]; omega) (Or.inr rfl) hx hs hcap hr0
  have hcfg := hdc cap
  have hFO : FileOf e (md.cfg cap) L (f ++ List.replicate z' 0) := by
    have := fileOf_render (L := L) he (c := md.cfg cap) (by rw [hcfg]; exact re_cfgOk hc hcap) (pre := metaBytes x0 c false num eff (recordBase c + totalSize c a)) (mid := mid)
      (by rw [hcfg]; exact re_frame hf) (by rw [hcfg]; exact re_base hb) (by rw [hcfg]; unfold Room; rw [re_end]; exact hrm) z'
    rwa [hcfg, re_render, ← hcfg, ← hfile] at this
  have hne : ¬ RestoreMode.default = RestoreMode.noop := by decide
  simp only [openRestore, hmd', hop, restoreUnhealthy, if_neg hne, hdt, Bool.false_eq_true, if_false, hdf]
  cases noShortcuts with
  | true =>
    simp only [if_true, r1, r2]
    exact ⟨d', t, d'.st.mem.num, d'.st.mem.eff, rfl, r3, r4, r5, fun _ => rfl⟩
  | false =>
    obtain ⟨res, s1, s2⟩ := shortcut_spec he (L0 := L0) (s := ⟨md.cfg cap, f ++ List.replicate z' 0, ⟨[], md.num, md.eff, []⟩, false⟩)
      (by rw [hcfg]; exact re_cfgOk hc hcap) hFO
      (hw.imp (fun ⟨pool, h⟩ => ⟨pool, by simp only [hcfg]; exact re_linv h⟩) (fun h => by simp only [hcfg]; exact re_stray h)) hmr .default hab
      (size := recordBase c + totalSize c a) (by simp only [hcfg, re_totalSize]; rfl) (by simp only [hcfg, re_end]; exact hle)
    simp only [Bool.false_eq_true, if_false, s1]
    cases res with
    | none =>
      simp only [r1, r2]
      exact ⟨d', t, d'.st.mem.num, d'.st.mem.eff, rfl, r3, r4, r5, fun _ => rfl⟩
    | some s' =>
      obtain ⟨⟨pool, w1⟩, w2, w3⟩ := s2 s' rfl
      simp only at w1 w2 w3
      have hfl : (f ++ List.replicate z' 0).take (L.end_ (md.cfg cap)) = f := by
        rw [hcfg, re_end]; exact take_zeros hlen
      rw [hfl] at w2
      obtain ⟨num', eff', hcnt⟩ : ∃ num' eff' : Int, (contents L.recs).Counted num' eff' ∧
          (c.inPlace = true → num' = s'.mem.num ∧ eff' = s'.mem.eff) := by
        by_cases hi : c.inPlace = true
        · have hi' : (md.cfg cap).inPlace = true := by rw [hcfg]; exact hi
          have w4 := w3 hi'
          have w5 : InPlace e (md.cfg cap) L pool := by unfold LInv at w1; rwa [if_pos hi'] at w1
          refine ⟨_, _, w5.weights hi', fun _ => ⟨w4.1.symm, w4.2.symm⟩⟩
        · obtain ⟨n, e', h⟩ := contents_counted L.recs
          exact ⟨n, e', h, fun h => absurd h hi⟩
      clear w3
      generalize s'.mem.num = n1 at w2 hcnt
      generalize s'.mem.eff = n2 at w2 hcnt
      subst w2
      refine ⟨_, ⟨md.cfg cap, metaBytes x0 c false num eff (recordBase c + totalSize c a), mid, L, ⟨[], num', eff', []⟩, false⟩, num', eff', rfl, ?_, ?_, rfl, ?_⟩
      · refine ⟨⟨?_, ?_, hdx⟩, ?_⟩
        · simp only [Db.counters, LSt.toState, hcfg, re_render, hfile]
        · exact ⟨rfl, by simp only [hcfg]; exact re_cfgOk hc hcap, by simp only [hcfg]; exact re_frame hf, w1.noPool, hcnt.1⟩
        · exact ⟨x0, num, eff, a, b, hx0, h1, h2, by simp only [hcfg, re_totalSize]; exact h3, hab, by simp only [hcfg, re_totalSize]; rfl⟩
      · simp only [State.Room, hlen, hcfg]
        exact ⟨hrm, hsm⟩
      · rintro (hi | hi)
        · have := hcnt.2 hi
          rw [this.1, this.2]
          rfl
        · cases hi

end Verif.Hash
