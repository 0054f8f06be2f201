import Verif.Hash.Damage
import Verif.Hash.Restore
import Verif.Hash.Props
/-
C75: restoring a file of HashDBM in which the bytes of one record have been overwritten.
-/
namespace Verif.Hash
open Verif.Codec

/-- SPECIFICATION: the bytes of a file with those from `a` on overwritten by `D`, and with `z` zeros behind. -/
def overwritten (file : Bytes) (a : Nat) (D : Bytes) (z : Nat) : Bytes :=
  file.take a ++ (D ++ (file.drop (a + D.length) ++ List.replicate z 0))

/-- SPECIFICATION: `RestoreDatabase` makes of the file `f` a database with the contents `dict`: opened, it is healthy, every `Get` gives
the value in `dict`, the counters are right, and every further history goes as on the dictionary. -/
def RestoredTo (e : Env) (tunes : Int → Tune) (q : Extra) (stamp cap : Nat) (f : Bytes) (dict : Dict) : Prop :=
  ∃ g d, restoreDatabase e q stamp .default f = some g ∧ openOld cap g = some (d, true) ∧
    (∀ key, (Api.get (dbImpl e) d key).2 = match dict key with | some v => (.success, some v) | none => (.notFound, none)) ∧
    dict.Counted d.st.mem.num d.st.mem.eff ∧
    ∀ later : List SOp, RunRoom e tunes d later → SRunFits dict later →
      (run (step e tunes) d later).2 = (run sstep dict later).2 ∧ (run (step e tunes) d later).1.st.bad = false

variable {e : Env}

theorem restoredTo_of (he : EnvOk e) {tunes : Int → Tune} (ht : ∀ n, (tunes n).Ok) {q : Extra} {stamp cap : Nat} {f : Bytes} {g : Bytes} {d : Db} {t : LSt}
    (h1 : restoreDatabase e q stamp .default f = some g) (h2 : openOld cap g = some (d, true)) (h3 : DbOk e d t) (h4 : d.st.Room) :
    RestoredTo e tunes q stamp cap f t.view := by
  refine ⟨g, d, h1, h2, fun key => view_get he h3 h4 key, ?_, fun later hlr hlf => ?_⟩
  · rw [h3.st]; exact h3.inv.counted
  · obtain ⟨t', g1, g2, g3, _⟩ := run_spec he ht later h3 hlr hlf
    exact ⟨by rw [← g2], by rw [g1.st]; exact g1.inv.ok⟩

/-- The bytes that `Close` leaves. -/
theorem closeFile_render {t : LSt} (h : t.Inv e) (hr : (t.toState e).Room) {x : Extra} (hx : x.Ok) {stamp : Nat} (hs : stamp < 2 ^ 64) :
    ∃ (xs : Extra) (n f : Nat) (mid : Bytes), xs.Ok ∧ n < 2 ^ 63 ∧ f < 2 ^ 63 ∧ t.lay.end_ t.cfg < 2 ^ 63 ∧
      FrameOk t.cfg (metaBytes xs t.cfg true n f (t.lay.end_ t.cfg)) mid ∧
      closeFile stamp ⟨t.toState e, x⟩ = some (render e t.cfg (metaBytes xs t.cfg true n f (t.lay.end_ t.cfg)) mid t.lay) := by
  have h63 : (t.toState e).file.length < 2 ^ 63 := hr.2
  have hlen := toState_length h
  have hb := h.inv.base
  obtain ⟨n, f, hn, hf, hnl, hfl⟩ := counted_le (c := t.cfg) h.counted
  have hend : t.lay.end_ t.cfg < 2 ^ 63 := by omega
  have hnum : n < 2 ^ 63 := by simp only [Lay.end_] at hend; omega
  have heff : f < 2 ^ 63 := by simp only [Lay.end_] at hend; omega
  let xs : Extra := { x.next with stamp := stamp }
  have hxs : xs.Ok := by
    have := hx.next
    exact ⟨this.cyc, this.major, this.minor, this.version, hs, this.dbType, this.opaq⟩
  let pre1 := metaBytes xs t.cfg true n f (t.lay.end_ t.cfg)
  have hpre1 : pre1.length = 128 := metaBytes_length _ _ _ _ _ _
  have hframe1 : FrameOk t.cfg pre1 t.mid := ⟨hpre1, h.frame.mid⟩
  obtain ⟨mid', hframe2, hw2, hrd⟩ := render_fbp (e := e) h.cfg hframe1 hb.nb (fbpSerialize_length h.cfg t.mem.fbp)
  refine ⟨xs, n, f, mid', hxs, hnum, heff, hend, hframe2, ?_⟩
  have hw1 : fwrite (t.toState e).file 0 (metaBytes xs t.cfg true (t.toState e).mem.num (t.toState e).mem.eff (t.toState e).file.length) =
      some (render e t.cfg pre1 t.mid t.lay) := by
    rw [hlen]
    show fwrite (render e t.cfg t.pre t.mid t.lay) 0 (metaBytes xs t.cfg true t.mem.num t.mem.eff (t.lay.end_ t.cfg)) = _
    rw [hn, hf]
    exact render_pre (by rw [hpre1, h.frame.pre]; rfl)
  have : closeFile stamp ⟨t.toState e, x⟩ = match fwrite (t.toState e).file 0 (metaBytes xs t.cfg true (t.toState e).mem.num (t.toState e).mem.eff (t.toState e).file.length) with
      | none => none
      | some f => fwrite f (fbpOffset t.cfg) (fbpSerialize t.cfg t.mem.fbp) := rfl
  rw [this, hw1]
  exact hw2

/-- A file with readable metadata in front of the records of `t`. -/
def Whole (e : Env) (t : LSt) (file : Bytes) : Prop :=
  ∃ (x0 : Extra) (b : Bool) (num eff fs : Nat) (rest : Bytes), x0.Ok ∧ num < 2 ^ 63 ∧ eff < 2 ^ 63 ∧ fs < 2 ^ 63 ∧ 128 ≤ fs ∧
    (metaBytes x0 t.cfg b num eff fs ++ rest).length = recordBase t.cfg ∧
    file = metaBytes x0 t.cfg b num eff fs ++ rest ++ recsBytes e t.cfg t.lay.recs

theorem whole_render {t : LSt} (h : t.Inv e) {x0 : Extra} {b : Bool} {num eff fs : Nat} {mid : Bytes} (h1 : x0.Ok) (h2 : num < 2 ^ 63)
    (h3 : eff < 2 ^ 63) (h4 : fs < 2 ^ 63) (h5 : recordBase t.cfg ≤ fs) (hf : FrameOk t.cfg (metaBytes x0 t.cfg b num eff fs) mid) :
    Whole e t (render e t.cfg (metaBytes x0 t.cfg b num eff fs) mid t.lay) := by
  have hb := recordBase_bounds h.cfg
  refine ⟨x0, b, num, eff, fs, bucketBytes t.cfg t.lay.buckets ++ mid, h1, h2, h3, h4, by omega, ?_, by simp only [render, List.append_assoc]⟩
  have := hf.mid
  have := hf.pre
  simp only [List.length_append, bucketBytes_length h.cfg, h.inv.base.nb]; omega

theorem whole_open {d : Db} {t : LSt} (h : DbOk e d t) : Whole e t d.st.file := by
  obtain ⟨x0, num, eff, a, b, s1, s2, s3, s4, s5, s6⟩ := h.saved
  have hfr := h.inv.frame
  rw [s6] at hfr
  rw [h.st]
  show Whole e t (render e t.cfg t.pre t.mid t.lay)
  rw [s6]
  exact whole_render h.inv s1 s2 s3 s4 (by omega) hfr

theorem whole_close {d : Db} {t : LSt} (h : DbOk e d t) (hr : d.st.Room) {stamp : Nat} (hs : stamp < 2 ^ 64) :
    ∃ file, closeFile stamp d = some file ∧ Whole e t file := by
  obtain ⟨xs, n, f, mid, h1, h2, h3, h4, h5, h6⟩ := closeFile_render h.inv (by rw [← h.st]; exact hr) h.extra hs
  have e4 : d = ⟨t.toState e, d.extra⟩ := by rw [← h.st]
  rw [← e4] at h6
  exact ⟨_, h6, whole_render h.inv h1 h2 h3 h4 (by simp only [Lay.end_]; omega) h5⟩

section
variable {t : LSt} {file : Bytes} {x y : List Rec} {r : Rec} {D : Bytes} {z : Nat}

/-- The overwritten file, and its metadata. -/
theorem Whole.dam (ht : t.Inv e) (hroom : Hash.Room t.cfg t.lay) (h : Whole e t file) (hrec : t.lay.recs = x ++ r :: y) (hD : D.length = r.size t.cfg) (z : Nat) :
    (∃ d, loadMetadata (overwritten file (damAt t.cfg x) D z) = some d ∧ (∀ cap, d.cfg cap = t.cfg.re t.cfg.inPlace cap) ∧ d.extra.Ok ∧ d.torn = false ∧ d.ap = t.cfg.ap) ∧
    Dam e (t.cfg.re t.cfg.inPlace 2048) (overwritten file (damAt t.cfg x) D z) x D y z ∧
    file.drop (damAt t.cfg x + D.length) = recsBytes e t.cfg y := by
  obtain ⟨x0, b, num, eff, fs, rest, h1, h2, h3, h4, h5, h6, h7⟩ := h
  obtain ⟨d, hdm, hdc, hdx, hdt, hdf, hdn, hde, hdcl⟩ := loadMetadata_meta_all h1 ht.cfg b h2 h3 h4 h5
  have hl1 : (recsBytes e t.cfg x).length = totalSize t.cfg x := recsBytes_length ht.cfg x
  have hl2 : (recBytes e t.cfg r).length = r.size t.cfg := recBytes_length ht.cfg r
  have hsplit : file = ((metaBytes x0 t.cfg b num eff fs ++ rest) ++ recsBytes e t.cfg x) ++ (recBytes e t.cfg r ++ recsBytes e t.cfg y) := by
    rw [h7, hrec, recsBytes_split]; simp only [List.append_assoc]
  have hla : ((metaBytes x0 t.cfg b num eff fs ++ rest) ++ recsBytes e t.cfg x).length = damAt t.cfg x := by
    rw [List.length_append, h6, hl1, damAt]
  have hdrop : file.drop (damAt t.cfg x + D.length) = recsBytes e t.cfg y := by
    rw [hsplit, ← hla, ← List.drop_drop, List.drop_left, hD, List.drop_left' hl2]
  have hO : overwritten file (damAt t.cfg x) D z = (metaBytes x0 t.cfg b num eff fs ++ rest) ++
      (recsBytes e t.cfg x ++ (D ++ (recsBytes e t.cfg y ++ List.replicate z 0))) := by
    rw [overwritten, hdrop, hsplit, List.take_left' hla]; simp only [List.append_assoc]
  have hbase := ht.inv.base
  have hg : ∀ r' ∈ x ++ r :: y, FmtRec t.cfg r' ∧ r'.child < 2 ^ (8 * t.cfg.ow + t.cfg.ap) := by
    intro r' hr'
    have := hbase.recs r' (by rw [hrec]; exact hr')
    exact ⟨this.1.toFmtRec, Nat.lt_of_lt_of_le this.2 hroom⟩
  refine ⟨⟨d, ?_, hdc, ?_, hdt, congrArg Cfg.ap (hdc 0)⟩, ⟨⟨metaBytes x0 t.cfg b num eff fs ++ rest, h6, ?_⟩, ?_, ?_, ?_⟩, hdrop⟩
  · rw [hO, List.append_assoc]; exact hdm _
  · rw [hdx]
    refine ⟨h1.cyc, h1.major, h1.minor, h1.version, h1.stamp, h1.dbType, ?_⟩
    have := h1.opaq
    simp only [List.length_append, List.length_replicate]; omega
  · rw [hO]; rfl
  · intro r' hr'
    have := hg r' (by simp only [List.mem_append, List.mem_cons] at hr' ⊢; rcases hr' with h | h <;> simp [h])
    exact ⟨⟨this.1.align, this.1.small, this.1.key, this.1.child⟩, this.2⟩
  · rw [hD]
    have := sizeVarNum_pos r.key.length
    have := sizeVarNum_pos r.value.length
    show 1 + t.cfg.ow + 3 + t.cfg.cw ≤ r.size t.cfg
    simp only [Rec.size, baseSize]; omega
  · show D.length % (1 <<< t.cfg.ap) = 0
    rw [hD]; exact (hg r (by simp)).1.align

theorem re_recsBytes (c : Cfg) (ip : Bool) (cap : Nat) (y : List Rec) : recsBytes e (c.re ip cap) y = recsBytes e c y := rfl

theorem unreadable_re (c : Cfg) (ip : Bool) (cap : Nat) (h : ip = c.inPlace) (D tail : Bytes) (hu : Unreadable e c D tail) : Unreadable e (c.re ip cap) D tail := by
  subst h; exact hu

/-- Restoring the overwritten file gives the records `a`, if these are the ones that are read. -/
theorem Whole.restore (he : EnvOk e) {tunes : Int → Tune} (htu : ∀ n, (tunes n).Ok) (ht : t.Inv e) (hroom : Hash.Room t.cfg t.lay) (h : Whole e t file)
    (hrec : t.lay.recs = x ++ r :: y) (hD : D.length = r.size t.cfg) {a : List Rec}
    (hents : restoreEnts e (t.cfg.re t.cfg.inPlace 2048) (overwritten file (damAt t.cfg x) D z) (max 48 (1 <<< t.cfg.ap)) (overwritten file (damAt t.cfg x) D z).length =
      some (entsOf t.cfg a)) (hsub : ∀ r ∈ a, r ∈ t.lay.recs) {q : Extra} (hq : q.Ok) {stamp cap : Nat} (hs : stamp < 2 ^ 64) (hcap : 1 ≤ cap)
    (hrr : RestoreRoom e q .default (overwritten file (damAt t.cfg x) D z)) :
    RestoredTo e tunes q stamp cap (overwritten file (damAt t.cfg x) D z) (contents a) := by
  obtain ⟨⟨d, g1, g2, g3, g4, g5⟩, g6, _⟩ := h.dam ht hroom hrec hD z
  have hcfg : CfgOk (t.cfg.re t.cfg.inPlace 2048) := re_cfgOk ht.cfg (by omega)
  have hlen := g6.length hcfg
  generalize overwritten file (damAt t.cfg x) D z = f at *
  have hend : restoreEnd d .default f = f.length := by simp [restoreEnd]
  have hbig : ¬ f.length < recordBaseAlign := by
    have h3 : recordBaseAlign ≤ recordBase (t.cfg.re t.cfg.inPlace 2048) := recordBase_align
    simp only [damAt] at hlen; omega
  obtain ⟨g, d', t', r1, r2, r3, r4, r5⟩ := restoreDatabase_ents he ht.cfg g1 g2 g3 g4 (mode := .default) (a := a)
    (by rw [hend, g2, g5]; exact hents) (fun r hr => (ht.inv.base.recs r (hsub r hr)).1.kv) hbig hq hs hcap (fun tmp htmp => hrr d tmp g1 htmp)
  rw [← r5]
  exact restoredTo_of he htu r1 r2 r3 r4

end

/-! ### The contents without one record -/

theorem foldl_other (y : List Rec) : ∀ (d : Dict) (k : Bytes), (∀ r ∈ y, r.op ≠ .void → r.key ≠ k) → (y.foldl Rec.apply d) k = d k := by
  induction y with
  | nil => intro d k _; rfl
  | cons r y ih =>
    intro d k h
    rw [List.foldl_cons, ih _ k (fun r hr => h r (by simp [hr]))]
    by_cases hv : r.op = .void
    · rw [Rec.apply_void hv]
    · exact Rec.apply_other d fun e1 => h r (by simp) hv e1.symm

theorem foldl_congr (y : List Rec) : ∀ (d d' : Dict) (k : Bytes), d k = d' k → (y.foldl Rec.apply d) k = (y.foldl Rec.apply d') k := by
  induction y with
  | nil => intro d d' k h; exact h
  | cons r y ih =>
    intro d d' k h
    rw [List.foldl_cons, List.foldl_cons]
    apply ih
    by_cases hk : k = r.key
    · unfold Rec.apply
      cases r.op <;> simp [Dict.upd, hk, hk ▸ h]
    · rw [Rec.apply_other _ hk, Rec.apply_other _ hk, h]

/-- Without one of the records of an in-place file, only its key is missing. -/
theorem contents_without {c : Cfg} {x y : List Rec} {r : Rec} (hn : ∀ r' ∈ x ++ r :: y, r'.op ≠ .remove) (hu : Uniq c (x ++ r :: y)) :
    contents (x ++ y) = if r.op = .void then contents (x ++ r :: y) else (contents (x ++ r :: y)).upd r.key none := by
  by_cases hv : r.op = .void
  · rw [if_pos hv]
    simp only [contents, List.foldl_append, List.foldl_cons, Rec.apply_void hv]
  · rw [if_neg hv]
    have hlive : live c (x ++ r :: y) (recordBase c + totalSize c x) = some (r.key, r.value) := by
      simp [live, recAt_mid, Rec.kv, hv]
    have hx : ∀ r' ∈ x, r'.op ≠ .void → r'.key ≠ r.key := by
      intro r' hr' hv' hk
      obtain ⟨p, s, rfl⟩ := List.append_of_mem hr'
      have h1 : live c (p ++ r' :: s ++ r :: y) (recordBase c + totalSize c p) = some (r.key, r'.value) := by
        rw [List.append_assoc, List.cons_append]
        simp [live, recAt_mid, Rec.kv, hv', hk]
      have := hu _ _ _ _ _ h1 hlive
      rw [totalSize_app] at this
      have := size_pos (c := c) r'
      simp only [totalSize] at *; omega
    have hy : ∀ r' ∈ y, r'.op ≠ .void → r'.key ≠ r.key := by
      intro r' hr' hv' hk
      obtain ⟨p, s, rfl⟩ := List.append_of_mem hr'
      have h1 : live c (x ++ r :: (p ++ r' :: s)) (recordBase c + totalSize c (x ++ r :: p)) = some (r.key, r'.value) := by
        have e1 : x ++ r :: (p ++ r' :: s) = (x ++ r :: p) ++ r' :: s := by simp
        rw [e1]
        simp only [live, recAt_mid, Option.bind_some, Rec.kv, if_neg hv', hk]
      have := hu _ _ _ _ _ h1 hlive
      rw [totalSize_app] at this
      have := size_pos (c := c) r
      simp only [totalSize] at *; omega
    funext k
    by_cases hk : k = r.key
    · subst hk
      simp only [Dict.upd, if_true, contents, List.foldl_append]
      rw [foldl_other y _ _ hy, foldl_other x _ _ hx]
      rfl
    · simp only [Dict.upd, if_neg hk, contents, List.foldl_append, List.foldl_cons]
      apply foldl_congr
      rw [Rec.apply_other _ hk]

/-! ### C75 -/

/-- The file of a database, while it is open or after it has been closed. -/
def FileNow (stamp : Nat) (d : Db) (file : Bytes) : Prop := file = d.st.file ∨ closeFile stamp d = some file

theorem fileNow_whole {d : Db} {t : LSt} (h : DbOk e d t) (hr : d.st.Room) {stamp : Nat} (hs : stamp < 2 ^ 64) {file : Bytes} (hf : FileNow stamp d file) : Whole e t file := by
  rcases hf with rfl | hf
  · exact whole_open h
  · obtain ⟨f', h1, h2⟩ := whole_close h hr hs
    rw [h1] at hf
    cases hf
    exact h2

/-- SPECIFICATION: the records of the file of `d`, which stand for the contents `before`, are `recs`; and whenever all the bytes of one of
them, `r`, between `x` and `y`, are overwritten by `D` and followed by `z` zeros, in the file while it is open or after `Close`, then
`claim` holds; `tail` are the bytes behind `D`, and `R dict` says that `RestoreDatabase` gives a healthy database of the
contents `dict`. -/
def AfterDamage (e : Env) (tunes : Int → Tune) (d : Db) (before : Dict)
    (claim : (x : List Rec) → (r : Rec) → (y : List Rec) → (D : Bytes) → (z : Nat) → (tail : Bytes) → (R : Dict → Prop) → Prop) : Prop :=
  ∃ recs : List Rec, contents recs = before ∧ ∀ (stamp0 : Nat) (file : Bytes), stamp0 < 2 ^ 64 → FileNow stamp0 d file →
    file.drop (recordBase d.st.cfg) = recsBytes e d.st.cfg recs ∧
    ∀ (x y : List Rec) (r : Rec) (D : Bytes) (z a : Nat), recs = x ++ r :: y → D.length = r.size d.st.cfg →
      a = recordBase d.st.cfg + totalSize d.st.cfg x →
      ∀ (q : Extra) (stamp cap : Nat), q.Ok → stamp < 2 ^ 64 → 1 ≤ cap → RestoreRoom e q .default (overwritten file a D z) →
        claim x r y D z (file.drop (a + D.length) ++ List.replicate z 0) (RestoredTo e tunes q stamp cap (overwritten file a D z))

/-- SPECIFICATION: the damaged record is larger than its smallest header, rounded up to the alignment, by at least 1000 times the alignment.
With the default parameters (offsets of 4 bytes, alignment 8, no CRC) this means at least 8008 bytes. -/
def TooLarge (c : Cfg) (D : Bytes) : Prop := alignNumber (1 + c.ow + 3 + c.cw) (1 <<< c.ap) + 1000 <<< c.ap ≤ D.length

/-- What the four theorems have in common. -/
theorem afterDamage_of (he : EnvOk e) {tunes : Int → Tune} (htu : ∀ n, (tunes n).Ok) {d : Db} {t : LSt} (h1 : DbOk e d t) (h2 : d.st.Room)
    {claim : (x : List Rec) → (r : Rec) → (y : List Rec) → (D : Bytes) → (z : Nat) → (tail : Bytes) → (R : Dict → Prop) → Prop}
    (hcl : ∀ (f : Bytes) (x y : List Rec) (r : Rec) (D : Bytes) (z : Nat) (R : Dict → Prop), t.lay.recs = x ++ r :: y → D.length = r.size t.cfg →
      Dam e (t.cfg.re t.cfg.inPlace 2048) f x D y z → CfgOk (t.cfg.re t.cfg.inPlace 2048) →
      damAt (t.cfg.re t.cfg.inPlace 2048) x + D.length + totalSize (t.cfg.re t.cfg.inPlace 2048) y ≤ 2 ^ (8 * t.cfg.ow + t.cfg.ap) →
      (∀ a, (∀ r' ∈ a, r' ∈ x ++ y) →
        restoreEnts e (t.cfg.re t.cfg.inPlace 2048) f (max metaMinReadSize (1 <<< t.cfg.ap)) f.length = some (entsOf (t.cfg.re t.cfg.inPlace 2048) a) →
        R (contents a)) →
      claim x r y D z (recsBytes e t.cfg y ++ List.replicate z 0) R) :
    AfterDamage e tunes d t.view claim := by
  have ecfg : d.st.cfg = t.cfg := by rw [h1.st]; rfl
  have hi := h1.inv
  have hrm : Hash.Room t.cfg t.lay := hi.room (by rw [← h1.st]; exact h2)
  refine ⟨t.lay.recs, rfl, ?_⟩
  intro stamp0 file hs0 hfile
  have hw := fileNow_whole h1 h2 hs0 hfile
  rw [ecfg]
  constructor
  · obtain ⟨w1, w2, w3, w4, w5, w6, _, _, _, _, _, w7, w8⟩ := hw
    rw [w8, List.drop_left' w7]
  · intro x y r D z a hrec hD ha q stamp cap hq hs hcap hrr
    have hadef : damAt t.cfg x = a := ha.symm
    subst hadef
    obtain ⟨_, hdam, htail⟩ := hw.dam hi hrm hrec hD z
    rw [htail]
    have hroom' : damAt t.cfg x + D.length + totalSize t.cfg y ≤ 2 ^ (8 * t.cfg.ow + t.cfg.ap) := by
      have := hrm
      simp only [Hash.Room, Lay.end_, hrec, totalSize_app, totalSize] at this
      rw [damAt, hD]; omega
    have hts : totalSize (t.cfg.re t.cfg.inPlace 2048) y = totalSize t.cfg y := re_totalSize y
    have htx : totalSize (t.cfg.re t.cfg.inPlace 2048) x = totalSize t.cfg x := re_totalSize x
    have hda : damAt (t.cfg.re t.cfg.inPlace 2048) x = damAt t.cfg x := by rw [damAt, damAt, htx]; rfl
    refine hcl _ x y r D z _ hrec hD hdam (re_cfgOk hi.cfg (by omega)) (by rw [hda, hts]; exact hroom') ?_
    intro a hsub hents
    refine hw.restore he htu hi hrm hrec hD hents (fun r' hr' => ?_) hq hs hcap hrr
    have := hsub r' hr'
    rw [hrec]
    simp only [List.mem_append, List.mem_cons] at this ⊢
    rcases this with h | h <;> simp [h]

section
variable {t : LSt} {f : Bytes} {x y : List Rec} {r : Rec} {D : Bytes} {z : Nat}

theorem dark_of {c : Cfg} (hcfg : CfgOk c) (hdam : Dam e c f x D y z) (hu : Unreadable e c D (recsBytes e c y ++ List.replicate z 0)) :
    Dark e c f (if c.inPlace then max metaMinReadSize (1 <<< c.ap) else metaMinReadSize) x D := by
  intro o o1 o2
  rw [(hdam.shift hcfg _ o).1]
  exact hu.1 o o1 o2

theorem mr_le (c : Cfg) : metaMinReadSize ≤ (if c.inPlace then max metaMinReadSize (1 <<< c.ap) else metaMinReadSize) := by
  split
  · exact Nat.le_max_left _ _
  · exact Nat.le_refl _

end

section
variable {tunes : Int → Tune} {c : Cfg} {x0 : Extra} {d0 : Db} {healthy : Bool}

/-- C75 (part): take any history of calls on a new HashDBM in either update mode, and its file while it is open or after `Close`.
Behind the first bytes the file consists of records; overwrite all the bytes of any one of them so that nothing in them looks like
a record. If the record is not too large, and if it was the last one, or at least four records are
behind it, or at least two and no zeros behind these, then `RestoreDatabase` gives a healthy database of all the other
records. In the in-place mode these are the old contents without the key of the damaged record, or, if this was a free region, the
old contents.

Missing: larger records and other numbers of records behind, where it is false; see `C75_hash_damage_few_behind`,
`C75_hash_damage_large` and `C75_hash_damage_violated`. -/
theorem C75_hash_damage_partial (he : EnvOk e) (htu : ∀ n, (tunes n).Ok) (hc : CfgOk c)
    (hx0 : x0.Ok) (h0 : openImpl x0 c [] = some (d0, healthy)) (ops : List SOp)
    (hroom : RunRoom e tunes d0 ops) (hf : SRunFits Dict.empty ops) {d : Db} (hd : d = (run (step e tunes) d0 ops).1)
    {before : Dict} (hbefore : before = (run sstep Dict.empty ops).1) :
    AfterDamage e tunes d before fun x r y D z tail R =>
      Unreadable e d.st.cfg D tail → ¬ TooLarge d.st.cfg D → y = [] ∨ 4 ≤ y.length ∨ (2 ≤ y.length ∧ z = 0) →
        R (contents (x ++ y)) ∧
        (d.st.cfg.inPlace = true → contents (x ++ y) = if r.op = .void then before else before.upd r.key none) := by
  obtain ⟨_, _, t, h1, h2, h3, h4⟩ := session_dictionary he htu hc hx0 h0 ops hroom hf
  have ev : (run sstep Dict.empty ops).1 = t.view := by rw [← h3]
  subst hbefore hd
  rw [ev]
  generalize (run (step e tunes) d0 ops).1 = d at *
  have ecfg : d.st.cfg = t.cfg := by rw [h1.st]; rfl
  refine afterDamage_of he htu h1 h2 ?_
  intro f x y r D z R hrec hD hdam hcfg hrm hR hu hsmall hy
  rw [ecfg] at hu hsmall ⊢
  have hu' := unreadable_re t.cfg t.cfg.inPlace 2048 rfl D _ hu
  have hdark := dark_of hcfg hdam hu'
  constructor
  · refine hR (x ++ y) (fun _ h => h) ?_
    by_cases hyn : y = []
    · subst hyn
      have hn := hdam.notFound hcfg hdark (Or.inl (by intro o m ho; simp [totalSize] at ho))
      have := hdam.restore he hcfg hrm hu' hn (Or.inl rfl)
      rw [if_pos rfl] at this
      exact this
    · have hn := hdam.found he hcfg (mr_le _) hdark (Nat.lt_of_not_le hsmall) (by
        rcases hy with hy | hy
        · exact absurd hy hyn
        · exact hy)
      have := hdam.restore he hcfg hrm hu' hn (Or.inr rfl)
      rw [if_neg (by simp)] at this
      exact this
  · intro hip
    have hin : InPlace e t.cfg t.lay t.mem.fbp := by have := h1.inv.inv; unfold LInv at this; rwa [if_pos hip] at this
    have := contents_without (c := t.cfg) (x := x) (y := y) (r := r) (by rw [← hrec]; exact hin.noRemove) (by rw [← hrec]; exact hin.uniq)
    rw [← hrec] at this
    exact this

/-- C75, in the appending mode: if the header of the damaged record can still be read and gives its size, but the checksum is wrong, then
all the other records are restored, whatever their number and however large the damaged one is. -/
theorem C75_hash_damage_body (he : EnvOk e) (htu : ∀ n, (tunes n).Ok) (hc : CfgOk c)
    (hx0 : x0.Ok) (h0 : openImpl x0 c [] = some (d0, healthy)) (ops : List SOp)
    (hroom : RunRoom e tunes d0 ops) (hf : SRunFits Dict.empty ops) {d : Db} (hd : d = (run (step e tunes) d0 ops).1)
    {before : Dict} (hbefore : before = (run sstep Dict.empty ops).1) :
    AfterDamage e tunes d before fun x _ y D _ tail R =>
      d.st.cfg.inPlace = false → BrokenBody e d.st.cfg D tail → R (contents (x ++ y)) := by
  obtain ⟨_, _, t, h1, h2, h3, h4⟩ := session_dictionary he htu hc hx0 h0 ops hroom hf
  have ev : (run sstep Dict.empty ops).1 = t.view := by rw [← h3]
  subst hbefore hd
  rw [ev]
  generalize (run (step e tunes) d0 ops).1 = d at *
  have ecfg : d.st.cfg = t.cfg := by rw [h1.st]; rfl
  refine afterDamage_of he htu h1 h2 ?_
  intro f x y r D z R hrec hD hdam hcfg hrm hR hip hu
  rw [ecfg] at hip hu
  exact hR (x ++ y) (fun _ h => h) (hdam.restoreBody he hcfg hrm hip hu)

/-- The loss of records that C75 is about: if only one record is behind the damaged one, or two or three and then zeros (as in a file that
was not closed), and no bytes inside of them look like a record, then these undamaged records are lost too. -/
theorem C75_hash_damage_few_behind (he : EnvOk e) (htu : ∀ n, (tunes n).Ok) (hc : CfgOk c)
    (hx0 : x0.Ok) (h0 : openImpl x0 c [] = some (d0, healthy)) (ops : List SOp)
    (hroom : RunRoom e tunes d0 ops) (hf : SRunFits Dict.empty ops) {d : Db} (hd : d = (run (step e tunes) d0 ops).1)
    {before : Dict} (hbefore : before = (run sstep Dict.empty ops).1) :
    AfterDamage e tunes d before fun x _ y D z tail R =>
      Unreadable e d.st.cfg D tail → y.length ≤ 1 ∨ (y.length ≤ 3 ∧ 0 < z) →
        (∀ y1 r y2 i, y = y1 ++ r :: y2 → 0 < i → i < r.size d.st.cfg → i % (1 <<< d.st.cfg.ap) = 0 →
          readSound e d.st.cfg tail (if d.st.cfg.inPlace then max metaMinReadSize (1 <<< d.st.cfg.ap) else metaMinReadSize)
            (totalSize d.st.cfg y1 + i) = none) →
        R (contents x) := by
  obtain ⟨_, _, t, h1, h2, h3, h4⟩ := session_dictionary he htu hc hx0 h0 ops hroom hf
  have ev : (run sstep Dict.empty ops).1 = t.view := by rw [← h3]
  subst hbefore hd
  rw [ev]
  generalize (run (step e tunes) d0 ops).1 = d at *
  have ecfg : d.st.cfg = t.cfg := by rw [h1.st]; rfl
  refine afterDamage_of he htu h1 h2 ?_
  intro f x y r D z R hrec hD hdam hcfg hrm hR hu hy hin
  rw [ecfg] at hu hin
  have hu' := unreadable_re t.cfg t.cfg.inPlace 2048 rfl D _ hu
  have hdark := dark_of hcfg hdam hu'
  have hn := hdam.notFound hcfg hdark (Or.inl (hdam.short he hcfg (mr_le _) (by
    intro y1 r' y2 i g1 g2 g3 g4
    rw [re_totalSize]
    exact hin y1 r' y2 i g1 g2 g3 g4) hy))
  have := hdam.restore he hcfg hrm hu' hn (Or.inl rfl)
  rw [if_pos rfl, List.append_nil] at this
  exact hR x (fun r' hr' => by simp [hr']) this

/-- The other loss: if the damaged record is too large, then all the records behind it are lost, however many they are. -/
theorem C75_hash_damage_large (he : EnvOk e) (htu : ∀ n, (tunes n).Ok) (hc : CfgOk c)
    (hx0 : x0.Ok) (h0 : openImpl x0 c [] = some (d0, healthy)) (ops : List SOp)
    (hroom : RunRoom e tunes d0 ops) (hf : SRunFits Dict.empty ops) {d : Db} (hd : d = (run (step e tunes) d0 ops).1)
    {before : Dict} (hbefore : before = (run sstep Dict.empty ops).1) :
    AfterDamage e tunes d before fun x _ _ D _ tail R =>
      Unreadable e d.st.cfg D tail → TooLarge d.st.cfg D → R (contents x) := by
  obtain ⟨_, _, t, h1, h2, h3, h4⟩ := session_dictionary he htu hc hx0 h0 ops hroom hf
  have ev : (run sstep Dict.empty ops).1 = t.view := by rw [← h3]
  subst hbefore hd
  rw [ev]
  generalize (run (step e tunes) d0 ops).1 = d at *
  have ecfg : d.st.cfg = t.cfg := by rw [h1.st]; rfl
  refine afterDamage_of he htu h1 h2 ?_
  intro f x y r D z R hrec hD hdam hcfg hrm hR hu hbig
  rw [ecfg] at hu hbig
  have hu' := unreadable_re t.cfg t.cfg.inPlace 2048 rfl D _ hu
  have hn := hdam.notFound hcfg (dark_of hcfg hdam hu') (Or.inr hbig)
  have := hdam.restore he hcfg hrm hu' hn (Or.inl rfl)
  rw [if_pos rfl, List.append_nil] at this
  exact hR x (fun r' hr' => by simp [hr']) this

end

end Verif.Hash
