import Verif.Hash.Examples
/-
C08: the copy of an open database made by `Synchronize` with a file processor, which is what `CopyFileData` does
(tkrzw_dbm_hash.cc 736-767, tkrzw_dbm.h 1675-1692).
-/
namespace Verif.Hash
open Verif.Codec

variable {e : Env}

/-- Opening the copy: everything but the free block pool is that of the database. -/
theorem copy_open {t : LSt} (h : t.Inv e) (hr : (t.toState e).Room)
    {x : Extra} (hx : x.Ok) {stamp : Nat} (hs : stamp < 2 ^ 64) {cap : Nat} (hcap : 1 ≤ cap) :
    ∃ (f : Bytes) (t' : LSt) (x' : Extra) (pool : List FB), copyFile stamp ⟨t.toState e, x⟩ = some f ∧
      openOld cap f = some (⟨{ t'.toState e with mem := { t'.mem with fbp := pool } }, x'⟩, true) ∧
      t'.Inv e ∧ t'.lay = t.lay ∧ t'.mem.fbp = [] ∧ t'.Saved ∧ x'.Ok ∧ (t'.toState e).Room ∧ (t.cfg.inPlace = false → pool = []) ∧
      t'.mem.num = t.mem.num := by
  have h63 : (t.toState e).file.length < 2 ^ 63 := hr.2
  have hlen := toState_length h
  have hb := h.inv.base
  obtain ⟨n, f, hn, hf, hnl, hfl⟩ := counted_le (c := t.cfg) h.counted
  have hend : t.lay.end_ t.cfg < 2 ^ 63 := by omega
  have hend2 : recordBase t.cfg ≤ t.lay.end_ t.cfg := by simp only [Lay.end_]; omega
  have hnum : n < 2 ^ 63 := by simp only [Lay.end_] at hend; omega
  have heff : f < 2 ^ 63 := by simp only [Lay.end_] at hend; omega
  have hbase := recordBase_bounds h.cfg
  let xs : Extra := { x.next with stamp := stamp }
  have hxs : xs.Ok := by
    have := hx.next
    exact ⟨this.cyc, this.major, this.minor, this.version, hs, this.dbType, this.opaq⟩
  let pre1 := metaBytes xs t.cfg true n f (t.lay.end_ t.cfg)
  have hpre1 : pre1.length = 128 := metaBytes_length _ _ _ _ _ _
  have hframe1 : FrameOk t.cfg pre1 t.mid := ⟨hpre1, h.frame.mid⟩
  have hclose : copyFile stamp ⟨t.toState e, x⟩ = some (render e t.cfg pre1 t.mid t.lay) := by
    have : copyFile stamp ⟨t.toState e, x⟩ = fwrite (t.toState e).file 0 (metaBytes xs t.cfg true (t.toState e).mem.num (t.toState e).mem.eff (t.toState e).file.length) := rfl
    rw [this, hlen]
    show fwrite (render e t.cfg t.pre t.mid t.lay) 0 (metaBytes xs t.cfg true t.mem.num t.mem.eff (t.lay.end_ t.cfg)) = _
    rw [hn, hf]
    exact render_pre (by rw [hpre1, h.frame.pre]; rfl)
  obtain ⟨d, hd, hdc, hdx, hdt, hdf, hdn, hde, hdcl⟩ := loadMetadata_meta hxs h.cfg true hnum heff hend (by omega)
    (bucketBytes t.cfg t.lay.buckets ++ (t.mid ++ recsBytes e t.cfg t.lay.recs))
  have hlen2 : (render e t.cfg pre1 t.mid t.lay).length = t.lay.end_ t.cfg := render_length h.cfg hframe1 hb.nb
  have hxo : d.extra.Ok := by
    rw [hdx]
    refine ⟨hxs.cyc, hxs.major, hxs.minor, hxs.version, hxs.stamp, hxs.dbType, ?_⟩
    have := hxs.opaq
    simp only [List.length_append, List.length_replicate]; omega
  let pre2 := metaBytes d.extra.next (t.cfg.re t.cfg.inPlace cap) false n f (t.lay.end_ t.cfg)
  have hpre2 : pre2.length = 128 := metaBytes_length _ _ _ _ _ _
  let t' : LSt := { cfg := t.cfg.re t.cfg.inPlace cap, pre := pre2, mid := t.mid, lay := t.lay, mem := ⟨[], n, f, []⟩, bad := false }
  have hti : t'.Inv e := by
    refine ⟨rfl, re_cfgOk h.cfg hcap, re_frame ⟨hpre2, h.frame.mid⟩, ?_, ?_⟩
    · have hl := h.inv
      unfold LInv at hl ⊢
      show if t.cfg.inPlace = true then _ else _
      split at hl
      · rename_i hi
        rw [if_pos hi]
        exact re_inPlace (hl.pool (fun b hb => by cases hb) List.Pairwise.nil)
      · rename_i hi
        rw [if_neg hi]
        exact re_appending hl
    · have := h.counted
      rw [hn, hf] at this; exact this
  have hstate : ∀ pool : List FB, { t'.toState e with mem := { t'.mem with fbp := pool } } =
      (⟨t.cfg.re t.cfg.inPlace cap, render e t.cfg pre2 t.mid t.lay, ⟨pool, n, f, []⟩, false⟩ : State) := by
    intro pool
    simp only [LSt.toState, t', re_render]
  have hw : fwrite (render e t.cfg pre1 t.mid t.lay) 0 pre2 = some (render e t.cfg pre2 t.mid t.lay) :=
    render_pre (by rw [hpre1, hpre2])
  have hone : decide ((1 : Nat) &&& 1 ≠ 0) = true := by decide
  have hsaved : t'.Saved := ⟨d.extra.next, n, f, t.lay.recs, [], hxo.next, hnum, heff, by rw [← re_end'] at hend; exact hend, by simp [t'],
      by show pre2 = metaBytes d.extra.next (t.cfg.re t.cfg.inPlace cap) false n f _; rw [re_end']⟩
  have hroom : (t'.toState e).Room := by
    have e1 : (t'.toState e).file.length = (t.toState e).file.length := by rw [toState_length hti, hlen]; exact re_end _
    have := hr
    rw [State.Room] at this ⊢
    rw [e1]; exact this
  by_cases hi : t.cfg.inPlace = true
  · obtain ⟨buf, hbuf⟩ : ∃ buf, fread (render e t.cfg pre2 t.mid t.lay) (fbpOffset (t.cfg.re t.cfg.inPlace cap)) fbpSectionSize = some buf := by
      refine ⟨_, if_pos ?_⟩
      rw [render_length h.cfg ⟨hpre2, h.frame.mid⟩ hb.nb]
      have : fbpOffset (t.cfg.re t.cfg.inPlace cap) = fbpOffset t.cfg := rfl
      rw [this]
      simp only [fbpOffset, fbpSectionSize, recordBaseHeaderSize]; omega
    refine ⟨_, t', d.extra.next, fbpDeserialize (t.cfg.re t.cfg.inPlace cap) buf, hclose, ?_, hti, rfl, rfl, hsaved, hxo.next, hroom,
      by simp [hi], hn.symm⟩
    have hdd : loadMetadata (render e t.cfg pre1 t.mid t.lay) = some d := hd
    simp only [openOld, hdd, hdc, hdt, hdf, hdn, hde, hdcl, hlen2]
    simp only [if_true, Bool.false_eq_true, if_false, hone]
    rw [show metaBytes d.extra.next (t.cfg.re t.cfg.inPlace cap) false n f (t.lay.end_ t.cfg) = pre2 from rfl, hw]
    have hi' : (t.cfg.re t.cfg.inPlace cap).inPlace = true := hi
    dsimp only
    rw [if_pos hi', hbuf, hstate]
  · refine ⟨_, t', d.extra.next, [], hclose, ?_, hti, rfl, rfl, hsaved, hxo.next, hroom, by simp, hn.symm⟩
    have hdd : loadMetadata (render e t.cfg pre1 t.mid t.lay) = some d := hd
    simp only [openOld, hdd, hdc, hdt, hdf, hdn, hde, hdcl, hlen2]
    simp only [if_true, Bool.false_eq_true, if_false, hone]
    rw [show metaBytes d.extra.next (t.cfg.re t.cfg.inPlace cap) false n f (t.lay.end_ t.cfg) = pre2 from rfl, hw]
    have hi' : ¬ (t.cfg.re t.cfg.inPlace cap).inPlace = true := hi
    dsimp only
    rw [if_neg hi', hstate]

/-- Reading does not look at the pool. -/
theorem process_read_pool {τ : Type} (s : State) (pool : List FB) (k : Bytes) (p : ProcR τ) :
    (process e { s with mem := { s.mem with fbp := pool } } k false p).2 = (process e s k false p).2 := by
  have key : ∀ (m m' : Mem) (rd : Reader) (bi : Nat), (plan s.cfg rd m k bi false p).map (fun x => (x.2.1, x.2.2)) =
      (plan s.cfg rd m' k bi false p).map (fun x => (x.2.1, x.2.2)) := by
    intro m m' rd bi
    unfold plan
    cases rd.bucket bi with
    | none => rfl
    | some top =>
      dsimp only
      cases findRec rd k rd.size 0 top with
      | none => rfl
      | some o =>
        cases o with
        | none => rfl
        | some y =>
          obtain ⟨pa, cur, r⟩ := y
          dsimp only
          cases (if r.op.isSet then r.value.map some else some none) <;> simp
  simp only [process, processImpl]
  have := key s.mem { s.mem with fbp := pool } (fileReader s.cfg s.file metaMinReadSize) (e.hash k s.cfg.nb)
  cases h1 : plan s.cfg (fileReader s.cfg s.file metaMinReadSize) s.mem k (e.hash k s.cfg.nb) false p with
  | none =>
    rw [h1] at this
    cases h2 : plan s.cfg (fileReader s.cfg s.file metaMinReadSize) { s.mem with fbp := pool } k (e.hash k s.cfg.nb) false p with
    | none => simp
    | some z => rw [h2] at this; simp at this
  | some z =>
    rw [h1] at this
    cases h2 : plan s.cfg (fileReader s.cfg s.file metaMinReadSize) { s.mem with fbp := pool } k (e.hash k s.cfg.nb) false p with
    | none => rw [h2] at this; simp at this
    | some z' =>
      rw [h2] at this
      obtain ⟨a, b, c⟩ := z
      obtain ⟨a', b', c'⟩ := z'
      simp only [Option.map_some, Option.some.injEq, Prod.mk.injEq] at this
      obtain ⟨rfl, rfl⟩ := this
      simp only
      cases applyWrs e s.cfg s.file b <;> rfl

/-- C08 (part): after any history on a new HashDBM in either mode, the file that `CopyFileData` writes opens as a healthy database
in which `Get` of every key returns the same as in the original, with the same count. -/
theorem C08_copy_readable_partial (he : EnvOk e) {tunes : Int → Tune} (ht : ∀ n, (tunes n).Ok) {c : Cfg} (hc : CfgOk c)
    {x : Extra} (hx : x.Ok) {d0 : Db} {healthy : Bool} (h0 : openImpl x c [] = some (d0, healthy)) (ops : List SOp)
    (hroom : RunRoom e tunes d0 ops) (hf : SRunFits Dict.empty ops) {stamp cap : Nat} (hs : stamp < 2 ^ 64) (hcap : 1 ≤ cap) :
    ∃ f d, copyFile stamp (run (step e tunes) d0 ops).1 = some f ∧ openOld cap f = some (d, true) ∧
      (∀ k, (Api.get (dbImpl e) d k).2 = match (run sstep Dict.empty ops).1 k with
        | some v => (.success, some v) | none => (.notFound, none)) ∧
      d.st.mem.num = (run (step e tunes) d0 ops).1.st.mem.num := by
  obtain ⟨_, _, t, h1, h2, h3, h4⟩ := session_dictionary he ht hc hx h0 ops hroom hf
  have ev : (run sstep Dict.empty ops).1 = t.view := by rw [← h3]
  rw [ev]
  generalize (run (step e tunes) d0 ops).1 = d1 at *
  obtain ⟨f, t', x', pool, g1, g2, g3, g4, g5, g6, g7, g8, g9, g10⟩ := copy_open h1.inv (by rw [← h1.st]; exact h2) h1.extra hs hcap
  have e4 : d1 = ⟨t.toState e, d1.extra⟩ := by rw [← h1.st]
  refine ⟨f, _, by rw [e4]; exact g1, g2, ?_, ?_⟩
  · intro k
    have hv := view_get he (d := ⟨t'.toState e, x'⟩) (t := t') ⟨⟨rfl, g3, g7⟩, g6⟩ g8 k
    have ev' : t'.view = t.view := by simp only [LSt.view, g4]
    rw [ev'] at hv
    refine Eq.trans ?_ hv
    simp only [Api.get, dbImpl]
    exact process_read_pool (e := e) (t'.toState e) pool k Api.getProc
  · rw [h1.st]; exact g10

/-- C08 (part): in the appending mode the copy behaves as an independent database under every later history. -/
theorem C08_copy_appending_partial (he : EnvOk e) {tunes : Int → Tune} (ht : ∀ n, (tunes n).Ok) {c : Cfg} (hc : CfgOk c)
    {x : Extra} (hx : x.Ok) {d0 : Db} {healthy : Bool} (h0 : openImpl x c [] = some (d0, healthy)) (ops : List SOp)
    (hroom : RunRoom e tunes d0 ops) (hf : SRunFits Dict.empty ops)
    (hm : (run (step e tunes) d0 ops).1.st.cfg.inPlace = false) {stamp cap : Nat} (hs : stamp < 2 ^ 64) (hcap : 1 ≤ cap) :
    ∃ f d, copyFile stamp (run (step e tunes) d0 ops).1 = some f ∧ openOld cap f = some (d, true) ∧
      ∀ ops' : List SOp, RunRoom e tunes d ops' → SRunFits (run sstep Dict.empty ops).1 ops' →
        (run (step e tunes) d ops').2 = (run sstep (run sstep Dict.empty ops).1 ops').2 ∧
        (run (step e tunes) d ops').1.st.bad = false := by
  obtain ⟨_, _, t, h1, h2, h3, h4⟩ := session_dictionary he ht hc hx h0 ops hroom hf
  have ev : (run sstep Dict.empty ops).1 = t.view := by rw [← h3]
  rw [ev]
  generalize (run (step e tunes) d0 ops).1 = d1 at *
  obtain ⟨f, t', x', pool, g1, g2, g3, g4, g5, g6, g7, g8, g9, _⟩ := copy_open h1.inv (by rw [← h1.st]; exact h2) h1.extra hs hcap
  have e4 : d1 = ⟨t.toState e, d1.extra⟩ := by rw [← h1.st]
  have hp : pool = [] := g9 (by rw [h1.st] at hm; exact hm)
  have hst : { t'.toState e with mem := { t'.mem with fbp := pool } } = t'.toState e := by
    rw [hp, ← g5]; rfl
  rw [hst] at g2
  refine ⟨f, _, by rw [e4]; exact g1, g2, ?_⟩
  intro ops' hr' hf'
  have ev' : t'.view = t.view := by simp only [LSt.view, g4]
  obtain ⟨t2, k1, k2, k3, _⟩ := run_spec he ht ops' (d := ⟨t'.toState e, x'⟩) (t := t') ⟨⟨rfl, g3, g7⟩, g6⟩ hr' (by rw [ev']; exact hf')
  rw [ev'] at k2
  exact ⟨by rw [← k2], by rw [k1.st]; exact k1.inv.ok⟩

namespace Examples

/-- The keys 1 and 4 are written, 1 is removed, the database is closed and opened, and 7 is written into the free region. -/
def reused : Db := (run (step env (fun _ => tune)) (db true)
  [.call (.set [1] [11, 12] true), .call (.set [4] [20] true), .call (.remove [1]), .reopen 5 4, .call (.set [7] [13, 14] true)]).1

/-- The copy, opened. -/
def copied : Option Db := ((copyFile 6 reused).bind (openOld 4)).map (·.1)

end Examples

/-- C08 is false in the in-place mode. A free region saved at an earlier `Close` and used again since then is still listed in the
copy as free. A new record in the copy then overwrites the live record in that region: the database `reused` has the key 7, and
so has its copy; but after writing the key 10 into the copy, 7 is lost, although no call removed it. -/
theorem C08_copy_violated :
    Examples.copied.map (fun c => (Api.get (dbImpl Examples.env) c [7]).2) = some (.success, some [13, 14]) ∧
    Examples.copied.map (fun c => (Api.get (dbImpl Examples.env) (Api.set (dbImpl Examples.env) c [10] [1, 1] true).1 [7]).2) =
      some (.notFound, none) := by
  constructor <;> decide +kernel

end Verif.Hash
