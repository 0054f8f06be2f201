import Verif.Hash.Restore
import Verif.Hash.Props
/-
The restore mode `RESTORE_SYNC` in the appending update mode.
-/
namespace Verif.Hash

variable {e : Env}

/-! ### In the appending mode the file only grows -/

def Wr.grows : Wr → Prop
  | .append _ => True
  | .bucket _ _ => True
  | _ => False

theorem plan_grows {τ : Type} {c : Cfg} (hm : c.inPlace = false) {rd : Reader} {m m' : Mem} {k : Bytes} {bi : Nat} {w : Bool} {p : ProcR τ}
    {ws : List Wr} {o : τ} (h : plan c rd m k bi w p = some (m', ws, o)) : ∀ x ∈ ws, x.grows := by
  have hrel : ∀ {size fbp bi top parent cur old k isr v fbp' ws}, relocate c size fbp bi top parent cur old k isr v = some (fbp', ws) →
      ∀ x ∈ ws, x.grows := by
    intro size fbp bi top parent cur old k isr v fbp' ws h
    simp only [relocate, place, hm, Bool.false_eq_true, if_false, Bool.false_and, Option.some.injEq, Prod.mk.injEq] at h
    rw [← h.2]
    intro x hx
    simp only [List.mem_cons, List.not_mem_nil, or_false] at hx
    rcases hx with rfl | rfl <;> trivial
  have hhit : ∀ {size fbp bi top parent cur old k a fbp' ws}, hitWrites c size fbp bi top parent cur old k a = some (fbp', ws) →
      ∀ x ∈ ws, x.grows := by
    intro size fbp bi top parent cur old k a fbp' ws h
    cases a with
    | noop =>
      simp only [hitWrites, Option.some.injEq, Prod.mk.injEq] at h
      rw [← h.2]; simp
    | remove =>
      simp only [hitWrites, hm, Bool.false_and, Bool.false_eq_true, if_false] at h
      exact hrel h
    | set v =>
      simp only [hitWrites, hm, Bool.false_and, Bool.false_eq_true, if_false] at h
      exact hrel h
  unfold plan at h
  split at h
  · cases h
  · split at h
    · cases h
    · split at h
      · cases h
      · dsimp only at h
        split at h
        · simp only [Option.some.injEq, Prod.mk.injEq] at h
          rw [← h.2.1]; simp
        · split at h
          · cases h
          · rename_i hh
            simp only [Option.some.injEq, Prod.mk.injEq] at h
            rw [← h.2.1]
            exact hhit hh
    · dsimp only at h
      split at h
      · simp only [missWrites, place, hm, Bool.false_eq_true, if_false, Option.some.injEq, Prod.mk.injEq] at h
        rw [← h.2.1]
        intro x hx
        simp only [List.mem_cons, List.not_mem_nil, or_false] at hx
        rcases hx with rfl | rfl <;> trivial
      · simp only [Option.some.injEq, Prod.mk.injEq] at h
        rw [← h.2.1]; simp

theorem applyLs_grows {c : Cfg} (ws : List Wr) : ∀ (L : Lay), (∀ x ∈ ws, x.grows) → ∃ rs, (applyLs c L ws).recs = L.recs ++ rs := by
  induction ws with
  | nil => intro L _; exact ⟨[], by simp [applyLs]⟩
  | cons w ws ih =>
    intro L h
    obtain ⟨rs, hrs⟩ := ih (applyL c L w) (fun x hx => h x (by simp [hx]))
    have hw := h w (by simp)
    have e1 : applyLs c L (w :: ws) = applyLs c (applyL c L w) ws := rfl
    rw [e1, hrs]
    cases w with
    | append r => exact ⟨r :: rs, by simp [applyL]⟩
    | bucket i v => exact ⟨rs, rfl⟩
    | record o r => exact hw.elim
    | child o r => exact hw.elim

theorem processL_grows {τ : Type} (he : EnvOk e) {t : LSt} (h : t.Inv e) (hm : t.cfg.inPlace = false) (k : Bytes) (w : Bool) (p : ProcR τ)
    (hf : ActFits hashFits k (p (t.view k)).1) : ∃ rs, (processL e t k w p).1.lay.recs = t.lay.recs ++ rs := by
  obtain ⟨m', ws, h1, h2⟩ := plan_spec he h.cfg h.inv k w p hf
  simp only [processL, h1]
  exact applyLs_grows ws t.lay (plan_grows hm h1)

theorem crashFile_grows {τ : Type} (he : EnvOk e) {t : LSt} (h : t.Inv e) (hr : (t.toState e).Room) (hm : t.cfg.inPlace = false) (k : Bytes)
    (w : Bool) (p : ProcR τ) (hf : ActFits hashFits k (p (t.view k)).1) (n : Nat) :
    ∃ L rs, crashFile e (t.toState e) k w p n = some (render e t.cfg t.pre t.mid L) ∧ Base t.cfg L ∧ L.recs = t.lay.recs ++ rs ∧
      ((∃ pool, LInv e t.cfg L pool) ∨ Stray e t.cfg t.lay L) := by
  obtain ⟨m', ws, h1, h2⟩ := plan_spec he h.cfg h.inv k w p hf
  have hi : e.hash k t.cfg.nb < t.cfg.nb := he.hash k t.cfg.nb (by have := h.cfg.nb; omega)
  have hpl : plan t.cfg (fileReader t.cfg (render e t.cfg t.pre t.mid t.lay) metaMinReadSize) t.mem k (e.hash k t.cfg.nb) w p =
      some (m', ws, (p (contents t.lay.recs k)).2) := by
    rw [plan_render he h.cfg h.frame h.inv.base (h.room hr) (Nat.le_refl _) t.mem k hi (h.inv.chainOk hi), h1]
  have hw := h2.wrs.take n
  obtain ⟨rs, hrs⟩ := applyLs_grows (c := t.cfg) (ws.take n) t.lay (fun x hx => plan_grows hm h1 x (List.mem_of_mem_take hx))
  refine ⟨applyLs t.cfg t.lay (ws.take n), rs, ?_, h.inv.base.applyLs hw, hrs, h2.crash n⟩
  simp only [crashFile, LSt.toState, hpl]
  exact applyWrs_render h.cfg h.frame h.inv.base hw

/-! ### Restoration up to the last synchronization -/

/-- The last synchronization saw the records `a`. -/
structure SyncAt (t : LSt) (a : List Rec) : Prop where
  app : t.cfg.inPlace = false
  saved : ∃ (x : Extra) (num eff : Nat), x.Ok ∧ num < 2 ^ 63 ∧ eff < 2 ^ 63 ∧ recordBase t.cfg + totalSize t.cfg a < 2 ^ 63 ∧
    t.pre = metaBytes x t.cfg false num eff (recordBase t.cfg + totalSize t.cfg a) ∧ (contents a).Counted num eff
  pre : ∃ b, t.lay.recs = a ++ b

theorem SyncAt.process {τ : Type} (he : EnvOk e) {t : LSt} (h : t.Inv e) {a : List Rec} (hs : SyncAt t a) (k : Bytes) (w : Bool) (p : ProcR τ)
    (hf : ActFits hashFits k (p (t.view k)).1) : SyncAt (processL e t k w p).1 a := by
  have h2 := (processL_spec he h k w p hf).2
  obtain ⟨rs, hrs⟩ := processL_grows he h hs.app k w p hf
  obtain ⟨b, hb⟩ := hs.pre
  exact ⟨by rw [h2.cfg]; exact hs.app, by rw [h2.cfg, h2.pre]; exact hs.saved, b ++ rs, by rw [hrs, hb, List.append_assoc]⟩

theorem restoreEnd_sync {c : Cfg} (hc : CfgOk c) {d : Md} (hdc : ∀ cap, d.cfg cap = c.re c.inPlace cap) (hdt : d.torn = false) (hap : d.ap = c.ap)
    {a b : List Rec} (ha : ∀ r ∈ a, r.size c % (1 <<< c.ap) = 0) (hdf : d.fileSize = recordBase c + totalSize c a) {f : Bytes}
    (hlen : recordBase c + totalSize c (a ++ b) ≤ f.length) : restoreEnd d .sync f = recordBase c + totalSize c a := by
  have h1 : recordBase (d.cfg 2048) = recordBase c := by rw [hdc]; rfl
  have h2 : (recordBase c + totalSize c a) % (1 <<< c.ap) = 0 := by
    rw [Nat.add_mod, recordBase_aligned hc.ap, totalSize_aligned ha]; simp
  simp only [restoreEnd, hdt, Bool.false_eq_true, if_false, if_true, h1, hdf, hap, h2]
  rw [totalSize_append] at hlen
  rw [if_neg (by omega), Nat.min_eq_left (by omega)]

theorem openRestore_sync (he : EnvOk e) {x0 : Extra} (hx0 : x0.Ok) {c : Cfg} (hc : CfgOk c) (hm : c.inPlace = false) {num eff : Nat}
    (h1 : num < 2 ^ 63) (h2 : eff < 2 ^ 63)
    {mid : Bytes} {L0 L : Lay} (hb : Base c L) (hrm : Room c L) (hsm : L.end_ c < 2 ^ 63) {a b : List Rec} (hab : L.recs = a ++ b)
    (h3 : recordBase c + totalSize c a < 2 ^ 63) (hcnt : (contents a).Counted num eff)
    (hf : FrameOk c (metaBytes x0 c false num eff (recordBase c + totalSize c a)) mid) {f : Bytes}
    (hfile : f = render e c (metaBytes x0 c false num eff (recordBase c + totalSize c a)) mid L)
    (hw : (∃ pool, LInv e c L pool) ∨ Stray e c L0 L) (hle : recordBase c + totalSize c a ≤ L0.end_ c) {x : Extra} (hx : x.Ok)
    {stamp cap mr : Nat} (hs : stamp < 2 ^ 64) (hcap : 1 ≤ cap) (hmr : 48 ≤ mr) (noShortcuts : Bool) (z : Nat)
    (hroom : RestoreRoom e x .sync f) :
    ∃ d t, openRestore e x stamp cap mr .sync noShortcuts (f ++ List.replicate z 0) = some d ∧ DbOk e d t ∧
      d.st.Room ∧ t.view = contents a := by
  obtain ⟨md, hmd, hdc, hdx, hdt, hdf, hap, hdn, hde, z', hz', hop⟩ := openOld_unhealthy hx0 hc h1 h2 he hb hab h3 hf z
  rw [← hfile] at hop
  have hmd' : ∀ z, loadMetadata (f ++ List.replicate z 0) = some md := by rw [hfile]; exact hmd
  have hlen : f.length = L.end_ c := by rw [hfile]; exact render_length hc hf hb.nb
  have hal : ∀ r ∈ a, r.size c % (1 <<< c.ap) = 0 := fun r hr => (hb.recs r (by rw [hab]; simp [hr])).1.align
  have hend : ∀ z, restoreEnd md .sync (f ++ List.replicate z 0) = recordBase c + totalSize c a := by
    intro z
    refine restoreEnd_sync hc hdc hdt hap hal hdf (b := b) ?_
    simp only [List.length_append, hlen, Lay.end_, hab]; omega
  have hcfg1 : CfgOk (md.cfg 2048) := by rw [hdc]; exact re_cfgOk hc (by omega)
  have hcfg2 : md.cfg 2048 = c.re c.inPlace 2048 := hdc 2048
  have hFO' : ∀ z, FileOf e (md.cfg 2048) L (f ++ List.replicate z 0) := by
    intro z
    have := fileOf_render (L := L) he hcfg1 (pre := metaBytes x0 c false num eff (recordBase c + totalSize c a)) (mid := mid)
      (by rw [hcfg2]; exact re_frame hf) (by rw [hcfg2]; exact re_base hb) (by rw [hcfg2]; unfold Room; rw [re_end]; exact hrm) z
    rwa [hcfg2, re_render, ← hcfg2, ← hfile] at this
  have hents : ∀ z, restoreEnts e (md.cfg 2048) (f ++ List.replicate z 0) (max 48 (1 <<< md.ap)) (restoreEnd md .sync (f ++ List.replicate z 0)) = _ := fun z =>
    (hFO' z).restoreEnts hcfg1 (by rw [hcfg2]; exact re_base hb) (by rw [hcfg2]; unfold Room; rw [re_end]; exact hrm) (Nat.le_max_left _ _)
      hab (by rw [hend, hcfg2, re_totalSize]; exact Nat.le_refl _) (Or.inl (by rw [hend, hcfg2, re_totalSize]; rfl))
  have hz0 : restoreTmp e x md .sync (f ++ List.replicate z' 0) = restoreTmp e x md .sync f := by
    have h0 := hents 0
    simp only [List.replicate_zero, List.append_nil] at h0
    simp only [restoreTmp, hents z', h0]
  have hr0 : ∀ tmp, restoreTmp e x md .sync (f ++ List.replicate z' 0) = some tmp → tmp.st.Room := by
    intro tmp ht
    refine hroom md tmp (by have := hmd' 0; simpa using this) ?_
    rw [hz0] at ht; exact ht
  obtain ⟨g, d', t, r1, r2, r3, r4, r5⟩ := restoreDatabase_spec he hc hb hrm hf (f := f ++ List.replicate z' 0) (z := z') (by rw [hfile])
    (hmd' z') hdc hdx hdt (mode := .sync) hab (by rw [hend]; exact Nat.le_refl _) (Or.inl (hend z')) hx hs hcap hr0
  have hcfg := hdc cap
  have hFO : FileOf e (md.cfg cap) L (f ++ List.replicate z' 0) := by
    have := fileOf_render (L := L) he (c := md.cfg cap) (by rw [hcfg]; exact re_cfgOk hc hcap) (pre := metaBytes x0 c false num eff (recordBase c + totalSize c a)) (mid := mid)
      (by rw [hcfg]; exact re_frame hf) (by rw [hcfg]; exact re_base hb) (by rw [hcfg]; unfold Room; rw [re_end]; exact hrm) z'
    rwa [hcfg, re_render, ← hcfg, ← hfile] at this
  have hne : ¬ RestoreMode.sync = RestoreMode.noop := by decide
  simp only [openRestore, hmd', hop, restoreUnhealthy, if_neg hne, hdt, Bool.false_eq_true, if_false, hdf]
  cases noShortcuts with
  | true =>
    simp only [if_true, r1, r2]
    exact ⟨d', t, rfl, r3, r4, r5⟩
  | false =>
    obtain ⟨res, s1, s2⟩ := shortcut_spec he (L0 := L0) (s := ⟨md.cfg cap, f ++ List.replicate z' 0, ⟨[], md.num, md.eff, []⟩, false⟩)
      (by rw [hcfg]; exact re_cfgOk hc hcap) hFO
      (hw.imp (fun ⟨pool, h⟩ => ⟨pool, by simp only [hcfg]; exact re_linv h⟩) (fun h => by simp only [hcfg]; exact re_stray h)) hmr .sync hab
      (size := recordBase c + totalSize c a) (by simp only [hcfg, re_totalSize]; rfl) (by simp only [hcfg, re_end]; exact hle)
    simp only [Bool.false_eq_true, if_false, s1]
    cases res with
    | none =>
      simp only [r1, r2]
      exact ⟨d', t, rfl, r3, r4, r5⟩
    | some s' =>
      obtain ⟨⟨pool, w1⟩, w2, _⟩ := s2 s' rfl
      simp only at w1 w2
      -- only the first shortcut applies in this mode
      have hsz : recordBase c + totalSize c a = (f ++ List.replicate z' 0).length ∧ s' = ⟨md.cfg cap, f ++ List.replicate z' 0, ⟨[], md.num, md.eff, []⟩, false⟩ := by
        unfold shortcut at s1
        split at s1
        · rename_i hh
          simp only [Bool.and_eq_true, beq_iff_eq] at hh
          simp only [Option.some.injEq] at s1
          exact ⟨hh.1.2, s1.symm⟩
        · rw [if_neg (by simp)] at s1
          cases s1
      obtain ⟨hsz, hs'⟩ := hsz
      have hbz : b = [] ∧ z' = 0 := by
        simp only [List.length_append, hlen, Lay.end_, hab, totalSize_append, List.length_replicate] at hsz
        refine ⟨?_, by omega⟩
        cases b with
        | nil => rfl
        | cons r b =>
          have := size_pos (c := c) r
          simp only [totalSize] at hsz; omega
      obtain ⟨rfl, rfl⟩ := hbz
      simp only [List.append_nil] at hab
      subst hs'
      simp only [List.replicate_zero, List.append_nil]
      refine ⟨_, ⟨md.cfg cap, metaBytes x0 c false num eff (recordBase c + totalSize c a), mid, L, ⟨[], num, eff, []⟩, false⟩, rfl, ?_, ?_, ?_⟩
      · refine ⟨⟨?_, ?_, hdx⟩, ?_⟩
        · simp only [LSt.toState, hcfg, re_render, hfile, hdn, hde]
        · exact ⟨rfl, by simp only [hcfg]; exact re_cfgOk hc hcap, by simp only [hcfg]; exact re_frame hf, w1.noPool, by simp only [LSt.view, hab]; exact hcnt⟩
        · exact ⟨x0, num, eff, a, [], hx0, h1, h2, by simp only [hcfg, re_totalSize]; exact h3, by simp [hab], by simp only [hcfg, re_totalSize]; rfl⟩
      · simp only [State.Room, hlen, hcfg]
        exact ⟨hrm, hsm⟩
      · simp only [LSt.view, hab]

end Verif.Hash
