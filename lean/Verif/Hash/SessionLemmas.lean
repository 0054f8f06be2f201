import Verif.Hash.RebuildLemmas
import Verif.Hash.Session
/-
Every call on the bytes of the file is the call on a dictionary.
-/
namespace Verif.Hash
open Verif.Codec

variable {e : Env}

/-! ### Calls with processors -/

theorem set_sim (he : EnvOk e) {t : LSt} (h : t.Inv e) (hr : (t.toState e).Room) {k v : Bytes} (hf : hashFits k v) (ow : Bool) :
    Api.set (impl e) (t.toState e) k v ow = ((Api.set (implL e) t k v ow).1.toState e, (Api.set (implL e) t k v ow).2) :=
  process_sim he h hr k true (Api.setProc v ow) (by cases h : t.view k <;> cases ow <;> simp [Api.setProc, ActFits, hf])

theorem remove_sim (he : EnvOk e) {t : LSt} (h : t.Inv e) (hr : (t.toState e).Room) (k : Bytes) :
    Api.remove (impl e) (t.toState e) k = ((Api.remove (implL e) t k).1.toState e, (Api.remove (implL e) t k).2) :=
  process_sim he h hr k true Api.removeProc (by cases h : t.view k <;> simp [Api.removeProc, ActFits])

theorem get_sim (he : EnvOk e) {t : LSt} (h : t.Inv e) (hr : (t.toState e).Room) (k : Bytes) :
    Api.get (impl e) (t.toState e) k = ((Api.get (implL e) t k).1.toState e, (Api.get (implL e) t k).2) :=
  process_sim he h hr k false Api.getProc (by cases h : t.view k <;> simp [Api.getProc, ActFits])

/-! ### The imports on the bytes -/

theorem room_mono {s s' : State} (h : s.file.length ≤ s'.file.length ∧ s'.cfg = s.cfg) (hr : s'.Room) : s.Room := by
  simp only [State.Room] at hr ⊢
  rw [h.2] at hr
  exact ⟨Nat.le_trans h.1 hr.1, Nat.lt_of_le_of_lt h.1 hr.2⟩

theorem importEnt_grow (s : State) (x : Ent) :
    s.file.length ≤ (importEnt (impl e) s x).file.length ∧ (importEnt (impl e) s x).cfg = s.cfg := by
  obtain ⟨op, k, v⟩ := x
  cases op with
  | void => exact ⟨Nat.le_refl _, rfl⟩
  | remove => exact process_grow s k true Api.removeProc
  | set => exact process_grow s k true (Api.setProc v true)
  | add => exact process_grow s k true (Api.setProc v true)

theorem importForward_grow (l : List Ent) : ∀ s : State,
    s.file.length ≤ (importForward (impl e) s l).file.length ∧ (importForward (impl e) s l).cfg = s.cfg := by
  induction l with
  | nil => intro s; exact ⟨Nat.le_refl _, rfl⟩
  | cons x l ih =>
    intro s
    have h1 := importEnt_grow (e := e) s x
    have h2 := ih (importEnt (impl e) s x)
    exact ⟨Nat.le_trans h1.1 h2.1, h2.2.trans h1.2⟩

theorem importBack_grow (s : State × List Bytes) (x : Ent) :
    s.1.file.length ≤ (importBack (impl e) s x).1.file.length ∧ (importBack (impl e) s x).1.cfg = s.1.cfg := by
  obtain ⟨op, k, v⟩ := x
  have hg := process_grow (e := e) s.1 k false Api.getProc
  have hs : ∀ op, op ≠ OpType.void → op ≠ .remove → s.1.file.length ≤ (importBack (impl e) s (op, k, v)).1.file.length ∧
      (importBack (impl e) s (op, k, v)).1.cfg = s.1.cfg := by
    intro op h1 h2
    have : importBack (impl e) s (op, k, v) = if k ∈ s.2 then s else ((Api.set (impl e) s.1 k v false).1, s.2) := by
      cases op <;> simp_all [importBack]
    rw [this]
    split
    · exact ⟨Nat.le_refl _, rfl⟩
    · exact process_grow s.1 k true (Api.setProc v false)
  cases op with
  | void => exact ⟨Nat.le_refl _, rfl⟩
  | remove =>
    simp only [importBack]
    split <;> exact hg
  | set => exact hs _ (by simp) (by simp)
  | add => exact hs _ (by simp) (by simp)

theorem foldBack_grow (l : List Ent) : ∀ s : State × List Bytes,
    s.1.file.length ≤ (l.foldl (importBack (impl e)) s).1.file.length ∧ (l.foldl (importBack (impl e)) s).1.cfg = s.1.cfg := by
  induction l with
  | nil => intro s; exact ⟨Nat.le_refl _, rfl⟩
  | cons x l ih =>
    intro s
    have h1 := importBack_grow (e := e) s x
    have h2 := ih (importBack (impl e) s x)
    exact ⟨Nat.le_trans h1.1 h2.1, h2.2.trans h1.2⟩

theorem importForward_sim (he : EnvOk e) (l : List Ent) : ∀ {t : LSt}, t.Inv e → (∀ x ∈ l, hashFits x.2.1 x.2.2) →
    (importForward (impl e) (t.toState e) l).Room →
    importForward (impl e) (t.toState e) l = (importForward (implL e) t l).toState e := by
  induction l with
  | nil => intro t _ _ _; rfl
  | cons x l ih =>
    intro t h hf hroom
    have hr : (t.toState e).Room := room_mono (importForward_grow (x :: l) _) hroom
    have hx := hf x (by simp)
    have hstep : importEnt (impl e) (t.toState e) x = (importEnt (implL e) t x).toState e ∧ (importEnt (implL e) t x).Inv e := by
      obtain ⟨op, k, v⟩ := x
      have h1 := set_sim he h hr hx true
      have h2 := remove_sim he h hr k
      have h3 := (Api.C58_set (lawfulL he) t k v true h hx).1
      have h4 := (Api.C58_remove (lawfulL he) t k h).1
      cases op with
      | void => exact ⟨rfl, h⟩
      | remove => exact ⟨congrArg Prod.fst h2, h4⟩
      | set => exact ⟨congrArg Prod.fst h1, h3⟩
      | add => exact ⟨congrArg Prod.fst h1, h3⟩
    simp only [importForward, List.foldl_cons] at hroom ih ⊢
    rw [hstep.1] at hroom ⊢
    exact ih hstep.2 (fun y hy => hf y (by simp [hy])) hroom

theorem foldBack_sim (he : EnvOk e) (l : List Ent) : ∀ {t : LSt} {dead : List Bytes}, t.Inv e → (∀ x ∈ l, hashFits x.2.1 x.2.2) →
    (l.foldl (importBack (impl e)) (t.toState e, dead)).1.Room →
    l.foldl (importBack (impl e)) (t.toState e, dead) =
      ((l.foldl (importBack (implL e)) (t, dead)).1.toState e, (l.foldl (importBack (implL e)) (t, dead)).2) := by
  induction l with
  | nil => intro t dead _ _ _; rfl
  | cons x l ih =>
    intro t dead h hf hroom
    have hr : (t.toState e).Room := room_mono (foldBack_grow (x :: l) (t.toState e, dead)) hroom
    have hx := hf x (by simp)
    have hstep : importBack (impl e) (t.toState e, dead) x =
        ((importBack (implL e) (t, dead) x).1.toState e, (importBack (implL e) (t, dead) x).2) ∧ (importBack (implL e) (t, dead) x).1.Inv e := by
      obtain ⟨op, k, v⟩ := x
      have h1 := set_sim he h hr hx false
      have h2 := get_sim he h hr k
      have h3 := (Api.C58_set (lawfulL he) t k v false h hx).1
      have h4 := (Api.C58_get (lawfulL he) t k h).1
      cases op with
      | void => exact ⟨rfl, h⟩
      | remove =>
        simp only [importBack, h2]
        by_cases hg : (Api.get (implL e) t k).2.1 = .success
        · simp only [hg, if_true]; exact ⟨trivial, h4⟩
        · simp only [hg, if_false]; exact ⟨trivial, h4⟩
      | set =>
        simp only [importBack, h1]
        split
        · exact ⟨rfl, h⟩
        · exact ⟨rfl, h3⟩
      | add =>
        simp only [importBack, h1]
        split
        · exact ⟨rfl, h⟩
        · exact ⟨rfl, h3⟩
    simp only [List.foldl_cons] at hroom ih ⊢
    rw [hstep.1] at hroom ⊢
    exact ih hstep.2 (fun y hy => hf y (by simp [hy])) hroom

theorem rebuildImport_sim (he : EnvOk e) {t : LSt} (h : t.Inv e) (hv : t.view = Dict.empty) (ip : Bool) (a b : List Rec)
    (hf : ∀ r ∈ a ++ b, hashFits r.key r.value) {x : List Ent × List Ent}
    (hx : x = (if ip then a.map Rec.ent else ((a.filter fun r => r.op ≠ .void).map Rec.ent).reverse, b.map Rec.ent))
    (hroom : (rebuildImport (impl e) (t.toState e) ip x).Room) :
    rebuildImport (impl e) (t.toState e) ip x = (rebuildImport (implL e) t ip x).toState e := by
  have hf1 : ∀ y ∈ x.1, hashFits y.2.1 y.2.2 := by
    subst hx
    intro y hy
    cases ip with
    | true =>
      simp only [if_true] at hy
      obtain ⟨r, hr, rfl⟩ := List.mem_map.1 hy
      exact hf r (by simp [hr])
    | false =>
      simp only [Bool.false_eq_true, if_false, List.mem_reverse] at hy
      obtain ⟨r, hr, rfl⟩ := List.mem_map.1 hy
      exact hf r (by simp [(List.mem_filter.1 hr).1])
  have hf2 : ∀ y ∈ x.2, hashFits y.2.1 y.2.2 := by
    subst hx
    intro y hy
    obtain ⟨r, hr, rfl⟩ := List.mem_map.1 hy
    exact hf r (by simp [hr])
  have hfa : ∀ r ∈ a, hashFits r.key r.value := fun r hr => hf r (by simp [hr])
  cases ip with
  | true =>
    simp only [rebuildImport, if_true] at hroom ⊢
    have hr1 : (importForward (impl e) (t.toState e) x.1).Room := room_mono (importForward_grow x.2 _) hroom
    rw [importForward_sim he x.1 h hf1 hr1] at hroom ⊢
    have hi := importForward_spec (lawfulL he) a h hfa
    exact importForward_sim he x.2 (by rw [hx]; exact hi.1) hf2 hroom
  | false =>
    simp only [rebuildImport, Bool.false_eq_true, if_false, importBackward] at hroom ⊢
    have hr1 : (x.1.foldl (importBack (impl e)) (t.toState e, [])).1.Room := room_mono (importForward_grow x.2 _) hroom
    rw [foldBack_sim he x.1 h hf1 hr1] at hroom ⊢
    have hi := importBackward_spec (lawfulL he) h hv (a.filter fun r => r.op ≠ .void)
      (fun r hr => by simpa using (List.mem_filter.1 hr).2) (fun r hr => hfa r (List.mem_filter.1 hr).1)
    exact importForward_sim he x.2 (by rw [hx]; exact hi.1) hf2 hroom

/-! ### Rebuild, Clear and reopening -/

/-- A database on the bytes together with the structured file it stands for. -/
structure DbInv (e : Env) (d : Db) (t : LSt) : Prop where
  st : d.st = t.toState e
  inv : t.Inv e
  extra : d.extra.Ok

/-- The same, where the metadata in the file are those of the database. -/
structure DbOk (e : Env) (d : Db) (t : LSt) : Prop extends DbInv e d t where
  saved : t.Saved

/-- The mode of the file can be changed to the appending one, and every capacity of the pool will do. -/
theorem LSt.Inv.mode {t : LSt} (h : t.Inv e) (ip : Bool) (hip : ip = true → t.cfg.inPlace = true) {cap : Nat} (hcap : 1 ≤ cap) :
    LSt.Inv e { t with cfg := t.cfg.re ip cap } := by
  refine ⟨h.ok, re_cfgOk h.cfg hcap, re_frame h.frame, ?_, h.counted⟩
  have hl := h.inv
  unfold LInv at hl ⊢
  show if ip = true then _ else _
  by_cases hi : ip = true
  · rw [if_pos hi]
    rw [if_pos (hip hi)] at hl
    exact re_inPlace hl
  · rw [if_neg hi]
    split at hl
    · exact re_appending (pool := []) hl.toAppending
    · exact re_appending hl

theorem LSt.Inv.setLog {t : LSt} (h : t.Inv e) (l : List LogOp) : LSt.Inv e { t with mem := { t.mem with log := l } } :=
  ⟨h.ok, h.cfg, h.frame, h.inv, h.counted⟩

/-- What a rebuild takes from outside is admissible. -/
structure Tune.Ok (t : Tune) : Prop where
  extra : t.extra.Ok
  cfg : CfgOk t.cfg
  stamp : t.stamp < 2 ^ 64

/-- The file of the new database stays small enough. -/
def RebuildRoom (e : Env) (tn : Tune) (ip : Bool) (mid : Nat) (d : Db) : Prop :=
  ∀ tmp, rebuildTmp e tn.extra tn.cfg d.st.cfg d.st.file ip mid = some tmp → tmp.st.Room

/-- The new database before it is closed, in its final mode: it has the contents of the old one. -/
theorem rebuildTmp_spec (he : EnvOk e) {d : Db} {t : LSt} (h : DbInv e d t) (hr : d.st.Room) {tn : Tune} (hn : tn.Ok) (ip : Bool)
    {a b : List Rec} (hab : t.lay.recs = a ++ b) (hroom : RebuildRoom e tn ip (recordBase t.cfg + totalSize t.cfg a) d) :
    ∃ (tmp : Db) (t2 : LSt), rebuildTmp e tn.extra tn.cfg d.st.cfg d.st.file ip (recordBase t.cfg + totalSize t.cfg a) = some tmp ∧ tmp.st.bad = false ∧
      { tmp with st := { tmp.st with cfg := { tmp.st.cfg with inPlace := tn.cfg.inPlace } } } = ⟨t2.toState e, tmp.extra⟩ ∧
      t2.Inv e ∧ (t2.toState e).Room ∧ tmp.extra.Ok ∧ t2.view = t.view ∧ ∀ cap, t2.cfg.re t2.cfg.inPlace cap = tn.cfg.re tn.cfg.inPlace cap := by
  obtain ⟨hst, hi, hx⟩ := h
  have hroom0 : Hash.Room t.cfg t.lay := hi.room (by rw [← hst]; exact hr)
  have hcfg1 : CfgOk { tn.cfg with inPlace := true, fbpCap := 2048 } :=
    re_cfgOk (c := tn.cfg) (ip := true) (cap := 2048) hn.cfg (by omega)
  obtain ⟨t0, x0, ho, hi0, hc0, hl0, hm0, hx0, _⟩ := open_new (e := e) hcfg1 hn.extra
  have hv0 : t0.view = Dict.empty := by simp [LSt.view, hl0, emptyLay, contents]
  have hents := rebuildEnts_render he hi.cfg hi.frame hi.inv.base hroom0 hab ip
  have hf : ∀ r ∈ a ++ b, hashFits r.key r.value := fun r hr => (hi.inv.base.recs r (by rw [hab]; exact hr)).1.kv
  obtain ⟨x, hxd⟩ : ∃ x, x = ((if ip then a.map Rec.ent else ((a.filter fun r => r.op ≠ .void).map Rec.ent).reverse, b.map Rec.ent) : List Ent × List Ent) := ⟨_, rfl⟩
  rw [← hxd] at hents
  have htmp : rebuildTmp e tn.extra tn.cfg d.st.cfg d.st.file ip (recordBase t.cfg + totalSize t.cfg a) =
      some ⟨rebuildImport (impl e) (t0.toState e) ip x, x0⟩ := by
    have e1 : d.st.cfg = t.cfg := by rw [hst]; rfl
    have e2 : d.st.file = render e t.cfg t.pre t.mid t.lay := by rw [hst]; rfl
    simp only [rebuildTmp, e1, e2, hents, ho]
  have hr1 := hroom _ htmp
  simp only at hr1
  have hsim := rebuildImport_sim he hi0 hv0 ip a b hf hxd hr1
  obtain ⟨hi1, hv1⟩ := rebuildImport_spec (lawfulL he) hi0 hv0 a b hf ip (s' := rebuildImport (implL e) t0 ip x) (by rw [hxd])
  have hcg : (rebuildImport (impl e) (t0.toState e) ip x).cfg = t0.cfg := by
    simp only [rebuildImport]
    cases ip with
    | true => exact (importForward_grow x.2 _).2.trans (importForward_grow x.1 _).2
    | false => exact (importForward_grow x.2 _).2.trans (foldBack_grow x.1 _).2
  rw [hsim] at hcg hr1 htmp
  generalize rebuildImport (implL e) t0 ip x = t1 at *
  have hc1 : t1.cfg = { tn.cfg with inPlace := true, fbpCap := 2048 } := by rw [← hc0]; exact hcg
  have hi2 := hi1.mode tn.cfg.inPlace (by intro _; rw [hc1]) (cap := 2048) (by omega)
  have hst2 : (⟨{ t1.toState e with cfg := { (t1.toState e).cfg with inPlace := tn.cfg.inPlace } }, x0⟩ : Db) =
      ⟨LSt.toState e { t1 with cfg := t1.cfg.re tn.cfg.inPlace 2048 }, x0⟩ := by
    have hc : { t1.cfg with inPlace := tn.cfg.inPlace } = t1.cfg.re tn.cfg.inPlace 2048 := by rw [hc1]; rfl
    simp only [LSt.toState, hc, re_render]
  have hr2 : (LSt.toState e { t1 with cfg := t1.cfg.re tn.cfg.inPlace 2048 }).Room := by
    rw [State.Room] at hr1 ⊢
    simp only [LSt.toState, re_render] at hr1 ⊢
    exact hr1
  refine ⟨_, _, htmp, hi1.ok, hst2, hi2, hr2, hx0, ?_, fun cap => ?_⟩
  · show t1.view = t.view
    rw [hv1, ← hab]; rfl
  · show (t1.cfg.re tn.cfg.inPlace 2048).re tn.cfg.inPlace cap = _
    rw [hc1]; rfl

/-- The rest of a rebuild gives a database of the same contents with the new parameters, wherever in the file the rebuild
began. -/
theorem rebuildEnd_spec (he : EnvOk e) {d : Db} {t : LSt} (h : DbInv e d t) (hr : d.st.Room) {tn : Tune} (hn : tn.Ok) (ip : Bool)
    {a b : List Rec} (hab : t.lay.recs = a ++ b) (hroom : RebuildRoom e tn ip (recordBase t.cfg + totalSize t.cfg a) d) :
    ∃ d' t', rebuildEnd e tn ip (recordBase t.cfg + totalSize t.cfg a) d = some d' ∧ DbOk e d' t' ∧ t'.view = t.view ∧
      t'.cfg = tn.cfg ∧ t'.mem.log = t.mem.log := by
  obtain ⟨tmp, t2, htmp, hbad, hst2, hi2, hr2, hx0, hv2, hc2⟩ := rebuildTmp_spec he h hr hn ip hab hroom
  obtain ⟨hst, hi, hx⟩ := h
  obtain ⟨f, t3, x3, hcl, hop, hre, hx3⟩ := close_open hi2 hr2 hx0 hn.stamp hn.cfg.fbp
  refine ⟨⟨{ t3.toState e with mem := { t3.mem with log := t.mem.log } }, { x3 with dbType := d.extra.dbType, opaq := d.extra.opaq }⟩,
    { t3 with mem := { t3.mem with log := t.mem.log } }, ?_, ⟨⟨rfl, hre.inv.setLog _, ?_⟩, hre.saved⟩, ?_, ?_, rfl⟩
  · simp only [rebuildEnd, htmp, rebuildFinish]
    rw [hst2, hcl]
    simp only [hop]
    have b1 : d.st.bad = false := by rw [hst]; exact hi.ok
    have b3 : (t3.toState e).bad = false := hre.inv.ok
    have b4 : d.st.mem.log = t.mem.log := by rw [hst]; rfl
    simp only [b1, hbad, b4, Bool.or_self, ← b3]
    rfl
  · exact ⟨hx3.cyc, hx3.major, hx3.minor, hx3.version, hx3.stamp, hx.dbType, hx.opaq⟩
  · show contents t3.lay.recs = t.view
    rw [hre.lay]
    exact hv2
  · show t3.cfg = tn.cfg
    rw [hre.cfg, hc2]; rfl

theorem rebuildBegin_ok {d : Db} {t : LSt} (h : DbInv e d t) :
    DbInv e (rebuildBegin d) { t with cfg := t.cfg.re false t.cfg.fbpCap } := by
  obtain ⟨hst, hi, hx⟩ := h
  refine ⟨?_, hi.mode false (by simp) hi.cfg.fbp, hx⟩
  simp only [rebuildBegin, hst, LSt.toState, re_render]
  rfl

theorem rebuild_spec (he : EnvOk e) {d : Db} {t : LSt} (h : DbOk e d t) (hr : d.st.Room) {tn : Tune} (hn : tn.Ok)
    (hroom : RebuildRoom e tn d.st.cfg.inPlace d.st.file.length (rebuildBegin d)) :
    ∃ d' t', rebuild e tn d = some d' ∧ DbOk e d' t' ∧ t'.view = t.view ∧ t'.cfg = tn.cfg ∧ t'.mem.log = t.mem.log := by
  have hb := rebuildBegin_ok h.toDbInv
  have hlen : d.st.file.length = recordBase (t.cfg.re false t.cfg.fbpCap) + totalSize (t.cfg.re false t.cfg.fbpCap) t.lay.recs := by
    rw [h.st, toState_length h.inv, re_totalSize]; rfl
  have := rebuildEnd_spec he hb (tn := tn) (ip := d.st.cfg.inPlace) (a := t.lay.recs) (b := []) hr hn (by simp)
    (by rw [hlen] at hroom; exact hroom)
  unfold rebuild
  rw [hlen]
  exact this

theorem clear_spec {d : Db} {t : LSt} (h : DbOk e d t) :
    ∃ d' t', clear d = some d' ∧ DbOk e d' t' ∧ t'.view = Dict.empty ∧ t'.cfg = t.cfg ∧ t'.mem.log = t.mem.log ++ [.clear] := by
  obtain ⟨⟨hst, hi, hx⟩, _⟩ := h
  obtain ⟨t0, x0, ho, hi0, hc0, hl0, hm0, hx0, hs0⟩ := open_new (e := e) hi.cfg hx
  have e1 : d.st.cfg = t.cfg := by rw [hst]; rfl
  have e2 : d.st.mem.log = t.mem.log := by rw [hst]; rfl
  have e3 : d.st.bad = false := by rw [hst]; exact hi.ok
  refine ⟨⟨{ t0.toState e with mem := { t0.mem with log := t.mem.log ++ [.clear] } }, x0⟩,
    { t0 with mem := { t0.mem with log := t.mem.log ++ [.clear] } }, ?_, ⟨⟨rfl, hi0.setLog _, hx0⟩, hs0⟩, ?_, hc0, rfl⟩
  · have b3 : (t0.toState e).bad = false := hi0.ok
    simp only [clear, e1, ho, e2, e3, ← b3]
    rfl
  · simp [LSt.view, hl0, emptyLay, contents]

theorem reopen_spec {d : Db} {t : LSt} (h : DbOk e d t) (hr : d.st.Room) {stamp cap : Nat} (hs : stamp < 2 ^ 64) (hcap : 1 ≤ cap) :
    ∃ d' t', reopen stamp cap d = some d' ∧ DbOk e d' t' ∧ t'.view = t.view ∧ t'.cfg = t.cfg.re t.cfg.inPlace cap ∧
      t'.mem.log = t.mem.log ∧ t'.lay = t.lay := by
  obtain ⟨⟨hst, hi, hx⟩, _⟩ := h
  obtain ⟨f, t3, x3, hcl, hop, hre, hx3⟩ := close_open hi (by rw [← hst]; exact hr) hx hs hcap
  have e2 : d.st.mem.log = t.mem.log := by rw [hst]; rfl
  have e3 : d.st.bad = false := by rw [hst]; exact hi.ok
  have e4 : d = ⟨t.toState e, d.extra⟩ := by rw [← hst]
  refine ⟨⟨{ t3.toState e with mem := { t3.mem with log := t.mem.log } }, x3⟩,
    { t3 with mem := { t3.mem with log := t.mem.log } }, ?_, ⟨⟨rfl, hre.inv.setLog _, hx3⟩, hre.saved⟩, ?_, hre.cfg, rfl, hre.lay⟩
  · have b3 : (t3.toState e).bad = false := hre.inv.ok
    have hcl' : closeFile stamp d = some f := by rw [e4]; exact hcl
    simp only [reopen, hcl', hop, e2, e3, ← b3]
    rfl
  · show contents t3.lay.recs = t.view
    rw [hre.lay]; rfl

/-- `Synchronize` changes nothing but the metadata. -/
theorem synchronize_spec {d : Db} {t : LSt} (h : DbOk e d t) (hr : d.st.Room) {stamp : Nat} (hs : stamp < 2 ^ 64) :
    ∃ (d' : Db) (t' : LSt) (x : Extra) (num eff : Nat), synchronize stamp d = some d' ∧ DbOk e d' t' ∧ t' = { t with pre := t'.pre } ∧ x.Ok ∧ num < 2 ^ 63 ∧ eff < 2 ^ 63 ∧
      t'.pre = metaBytes x t.cfg false num eff (t.lay.end_ t.cfg) ∧ t.mem.num = num ∧ t.mem.eff = eff ∧ t.lay.end_ t.cfg < 2 ^ 63 := by
  obtain ⟨⟨hst, hi, hx⟩, hsv⟩ := h
  have hlen : d.st.file.length = t.lay.end_ t.cfg := by rw [hst]; exact toState_length hi
  have hend : t.lay.end_ t.cfg < 2 ^ 63 := by rw [← hlen]; exact hr.2
  obtain ⟨n, f, hn, hf, hnl, hfl⟩ := counted_le (c := t.cfg) hi.counted
  have hnum : n < 2 ^ 63 := by simp only [Lay.end_] at hend; omega
  have heff : f < 2 ^ 63 := by simp only [Lay.end_] at hend; omega
  have hxs : ({ d.extra.next.next with stamp := stamp } : Extra).Ok := by
    have := hx.next.next
    exact ⟨this.cyc, this.major, this.minor, this.version, hs, this.dbType, this.opaq⟩
  let pre1 := metaBytes { d.extra.next with stamp := stamp } t.cfg true n f (t.lay.end_ t.cfg)
  let pre2 := metaBytes { d.extra.next.next with stamp := stamp } t.cfg false n f (t.lay.end_ t.cfg)
  have hp1 : pre1.length = 128 := metaBytes_length _ _ _ _ _ _
  have hp2 : pre2.length = 128 := metaBytes_length _ _ _ _ _ _
  have hc : d.st.cfg = t.cfg := by rw [hst]; rfl
  have hm : d.st.mem = t.mem := by rw [hst]; rfl
  have hfi : d.st.file = render e t.cfg t.pre t.mid t.lay := by rw [hst]; rfl
  have h1 : copyFile stamp d = some (render e t.cfg pre1 t.mid t.lay) := by
    simp only [copyFile, hlen, hc, hm, hn, hf]
    rw [hfi]
    exact render_pre (by rw [hp1, hi.frame.pre]; rfl)
  have h2 : fwrite (render e t.cfg pre1 t.mid t.lay) 0 pre2 = some (render e t.cfg pre2 t.mid t.lay) :=
    render_pre (by rw [hp1, hp2])
  refine ⟨⟨{ d.st with file := render e t.cfg pre2 t.mid t.lay }, { d.extra.next.next with stamp := stamp }⟩, { t with pre := pre2 },
    { d.extra.next.next with stamp := stamp }, n, f, ?_, ⟨⟨?_, ?_, hxs⟩, ?_⟩, rfl, hxs, hnum, heff, rfl, hn, hf, hend⟩
  · simp only [synchronize, h1, hc, hm, hlen, hn, hf]
    rw [show metaBytes { d.extra.next.next with stamp := stamp } t.cfg false n f (t.lay.end_ t.cfg) = pre2 from rfl, h2]
  · show { d.st with file := render e t.cfg pre2 t.mid t.lay } = _
    rw [hst]; rfl
  · exact ⟨hi.ok, hi.cfg, ⟨hp2, hi.frame.mid⟩, hi.inv, hi.counted⟩
  · exact ⟨_, n, f, t.lay.recs, [], hxs, hnum, heff, hend, by simp, rfl⟩

/-! ### Histories -/

/-- SPECIFICATION: a call on a dictionary; closing and opening does nothing, nor does `Synchronize`. -/
def sstep (d : Dict) : SOp → Dict × Out
  | .call op => d.step op
  | .reopen _ _ => (d, .success, none)
  | .sync _ => (d, .success, none)

/-- SPECIFICATION: the size limits along a history, and admissible parameters for reopening. -/
def SFits (d : Dict) : SOp → Prop
  | .call op => OpFits hashFits d op
  | .reopen stamp cap => stamp < 2 ^ 64 ∧ 1 ≤ cap
  | .sync stamp => stamp < 2 ^ 64

def SRunFits : Dict → List SOp → Prop
  | _, [] => True
  | d, op :: ops => SFits d op ∧ SRunFits (sstep d op).1 ops

/-- The files along a history stay small enough for their offset width. -/
def StepRoom (e : Env) (tunes : Int → Tune) (d : Db) : SOp → Prop
  | .call (.rebuild n) => RebuildRoom e (tunes n) d.st.cfg.inPlace d.st.file.length (rebuildBegin d)
  | _ => True

def RunRoom (e : Env) (tunes : Int → Tune) : Db → List SOp → Prop
  | d, [] => d.st.Room
  | d, op :: ops => d.st.Room ∧ StepRoom e tunes d op ∧ RunRoom e tunes (step e tunes d op).1 ops

theorem dbProcess_ok {τ : Type} (he : EnvOk e) {d : Db} {t : LSt} (h : DbOk e d t) (hr : d.st.Room) (k : Bytes) (w : Bool) (p : ProcR τ)
    (hf : ActFits hashFits k (p (t.view k)).1) :
    DbOk e ((dbImpl e).process d k w p).1 (processL e t k w p).1 ∧ ((dbImpl e).process d k w p).2 = (processL e t k w p).2 ∧
      ((dbImpl e).process d k w p).1.extra = d.extra := by
  obtain ⟨⟨hst, hi, hx⟩, hsv⟩ := h
  have := process_sim he hi (by rw [← hst]; exact hr) k w p hf
  simp only [dbImpl]
  rw [hst, this]
  exact ⟨⟨⟨rfl, (processL_spec he hi k w p hf).2.inv, hx⟩, (processL_spec he hi k w p hf).2.saved hsv⟩, rfl, trivial⟩

/-- What one call does: the outcome is that of the dictionary, and the log leads from the old contents to the new ones. -/
theorem step_spec (he : EnvOk e) {tunes : Int → Tune} (ht : ∀ n, (tunes n).Ok) {d : Db} {t : LSt} (h : DbOk e d t) (hr : d.st.Room)
    (op : SOp) (hf : SFits t.view op) (hroom : StepRoom e tunes d op) :
    ∃ t', DbOk e (step e tunes d op).1 t' ∧ (t'.view, (step e tunes d op).2) = sstep t.view op ∧
      ∃ l, t'.mem.log = t.mem.log ++ l ∧ t.view.replay l = t'.view := by
  have P : ∀ {τ : Type} (k : Bytes) (w : Bool) (p : ProcR τ), ActFits hashFits k (p (t.view k)).1 →
      DbOk e ((dbImpl e).process d k w p).1 (processL e t k w p).1 ∧
      ((processL e t k w p).1.view, ((dbImpl e).process d k w p).2) = t.view.process k w p ∧
      ∃ l, (processL e t k w p).1.mem.log = t.mem.log ++ l ∧ t.view.replay l = (processL e t k w p).1.view := by
    intro τ k w p hp
    have h1 := dbProcess_ok he h hr k w p hp
    have h2 := processL_spec he h.inv k w p hp
    refine ⟨h1.1, ?_, h2.2.log⟩
    rw [h1.2.1, h2.1, h2.2.view]
    rfl
  cases op with
  | reopen stamp cap =>
    obtain ⟨d', t', h1, h2, h3, _, h5, _⟩ := reopen_spec h hr hf.1 hf.2
    refine ⟨t', ?_, ?_, [], by simpa using h5, by rw [h3]; rfl⟩
    · simp only [step, h1, Option.getD_some]; exact h2
    · simp only [step, sstep, h3]
  | sync stamp =>
    obtain ⟨d', t', _, _, _, h1, h2, h3, _⟩ := synchronize_spec h hr hf
    have hv : t'.view = t.view := by rw [h3]; rfl
    refine ⟨t', ?_, ?_, [], by rw [h3]; simp, by rw [hv]; rfl⟩
    · simp only [step, h1, Option.getD_some]; exact h2
    · simp only [step, sstep, hv]
  | call op =>
    cases op with
    | get k =>
      obtain ⟨h1, h2, h3⟩ := P k false Api.getProc (by cases h : t.view k <;> simp [Api.getProc, ActFits])
      refine ⟨_, h1, ?_, h3⟩
      refine h2.trans ?_
      simp only [sstep, Dict.step, Dict.process]
      cases t.view k <;> rfl
    | set k v ow =>
      obtain ⟨h1, h2, h3⟩ := P k true (Api.setProc v ow) (by
        cases h : t.view k <;> cases ow <;> simp [Api.setProc, ActFits] <;> exact hf)
      refine ⟨_, h1, ?_, h3⟩
      refine h2.trans ?_
      simp only [sstep, Dict.step, Dict.process]
      cases t.view k <;> cases ow <;> simp [Api.setProc, Dict.act]
    | remove k =>
      obtain ⟨h1, h2, h3⟩ := P k true Api.removeProc (by cases h : t.view k <;> simp [Api.removeProc, ActFits])
      refine ⟨_, h1, ?_, h3⟩
      refine h2.trans ?_
      simp only [sstep, Dict.step, Dict.process]
      cases hv : t.view k
      · simp only [Api.removeProc, Dict.act, if_true]
        rw [← hv, Dict.upd_same, hv]
        rfl
      · simp [Api.removeProc, Dict.act]
    | append k v dl =>
      obtain ⟨h1, h2, h3⟩ := P k true (Api.appendProc v dl) (by
        have hf' := hf
        simp only [SFits, OpFits] at hf'
        cases h : t.view k <;> simp [Api.appendProc, ActFits] <;> rw [h] at hf' <;> simpa [Api.appended] using hf')
      refine ⟨_, h1, ?_, h3⟩
      have hv := congrArg Prod.fst h2
      simp only at hv
      simp only [step, apiStep, sstep, Dict.step, hv, Prod.mk.injEq, and_true]
      simp only [Dict.process]
      cases t.view k <;> simp [Api.appendProc, Dict.act, Api.appended]
    | process k w p =>
      obtain ⟨h1, h2, h3⟩ := P k w p hf
      refine ⟨_, h1, ?_, h3⟩
      simp only [step, apiStep, sstep, Dict.step]
      rw [← h2]
    | clear =>
      obtain ⟨d', t', h1, h2, h3, _, h5⟩ := clear_spec h
      refine ⟨t', ?_, ?_, [.clear], h5, ?_⟩
      · simp only [step, apiStep, h1, Option.getD_some]; exact h2
      · simp only [step, apiStep, sstep, Dict.step, h3]
      · rw [h3]; rfl
    | rebuild n =>
      obtain ⟨d', t', h1, h2, h3, _, h5⟩ := rebuild_spec he h hr (ht n) hroom
      refine ⟨t', ?_, ?_, [], by simpa using h5, by rw [h3]; rfl⟩
      · simp only [step, apiStep, h1, Option.getD_some]; exact h2
      · simp only [step, apiStep, sstep, Dict.step, h3]

theorem run_spec (he : EnvOk e) {tunes : Int → Tune} (ht : ∀ n, (tunes n).Ok) (ops : List SOp) : ∀ {d : Db} {t : LSt},
    DbOk e d t → RunRoom e tunes d ops → SRunFits t.view ops →
    ∃ t', DbOk e (run (step e tunes) d ops).1 t' ∧ (t'.view, (run (step e tunes) d ops).2) = run sstep t.view ops ∧
      (run (step e tunes) d ops).1.st.Room ∧ ∃ l, t'.mem.log = t.mem.log ++ l ∧ t.view.replay l = t'.view := by
  induction ops with
  | nil => intro d t h hr _; exact ⟨t, h, rfl, hr, [], by simp, rfl⟩
  | cons op ops ih =>
    intro d t h hr hf
    obtain ⟨t1, h1, h2, l1, h3, h4⟩ := step_spec he ht h hr.1 op hf.1 hr.2.1
    have ev : t1.view = (sstep t.view op).1 := by rw [← h2]
    have eo : (step e tunes d op).2 = (sstep t.view op).2 := by rw [← h2]
    obtain ⟨t2, g1, g2, g3, l2, g4, g5⟩ := ih h1 hr.2.2 (by rw [ev]; exact hf.2)
    refine ⟨t2, g1, ?_, g3, l1 ++ l2, by rw [g4, h3, List.append_assoc], ?_⟩
    · simp only [run]
      have ev2 : t2.view = (run sstep t1.view ops).1 := by rw [← g2]
      have eo2 : (run (step e tunes) (step e tunes d op).1 ops).2 = (run sstep t1.view ops).2 := by rw [← g2]
      rw [ev2, eo2, eo, ev]
    · simp only [Dict.replay, List.foldl_append] at h4 g5 ⊢
      rw [h4, g5]

end Verif.Hash
