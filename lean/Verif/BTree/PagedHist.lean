import Verif.BTree.PagedSteps

/-!
# Histories of a TreeDBM with pages

Lemmas: reorganisation, metadata, `Synchronize`, `Close` with `Open`, a new file, `Clear`, calls, and histories of all of them.  The property theorems are in `PageProps`.
-/

namespace Verif.BTree

variable {E : Env}

/-- The tuning parameters, but for the opaque data, are the same. -/
structure Tuned (P Q : Paged) : Prop where
  maxPage : Q.maxPage = P.maxPage
  branch : Q.branch = P.branch
  comp : Q.comp = P.comp

theorem Tuned.refl (P : Paged) : Tuned P P := ⟨rfl, rfl, rfl⟩

theorem Tuned.trans {P Q R : Paged} (h1 : Tuned P Q) (h2 : Tuned Q R) : Tuned P R :=
  ⟨h2.maxPage.trans h1.maxPage, h2.branch.trans h1.branch, h2.comp.trans h1.comp⟩

theorem Kept.tuned {P Q : Paged} (h : Kept P Q) : Tuned P Q := by obtain ⟨a, b, c, rfl⟩ := h; exact ⟨rfl, rfl, rfl⟩

theorem Tuned.cfg {P Q : Paged} (h : Tuned P Q) : Q.cfg E = P.cfg E := by unfold Paged.cfg; rw [h.maxPage, h.branch, h.comp]

/-! ### Reorganisation -/

theorem reorg_spec {P : Paged} {L : Layer} {t : OMap.St} (h : PInv E P L t) :
    P.reorg E = .error .overflow ∨ ∃ Q L', P.reorg E = .ok Q ∧ PInv E Q L' t ∧ Tuned P Q ∧ Q.regs.lastOk = P.regs.lastOk := by
  unfold Paged.reorg
  obtain ⟨s, L', h1, h2⟩ := reorgIf_sim h.ok h.sim true
  rw [h1]
  simp only
  have hf := reorgIf_frame h1
  cases hi : idsFit s with
  | false => exact Or.inl rfl
  | true => exact Or.inr ⟨_, L', rfl, settle_spec h hf hi h2 _ _, ⟨rfl, rfl, rfl⟩, hf.lastOk⟩

/-! ### Metadata -/

theorem dataSize_nonneg (l : List Rec) : 0 ≤ dataSize l := by
  induction l with
  | nil => exact Int.le_refl 0
  | cons r l ih => rw [dataSize_cons]; omega

/-- What `SaveMetadata` asks for. -/
structure Small (P : Paged) : Prop where
  count : 0 ≤ P.regs.count ∧ P.regs.count < 2 ^ 48
  eff : 0 ≤ P.regs.eff ∧ P.regs.eff < 2 ^ 48
  level : P.regs.level < 2 ^ 8

theorem saveMetadata_spec {P : Paged} {L : Layer} {t : OMap.St} (h : PInv E P L t) :
    P.saveMetadata = .error .overflow ∨ P.saveMetadata = .ok { P with metaData := saveMeta P.meta } ∧ Small P := by
  obtain ⟨h1, h2⟩ := h.sim.inv.count
  have hc : 0 ≤ P.regs.count := by
    have : P.regs.count = _ := h1
    omega
  have he : 0 ≤ P.regs.eff := by
    have : P.regs.eff = _ := h2
    rw [this]
    exact dataSize_nonneg _
  unfold Paged.saveMetadata
  rw [if_neg (by omega)]
  split
  · rename_i hs
    exact Or.inr ⟨rfl, ⟨hc, hs.1⟩, ⟨he, hs.2.1⟩, hs.2.2⟩
  · exact Or.inl rfl

theorem PInv.meta_changed {P : Paged} {L : Layer} {t : OMap.St} (h : PInv E P L t) (b : Bytes) : PInv E { P with metaData := b } L t :=
  ⟨h.sim, h.fine, h.leafIds, h.innerIds, h.numLeaf, h.numInner, h.cleanLeaf, h.cleanInner, h.newLeaf, h.newInner, h.order, h.page, h.branch, h.comp⟩

/-- The root is a leaf or an inner node of the tree. -/
theorem root_range {P : Paged} {L : Layer} {t : OMap.St} (h : PInv E P L t) : P.regs.root < 2 ^ 48 := by
  obtain ⟨ups, hu⟩ := h.sim.inv.upper
  have hs := hu.shape
  have aux : ∀ (ups : List Layer) (L : Layer), Shape P.view.inners P.view.root ups L → ups ≠ [] → ∃ n, P.view.inners P.view.root = some n := by
    intro ups
    induction ups with
    | nil => intro L _ h; exact absurd rfl h
    | cons U ups ih =>
      intro L h _
      obtain ⟨k1, _, k3⟩ := h
      cases ups with
      | nil =>
        have k3' : U = [(none, P.view.root)] := k3
        obtain ⟨n, hn⟩ := k1 (none, P.view.root) (by rw [k3']; simp)
        exact ⟨n, hn⟩
      | cons V ups => exact ih U k3 (by simp)
  by_cases hx : ups = []
  · rw [hx] at hs
    have hs' : L = [(none, P.view.root)] := hs
    obtain ⟨l, hl, _⟩ := linked_mem h.sim.inv.lower.linked (none, P.view.root) (by rw [hs']; simp)
    exact Nat.lt_trans (Paged.leafAt_range (P := P) hl).2 innerIdBase_lt
  · obtain ⟨n, hn⟩ := aux ups L hs hx
    exact (Paged.innerAt_range (P := P) hn).2

theorem first_range {P : Paged} {L : Layer} {t : OMap.St} (h : PInv E P L t) : 1 ≤ P.regs.first ∧ P.regs.first < P.regs.numLeaf := by
  have h1 := h.sim.inv.lower.first
  have h2 := h.sim.inv.lower.linked
  cases L with
  | nil => cases h1
  | cons e L =>
    have h3 : e.2 = P.regs.first := Option.some.inj h1
    obtain ⟨l, hl, _⟩ := linked_mem h2 e (by simp)
    have h4 := (h.fine.leaves e.2 l hl).id
    rw [h3] at h4
    exact h4

/-- The metadata that were saved are accepted. -/
theorem loadMeta_spec {P : Paged} {L : Layer} {t : OMap.St} (h : PInv E P L t) (hs : Small P) :
    loadMeta true (saveMeta P.meta) = some { P.meta with
      last := P.regs.first, opaqueData := P.miniOpaque.take 10 ++ List.replicate (10 - (P.miniOpaque.take 10).length) 0 } := by
  have hb := innerIdBase_lt
  have h0 := h.numLeaf
  have h1 := h.numInner
  have h2 := first_range h
  have h3 := h.page
  have h4 := h.branch
  have h5 := hs.count
  have h6 := hs.eff
  have hcomp : P.comp < 2 ^ 8 ∧ (compTypes.contains P.comp || (P.comp == 255 && true)) = true := by
    rcases h.comp with hc | hc
    · exact ⟨(by revert hc; unfold compTypes; simp only [List.mem_cons, List.not_mem_nil, or_false]; omega), by rw [List.contains_iff_mem.2 hc]; rfl⟩
    · rw [hc]; decide
  obtain ⟨ups, hu⟩ := h.sim.inv.upper
  have hlv : P.regs.level = ups.length + 1 := hu.level
  unfold loadMeta
  rw [meta_roundtrip (m := P.meta) (by simp only [Paged.meta]; omega) (by simp only [Paged.meta]; omega) (root_range h) (by simp only [Paged.meta]; omega)
    (by simp only [Paged.meta]; omega) (by simp only [Paged.meta]; omega) h3.2 h4.2 hs.level hcomp.1]
  simp only [Option.bind_eq_bind, Option.bind_some, Paged.meta]
  rw [if_neg (by unfold leafIdBase; omega), if_neg (by omega), if_neg (by omega), if_neg (by omega), if_pos hcomp.2]

/-- `Open` after everything was saved: the records are there; the iterators are gone; the last leaf is right only if there is one leaf. -/
theorem openFile_spec {P : Paged} {L : Layer} {t : OMap.St} (h : PInv E P L t) (hs : Small P) (hl : ∀ i, P.leafCache i = none) (hi : ∀ i, P.innerCache i = none)
    (log : List LogOp) (ub : Bool) :
    ∃ Q, openFile P.disk (saveMeta P.meta) log ub = .ok Q ∧ PInv E Q L ⟨t.recs, fun _ => none, log⟩ ∧ Tuned P Q ∧ (Q.regs.lastOk = true ↔ P.regs.level = 1) := by
  unfold openFile
  rw [loadMeta_spec h hs]
  refine ⟨_, rfl, ?_, ⟨rfl, rfl, rfl⟩, by simp [Paged.meta]⟩
  obtain ⟨ups, hu⟩ := h.sim.inv.upper
  have hview : ∀ i, P.leafAt i = if leafIdBase ≤ i ∧ i < innerIdBase then P.diskLeaf i else none := by
    intro i
    by_cases hr : leafIdBase ≤ i ∧ i < innerIdBase
    · rw [if_pos hr, Paged.leafAt_disk (hl i) hr]
    · rw [if_neg hr, Paged.leafAt_out hr]
  have hviewi : ∀ i, P.innerAt i = if innerIdBase ≤ i ∧ i < 2 ^ 48 then P.diskInner i else none := by
    intro i
    by_cases hr : innerIdBase ≤ i ∧ i < 2 ^ 48
    · rw [if_pos hr, Paged.innerAt_disk (hi i) hr]
    · rw [if_neg hr, Paged.innerAt_out hr]
  have hn1 : P.regs.numLeaf - leafIdBase + leafIdBase = P.regs.numLeaf := by
    have := h.fine.pos
    have : 1 ≤ P.regs.numLeaf := this
    unfold leafIdBase
    omega
  have hn2 : P.regs.numInner - innerIdBase + innerIdBase = P.regs.numInner := by have := h.numInner; omega
  have hcount : ((P.regs.count.toNat : Nat) : Int) = P.regs.count := Int.toNat_of_nonneg hs.count.1
  have heff : ((P.regs.eff.toNat : Nat) : Int) = P.regs.eff := Int.toNat_of_nonneg hs.eff.1
  have hok : (P.regs.level == 1) = true → lastId L none = some P.regs.first := by
    intro hx
    have hx' : P.regs.level = 1 := by simpa using hx
    have hlv : P.regs.level = ups.length + 1 := hu.level
    have hnil : ups = [] := List.length_eq_zero_iff.1 (by omega)
    have hsh := hu.shape
    rw [hnil] at hsh
    have hsh' : L = [(none, P.view.root)] := hsh
    have hfi := h.sim.inv.lower.first
    rw [hsh'] at hfi ⊢
    exact hfi
  obtain ⟨k1, k2⟩ := h.sim.reopened hu P.regs.first (P.regs.level == 1) hok
  have hfine := h.fine
  have hm := k1.inv
  have hlo := hm.lower
  generalize hQ : ({ leafCache := fun _ => none, innerCache := fun _ => none, disk := P.disk, metaData := saveMeta P.meta, regs := _, maxPage := _, branch := _, comp := _, miniOpaque := _ } : Paged) = Q
  have hla : Q.leafAt = P.leafAt := by
    funext i
    rw [hview i]
    subst hQ
    by_cases hr : leafIdBase ≤ i ∧ i < innerIdBase
    · rw [if_pos hr, Paged.leafAt_disk rfl hr]; rfl
    · rw [if_neg hr, Paged.leafAt_out hr]
  have hia : Q.innerAt = P.innerAt := by
    funext i
    rw [hviewi i]
    subst hQ
    by_cases hr : innerIdBase ≤ i ∧ i < 2 ^ 48
    · rw [if_pos hr, Paged.innerAt_disk rfl hr]; rfl
    · rw [if_neg hr, Paged.innerAt_out hr]
  have hQv : Q.view = { P.view with reorg := [], iters := fun _ => Iter.clear, last := P.regs.first, lastOk := P.regs.level == 1, log := log, ub := ub } := by
    unfold Paged.view
    rw [hla, hia]
    subst hQ
    simp only [Paged.meta, hn1, hn2, hcount, heff]
  have hcfg : Q.cfg E = P.cfg E := by subst hQ; rfl
  refine ⟨?_, ?_, ?_, ?_, ?_, ?_, ?_, ?_, ?_, ?_, ?_, ?_, ?_, ?_⟩
  · rw [hcfg, hQv]
    exact ⟨⟨⟨ups, ⟨k2.shape, k2.level, k2.nodup, k2.fresh⟩⟩, ⟨hlo.seps, hlo.nodup, hlo.fresh, hlo.linked, hlo.first, hlo.last, hlo.leaf, hlo.iters⟩, hm.reorg, hm.count⟩, k1.recs,
      fun _ => rfl, rfl⟩
  · rw [hcfg, hQv]
    exact ⟨hfine.leaves, hfine.inners, hfine.pos⟩
  · intro i n hn; subst hQ; cases hn
  · intro i n hn; subst hQ; cases hn
  · subst hQ; simp only [Paged.meta, hn1]; exact h.numLeaf
  · subst hQ; simp only [Paged.meta, hn2]; exact h.numInner
  · intro i n hn; subst hQ; cases hn
  · intro i n hn; subst hQ; cases hn
  · intro i n hn; subst hQ; cases hn
  · intro i n hn; subst hQ; cases hn
  · subst hQ; exact h.order
  · subst hQ; exact h.page
  · subst hQ; exact h.branch
  · subst hQ; exact h.comp

/-! ### `Synchronize`, and `Close` with `Open` -/

theorem synchronize_spec {P : Paged} {L : Layer} {t : OMap.St} (h : PInv E P L t) :
    P.synchronize E = .error .overflow ∨ ∃ Q L', P.synchronize E = .ok Q ∧ PInv E Q L' t ∧ Tuned P Q ∧ Q.regs.lastOk = P.regs.lastOk ∧ Small Q ∧ Q.metaData = saveMeta Q.meta ∧
      (∀ i, Q.leafCache i = none) ∧ ∀ i, Q.innerCache i = none := by
  unfold Paged.synchronize
  rcases flush_spec h with h1 | ⟨P1, h1, h2, h3, _, _⟩
  · rw [h1]; exact Or.inl rfl
  rw [h1]
  simp only
  rcases reorg_spec h2 with k1 | ⟨P2, L', k1, k2, k3, k4⟩
  · rw [k1]; exact Or.inl rfl
  rw [k1]
  simp only
  rcases flush_spec k2 with j1 | ⟨P3, j1, j2, j3, j4, j5⟩
  · rw [j1]; exact Or.inl rfl
  rw [j1]
  simp only
  rcases saveMetadata_spec j2 with m1 | ⟨m1, m2⟩
  · exact Or.inl m1
  · rw [m1]
    refine Or.inr ⟨_, L', rfl, j2.meta_changed _, ?_, ?_, ⟨m2.count, m2.eff, m2.level⟩, rfl, j4, j5⟩
    · exact ((h3.tuned.trans k3).trans j3.tuned).trans ⟨rfl, rfl, rfl⟩
    · show P3.regs.lastOk = _
      rw [j3.regs, k4, h3.regs]

theorem PInv.itersCleared {P : Paged} {L : Layer} {t : OMap.St} (h : PInv E P L t) :
    PInv E { P with regs := { P.regs with iters := fun _ => Iter.clear } } L ⟨t.recs, fun _ => none, t.log⟩ := by
  obtain ⟨ups, hu⟩ := h.sim.inv.upper
  have hlo := h.sim.inv.lower
  exact ⟨⟨⟨⟨ups, hu.shape, hu.level, hu.nodup, hu.fresh⟩, ⟨hlo.seps, hlo.nodup, hlo.fresh, hlo.linked, hlo.first, hlo.last, hlo.leaf, fun i d hd => (by cases hd)⟩, h.sim.inv.reorg,
    h.sim.inv.count⟩, h.sim.recs, fun _ => rfl, h.sim.log⟩, ⟨h.fine.leaves, h.fine.inners, h.fine.pos⟩, h.leafIds, h.innerIds, h.numLeaf, h.numInner, h.cleanLeaf, h.cleanInner,
    h.newLeaf, h.newInner, h.order, h.page, h.branch, h.comp⟩

theorem close_spec {P : Paged} {L : Layer} {t : OMap.St} (h : PInv E P L t) :
    P.close E = .error .overflow ∨ ∃ Q L', P.close E = .ok Q ∧ PInv E Q L' ⟨t.recs, fun _ => none, t.log⟩ ∧ Tuned P Q ∧ Small Q ∧ Q.metaData = saveMeta Q.meta ∧
      (∀ i, Q.leafCache i = none) ∧ ∀ i, Q.innerCache i = none := by
  unfold Paged.close
  rcases reorg_spec h.itersCleared with k1 | ⟨P2, L', k1, k2, k3, _⟩
  · rw [k1]; exact Or.inl rfl
  rw [k1]
  simp only
  rcases flush_spec k2 with j1 | ⟨P3, j1, j2, j3, j4, j5⟩
  · rw [j1]; exact Or.inl rfl
  rw [j1]
  simp only
  rcases saveMetadata_spec j2 with m1 | ⟨m1, m2⟩
  · exact Or.inl m1
  · rw [m1]
    refine Or.inr ⟨_, L', rfl, j2.meta_changed _, ?_, ⟨m2.count, m2.eff, m2.level⟩, rfl, j4, j5⟩
    have k3' : Tuned P P2 := ⟨k3.maxPage, k3.branch, k3.comp⟩
    exact (k3'.trans j3.tuned).trans ⟨rfl, rfl, rfl⟩

theorem reopen_spec {P : Paged} {L : Layer} {t : OMap.St} (h : PInv E P L t) :
    P.reopen E = .error .overflow ∨ ∃ Q L', P.reopen E = .ok Q ∧ PInv E Q L' ⟨t.recs, fun _ => none, t.log⟩ ∧ Tuned P Q := by
  unfold Paged.reopen
  rcases close_spec h with k1 | ⟨Q, L', k1, k2, k3, k4, k5, k6, k7⟩
  · rw [k1]; exact Or.inl rfl
  · rw [k1]
    simp only
    obtain ⟨R, r1, r2, r3, _⟩ := openFile_spec k2 k4 k6 k7 Q.regs.log Q.regs.ub
    rw [k5, r1]
    have hlog : Q.regs.log = t.log := k2.sim.log
    refine Or.inr ⟨R, L', rfl, ?_, k3.trans r3⟩
    rw [hlog] at r2
    exact r2

/-! ### A new file, and `Clear` -/

/-- Good tuning parameters. -/
structure Params (E : Env) (maxPage branch comp : Nat) : Prop where
  order : StrictWeak (E.order comp)
  page : 1 ≤ maxPage ∧ maxPage < 2 ^ 24
  branch : 2 ≤ branch ∧ branch < 2 ^ 24
  comp : comp ∈ compTypes ∨ comp = 255

theorem blank_inv {maxPage branch comp : Nat} (hp : Params E maxPage branch comp) (o : Bytes) (lg : List LogOp) (ub : Bool) :
    PInv E { blank E maxPage branch comp o with regs := { (blank E maxPage branch comp o).regs with log := lg, ub := ub } }
      [(none, leafIdBase)] ⟨[], fun _ => none, lg⟩ := by
  have hinv := init_inv (treeCfg (E.order comp) maxPage branch E.pick) lg ub
  have hlt : leafIdBase ≤ leafIdBase ∧ leafIdBase < innerIdBase := by unfold leafIdBase innerIdBase; omega
  generalize hQ : ({ blank E maxPage branch comp o with regs := { (blank E maxPage branch comp o).regs with log := lg, ub := ub } } : Paged) = Q
  have hla : Q.leafAt = upd (fun _ => none) leafIdBase (some ((treeCfg (E.order comp) maxPage branch E.pick).newLeaf none none)) := by
    funext i
    subst hQ
    by_cases hi : i = leafIdBase
    · subst hi
      rw [Paged.leafAt_cached (n := ⟨(treeCfg (E.order comp) maxPage branch E.pick).newLeaf none none, false⟩) (by simp [blank, upd]) hlt]
      simp [upd]
    · by_cases hr : leafIdBase ≤ i ∧ i < innerIdBase
      · rw [Paged.leafAt_disk (by simp [blank, upd, hi]) hr]
        simp only [upd, if_neg hi]
        rfl
      · rw [Paged.leafAt_out hr]
        simp only [upd, if_neg hi]
  have hia : Q.innerAt = fun _ => none := by
    funext i
    subst hQ
    by_cases hr : innerIdBase ≤ i ∧ i < 2 ^ 48
    · rw [Paged.innerAt_disk rfl hr]; rfl
    · rw [Paged.innerAt_out hr]
  have hview : Q.view = { init (treeCfg (E.order comp) maxPage branch E.pick) with log := lg, ub := ub } := by
    unfold Paged.view
    rw [hla, hia]
    subst hQ
    rfl
  have hcfg : Q.cfg E = treeCfg (E.order comp) maxPage branch E.pick := by subst hQ; rfl
  have hsub : ∀ i n, Q.leafCache i = some n → i = leafIdBase ∧ n = ⟨(treeCfg (E.order comp) maxPage branch E.pick).newLeaf none none, false⟩ := by
    intro i n hn
    subst hQ
    by_cases hi : i = leafIdBase
    · subst hi
      simp only [blank, upd, if_true, Option.some.injEq] at hn
      exact ⟨rfl, hn.symm⟩
    · simp [blank, upd, hi] at hn
  refine ⟨?_, ?_, ?_, ?_, ?_, ?_, ?_, ?_, ?_, ?_, ?_, ?_, ?_, ?_⟩
  · rw [hcfg, hview]
    exact ⟨hinv.1, hinv.2, fun _ => rfl, rfl⟩
  · rw [hcfg, hview]
    refine ⟨fun i l hl => ?_, fun i n hn => (by cases hn), by show 1 ≤ leafIdBase + 1; omega⟩
    simp only [init, upd] at hl
    split at hl
    · rename_i hi
      cases hl
      refine ⟨rfl, ?_, fun j hj => (by cases hj), fun j hj => (by cases hj)⟩
      rw [hi]
      show 1 ≤ leafIdBase ∧ leafIdBase < leafIdBase + 1
      unfold leafIdBase
      omega
    · cases hl
  · intro i n hn; obtain ⟨rfl, _⟩ := hsub i n hn; exact hlt
  · intro i n hn; subst hQ; cases hn
  · subst hQ; show leafIdBase + 1 ≤ innerIdBase; unfold leafIdBase innerIdBase; omega
  · subst hQ; show innerIdBase ≤ innerIdBase ∧ innerIdBase ≤ 2 ^ 48; unfold innerIdBase; omega
  · intro i n hn hd; obtain ⟨_, rfl⟩ := hsub i n hn; cases hd
  · intro i n hn; subst hQ; cases hn
  · intro i n hn _; subst hQ; rfl
  · intro i n hn; subst hQ; cases hn
  · subst hQ; exact hp.order
  · subst hQ; exact hp.page
  · subst hQ; exact hp.branch
  · subst hQ; exact hp.comp

/-- A new file is an empty database. -/
theorem create_spec {maxPage branch comp : Nat} (hp : Params E maxPage branch comp) (o : Bytes) :
    ∃ P, create E maxPage branch comp o = .ok P ∧ PInv E P [(none, leafIdBase)] OMap.St.empty ∧ P.regs.lastOk = true ∧ P.maxPage = maxPage ∧ P.branch = branch ∧ P.comp = comp := by
  have h := blank_inv hp o [] false
  have h : PInv E (blank E maxPage branch comp o) [(none, leafIdBase)] OMap.St.empty := h
  unfold create
  rcases flush_spec h with h1 | ⟨P1, h1, h2, h3, h4, h5⟩
  · exfalso
    have hl : List.range' leafIdBase ((blank E maxPage branch comp o).regs.numLeaf - leafIdBase) = [1] := rfl
    have hi : List.range' innerIdBase ((blank E maxPage branch comp o).regs.numInner - innerIdBase) = [] := by
      show List.range' innerIdBase (innerIdBase - innerIdBase) = []
      rw [Nat.sub_self]; rfl
    unfold Paged.flush at h1
    rw [hl, hi] at h1
    have hc : (blank E maxPage branch comp o).leafCache 1 = some ⟨(treeCfg (E.order comp) maxPage branch E.pick).newLeaf none none, false⟩ := by simp [blank, upd, leafIdBase]
    obtain ⟨k1, _⟩ := h.leaf_page (Paged.leafAt_cached hc (h.leafIds _ _ hc)) (by simp [treeCfg, Cfg.newLeaf])
    have hd : ((treeCfg (E.order comp) maxPage branch E.pick).newLeaf none none).dirty = true := rfl
    simp [evictAll, Paged.evictLeaf, Paged.saveLeaf, hc, hd, k1, Except.map] at h1
  · rw [h1]
    simp only
    have hr : P1.regs = init (treeCfg (E.order comp) maxPage branch E.pick) := h3.regs
    rcases saveMetadata_spec h2 with m1 | ⟨m1, m2⟩
    · exfalso
      unfold Paged.saveMetadata at m1
      simp [hr, init] at m1
    · rw [m1]
      simp only
      obtain ⟨Q, q1, q2, q3, q4⟩ := openFile_spec h2 m2 h4 h5 [] false
      exact ⟨Q, q1, q2, q4.2 (by rw [hr]; rfl), (h3.tuned.trans q3).maxPage, (h3.tuned.trans q3).branch, (h3.tuned.trans q3).comp⟩

theorem PInv.params {P : Paged} {L : Layer} {t : OMap.St} (h : PInv E P L t) : Params E P.maxPage P.branch P.comp := ⟨h.order, h.page, h.branch, h.comp⟩

theorem clear_spec {P : Paged} {L : Layer} {t : OMap.St} (h : PInv E P L t) :
    ∃ Q, P.clear E = .ok Q ∧ PInv E Q [(none, leafIdBase)] ⟨[], fun _ => none, t.log ++ [.clear]⟩ ∧ Tuned P Q ∧ Q.regs.lastOk = true := by
  have hb := blank_inv h.params P.miniOpaque (P.regs.log ++ [.clear]) P.regs.ub
  have hlog : P.regs.log = t.log := h.sim.log
  unfold Paged.clear
  rcases saveMetadata_spec hb with m1 | ⟨m1, _⟩
  · exfalso
    unfold Paged.saveMetadata at m1
    simp [blank, init] at m1
  · refine ⟨_, m1, ?_, ⟨rfl, rfl, rfl⟩, rfl⟩
    rw [← hlog]
    exact hb.meta_changed _

/-! ### Histories -/

/-- SPECIFICATION of a history of calls with pages: saving nodes, dropping nodes from the cache and `Synchronize` change nothing the user sees; `Close` and `Open` only clear the
iterators. -/
def PHistory {ω : Type} (lt : Bytes → Bytes → Bool) (fw : Bool) : OMap.St → List (Event ω × Option (OMap.Out ω)) → OMap.St → Prop
  | t, [], t' => t' = t
  | t, (.call x _ _, o) :: l, t' => ∃ r u, o = some r ∧ OMap.Allowed lt fw t x r u ∧ PHistory lt fw u l t'
  | t, (.reopen, _) :: l, t' => PHistory lt fw { t with iters := fun _ => none } l t'
  | t, (.saveLeaf _, _) :: l, t' => PHistory lt fw t l t'
  | t, (.saveInner _, _) :: l, t' => PHistory lt fw t l t'
  | t, (.evictLeaf _, _) :: l, t' => PHistory lt fw t l t'
  | t, (.evictInner _, _) :: l, t' => PHistory lt fw t l t'
  | t, (.synchronize, _) :: l, t' => PHistory lt fw t l t'

/-- SPECIFICATION: no `Last` and no `JumpLower` between a `Close` with `Open` and the next `Clear`. -/
def lastSafe {ω : Type} : Bool → List (Event ω) → Bool
  | _, [] => true
  | b, .call x _ _ :: l => if isClear x then lastSafe true l else (b || !usesLast x) && lastSafe b l
  | _, .reopen :: l => lastSafe false l
  | b, _ :: l => lastSafe b l

/-- Every event but one that would use the wrong last leaf. -/
theorem step_spec {ω : Type} {P : Paged} {L : Layer} {t : OMap.St} (h : PInv E P L t) (e : Event ω) (l : List (Event ω)) (b : Bool) (hb : b = true → P.regs.lastOk = true)
    (hs : lastSafe b (e :: l) = true) :
    P.step E e = .error .overflow ∨ ∃ Q o L' t' b', P.step E e = .ok (Q, o) ∧ PInv E Q L' t' ∧ Tuned P Q ∧ (b' = true → Q.regs.lastOk = true) ∧ lastSafe b' l = true ∧
      ∀ rest t'', PHistory (E.order P.comp) false t' rest t'' → PHistory (E.order P.comp) false t ((e, o) :: rest) t'' := by
  cases e with
  | call x tl ti =>
    simp only [Paged.step, Paged.doCall]
    cases hx : isClear x with
    | true =>
      obtain ⟨Q, h1, h2, h3, h4⟩ := clear_spec h
      simp only [if_true, h1, Except.map]
      simp only [lastSafe, hx, if_true] at hs
      refine Or.inr ⟨Q, _, _, _, true, rfl, h2, h3, fun _ => h4, hs, fun rest t'' hr => ?_⟩
      refine ⟨_, _, rfl, ?_, hr⟩
      cases x <;> cases hx
      exact Or.inl rfl
    | false =>
      simp only [lastSafe, hx, Bool.false_eq_true, if_false, Bool.and_eq_true] at hs
      obtain ⟨s', o, L', t', h1, h2, h3⟩ := call_sim h.ok false h.sim x fun hu => by
        rw [hu] at hs
        exact hb (by simpa using hs.1)
      simp only [Bool.false_eq_true, if_false, h1]
      have hf := call_frame h1 hx
      cases hi : idsFit s' with
      | false => exact Or.inl rfl
      | true =>
        simp only [if_true]
        refine Or.inr ⟨_, _, L', t', b, rfl, settle_spec h hf hi h3 tl ti, ⟨rfl, rfl, rfl⟩, fun hb' => hf.lastOk.trans (hb hb'), hs.2, fun rest t'' hr => ?_⟩
        exact ⟨o, t', rfl, h2, hr⟩
  | saveLeaf i =>
    simp only [Paged.step]
    rcases saveLeaf_spec h i with h1 | ⟨Q, h1, h2⟩
    · rw [h1]; exact Or.inl rfl
    · rw [h1]; exact Or.inr ⟨Q, none, L, t, b, rfl, h2.inv, h2.kept.tuned, fun hb' => by rw [h2.kept.regs]; exact hb hb', hs, fun rest t'' hr => hr⟩
  | saveInner i =>
    simp only [Paged.step]
    rcases saveInner_spec h i with h1 | ⟨Q, h1, h2⟩
    · rw [h1]; exact Or.inl rfl
    · rw [h1]; exact Or.inr ⟨Q, none, L, t, b, rfl, h2.inv, h2.kept.tuned, fun hb' => by rw [h2.kept.regs]; exact hb hb', hs, fun rest t'' hr => hr⟩
  | evictLeaf i =>
    simp only [Paged.step]
    rcases evictLeaf_spec h i with h1 | ⟨Q, h1, h2, h3, _⟩
    · rw [h1]; exact Or.inl rfl
    · rw [h1]; exact Or.inr ⟨Q, none, L, t, b, rfl, h2, h3.tuned, fun hb' => by rw [h3.regs]; exact hb hb', hs, fun rest t'' hr => hr⟩
  | evictInner i =>
    simp only [Paged.step]
    rcases evictInner_spec h i with h1 | ⟨Q, h1, h2, h3, _⟩
    · rw [h1]; exact Or.inl rfl
    · rw [h1]; exact Or.inr ⟨Q, none, L, t, b, rfl, h2, h3.tuned, fun hb' => by rw [h3.regs]; exact hb hb', hs, fun rest t'' hr => hr⟩
  | synchronize =>
    simp only [Paged.step]
    rcases synchronize_spec h with h1 | ⟨Q, L', h1, h2, h3, h4, _⟩
    · rw [h1]; exact Or.inl rfl
    · rw [h1]; exact Or.inr ⟨Q, none, L', t, b, rfl, h2, h3, fun hb' => by rw [h4]; exact hb hb', hs, fun rest t'' hr => hr⟩
  | reopen =>
    simp only [Paged.step]
    rcases reopen_spec h with h1 | ⟨Q, L', h1, h2, h3⟩
    · rw [h1]; exact Or.inl rfl
    · rw [h1]; exact Or.inr ⟨Q, none, L', _, false, rfl, h2, h3, fun hb' => (by cases hb'), hs, fun rest t'' hr => hr⟩

/-- A history of events: the results are those of an ordered map, or a number does not fit. -/
theorem run_spec {ω : Type} : ∀ (l : List (Event ω)) {P : Paged} {L : Layer} {t : OMap.St} (b : Bool), PInv E P L t → (b = true → P.regs.lastOk = true) → lastSafe b l = true →
    P.run E l = .error .overflow ∨ ∃ Q outs L' t', P.run E l = .ok (Q, outs) ∧ PInv E Q L' t' ∧ Tuned P Q ∧ outs.map (·.1) = l ∧ PHistory (E.order P.comp) false t outs t' := by
  intro l
  induction l with
  | nil => intro P L t b h _ _; exact Or.inr ⟨P, [], L, t, rfl, h, Tuned.refl P, rfl, rfl⟩
  | cons e l ih =>
    intro P L t b h hb hs
    rcases step_spec h e l b hb hs with h1 | ⟨Q, o, L', t', b', h1, h2, h3, h4, h5, h6⟩
    · simp only [Paged.run, h1]; exact Or.inl trivial
    · rcases ih b' h2 h4 h5 with k1 | ⟨R, outs, L'', t'', k1, k2, k3, k4, k5⟩
      · simp only [Paged.run, h1, k1]; exact Or.inl trivial
      · refine Or.inr ⟨R, (e, o) :: outs, L'', t'', by simp only [Paged.run, h1, k1], k2, h3.trans k3, by simp [k4], h6 outs t'' ?_⟩
        rw [← h3.comp]
        exact k5

end Verif.BTree
