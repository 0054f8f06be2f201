import Verif.BTree.PagedLemmas
/-
Calls, saving and opening keep the invariant of the page store.
-/
namespace Verif.BTree
open Verif

variable {E : Env}

/-! ### A call -/

theorem idsFit_iff {s : State} : idsFit s = true ↔ s.numLeaf ≤ innerIdBase ∧ s.numInner ≤ 2 ^ 48 := by
  simp [idsFit]

theorem settleNode_some {α : Type} {dirty : α → Bool} {old : Option (Cached α)} {was now : Option α} {touched : Bool} {n : Cached α}
    (h : settleNode dirty old was now touched = some n) : ∃ x, now = some x := by
  unfold settleNode at h
  split at h
  · cases h
  · exact ⟨_, rfl⟩

theorem settle_spec {P : Paged} {L : Layer} {t : OMap.St} (h : PInv E P L t) {s : State} {L' : Layer} {t' : OMap.St} (hf : Frame (P.cfg E) P.view s)
    (hfit : idsFit s = true) (hs : Sim (P.cfg E) s L' t') (tl ti : Nat → Bool) : PInv E (P.settle s tl ti) L' t' := by
  obtain ⟨hfl, hfi⟩ := idsFit_iff.1 hfit
  have leaf_one := fun (i : Nat) (hi : leafIdBase ≤ i ∧ i < innerIdBase) =>
    settle_one (dirty := Leaf.dirty) (old := P.leafCache i) (was := P.leafAt i) (now := s.leaves i) (disk := P.diskLeaf i) (touched := tl i)
    (by
      cases hc : P.leafCache i with
      | none => simp only; exact Paged.leafAt_disk hc hi
      | some n => simp only; exact Paged.leafAt_cached hc hi)
    (h.cleanLeaf i) (h.newLeaf i) (fun x hx hd => (hf.leaf i x hx).1 hd)
  have inner_one := fun (i : Nat) (hi : innerIdBase ≤ i ∧ i < 2 ^ 48) =>
    settle_one (dirty := Inner.dirty) (old := P.innerCache i) (was := P.innerAt i) (now := s.inners i) (disk := P.diskInner i) (touched := ti i)
    (by
      cases hc : P.innerCache i with
      | none => simp only; exact Paged.innerAt_disk hc hi
      | some n => simp only; exact Paged.innerAt_cached hc hi)
    (h.cleanInner i) (h.newInner i) (fun x hx hd => (hf.inner i x hx).1 hd)
  have hrl : ∀ i l, s.leaves i = some l → leafIdBase ≤ i ∧ i < innerIdBase := fun i l hl => by
    have := ((hf.fine h.fine).leaves i l hl).id
    exact ⟨this.1, Nat.lt_of_lt_of_le this.2 hfl⟩
  have hri : ∀ i n, s.inners i = some n → innerIdBase ≤ i ∧ i < 2 ^ 48 := fun i n hn => by
    have h1 := (hf.inner i n hn).2
    cases hv : P.innerAt i with
    | none =>
      have := h1 hv
      exact ⟨Nat.le_trans h.numInner.1 this.1, Nat.lt_of_lt_of_le this.2 hfi⟩
    | some m => exact Paged.innerAt_range hv
  have hl : (P.settle s tl ti).leafAt = s.leaves := by
    funext i
    by_cases hi : leafIdBase ≤ i ∧ i < innerIdBase
    · have h1 := (leaf_one i hi).1
      rw [← settle_diskLeaf (s := s) (tl := tl) (ti := ti) hi] at h1
      rw [← h1]
      cases hc : settleNode Leaf.dirty (P.leafCache i) (P.leafAt i) (s.leaves i) (tl i) with
      | none => exact Paged.leafAt_disk (P := P.settle s tl ti) hc hi
      | some n => exact Paged.leafAt_cached (P := P.settle s tl ti) hc hi
    · rw [Paged.leafAt_out hi]
      cases hx : s.leaves i with
      | none => rfl
      | some l => exact absurd (hrl i l hx) hi
  have hn : (P.settle s tl ti).innerAt = s.inners := by
    funext i
    by_cases hi : innerIdBase ≤ i ∧ i < 2 ^ 48
    · have h1 := (inner_one i hi).1
      rw [← settle_diskInner (s := s) (tl := tl) (ti := ti) hi] at h1
      rw [← h1]
      cases hc : settleNode Inner.dirty (P.innerCache i) (P.innerAt i) (s.inners i) (ti i) with
      | none => exact Paged.innerAt_disk (P := P.settle s tl ti) hc hi
      | some n => exact Paged.innerAt_cached (P := P.settle s tl ti) hc hi
    · rw [Paged.innerAt_out hi]
      cases hx : s.inners i with
      | none => rfl
      | some l => exact absurd (hri i l hx) hi
  have hv : (P.settle s tl ti).view = s := by
    show ({ s with leaves := (P.settle s tl ti).leafAt, inners := (P.settle s tl ti).innerAt } : State) = s
    rw [hl, hn]
  refine ⟨by rw [hv]; exact hs, by rw [hv]; exact hf.fine h.fine, fun i n hc => ?_, fun i n hc => ?_, hfl, ⟨Nat.le_trans h.numInner.1 hf.numInner, hfi⟩, fun i n hc hd => ?_,
    fun i n hc hd => ?_, fun i n hc hd => ?_, fun i n hc hd => ?_, h.order, h.page, h.branch, h.comp⟩
  · obtain ⟨x, hx⟩ := settleNode_some hc
    exact hrl i x hx
  · obtain ⟨x, hx⟩ := settleNode_some hc
    exact hri i x hx
  · obtain ⟨x, hx⟩ := settleNode_some hc
    rw [settle_diskLeaf (hrl i x hx)]
    exact (leaf_one i (hrl i x hx)).2.1 n hc hd
  · obtain ⟨x, hx⟩ := settleNode_some hc
    rw [settle_diskInner (hri i x hx)]
    exact (inner_one i (hri i x hx)).2.1 n hc hd
  · obtain ⟨x, hx⟩ := settleNode_some hc
    rw [settle_diskLeaf (hrl i x hx)]
    exact (leaf_one i (hrl i x hx)).2.2 n hc hd
  · obtain ⟨x, hx⟩ := settleNode_some hc
    rw [settle_diskInner (hri i x hx)]
    exact (inner_one i (hri i x hx)).2.2 n hc hd

/-! ### Saving a node -/

/-- Only the caches and the pages changed. -/
def Kept (P Q : Paged) : Prop := ∃ lc ic d, Q = { P with leafCache := lc, innerCache := ic, disk := d }

theorem Kept.refl (P : Paged) : Kept P P := ⟨_, _, _, rfl⟩

theorem Kept.trans {P Q R : Paged} (h1 : Kept P Q) (h2 : Kept Q R) : Kept P R := by
  obtain ⟨a, b, c, rfl⟩ := h1
  obtain ⟨d, e, f, rfl⟩ := h2
  exact ⟨d, e, f, rfl⟩

theorem Kept.regs {P Q : Paged} (h : Kept P Q) : Q.regs = P.regs := by obtain ⟨a, b, c, rfl⟩ := h; rfl

theorem Kept.cfg {P Q : Paged} (h : Kept P Q) : Q.cfg E = P.cfg E := by obtain ⟨a, b, c, rfl⟩ := h; rfl

/-- The records and the links are the same; a dirty mark may be gone. -/
def LSame (a b : Option Leaf) : Prop := b = a ∨ ∃ l, a = some l ∧ b = some { l with dirty := false }
def ISame (a b : Option Inner) : Prop := b = a ∨ ∃ l, a = some l ∧ b = some { l with dirty := false }

theorem kept_sim {P Q : Paged} {L : Layer} {t : OMap.St} (h : PInv E P L t) (hk : Kept P Q) (hl : ∀ j, LSame (P.leafAt j) (Q.leafAt j))
    (hi : ∀ j, ISame (P.innerAt j) (Q.innerAt j)) : Sim (Q.cfg E) Q.view L t ∧ Fine (Q.cfg E) Q.view := by
  have hreg := hk.regs
  rw [hk.cfg (E := E)]
  constructor
  · obtain ⟨ups, hu⟩ := h.sim.inv.upper
    refine (h.sim.agree (s2 := Q.view) hu (fun e _ l he => ?_) (fun i _ n hn => ?_) ?_).1
    · rcases hl e.2 with h1 | ⟨l', h1, h2⟩
      · exact ⟨l.dirty, h1.trans he⟩
      · have : l = l' := by
          have he' : P.leafAt e.2 = some l := he
          rw [h1] at he'
          exact (Option.some.inj he').symm
        exact ⟨false, by rw [this]; exact h2⟩
    · rcases hi i with h1 | ⟨l', h1, h2⟩
      · exact ⟨n.dirty, h1.trans hn⟩
      · have : n = l' := by
          have he' : P.innerAt i = some n := hn
          rw [h1] at he'
          exact (Option.some.inj he').symm
        exact ⟨false, by rw [this]; exact h2⟩
    · simp only [Paged.view, hreg]
  · have hf := h.fine
    refine ⟨fun i l he => ?_, fun i n he => ?_, by simp only [Paged.view, hreg]; exact hf.pos⟩
    · have he' : Q.leafAt i = some l := he
      have : ∃ l0, P.leafAt i = some l0 ∧ l.recs = l0.recs ∧ l.page = l0.page ∧ l.prev = l0.prev ∧ l.next = l0.next := by
        rcases hl i with h1 | ⟨l', h1, h2⟩
        · exact ⟨l, h1 ▸ he', rfl, rfl, rfl, rfl⟩
        · rw [h2] at he'
          cases he'
          exact ⟨l', h1, rfl, rfl, rfl, rfl⟩
      obtain ⟨l0, h0, h1, h2, h3, h4⟩ := this
      have h5 := hf.leaves i l0 h0
      simp only [Paged.view, hreg]
      exact ⟨by rw [h1, h2]; exact h5.page, h5.id, by rw [h3]; exact h5.prev, by rw [h4]; exact h5.next⟩
    · have he' : Q.innerAt i = some n := he
      have : ∃ n0, P.innerAt i = some n0 ∧ n.heir = n0.heir ∧ n.links = n0.links := by
        rcases hi i with h1 | ⟨l', h1, h2⟩
        · exact ⟨n, h1 ▸ he', rfl, rfl⟩
        · rw [h2] at he'
          cases he'
          exact ⟨l', h1, rfl, rfl⟩
      obtain ⟨n0, h0, h1, h2⟩ := this
      have h5 := hf.inners i n0 h0
      simp only [Paged.view, hreg]
      exact ⟨h5.id, by rw [h1]; exact h5.heir, by rw [h2]; exact h5.links⟩

theorem recsSize_tree (P : Paged) (recs : List Rec) : recsSize (P.cfg E) recs = ((recs.map fun r => (recBytes r).length).sum : Nat) := by
  induction recs with
  | nil => rfl
  | cons r recs ih =>
    rw [recsSize_cons, ih, List.map_cons, List.sum_cons, recBytes_length]
    show (((_ : Nat) : Int)) + _ = _
    omega

/-- A leaf of the tree survives being written and read. -/
theorem PInv.leaf_page {P : Paged} {L : Layer} {t : OMap.St} (h : PInv E P L t) {i : Nat} {l : Leaf} (hl : P.leafAt i = some l) (hp : l.page < 2 ^ 31) :
    saveLeaf l = some (leafBytes l) ∧ loadLeaf (leafBytes l) = .ok { l with dirty := false } := by
  have hf := h.fine.leaves i l hl
  have hn : ∀ j, 1 ≤ j ∧ j < P.view.numLeaf → j < 2 ^ 48 ∧ j ≠ 0 := fun j hj =>
    ⟨Nat.lt_trans (Nat.lt_of_lt_of_le hj.2 h.numLeaf) innerIdBase_lt, by omega⟩
  refine leaf_roundtrip ?_ hp ?_ ?_ ?_ ?_
  · rw [hf.page, leafBytes_length, recsSize_tree]
    show (12 : Int) + _ = _
    omega
  · cases hx : l.prev with
    | none => simp [idOf]
    | some j => exact (hn j (hf.prev j hx)).1
  · cases hx : l.next with
    | none => simp [idOf]
    | some j => exact (hn j (hf.next j hx)).1
  · intro hx; exact (hn 0 (hf.prev 0 hx)).2 rfl
  · intro hx; exact (hn 0 (hf.next 0 hx)).2 rfl

/-- An inner node of the tree survives being written and read. -/
theorem PInv.inner_page {P : Paged} {L : Layer} {t : OMap.St} (h : PInv E P L t) {i : Nat} {n : Inner} (hl : P.innerAt i = some n) (hp : innerSize n < 2 ^ 31) :
    saveInner n = some (innerBytes n) ∧ loadInner (innerBytes n) = .ok { n with dirty := false } := by
  have hf := h.fine.inners i n hl
  have hn : ∀ j, j < P.view.numLeaf ∨ j < P.view.numInner → j < 2 ^ 48 := fun j hj => by
    rcases hj with hj | hj
    · exact Nat.lt_trans (Nat.lt_of_lt_of_le hj h.numLeaf) innerIdBase_lt
    · exact Nat.lt_of_lt_of_le hj h.numInner.2
  exact inner_roundtrip hp (hn _ hf.heir) fun k hk => hn _ (hf.links k hk)

theorem pageKey_ne {i j : Nat} (hi : i < 2 ^ 48) (hj : j < 2 ^ 48) (h : i ≠ j) : pageKey i ≠ pageKey j := fun e => h (pageKey_inj hi hj e)

/-- A page is written: the other pages stay. -/
theorem disk_upd {d : Dict} {i j : Nat} {b : Bytes} (hi : i < 2 ^ 48) (hj : j < 2 ^ 48) :
    (d.upd (pageKey i) (some b)) (pageKey j) = if j = i then some b else d (pageKey j) := by
  by_cases h : j = i
  · rw [if_pos h, h, Dict.upd_self]
  · rw [if_neg h, Dict.upd_other _ _ (pageKey_ne hj hi h)]

/-- The result of saving a leaf: it is written if it was dirty. -/
structure SavedLeaf (E : Env) (P Q : Paged) (L : Layer) (t : OMap.St) (i : Nat) : Prop where
  inv : PInv E Q L t
  kept : Kept P Q
  clean : ∀ n, Q.leafCache i = some n → n.node.dirty = false
  other : ∀ j, j ≠ i → Q.leafCache j = P.leafCache j
  inner : Q.innerCache = P.innerCache

theorem saveLeaf_spec {P : Paged} {L : Layer} {t : OMap.St} (h : PInv E P L t) (i : Nat) :
    P.saveLeaf i = .error .overflow ∨ ∃ Q, P.saveLeaf i = .ok Q ∧ SavedLeaf E P Q L t i := by
  unfold Paged.saveLeaf
  cases hc : P.leafCache i with
  | none => exact Or.inr ⟨P, rfl, h, Kept.refl P, fun n hn => (by rw [hc] at hn; cases hn), fun _ _ => rfl, rfl⟩
  | some n =>
    simp only
    cases hd : n.node.dirty with
    | false =>
      simp only [Bool.false_eq_true, if_false]
      exact Or.inr ⟨P, rfl, h, Kept.refl P, fun m hm => (by rw [hc] at hm; cases hm; exact hd), fun _ _ => rfl, rfl⟩
    | true =>
      simp only [if_true]
      have hi := h.leafIds i n hc
      have hi48 : i < 2 ^ 48 := Nat.lt_trans hi.2 innerIdBase_lt
      have hv : P.leafAt i = some n.node := Paged.leafAt_cached hc hi
      by_cases hp : n.node.page < 2 ^ 31
      · obtain ⟨h1, h2⟩ := h.leaf_page hv hp
        rw [h1]
        refine Or.inr ⟨_, rfl, ?_, ⟨_, _, _, rfl⟩, fun m hm => ?_, fun j hj => by simp [upd, hj], rfl⟩
        · have hdl : ∀ j, j < 2 ^ 48 → j ≠ i → (P.disk.upd (pageKey i) (some (leafBytes n.node))) (pageKey j) = P.disk (pageKey j) := fun j hj hne => by
            rw [disk_upd hi48 hj, if_neg hne]
          generalize hQ : ({ P with leafCache := upd P.leafCache i (some ⟨{ n.node with dirty := false }, true⟩), disk := P.disk.upd (pageKey i) (some (leafBytes n.node)) } : Paged) = Q
          have hsl : ∀ j, LSame (P.leafAt j) (Q.leafAt j) := by
            intro j
            subst hQ
            · by_cases hj : j = i
              · subst hj
                exact Or.inr ⟨n.node, hv, by rw [Paged.leafAt_cached (n := ⟨{ n.node with dirty := false }, true⟩) (by simp [upd]) hi]⟩
              · refine Or.inl ?_
                unfold Paged.leafAt
                split
                · rename_i hr
                  simp only [upd, if_neg hj]
                  rw [hdl j (Nat.lt_trans hr.2 innerIdBase_lt) hj]
                · rfl
          have hsi : ∀ j, ISame (P.innerAt j) (Q.innerAt j) := by
            intro j
            subst hQ
            · refine Or.inl ?_
              unfold Paged.innerAt
              split
              · rename_i hr
                simp only
                rw [hdl j hr.2 (fun e => by omega)]
              · rfl
          obtain ⟨hs, hf⟩ := kept_sim h ⟨_, _, _, hQ.symm⟩ hsl hsi
          subst hQ
          refine ⟨hs, hf, fun j m hm => ?_, h.innerIds, h.numLeaf, h.numInner, fun j m hm hdm => ?_, fun j m hm hdm => ?_, fun j m hm ho => ?_, fun j m hm ho => ?_, h.order, h.page,
              h.branch, h.comp⟩
          · by_cases hj : j = i
            · rw [hj]; exact hi
            · simp only [upd, if_neg hj] at hm; exact h.leafIds j m hm
          · by_cases hj : j = i
            · subst hj
              simp only [upd, if_true, Option.some.injEq] at hm
              subst hm
              simp only [Paged.diskLeaf, Dict.upd_self, Option.bind_some, h2, Parse.toOption]
            · simp only [upd, if_neg hj] at hm
              have := h.cleanLeaf j m hm hdm
              simp only [Paged.diskLeaf] at this ⊢
              rw [hdl j (Nat.lt_trans (h.leafIds j m hm).2 innerIdBase_lt) hj]
              exact this
          · have := h.cleanInner j m hm hdm
            have hj := h.innerIds j m hm
            simp only [Paged.diskInner] at this ⊢
            rw [hdl j hj.2 (fun e => by omega)]
            exact this
          · by_cases hj : j = i
            · subst hj
              simp only [upd, if_true, Option.some.injEq] at hm
              subst hm
              cases ho
            · simp only [upd, if_neg hj] at hm
              have := h.newLeaf j m hm ho
              simp only [Paged.diskLeaf] at this ⊢
              rw [hdl j (Nat.lt_trans (h.leafIds j m hm).2 innerIdBase_lt) hj]
              exact this
          · have := h.newInner j m hm ho
            have hj := h.innerIds j m hm
            simp only [Paged.diskInner] at this ⊢
            rw [hdl j hj.2 (fun e => by omega)]
            exact this
        · simp only [upd, if_true, Option.some.injEq] at hm
          rw [← hm]
      · have : saveLeaf n.node = none := by
          unfold saveLeaf
          rw [if_neg (fun hh => hp hh.2.2.2)]
        rw [this]
        simp only
        rw [if_pos (by omega)]
        exact Or.inl rfl

/-- The result of saving a inner node: it is written if it was dirty. -/
structure SavedInner (E : Env) (P Q : Paged) (L : Layer) (t : OMap.St) (i : Nat) : Prop where
  inv : PInv E Q L t
  kept : Kept P Q
  clean : ∀ n, Q.innerCache i = some n → n.node.dirty = false
  other : ∀ j, j ≠ i → Q.innerCache j = P.innerCache j
  leaf : Q.leafCache = P.leafCache

theorem saveInner_spec {P : Paged} {L : Layer} {t : OMap.St} (h : PInv E P L t) (i : Nat) :
    P.saveInner i = .error .overflow ∨ ∃ Q, P.saveInner i = .ok Q ∧ SavedInner E P Q L t i := by
  unfold Paged.saveInner
  cases hc : P.innerCache i with
  | none => exact Or.inr ⟨P, rfl, h, Kept.refl P, fun n hn => (by rw [hc] at hn; cases hn), fun _ _ => rfl, rfl⟩
  | some n =>
    simp only
    cases hd : n.node.dirty with
    | false =>
      simp only [Bool.false_eq_true, if_false]
      exact Or.inr ⟨P, rfl, h, Kept.refl P, fun m hm => (by rw [hc] at hm; cases hm; exact hd), fun _ _ => rfl, rfl⟩
    | true =>
      simp only [if_true]
      have hi := h.innerIds i n hc
      have hi48 : i < 2 ^ 48 := hi.2
      have hv : P.innerAt i = some n.node := Paged.innerAt_cached hc hi
      by_cases hp : innerSize n.node < 2 ^ 31
      · obtain ⟨h1, h2⟩ := h.inner_page hv hp
        rw [h1]
        refine Or.inr ⟨_, rfl, ?_, ⟨_, _, _, rfl⟩, fun m hm => ?_, fun j hj => by simp [upd, hj], rfl⟩
        · have hdl : ∀ j, j < 2 ^ 48 → j ≠ i → (P.disk.upd (pageKey i) (some (innerBytes n.node))) (pageKey j) = P.disk (pageKey j) := fun j hj hne => by
            rw [disk_upd hi48 hj, if_neg hne]
          generalize hQ : ({ P with innerCache := upd P.innerCache i (some ⟨{ n.node with dirty := false }, true⟩), disk := P.disk.upd (pageKey i) (some (innerBytes n.node)) } : Paged) = Q
          have hsi : ∀ j, ISame (P.innerAt j) (Q.innerAt j) := by
            intro j
            subst hQ
            · by_cases hj : j = i
              · subst hj
                exact Or.inr ⟨n.node, hv, by rw [Paged.innerAt_cached (n := ⟨{ n.node with dirty := false }, true⟩) (by simp [upd]) hi]⟩
              · refine Or.inl ?_
                unfold Paged.innerAt
                split
                · rename_i hr
                  simp only [upd, if_neg hj]
                  rw [hdl j hr.2 hj]
                · rfl
          have hsl : ∀ j, LSame (P.leafAt j) (Q.leafAt j) := by
            intro j
            subst hQ
            · refine Or.inl ?_
              unfold Paged.leafAt
              split
              · rename_i hr
                simp only
                rw [hdl j (Nat.lt_trans hr.2 innerIdBase_lt) (fun e => by omega)]
              · rfl
          obtain ⟨hs, hf⟩ := kept_sim h ⟨_, _, _, hQ.symm⟩ hsl hsi
          subst hQ
          refine ⟨hs, hf, h.leafIds, fun j m hm => ?_, h.numLeaf, h.numInner, fun j m hm hdm => ?_, fun j m hm hdm => ?_, fun j m hm ho => ?_, fun j m hm ho => ?_, h.order, h.page,
              h.branch, h.comp⟩
          · by_cases hj : j = i
            · rw [hj]; exact hi
            · simp only [upd, if_neg hj] at hm; exact h.innerIds j m hm
          · have := h.cleanLeaf j m hm hdm
            have hj := h.leafIds j m hm
            simp only [Paged.diskLeaf] at this ⊢
            rw [hdl j (Nat.lt_trans hj.2 innerIdBase_lt) (fun e => by omega)]
            exact this
          · by_cases hj : j = i
            · subst hj
              simp only [upd, if_true, Option.some.injEq] at hm
              subst hm
              simp only [Paged.diskInner, Dict.upd_self, Option.bind_some, h2, Parse.toOption]
            · simp only [upd, if_neg hj] at hm
              have := h.cleanInner j m hm hdm
              simp only [Paged.diskInner] at this ⊢
              rw [hdl j (h.innerIds j m hm).2 hj]
              exact this
          · have := h.newLeaf j m hm ho
            have hj := h.leafIds j m hm
            simp only [Paged.diskLeaf] at this ⊢
            rw [hdl j (Nat.lt_trans hj.2 innerIdBase_lt) (fun e => by omega)]
            exact this
          · by_cases hj : j = i
            · subst hj
              simp only [upd, if_true, Option.some.injEq] at hm
              subst hm
              cases ho
            · simp only [upd, if_neg hj] at hm
              have := h.newInner j m hm ho
              simp only [Paged.diskInner] at this ⊢
              rw [hdl j (h.innerIds j m hm).2 hj]
              exact this
        · simp only [upd, if_true, Option.some.injEq] at hm
          rw [← hm]
      · have : saveInner n.node = none := by
          unfold saveInner
          rw [if_neg (fun hh => hp hh.2.2)]
        rw [this]
        simp only
        rw [if_pos (by omega)]
        exact Or.inl rfl

theorem evictLeaf_spec {P : Paged} {L : Layer} {t : OMap.St} (h : PInv E P L t) (i : Nat) :
    P.evictLeaf i = .error .overflow ∨ ∃ Q, P.evictLeaf i = .ok Q ∧ PInv E Q L t ∧ Kept P Q ∧ Q.leafCache i = none ∧ (∀ j, j ≠ i → Q.leafCache j = P.leafCache j) ∧
      Q.innerCache = P.innerCache := by
  unfold Paged.evictLeaf
  rcases saveLeaf_spec h i with h1 | ⟨Q, h1, h2, h3, h4, h5, h6⟩
  · rw [h1]; exact Or.inl rfl
  · rw [h1]
    refine Or.inr ⟨_, rfl, ?_, h3.trans ⟨_, _, _, rfl⟩, by simp [upd], fun j hj => by simp only [upd, if_neg hj]; exact h5 j hj, h6⟩
    generalize hR : ({ Q with leafCache := upd Q.leafCache i none } : Paged) = R
    have hsl : ∀ j, LSame (Q.leafAt j) (R.leafAt j) := by
      intro j
      subst hR
      refine Or.inl ?_
      by_cases hr : leafIdBase ≤ j ∧ j < innerIdBase
      · by_cases hj : j = i
        · subst hj
          rw [Paged.leafAt_disk (by simp [upd]) hr]
          show Q.diskLeaf j = _
          cases hq : Q.leafCache j with
          | none => rw [Paged.leafAt_disk hq hr]
          | some n => rw [Paged.leafAt_cached hq hr, h2.cleanLeaf j n hq (h4 n hq)]
        · unfold Paged.leafAt
          simp only [upd, if_neg hj]
      · rw [Paged.leafAt_out hr, Paged.leafAt_out hr]
    have hsi : ∀ j, ISame (Q.innerAt j) (R.innerAt j) := by
      intro j
      subst hR
      exact Or.inl rfl
    obtain ⟨hs, hf⟩ := kept_sim h2 ⟨_, _, _, hR.symm⟩ hsl hsi
    subst hR
    have hsub : ∀ j m, upd Q.leafCache i none j = some m → Q.leafCache j = some m := by
      intro j m hm
      by_cases hj : j = i
      · simp [upd, hj] at hm
      · simpa only [upd, if_neg hj] using hm
    exact ⟨hs, hf, fun j m hm => h2.leafIds j m (hsub j m hm), h2.innerIds, h2.numLeaf, h2.numInner, fun j m hm => h2.cleanLeaf j m (hsub j m hm), h2.cleanInner,
      fun j m hm => h2.newLeaf j m (hsub j m hm), h2.newInner, h2.order, h2.page, h2.branch, h2.comp⟩

theorem evictInner_spec {P : Paged} {L : Layer} {t : OMap.St} (h : PInv E P L t) (i : Nat) :
    P.evictInner i = .error .overflow ∨ ∃ Q, P.evictInner i = .ok Q ∧ PInv E Q L t ∧ Kept P Q ∧ Q.innerCache i = none ∧ (∀ j, j ≠ i → Q.innerCache j = P.innerCache j) ∧
      Q.leafCache = P.leafCache := by
  unfold Paged.evictInner
  rcases saveInner_spec h i with h1 | ⟨Q, h1, h2, h3, h4, h5, h6⟩
  · rw [h1]; exact Or.inl rfl
  · rw [h1]
    refine Or.inr ⟨_, rfl, ?_, h3.trans ⟨_, _, _, rfl⟩, by simp [upd], fun j hj => by simp only [upd, if_neg hj]; exact h5 j hj, h6⟩
    generalize hR : ({ Q with innerCache := upd Q.innerCache i none } : Paged) = R
    have hsi : ∀ j, ISame (Q.innerAt j) (R.innerAt j) := by
      intro j
      subst hR
      refine Or.inl ?_
      by_cases hr : innerIdBase ≤ j ∧ j < 2 ^ 48
      · by_cases hj : j = i
        · subst hj
          rw [Paged.innerAt_disk (by simp [upd]) hr]
          show Q.diskInner j = _
          cases hq : Q.innerCache j with
          | none => rw [Paged.innerAt_disk hq hr]
          | some n => rw [Paged.innerAt_cached hq hr, h2.cleanInner j n hq (h4 n hq)]
        · unfold Paged.innerAt
          simp only [upd, if_neg hj]
      · rw [Paged.innerAt_out hr, Paged.innerAt_out hr]
    have hsl : ∀ j, LSame (Q.leafAt j) (R.leafAt j) := by
      intro j
      subst hR
      exact Or.inl rfl
    obtain ⟨hs, hf⟩ := kept_sim h2 ⟨_, _, _, hR.symm⟩ hsl hsi
    subst hR
    have hsub : ∀ j m, upd Q.innerCache i none j = some m → Q.innerCache j = some m := by
      intro j m hm
      by_cases hj : j = i
      · simp [upd, hj] at hm
      · simpa only [upd, if_neg hj] using hm
    exact ⟨hs, hf, h2.leafIds, fun j m hm => h2.innerIds j m (hsub j m hm), h2.numLeaf, h2.numInner, h2.cleanLeaf, fun j m hm => h2.cleanInner j m (hsub j m hm),
      h2.newLeaf, fun j m hm => h2.newInner j m (hsub j m hm), h2.order, h2.page, h2.branch, h2.comp⟩

/-- Every node is written and leaves the cache. -/
theorem evictAll_leaf {L : Layer} {t : OMap.St} : ∀ (l : List Nat) {P : Paged}, PInv E P L t →
    evictAll Paged.evictLeaf P l = .error .overflow ∨ ∃ Q, evictAll Paged.evictLeaf P l = .ok Q ∧ PInv E Q L t ∧ Kept P Q ∧ (∀ j, j ∈ l ∨ P.leafCache j = none → Q.leafCache j = none) ∧
      Q.innerCache = P.innerCache := by
  intro l
  induction l with
  | nil => intro P h; exact Or.inr ⟨P, rfl, h, Kept.refl P, fun j hj => hj.resolve_left (by simp), rfl⟩
  | cons i l ih =>
    intro P h
    unfold evictAll
    rcases evictLeaf_spec h i with h1 | ⟨Q, h1, h2, h3, h4, h5, h6⟩
    · rw [h1]; exact Or.inl rfl
    · rw [h1]
      rcases ih h2 with k1 | ⟨R, k1, k2, k3, k4, k5⟩
      · exact Or.inl k1
      · refine Or.inr ⟨R, k1, k2, h3.trans k3, fun j hj => k4 j ?_, k5.trans h6⟩
        by_cases hji : j = i
        · exact Or.inr (hji ▸ h4)
        · rcases hj with hj | hj
          · exact Or.inl ((List.mem_cons.1 hj).resolve_left hji)
          · exact Or.inr ((h5 j hji).trans hj)

theorem evictAll_inner {L : Layer} {t : OMap.St} : ∀ (l : List Nat) {P : Paged}, PInv E P L t →
    evictAll Paged.evictInner P l = .error .overflow ∨ ∃ Q, evictAll Paged.evictInner P l = .ok Q ∧ PInv E Q L t ∧ Kept P Q ∧
      (∀ j, j ∈ l ∨ P.innerCache j = none → Q.innerCache j = none) ∧ Q.leafCache = P.leafCache := by
  intro l
  induction l with
  | nil => intro P h; exact Or.inr ⟨P, rfl, h, Kept.refl P, fun j hj => hj.resolve_left (by simp), rfl⟩
  | cons i l ih =>
    intro P h
    unfold evictAll
    rcases evictInner_spec h i with h1 | ⟨Q, h1, h2, h3, h4, h5, h6⟩
    · rw [h1]; exact Or.inl rfl
    · rw [h1]
      rcases ih h2 with k1 | ⟨R, k1, k2, k3, k4, k5⟩
      · exact Or.inl k1
      · refine Or.inr ⟨R, k1, k2, h3.trans k3, fun j hj => k4 j ?_, k5.trans h6⟩
        by_cases hji : j = i
        · exact Or.inr (hji ▸ h4)
        · rcases hj with hj | hj
          · exact Or.inl ((List.mem_cons.1 hj).resolve_left hji)
          · exact Or.inr ((h5 j hji).trans hj)

/-- `FlushLeafCacheAll` and `FlushInnerCacheAll`: the caches are empty and the tree is the same. -/
theorem flush_spec {P : Paged} {L : Layer} {t : OMap.St} (h : PInv E P L t) :
    P.flush = .error .overflow ∨ ∃ Q, P.flush = .ok Q ∧ PInv E Q L t ∧ Kept P Q ∧ (∀ i, Q.leafCache i = none) ∧ (∀ i, Q.innerCache i = none) := by
  unfold Paged.flush
  rcases evictAll_leaf (List.range' leafIdBase (P.regs.numLeaf - leafIdBase)) h with h1 | ⟨Q, h1, h2, h3, h4, h5⟩
  · rw [h1]; exact Or.inl rfl
  · rw [h1]
    rcases evictAll_inner (List.range' innerIdBase (P.regs.numInner - innerIdBase)) h2 with k1 | ⟨R, k1, k2, k3, k4, k5⟩
    · exact Or.inl k1
    · refine Or.inr ⟨R, k1, k2, h3.trans k3, fun i => ?_, fun i => ?_⟩
      · rw [k5]
        refine h4 i ?_
        cases hc : P.leafCache i with
        | none => exact Or.inr rfl
        | some n =>
          refine Or.inl (List.mem_range'_1.2 ?_)
          have h6 := (h.fine.leaves i n.node (Paged.leafAt_cached hc (h.leafIds i n hc))).id
          have h7 : P.view.numLeaf = P.regs.numLeaf := rfl
          unfold leafIdBase
          omega
      · refine k4 i ?_
        cases hc : Q.innerCache i with
        | none => exact Or.inr rfl
        | some n =>
          refine Or.inl (List.mem_range'_1.2 ?_)
          rw [h5] at hc
          have h0 := h.innerIds i n hc
          have h6 := (h.fine.inners i n.node (Paged.innerAt_cached hc h0)).id
          have h7 : P.view.numInner = P.regs.numInner := rfl
          omega

end Verif.BTree
