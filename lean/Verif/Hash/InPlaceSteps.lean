import Verif.Hash.InPlace
/-
The effect of each kind of update in the in-place mode.
-/
namespace Verif.Hash

variable {e : Env} {c : Cfg}

theorem contents_upd {L L' : Lay} {fbp fbp' : List FB} (h : InPlace e c L fbp) (h' : InPlace e c L' fbp') (k : Bytes)
    (ov : Option Bytes)
    (h1 : ∀ k' v, k' ≠ k → ((∃ o, live c L'.recs o = some (k', v)) ↔ ∃ o, live c L.recs o = some (k', v)))
    (h2 : ∀ v, (∃ o, live c L'.recs o = some (k, v)) ↔ ov = some v) : contents L'.recs = (contents L.recs).upd k ov := by
  funext k'
  apply Option.ext
  intro v
  rw [h'.contents_iff]
  by_cases hk : k' = k
  · subst hk; rw [Dict.upd_self, h2]
  · rw [Dict.upd_other _ _ hk, h.contents_iff, h1 k' v hk]

/-- The link to a chain element: in its predecessor or in the bucket. -/
def linkWr (parent bi x : Nat) : Wr := if parent > 0 then Wr.child parent x else Wr.bucket bi x

/-- Redirecting the link behind a part of a chain. -/
structure Relinked (c : Cfg) (L L' : Lay) (i : Nat) (a q : List (Nat × Rec)) (w : Wr) : Prop where
  wr : WrOk c L w
  path : ∃ a', a'.map (·.1) = a.map (·.1) ∧ (∀ y ∈ a', ∃ z ∈ a, z.1 = y.1 ∧ ∃ ch, y.2 = { z.2 with child := ch }) ∧
    Path c L'.recs (L'.buckets.getD i 0) (a' ++ q)
  other : ∀ j, j ≠ i → L'.buckets.getD j 0 = L.buckets.getD j 0
  live : ∀ o, live c L'.recs o = live c L.recs o
  keep : ∀ o r, recAt c (recordBase c) L.recs o = some r → ∃ ch, recAt c (recordBase c) L'.recs o = some { r with child := ch }
  same : ∀ o r, recAt c (recordBase c) L.recs o = some r → (a = [] ∨ o ≠ lastOff a 0) → recAt c (recordBase c) L'.recs o = some r
  paths : ∀ o p, Path c L.recs o p → (a = [] ∨ lastOff a 0 ∉ p.map (·.1)) → Path c L'.recs o p
  ops : ∀ r ∈ L'.recs, ∃ r0 ∈ L.recs, r.op = r0.op

theorem relink_spec {L : Lay} {i : Nat} {a rest q : List (Nat × Rec)} {x : Nat} (hb : Base c L) (hi : i < c.nb)
    (hp : Path c L.recs (L.buckets.getD i 0) (a ++ rest)) (hn : (a.map (·.1)).Nodup) (hq : Path c L.recs x q)
    (hnq : a = [] ∨ lastOff a 0 ∉ q.map (·.1)) (hx : x % (1 <<< c.ap) = 0 ∧ x < L.end_ c) :
    Relinked c L (applyL c L (linkWr (lastOff a 0) i x)) i a q (linkWr (lastOff a 0) i x) := by
  by_cases ha : a = []
  · subst ha
    have e1 : linkWr (lastOff [] 0) i x = Wr.bucket i x := by simp [linkWr, lastOff]
    rw [e1]
    refine ⟨⟨hi, hx⟩, ⟨[], rfl, by simp, ?_⟩, ?_, fun o => rfl, fun o r h => ⟨r.child, h⟩, fun o r h _ => h, fun o p h _ => h,
      fun r h => ⟨r, h, rfl⟩⟩
    · simp only [applyL, List.nil_append]
      rw [List.getD_eq_getElem?_getD, List.getElem?_set_self (by rw [hb.nb]; exact hi)]
      exact hq
    · intro j hj
      simp only [applyL, List.getD_eq_getElem?_getD]
      rw [List.getElem?_set_ne (Ne.symm hj)]
  · have hq' : lastOff a 0 ∉ q.map (·.1) := by rcases hnq with h | h; exact absurd h ha; exact h
    obtain ⟨pr, hr, hpath⟩ := hp.relink ha 0 hn hq hq'
    have hpos : lastOff a 0 > 0 := by have := recAt_ge hr; have := recordBase_pos (c := c); omega
    have e1 : linkWr (lastOff a 0) i x = Wr.child (lastOff a 0) x := by simp [linkWr, hpos]
    rw [e1]
    have e2 : applyL c L (Wr.child (lastOff a 0) x) =
        { L with recs := setAt c (recordBase c) L.recs (lastOff a 0) { pr with child := x } } := by
      simp only [applyL, hr]
    rw [e2]
    have hsz : ({ pr with child := x } : Rec).size c = pr.size c := rfl
    refine ⟨⟨hx.1, hx.2, pr, hr⟩, ⟨_, repl_fst _ _ _, ?_, hpath⟩, fun j _ => rfl, live_child hr, ?_, ?_, ?_, ?_⟩
    · intro y hy
      obtain ⟨z, hz, rfl⟩ := List.mem_map.1 hy
      refine ⟨z, hz, ?_⟩
      simp only [repl]
      split
      · rename_i ez
        have := hp.at z (by simp [hz])
        rw [ez, hr] at this
        cases this
        exact ⟨ez, x, rfl⟩
      · exact ⟨rfl, z.2.child, rfl⟩
    · intro o r ho
      by_cases eo : o = lastOff a 0
      · subst eo; rw [hr] at ho; cases ho; exact ⟨x, recAt_setAt_self (r' := { pr with child := x }) hr rfl⟩
      · refine ⟨r.child, ?_⟩
        show recAt c (recordBase c) _ o = some r
        rw [recAt_setAt_other hr hsz eo]; exact ho
    · intro o r ho h
      have eo : o ≠ lastOff a 0 := by rcases h with h | h; exact absurd h ha; exact h
      rw [recAt_setAt_other hr hsz eo]; exact ho
    · intro o p h h'
      have : lastOff a 0 ∉ p.map (·.1) := by rcases h' with h' | h'; exact absurd h' ha; exact h'
      exact h.setAt hr hsz this
    · intro r h
      rcases mem_setAt hr hsz h with rfl | h
      · exact ⟨pr, recAt_mem hr, rfl⟩
      · exact ⟨r, h, rfl⟩

theorem lastOff_in {a : List (Nat × Rec)} (ha : a ≠ []) : ∃ z ∈ a, z.1 = lastOff a 0 := by
  obtain ⟨z, h1, h2⟩ := List.mem_map.1 (lastOff_mem a 0 ha); exact ⟨z, h1, h2⟩

theorem goodVoid {r : Rec} (h : GoodRec c r) : GoodRec c (setData c .void (r.size c) [] [] 0) := by
  refine ⟨⟨by rw [void_size h.align]; exact h.align, by rw [void_size h.align]; exact h.small, by simp [setData], by simp [setData]⟩,
    by simp [setData, hashFits]⟩

theorem end_pos (L : Lay) : 0 < L.end_ c := by have := recordBase_pos (c := c); simp only [Lay.end_]; omega

/-- Overwriting the record of a key at its place. -/
theorem overwrite_spec {L : Lay} {fbp : List FB} (h : InPlace e c L fbp) {k : Bytes} {a cur r b}
    (hi : e.hash k c.nb < c.nb)
    (hp : IChain e c L (e.hash k c.nb) (a ++ (cur, r) :: b)) (hk : r.key = k) {r' : Rec} (hg : GoodRec c r')
    (hs : r'.size c = r.size c) (hk' : r'.key = k) (hch : r'.child = r.child) (ho : r'.op ≠ .void ∧ r'.op ≠ .remove) :
    WrsOk c L [.record cur r'] ∧ InPlace e c (applyLs c L [.record cur r']) fbp ∧
    contents (applyLs c L [.record cur r']).recs = (contents L.recs).upd k (some r'.value) := by
  have hr : recAt c (recordBase c) L.recs cur = some r := hp.path.at (cur, r) (by simp)
  have hrm := hp.mem (cur, r) (by simp)
  have hw : WrOk c L (.record cur r') := ⟨hg, hch ▸ (h.base.recs r (recAt_mem hr)).2, r, hr, hs⟩
  have hlive : ∀ o, live c (setAt c (recordBase c) L.recs cur r') o = if o = cur then some (k, r'.value) else live c L.recs o := by
    intro o; rw [live_setAt hr hs]; simp [Rec.kv, ho.1, hk']
  have hcur : live c L.recs cur = some (k, r.value) := live_some.2 ⟨r, hr, hrm.1, hk, rfl⟩
  have hinv : InPlace e c (applyL c L (.record cur r')) fbp := by
    refine h.update (e.hash k c.nb) (h.base.applyL hw) ?_ ?_ (fun j _ => rfl) ?_ ?_ (p' := (a ++ (cur, r) :: b).map (repl cur r')) ?_ ?_ h.fbpNodup
    · intro x hx
      rcases mem_setAt hr hs hx with rfl | hx
      · exact ho.2
      · exact h.noRemove x hx
    · intro o o' k1 v v' h1 h2
      rw [applyL, hlive] at h1 h2
      have hx : ∀ o v, (if o = cur then some (k, r'.value) else live c L.recs o) = some (k1, v) → ∃ v0, live c L.recs o = some (k1, v0) := by
        intro o v hh
        split at hh
        · rename_i eo; rw [eo, hcur]; cases hh; exact ⟨_, rfl⟩
        · exact ⟨v, hh⟩
      obtain ⟨v1, hv1⟩ := hx _ _ h1
      obtain ⟨v2, hv2⟩ := hx _ _ h2
      exact h.uniq _ _ _ _ _ hv1 hv2
    · intro o p hpp hm
      exact hpp.setAt hr hs (off_notin (i := e.hash k c.nb) hpp hm hr (Or.inr (by rw [hk])))
    · intro o k1 v h1 h2
      rw [applyL, hlive] at h1
      split at h1
      · cases h1; exact absurd rfl h2
      · exact h1
    · refine ⟨hp.path.repl hr hs hch, ?_, ?_, ?_⟩
      · rw [repl_fst]; exact hp.nodup
      · intro x hx
        obtain ⟨y, hy, rfl⟩ := List.mem_map.1 hx
        simp only [repl]
        split
        · exact ⟨ho.1, by rw [hk']⟩
        · exact hp.mem y hy
      · intro o k1 v h1 h2
        rw [repl_fst]
        rw [applyL, hlive] at h1
        split at h1
        · rename_i eo; rw [eo]; simp
        · exact hp.complete o k1 v h1 h2
    · intro b' hb'
      obtain ⟨rb, h1, h2, h3⟩ := h.fbp b' hb'
      have : b'.off ≠ cur := by intro eq; rw [eq, hr] at h1; cases h1; exact hrm.1 h2
      exact ⟨rb, (recAt_setAt_other hr hs this).trans h1, h2, h3⟩
  refine ⟨⟨hw, trivial⟩, hinv, ?_⟩
  refine contents_upd h hinv k _ ?_ ?_
  · intro k' v hne
    simp only [applyL, hlive]
    constructor
    · rintro ⟨o, ho⟩
      split at ho
      · cases ho; exact absurd rfl hne
      · exact ⟨o, ho⟩
    · rintro ⟨o, ho⟩
      refine ⟨o, ?_⟩
      rw [if_neg]; exact ho
      rintro rfl; rw [hcur] at ho; cases ho; exact hne rfl
  · intro v
    simp only [applyL, hlive]
    constructor
    · rintro ⟨o, ho⟩
      split at ho
      · cases ho; rfl
      · rename_i hne; exact absurd (h.uniq _ _ _ _ _ ho hcur) hne
    · rintro h1; cases h1; exact ⟨cur, by rw [if_pos rfl]⟩

/-- Turning a record that has been taken out of its chain into a void one. `L0` is the state before the operation, `L`
the present one. -/
theorem voided_spec {L0 L : Lay} {fbp fbp' : List FB} (h0 : InPlace e c L0 fbp) (hb : Base c L)
    (hops : ∀ r ∈ L.recs, r.op ≠ .remove) {k : Bytes} {cur : Nat} {r : Rec}
    (hr : recAt c (recordBase c) L.recs cur = some r) (hrk : r.key = k) (hrv : r.op ≠ .void)
    {p' : List (Nat × Rec)} (hpath : Path c L.recs (L.buckets.getD (e.hash k c.nb) 0) p') (hnd : (p'.map (·.1)).Nodup)
    (hmem : ∀ x ∈ p', x.2.op ≠ .void ∧ e.hash x.2.key c.nb = e.hash k c.nb) (hcur : cur ∉ p'.map (·.1))
    (hcomp : ∀ o k' v, o ≠ cur → live c L.recs o = some (k', v) → e.hash k' c.nb = e.hash k c.nb → o ∈ p'.map (·.1))
    (hu : ∀ o o' k' v v', o ≠ cur → o' ≠ cur → live c L.recs o = some (k', v) → live c L.recs o' = some (k', v') → o = o')
    (hj : ∀ j, j ≠ e.hash k c.nb → L.buckets.getD j 0 = L0.buckets.getD j 0)
    (hps : ∀ o p, Path c L0.recs o p → (∀ x ∈ p, x.2.op ≠ .void ∧ e.hash x.2.key c.nb ≠ e.hash k c.nb) → Path c L.recs o p)
    (hl : ∀ o k' v, o ≠ cur → live c L.recs o = some (k', v) → e.hash k' c.nb ≠ e.hash k c.nb → live c L0.recs o = some (k', v))
    (hpool : ∀ x ∈ fbp', x = ⟨cur, r.size c⟩ ∨ (x.off ≠ cur ∧ ∃ rb, recAt c (recordBase c) L.recs x.off = some rb ∧
      rb.op = .void ∧ rb.size c = x.size)) (hpn : (fbp'.map (·.off)).Nodup) :
    WrOk c L (.record cur (setData c .void (r.size c) [] [] 0)) ∧
    InPlace e c (applyL c L (.record cur (setData c .void (r.size c) [] [] 0))) fbp' ∧
    ∀ o, live c (applyL c L (.record cur (setData c .void (r.size c) [] [] 0))).recs o = if o = cur then none else live c L.recs o := by
  have hg := (hb.recs r (recAt_mem hr)).1
  have hsz := void_size hg.align .void 0
  have hlive : ∀ o, live c (setAt c (recordBase c) L.recs cur (setData c .void (r.size c) [] [] 0)) o =
      if o = cur then none else live c L.recs o := by
    intro o; rw [live_setAt hr hsz]; simp [Rec.kv, setData]
  have hw : WrOk c L (.record cur (setData c .void (r.size c) [] [] 0)) :=
    ⟨goodVoid hg, by simpa [setData] using end_pos L, r, hr, hsz⟩
  refine ⟨hw, ?_, hlive⟩
  refine h0.update (e.hash k c.nb) (hb.applyL hw) ?_ ?_ hj ?_ ?_ (p' := p') ?_ ?_ hpn
  · intro x hx
    rcases mem_setAt hr hsz hx with rfl | hx
    · simp [setData]
    · exact hops x hx
  · intro o o' k1 v v' h1 h2
    rw [applyL, hlive] at h1 h2
    split at h1
    · cases h1
    · split at h2
      · cases h2
      · exact hu o o' k1 v v' (by assumption) (by assumption) h1 h2
  · intro o p hp hm
    have hp1 := hps o p hp hm
    have : cur ∉ p.map (·.1) := off_notin (i := e.hash k c.nb) hp1 hm hr (Or.inr (by rw [hrk]))
    exact hp1.setAt hr hsz this
  · intro o k1 v h1 h2
    rw [applyL, hlive] at h1
    split at h1
    · cases h1
    · exact hl o k1 v (by assumption) h1 h2
  · refine ⟨hpath.setAt hr hsz hcur, hnd, hmem, ?_⟩
    intro o k1 v h1 h2
    rw [applyL, hlive] at h1
    split at h1
    · cases h1
    · exact hcomp o k1 v (by assumption) h1 h2
  · intro x hx
    rcases hpool x hx with rfl | ⟨hne, rb, h1, h2, h3⟩
    · exact ⟨_, recAt_setAt_self hr hsz, rfl, hsz⟩
    · exact ⟨rb, (recAt_setAt_other hr hsz hne).trans h1, h2, h3⟩

theorem nodup_parts {a b : List (Nat × Rec)} {x : Nat × Rec} (h : ((a ++ x :: b).map (·.1)).Nodup) :
    (a.map (·.1)).Nodup ∧ (b.map (·.1)).Nodup ∧ x.1 ∉ a.map (·.1) ∧ x.1 ∉ b.map (·.1) ∧
    (∀ z ∈ a.map (·.1), z ∉ b.map (·.1)) := by
  rw [List.map_append, List.map_cons, List.nodup_append, List.nodup_cons] at h
  obtain ⟨h1, ⟨h2, h3⟩, h4⟩ := h
  refine ⟨h1, h3, fun hm => h4 _ hm _ (by simp) rfl, h2, fun z hz hb => h4 z hz z (by simp only [List.mem_cons]; exact Or.inr hb) rfl⟩

theorem end_applyL_le {L : Lay} {w : Wr} (h : WrOk c L w) {x : Nat} (hx : x < L.end_ c) : x < (applyL c L w).end_ c :=
  Nat.lt_of_lt_of_le hx (end_applyL h)

/-- Removing the record of a key. -/
theorem remove_spec {L : Lay} {fbp fbp' : List FB} (h : InPlace e c L fbp) {k : Bytes} {a cur r b}
    (hi : e.hash k c.nb < c.nb)
    (hp : IChain e c L (e.hash k c.nb) (a ++ (cur, r) :: b)) (hk : r.key = k)
    (hpool : ∀ x ∈ fbp', x = ⟨cur, r.size c⟩ ∨ x ∈ fbp) (hpn : (fbp'.map (·.off)).Nodup) (hcf : cur ∉ fbp.map (·.off)) :
    WrsOk c L [linkWr (lastOff a 0) (e.hash k c.nb) r.child, .record cur (setData c .void (r.size c) [] [] 0)] ∧
    InPlace e c (applyLs c L [linkWr (lastOff a 0) (e.hash k c.nb) r.child, .record cur (setData c .void (r.size c) [] [] 0)]) fbp' ∧
    contents (applyLs c L [linkWr (lastOff a 0) (e.hash k c.nb) r.child, .record cur (setData c .void (r.size c) [] [] 0)]).recs =
      (contents L.recs).upd k none ∧
    (c.inPlace = true → Stray e c L (applyL c L (linkWr (lastOff a 0) (e.hash k c.nb) r.child))) := by
  have hr : recAt c (recordBase c) L.recs cur = some r := hp.path.at (cur, r) (by simp)
  have hrm := hp.mem (cur, r) (by simp)
  have hcurl : live c L.recs cur = some (k, r.value) := live_some.2 ⟨r, hr, hrm.1, hk, rfl⟩
  obtain ⟨n1, n2, n3, n4, n5⟩ := nodup_parts hp.nodup
  have hgood := h.base.recs r (recAt_mem hr)
  have hq : Path c L.recs r.child b := hp.path.tail
  have hnq : a = [] ∨ lastOff a 0 ∉ b.map (·.1) := by
    by_cases ha : a = []
    · exact Or.inl ha
    · exact Or.inr (n5 _ (lastOff_mem a 0 ha))
  have hR := relink_spec h.base hi hp.path n1 hq hnq ⟨hgood.1.child, hgood.2⟩
  have hcl : a = [] ∨ cur ≠ lastOff a 0 := by
    by_cases ha : a = []
    · exact Or.inl ha
    · exact Or.inr (fun e1 => n3 (e1 ▸ lastOff_mem a 0 ha))
  have hr1 := hR.same cur r hr hcl
  obtain ⟨a', ha', hmem', hpath'⟩ := hR.path
  have hb1 := h.base.applyL hR.wr
  have hfst : (a' ++ b).map (·.1) = a.map (·.1) ++ b.map (·.1) := by rw [List.map_append, ha']
  have hnd : ((a' ++ b).map (·.1)).Nodup := by
    rw [hfst]
    have := hp.nodup
    rw [List.map_append, List.map_cons, List.nodup_append, List.nodup_cons] at this
    rw [List.nodup_append]
    exact ⟨n1, n2, fun x hx y hy => this.2.2 x hx y (by simp only [List.mem_cons]; exact Or.inr hy)⟩
  have hops : ∀ y ∈ (applyL c L (linkWr (lastOff a 0) (e.hash k c.nb) r.child)).recs, y.op ≠ .remove := by
    intro x hx
    obtain ⟨r0, h1, h2⟩ := hR.ops x hx
    rw [h2]; exact h.noRemove r0 h1
  have hv := voided_spec (fbp' := fbp') h hb1 hops hr1 hk hrm.1 hpath' hnd
    (by
      intro x hx
      rcases List.mem_append.1 hx with hx | hx
      · obtain ⟨z, hz, _, ch, e2⟩ := hmem' x hx
        have := hp.mem z (by simp [hz])
        rw [e2]; exact this
      · exact hp.mem x (by simp [hx]))
    (by rw [hfst, List.mem_append]; exact fun x => x.elim n3 n4)
    (by
      intro o k' v hne ho hh
      rw [hR.live] at ho
      have := hp.complete o k' v ho hh
      rw [List.map_append, List.map_cons, List.mem_append, List.mem_cons] at this
      rw [hfst, List.mem_append]
      rcases this with h1 | h1 | h1
      · exact Or.inl h1
      · exact absurd h1 hne
      · exact Or.inr h1)
    (by
      intro o o' k' v v' _ _ h1 h2
      rw [hR.live] at h1 h2
      exact h.uniq _ _ _ _ _ h1 h2)
    hR.other
    (by
      intro o p hpp hm
      apply hR.paths o p hpp
      by_cases ha : a = []
      · exact Or.inl ha
      · refine Or.inr ?_
        obtain ⟨z, hz, ez⟩ := lastOff_in ha
        exact off_notin (i := e.hash k c.nb) hpp hm (ez ▸ hp.path.at z (by simp [hz])) (Or.inr (hp.mem z (by simp [hz])).2))
    (by intro o k' v _ ho _; rw [hR.live] at ho; exact ho)
    (by
      intro x hx
      rcases hpool x hx with rfl | hx
      · exact Or.inl rfl
      · refine Or.inr ⟨fun e1 => hcf (e1 ▸ List.mem_map.2 ⟨x, hx, rfl⟩), ?_⟩
        obtain ⟨rb, h1, h2, h3⟩ := h.fbp x hx
        obtain ⟨ch, h4⟩ := hR.keep _ _ h1
        exact ⟨_, h4, h2, h3⟩)
    hpn
  have hstray : c.inPlace = true → Stray e c L (applyL c L (linkWr (lastOff a 0) (e.hash k c.nb) r.child)) := by
    intro hm
    have hn : cur ∉ (a' ++ b).map (·.1) := by rw [hfst, List.mem_append]; exact fun x => x.elim n3 n4
    refine ⟨?_, cur, r, a' ++ b, hr1, hrm.1, by rw [hk]; exact hpath', hn, Or.inl hm⟩
    intro j hj
    by_cases ej : j = e.hash k c.nb
    · subst ej; exact ⟨_, hpath'⟩
    · obtain ⟨p, hp0⟩ := h.chain j hj
      refine ⟨p, ?_⟩
      rw [hR.other j ej]
      apply hR.paths _ p hp0.path
      by_cases ha : a = []
      · exact Or.inl ha
      · refine Or.inr ?_
        obtain ⟨z, hz, ez⟩ := lastOff_in ha
        exact off_notin (i := e.hash k c.nb) hp0.path (fun x hx => ⟨(hp0.mem x hx).1, by rw [(hp0.mem x hx).2]; exact ej⟩)
          (ez ▸ hp.path.at z (by simp [hz])) (Or.inr (hp.mem z (by simp [hz])).2)
  refine ⟨⟨hR.wr, hv.1, trivial⟩, hv.2.1, ?_, hstray⟩
  refine contents_upd h hv.2.1 k none ?_ ?_
  · intro k' v hne
    simp only [hv.2.2, hR.live]
    constructor
    · rintro ⟨o, ho⟩
      split at ho
      · cases ho
      · exact ⟨o, ho⟩
    · rintro ⟨o, ho⟩
      refine ⟨o, ?_⟩
      rw [if_neg]; exact ho
      rintro rfl; rw [hcurl] at ho; cases ho; exact hne rfl
  · intro v
    simp only [hv.2.2, hR.live]
    constructor
    · rintro ⟨o, ho⟩
      split at ho
      · cases ho
      · rename_i hne; exact absurd (h.uniq _ _ _ _ _ ho hcurl) hne
    · rintro h1; cases h1

/-- Moving the record of a key to a new place. -/
theorem move_spec {L : Lay} {fbp fbp1 fbp' : List FB} (h : InPlace e c L fbp) {k v' : Bytes} {a cur r b}
    (hi : e.hash k c.nb < c.nb)
    (hp : IChain e c L (e.hash k c.nb) (a ++ (cur, r) :: b)) (hk : r.key = k) {w : Wr} {off : Nat} {nr : Rec}
    (hc : CfgOk c)
    (hP : Placed e c L fbp w off nr fbp1) (hnk : nr.key = k) (hnv : nr.value = v') (hnc : nr.child = r.child)
    (hpool : ∀ x ∈ fbp', x = ⟨cur, r.size c⟩ ∨ x ∈ fbp1) (hpn : (fbp'.map (·.off)).Nodup) (hcf : cur ∉ fbp.map (·.off)) :
    WrsOk c L [w, linkWr (lastOff a 0) (e.hash k c.nb) off, .record cur (setData c .void (r.size c) [] [] 0)] ∧
    InPlace e c (applyLs c L [w, linkWr (lastOff a 0) (e.hash k c.nb) off, .record cur (setData c .void (r.size c) [] [] 0)]) fbp' ∧
    contents (applyLs c L [w, linkWr (lastOff a 0) (e.hash k c.nb) off, .record cur (setData c .void (r.size c) [] [] 0)]).recs =
      (contents L.recs).upd k (some v') ∧
    (c.inPlace = true → Stray e c L (applyL c (applyL c L w) (linkWr (lastOff a 0) (e.hash k c.nb) off))) := by
  have hr : recAt c (recordBase c) L.recs cur = some r := hp.path.at (cur, r) (by simp)
  have hrm := hp.mem (cur, r) (by simp)
  have hcurl : live c L.recs cur = some (k, r.value) := live_some.2 ⟨r, hr, hrm.1, hk, rfl⟩
  obtain ⟨n1, n2, n3, n4, n5⟩ := nodup_parts hp.nodup
  have hb1 := h.base.applyL hP.wr
  obtain ⟨hpath1, hoff⟩ := hP.path _ _ hp.path (fun x hx => (hp.mem x hx).1)
  have hoffc : cur ≠ off := by
    intro e1; apply hoff; rw [← e1]; simp
  have hr1 : recAt c (recordBase c) (applyL c L w).recs cur = some r := by rw [hP.other cur hoffc]; exact hr
  have hq : Path c (applyL c L w).recs off ((off, nr) :: b) := ⟨rfl, hP.new, hnc ▸ hpath1.tail⟩
  have hofa : off ∉ a.map (·.1) ∧ off ∉ b.map (·.1) := by
    rw [List.map_append, List.map_cons, List.mem_append, List.mem_cons] at hoff
    exact ⟨fun x => hoff (Or.inl x), fun x => hoff (Or.inr (Or.inr x))⟩
  have hnq : a = [] ∨ lastOff a 0 ∉ ((off, nr) :: b).map (·.1) := by
    by_cases ha : a = []
    · exact Or.inl ha
    · right
      have hla := lastOff_mem a 0 ha
      rw [List.map_cons, List.mem_cons]
      rintro (h1 | h1)
      · have h1 : lastOff a 0 = off := h1
        exact hofa.1 (h1 ▸ hla)
      · exact n5 _ hla h1
  have hbk : (applyL c L w).buckets = L.buckets := hP.buckets
  have hp1 : Path c (applyL c L w).recs ((applyL c L w).buckets.getD (e.hash k c.nb) 0) (a ++ (cur, r) :: b) := by
    rw [hbk]; exact hpath1
  have hoffa : off % (1 <<< c.ap) = 0 ∧ off < (applyL c L w).end_ c := by
    refine ⟨hb1.off_aligned hc hP.new, ?_⟩
    have := recAt_lt hP.new; have := size_pos (c := c) nr
    simp only [Lay.end_]; omega
  have hR := relink_spec hb1 hi hp1 n1 hq hnq hoffa
  have hcl : a = [] ∨ cur ≠ lastOff a 0 := by
    by_cases ha : a = []
    · exact Or.inl ha
    · exact Or.inr (fun e1 => n3 (e1 ▸ lastOff_mem a 0 ha))
  have hr2 := hR.same cur r hr1 hcl
  obtain ⟨a', ha', hmem', hpath'⟩ := hR.path
  have hb2 := hb1.applyL hR.wr
  have hfst : (a' ++ (off, nr) :: b).map (·.1) = a.map (·.1) ++ off :: b.map (·.1) := by
    rw [List.map_append, ha', List.map_cons]
  have hnd : ((a' ++ (off, nr) :: b).map (·.1)).Nodup := by
    rw [hfst]
    have := hp.nodup
    rw [List.map_append, List.map_cons, List.nodup_append, List.nodup_cons] at this
    rw [List.nodup_append, List.nodup_cons]
    refine ⟨n1, ⟨hofa.2, n2⟩, ?_⟩
    intro x hx y hy
    rcases List.mem_cons.1 hy with rfl | hy
    · rintro rfl; exact hofa.1 hx
    · exact this.2.2 x hx y (by simp only [List.mem_cons]; exact Or.inr hy)
  have hops1 : ∀ r ∈ (applyL c L w).recs, r.op ≠ .remove := by
    intro x hx
    obtain ⟨o, ho⟩ := exists_recAt (c := c) (b := recordBase c) hx
    by_cases eo : o = off
    · subst eo; rw [hP.new] at ho; cases ho; exact hP.noRemove
    · rw [hP.other o eo] at ho; exact h.noRemove x (recAt_mem ho)
  have hops : ∀ r ∈ (applyL c (applyL c L w) (linkWr (lastOff a 0) (e.hash k c.nb) off)).recs, r.op ≠ .remove := by
    intro x hx
    obtain ⟨r0, h1, h2⟩ := hR.ops x hx
    rw [h2]; exact hops1 r0 h1
  have hlive1 : ∀ o, live c (applyL c (applyL c L w) (linkWr (lastOff a 0) (e.hash k c.nb) off)).recs o =
      if o = off then some (k, v') else live c L.recs o := by
    intro o; rw [hR.live, hP.live, hnk, hnv]
  have hv := voided_spec (fbp' := fbp') h hb2 hops hr2 hk hrm.1 hpath' hnd
    (by
      intro x hx
      rcases List.mem_append.1 hx with hx | hx
      · obtain ⟨z, hz, _, ch, e2⟩ := hmem' x hx
        have := hp.mem z (by simp [hz])
        rw [e2]; exact this
      · rcases List.mem_cons.1 hx with rfl | hx
        · exact ⟨hP.void, by rw [hnk]⟩
        · exact hp.mem x (by simp [hx]))
    (by
      rw [hfst, List.mem_append, List.mem_cons]
      rintro (h1 | h1 | h1)
      · exact n3 h1
      · exact hoffc h1
      · exact n4 h1)
    (by
      intro o k' v hne ho hh
      rw [hlive1] at ho
      rw [hfst, List.mem_append, List.mem_cons]
      split at ho
      · right; left; assumption
      · have := hp.complete o k' v ho hh
        rw [List.map_append, List.map_cons, List.mem_append, List.mem_cons] at this
        rcases this with h1 | h1 | h1
        · exact Or.inl h1
        · exact absurd h1 hne
        · exact Or.inr (Or.inr h1))
    (by
      intro o o' k' v1 v2 g1 g2 h1 h2
      rw [hlive1] at h1 h2
      split at h1
      · split at h2
        · rename_i e1 e2; rw [e1, e2]
        · cases h1; exact absurd (h.uniq _ _ _ _ _ h2 hcurl) g2
      · split at h2
        · cases h2; exact absurd (h.uniq _ _ _ _ _ h1 hcurl) g1
        · exact h.uniq _ _ _ _ _ h1 h2)
    (by intro j hj; rw [hR.other j hj, hbk])
    (by
      intro o p hpp hm
      obtain ⟨hq1, hq2⟩ := hP.path o p hpp (fun x hx => (hm x hx).1)
      apply hR.paths o p hq1
      by_cases ha : a = []
      · exact Or.inl ha
      · refine Or.inr ?_
        obtain ⟨z, hz, ez⟩ := lastOff_in ha
        exact off_notin (i := e.hash k c.nb) hpp hm (ez ▸ hp.path.at z (by simp [hz])) (Or.inr (hp.mem z (by simp [hz])).2))
    (by
      intro o k' v _ ho hh
      rw [hlive1] at ho
      split at ho
      · cases ho; exact absurd rfl hh
      · exact ho)
    (by
      intro x hx
      rcases hpool x hx with rfl | hx
      · exact Or.inl rfl
      · obtain ⟨g1, g2⟩ := hP.pool x hx
        refine Or.inr ⟨fun e1 => hcf (e1 ▸ List.mem_map.2 ⟨x, g1, rfl⟩), ?_⟩
        obtain ⟨rb, h1, h2, h3⟩ := h.fbp x g1
        rw [← hP.other x.off g2] at h1
        obtain ⟨ch, h4⟩ := hR.keep _ _ h1
        exact ⟨_, h4, h2, h3⟩)
    hpn
  refine ⟨⟨hP.wr, hR.wr, hv.1, trivial⟩, hv.2.1, ?_⟩
  have hfin : ∀ o, live c (applyLs c L [w, linkWr (lastOff a 0) (e.hash k c.nb) off, .record cur (setData c .void (r.size c) [] [] 0)]).recs o =
      if o = cur then none else if o = off then some (k, v') else live c L.recs o := by
    intro o
    have := hv.2.2 o
    rw [hlive1] at this
    exact this
  have hstray : c.inPlace = true → Stray e c L (applyL c (applyL c L w) (linkWr (lastOff a 0) (e.hash k c.nb) off)) := by
    intro hm
    have hn : cur ∉ (a' ++ (off, nr) :: b).map (·.1) := by
      rw [hfst, List.mem_append, List.mem_cons]
      rintro (h1 | h1 | h1)
      · exact n3 h1
      · exact hoffc h1
      · exact n4 h1
    refine ⟨?_, cur, r, _, hr2, hrm.1, by rw [hk]; exact hpath', hn, Or.inl hm⟩
    intro j hj
    by_cases ej : j = e.hash k c.nb
    · subst ej; exact ⟨_, hpath'⟩
    · obtain ⟨p, hp0⟩ := h.chain j hj
      refine ⟨p, ?_⟩
      rw [hR.other j ej, hbk]
      obtain ⟨hq1, hq2⟩ := hP.path _ p hp0.path (fun x hx => (hp0.mem x hx).1)
      apply hR.paths _ p hq1
      by_cases ha : a = []
      · exact Or.inl ha
      · refine Or.inr ?_
        obtain ⟨z, hz, ez⟩ := lastOff_in ha
        exact off_notin (i := e.hash k c.nb) hp0.path (fun x hx => ⟨(hp0.mem x hx).1, by rw [(hp0.mem x hx).2]; exact ej⟩)
          (ez ▸ hp.path.at z (by simp [hz])) (Or.inr (hp.mem z (by simp [hz])).2)
  refine ⟨?_, hstray⟩
  refine contents_upd h hv.2.1 k (some v') ?_ ?_
  · intro k' v hne
    constructor
    · rintro ⟨o, ho⟩
      have ho : live c (applyLs c L [w, linkWr (lastOff a 0) (e.hash k c.nb) off, .record cur (setData c .void (r.size c) [] [] 0)]).recs o = _ := ho
      rw [hfin] at ho
      split at ho
      · cases ho
      · split at ho
        · cases ho; exact absurd rfl hne
        · exact ⟨o, ho⟩
    · rintro ⟨o, ho⟩
      refine ⟨o, ?_⟩
      refine (hfin o).trans ?_
      rw [if_neg, if_neg]; exact ho
      · rintro rfl; rw [hP.oldLive] at ho; cases ho
      · rintro rfl; rw [hcurl] at ho; cases ho; exact hne rfl
  · intro v
    constructor
    · rintro ⟨o, ho⟩
      have ho : live c (applyLs c L [w, linkWr (lastOff a 0) (e.hash k c.nb) off, .record cur (setData c .void (r.size c) [] [] 0)]).recs o = _ := ho
      rw [hfin] at ho
      split at ho
      · cases ho
      · split at ho
        · cases ho; rfl
        · rename_i hne _; exact absurd (h.uniq _ _ _ _ _ ho hcurl) hne
    · rintro h1; cases h1
      exact ⟨off, (hfin off).trans (by rw [if_neg (Ne.symm hoffc), if_pos rfl])⟩

/-- Adding a record for a new key at the head of its chain. -/
theorem add_spec {L : Lay} {fbp fbp1 : List FB} (h : InPlace e c L fbp) {k v' : Bytes} {p}
    (hi : e.hash k c.nb < c.nb) (hc : CfgOk c)
    (hp : IChain e c L (e.hash k c.nb) p) (hk : ∀ x ∈ p, x.2.key ≠ k) {w : Wr} {off : Nat} {nr : Rec}
    (hP : Placed e c L fbp w off nr fbp1) (hnk : nr.key = k) (hnv : nr.value = v')
    (hnc : nr.child = L.buckets.getD (e.hash k c.nb) 0) :
    WrsOk c L [w, .bucket (e.hash k c.nb) off] ∧
    InPlace e c (applyLs c L [w, .bucket (e.hash k c.nb) off]) fbp1 ∧
    contents (applyLs c L [w, .bucket (e.hash k c.nb) off]).recs = (contents L.recs).upd k (some v') := by
  have hb1 := h.base.applyL hP.wr
  obtain ⟨hpath1, hoff⟩ := hP.path _ _ hp.path (fun x hx => (hp.mem x hx).1)
  have hq : Path c (applyL c L w).recs off ((off, nr) :: p) := ⟨rfl, hP.new, hnc ▸ hpath1⟩
  have hbk : (applyL c L w).buckets = L.buckets := hP.buckets
  have hp1 : Path c (applyL c L w).recs ((applyL c L w).buckets.getD (e.hash k c.nb) 0) ([] ++ p) := by
    rw [hbk]; exact hpath1
  have hoffa : off % (1 <<< c.ap) = 0 ∧ off < (applyL c L w).end_ c := by
    refine ⟨hb1.off_aligned hc hP.new, ?_⟩
    have := recAt_lt hP.new; have := size_pos (c := c) nr
    simp only [Lay.end_]; omega
  have hR := relink_spec hb1 hi hp1 (by simp) hq (Or.inl rfl) hoffa
  have ew : linkWr (lastOff [] 0) (e.hash k c.nb) off = .bucket (e.hash k c.nb) off := by simp [linkWr, lastOff]
  rw [ew] at hR
  obtain ⟨a', ha', hmem', hpath'⟩ := hR.path
  have ea : a' = [] := by simpa using ha'
  subst ea
  have hlive1 : ∀ o, live c (applyL c (applyL c L w) (.bucket (e.hash k c.nb) off)).recs o =
      if o = off then some (k, v') else live c L.recs o := by
    intro o; rw [hR.live, hP.live, hnk, hnv]
  have hnone : ∀ o v, live c L.recs o ≠ some (k, v) := by
    intro o v ho
    have hm := hp.complete o k v ho rfl
    obtain ⟨x, hx, rfl⟩ := List.mem_map.1 hm
    obtain ⟨r, hr, _, hk', _⟩ := live_some.1 ho
    have := hp.path.at x hx
    rw [hr] at this; cases this
    exact hk x hx hk'
  have hops1 : ∀ r ∈ (applyL c L w).recs, r.op ≠ .remove := by
    intro x hx
    obtain ⟨o, ho⟩ := exists_recAt (c := c) (b := recordBase c) hx
    by_cases eo : o = off
    · subst eo; rw [hP.new] at ho; cases ho; exact hP.noRemove
    · rw [hP.other o eo] at ho; exact h.noRemove x (recAt_mem ho)
  have hinv : InPlace e c (applyLs c L [w, .bucket (e.hash k c.nb) off]) fbp1 := by
    refine h.update (e.hash k c.nb) (hb1.applyL hR.wr) ?_ ?_ ?_ ?_ ?_ (p' := (off, nr) :: p) ?_ ?_ hP.poolNodup
    · intro x hx
      obtain ⟨r0, h1, h2⟩ := hR.ops x hx
      rw [h2]; exact hops1 r0 h1
    · intro o o' k1 v1 v2 h1 h2
      have h1 := (hlive1 o).symm.trans h1
      have h2 := (hlive1 o').symm.trans h2
      split at h1
      · split at h2
        · rename_i e1 e2; rw [e1, e2]
        · cases h1; exact absurd h2 (hnone _ _)
      · split at h2
        · cases h2; exact absurd h1 (hnone _ _)
        · exact h.uniq _ _ _ _ _ h1 h2
    · intro j hj; exact (hR.other j hj).trans (by rw [hbk])
    · intro o p hpp hm
      exact hR.paths o p (hP.path o p hpp (fun x hx => (hm x hx).1)).1 (Or.inl rfl)
    · intro o k1 v1 h1 h2
      have h1 := (hlive1 o).symm.trans h1
      split at h1
      · cases h1; exact absurd rfl h2
      · exact h1
    · refine ⟨hpath', ?_, ?_, ?_⟩
      · rw [List.map_cons, List.nodup_cons]; exact ⟨hoff, hp.nodup⟩
      · intro x hx
        rcases List.mem_cons.1 hx with rfl | hx
        · exact ⟨hP.void, by rw [hnk]⟩
        · exact hp.mem x hx
      · intro o k1 v1 h1 h2
        have h1 := (hlive1 o).symm.trans h1
        rw [List.map_cons, List.mem_cons]
        split at h1
        · left; assumption
        · exact Or.inr (hp.complete o k1 v1 h1 h2)
    · intro x hx
      obtain ⟨g1, g2⟩ := hP.pool x hx
      obtain ⟨rb, h1, h2, h3⟩ := h.fbp x g1
      rw [← hP.other x.off g2] at h1
      obtain ⟨ch, h4⟩ := hR.keep _ _ h1
      exact ⟨_, h4, h2, h3⟩
  refine ⟨⟨hP.wr, hR.wr, trivial⟩, hinv, ?_⟩
  refine contents_upd h hinv k (some v') ?_ ?_
  · intro k' v hne
    constructor
    · rintro ⟨o, ho⟩
      have ho := (hlive1 o).symm.trans ho
      split at ho
      · cases ho; exact absurd rfl hne
      · exact ⟨o, ho⟩
    · rintro ⟨o, ho⟩
      refine ⟨o, (hlive1 o).trans ?_⟩
      rw [if_neg]; exact ho
      rintro rfl; rw [hP.oldLive] at ho; cases ho
  · intro v
    constructor
    · rintro ⟨o, ho⟩
      have ho := (hlive1 o).symm.trans ho
      split at ho
      · cases ho; rfl
      · exact absurd ho (hnone _ _)
    · rintro h1; cases h1
      exact ⟨off, (hlive1 off).trans (by rw [if_pos rfl])⟩

end Verif.Hash
