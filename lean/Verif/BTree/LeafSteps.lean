import Verif.BTree.Leaves
/-
Dividing a leaf and merging two leaves.
-/
namespace Verif.BTree
open Verif

variable {c : Cfg}

theorem recsSize_append (c : Cfg) (a b : List Rec) : recsSize c (a ++ b) = recsSize c a + recsSize c b := by
  simp [recsSize]

theorem body_eq {lv lv' : Nat → Option Leaf} {i : Nat} {l' : Leaf} (h : (lv' i).map (fun l => (l.recs, l.page)) = (lv i).map (fun l => (l.recs, l.page)))
    (hl : lv' i = some l') : ∃ l, lv i = some l ∧ l'.recs = l.recs ∧ l'.page = l.page := by
  rw [hl] at h
  cases hi : lv i with
  | none => rw [hi] at h; simp at h
  | some l =>
    rw [hi] at h
    simp only [Option.map_some, Option.some.injEq, Prod.mk.injEq] at h
    exact ⟨l, rfl, h.1, h.2⟩

theorem recsAt_body {lv lv' : Nat → Option Leaf} {i : Nat} (h : (lv' i).map (fun l => (l.recs, l.page)) = (lv i).map (fun l => (l.recs, l.page))) :
    recsAt lv' i = recsAt lv i := by
  unfold recsAt
  cases hi : lv i <;> cases hj : lv' i <;> rw [hi, hj] at h <;> simp_all

theorem divideLeaf_spec (hc : c.Ok) {s : State} {L A B : Layer} {k : Option Bytes} {h : Nat} {l : Leaf} (hLo : Lower c s L) (hL : L = A ++ (k, h) :: B)
    (hl : s.leaves h = some l) (h2 : 1 < l.recs.length) :
    ∃ s' m, divideLeaf c s h = some (s', m) ∧ Lower c s' (A ++ (k, h) :: (some m, s.numLeaf) :: B) ∧
      contents s'.leaves (A ++ (k, h) :: (some m, s.numLeaf) :: B) = contents s.leaves L ∧
      (∀ i, (s'.iters i).key = (s.iters i).key) ∧
      s' = { s with leaves := s'.leaves, numLeaf := s'.numLeaf, last := s'.last, iters := s'.iters } := by
  have hw := hc.weak
  have hmem : ∀ e, e ∈ A ∨ e = (k, h) ∨ e ∈ B → e ∈ L := fun e he => by rw [hL]; simpa using he
  have hlo := hLo.leaf (k, h) (hmem _ (by simp)) l hl
  have hne : l.recs.drop (l.recs.length / 2) ≠ [] := by
    intro h0
    have := List.drop_eq_nil_iff.1 h0
    omega
  obtain ⟨m, rest, hm⟩ := List.exists_cons_of_ne_nil hne
  obtain ⟨r0, rest0, hr0⟩ : ∃ r0 rest0, l.recs.take (l.recs.length / 2) = r0 :: rest0 := by
    refine List.exists_cons_of_ne_nil fun h0 => ?_
    rcases List.take_eq_nil_iff.1 h0 with h1 | h1
    · omega
    · rw [h1] at h2; simp at h2
  have hrec : l.recs = l.recs.take (l.recs.length / 2) ++ l.recs.drop (l.recs.length / 2) := (List.take_append_drop _ _).symm
  generalize htk : l.recs.take (l.recs.length / 2) = lo at hr0 hrec
  generalize hdr : l.recs.drop (l.recs.length / 2) = hi at hm hrec
  have hsrt := hlo.sorted
  rw [hrec] at hsrt
  unfold OrdMap.Sorted at hsrt
  rw [List.pairwise_append] at hsrt
  obtain ⟨so1, so2, so3⟩ := hsrt
  have hmm : m ∈ l.recs := by rw [hrec, hm]; simp
  have hm0 : c.lt r0.1 m.1 = true := so3 r0 (by rw [hr0]; simp) m (by rw [hm]; simp)
  have o0 := own_split hw hLo.seps hLo.nodup hL (hlo.own r0 (by rw [hrec, hr0]; simp))
  have om := own_split hw hLo.seps hLo.nodup hL (hlo.own m hmm)
  -- the separators
  have hsep : SepSorted c.lt (A ++ (k, h) :: (some m.1, s.numLeaf) :: B) := by
    have h0 := hLo.seps
    rw [hL] at h0
    rw [sepSorted_append] at h0 ⊢
    obtain ⟨q1, q2, q3⟩ := h0
    rw [sepSorted_cons] at q2 ⊢
    have hkm : sepLt c.lt k (some m.1) := by
      cases k with
      | none => trivial
      | some kk =>
        have : c.lt r0.1 kk = false := o0.1
        show c.lt kk m.1 = true
        rcases hw.cotrans r0.1 kk m.1 hm0 with h1 | h1
        · rw [this] at h1; cases h1
        · exact h1
    refine ⟨q1, ⟨fun b hb => ?_, sepSorted_cons.2 ⟨fun b hb => ?_, q2.2⟩⟩, fun a ha b hb => ?_⟩
    · rcases List.mem_cons.1 hb with rfl | hb
      · exact hkm
      · exact q2.1 b hb
    · have hab := om.2 b hb
      cases hb1 : b.1 with
      | none => rw [hb1] at hab; exact absurd hab (by simp [above])
      | some kb => rw [hb1] at hab; exact hab
    · rcases List.mem_cons.1 hb with rfl | hb
      · exact q3 a ha _ (by simp)
      · rcases List.mem_cons.1 hb with rfl | hb
        · exact sepLt_trans hw (q3 a ha _ (List.mem_cons_self)) hkm
        · exact q3 a ha _ (by simp [hb])
  have hnd := hLo.nodup
  rw [hL] at hnd
  have hloc := locate_insert hw hsep hnd
  rw [← hL] at hloc
  -- the nodes
  have hfr : ∀ e, e ∈ L → e.2 ≠ s.numLeaf := fun e he => Nat.ne_of_lt (hLo.fresh e he)
  have hlink := hLo.linked
  rw [hL] at hlink
  obtain ⟨k1, ⟨l', k2, k3, k4⟩, k5⟩ := linked_split.1 hlink
  simp only at k2 k5
  rw [hl] at k2
  cases k2
  have hndB : (B.map (·.2)).Nodup ∧ h ∉ B.map (·.2) ∧ h ∉ A.map (·.2) ∧ (∀ a ∈ A, a.2 ∉ B.map (·.2)) ∧ (A.map (·.2)).Nodup := by
    rw [List.map_append, List.nodup_append, List.map_cons, List.nodup_cons] at hnd
    refine ⟨hnd.2.1.2, hnd.2.1.1, fun hh => hnd.2.2 _ hh _ (by simp) rfl, fun a ha hb => ?_, hnd.1⟩
    exact hnd.2.2 a.2 (List.mem_map.2 ⟨a, ha, rfl⟩) a.2 (by simp only [List.mem_cons]; exact Or.inr hb) rfl
  obtain ⟨nB, nhB, nhA, nAB, nA⟩ := hndB
  let nid := s.numLeaf
  let new : Leaf := { c.newLeaf (some h) l.next with recs := hi, page := c.base + recsSize c hi }
  have k5' : Linked (upd s.leaves nid (some new)) (some h) B none := k5.congr fun e he => by
    have := hfr e (hmem e (by simp [he]))
    simp [upd, nid, this]
  obtain ⟨lv1, p1, p2, p3, p4⟩ := setPrev_spec (q := some nid) k5' nB
  have hhn : h ≠ nid := hfr (k, h) (hmem _ (by simp))
  have hlv1 : lv1 h = some l := by rw [p3 h nhB]; simp [upd, hhn, hl]
  let l2 : Leaf := { l with next := some nid, recs := lo, page := l.page - recsSize c hi, dirty := true }
  let lv2 := upd lv1 h (some l2)
  have hnidB : nid ∉ B.map (·.2) := fun hh => by
    obtain ⟨e, he, hee⟩ := List.mem_map.1 hh
    exact hfr e (hmem e (by simp [he])) hee
  have hl2h : lv2 h = some l2 := by simp [lv2, upd]
  have hl2n : lv2 nid = some new := by
    have : nid ≠ h := fun hh => hhn hh.symm
    simp only [lv2, upd, this, if_false]
    rw [p3 nid hnidB]
    simp [upd]
  have hl2o : ∀ i, i ≠ h → i ≠ nid → (lv2 i).map (fun l => (l.recs, l.page)) = (s.leaves i).map (fun l => (l.recs, l.page)) := fun i h1 h2 => by
    simp only [lv2, upd, h1, if_false]
    rw [p4 i]
    simp [upd, h2]
  refine ⟨{ s with
    leaves := lv2
    numLeaf := s.numLeaf + 1
    last := if s.last = h then nid else s.last
    iters := fun i => divideIter c h nid m.1 (s.iters i) }, m.1, ?_, ?_, ?_, ?_, rfl⟩
  · have hh : hi.head? = some m := by rw [hm]; rfl
    have p1' : setPrev (upd s.leaves s.numLeaf (some { c.newLeaf (some h) l.next with recs := hi, page := c.base + recsSize c hi })) l.next (some s.numLeaf)
        = some lv1 := by rw [k4]; exact (k4 ▸ p1)
    simp only [divideLeaf, hl, Option.bind_eq_bind, Option.bind_some, hdr, htk, hh, p1', hlv1]
    rfl
  · refine ⟨hsep, ?_, ?_, ?_, ?_, ?_, ?_, ?_⟩
    · rw [List.map_append, List.map_cons, List.map_cons]
      rw [List.map_append, List.map_cons] at hnd
      have := (List.perm_middle (l₁ := A.map (·.2)) (l₂ := B.map (·.2)) (a := nid)).symm
      have hnn : nid ∉ (A.map (·.2) ++ h :: B.map (·.2)) := by
        intro hh
        have : nid ∈ L.map (·.2) := by rw [hL]; simpa using hh
        obtain ⟨e, he, hee⟩ := List.mem_map.1 this
        exact hfr e he hee
      have h9 : (nid :: (A.map (·.2) ++ h :: B.map (·.2))).Nodup := List.nodup_cons.2 ⟨hnn, hnd⟩
      refine (List.Perm.nodup_iff ?_).1 h9
      rw [show (A.map (·.2) ++ h :: nid :: B.map (·.2)) = (A.map (·.2) ++ [h]) ++ nid :: B.map (·.2) by simp,
        show (A.map (·.2) ++ h :: B.map (·.2)) = (A.map (·.2) ++ [h]) ++ B.map (·.2) by simp]
      exact List.perm_middle.symm
    · intro e he
      rw [List.mem_append, List.mem_cons, List.mem_cons] at he
      rcases he with he | rfl | rfl | he
      · exact Nat.lt_succ_of_lt (hLo.fresh e (hmem e (by simp [he])))
      · exact Nat.lt_succ_of_lt (hLo.fresh _ (hmem _ (by simp)))
      · exact Nat.lt_succ_self _
      · exact Nat.lt_succ_of_lt (hLo.fresh e (hmem e (by simp [he])))
    · refine linked_split.2 ⟨k1.congr fun e he => ?_, ⟨l2, hl2h, k3, rfl⟩, ⟨⟨new, hl2n, rfl, k4⟩, p2.congr fun e he => ?_⟩⟩
      · have h1 : e.2 ≠ h := fun hh => nhA (hh ▸ List.mem_map.2 ⟨e, he, rfl⟩)
        have h3 := hfr e (hmem e (by simp [he]))
        simp only [lv2, upd, h1, if_false]
        rw [p3 e.2 (nAB e he)]
        simp [upd, nid, h3]
      · have h1 : e.2 ≠ h := fun hh => nhB (hh ▸ List.mem_map.2 ⟨e, he, rfl⟩)
        simp [lv2, upd, h1]
    · have := hLo.first
      rw [hL] at this
      rw [headId_append] at this ⊢
      exact this
    · intro hlk
      have := hLo.last hlk
      rw [hL, lastId_append] at this
      rw [lastId_append, lastId_cons]
      dsimp only
      by_cases hB : B = []
      · subst hB
        simp only [lastId, List.getLast?_nil, Option.map_none, Option.none_or, Option.some.injEq] at this
        simp [this, lastId, nid]
      · obtain ⟨b, hb⟩ : ∃ b, B.getLast? = some b := by
          cases hb : B.getLast? with
          | none => exact absurd (List.getLast?_eq_none_iff.1 hb) hB
          | some b => exact ⟨b, rfl⟩
        have hbB : b ∈ B := List.mem_of_getLast? hb
        have e1 : ∀ d, lastId B d = some b.2 := fun d => by simp [lastId, hb]
        rw [e1] at this ⊢
        have : s.last ≠ h := fun hh => nhB (by rw [← hh, ← Option.some.inj this]; exact List.mem_map.2 ⟨b, hbB, rfl⟩)
        simp [this, *]
    · intro e he l' hl'
      have main : ∀ i, i ≠ h → i ≠ nid → (∃ e ∈ L, e.2 = i) → ∀ l', lv2 i = some l' → LeafOk c (A ++ (k, h) :: (some m.1, nid) :: B) i l' := by
        rintro i h1 h3 ⟨e, he, rfl⟩ l' hl'
        obtain ⟨l0, g1, g2, g3⟩ := body_eq (hl2o e.2 h1 h3) hl'
        have ho := hLo.leaf e he l0 g1
        refine ⟨g2 ▸ ho.sorted, fun r hr => ?_, by rw [g2, g3]; exact ho.page⟩
        rw [g2] at hr
        rw [hloc, if_neg, ho.own r hr]
        rw [ho.own r hr]
        intro hh
        exact h1 (Option.some.inj hh.1)
      rw [List.mem_append, List.mem_cons, List.mem_cons] at he
      rcases he with he | rfl | rfl | he
      · exact main e.2 (fun hh => nhA (hh ▸ List.mem_map.2 ⟨e, he, rfl⟩)) (hfr e (hmem e (by simp [he]))) ⟨e, hmem e (by simp [he]), rfl⟩ l' hl'
      · have : l' = l2 := by
          have : lv2 h = some l' := hl'
          rw [hl2h] at this
          exact (Option.some.inj this).symm
        subst this
        refine ⟨so1, fun r hr => ?_, ?_⟩
        · have hr' : r ∈ lo := hr
          rw [hloc, if_neg, hlo.own r (by rw [hrec]; simp [hr'])]
          rintro ⟨_, hh⟩
          rw [so3 r hr' m (by rw [hm]; simp)] at hh
          cases hh
        · show l.page - recsSize c hi = c.base + recsSize c lo
          rw [hlo.page, hrec, recsSize_append]
          omega
      · have : l' = new := by
          have : lv2 nid = some l' := hl'
          rw [hl2n] at this
          exact (Option.some.inj this).symm
        subst this
        refine ⟨so2, fun r hr => ?_, rfl⟩
        have hr' : r ∈ hi := hr
        rw [hloc, if_pos]
        refine ⟨hlo.own r (by rw [hrec]; simp [hr']), ?_⟩
        rw [hm] at hr' so2
        rcases List.mem_cons.1 hr' with rfl | hr'
        · exact hw.irrefl _
        · exact hw.asymm ((List.pairwise_cons.1 so2).1 r hr')
      · exact main e.2 (fun hh => nhB (hh ▸ List.mem_map.2 ⟨e, he, rfl⟩)) (hfr e (hmem e (by simp [he]))) ⟨e, hmem e (by simp [he]), rfl⟩ l' hl'
    · intro i d hd
      dsimp only at hd ⊢
      unfold divideIter at hd ⊢
      by_cases hq : (s.iters i).leaf = some h ∧ c.lt ((s.iters i).key.getD []) m.1 = false
      · rw [if_pos hq] at hd ⊢
        obtain ⟨x, x1, x2⟩ := hLo.iters i h hq.1
        refine ⟨x, x1, ?_⟩
        rw [x1] at hq
        have := hq.2
        simp only [Option.getD_some] at this
        rw [hloc, if_pos ⟨x2, this⟩]
        exact hd
      · rw [if_neg hq] at hd ⊢
        obtain ⟨x, x1, x2⟩ := hLo.iters i d hd
        refine ⟨x, x1, ?_⟩
        rw [hloc, if_neg, x2]
        rintro ⟨y1, y2⟩
        rw [x2] at y1
        cases y1
        exact hq ⟨hd, by rw [x1]; exact y2⟩
  · rw [hL]
    simp only [contents_append, contents_cons]
    have cA : contents lv2 A = contents s.leaves A := contents_congr fun e he =>
      recsAt_body (hl2o e.2 (fun hh => nhA (hh ▸ List.mem_map.2 ⟨e, he, rfl⟩)) (hfr e (hmem e (by simp [he]))))
    have cB : contents lv2 B = contents s.leaves B := contents_congr fun e he =>
      recsAt_body (hl2o e.2 (fun hh => nhB (hh ▸ List.mem_map.2 ⟨e, he, rfl⟩)) (hfr e (hmem e (by simp [he]))))
    have c1 : recsAt lv2 h = lo := recsAt_some hl2h
    have c2 : recsAt lv2 s.numLeaf = hi := recsAt_some hl2n
    rw [cA, cB, c1, c2, recsAt_some hl, hrec, List.append_assoc]
  · intro i
    dsimp only
    unfold divideIter
    split <;> rfl

/-- What remains to be shown of a merge: the nodes `a`, `b` became `d`. -/
theorem lower_merge (hc : c.Ok) {s s' : State} {L A B : Layer} {k : Option Bytes} {m : Bytes} {a b d o : Nat} {la lb ld : Leaf} (hLo : Lower c s L)
    (hL : L = A ++ (k, a) :: (some m, b) :: B) (ha : s.leaves a = some la) (hb : s.leaves b = some lb) (hd : d = a ∧ o = b ∨ d = b ∧ o = a)
    (hnum : s'.numLeaf = s.numLeaf) (hlink : Linked s'.leaves none (A ++ (k, d) :: B) none) (hfirst : headId (A ++ (k, d) :: B) none = some s'.first)
    (hlast : s'.lastOk = true → lastId (A ++ (k, d) :: B) none = some s'.last)
    (hbody : ∀ e, e ∈ A ∨ e ∈ B → (s'.leaves e.2).map (fun l => (l.recs, l.page)) = (s.leaves e.2).map (fun l => (l.recs, l.page)))
    (hld : s'.leaves d = some ld) (hrecs : ld.recs = la.recs ++ lb.recs) (hpage : ld.page = la.page + lb.page - c.base)
    (hit : ∀ i, s'.iters i = mergeIter o d (s.iters i)) :
    Lower c s' (A ++ (k, d) :: B) ∧ contents s'.leaves (A ++ (k, d) :: B) = contents s.leaves L := by
  have hw := hc.weak
  have hnd := hLo.nodup
  rw [hL] at hnd
  have hsp := hLo.seps
  rw [hL] at hsp
  have hloc := locate_merge (d := d) hw hsp hnd
  rw [← hL] at hloc
  have hmem : ∀ e, e ∈ A ∨ e = (k, a) ∨ e = (some m, b) ∨ e ∈ B → e ∈ L := fun e he => by rw [hL]; simpa using he
  have hla := hLo.leaf (k, a) (hmem _ (by simp)) la ha
  have hlb := hLo.leaf (some m, b) (hmem _ (by simp)) lb hb
  have hnd' := hnd
  rw [List.map_append, List.nodup_append, List.map_cons, List.map_cons, List.nodup_cons, List.nodup_cons] at hnd'
  obtain ⟨nA, ⟨naB, nbB, nB⟩, nAB⟩ := hnd'
  have hAn : ∀ e ∈ A, e.2 ≠ a ∧ e.2 ≠ b := fun e he =>
    ⟨fun h => nAB _ (List.mem_map.2 ⟨e, he, rfl⟩) _ (by simp) h, fun h => nAB _ (List.mem_map.2 ⟨e, he, rfl⟩) _ (by simp) h⟩
  have hBn : ∀ e ∈ B, e.2 ≠ a ∧ e.2 ≠ b := fun e he =>
    ⟨fun h => naB (by rw [← h]; exact List.mem_cons_of_mem _ (List.mem_map.2 ⟨e, he, rfl⟩)), fun h => nbB (h ▸ List.mem_map.2 ⟨e, he, rfl⟩)⟩
  refine ⟨⟨?_, ?_, ?_, hlink, hfirst, hlast, ?_, ?_⟩, ?_⟩
  · have := sepSorted_drop hsp
    unfold SepSorted at this ⊢
    simpa using this
  · rw [List.map_append, List.nodup_append, List.map_cons, List.nodup_cons]
    refine ⟨nA, ⟨?_, nB⟩, fun x hx y hy => ?_⟩
    · rcases hd with ⟨rfl, _⟩ | ⟨rfl, _⟩
      · exact fun h => naB (List.mem_cons_of_mem _ h)
      · exact nbB
    · rcases List.mem_cons.1 hy with rfl | hy
      · rcases hd with ⟨rfl, _⟩ | ⟨rfl, _⟩
        · exact nAB x hx _ (by simp)
        · exact nAB x hx _ (by simp)
      · exact nAB x hx y (by simp only [List.mem_cons]; exact Or.inr (Or.inr hy))
  · intro e he
    rw [hnum]
    rw [List.mem_append, List.mem_cons] at he
    rcases he with he | rfl | he
    · exact hLo.fresh e (hmem e (by simp [he]))
    · rcases hd with ⟨rfl, _⟩ | ⟨rfl, _⟩
      · exact hLo.fresh (k, d) (hmem _ (by simp))
      · exact hLo.fresh (some m, d) (hmem _ (by simp))
    · exact hLo.fresh e (hmem e (by simp [he]))
  · intro e he l' hl'
    have main : e ∈ A ∨ e ∈ B → LeafOk c (A ++ (k, d) :: B) e.2 l' := by
      intro he
      obtain ⟨l0, g1, g2, g3⟩ := body_eq (hbody e he) hl'
      have ho := hLo.leaf e (hmem e (by rcases he with he | he <;> simp [he])) l0 g1
      refine ⟨g2 ▸ ho.sorted, fun r hr => ?_, by rw [g2, g3]; exact ho.page⟩
      rw [g2] at hr
      have hne : e.2 ≠ a ∧ e.2 ≠ b := he.elim (hAn e) (hBn e)
      rw [hloc, if_neg, ho.own r hr]
      rw [ho.own r hr]
      rintro (hh | hh)
      · exact hne.1 (Option.some.inj hh)
      · exact hne.2 (Option.some.inj hh)
    rw [List.mem_append, List.mem_cons] at he
    rcases he with he | rfl | he
    · exact main (Or.inl he)
    · have : l' = ld := by
        have : s'.leaves d = some l' := hl'
        rw [hld] at this
        exact (Option.some.inj this).symm
      subst this
      refine ⟨?_, fun r hr => ?_, ?_⟩
      · rw [hrecs]
        unfold OrdMap.Sorted
        rw [List.pairwise_append]
        refine ⟨hla.sorted, hlb.sorted, fun r hr r' hr' => ?_⟩
        have o1 := own_split hw hLo.seps hLo.nodup hL (hla.own r hr)
        have o2 := own_split hw hLo.seps hLo.nodup (P := A ++ [(k, a)]) (Q := B) (e := (some m, b)) (by rw [hL]; simp) (hlb.own r' hr')
        exact lt_of_above hw (o1.2 (some m, b) (by simp)) o2.1
      · rw [hrecs] at hr
        rw [hloc, if_pos]
        rcases List.mem_append.1 hr with hr | hr
        · exact Or.inl (hla.own r hr)
        · exact Or.inr (hlb.own r hr)
      · rw [hpage, hrecs, recsSize_append, hla.page, hlb.page]
        omega
    · exact main (Or.inr he)
  · intro i q hq
    rw [hit i] at hq ⊢
    unfold mergeIter at hq ⊢
    by_cases hh : (s.iters i).leaf = some o
    · rw [if_pos hh] at hq ⊢
      obtain ⟨x, x1, x2⟩ := hLo.iters i o hh
      refine ⟨x, x1, ?_⟩
      rw [hloc, if_pos]
      · exact hq
      · rcases hd with ⟨_, rfl⟩ | ⟨_, rfl⟩
        · exact Or.inr x2
        · exact Or.inl x2
    · rw [if_neg hh] at hq ⊢
      obtain ⟨x, x1, x2⟩ := hLo.iters i q hq
      refine ⟨x, x1, ?_⟩
      rw [hloc]
      split
      · rename_i hx
        rw [x2] at hx
        have : q = a ∨ q = b := hx.imp Option.some.inj Option.some.inj
        have hqo : q ≠ o := fun h => hh (by rw [hq, h])
        rcases hd with ⟨rfl, rfl⟩ | ⟨rfl, rfl⟩
        · rcases this with rfl | h
          · rfl
          · exact absurd h hqo
        · rcases this with h | rfl
          · exact absurd h hqo
          · rfl
      · exact x2
  · rw [hL]
    simp only [contents_append, contents_cons]
    rw [contents_congr (A := A) (lv' := s'.leaves) (lv := s.leaves) fun e he => recsAt_body (hbody e (Or.inl he)),
      contents_congr (A := B) (lv' := s'.leaves) (lv := s.leaves) fun e he => recsAt_body (hbody e (Or.inr he)),
      recsAt_some hld, recsAt_some ha, recsAt_some hb, hrecs, List.append_assoc]

theorem mergePrev_spec (hc : c.Ok) {s : State} {L A B : Layer} {k : Option Bytes} {m : Bytes} {a b : Nat} {nx : Option Nat} (pid : Nat) (p : Inner)
    (hLo : Lower c s L) (hL : L = A ++ (k, a) :: (some m, b) :: B) (hnx : ∀ n, nx = some n → headId B none = some n) :
    ∃ s', mergePrev c s pid p b a nx = some s' ∧ Lower c s' (A ++ (k, a) :: B) ∧ contents s'.leaves (A ++ (k, a) :: B) = contents s.leaves L ∧
      (∀ i, (s'.iters i).key = (s.iters i).key) ∧
      s' = { s with leaves := s'.leaves, inners := upd s.inners pid (some { p with links := joinPrev p.links b, dirty := true }), last := s'.last, iters := s'.iters } := by
  have hlink := hLo.linked
  rw [hL] at hlink
  obtain ⟨k1, ⟨la, ha, k3, k4⟩, k5⟩ := linked_split.1 hlink
  obtain ⟨⟨lb, hb, k6, k7⟩, k8⟩ := k5
  simp only at ha hb k6 k8
  have hnd := hLo.nodup
  rw [hL, List.map_append, List.nodup_append, List.map_cons, List.map_cons, List.nodup_cons, List.nodup_cons] at hnd
  obtain ⟨nA, ⟨naB, nbB, nB⟩, nAB⟩ := hnd
  have hAn : ∀ e ∈ A, e.2 ≠ a ∧ e.2 ≠ b ∧ e.2 ∉ B.map (·.2) := fun e he =>
    ⟨fun h => nAB _ (List.mem_map.2 ⟨e, he, rfl⟩) _ (by simp) h, fun h => nAB _ (List.mem_map.2 ⟨e, he, rfl⟩) _ (by simp) h,
      fun h => nAB _ (List.mem_map.2 ⟨e, he, rfl⟩) e.2 (by simp only [List.mem_cons]; exact Or.inr (Or.inr h)) rfl⟩
  have hBn : ∀ e ∈ B, e.2 ≠ a ∧ e.2 ≠ b := fun e he =>
    ⟨fun h => naB (by rw [← h]; exact List.mem_cons_of_mem _ (List.mem_map.2 ⟨e, he, rfl⟩)), fun h => nbB (h ▸ List.mem_map.2 ⟨e, he, rfl⟩)⟩
  have hab : a ≠ b := fun h => naB (by rw [h]; simp)
  have naB' : a ∉ B.map (·.2) := fun h => naB (List.mem_cons_of_mem _ h)
  let la' : Leaf := { la with recs := la.recs ++ lb.recs, page := la.page + (lb.page - c.base), next := lb.next, dirty := true }
  have k8' : Linked (upd s.leaves a (some la')) (some b) B none := k8.congr fun e he => by simp [upd, (hBn e he).1]
  obtain ⟨lv1, p1, p2, p3, p4⟩ := setPrev_spec (q := some a) k8' nB
  have hnext : (lb.next.map fun n => nx.getD n) = headId B none := by
    rw [← k7]
    cases hn : lb.next with
    | none => rfl
    | some n =>
      cases hx : nx with
      | none => rfl
      | some n' =>
        have := hnx n' hx
        rw [← k7, hn] at this
        cases this
        rfl
  have hset : setPrev (upd s.leaves a (some { la with recs := la.recs ++ lb.recs, page := la.page + (lb.page - c.base), next := lb.next, dirty := true }))
      (lb.next.map fun n => nx.getD n) (some a) = some lv1 := by
    rw [hnext]
    exact p1
  have q1 : lv1 a = some la' := by rw [p3 a naB']; simp [upd]
  have hlv2 : ∀ i, i ≠ a → i ≠ b → (upd lv1 b none i).map (fun l => (l.recs, l.page)) = (s.leaves i).map (fun l => (l.recs, l.page)) := fun i h1 h2 => by
    simp only [upd, h2, if_false]
    rw [p4 i]
    simp [upd, h1]
  refine ⟨{ s with
    leaves := upd lv1 b none
    inners := upd s.inners pid (some { p with links := joinPrev p.links b, dirty := true })
    last := if s.last = b then a else s.last
    iters := fun i => mergeIter b a (s.iters i) }, ?_, ?_⟩
  · simp only [mergePrev, hb, ha, Option.bind_eq_bind, Option.bind_some, hset]
  · have := lower_merge (s' := { s with
        leaves := upd lv1 b none
        inners := upd s.inners pid (some { p with links := joinPrev p.links b, dirty := true })
        last := if s.last = b then a else s.last
        iters := fun i => mergeIter b a (s.iters i) }) (d := a) (o := b) (ld := la') hc hLo hL ha hb (Or.inl ⟨rfl, rfl⟩) rfl ?_ ?_ ?_ ?_ ?_ rfl ?_
        (fun _ => rfl)
    · refine ⟨this.1, this.2, fun i => ?_, rfl⟩
      dsimp only
      unfold mergeIter
      split <;> rfl
    · refine linked_split.2 ⟨k1.congr fun e he => ?_, ⟨la', by simp [upd, hab, q1], k3, k7⟩, p2.congr fun e he => ?_⟩
      · obtain ⟨h1, h2, h3⟩ := hAn e he
        simp only [upd, h2, if_false]
        rw [p3 e.2 h3]
        simp [upd, h1]
      · simp [upd, (hBn e he).2]
    · have := hLo.first
      rw [hL] at this
      rw [headId_append] at this ⊢
      exact this
    · intro hlk
      have := hLo.last hlk
      rw [hL, lastId_append, lastId_cons] at this
      rw [lastId_append]
      dsimp only
      by_cases hB : B = []
      · subst hB
        simp only [lastId, List.getLast?_nil, Option.map_none, Option.none_or, Option.some.injEq] at this
        simp [← this, lastId]
      · obtain ⟨e, he⟩ : ∃ e, B.getLast? = some e := by
          cases he : B.getLast? with
          | none => exact absurd (List.getLast?_eq_none_iff.1 he) hB
          | some e => exact ⟨e, rfl⟩
        have heB : e ∈ B := List.mem_of_getLast? he
        have e1 : ∀ d, lastId B d = some e.2 := fun d => by simp [lastId, he]
        rw [e1] at this ⊢
        have h9 : s.last ≠ b := fun hh => (hBn e heB).2 (by rw [← hh]; exact Option.some.inj this)
        rw [if_neg h9]
        exact this
    · rintro e (he | he)
      · exact hlv2 e.2 (hAn e he).1 (hAn e he).2.1
      · exact hlv2 e.2 (hBn e he).1 (hBn e he).2
    · simp [upd, hab, q1]
    · show la.page + (lb.page - c.base) = la.page + lb.page - c.base
      omega

theorem mergeNext_spec (hc : c.Ok) {s : State} {L A B : Layer} {k : Option Bytes} {m : Bytes} {a b : Nat} {pv : Option Nat} (pid : Nat) (p p' : Inner)
    (hLo : Lower c s L) (hL : L = A ++ (k, a) :: (some m, b) :: B) (hpv : ∀ n, pv = some n → lastId A none = some n) (hp' : joinNext p a b = some p') :
    ∃ s', mergeNext c s pid p a b pv = some s' ∧ Lower c s' (A ++ (k, b) :: B) ∧ contents s'.leaves (A ++ (k, b) :: B) = contents s.leaves L ∧
      (∀ i, (s'.iters i).key = (s.iters i).key) ∧
      s' = { s with leaves := s'.leaves, inners := upd s.inners pid (some p'), first := s'.first, iters := s'.iters } := by
  have hlink := hLo.linked
  rw [hL] at hlink
  obtain ⟨k1, ⟨la, ha, k3, k4⟩, k5⟩ := linked_split.1 hlink
  obtain ⟨⟨lb, hb, k6, k7⟩, k8⟩ := k5
  simp only at ha hb k6 k8
  have hnd := hLo.nodup
  rw [hL, List.map_append, List.nodup_append, List.map_cons, List.map_cons, List.nodup_cons, List.nodup_cons] at hnd
  obtain ⟨nA, ⟨naB, nbB, nB⟩, nAB⟩ := hnd
  have hAn : ∀ e ∈ A, e.2 ≠ a ∧ e.2 ≠ b ∧ e.2 ∉ B.map (·.2) := fun e he =>
    ⟨fun h => nAB _ (List.mem_map.2 ⟨e, he, rfl⟩) _ (by simp) h, fun h => nAB _ (List.mem_map.2 ⟨e, he, rfl⟩) _ (by simp) h,
      fun h => nAB _ (List.mem_map.2 ⟨e, he, rfl⟩) e.2 (by simp only [List.mem_cons]; exact Or.inr (Or.inr h)) rfl⟩
  have hBn : ∀ e ∈ B, e.2 ≠ a ∧ e.2 ≠ b ∧ e.2 ∉ A.map (·.2) := fun e he =>
    ⟨fun h => naB (by rw [← h]; exact List.mem_cons_of_mem _ (List.mem_map.2 ⟨e, he, rfl⟩)), fun h => nbB (h ▸ List.mem_map.2 ⟨e, he, rfl⟩),
      fun h => nAB _ h e.2 (by simp only [List.mem_cons]; exact Or.inr (Or.inr (List.mem_map.2 ⟨e, he, rfl⟩))) rfl⟩
  have hab : a ≠ b := fun h => naB (by rw [h]; simp)
  have hba : b ≠ a := fun h => hab h.symm
  have nbA : b ∉ A.map (·.2) := fun h => by
    obtain ⟨e, he, hh⟩ := List.mem_map.1 h
    exact (hAn e he).2.1 hh
  let lb' : Leaf := { lb with recs := la.recs ++ lb.recs, page := lb.page + (la.page - c.base), prev := la.prev, dirty := true }
  have k1' : Linked (upd s.leaves b (some lb')) none A (some a) := k1.congr fun e he => by simp [upd, (hAn e he).2.1]
  obtain ⟨lv1, p1, p2, p3, p4⟩ := setNext_spec (q := b) k1' nA
  have hprev : (la.prev.map fun n => pv.getD n) = lastId A none := by
    rw [← k3]
    cases hn : la.prev with
    | none => rfl
    | some n =>
      cases hx : pv with
      | none => rfl
      | some n' =>
        have := hpv n' hx
        rw [← k3, hn] at this
        cases this
        rfl
  have hset : setNext (upd s.leaves b (some { lb with recs := la.recs ++ lb.recs, page := lb.page + (la.page - c.base), prev := la.prev, dirty := true }))
      (la.prev.map fun n => pv.getD n) (some b) = some lv1 := by
    rw [hprev]
    exact p1
  have q1 : lv1 b = some lb' := by rw [p3 b nbA]; simp [upd]
  have hlv2 : ∀ i, i ≠ a → i ≠ b → (upd lv1 a none i).map (fun l => (l.recs, l.page)) = (s.leaves i).map (fun l => (l.recs, l.page)) := fun i h1 h2 => by
    simp only [upd, h1, if_false]
    rw [p4 i]
    simp [upd, h2]
  refine ⟨{ s with
    leaves := upd lv1 a none
    inners := upd s.inners pid (some p')
    first := if s.first = a then b else s.first
    iters := fun i => mergeIter a b (s.iters i) }, ?_, ?_⟩
  · simp only [mergeNext, hb, ha, Option.bind_eq_bind, Option.bind_some, hset, hp']
  · have := lower_merge (s' := { s with
        leaves := upd lv1 a none
        inners := upd s.inners pid (some p')
        first := if s.first = a then b else s.first
        iters := fun i => mergeIter a b (s.iters i) }) (d := b) (o := a) (ld := lb') hc hLo hL ha hb (Or.inr ⟨rfl, rfl⟩) rfl ?_ ?_ ?_ ?_ ?_ rfl ?_
        (fun _ => rfl)
    · refine ⟨this.1, this.2, fun i => ?_, rfl⟩
      dsimp only
      unfold mergeIter
      split <;> rfl
    · refine linked_split.2 ⟨p2.congr fun e he => ?_, ⟨lb', by simp [upd, hba, q1], k3, k7⟩, k8.congr fun e he => ?_⟩
      · simp [upd, (hAn e he).1]
      · obtain ⟨h1, h2, h3⟩ := hBn e he
        simp only [upd, h1, if_false]
        rw [p3 e.2 h3]
        simp [upd, h2]
    · have := hLo.first
      rw [hL] at this
      rw [headId_append] at this ⊢
      dsimp only
      cases A with
      | nil =>
        simp only [headId, List.head?_nil, Option.map_none, Option.none_or, Option.some.injEq] at this
        simp [← this, headId]
      | cons e A =>
        rw [headId_cons] at this ⊢
        have h9 : s.first ≠ a := fun hh => (hAn e (by simp)).1 (by rw [← hh]; exact Option.some.inj this)
        rw [if_neg h9]
        exact this
    · intro hlk
      have := hLo.last hlk
      rw [hL, lastId_append, lastId_cons] at this
      rw [lastId_append]
      exact this
    · rintro e (he | he)
      · exact hlv2 e.2 (hAn e he).1 (hAn e he).2.1
      · exact hlv2 e.2 (hBn e he).1 (hBn e he).2.1
    · simp [upd, hba, q1]
    · show lb.page + (la.page - c.base) = la.page + lb.page - c.base
      omega

end Verif.BTree
