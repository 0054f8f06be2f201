import Verif.BTree.Walk
/-
`JumpLower`.
-/
namespace Verif.BTree
open Verif

variable {c : Cfg}

/-- The loop stops at once when the iterator is at a key before `x`. -/
theorem lowerLoop_stop {s : State} {i n : Nat} {x k : Bytes} {incl : Bool} (hk : (s.iters i).key = some k) (h : (c.lt k x || (incl && eqv c.lt k x)) = true) :
    lowerLoop c i x incl (n + 1) s = some s := by
  simp only [lowerLoop, hk, h, if_true]

/-- `JumpLower`. -/
theorem jumpLower_spec (hc : c.Ok) {s : State} {L : Layer} (h : Inv c s L) (hok : s.lastOk = true) (i : Nat) (x : Bytes) (incl : Bool) :
    ∃ s', jumpLower c s i x incl = some s' ∧
      Moved c s s' L i ((if incl then OMap.atMost c.lt x (contents s.leaves L) else OMap.lesser c.lt x (contents s.leaves L)).map (·.1)) := by
  have hw := hc.weak
  obtain ⟨P, q, R, hcut⟩ := OMap.exists_cut hw x (contents_sorted hw h.lower)
  have hj := jump_spec (c := c) h i x
  obtain ⟨s1, y, a1, a2, a3, a4⟩ := sync_spec hc hj.inv i hj.key
  rw [hj.leaves.1] at a2 a3
  simp only [jumpLower, a1, Option.bind_eq_bind, Option.bind_some]
  have hm := hj.after a2
  have hat := hcut.atLeast hw
  have hle := hcut.lesser hw
  have ham := hcut.atMost hw
  cases y with
  | none =>
    simp only [Option.map_none] at a3
    rw [← a3] at hm
    have hlast : some s1.last = lastId L none := (hm.inv.lower.last (hm.leaves.2.2.trans hok)).symm
    have hq : q = none ∧ R = [] := by
      rw [hat] at a3
      cases q <;> cases R <;> simp at a3 ⊢
    have hres : (if incl = true then OMap.atMost c.lt x (contents s.leaves L) else OMap.lesser c.lt x (contents s.leaves L)) = (contents s.leaves L).getLast? := by
      rw [hle, ham, hcut.eq, hq.1, hq.2]
      simp
    rw [hres]
    simp only [hlast]
    rcases setLast_spec (P := L) (Q := []) hm.inv (by simp) i with ⟨g1, g2⟩ | ⟨s', r, rest, g1, g2, g3, _⟩
    · rw [hm.leaves.1] at g2
      rw [g1, g2]
      exact ⟨s1, rfl, hm⟩
    · rw [hm.leaves.1] at g2
      rw [g1, g2]
      have hm2 := hm.after g3
      have hlt : c.lt r.1 x = true := by
        apply hcut.lo
        have := hcut.eq
        rw [hq.1, hq.2, g2] at this
        simp at this
        rw [← this]
        simp
      refine ⟨s', ?_, by simpa using hm2⟩
      simp only [Option.bind_some, if_true]
      exact lowerLoop_stop hm2.key (by rw [hlt]; rfl)
  | some dr =>
    obtain ⟨d, r⟩ := dr
    simp only [Option.map_some] at a3
    rw [← a3] at hm
    simp only [Option.map_some] at hm
    obtain ⟨b1, b2, l, b3, b4⟩ := a4 d r rfl
    have hge : c.lt r.1 x = false := by
      have := List.find?_some a3.symm
      simpa using this
    by_cases hstop : (incl && eqv c.lt r.1 x) = true
    · refine ⟨s1, ?_, ?_⟩
      · exact lowerLoop_stop hm.key (by rw [hstop]; simp)
      · rw [Bool.and_eq_true] at hstop
        rw [hstop.1, if_pos rfl, ham]
        have hqr : q = some r := by
          rw [hat] at a3
          cases q with
          | none =>
            simp at a3
            have := hcut.hi r (List.mem_of_head? a3.symm)
            rw [(StrictWeak.eqv_iff.1 hstop.2).2] at this
            cases this
          | some q0 =>
            simp at a3
            rw [a3]
        rw [hqr]
        simpa using hm
    · have hcond : (c.lt r.1 x || (incl && eqv c.lt r.1 x)) = false := by
        rw [hge, Bool.false_or]
        simpa using hstop
      have hres : (if incl = true then OMap.atMost c.lt x (contents s.leaves L) else OMap.lesser c.lt x (contents s.leaves L)) = OMap.lesser c.lt x (contents s.leaves L) := by
        cases incl with
        | false => rfl
        | true =>
          rw [if_pos rfl, ham, hle]
          cases q with
          | none => simp
          | some q0 =>
            rw [hat] at a3
            simp at a3
            subst a3
            exact absurd (by simpa using hcut.at_ r rfl) hstop
      rw [hres]
      obtain ⟨A, e, B, e1, e2⟩ := at_of_locate hw h.lower.seps b2
      subst e2
      obtain ⟨z1, z2⟩ := contents_sides hw h.lower e1
      have hleast : ∀ z ∈ contents s.leaves L, c.lt z.1 x = false → c.lt z.1 r.1 = false := by
        intro z hz hzx
        rw [hcut.eq] at hz
        rw [hat] at a3
        have hz' : z ∈ q.toList ++ R := by
          rcases List.mem_append.1 (by simpa using hz : z ∈ P ++ (q.toList ++ R)) with hz | hz
          · rw [hcut.lo z hz] at hzx
            cases hzx
          · exact hz
        have hsort : OrdMap.Sorted c.lt (q.toList ++ R) := by
          have := contents_sorted hw h.lower
          rw [hcut.eq, List.append_assoc] at this
          exact (List.pairwise_append.1 this).2.1
        cases hqR : q.toList ++ R with
        | nil => rw [hqR] at hz'; simp at hz'
        | cons w rest =>
          rw [hqR] at a3 hz' hsort
          simp at a3
          subst a3
          rcases List.mem_cons.1 hz' with rfl | hz'
          · exact hw.irrefl _
          · exact hw.asymm ((OrdMap.sorted_cons.1 hsort).1 z hz')
      have hA : ∀ z ∈ contents s1.leaves A, c.lt z.1 x = true := by
        intro z hz
        rw [hm.leaves.1] at hz
        rcases Bool.eq_false_or_eq_true (c.lt z.1 x) with hn | hn
        · exact hn
        · have := hleast z (by rw [e1.1, contents_append]; exact List.mem_append_left _ hz) hn
          rw [z1 z hz] at this
          cases this
      have hB : ∀ z ∈ contents s1.leaves B, c.lt x z.1 = true := by
        intro z hz
        rw [hm.leaves.1] at hz
        rcases hw.cotrans _ x _ (z2 z hz) with hh | hh
        · rw [hge] at hh; cases hh
        · exact hh
      have b3' : s1.leaves e.2 = some l := by rw [hm.leaves.1]; rw [← b3, hj.leaves.1]
      obtain ⟨s2, y, p1, p2, p3, p4⟩ := prevImpl_at hc hm.inv i (x := x) (by unfold leafOf; rw [b1]) e1.1 b3'
        (fun w hwm dd hd => by
          have hd' : dd = e.2 := by
            unfold keptLeaf at hd
            split at hd
            · exact (Option.some.inj hd).symm
            · rw [b1] at hd
              exact (Option.some.inj hd).symm
          exact ⟨w.1, rfl, by rw [hd']; exact (hm.inv.lower.leaf e (by rw [e1.1]; simp) l b3').own w hwm⟩) hA hB
      have hy := p3 (Or.inl ⟨r, b4, hge⟩)
      rw [hm.leaves.1] at hy
      subst hy
      have hmm := hm.after p2
      rw [lowerLoop.eq_def]
      simp only [hm.key, hcond, Bool.false_eq_true, if_false, p1, Option.bind_eq_bind, Option.bind_some]
      cases hg : OMap.lesser c.lt x (contents s.leaves L) with
      | none =>
        rw [hg] at hmm
        refine ⟨s2.setIter i Iter.clear, ?_, hmm.after (moved_clear hmm.inv i)⟩
        rw [lowerLoop.eq_def]
        simp only [hmm.key, Option.map_none]
      | some g =>
        rw [hg] at hmm
        have : c.lt g.1 x = true := by
          unfold OMap.lesser at hg
          have := List.mem_of_getLast? hg
          exact (List.mem_filter.1 this).2
        exact ⟨s2, lowerLoop_stop hmm.key (by rw [this]; rfl), hmm⟩

end Verif.BTree
