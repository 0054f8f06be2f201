import Verif.Cache.Lemmas
/-
`Rebuild` and `CleanUp` of a partition.
-/
namespace Verif.Cache
open Verif.Linked (Map Node Same WF view)

/-- The state within the loop of `Rebuild`. -/
structure Mid (E : Env) (m0 : Map Bytes Bytes) (done dropped : List Nat) (s : Slot) : Prop where
  nb : s.map.nb = bucketNum s.capRec
  fresh : s.map.fresh = m0.fresh
  num : s.map.num = done.length
  first : s.map.first = m0.first
  last : s.map.last = done.getLast?
  eff : s.eff = Spec.dataSize (view m0 done)
  data : ∀ q, q ∉ dropped → (s.map.mem q).map (fun n => (n.key, n.value, n.prev, n.next)) = (m0.mem q).map (fun n => (n.key, n.value, n.prev, n.next))
  gone : ∀ q ∈ dropped, s.map.mem q = none
  chains : Linked.Chains E.inner s.map done

theorem bucketNum_pos (c : Int) : 1 ≤ bucketNum c := Common.C50_bucket_size_pos _

theorem view_len {m0 : Map Bytes Bytes} {l : List Nat} (h : ∀ p ∈ l, ∃ n, m0.mem p = some n) : (view m0 l).length = l.length := by
  induction l with
  | nil => rfl
  | cons p l ih =>
    obtain ⟨n, hn⟩ := h p (by simp)
    rw [Linked.view_cons _ hn, List.length_cons, List.length_cons, ih (fun q hq => h q (List.mem_cons_of_mem _ hq))]

/-- The partition after a record is kept. -/
def pushed (s : Slot) (p : Nat) (n : Node Bytes Bytes) (b : Nat) : Slot :=
  { s with
    map := { s.map.write p (some { n with child := s.map.buckets b }) with
             buckets := fun j => if j = b then some p else s.map.buckets j, num := s.map.num + 1, last := some p }
    eff := s.eff + (n.key.length + n.value.length) }

theorem rebuildLoop_spec {E : Env} {m0 : Map Bytes Bytes} {order : List Nat} (h : WF E.inner m0 order) : ∀ (rest done dropped : List Nat) (s : Slot) (fuel : Nat),
    order = done ++ dropped ++ rest → rest.length ≤ fuel → Mid E m0 done dropped s →
    (dropped ≠ [] → ¬ ((done.length : Int) < s.capRec ∧ Spec.usage s.capRec (view m0 done) < s.capMem)) →
    ∃ s' done' dropped', rebuildLoop E fuel s rest.head? = some s' ∧ order = done' ++ dropped' ∧ Mid E m0 done' dropped' s' ∧
      view m0 done' = Spec.keep s.capRec s.capMem (view m0 done) (view m0 rest) ∧ s'.capRec = s.capRec ∧ s'.capMem = s.capMem := by
  intro rest
  induction rest with
  | nil =>
    intro done dropped s fuel ho _ hm _
    exact ⟨s, done, dropped, by cases fuel <;> rfl, by rw [ho]; simp, hm, rfl, rfl, rfl⟩
  | cons p rest ih =>
    intro done dropped s fuel ho hf hm hd
    simp only [List.length_cons] at hf
    obtain ⟨fuel, rfl⟩ : ∃ f, fuel = f + 1 := ⟨fuel - 1, by omega⟩
    have hpo : p ∈ order := by rw [ho]; simp
    have hnod := h.links.nodup
    rw [ho, List.nodup_append, List.nodup_append] at hnod
    have hpd : p ∉ done := fun hq => hnod.2.2 p (by simp [hq]) p (by simp) rfl
    have hpx : p ∉ dropped := fun hq => hnod.2.2 p (by simp [hq]) p (by simp) rfl
    have hlive : ∀ q ∈ done, ∃ n, m0.mem q = some n := fun q hq => h.get E.inner (by rw [ho]; simp [hq])
    obtain ⟨n0, hn0⟩ := h.get E.inner hpo
    obtain ⟨n, hn, hnk, hnv, hnp, hnn⟩ : ∃ n, s.map.mem p = some n ∧ n.key = n0.key ∧ n.value = n0.value ∧ n.prev = n0.prev ∧ n.next = n0.next := by
      have := hm.data p hpx
      rw [hn0] at this
      cases e : s.map.mem p with
      | none => rw [e] at this; simp at this
      | some n' => rw [e] at this; simp only [Option.map_some, Option.some.injEq, Prod.mk.injEq] at this; exact ⟨n', rfl, this⟩
    have hnext : n.next = rest.head? := by
      have hs := h.links.seg
      rw [ho, Linked.seg_append] at hs
      obtain ⟨_, ⟨x, hx, _, hx2⟩, _⟩ := hs
      rw [hn0] at hx; injection hx with hx; subst hx
      rw [hnn, hx2, Option.or_none]
    have huse : s.memUsage = Spec.usage s.capRec (view m0 done) := by
      unfold Slot.memUsage Spec.usage
      rw [hm.nb, hm.num, hm.eff, view_len hlive]; simp
    have hvp : view m0 (p :: rest) = (n0.key, n0.value) :: view m0 rest := Linked.view_cons _ hn0 _
    rw [hvp, List.head?_cons]
    simp only [rebuildLoop, hn]
    rw [huse, hm.num]
    by_cases hc : (done.length : Int) < s.capRec ∧ Spec.usage s.capRec (view m0 done) < s.capMem
    · rw [if_pos hc]
      have hdr : dropped = [] := Classical.byContradiction fun hne => hd hne hc
      subst hdr
      generalize hb : s.map.bucket E.inner n.key = b
      have hbl : b < s.map.nb := by rw [← hb]; exact Nat.mod_lt _ (by rw [hm.nb]; exact bucketNum_pos _)
      obtain ⟨c, hc1, hc2, hc3⟩ := hm.chains b hbl
      have hpc : p ∉ c := fun hq => hpd ((hc3 p).1 hq).1
      have hmod := Linked.modify_some s.map (fun q => { q with child := s.map.buckets b }) hn
      simp only [Option.bind_eq_bind, hmod, Option.bind_some, Map.store]
      show ∃ s' done' dropped', rebuildLoop E fuel (pushed s p n b) n.next = some s' ∧ _
      generalize hs2 : pushed s p n b = s2
      have hp2 : s2.map.mem p = some { n with child := s.map.buckets b } := by rw [← hs2]; exact Linked.write_mem_same _ _ _
      have hq2 : ∀ q, q ≠ p → s2.map.mem q = s.map.mem q := fun q hq => by rw [← hs2]; exact Linked.write_mem_ne _ _ hq
      have hcap : s2.capRec = s.capRec ∧ s2.capMem = s.capMem := by rw [← hs2]; exact ⟨rfl, rfl⟩
      have hmid : Mid E m0 (done ++ [p]) [] s2 := by
        refine ⟨by rw [hcap.1, ← hs2]; exact hm.nb, by rw [← hs2]; exact hm.fresh, by rw [← hs2]; simp [pushed, hm.num], by rw [← hs2]; exact hm.first,
          by rw [← hs2]; simp [pushed], ?_, ?_, by simp, ?_⟩
        · rw [Linked.view_append, dataSize_append, Linked.view_cons _ hn0, dataSize_cons, ← hs2]
          simp only [pushed, hm.eff, hnk, hnv]; simp [view, Spec.dataSize]
        · intro q hq
          by_cases e : q = p
          · subst e; rw [hp2, hn0]; simp [hnk, hnv, hnp, hnn]
          · rw [hq2 q e]; exact hm.data q (by simp)
        · have hnb2 : s2.map.nb = s.map.nb := by rw [← hs2]; rfl
          have hbk : E.inner n.key % s.map.nb = b := hb
          refine Linked.chains_of E.inner hm.chains hnb2 b ⟨p :: c, ?_, List.nodup_cons.2 ⟨hpc, hc2⟩, ?_⟩ ?_ ?_ ?_
          · have : s2.map.buckets b = some p := by rw [← hs2]; simp [pushed]
            refine ⟨this, _, hp2, ?_⟩
            exact hc1.frame (fun q hq x hx => ⟨x, by rw [hq2 q (fun e => hpc (by rw [← e]; exact hq)), hx], rfl⟩)
          · intro q
            rw [List.mem_cons, hc3 q, List.mem_append, List.mem_singleton]
            by_cases hq : q = p
            · subst hq
              exact ⟨fun _ => ⟨Or.inr rfl, _, hp2, hbk⟩, fun _ => Or.inl rfl⟩
            · rw [hq2 q hq]
              constructor
              · rintro (e | ⟨g1, g2⟩)
                · exact absurd e hq
                · exact ⟨Or.inl g1, g2⟩
              · rintro ⟨g1 | e, g2⟩
                · exact Or.inr ⟨g1, g2⟩
                · exact absurd e hq
          · intro i hi; rw [← hs2]; simp [pushed, hi]
          · intro q hq x hx _
            exact ⟨by simp [hq], x, by rw [hq2 q (fun e => hpd (by rw [← e]; exact hq)), hx], rfl, rfl⟩
          · intro q hq x hx hne
            have hqp : q ≠ p := by
              rintro rfl
              rw [hp2] at hx; injection hx with hx; subst hx
              exact hne hbk
            rw [hq2 q hqp] at hx
            rcases List.mem_append.1 hq with hq | hq
            · exact ⟨hq, x, hx, rfl⟩
            · rw [List.mem_singleton] at hq; exact absurd hq hqp
      obtain ⟨s', d', x', f1, f2, f3, f4, f5, f6⟩ := ih (done ++ [p]) [] s2 fuel (by rw [ho]; simp) (by omega) hmid (by simp)
      refine ⟨s', d', x', ?_, f2, f3, ?_, by rw [f5, hcap.1], by rw [f6, hcap.2]⟩
      · rw [hnext, f1]
      · have hsub : ((view m0 done).length : Int) < s.capRec ∧ Spec.usage s.capRec (view m0 done) < s.capMem := by rw [view_len hlive]; exact hc
        rw [Spec.keep, if_pos hsub, f4, hcap.1, hcap.2, Linked.view_append, Linked.view_cons _ hn0]; rfl
    · rw [if_neg hc]
      generalize hs2 : ({ s with map := s.map.write p none } : Slot) = s2
      have hp2 : s2.map.mem p = none := by rw [← hs2]; exact Linked.write_mem_same _ _ _
      have hq2 : ∀ q, q ≠ p → s2.map.mem q = s.map.mem q := fun q hq => by rw [← hs2]; exact Linked.write_mem_ne _ _ hq
      have hcap : s2.capRec = s.capRec ∧ s2.capMem = s.capMem := by rw [← hs2]; exact ⟨rfl, rfl⟩
      have hmid : Mid E m0 done (dropped ++ [p]) s2 := by
        refine ⟨by rw [hcap.1, ← hs2]; exact hm.nb, by rw [← hs2]; exact hm.fresh, by rw [← hs2]; exact hm.num, by rw [← hs2]; exact hm.first,
          by rw [← hs2]; exact hm.last, by rw [← hs2]; exact hm.eff, ?_, ?_, ?_⟩
        · intro q hq
          simp only [List.mem_append, List.mem_singleton, not_or] at hq
          rw [hq2 q hq.2]; exact hm.data q hq.1
        · intro q hq
          by_cases e : q = p
          · rw [e]; exact hp2
          · simp only [List.mem_append, List.mem_singleton] at hq
            rw [hq2 q e]; exact hm.gone q (hq.resolve_right e)
        · intro i hi
          have hnb2 : s2.map.nb = s.map.nb := by rw [← hs2]; rfl
          rw [hnb2] at hi ⊢
          obtain ⟨c, c1, c2, c3⟩ := hm.chains i hi
          have hpc : p ∉ c := fun hq => hpd ((c3 p).1 hq).1
          refine ⟨c, ?_, c2, ?_⟩
          · have : s2.map.buckets = s.map.buckets := by rw [← hs2]; rfl
            rw [this]
            exact c1.frame (fun q hq x hx => ⟨x, by rw [hq2 q (fun e => hpc (by rw [← e]; exact hq)), hx], rfl⟩)
          · intro q
            rw [c3 q]
            constructor
            · rintro ⟨g1, g2⟩; exact ⟨g1, by rw [hq2 q (fun e => hpd (by rw [← e]; exact g1))]; exact g2⟩
            · rintro ⟨g1, g2⟩; exact ⟨g1, by rw [hq2 q (fun e => hpd (by rw [← e]; exact g1))] at g2; exact g2⟩
      obtain ⟨s', d', x', f1, f2, f3, f4, f5, f6⟩ := ih done (dropped ++ [p]) s2 fuel (by rw [ho]; simp) (by omega) hmid
        (fun _ => by rw [hcap.1, hcap.2]; exact hc)
      refine ⟨s', d', x', ?_, f2, f3, ?_, by rw [f5, hcap.1], by rw [f6, hcap.2]⟩
      · rw [hnext, f1]
      · have hsub : ¬ (((view m0 done).length : Int) < s.capRec ∧ Spec.usage s.capRec (view m0 done) < s.capMem) := by rw [view_len hlive]; exact hc
        rw [Spec.keep, if_neg hsub, f4, hcap.1, hcap.2]
        cases rest with
        | nil => rfl
        | cons q rest =>
          obtain ⟨nq, hnq⟩ := h.get E.inner (p := q) (by rw [ho]; simp)
          rw [Linked.view_cons _ hnq, Spec.keep, if_neg hsub]

/-- The partition before the loop of `Rebuild`. -/
def begun (s : Slot) (capRec capMem : Int) : Slot :=
  { map := { s.map with nb := bucketNum capRec, buckets := fun _ => none, num := 0, last := none }
    eff := 0
    capRec := capRec
    capMem := capMem }

/-- `Rebuild` of a partition. -/
theorem rebuild_spec {E : Env} {s : Slot} {l : List (Bytes × Bytes)} (h : SlotOk E s l) (capRec capMem : Int) :
    ∃ s', s.rebuild E capRec capMem = some s' ∧ SlotOk E s' (Spec.keep capRec capMem [] l) ∧ s'.capRec = capRec ∧ s'.capMem = capMem := by
  obtain ⟨order, hw, hv⟩ := h.map
  unfold Slot.rebuild
  simp only [Option.bind_eq_bind, Option.bind_some]
  show ∃ s', (rebuildLoop E s.map.num (begun s capRec capMem) s.map.first).bind _ = some s' ∧ _
  generalize hs1 : begun s capRec capMem = s1
  have hmid : Mid E s.map [] [] s1 := by
    rw [← hs1]
    exact ⟨rfl, rfl, rfl, rfl, rfl, rfl, fun _ _ => rfl, by simp, fun i _ => ⟨[], rfl, List.nodup_nil, by simp⟩⟩
  obtain ⟨s', d', x', f1, f2, f3, f4, f5, f6⟩ := rebuildLoop_spec hw order [] [] s1 s.map.num rfl (Nat.le_of_eq hw.num.symm) hmid (by simp)
  have hcap : s1.capRec = capRec ∧ s1.capMem = capMem := by rw [← hs1]; exact ⟨rfl, rfl⟩
  rw [hcap.1, hcap.2, hv] at f4
  replace f4 : view s.map d' = Spec.keep capRec capMem [] l := f4
  rw [hcap.1] at f5
  rw [hcap.2] at f6
  rw [← hw.links.first] at f1
  rw [f1]
  simp only [Option.bind_some]
  have hnod := hw.links.nodup
  rw [f2, List.nodup_append] at hnod
  have hseg := hw.links.seg
  rw [f2, Linked.seg_append] at hseg
  have hdx : ∀ q ∈ d', q ∉ x' := fun q hq hx => hnod.2.2 q hq q hx rfl
  have hget : ∀ q n, s'.map.mem q = some n → q ∈ d' ∧ ∃ n0, s.map.mem q = some n0 ∧ n0.key = n.key ∧ n0.value = n.value := by
    intro q n hn
    have hx : q ∉ x' := fun hx => by rw [f3.gone q hx] at hn; cases hn
    have := f3.data q hx
    rw [hn] at this
    cases e : s.map.mem q with
    | none => rw [e] at this; simp at this
    | some n0 =>
      rw [e] at this
      simp only [Option.map_some, Option.some.injEq, Prod.mk.injEq] at this
      have := (hw.live q).2 ⟨n0, e⟩
      rw [f2, List.mem_append] at this
      exact ⟨this.resolve_right hx, n0, rfl, by simp_all⟩
  have hfwd : ∀ q ∈ d', ∀ n0, s.map.mem q = some n0 → ∃ n, s'.map.mem q = some n ∧ n.key = n0.key ∧ n.value = n0.value ∧ n.prev = n0.prev ∧ n.next = n0.next := by
    intro q hq n0 hn0
    have := f3.data q (hdx q hq)
    rw [hn0] at this
    cases e : s'.map.mem q with
    | none => rw [e] at this; simp at this
    | some n => rw [e] at this; simp only [Option.map_some, Option.some.injEq, Prod.mk.injEq] at this; exact ⟨n, rfl, this⟩
  have hview : view s'.map d' = view s.map d' := by
    refine Linked.view_frame (fun q hq => ?_)
    obtain ⟨n0, hn0⟩ := hw.get E.inner (p := q) (by rw [f2]; simp [hq])
    obtain ⟨n, e1, e2, e3, _⟩ := hfwd q hq n0 hn0
    rw [e1, hn0]; simp [e2, e3]
  rcases List.eq_nil_or_concat d' with rfl | ⟨d, p, rfl⟩
  · -- nothing is kept
    have hlast : s'.map.last = none := f3.last
    have hclose : closeList s'.map = some { s'.map with first := none } := by
      unfold closeList
      split
      · rfl
      · rename_i q hq; rw [hlast] at hq; cases hq
    refine ⟨{ s' with map := { s'.map with first := none } }, by rw [hclose]; rfl, ⟨⟨[], ⟨⟨List.nodup_nil, trivial, rfl, hlast⟩, f3.chains, by simp, f3.num, ?_, ?_, ?_⟩, f4⟩, ?_, ?_⟩, f5, f6⟩
    · intro q
      constructor
      · intro hq; cases hq
      · rintro ⟨n, hn⟩; exact (hget q n hn).1
    · intro q n hn; exact absurd (hget q n hn).1 (by simp)
    · show 1 ≤ s'.map.nb; rw [f3.nb]; exact bucketNum_pos _
    · show s'.eff = _; rw [f3.eff, f4]
    · exact f3.nb
  · rw [List.concat_eq_append] at *
    have hlast : s'.map.last = some p := by rw [f3.last]; simp
    obtain ⟨n0, hn0⟩ := hw.get E.inner (p := p) (by rw [f2]; simp)
    obtain ⟨n, hn, hnk, hnv, hnp, hnn⟩ := hfwd p (by simp) n0 hn0
    unfold closeList
    rw [hlast]
    simp only [Linked.modify_some s'.map (fun x => { x with next := none }) hn, Option.map_some]
    have hpd : p ∉ d := by
      have := hnod.1
      rw [List.nodup_append] at this
      exact fun hm => this.2.2 p hm p (by simp) rfl
    generalize hm2 : s'.map.write p (some { n with next := none }) = m2
    have hp2 : m2.mem p = some { n with next := none } := by rw [← hm2]; exact Linked.write_mem_same _ _ _
    have hq2 : ∀ q, q ≠ p → m2.mem q = s'.map.mem q := fun q hq => by rw [← hm2]; exact Linked.write_mem_ne _ _ hq
    have hnb : m2.nb = s'.map.nb := by rw [← hm2]; rfl
    have hget2 : ∀ q x, m2.mem q = some x → q ∈ d ++ [p] ∧ ∃ x0, s.map.mem q = some x0 ∧ x0.key = x.key := by
      intro q x hx
      by_cases e : q = p
      · subst e
        rw [hp2] at hx; injection hx with hx; subst hx
        exact ⟨by simp, n0, hn0, hnk.symm⟩
      · rw [hq2 q e] at hx
        obtain ⟨a, b, c, d, _⟩ := hget q x hx
        exact ⟨a, b, c, d⟩
    refine ⟨{ s' with map := m2 }, rfl, ⟨⟨d ++ [p], ⟨⟨hnod.1, ?_, ?_, by rw [List.getLast?_append, ← hm2]; exact hlast⟩, ?_, ?_, by rw [← hm2]; exact f3.num, ?_, ?_, ?_⟩, ?_⟩, ?_, ?_⟩, f5, f6⟩
    · have h1 : Linked.Seg s'.map.mem none (d ++ [p]) (x'.head?.or none) := by
        refine hseg.1.frame (fun q hq a ha => ?_)
        obtain ⟨b, b1, _, _, b4, b5⟩ := hfwd q hq a ha
        exact ⟨b, b1, b4, b5⟩
      exact Linked.Seg.setNext (nx' := none) h1 hpd (fun q hq => hq2 q (fun e => hpd (by rw [← e]; exact hq))) hn hp2
    · have : m2.first = s.map.first := by rw [← hm2]; exact f3.first
      rw [this, hw.links.first, f2]
      cases d <;> simp
    · intro i hi
      rw [hnb] at hi
      obtain ⟨c, c1, c2, c3⟩ := f3.chains i hi
      have hfr : ∀ q x, s'.map.mem q = some x → ∃ y, m2.mem q = some y ∧ y.key = x.key ∧ y.child = x.child := by
        intro q x hx
        by_cases e : q = p
        · subst e; rw [hn] at hx; injection hx with hx; subst hx; exact ⟨_, hp2, rfl, rfl⟩
        · exact ⟨x, by rw [hq2 q e, hx], rfl, rfl⟩
      have hbk : ∀ q x, m2.mem q = some x → ∃ y, s'.map.mem q = some y ∧ y.key = x.key := by
        intro q x hx
        by_cases e : q = p
        · subst e; rw [hp2] at hx; injection hx with hx; subst hx; exact ⟨_, hn, rfl⟩
        · exact ⟨x, by rw [← hq2 q e, hx], rfl⟩
      refine ⟨c, ?_, c2, ?_⟩
      · have : m2.buckets = s'.map.buckets := by rw [← hm2]; rfl
        rw [this]
        exact c1.frame (fun q _ x hx => by obtain ⟨y, y1, _, y3⟩ := hfr q x hx; exact ⟨y, y1, y3⟩)
      · intro q
        rw [c3 q, hnb]
        constructor
        · rintro ⟨g1, x, g2, g3⟩; obtain ⟨y, y1, y2, _⟩ := hfr q x g2; exact ⟨g1, y, y1, by rw [y2]; exact g3⟩
        · rintro ⟨g1, x, g2, g3⟩; obtain ⟨y, y1, y2⟩ := hbk q x g2; exact ⟨g1, y, y1, by rw [y2]; exact g3⟩
    · intro a b x y ha hb e1 e2 hk
      obtain ⟨a1, x0, a2, a3⟩ := hget2 a x e1
      obtain ⟨b1, y0, b2, b3⟩ := hget2 b y e2
      exact hw.uniq a b x0 y0 (by rw [f2]; exact List.mem_append_left _ a1) (by rw [f2]; exact List.mem_append_left _ b1) a2 b2 (by rw [a3, b3, hk])
    · intro q
      constructor
      · intro hq
        by_cases e : q = p
        · exact ⟨_, by rw [e]; exact hp2⟩
        · obtain ⟨x0, hx0⟩ := hw.get E.inner (p := q) (by rw [f2]; exact List.mem_append_left _ hq)
          obtain ⟨x, x1, _⟩ := hfwd q hq x0 hx0
          exact ⟨x, by rw [hq2 q e]; exact x1⟩
      · rintro ⟨x, hx⟩; exact (hget2 q x hx).1
    · intro q x hx
      obtain ⟨_, x0, h0, _⟩ := hget2 q x hx
      have : m2.fresh = s.map.fresh := by rw [← hm2]; exact f3.fresh
      rw [this]; exact hw.bound q x0 h0
    · show 1 ≤ m2.nb; rw [hnb, f3.nb]; exact bucketNum_pos _
    · rw [← f4, ← hview]
      refine Linked.view_frame (fun q _ => ?_)
      by_cases e : q = p
      · rw [e, hp2, hn]; rfl
      · rw [hq2 q e]
    · show s'.eff = _; rw [f3.eff, f4]
    · show m2.nb = _; rw [hnb]; exact f3.nb

/-- `CleanUp` frees every block once. -/
theorem freeLoop_spec : ∀ (l : List Nat) (m : Map Bytes Bytes) (pv : Option Nat) (fuel : Nat), l.Nodup → Linked.Seg m.mem pv l none → l.length ≤ fuel →
    freeLoop fuel m l.head? = some () := by
  intro l
  induction l with
  | nil => intro m pv fuel _ _ _; cases fuel <;> rfl
  | cons p l ih =>
    intro m pv fuel hnd hs hf
    simp only [List.length_cons] at hf
    obtain ⟨fuel, rfl⟩ : ∃ f, fuel = f + 1 := ⟨fuel - 1, by omega⟩
    obtain ⟨⟨n, h1, _, h3⟩, h4⟩ := hs
    rw [Option.or_none] at h3
    rw [List.nodup_cons] at hnd
    simp only [List.head?_cons, freeLoop, h1, h3]
    exact ih _ (some p) fuel hnd.2 (h4.frame' (fun q hq => Linked.write_mem_ne _ _ (fun e => hnd.1 (by rw [← e]; exact hq)))) (by omega)

theorem cleanUp_spec {E : Env} {s : Slot} {l : List (Bytes × Bytes)} (h : SlotOk E s l) : freeLoop s.map.num s.map s.map.first = some () := by
  obtain ⟨order, hw, _⟩ := h.map
  rw [hw.links.first]
  exact freeLoop_spec order s.map none _ hw.links.nodup hw.links.seg (Nat.le_of_eq hw.num.symm)

theorem init_spec (E : Env) (capRec capMem : Int) : SlotOk E (Slot.init capRec capMem) [] :=
  ⟨⟨[], ⟨⟨List.nodup_nil, trivial, rfl, rfl⟩, fun _ _ => ⟨[], rfl, List.nodup_nil, by simp⟩, by simp, rfl, by simp [Slot.init],
    (fun _ _ h => by simp [Slot.init] at h), bucketNum_pos _⟩, rfl⟩, rfl, rfl⟩

theorem front_spec {E : Env} {s : Slot} {l : List (Bytes × Bytes)} (h : SlotOk E s l) : s.front = l.head? := by
  obtain ⟨order, hw, rfl⟩ := h.map
  exact Linked.front_spec E.inner hw

theorem toList_spec {E : Env} {s : Slot} {l : List (Bytes × Bytes)} (h : SlotOk E s l) : Linked.toList s.map = some l := by
  obtain ⟨order, hw, rfl⟩ := h.map
  exact Linked.toList_spec E.inner hw

end Verif.Cache
