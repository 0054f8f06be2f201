import Verif.Hash.InPlacePlan
/-
The appending update mode on the structured file.
-/
namespace Verif.Hash

variable {e : Env} {c : Cfg}

/-- The value of a key according to its first record in a chain. -/
def firstVal (p : List (Nat × Rec)) (k : Bytes) : Option Bytes :=
  match p with
  | [] => none
  | x :: p => if x.2.key = k then (if x.2.op.isSet then some x.2.value else none) else firstVal p k

/-- The chain of a bucket in the appending mode: the first record of a key is its newest one. -/
structure AChain (e : Env) (c : Cfg) (L : Lay) (i : Nat) (p : List (Nat × Rec)) : Prop where
  path : Path c L.recs (L.buckets.getD i 0) p
  nodup : (p.map (·.1)).Nodup
  mem : ∀ x ∈ p, x.2.op ≠ .void ∧ e.hash x.2.key c.nb = i
  newest : ∀ k, e.hash k c.nb = i → contents L.recs k = firstVal p k

/-- The invariant of the appending mode. -/
structure Appending (e : Env) (c : Cfg) (L : Lay) (_pool : List FB) : Prop where
  base : Base c L
  chain : ∀ i, i < c.nb → ∃ p, AChain e c L i p

theorem firstVal_none {p : List (Nat × Rec)} {k : Bytes} (h : ∀ x ∈ p, x.2.key ≠ k) : firstVal p k = none := by
  induction p with
  | nil => rfl
  | cons x p ih =>
    simp only [firstVal, if_neg (h x (by simp))]
    exact ih (fun y hy => h y (by simp [hy]))

theorem firstVal_some {a : List (Nat × Rec)} {cur r b} {k : Bytes} (ha : ∀ x ∈ a, x.2.key ≠ k) (hr : r.key = k) :
    firstVal (a ++ (cur, r) :: b) k = if r.op.isSet then some r.value else none := by
  induction a with
  | nil => simp [firstVal, hr]
  | cons x a ih =>
    simp only [List.cons_append, firstVal, if_neg (ha x (by simp))]
    exact ih (fun y hy => ha y (by simp [hy]))

/-- The first record of a key in a chain. -/
theorem split_first (p : List (Nat × Rec)) (k : Bytes) : (∀ x ∈ p, x.2.key ≠ k) ∨
    ∃ a cur r b, p = a ++ (cur, r) :: b ∧ r.key = k ∧ ∀ x ∈ a, x.2.key ≠ k := by
  induction p with
  | nil => exact Or.inl (by simp)
  | cons y p ih =>
    by_cases hy : y.2.key = k
    · exact Or.inr ⟨[], y.1, y.2, p, rfl, hy, by simp⟩
    · rcases ih with h | ⟨a, cur, r, b, rfl, h1, h2⟩
      · refine Or.inl ?_
        intro x hx
        rcases List.mem_cons.1 hx with rfl | hx
        · exact hy
        · exact h x hx
      · refine Or.inr ⟨y :: a, cur, r, b, rfl, h1, ?_⟩
        intro x hx
        rcases List.mem_cons.1 hx with rfl | hx
        · exact hy
        · exact h2 x hx

theorem Rec.apply_other {r : Rec} {k : Bytes} (d : Dict) (h : k ≠ r.key) : Rec.apply d r k = d k := by
  cases ho : r.op with
  | void => rw [Rec.apply_void ho]
  | remove => rw [Rec.apply_remove ho, Dict.upd_other _ _ h]
  | set => rw [Rec.apply_set (by simp [ho]) (by simp [ho]), Dict.upd_other _ _ h]
  | add => rw [Rec.apply_set (by simp [ho]) (by simp [ho]), Dict.upd_other _ _ h]

/-- Appending a record and making it the head of its bucket. -/
theorem appendHead_spec {L : Lay} {fbp fbp' : List FB} (hc : CfgOk c) (h : Appending e c L fbp) {i : Nat} (hi : i < c.nb)
    {p q : List (Nat × Rec)} (hp : AChain e c L i p) {nr : Rec} (hg : GoodRec c nr) (hch : nr.child < L.end_ c)
    (hv : nr.op ≠ .void) (hk : e.hash nr.key c.nb = i) (hq : Path c L.recs nr.child q) (hqn : (q.map (·.1)).Nodup)
    (hqm : ∀ x ∈ q, x ∈ p) (hqf : ∀ k, k ≠ nr.key → firstVal q k = firstVal p k) :
    WrsOk c L [.append nr, .bucket i (L.end_ c)] ∧
    Appending e c (applyLs c L [.append nr, .bucket i (L.end_ c)]) fbp' ∧
    contents (applyLs c L [.append nr, .bucket i (L.end_ c)]).recs = Rec.apply (contents L.recs) nr ∧
    Stray e c L (applyL c L (.append nr)) := by
  have hend := h.base.end_aligned hc
  have hlt : L.end_ c < (applyL c L (.append nr)).end_ c := by
    have h1 := size_pos (c := c) nr
    have h2 := totalSize_append (c := c) L.recs [nr]
    simp only [totalSize] at h2
    simp only [applyL, Lay.end_]; omega
  have hw : WrsOk c L [.append nr, .bucket i (L.end_ c)] := ⟨⟨hg, hch⟩, ⟨hi, hend, hlt⟩, trivial⟩
  have hcont : contents (applyLs c L [.append nr, .bucket i (L.end_ c)]).recs = Rec.apply (contents L.recs) nr :=
    contents_append _ _
  have hpos : L.end_ c ≠ 0 := by have := recordBase_pos (c := c); simp only [Lay.end_]; omega
  have hbelow : ∀ {o p}, Path c L.recs o p → ∀ x ∈ p, x.1 < L.end_ c := by
    intro o p hp x hx
    have h1 := recAt_lt (hp.at x hx)
    have := size_pos (c := c) x.2
    simp only [Lay.end_]; omega
  have hstray : Stray e c L (applyL c L (.append nr)) := by
    refine ⟨?_, L.end_ c, nr, p, recAt_new _ _, hv, by rw [hk]; exact hp.path.append nr, ?_, Or.inr ⟨Nat.le_refl _, hbelow hp.path⟩⟩
    · intro j hj
      obtain ⟨p', hp'⟩ := h.chain j hj
      exact ⟨p', hp'.path.append nr⟩
    · intro hm
      obtain ⟨x, hx, ex⟩ := List.mem_map.1 hm
      have := hbelow hp.path x hx
      have ex : x.1 = L.end_ c := ex
      omega
  refine ⟨hw, ⟨h.base.applyLs hw, ?_⟩, hcont, hstray⟩
  · intro j hj
    by_cases ej : j = i
    · subst ej
      refine ⟨(L.end_ c, nr) :: q, ?_, ?_, ?_, ?_⟩
      · have eb : (applyLs c L [.append nr, .bucket j (L.end_ c)]).buckets.getD j 0 = L.end_ c := by
          simp only [applyLs, List.foldl_cons, List.foldl_nil, applyL]
          rw [List.getD_eq_getElem?_getD, List.getElem?_set_self (by rw [h.base.nb]; exact hi)]; rfl
        rw [eb]
        exact ⟨rfl, recAt_new _ _, hq.append nr⟩
      · simp only [List.map_cons, List.nodup_cons]
        refine ⟨?_, hqn⟩
        intro hm
        obtain ⟨x, hx, ex⟩ := List.mem_map.1 hm
        have h1 := recAt_lt (hq.at x hx)
        have := size_pos (c := c) x.2
        simp only [Lay.end_] at ex; omega
      · intro x hx
        rcases List.mem_cons.1 hx with rfl | hx
        · exact ⟨hv, hk⟩
        · exact hp.mem x (hqm x hx)
      · intro k hkh
        rw [hcont]
        simp only [firstVal]
        by_cases ek : nr.key = k
        · subst ek
          rw [if_pos rfl]
          cases ho : nr.op with
          | void => exact absurd ho hv
          | remove => rw [Rec.apply_remove ho, Dict.upd_self]; simp [OpType.isSet]
          | set => rw [Rec.apply_set (by simp [ho]) (by simp [ho]), Dict.upd_self]; simp [OpType.isSet]
          | add => rw [Rec.apply_set (by simp [ho]) (by simp [ho]), Dict.upd_self]; simp [OpType.isSet]
        · rw [if_neg ek, hqf k (Ne.symm ek), ← hp.newest k hkh]
          exact Rec.apply_other _ (Ne.symm ek)
    · obtain ⟨p', hp'⟩ := h.chain j hj
      refine ⟨p', ?_, hp'.nodup, hp'.mem, ?_⟩
      · have eb : (applyLs c L [.append nr, .bucket i (L.end_ c)]).buckets.getD j 0 = L.buckets.getD j 0 := by
          simp only [applyLs, List.foldl_cons, List.foldl_nil, applyL, List.getD_eq_getElem?_getD]
          rw [List.getElem?_set_ne (Ne.symm ej)]
        rw [eb]
        exact hp'.path.append nr
      · intro k hkh
        rw [hcont, ← hp'.newest k hkh]
        have ek : k ≠ nr.key := by rintro rfl; exact ej (hkh.symm.trans hk)
        exact Rec.apply_other _ ek

theorem plan_appending {τ : Type} (hr : e.InRange) (hc : CfgOk c) (hm : c.inPlace = false) {L : Lay} {m : Mem}
    (h : Appending e c L m.fbp) (k : Bytes) (w : Bool) (p : ProcR τ) (hf : ActFits (fits c) k (p (contents L.recs k)).1) :
    ∃ m' ws, plan c (layReader c L) m k (e.hash k c.nb) w p = some (m', ws, (p (contents L.recs k)).2) ∧
      PlanOk e (Appending e c) c L m k w (p (contents L.recs k)).1 m' ws := by
  have hi : e.hash k c.nb < c.nb := hr k c.nb (by have := hc.nb; omega)
  obtain ⟨pa, hp⟩ := h.chain _ hi
  have hbk : (layReader c L).bucket (e.hash k c.nb) = some (L.buckets.getD (e.hash k c.nb) 0) := by
    simp only [layReader, List.getD_eq_getElem?_getD]
    rw [List.getElem?_eq_getElem (by rw [h.base.nb]; exact hi)]; rfl
  have hsize : (layReader c L).size = L.end_ c := rfl
  have hlen := hp.path.length_le hp.nodup
  have htop : L.buckets.getD (e.hash k c.nb) 0 % (1 <<< c.ap) = 0 ∧ L.buckets.getD (e.hash k c.nb) 0 < L.end_ c := by
    apply h.base.bkt
    rw [List.getD_eq_getElem?_getD, List.getElem?_eq_getElem (by rw [h.base.nb]; exact hi)]
    exact List.getElem_mem _
  have hnew := hp.newest k rfl
  simp only [plan, hbk]
  rcases split_first pa k with hk | ⟨a, cur, r, b, rfl, hk, ha⟩
  · rw [firstVal_none hk] at hnew
    rw [findRec_none hp.path _ hlen 0 hk]
    simp only [hnew]
    rw [hnew] at hf
    cases w with
    | false => exact ⟨m, [], rfl, planOk_noop h (Or.inl rfl)⟩
    | true =>
      cases hact : (p none).1 with
      | noop => exact ⟨m, [], by simp, planOk_noop h (Or.inr (Or.inl rfl))⟩
      | remove => exact ⟨m, [], by simp, planOk_noop h (Or.inr (Or.inr ⟨rfl, hnew⟩))⟩
      | set v =>
        rw [hact] at hf
        have hf : fits c k v := hf
        simp only [missWrites, hsize, place, hm, Bool.false_eq_true, if_false]
        obtain ⟨g1, g2, g3, g4⟩ := appendHead_spec (fbp' := m.fbp) hc h hi hp
          (nr := setData c .add 0 k v (L.buckets.getD (e.hash k c.nb) 0))
          (goodRec_setData hf (by omega) (by simp) htop.1) htop.2 (by simp [setData]) rfl hp.path hp.nodup
          (fun x hx => hx) (fun _ _ => rfl)
        have g3 : contents _ = (contents L.recs).upd k (some v) := g3
        refine ⟨_, _, rfl, ⟨g1, g2, ?_, ?_, ?_, by simp, fun n => mid_two _ _ (Or.inr rfl) n, crash_two h g2 g4⟩⟩
        · exact g3.trans (by simp [Dict.act])
        · intro hcnt
          refine (congrArg (fun d => Dict.Counted d _ _) g3).mpr ?_
          simpa [account] using hcnt.add v hnew
        · exact ⟨[.set k v], by simp [account], g3.symm⟩
  · rw [firstVal_some ha hk] at hnew
    rw [findRec_some hp.path _ hlen 0 ha hk]
    have hra : recAt c (recordBase c) L.recs cur = some r := hp.path.at (cur, r) (by simp)
    have hgood := h.base.recs r (recAt_mem hra)
    have hold : (if (recR c r).op.isSet = true then Option.map some (recR c r).value else some none) =
        some (contents L.recs k) := by
      rw [hnew]; simp only [recR]; by_cases h1 : r.op.isSet = true <;> simp [h1]
    simp only [hold]
    by_cases hw : w = false ∨ (p (contents L.recs k)).1 = .noop
    · rw [if_pos hw]
      exact ⟨m, [], rfl, planOk_noop h (by rcases hw with hw | hw; exact Or.inl hw; exact Or.inr (Or.inl hw))⟩
    · rw [if_neg hw]
      have hw' : w = true := by cases w <;> simp_all
      have hnn : (p (contents L.recs k)).1 ≠ .noop := fun e1 => hw (Or.inr e1)
      subst hw'
      -- the new head of the chain
      have hchild : ∀ op v, op ≠ OpType.void → fits c k v →
          WrsOk c L [.append (setData c op 0 k v (if lastOff a 0 = 0 then r.child else L.buckets.getD (e.hash k c.nb) 0)),
            .bucket (e.hash k c.nb) (L.end_ c)] ∧
          Appending e c (applyLs c L [.append (setData c op 0 k v
            (if lastOff a 0 = 0 then r.child else L.buckets.getD (e.hash k c.nb) 0)),
            .bucket (e.hash k c.nb) (L.end_ c)]) m.fbp ∧
          contents (applyLs c L [.append (setData c op 0 k v
            (if lastOff a 0 = 0 then r.child else L.buckets.getD (e.hash k c.nb) 0)),
            .bucket (e.hash k c.nb) (L.end_ c)]).recs = (contents L.recs).upd k (if op = .remove then none else some v) ∧
          Stray e c L (applyL c L (.append (setData c op 0 k v
            (if lastOff a 0 = 0 then r.child else L.buckets.getD (e.hash k c.nb) 0)))) := by
        intro op v hov hfv
        have happ : ∀ ch, Rec.apply (contents L.recs) (setData c op 0 k v ch) =
            (contents L.recs).upd k (if op = .remove then none else some v) := by
          intro ch
          by_cases ho : op = .remove
          · rw [Rec.apply_remove (by simp [setData, ho]), if_pos ho]; rfl
          · rw [Rec.apply_set (by simpa [setData] using hov) (by simpa [setData] using ho), if_neg ho]; rfl
        by_cases hl : lastOff a 0 = 0
        · have ea : a = [] := by
            cases a with
            | nil => rfl
            | cons y a =>
              exfalso
              have hmem := lastOff_mem (y :: a) 0 (by simp)
              rw [hl] at hmem
              obtain ⟨z, hz, ez⟩ := List.mem_map.1 hmem
              have := recAt_ge (hp.path.at z (List.mem_append_left _ hz))
              have := recordBase_pos (c := c); omega
          subst ea
          rw [if_pos hl]
          obtain ⟨g1, g2, g3, g4⟩ := appendHead_spec (fbp' := m.fbp) hc h hi hp (nr := setData c op 0 k v r.child)
            (goodRec_setData hfv (by omega) (by simp) hgood.1.child) hgood.2 hov rfl hp.path.tail
            (by have := hp.nodup; simp at this; exact this.2) (fun x hx => by simp [hx])
            (by intro k' hk'
                simp only [List.nil_append, firstVal]
                rw [if_neg (by rw [hk]; exact Ne.symm hk')])
          exact ⟨g1, g2, g3.trans (happ _), g4⟩
        · rw [if_neg hl]
          obtain ⟨g1, g2, g3, g4⟩ := appendHead_spec (fbp' := m.fbp) hc h hi hp
            (nr := setData c op 0 k v (L.buckets.getD (e.hash k c.nb) 0))
            (goodRec_setData hfv (by omega) (by simp) htop.1) htop.2 hov rfl hp.path hp.nodup
            (fun x hx => hx) (fun _ _ => rfl)
          exact ⟨g1, g2, g3.trans (happ _), g4⟩
      have hsome : (recR c r).op.isSet = true → contents L.recs k = some r.value := by
        intro h1; have h1 : r.op.isSet = true := h1; rw [hnew, if_pos h1]
      have hnone : (recR c r).op.isSet = false → contents L.recs k = none := by
        intro h1; have h1 : r.op.isSet = false := h1; rw [hnew, if_neg (by simp [h1])]
      cases hact : (p (contents L.recs k)).1 with
      | noop => exact absurd hact hnn
      | remove =>
        have hfv : fits c k [] := by
          have h1 := hgood.1
          refine ⟨by rw [← hk]; exact ⟨h1.key, by have := h1.kv.2; simp only [List.length_nil]; omega⟩, ?_⟩
          refine Nat.lt_of_le_of_lt (alignNumber_le (m := r.size c) h1.align ?_) h1.small
          have := Codec.sizeVarNum_pos r.value.length
          have h0 : Codec.sizeVarNum 0 = 1 := by decide
          simp only [Rec.size, baseSize, hk, List.length_nil]; omega
        obtain ⟨g1, g2, g3, g4⟩ := hchild .remove [] (by simp) hfv
        simp only [if_true] at g3
        simp only [hitWrites, relocate, place, hm, Bool.false_and, Bool.false_eq_true, if_false, if_true, Bool.false_or,
          decide_eq_true_eq, hsize]
        refine ⟨_, _, rfl, ⟨g1, g2, ?_, ?_, ?_, by simp, fun n => mid_two _ _ (Or.inr rfl) n, crash_two h g2 g4⟩⟩
        · exact g3.trans (by simp [Dict.act])
        · intro hcnt
          refine (congrArg (fun d => Dict.Counted d _ _) g3).mpr ?_
          cases hs : (recR c r).op.isSet with
          | true =>
            rw [hsome hs]
            simpa [account, hs] using hcnt.del (hsome hs)
          | false =>
            have := Dict.upd_same (contents L.recs) k
            rw [hnone hs] at this
            rw [this]
            simpa [account, hs] using hcnt
        · exact ⟨[.remove k], by simp [account], g3.symm⟩
      | set v =>
        rw [hact] at hf
        have hf : fits c k v := hf
        obtain ⟨g1, g2, g3, g4⟩ := hchild (if (recR c r).op.isSet then .set else .add) v (by split <;> simp) hf
        have hne : (if (recR c r).op.isSet = true then OpType.set else OpType.add) ≠ .remove := by split <;> simp
        rw [if_neg hne] at g3
        simp only [hitWrites, relocate, place, hm, Bool.false_and, Bool.false_eq_true, if_false, Bool.false_or,
          decide_eq_true_eq, hsize]
        refine ⟨_, _, rfl, ⟨g1, g2, ?_, ?_, ?_, by simp, fun n => mid_two _ _ (Or.inr rfl) n, crash_two h g2 g4⟩⟩
        · exact g3.trans (by simp [Dict.act])
        · intro hcnt
          refine (congrArg (fun d => Dict.Counted d _ _) g3).mpr ?_
          cases hs : (recR c r).op.isSet with
          | true =>
            rw [hsome hs]
            simpa [account, hs] using hcnt.put v (hsome hs)
          | false => simpa [account, hs] using hcnt.add v (hnone hs)
        · exact ⟨[.set k v], by simp [account], g3.symm⟩

end Verif.Hash
