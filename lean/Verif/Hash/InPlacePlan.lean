import Verif.Hash.InPlaceSteps
/-
`ProcessImpl` in the in-place mode, on the structured file.
-/
namespace Verif.Hash

variable {e : Env} {c : Cfg}

/-- The hash of a key selects a bucket. -/
def Env.InRange (e : Env) : Prop := ∀ k n, 0 < n → e.hash k n < n

/-- What a planned operation must achieve: the writes are well-formed, the invariant holds after them, and the contents,
the counters and the log change as the action says. -/
structure PlanOk (e : Env) (I : Lay → List FB → Prop) (c : Cfg) (L : Lay) (m : Mem) (k : Bytes) (w : Bool) (a : Action)
    (m' : Mem) (ws : List Wr) : Prop where
  wrs : WrsOk c L ws
  inv : I (applyLs c L ws) m'.fbp
  contents : contents (applyLs c L ws).recs = if w then (contents L.recs).act k a else contents L.recs
  counted : (Hash.contents L.recs).Counted m.num m.eff → (Hash.contents (applyLs c L ws).recs).Counted m'.num m'.eff
  log : ∃ l, m'.log = m.log ++ l ∧ (Hash.contents L.recs).replay l = Hash.contents (applyLs c L ws).recs
  same : w = false ∨ a = .noop → m' = m ∧ ws = []
  /-- After any number of the writes the contents are the old or the new ones. -/
  mid : ∀ n, Hash.contents (applyLs c L (ws.take n)).recs = Hash.contents L.recs ∨
    Hash.contents (applyLs c L (ws.take n)).recs = Hash.contents (applyLs c L ws).recs
  /-- After any number of the writes the invariant holds, or some record is not linked. -/
  crash : ∀ n, (∃ pool, I (applyLs c L (ws.take n)) pool) ∨ Stray e c L (applyLs c L (ws.take n))

theorem planOk_noop {inv : Lay → List FB → Prop} {L : Lay} {m : Mem} {k : Bytes} {w : Bool} {a : Action} (h : inv L m.fbp)
    (hw : w = false ∨ a = .noop ∨ (a = .remove ∧ contents L.recs k = none)) : PlanOk e inv c L m k w a m [] := by
  have e1 : contents L.recs = if w then (contents L.recs).act k a else contents L.recs := by
    rcases hw with rfl | rfl | ⟨rfl, h⟩
    · simp
    · simp [Dict.act]
    · have := Dict.upd_same (contents L.recs) k
      rw [h] at this
      simp only [Dict.act, this, ite_self]
  exact ⟨trivial, h, e1, fun x => x, ⟨[], by simp, rfl⟩, fun _ => ⟨rfl, rfl⟩, fun n => Or.inl (by simp [applyLs]),
    fun n => Or.inl ⟨_, by simpa [applyLs] using h⟩⟩

theorem contents_linkWr {L : Lay} (p bi x : Nat) : contents (applyL c L (linkWr p bi x)).recs = contents L.recs := by
  apply contents_link
  unfold linkWr
  split
  · exact Or.inl ⟨_, _, rfl⟩
  · exact Or.inr ⟨_, _, rfl⟩

theorem mid_one {L : Lay} (w : Wr) (n : Nat) : contents (applyLs c L ([w].take n)).recs = contents L.recs ∨
    contents (applyLs c L ([w].take n)).recs = contents (applyLs c L [w]).recs := by
  match n with
  | 0 => exact Or.inl rfl
  | n + 1 => exact Or.inr (by simp)

theorem mid_two {L : Lay} (w w' : Wr) (h : contents (applyL c L w).recs = contents L.recs ∨
    contents (applyL c L w).recs = contents (applyLs c L [w, w']).recs) (n : Nat) :
    contents (applyLs c L ([w, w'].take n)).recs = contents L.recs ∨
    contents (applyLs c L ([w, w'].take n)).recs = contents (applyLs c L [w, w']).recs := by
  match n with
  | 0 => exact Or.inl rfl
  | 1 => exact h
  | n + 2 => exact Or.inr (by simp)

theorem mid_three {L : Lay} (w w' w'' : Wr) (h : contents (applyL c L w).recs = contents L.recs ∨
    contents (applyL c L w).recs = contents (applyLs c L [w, w', w'']).recs)
    (h' : contents (applyL c (applyL c L w) w').recs = contents (applyL c L w).recs) (n : Nat) :
    contents (applyLs c L ([w, w', w''].take n)).recs = contents L.recs ∨
    contents (applyLs c L ([w, w', w''].take n)).recs = contents (applyLs c L [w, w', w'']).recs := by
  match n with
  | 0 => exact Or.inl rfl
  | 1 => exact h
  | 2 =>
    have e1 : applyLs c L ([w, w', w''].take 2) = applyL c (applyL c L w) w' := rfl
    rw [e1, h']; exact h
  | n + 3 => exact Or.inr (by simp)

theorem crash_one {inv : Lay → List FB → Prop} {L : Lay} {w : Wr} {f f' : List FB} (h : inv L f) (h1 : inv (applyLs c L [w]) f') (n : Nat) :
    (∃ pool, inv (applyLs c L ([w].take n)) pool) ∨ Stray e c L (applyLs c L ([w].take n)) := by
  match n with
  | 0 => exact Or.inl ⟨_, h⟩
  | n + 1 => exact Or.inl ⟨f', by simpa using h1⟩

theorem crash_two {inv : Lay → List FB → Prop} {L : Lay} {w w' : Wr} {f f' : List FB} (h : inv L f) (h1 : inv (applyLs c L [w, w']) f')
    (hs : Stray e c L (applyL c L w)) (n : Nat) :
    (∃ pool, inv (applyLs c L ([w, w'].take n)) pool) ∨ Stray e c L (applyLs c L ([w, w'].take n)) := by
  match n with
  | 0 => exact Or.inl ⟨_, h⟩
  | 1 => exact Or.inr hs
  | n + 2 => exact Or.inl ⟨f', by simpa using h1⟩

theorem crash_three {inv : Lay → List FB → Prop} {L : Lay} {w w' w'' : Wr} {f f' : List FB} (h : inv L f)
    (h1 : inv (applyLs c L [w, w', w'']) f') (hs : Stray e c L (applyL c L w)) (hs' : Stray e c L (applyL c (applyL c L w) w')) (n : Nat) :
    (∃ pool, inv (applyLs c L ([w, w', w''].take n)) pool) ∨ Stray e c L (applyLs c L ([w, w', w''].take n)) := by
  match n with
  | 0 => exact Or.inl ⟨_, h⟩
  | 1 => exact Or.inr hs
  | 2 => exact Or.inr hs'
  | n + 3 => exact Or.inl ⟨f', by simpa using h1⟩

theorem plan_inPlace {τ : Type} (hr : e.InRange) (hc : CfgOk c) (hm : c.inPlace = true) {L : Lay} {m : Mem}
    (h : InPlace e c L m.fbp) (k : Bytes) (w : Bool) (p : ProcR τ) (hf : ActFits (fits c) k (p (contents L.recs k)).1) :
    ∃ m' ws, plan c (layReader c L) m k (e.hash k c.nb) w p = some (m', ws, (p (contents L.recs k)).2) ∧
      PlanOk e (InPlace e c) c L m k w (p (contents L.recs k)).1 m' ws := by
  have hi : e.hash k c.nb < c.nb := hr k c.nb (by have := hc.nb; omega)
  obtain ⟨pa, hp⟩ := h.chain _ hi
  have hbk : (layReader c L).bucket (e.hash k c.nb) = some (L.buckets.getD (e.hash k c.nb) 0) := by
    simp only [layReader, List.getD_eq_getElem?_getD]
    rw [List.getElem?_eq_getElem (by rw [h.base.nb]; exact hi)]; rfl
  have hsize : (layReader c L).size = L.end_ c := rfl
  have hlen := hp.path.length_le hp.nodup
  have htop : L.buckets.getD (e.hash k c.nb) 0 % (1 <<< c.ap) = 0 ∧ L.buckets.getD (e.hash k c.nb) 0 < L.end_ c := by
    apply h.base.bkt
    rw [List.getD_eq_getElem?_getD, List.getElem?_eq_getElem (by rw [h.base.nb]; exact hi)]
    exact List.getElem_mem _
  simp only [plan, hbk]
  rcases h.find k hp with ⟨hk, hnone⟩ | ⟨a, cur, r, b, rfl, hk, ha, hsome⟩
  · rw [findRec_none hp.path _ hlen 0 hk]
    simp only [hnone]
    rw [hnone] at hf
    cases w with
    | false => exact ⟨m, [], rfl, planOk_noop h (Or.inl rfl)⟩
    | true =>
      cases hact : (p none).1 with
      | noop => exact ⟨m, [], by simp, planOk_noop h (Or.inr (Or.inl rfl))⟩
      | remove => exact ⟨m, [], by simp, planOk_noop h (Or.inr (Or.inr ⟨rfl, hnone⟩))⟩
      | set v =>
        rw [hact] at hf
        have hf : fits c k v := hf
        simp only [missWrites, hsize]
        obtain ⟨nr, h1, h2, h3, hP⟩ := place_spec (op := .add) (op' := .add) hc hm h (by simp) (by simp) hf htop
        obtain ⟨g1, g2, g3⟩ := add_spec h hi hc hp hk hP h1 h2 h3
        refine ⟨_, _, rfl, ⟨g1, g2, ?_, ?_, ?_, by simp, fun n => mid_two _ _ (by rw [g3]; have := hP.cont; rw [h1, h2] at this; exact this) n,
          crash_two h g2 (hP.stray hm h (by rw [h1]; exact hi))⟩⟩
        · rw [g3]; simp [Dict.act]
        · intro hcnt
          rw [g3]
          simpa [account] using hcnt.add v hnone
        · refine ⟨[.set k v], by simp [account], ?_⟩
          rw [g3]; rfl
  · rw [findRec_some hp.path _ hlen 0 ha hk]
    have hrm := hp.mem (cur, r) (by simp)
    have hra : recAt c (recordBase c) L.recs cur = some r := hp.path.at (cur, r) (by simp)
    have hset : r.op.isSet = true := by
      have h1 := hrm.1
      have h2 := h.noRemove r (recAt_mem hra)
      simp only at h1
      cases hop : r.op <;> simp_all [OpType.isSet]
    have hgood := h.base.recs r (recAt_mem hra)
    simp only [recR, hset, if_true, Option.map_some]
    rw [hsome] at hf ⊢
    by_cases hw : w = false ∨ (p (some r.value)).1 = .noop
    · rw [if_pos hw]
      exact ⟨m, [], rfl, planOk_noop h (by rcases hw with hw | hw; exact Or.inl hw; exact Or.inr (Or.inl hw))⟩
    · rw [if_neg hw]
      have hw' : w = true := by cases w <;> simp_all
      have hnn : (p (some r.value)).1 ≠ .noop := fun e1 => hw (Or.inr e1)
      subst hw'
      have hcf : cur ∉ m.fbp.map (·.off) := by
        intro hmem
        obtain ⟨x, hx, ex⟩ := List.mem_map.1 hmem
        obtain ⟨rb, h1, h2, _⟩ := h.fbp x hx
        rw [ex, hra] at h1; cases h1; exact hrm.1 h2
      cases hact : (p (some r.value)).1 with
      | noop => exact absurd hact hnn
      | remove =>
        obtain ⟨f', hf1, hf2, hf3⟩ := fbpInsert_spec (b := ⟨cur, r.size c⟩) hc.fbp h.fbpNodup hcf
        have hvs := void_size (r := r) hgood.1.align .void 0
        simp only [hitWrites, hm, hvs, decide_true, Bool.and_self, if_true, hf1]
        obtain ⟨g1, g2, g3, g4⟩ := remove_spec h hi hp hk hf2 hf3 hcf
        refine ⟨_, _, rfl, ⟨g1, g2, ?_, ?_, ?_, by simp, fun n => mid_two _ _ (Or.inl (contents_linkWr _ _ _)) n,
          crash_two h g2 (g4 hm)⟩⟩
        · refine g3.trans ?_; simp [Dict.act]
        · intro hcnt
          have := hcnt.del hsome
          refine (congrArg (fun d => Dict.Counted d _ _) g3).mpr ?_
          simpa [account] using this
        · exact ⟨[.remove k], by simp [account], g3.symm⟩
      | set v =>
        rw [hact] at hf
        have hf : fits c k v := hf
        have hcounted : (contents L.recs).Counted m.num m.eff → ((contents L.recs).upd k (some v)).Counted m.num
            (m.eff + ((v.length : Int) - r.value.length)) := fun hcnt => hcnt.put v hsome
        simp only [hitWrites, hset, if_true]
        by_cases hsz : (setData c .set (r.size c) k v r.child).size c = r.size c
        · simp only [hm, hsz, decide_true, Bool.and_self, if_true]
          obtain ⟨g1, g2, g3⟩ := overwrite_spec h hi hp hk (r' := setData c .set (r.size c) k v r.child)
            (goodRec_setData hf hgood.1.small hgood.1.align hgood.1.child) hsz rfl rfl (by simp [setData])
          refine ⟨_, _, rfl, ⟨g1, g2, ?_, ?_, ?_, by simp, fun n => mid_one _ n, crash_one h g2⟩⟩
          · exact g3.trans (by simp [Dict.act, setData])
          · intro hcnt
            refine (congrArg (fun d => Dict.Counted d _ _) g3).mpr ?_
            simpa [account, setData] using hcounted hcnt
          · exact ⟨[.set k v], by simp [account], g3.symm⟩
        · simp only [hm, hsz, decide_false, Bool.and_false, Bool.false_eq_true, if_false]
          simp only [relocate, hm, Bool.true_or, if_true, hset, Bool.true_and, Bool.false_eq_true, if_false, hsize,
            decide_eq_true_eq]
          obtain ⟨nr, h1, h2, h3, hP⟩ := place_spec (op := .set) (op' := .set) hc hm h (by simp) (by simp) hf
            ⟨hgood.1.child, hgood.2⟩
          have hcf1 : cur ∉ (place c (L.end_ c) m.fbp (setData c .set 0 k v r.child)
              (fun ideal => setData c .set ideal k v r.child)).2.2.map (·.off) := by
            intro hmem
            obtain ⟨x, hx, ex⟩ := List.mem_map.1 hmem
            exact hcf (ex ▸ List.mem_map.2 ⟨x, (hP.pool x hx).1, rfl⟩)
          obtain ⟨f', hf1, hf2, hf3⟩ := fbpInsert_spec (b := ⟨cur, r.size c⟩) hc.fbp hP.poolNodup hcf1
          rw [hf1]
          obtain ⟨g1, g2, g3, g4⟩ := move_spec h hi hp hk hc hP h1 h2 h3 hf2 hf3 hcf
          refine ⟨_, _, rfl, ⟨g1, g2, ?_, ?_, ?_, by simp, fun n => mid_three _ _ _ (by rw [show contents _ = _ from g3]; have := hP.cont; rw [h1, h2] at this; exact this) (contents_linkWr _ _ _) n,
            crash_three h g2 (hP.stray hm h (by rw [h1]; exact hi)) (g4 hm)⟩⟩
          · exact g3.trans (by simp [Dict.act])
          · intro hcnt
            refine (congrArg (fun d => Dict.Counted d _ _) g3).mpr ?_
            simpa [account] using hcounted hcnt
          · exact ⟨[.set k v], by simp [account], g3.symm⟩

end Verif.Hash
