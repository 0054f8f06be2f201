import Verif.BTree.Inv
import Verif.Dbm.Ordered
/-
What the operations on one record do to the list of all records.
-/
namespace Verif.BTree
open Verif

variable {c : Cfg}

theorem below_append (lt : Bytes → Bytes → Bool) (k : Bytes) (recs : List Rec) : below lt k recs ++ OrdMap.lowerBound lt k recs = recs :=
  List.takeWhile_append_dropWhile

theorem below_lt {lt : Bytes → Bytes → Bool} {k : Bytes} {recs : List Rec} : ∀ r ∈ below lt k recs, lt r.1 k = true := by
  intro r hr
  have : ∀ (l : List Rec), r ∈ l.takeWhile (fun r => lt r.1 k) → lt r.1 k = true := by
    intro l
    induction l with
    | nil => intro h; simp at h
    | cons a l ih =>
      intro h
      rw [List.takeWhile_cons] at h
      split at h
      · rcases List.mem_cons.1 h with rfl | h
        · assumption
        · exact ih h
      · simp at h
  exact this _ hr

theorem lowerBound_head {lt : Bytes → Bytes → Bool} {k : Bytes} : ∀ {recs : List Rec} {r : Rec} {rest : List Rec},
    OrdMap.lowerBound lt k recs = r :: rest → lt r.1 k = false
  | [], _, _, h => by simp [OrdMap.lowerBound] at h
  | a :: recs, r, rest, h => by
    unfold OrdMap.lowerBound at h
    rw [List.dropWhile_cons] at h
    split at h
    · exact lowerBound_head (recs := recs) h
    · cases h
      rename_i hn
      simpa using hn

/-- The records of a leaf cut at a key. -/
theorem leaf_cut (hw : StrictWeak c.lt) {recs : List Rec} (hs : OrdMap.Sorted c.lt recs) (k : Bytes) :
    ∃ R, OrdMap.lowerBound c.lt k recs = (hit c.lt k recs).toList ++ R ∧ OMap.Cut c.lt k recs (below c.lt k recs) (hit c.lt k recs) R := by
  have happ := below_append c.lt k recs
  have hs' := hs
  rw [← happ] at hs'
  unfold OrdMap.Sorted at hs'
  rw [List.pairwise_append] at hs'
  unfold hit
  cases hlb : OrdMap.lowerBound c.lt k recs with
  | nil =>
    refine ⟨[], rfl, ⟨?_, below_lt, by simp, by simp⟩⟩
    rw [hlb] at happ
    simpa using happ.symm
  | cons r rest =>
    rw [hlb] at happ
    have hsr := hs'.2.1
    rw [hlb, List.pairwise_cons] at hsr
    have hge := lowerBound_head hlb
    by_cases h2 : c.lt k r.1 = true
    · simp only [h2, if_true]
      refine ⟨r :: rest, rfl, ⟨by simpa using happ.symm, below_lt, by simp, fun x hx => ?_⟩⟩
      rcases List.mem_cons.1 hx with rfl | hx
      · exact h2
      · exact hw.trans _ _ _ h2 (hsr.1 x hx)
    · simp only [h2, if_false]
      refine ⟨rest, rfl, ⟨by simpa using happ.symm, below_lt, fun x hx => ?_, fun x hx => ?_⟩⟩
      · cases hx
        exact StrictWeak.eqv_iff.2 ⟨hge, by simpa using h2⟩
      · have he : eqv c.lt k r.1 = true := StrictWeak.eqv_iff.2 ⟨by simpa using h2, hge⟩
        exact hw.lt_of_eqv_left he (hsr.1 x hx)

/-- All records cut at a key. -/
theorem contents_cut (hw : StrictWeak c.lt) {s : State} {L A B : Layer} {e : Option Bytes × Nat} {k : Bytes} {l : Leaf} (h : Lower c s L)
    (ha : At c.lt k L A e B) (hl : s.leaves e.2 = some l) :
    ∃ R, OrdMap.lowerBound c.lt k l.recs = (hit c.lt k l.recs).toList ++ R ∧
      OMap.Cut c.lt k (contents s.leaves L) (contents s.leaves A ++ below c.lt k l.recs) (hit c.lt k l.recs) (R ++ contents s.leaves B) := by
  obtain ⟨R, h1, h2⟩ := leaf_cut hw (h.leaf e (by rw [ha.1]; simp) l hl).sorted k
  obtain ⟨s1, s2⟩ := contents_sides hw h ha
  refine ⟨R, h1, ⟨?_, fun r hr => ?_, h2.at_, fun r hr => ?_⟩⟩
  · rw [ha.1, contents_append, contents_cons, recsAt_some hl]
    have h2e : l.recs ++ contents s.leaves B = below c.lt k l.recs ++ (hit c.lt k l.recs).toList ++ R ++ contents s.leaves B :=
      congrArg (· ++ contents s.leaves B) h2.eq
    rw [h2e]
    simp only [List.append_assoc]
  · rcases List.mem_append.1 hr with hr | hr
    · exact s1 r hr
    · exact h2.lo r hr
  · rcases List.mem_append.1 hr with hr | hr
    · exact h2.hi r hr
    · exact s2 r hr

/-- One leaf is replaced. -/
theorem lower_setLeaf {s s' : State} {L A B : Layer} {e : Option Bytes × Nat} {l l' : Leaf} (h : Lower c s L) (hL : L = A ++ e :: B)
    (hl : s.leaves e.2 = some l) (hp : l'.prev = l.prev) (hn : l'.next = l.next) (ho : LeafOk c L e.2 l')
    (h1 : s'.leaves = upd s.leaves e.2 (some l')) (h2 : s'.numLeaf = s.numLeaf) (h3 : s'.first = s.first) (h4 : s'.last = s.last) (h5 : s'.iters = s.iters)
    (h6 : s'.lastOk = s.lastOk) :
    Lower c s' L ∧ contents s'.leaves L = contents s.leaves A ++ l'.recs ++ contents s.leaves B := by
  have hnd := h.nodup
  rw [hL, List.map_append, List.nodup_append, List.map_cons, List.nodup_cons] at hnd
  have hA : ∀ a ∈ A, a.2 ≠ e.2 := fun a ha he => hnd.2.2 a.2 (List.mem_map.2 ⟨a, ha, rfl⟩) e.2 (by simp) he
  have hB : ∀ b ∈ B, b.2 ≠ e.2 := fun b hb he => hnd.2.1.1 (by rw [← he]; exact List.mem_map.2 ⟨b, hb, rfl⟩)
  have eA : ∀ a ∈ A, s'.leaves a.2 = s.leaves a.2 := fun a ha => by simp [h1, upd, hA a ha]
  have eB : ∀ b ∈ B, s'.leaves b.2 = s.leaves b.2 := fun b hb => by simp [h1, upd, hB b hb]
  have ee : s'.leaves e.2 = some l' := by simp [h1, upd]
  constructor
  · refine ⟨h.seps, h.nodup, by rw [h2]; exact h.fresh, ?_, by rw [h3]; exact h.first, by rw [h4, h6]; exact h.last, fun d hd l0 hl0 => ?_, by rw [h5]; exact h.iters⟩
    · have hlk := h.linked
      rw [hL] at hlk ⊢
      obtain ⟨k1, ⟨l0, k2, k3, k4⟩, k5⟩ := linked_split.1 hlk
      rw [hl] at k2
      cases k2
      exact linked_split.2 ⟨k1.congr eA, ⟨l', ee, hp.trans k3, hn.trans k4⟩, k5.congr eB⟩
    · by_cases hde : d.2 = e.2
      · rw [hde] at hl0 ⊢
        rw [ee] at hl0
        cases hl0
        exact ho
      · rw [h1] at hl0
        simp only [upd, hde, if_false] at hl0
        exact h.leaf d hd l0 hl0
  · rw [hL, contents_append, contents_cons, recsAt_some ee, contents_congr (A := A) (lv := s.leaves) fun a ha => by simp [recsAt, eA a ha],
      contents_congr (A := B) (lv := s.leaves) fun a ha => by simp [recsAt, eB a ha], List.append_assoc]

/-- The invariant after a leaf is replaced. -/
theorem inv_setLeaf {s s' : State} {L A B : Layer} {e : Option Bytes × Nat} {l l' : Leaf} (h : Inv c s L) (hL : L = A ++ e :: B)
    (hl : s.leaves e.2 = some l) (ho : LeafOk c L e.2 l') (hp : l'.prev = l.prev) (hn : l'.next = l.next)
    (hs : s' = { s with leaves := upd s.leaves e.2 (some l'), log := s'.log, count := s'.count, eff := s'.eff })
    (hcnt : s'.count = s.count + l'.recs.length - l.recs.length ∧ s'.eff = s.eff + dataSize l'.recs - dataSize l.recs) :
    Inv c s' L ∧ contents s'.leaves L = contents s.leaves A ++ l'.recs ++ contents s.leaves B := by
  have h0 := lower_setLeaf (s' := s') h.lower hL hl hp hn ho (by rw [hs]) (by rw [hs]) (by rw [hs]) (by rw [hs]) (by rw [hs]) (by rw [hs])
  refine ⟨⟨?_, h0.1, by rw [hs]; exact h.reorg, ?_⟩, h0.2⟩
  · obtain ⟨ups, hU⟩ := h.upper
    rw [hs]
    exact ⟨ups, hU.shape, hU.level, hU.nodup, hU.fresh⟩
  · rw [h0.2, hcnt.1, hcnt.2, h.count.1, h.count.2, hL, contents_append, contents_cons, recsAt_some hl]
    simp only [List.length_append, dataSize_append]
    omega

/-- The result of an operation on the record under a key in the leaf `id`. -/
structure Did (c : Cfg) (s s' : State) (L : Layer) (id : Nat) (m : List Rec) (lg : List LogOp) : Prop where
  inv : Inv c s' L
  recs : contents s'.leaves L = m
  log : s'.log = s.log ++ lg
  iters : s'.iters = s.iters
  frame : ∀ i, i ≠ id → s'.leaves i = s.leaves i

theorem request_did {s s' : State} {L : Layer} {id : Nat} {m : List Rec} {lg : List LogOp} {x : Bytes} (h : Did c s s' L id m lg)
    (hx : locate c.lt x L = some id) : Did c s (request s' id x) L id m lg := by
  unfold request
  split
  · exact h
  · obtain ⟨ups, hU⟩ := h.inv.upper
    have hl := h.inv.lower
    refine ⟨⟨⟨ups, hU.shape, hU.level, hU.nodup, hU.fresh⟩, ⟨hl.seps, hl.nodup, hl.fresh, hl.linked, hl.first, hl.last, hl.leaf, hl.iters⟩, fun q hq => ?_, h.inv.count⟩,
      h.recs, h.log, h.iters, h.frame⟩
    rcases List.mem_append.1 hq with hq | hq
    · exact h.inv.reorg q hq
    · simp only [List.mem_singleton] at hq
      rw [hq]
      exact hx

theorem did_ub {s s' : State} {L : Layer} {id : Nat} {m : List Rec} {lg : List LogOp} (h : Did c s s' L id m lg) (b : Bool) :
    Did c s { s' with ub := b } L id m lg := by
  obtain ⟨ups, hU⟩ := h.inv.upper
  have hl := h.inv.lower
  exact ⟨⟨⟨ups, hU.shape, hU.level, hU.nodup, hU.fresh⟩, ⟨hl.seps, hl.nodup, hl.fresh, hl.linked, hl.first, hl.last, hl.leaf, hl.iters⟩, h.inv.reorg, h.inv.count⟩,
    h.recs, h.log, h.iters, h.frame⟩

theorem recsSize_cons (c : Cfg) (r : Rec) (l : List Rec) : recsSize c (r :: l) = c.recSize r + recsSize c l := by
  simp [recsSize]

/-- The leaf of a key keeps its properties when a record under that key is added, changed or removed. -/
theorem leaf_change (hw : StrictWeak c.lt) {s : State} {L A B : Layer} {e : Option Bytes × Nat} {k : Bytes} {l : Leaf} (h : Lower c s L)
    (ha : At c.lt k L A e B) (hl : s.leaves e.2 = some l) {P R : List Rec} {q q' : Option Rec} (hcut : OMap.Cut c.lt k l.recs P q R)
    (hq : ∀ r, q' = some r → eqv c.lt r.1 k = true) (pg : Int) (hpg : pg = l.page - recsSize c q.toList + recsSize c q'.toList) :
    LeafOk c L e.2 { l with recs := P ++ q'.toList ++ R, page := pg, dirty := true } := by
  have ho := h.leaf e (by rw [ha.1]; simp) l hl
  have hs := ho.sorted
  rw [hcut.eq, List.append_assoc] at hs
  unfold OrdMap.Sorted at hs
  rw [List.pairwise_append, List.pairwise_append] at hs
  have hle : ∀ (b : Option Rec) (x : Rec), x ∈ b.toList → b = some x := fun b x hx => by
    cases b with
    | none => simp at hx
    | some y => simp at hx; rw [hx]
  refine ⟨?_, fun r hr => ?_, ?_⟩
  · show OrdMap.Sorted c.lt (P ++ q'.toList ++ R)
    unfold OrdMap.Sorted
    rw [List.append_assoc, List.pairwise_append, List.pairwise_append]
    refine ⟨hs.1, ⟨?_, hs.2.1.2.1, fun x hx y hy => ?_⟩, fun x hx y hy => ?_⟩
    · cases q' <;> simp
    · exact hw.lt_of_eqv_left (hq x (hle _ x hx)) (hcut.hi y hy)
    · rcases List.mem_append.1 hy with hy | hy
      · have := hq y (hle _ y hy)
        rw [StrictWeak.eqv_symm] at this
        exact hw.lt_of_eqv_right (hcut.lo x hx) this
      · exact hw.trans _ _ _ (hcut.lo x hx) (hcut.hi y hy)
  · have hr : r ∈ P ++ q'.toList ++ R := hr
    rcases List.mem_append.1 hr with hr | hr
    · rcases List.mem_append.1 hr with hr | hr
      · exact ho.own r (by rw [hcut.eq]; simp [hr])
      · have he := hq r (hle _ r hr)
        have hat : At c.lt r.1 L A e B := by
          have e1 : ∀ sep, above c.lt r.1 sep = above c.lt k sep := fun sep => by
            cases sep with
            | none => rfl
            | some m => exact hw.lt_congr_left he
          exact ⟨ha.1, fun a h' => by rw [e1]; exact ha.2.1 a h', by rw [e1]; exact ha.2.2.1, fun b h' => by rw [e1]; exact ha.2.2.2 b h'⟩
        exact hat.locate hw h.seps
    · exact ho.own r (by rw [hcut.eq]; simp [hr])
  · show pg = c.base + recsSize c (P ++ q'.toList ++ R)
    have := ho.page
    have he : recsSize c l.recs = recsSize c (P ++ q.toList ++ R) := congrArg (recsSize c) hcut.eq
    rw [he] at this
    simp only [recsSize_append] at this ⊢
    omega

theorem front_own {L : Layer} {id : Nat} {l : Leaf} (h : LeafOk c L id l) {d : Bytes} (hd : locate c.lt d L = some id) :
    locate c.lt ((l.recs.head?.map (·.1)).getD d) L = some id := by
  cases hr : l.recs with
  | nil => exact hd
  | cons r rest => exact h.own r (by rw [hr]; simp)

theorem processImpl_spec (hc : c.Ok) {τ : Type} {s : State} {L A B : Layer} {e : Option Bytes × Nat} {k : Bytes} (h : Inv c s L)
    (ha : At c.lt k L A e B) (w : Bool) (p : Bytes → ProcR τ) :
    ∃ s', processImpl c s e.2 k w p = some (s', (OMap.process c.lt (contents s.leaves L) k w p).2.2) ∧
      Did c s s' L e.2 (OMap.process c.lt (contents s.leaves L) k w p).1 (OMap.process c.lt (contents s.leaves L) k w p).2.1 := by
  have hw := hc.weak
  obtain ⟨l, hl⟩ := h.lower.linked.get (e := e) (by rw [ha.1]; simp)
  obtain ⟨R, hR, hcut⟩ := contents_cut hw h.lower ha hl
  obtain ⟨R', hR', hlc⟩ := leaf_cut hw (h.lower.leaf e (by rw [ha.1]; simp) l hl).sorted k
  have hRR : R' = R := List.append_cancel_left (hR'.symm.trans hR)
  subst hRR
  have hget := hcut.get hw
  have hloc : locate c.lt k L = some e.2 := ha.locate hw h.lower.seps
  have same : Did c s s L e.2 (contents s.leaves L) [] := ⟨h, rfl, by simp, rfl, fun _ _ => rfl⟩
  have hL := ha.1
  unfold OMap.process
  rw [hget]
  cases hh : hit c.lt k l.recs with
  | none =>
    rw [hh] at hcut hlc hR
    simp only [processImpl, hl, hh, Option.bind_eq_bind, Option.bind_some]
    generalize p k none = a
    obtain ⟨act, t⟩ := a
    simp only
    rcases Bool.eq_false_or_eq_true w with rfl | rfl
    · cases act with
      | set v =>
        refine ⟨_, rfl, ?_⟩
        have hlk := leaf_change hw h.lower ha hl hlc (q' := some (k, v)) (fun r hr => by cases hr; exact hw.eqv_refl _) (l.page + c.recSize (k, v))
          (by simp [recsSize])
        have hlk' : LeafOk c L e.2 { l with recs := below c.lt k l.recs ++ (k, v) :: OrdMap.lowerBound c.lt k l.recs, page := l.page + c.recSize (k, v), dirty := true } := by
          rw [hR]
          simpa using hlk
        obtain ⟨i1, i2⟩ := inv_setLeaf (s' := { s with
            leaves := upd s.leaves e.2 (some { l with recs := below c.lt k l.recs ++ (k, v) :: OrdMap.lowerBound c.lt k l.recs, page := l.page + c.recSize (k, v), dirty := true })
            log := s.log ++ [.set k v], count := s.count + 1, eff := s.eff + (k.length + v.length : Nat) }) h hL hl hlk' rfl rfl rfl (by
          dsimp only
          have := congrArg List.length (below_append c.lt k l.recs)
          have h2 := congrArg dataSize (below_append c.lt k l.recs)
          simp only [List.length_append, List.length_cons, dataSize_append, dataSize_cons] at this h2 ⊢
          omega)
        have hd : Did c s { s with
            leaves := upd s.leaves e.2 (some { l with recs := below c.lt k l.recs ++ (k, v) :: OrdMap.lowerBound c.lt k l.recs, page := l.page + c.recSize (k, v), dirty := true })
            log := s.log ++ [.set k v], count := s.count + 1, eff := s.eff + (k.length + v.length : Nat) } L e.2 (OMap.put c.lt k v (contents s.leaves L)) [.set k v] := by
          refine ⟨i1, ?_, rfl, rfl, fun i hi => by simp [upd, hi]⟩
          rw [i2, hcut.put hw, hR]
          simp
        simp only [insertRec]
        split
        · exact request_did hd (front_own hlk' hloc)
        · exact hd
      | remove => exact ⟨s, rfl, same⟩
      | noop => exact ⟨s, rfl, same⟩
    · cases act <;> exact ⟨s, rfl, same⟩
  | some r =>
    rw [hh] at hcut hlc hR
    simp only [processImpl, hl, hh, Option.bind_eq_bind, Option.bind_some]
    have hrk : eqv c.lt r.1 k = true := hlc.at_ r rfl
    have hrm : r ∈ l.recs := by rw [hlc.eq]; simp
    have hro : locate c.lt r.1 L = some e.2 := (h.lower.leaf e (by rw [ha.1]; simp) l hl).own r hrm
    have hdrop : (OrdMap.lowerBound c.lt k l.recs).drop 1 = R' := by rw [hR]; rfl
    have hlen : l.recs.length = (below c.lt k l.recs).length + 1 + R'.length := by
      have := congrArg List.length hlc.eq
      simp only [List.length_append, Option.toList_some, List.length_singleton] at this
      exact this
    have hdat : dataSize l.recs = dataSize (below c.lt k l.recs) + (r.1.length + r.2.length : Nat) + dataSize R' := by
      have := congrArg dataSize hlc.eq
      simp only [dataSize_append, Option.toList_some, dataSize_cons] at this
      rw [this]
      simp [dataSize]
    generalize p r.1 (some r.2) = a
    obtain ⟨act, t⟩ := a
    simp only
    rcases Bool.eq_false_or_eq_true w with rfl | rfl
    · cases act with
      | noop => exact ⟨s, rfl, same⟩
      | remove =>
        refine ⟨_, rfl, ?_⟩
        have hlk : LeafOk c L e.2 { l with recs := below c.lt k l.recs ++ (OrdMap.lowerBound c.lt k l.recs).drop 1, page := l.page - c.recSize r, dirty := true } := by
          have := leaf_change hw h.lower ha hl hlc (q' := none) (by simp) (l.page - c.recSize r) (by simp [recsSize])
          rw [hdrop]
          simpa using this
        obtain ⟨i1, i2⟩ := inv_setLeaf (s' := { s with
            leaves := upd s.leaves e.2 (some { l with recs := below c.lt k l.recs ++ (OrdMap.lowerBound c.lt k l.recs).drop 1, page := l.page - c.recSize r, dirty := true })
            log := s.log ++ [.remove k], count := s.count - 1, eff := s.eff - (r.1.length + r.2.length : Nat) }) h hL hl hlk rfl rfl rfl (by
          dsimp only
          rw [hdrop, hlen]
          simp only [List.length_append, hdat, dataSize_append]
          omega)
        have hd : Did c s { s with
            leaves := upd s.leaves e.2 (some { l with recs := below c.lt k l.recs ++ (OrdMap.lowerBound c.lt k l.recs).drop 1, page := l.page - c.recSize r, dirty := true })
            log := s.log ++ [.remove k], count := s.count - 1, eff := s.eff - (r.1.length + r.2.length : Nat) } L e.2 (OMap.del c.lt k (contents s.leaves L)) [.remove k] := by
          refine ⟨i1, ?_, rfl, rfl, fun i hi => by simp [upd, hi]⟩
          rw [i2, hcut.del hw, hdrop]
          simp
        simp only [removeRec]
        generalize hrs : below c.lt k l.recs ++ (OrdMap.lowerBound c.lt k l.recs).drop 1 = rs at hd hlk
        split
        · cases rs with
          | nil =>
            have := request_did (did_ub hd true) hro
            simp only [frontKey]
            unfold request at this ⊢
            dsimp only at this ⊢
            split at this
            · rename_i hin; rw [if_pos hin]; exact this
            · rename_i hin; rw [if_neg hin]; exact this
          | cons r0 rest =>
            have := request_did hd (x := r0.1) (hlk.own r0 (by simp))
            simp only [frontKey]
            unfold request at this ⊢
            dsimp only at this ⊢
            split at this
            · rename_i hin; rw [if_pos hin]; exact this
            · rename_i hin; rw [if_neg hin]; exact this
        · exact hd
      | set v =>
        refine ⟨_, rfl, ?_⟩
        have hlk : LeafOk c L e.2 { l with
            recs := below c.lt k l.recs ++ (r.1, v) :: (OrdMap.lowerBound c.lt k l.recs).drop 1
            page := l.page + (c.recSize (r.1, v) - c.recSize r), dirty := true } := by
          have := leaf_change hw h.lower ha hl hlc (q' := some (r.1, v)) (fun x hx => by cases hx; exact hrk) (l.page + (c.recSize (r.1, v) - c.recSize r))
            (by simp [recsSize]; omega)
          rw [hdrop]
          simpa using this
        obtain ⟨i1, i2⟩ := inv_setLeaf (s' := { s with
            leaves := upd s.leaves e.2 (some { l with
              recs := below c.lt k l.recs ++ (r.1, v) :: (OrdMap.lowerBound c.lt k l.recs).drop 1
              page := l.page + (c.recSize (r.1, v) - c.recSize r), dirty := true })
            log := s.log ++ [.set k v], eff := s.eff + ((v.length : Int) - (r.2.length : Int)) }) h hL hl hlk rfl rfl rfl (by
          dsimp only
          rw [hdrop, hlen]
          simp only [List.length_append, List.length_cons, hdat, dataSize_append, dataSize_cons]
          omega)
        have hd : Did c s { s with
            leaves := upd s.leaves e.2 (some { l with
              recs := below c.lt k l.recs ++ (r.1, v) :: (OrdMap.lowerBound c.lt k l.recs).drop 1
              page := l.page + (c.recSize (r.1, v) - c.recSize r), dirty := true })
            log := s.log ++ [.set k v], eff := s.eff + ((v.length : Int) - (r.2.length : Int)) } L e.2 (OMap.put c.lt k v (contents s.leaves L)) [.set k v] := by
          refine ⟨i1, ?_, rfl, rfl, fun i hi => by simp [upd, hi]⟩
          rw [i2, hcut.put hw, hdrop]
          simp
        have hf := front_own hlk hro
        simp only [modifyRec]
        split
        · split
          · exact request_did hd hf
          · exact hd
        · split
          · split
            · exact request_did hd hf
            · exact hd
          · exact hd
    · cases act <;> exact ⟨s, rfl, same⟩

theorem appendImpl_eq (c : Cfg) (s : State) (id : Nat) (k v delim : Bytes) :
    appendImpl c s id k v delim =
      (processImpl { c with eager := false } s id k true fun _ old => (.set (OMap.appended old v delim), ())).map (·.1) := by
  unfold appendImpl processImpl
  cases s.leaves id with
  | none => rfl
  | some l =>
    simp only [Option.bind_eq_bind, Option.bind_some]
    cases hh : hit c.lt k l.recs with
    | none => rfl
    | some r => rfl

end Verif.BTree
