import Verif.Tiny.Conc
import Verif.Tiny.Props
import Verif.Dbm.TwoPhaseProof
/-
`ProcessImpl` of TinyDBM as an operation on one chain, and the calls in serial order as operations on a dictionary.
-/
namespace Verif.Tiny.Conc
open Verif TwoPhase

/-- `ProcessImpl` as an operation on the chain of the bucket; `none` if something is undefined. -/
def opC {ρ : Type} (x : List Blk) (k : Bytes) (w : Bool) (p : ProcR ρ) : Option (List Blk × ρ × List LogOp) :=
  match walk k x with
  | .bad => none
  | .hit pre blk v post =>
    if w then
      match (p (some v)).1 with
      | .noop => some (x, (p (some v)).2, [])
      | .remove => some (pre ++ post, (p (some v)).2, [.remove k])
      | .set v' =>
        match reserialize blk k v' v.length with
        | none => none
        | some b' => some (pre ++ b' :: post, (p (some v)).2, [.set k v'])
    else some (x, (p (some v)).2, [])
  | .absent =>
    if w then
      match (p none).1 with
      | .set v' =>
        match serialize k v' with
        | none => none
        | some b => some (b :: x, (p none).2, [.set k v'])
      | _ => some (x, (p none).2, [])
    else some (x, (p none).2, [])

theorem opC_ok {ρ : Type} : OpOk (opC (ρ := ρ)) where
  ro := by
    intro x k p y h
    unfold opC at h
    split at h
    · cases h
    · simp at h; subst h; exact ⟨rfl, rfl⟩
    · simp at h; subst h; exact ⟨rfl, rfl⟩
  keyed := by
    intro x k w p y h e he
    unfold opC at h
    split at h
    · cases h
    · split at h
      · split at h
        · simp at h; subst h; simp at he
        · simp at h; subst h; simp at he; subst he; rfl
        · split at h
          · cases h
          · simp at h; subst h; simp at he; subst he; rfl
      · simp at h; subst h; simp at he
    · split at h
      · split at h
        · split at h
          · cases h
          · simp at h; subst h; simp at he; subst he; rfl
        · simp at h; subst h; simp at he
      · simp at h; subst h; simp at he

/-- The number of all records. -/
def tot (nb : Nat) (A : Nat → List Blk) : Int := ((((List.range nb).map A).map List.length).sum : Nat)

/-- The chains as a state of the sequential model. -/
def st (nb : Nat) (A : Nat → List Blk) (lg : List LogOp) : State :=
  { buckets := (List.range nb).map A, count := tot nb A, log := lg, bad := false }

theorem st_bk {nb : Nat} {A : Nat → List Blk} {lg : List LogOp} {i : Nat} (hi : i < nb) : (st nb A lg).bk i = A i := by
  simp [st, State.bk, hi]

theorem st_set {nb : Nat} {A : Nat → List Blk} {i : Nat} {x : List Blk} :
    ((List.range nb).map A).set i x = (List.range nb).map (upd A i x) := by
  apply List.ext_getElem?
  intro j
  rw [List.getElem?_set]
  simp only [List.length_map, List.length_range, List.getElem?_map]
  by_cases hj : j < nb
  · by_cases hij : i = j
    · subst hij; simp [hj, upd]
    · simp [hij, Ne.symm hij, upd, hj]
  · have : (List.range nb)[j]? = none := by simp; omega
    rw [this]
    split
    · rename_i e; simp; omega
    · simp

theorem tot_upd {nb : Nat} {A : Nat → List Blk} {i : Nat} {x : List Blk} (hi : i < nb) :
    tot nb (upd A i x) = tot nb A - (A i).length + x.length := by
  have h := sum_set (l := (List.range nb).map A) (i := i) (by simpa using hi) x
  rw [st_set] at h
  have e : ((List.range nb).map A).getD i [] = A i := st_bk (lg := []) hi
  rw [e] at h
  unfold tot
  omega

theorem upd_same (A : Nat → List Blk) (i : Nat) : upd A i (A i) = A := TwoPhase.upd_self rfl

/-- The operation on the chain is `ProcessImpl` of the sequential model. -/
theorem opC_processImpl {ρ : Type} {nb : Nat} {A : Nat → List Blk} {lg : List LogOp} {i : Nat} (hi : i < nb) {k : Bytes} {w : Bool}
    {p : ProcR ρ} {y : List Blk × ρ × List LogOp} (h : opC (A i) k w p = some y) :
    processImpl (st nb A lg) k i w p = (st nb (upd A i y.1) (lg ++ y.2.2), y.2.1) := by
  have hb : (st nb A lg).buckets.getD i [] = A i := st_bk hi
  have key : ∀ x : List Blk, ∀ l : List LogOp, ∀ c : Int, c = tot nb A - (A i).length + x.length →
      ({ buckets := ((List.range nb).map A).set i x, count := c, log := l, bad := false } : State) = st nb (upd A i x) l := by
    intro x l c hc
    simp only [st, st_set, hc, tot_upd hi]
  unfold opC at h
  unfold processImpl
  rw [hb]
  split at h
  · cases h
  · rename_i pre blk v post hw
    have hlen : (A i).length = pre.length + post.length + 1 := by
      have : ∀ (x pre : List Blk), walk k x = .hit pre blk v post → x = pre ++ blk :: post := by
        intro x
        induction x with
        | nil => intro pre h; simp [walk] at h
        | cons b rest ih =>
          intro pre h
          simp only [walk] at h
          split at h
          · cases h
          · split at h
            · simp at h; obtain ⟨rfl, rfl, _, rfl⟩ := h; rfl
            · split at h
              · rename_i hr
                simp at h
                obtain ⟨rfl, rfl, rfl, rfl⟩ := h
                rw [ih _ hr]; rfl
              · rename_i hx
                exact absurd h (hx _ _ _ _)
      rw [this _ _ hw]; simp; omega
    simp only [hw]
    cases w with
    | false => simp at h; subst h; simp [upd_same]
    | true =>
      simp only [if_true] at h ⊢
      cases ha : (p (some v)).1 with
      | noop => simp [ha] at h; subst h; simp [upd_same]
      | remove =>
        simp [ha] at h; subst h
        simp only
        rw [← key (pre ++ post) _ (tot nb A - 1) (by rw [hlen]; simp; omega)]; simp [st]
      | set v' =>
        simp only [ha] at h ⊢
        cases hb' : reserialize blk k v' v.length with
        | none => simp [hb'] at h
        | some b' =>
          simp [hb'] at h; subst h
          simp only
          rw [← key (pre ++ b' :: post) _ (tot nb A) (by rw [hlen]; simp; omega)]; simp [st]
  · rename_i hw
    simp only [hw]
    cases w with
    | false => simp at h; subst h; simp [upd_same]
    | true =>
      simp only [if_true] at h ⊢
      cases ha : (p none).1 with
      | noop => simp [ha] at h; subst h; simp [upd_same]
      | remove => simp [ha] at h; subst h; simp [upd_same]
      | set v' =>
        simp only [ha] at h ⊢
        cases hb' : serialize k v' with
        | none => simp [hb'] at h
        | some b =>
          simp [hb'] at h; subst h
          simp only
          rw [← key (b :: A i) _ (tot nb A + 1) (by simp; omega)]; simp [st]

section
variable {ρ : Type} {hash : Bytes → Nat → Nat} {nb : Nat}

/-- One processor call on the chains is the same on the dictionary. -/
theorem opC_dict (hr : InRange hash) {A : Nat → List Blk} {lg : List LogOp} (hi : Inv hash (st nb A lg)) {k : Bytes} {w : Bool}
    {p : ProcR ρ} {y : List Blk × ρ × List LogOp} (h : opC (A (hash k nb)) k w p = some y) :
    Inv hash (st nb (upd A (hash k nb) y.1) (lg ++ y.2.2)) ∧
    (view hash (st nb (upd A (hash k nb) y.1) (lg ++ y.2.2)), y.2.1) = (view hash (st nb A lg)).process k w p ∧
    view hash (st nb (upd A (hash k nb) y.1) (lg ++ y.2.2)) = (view hash (st nb A lg)).replay y.2.2 := by
  have hnb : 0 < nb := by have := hi.pos; simpa [st] using this
  have hlt := hr k nb hnb
  have hbo : (st nb A lg).bucketOf hash k = hash k nb := by simp [st, State.bucketOf]
  have hv : view hash (st nb A lg) k = assoc k (recs (A (hash k nb))) := by
    simp only [view, hbo]; rw [st_bk hlt]
  have hc : Chain (A (hash k nb)) (recs (A (hash k nb))) := by have := hi.chain (hash k nb); rwa [st_bk hlt] at this
  cases w with
  | false =>
    have hro := opC_ok.ro _ _ _ _ h
    have hy : y.2.1 = (p (view hash (st nb A lg) k)).2 := by
      rw [hv]
      unfold opC at h
      cases ha : assoc k (recs (A (hash k nb))) with
      | none => rw [walk_absent hc ha] at h; simp at h; subst h; rfl
      | some v =>
        obtain ⟨pre, blk, post, _, _, hw, _⟩ := walk_hit hc ha
        rw [hw] at h; simp at h; subst h; rfl
    rw [hro.1, hro.2, upd_same, List.append_nil]
    exact ⟨hi, by simp [Dict.process, hy], rfl⟩
  | true =>
    have hf : ActFits recFits k (p (view hash (st nb A lg) k)).1 := by
      rw [hv]
      unfold opC at h
      cases ha : assoc k (recs (A (hash k nb))) with
      | none =>
        rw [walk_absent hc ha] at h
        cases he : (p none).1 with
        | set v' =>
          simp [he] at h
          simp only [ActFits]
          unfold serialize at h
          split at h
          · cases h
          · rename_i hx
            split at hx
            · assumption
            · cases hx
        | _ => trivial
      | some v =>
        obtain ⟨pre, blk, post, _, _, hw, _⟩ := walk_hit hc ha
        rw [hw] at h
        cases he : (p (some v)).1 with
        | set v' =>
          simp [he] at h
          simp only [ActFits]
          by_cases hx : recFits k v'
          · exact hx
          · unfold reserialize at h
            simp [hx] at h
        | _ => trivial
    have h1 := processImpl_spec hr (st nb A lg) k true p hi hf
    rw [hbo, opC_processImpl hlt h] at h1
    obtain ⟨a1, a2, a3, _, _, ops, a4, a5⟩ := h1
    refine ⟨a1, ?_, ?_⟩
    · simp only at a2 a3
      simp only [Dict.process]
      rw [a2, a3]
    · simp only [st] at a4
      have e : ops = y.2.2 := (List.append_cancel_left a4).symm
      rw [← e]; exact a5

theorem processMulti_snoc (d : Dict) (l : List (Bytes × ProcS ρ)) (k : Bytes) (p : ProcS ρ) (w : Bool) (r : ρ) :
    d.processMulti (l ++ [(k, p)]) w r = (d.processMulti l w r).1.process k w (p (d.processMulti l w r).2) := by
  induction l generalizing d r with
  | nil => rfl
  | cons x l ih =>
    obtain ⟨k', p'⟩ := x
    simp only [List.cons_append, Dict.processMulti]
    exact ih _ _

theorem sp_dict (hr : InRange hash) {A : Nat → List Blk} {lg : List LogOp} (hi : Inv hash (st nb A lg)) {w : Bool} {r0 : ρ}
    {dn : List (Bytes × ProcS ρ)} {T : Nat → List Blk} {r : ρ} {l : List LogOp}
    (h : SP (fun k => hash k nb) opC A w r0 dn T r l) :
    Inv hash (st nb T (lg ++ l)) ∧ (view hash (st nb T (lg ++ l)), r) = (view hash (st nb A lg)).processMulti dn w r0 ∧
    view hash (st nb T (lg ++ l)) = (view hash (st nb A lg)).replay l := by
  induction h with
  | nil => rw [List.append_nil]; exact ⟨hi, rfl, rfl⟩
  | @snoc dn T r l k p y _ h2 ih =>
    obtain ⟨i1, i2, i3⟩ := ih
    obtain ⟨j1, j2, j3⟩ := opC_dict hr i1 h2
    rw [List.append_assoc] at j1 j2 j3
    refine ⟨j1, ?_, ?_⟩
    · rw [processMulti_snoc, ← i2, j2]
    · rw [j3, i3, replay_append]

theorem serial_snoc (d d1 : Dict) (ord : List (Nat × Call ρ × ρ)) (id : Nat) (c : Call ρ) (r : ρ) (h : Serial d ord d1)
    (hr : (d1.processMulti c.pairs c.writable c.init).2 = r) :
    Serial d (ord ++ [(id, c, r)]) (d1.processMulti c.pairs c.writable c.init).1 := by
  induction ord generalizing d with
  | nil => simp only [Serial] at h; subst h; exact ⟨hr, rfl⟩
  | cons x ord ih =>
    obtain ⟨id', c', r'⟩ := x
    exact ⟨h.1, ih _ h.2⟩

theorem serialR_dict (hr : InRange hash) {A0 : Nat → List Blk} (h0 : Inv hash (st nb A0 [])) {ord : List (Nat × Call ρ × ρ)}
    {A : Nat → List Blk} {lg : List LogOp} (h : SerialR (fun k => hash k nb) opC A0 ord A lg) :
    Inv hash (st nb A lg) ∧ Serial (view hash (st nb A0 [])) ord (view hash (st nb A lg)) ∧
    view hash (st nb A lg) = (view hash (st nb A0 [])).replay lg := by
  induction h with
  | nil => exact ⟨h0, rfl, rfl⟩
  | @snoc ord A lg id c T r l _ h2 ih =>
    obtain ⟨i1, i2, i3⟩ := ih
    obtain ⟨j1, j2, j3⟩ := sp_dict hr i1 h2
    refine ⟨j1, ?_, by rw [j3, i3, replay_append]⟩
    have e1 : view hash (st nb T (lg ++ l)) = ((view hash (st nb A lg)).processMulti c.pairs c.writable c.init).1 := by rw [← j2]
    rw [e1]
    exact serial_snoc _ _ _ _ _ _ i2 (by rw [← j2])

end

/-- A log without `clear` acts on each key by the part of it that is about the key. -/
theorem replay_about (d : Dict) (l : List LogOp) (hc : LogOp.clear ∉ l) (k : Bytes) : d.replay l k = d.replay (about k l) k := by
  induction l generalizing d with
  | nil => rfl
  | cons e l ih =>
    have hc' : LogOp.clear ∉ l := fun h => hc (by simp [h])
    have step : ∀ d d' : Dict, d k = d' k → ∀ l : List LogOp, LogOp.clear ∉ l → d.replay l k = d'.replay l k := by
      intro d d' h l
      induction l generalizing d d' with
      | nil => intro _; exact h
      | cons e l ih2 =>
        intro hn
        refine ih2 _ _ ?_ fun h => hn (by simp [h])
        cases e with
        | clear => simp at hn
        | set k' v => simp only [Dict.applyLog, Dict.upd]; split <;> simp_all
        | remove k' => simp only [Dict.applyLog, Dict.upd]; split <;> simp_all
    by_cases hk : LogOp.key e = some k
    · have e1 : about k (e :: l) = e :: about k l := by simp [about, hk]
      rw [e1]
      exact ih _ hc'
    · have e1 : about k (e :: l) = about k l := by simp [about, hk]
      rw [e1, ← ih d hc']
      refine step _ _ ?_ l hc'
      cases e with
      | clear => simp at hc
      | set k' v =>
        have : k ≠ k' := fun h => hk (by simp [LogOp.key, h])
        simp [Dict.applyLog, Dict.upd, this]
      | remove k' =>
        have : k ≠ k' := fun h => hk (by simp [LogOp.key, h])
        simp [Dict.applyLog, Dict.upd, this]

end Verif.Tiny.Conc
