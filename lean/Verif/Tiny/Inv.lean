import Verif.Tiny.Lemmas
import Verif.Dbm.History
namespace Verif.Tiny
open Verif.Codec

/-- The records of a chain, as `Deserialize` reads them. -/
def recs (c : List Blk) : List (Bytes × Bytes) := c.filterMap deserialize

theorem Chain.recs {bs rs} (h : Chain bs rs) : recs bs = rs := by
  induction h with
  | nil => rfl
  | cons h1 _ ih =>
    simp only [Verif.Tiny.recs, List.filterMap_cons, deserialize_holds h1] at ih ⊢
    rw [ih]

/-- Bucket `i`. -/
abbrev State.bk (s : State) (i : Nat) : List Blk := s.buckets.getD i []

/-- The dictionary held by a state: the record of a key in the chain of its bucket. -/
def view (hash : Bytes → Nat → Nat) (s : State) : Dict := fun k => assoc k (recs (s.bk (s.bucketOf hash k)))

/-- Invariant of the states. -/
structure Inv (hash : Bytes → Nat → Nat) (s : State) : Prop where
  ok : s.bad = false
  pos : 0 < s.buckets.length
  chain : ∀ i, Chain (s.bk i) (recs (s.bk i))
  home : ∀ i, ∀ r ∈ recs (s.bk i), hash r.1 s.buckets.length = i
  nodup : ∀ i, ((recs (s.bk i)).map (·.1)).Nodup
  count : s.count = ((s.buckets.map List.length).sum : Nat)

theorem getD_set {l : List (List Blk)} {i : Nat} (h : i < l.length) (x : List Blk) (j : Nat) :
    (l.set i x).getD j [] = if j = i then x else l.getD j [] := by
  simp only [List.getD_eq_getElem?_getD, List.getElem?_set]
  by_cases hj : i = j
  · subst hj; simp [h]
  · simp [hj, Ne.symm hj]

theorem sum_set {l : List (List Blk)} {i : Nat} (h : i < l.length) (x : List Blk) :
    ((l.set i x).map List.length).sum + (l.getD i []).length = (l.map List.length).sum + x.length := by
  induction l generalizing i with
  | nil => simp at h
  | cons a l ih =>
    cases i with
    | zero => simp; omega
    | succ i =>
      have := ih (i := i) (by simpa using h)
      simp only [List.set_cons_succ, List.map_cons, List.sum_cons, List.getD_cons_succ]
      omega

variable {hash : Bytes → Nat → Nat}

theorem inv_set {s : State} (hi : Inv hash s) {bi : Nat} (hb : bi < s.buckets.length) {c : List Blk}
    {rs : List (Bytes × Bytes)} (hc : Chain c rs) (hh : ∀ r ∈ rs, hash r.1 s.buckets.length = bi)
    (hn : (rs.map (·.1)).Nodup) (cnt : Int) (hcnt : cnt = s.count + c.length - (s.bk bi).length) (lg : List LogOp) :
    Inv hash { s with buckets := s.buckets.set bi c, count := cnt, log := lg } ∧
    ∀ k, view hash { s with buckets := s.buckets.set bi c, count := cnt, log := lg } k =
      if hash k s.buckets.length = bi then assoc k rs else view hash s k := by
  have hr := hc.recs
  refine ⟨⟨hi.ok, by simpa using hi.pos, ?_, ?_, ?_, ?_⟩, ?_⟩
  · intro i
    simp only [State.bk]
    rw [getD_set hb]
    split
    · rw [hr]; exact hc
    · exact hi.chain i
  · intro i
    simp only [State.bk, List.length_set]
    rw [getD_set hb]
    split
    · rename_i h; rw [hr, h]; exact hh
    · exact hi.home i
  · intro i
    simp only [State.bk]
    rw [getD_set hb]
    split
    · rw [hr]; exact hn
    · exact hi.nodup i
  · have := sum_set hb c
    have h2 := hi.count
    simp only [State.bk] at hcnt
    simp only
    rw [hcnt, h2]; omega
  · intro k
    simp only [view, State.bk, State.bucketOf, List.length_set]
    rw [getD_set hb]
    split
    · rw [hr]
    · rfl

/-- The hash function stays within the number of buckets. -/
def InRange (hash : Bytes → Nat → Nat) : Prop := ∀ k n, 0 < n → hash k n < n

theorem view_upd_set {s s' : State} {bi : Nat} {k : Bytes} {rs rs' : List (Bytes × Bytes)}
    (hbi : hash k s.buckets.length = bi) (hrs : recs (s.bk bi) = rs)
    (hv : ∀ k', view hash s' k' = if hash k' s.buckets.length = bi then assoc k' rs' else view hash s k')
    (o : Option Bytes) (h1 : assoc k rs' = o) (h2 : ∀ k', k' ≠ k → assoc k' rs' = assoc k' rs) :
    view hash s' = (view hash s).upd k o := by
  funext k'
  rw [hv]
  by_cases hk : k' = k
  · subst hk; rw [if_pos hbi, h1, Dict.upd_self]
  · rw [Dict.upd_other _ _ hk]
    split
    · rename_i he
      rw [h2 k' hk]
      simp only [view, State.bucketOf]
      rw [he, hrs]
    · rfl

/-- All about one call of `ProcessImpl` on the bucket of the key. -/
theorem processImpl_spec (hr : InRange hash) {τ : Type} (s : State) (k : Bytes) (w : Bool) (p : ProcR τ)
    (hi : Inv hash s) (hf : ActFits recFits k (p (view hash s k)).1) :
    Inv hash (processImpl s k (s.bucketOf hash k) w p).1 ∧
    view hash (processImpl s k (s.bucketOf hash k) w p).1 =
      (if w then (view hash s).act k (p (view hash s k)).1 else view hash s) ∧
    (processImpl s k (s.bucketOf hash k) w p).2 = (p (view hash s k)).2 ∧
    (processImpl s k (s.bucketOf hash k) w p).1.buckets.length = s.buckets.length ∧
    (∀ i, i ≠ s.bucketOf hash k → (processImpl s k (s.bucketOf hash k) w p).1.bk i = s.bk i) ∧
    ∃ ops, (processImpl s k (s.bucketOf hash k) w p).1.log = s.log ++ ops ∧
      view hash (processImpl s k (s.bucketOf hash k) w p).1 = (view hash s).replay ops := by
  have hb : s.bucketOf hash k < s.buckets.length := hr k _ hi.pos
  have hc := hi.chain (s.bucketOf hash k)
  have hv : view hash s k = assoc k (recs (s.bk (s.bucketOf hash k))) := rfl
  generalize hbi : s.bucketOf hash k = bi at *
  have hbi' : hash k s.buckets.length = bi := hbi
  cases hk : view hash s k with
  | none =>
    rw [hk] at hf hv
    have hw := walk_absent hc hv.symm
    simp only [processImpl, hw]
    cases w with
    | false => exact ⟨hi, by simp, rfl, rfl, fun _ _ => rfl, [], by simp [Dict.replay]⟩
    | true =>
      simp only [if_true]
      cases ha : (p none).1 with
      | noop => exact ⟨hi, by simp [Dict.act], rfl, rfl, fun _ _ => rfl, [], by simp [Dict.replay]⟩
      | remove =>
        refine ⟨hi, ?_, rfl, rfl, fun _ _ => rfl, [], by simp [Dict.replay]⟩
        simp only [Dict.act]; rw [← hk, Dict.upd_same]
      | set v' =>
        rw [ha] at hf
        obtain ⟨b, hs, hh⟩ := serialize_holds (k := k) (v := v') hf
        simp only [hs]
        have hc' : Chain (b :: s.bk bi) ((k, v') :: recs (s.bk bi)) := .cons hh hc
        obtain ⟨i1, v1⟩ := inv_set hi hb hc' (by
            intro r hr'
            rcases List.mem_cons.1 hr' with h | h
            · subst h; exact hbi'
            · exact hi.home bi r h)
          (by
            rw [List.map_cons, List.nodup_cons]
            exact ⟨assoc_none.1 hv.symm, hi.nodup bi⟩) (s.count + 1)
          (by simp only [List.length_cons]; omega) (s.log ++ [LogOp.set k v'])
        have e := view_upd_set hbi' rfl v1 (some v') (by simp [assoc]) (by
          intro k' hk'; simp [assoc, hk'])
        refine ⟨i1, e, trivial, by simp, ?_, [.set k v'], rfl, e⟩
        intro i hne
        simp only [State.bk]
        rw [getD_set hb, if_neg hne]
  | some v =>
    rw [hk] at hf hv
    obtain ⟨pre, blk, post, rpre, rpost, hw, e2, hh, e3, c1, c2, hn⟩ := walk_hit hc hv.symm
    simp only [processImpl, hw]
    have nd := hi.nodup bi
    have hm := hi.home bi
    rw [e3] at nd hm
    have nd' : k ∉ rpre.map (·.1) ∧ k ∉ rpost.map (·.1) ∧ ((rpre ++ rpost).map (·.1)).Nodup := by
      simp only [List.map_append, List.map_cons, List.nodup_append, List.nodup_cons] at nd ⊢
      refine ⟨fun h => (nd.2.2 k h k (by simp)) rfl, nd.2.1.1, nd.1, nd.2.1.2, ?_⟩
      intro a ha b hb'
      exact nd.2.2 a ha b (by simp [hb'])
    have len : (s.bk bi).length = pre.length + post.length + 1 := by rw [e2]; simp; omega
    cases w with
    | false => exact ⟨hi, by simp, rfl, rfl, fun _ _ => rfl, [], by simp [Dict.replay]⟩
    | true =>
      simp only [if_true]
      cases ha : (p (some v)).1 with
      | noop => exact ⟨hi, by simp [Dict.act], rfl, rfl, fun _ _ => rfl, [], by simp [Dict.replay]⟩
      | remove =>
        obtain ⟨i1, v1⟩ := inv_set hi hb (c1.append c2) (by
            intro r hr'
            apply hm r
            rcases List.mem_append.1 hr' with h | h <;> simp [h])
          nd'.2.2 (s.count - 1) (by rw [len]; simp only [List.length_append]; omega) (s.log ++ [LogOp.remove k])
        have e := view_upd_set hbi' e3 v1 none (by
            rw [assoc_none]; simp only [List.map_append, List.mem_append]
            exact fun h => h.elim nd'.1 nd'.2.1)
          (by intro k' hk'; rw [assoc_append, assoc_append]; simp [assoc, hk'])
        refine ⟨i1, e, rfl, by simp, ?_, [.remove k], rfl, e⟩
        intro i hne
        simp only [State.bk]
        rw [getD_set hb, if_neg hne]
      | set v' =>
        rw [ha] at hf
        obtain ⟨b', hs, hh'⟩ := reserialize_holds hh (v' := v') hf
        simp only [hs]
        have hc' : Chain (pre ++ b' :: post) (rpre ++ (k, v') :: rpost) := c1.append (.cons hh' c2)
        obtain ⟨i1, v1⟩ := inv_set hi hb hc' (by
            intro r hr'
            rcases List.mem_append.1 hr' with h | h
            · exact hm r (by simp [h])
            · rcases List.mem_cons.1 h with h | h
              · subst h; exact hbi'
              · exact hm r (by simp [h]))
          (by simpa using nd) s.count (by rw [len]; simp only [List.length_append, List.length_cons]; omega)
          (s.log ++ [LogOp.set k v'])
        have e := view_upd_set hbi' e3 v1 (some v') (by
            rw [assoc_append, assoc_none.2 nd'.1]; simp [assoc])
          (by intro k' hk'; rw [assoc_append, assoc_append]; simp [assoc, hk'])
        refine ⟨i1, e, trivial, by simp, ?_, [.set k v'], rfl, e⟩
        intro i hne
        simp only [State.bk]
        rw [getD_set hb, if_neg hne]

/-- All about one call of `AppendImpl`. -/
theorem append_spec (hr : InRange hash) (s : State) (k value delim : Bytes) (hi : Inv hash s)
    (hf : recFits k (Api.appended (view hash s k) value delim)) :
    Inv hash (append hash s k value delim) ∧
    view hash (append hash s k value delim) =
      (view hash s).upd k (some (Api.appended (view hash s k) value delim)) ∧
    ∃ ops, (append hash s k value delim).log = s.log ++ ops ∧
      view hash (append hash s k value delim) = (view hash s).replay ops := by
  have hb : s.bucketOf hash k < s.buckets.length := hr k _ hi.pos
  have hc := hi.chain (s.bucketOf hash k)
  have hv : view hash s k = assoc k (recs (s.bk (s.bucketOf hash k))) := rfl
  simp only [append]
  generalize hbi : s.bucketOf hash k = bi at *
  have hbi' : hash k s.buckets.length = bi := hbi
  cases hk : view hash s k with
  | none =>
    rw [hk] at hf hv
    have hw := walk_absent hc hv.symm
    simp only [appendImpl, hw]
    simp only [Api.appended] at hf ⊢
    obtain ⟨b, hs, hh⟩ := serialize_holds hf
    simp only [hs]
    have hc' : Chain (b :: s.bk bi) ((k, value) :: recs (s.bk bi)) := .cons hh hc
    obtain ⟨i1, v1⟩ := inv_set hi hb hc' (by
        intro r hr'
        rcases List.mem_cons.1 hr' with h | h
        · subst h; exact hbi'
        · exact hi.home bi r h)
      (by
        rw [List.map_cons, List.nodup_cons]
        exact ⟨assoc_none.1 hv.symm, hi.nodup bi⟩) (s.count + 1)
      (by simp only [List.length_cons]; omega) (s.log ++ [LogOp.set k value])
    have e := view_upd_set hbi' rfl v1 (some value) (by simp [assoc]) (by
      intro k' hk'; simp [assoc, hk'])
    exact ⟨i1, e, [.set k value], rfl, e⟩
  | some v =>
    rw [hk] at hf hv
    obtain ⟨pre, blk, post, rpre, rpost, hw, e2, hh, e3, c1, c2, hn⟩ := walk_hit hc hv.symm
    simp only [appendImpl, hw]
    simp only [Api.appended] at hf ⊢
    obtain ⟨b', hs, hh'⟩ := reserializeAppend_holds hh hf
    simp only [hs, deserialize_holds hh']
    have nd := hi.nodup bi
    have hm := hi.home bi
    rw [e3] at nd hm
    have nd' : k ∉ rpre.map (·.1) := assoc_none.1 hn
    have len : (s.bk bi).length = pre.length + post.length + 1 := by rw [e2]; simp; omega
    have hc' : Chain (pre ++ b' :: post) (rpre ++ (k, v ++ delim ++ value) :: rpost) := c1.append (.cons hh' c2)
    obtain ⟨i1, v1⟩ := inv_set hi hb hc' (by
        intro r hr'
        rcases List.mem_append.1 hr' with h | h
        · exact hm r (by simp [h])
        · rcases List.mem_cons.1 h with h | h
          · subst h; exact hbi'
          · exact hm r (by simp [h]))
      (by simpa using nd) s.count (by rw [len]; simp only [List.length_append, List.length_cons]; omega)
      (s.log ++ [LogOp.set k (v ++ delim ++ value)])
    have e := view_upd_set hbi' e3 v1 (some (v ++ delim ++ value)) (by
        rw [assoc_append, assoc_none.2 nd']; simp [assoc])
      (by intro k' hk'; rw [assoc_append, assoc_append]; simp [assoc, hk'])
    exact ⟨i1, e, [.set k (v ++ delim ++ value)], rfl, e⟩

/-! ### Clear and Rebuild -/

theorem bk_empty (n i : Nat) : (emptyBuckets n).getD i [] = [] := by
  simp only [emptyBuckets, List.getD_eq_getElem?_getD]
  by_cases h : i < n
  · simp [h]
  · simp [List.getElem?_eq_none (l := List.replicate n ([] : List Blk)) (by simpa using h)]

theorem sum_empty (n : Nat) : ((emptyBuckets n).map List.length).sum = 0 := by
  induction n with
  | zero => rfl
  | succ n ih => simpa [emptyBuckets, List.replicate_succ] using ih

theorem inv_empty (n : Nat) (hn : 0 < n) (lg : List LogOp) :
    Inv hash { buckets := emptyBuckets n, count := 0, log := lg, bad := false } ∧
    view hash { buckets := emptyBuckets n, count := 0, log := lg, bad := false } = Dict.empty := by
  have hb : ∀ i, ({ buckets := emptyBuckets n, count := 0, log := lg, bad := false } : State).bk i = [] :=
    fun i => bk_empty n i
  refine ⟨⟨rfl, by simpa [emptyBuckets] using hn, ?_, ?_, ?_, ?_⟩, ?_⟩
  · intro i; rw [hb]; exact .nil
  · intro i; rw [hb]; simp [recs]
  · intro i; rw [hb]; simp [recs]
  · simp only [sum_empty]; rfl
  · funext k
    simp only [view, hb]
    rfl

/-- The state of the new bucket array while `Rebuild` moves records: it holds the records of `done`. -/
structure Moved (hash : Bytes → Nat → Nat) (nb : List (List Blk)) (done : List (Bytes × Bytes)) : Prop where
  pos : 0 < nb.length
  chain : ∀ i, Chain (nb.getD i []) (recs (nb.getD i []))
  home : ∀ i, ∀ r ∈ recs (nb.getD i []), hash r.1 nb.length = i
  nodup : ∀ i, ((recs (nb.getD i [])).map (·.1)).Nodup
  sum : (nb.map List.length).sum = done.length
  mem : ∀ r, r ∈ done ↔ ∃ i, r ∈ recs (nb.getD i [])

theorem relink_moved (hr : InRange hash) {c : List Blk} {rs : List (Bytes × Bytes)} (hc : Chain c rs) :
    ∀ {nb : List (List Blk)} {done : List (Bytes × Bytes)}, Moved hash nb done →
    ((done ++ rs).map (·.1)).Nodup →
    ∃ nb', relink hash c nb = some nb' ∧ nb'.length = nb.length ∧ Moved hash nb' (done ++ rs) := by
  induction hc with
  | nil => intro nb done hm _; exact ⟨nb, rfl, rfl, by simpa using hm⟩
  | @cons b k v bs rs h1 h2 ih =>
    intro nb done hm hn
    have hb : hash k nb.length < nb.length := hr k _ hm.pos
    generalize hbi : hash k nb.length = bi at *
    have hfresh : k ∉ done.map (·.1) := by
      simp only [List.map_append, List.map_cons, List.nodup_append] at hn
      exact fun h => hn.2.2 k h k (by simp) rfl
    have hrec : recs (b :: nb.getD bi []) = (k, v) :: recs (nb.getD bi []) := by
      simp [recs, deserialize_holds h1]
    have hm' : Moved hash (nb.set bi (b :: nb.getD bi [])) (done ++ [(k, v)]) := by
      refine ⟨by simpa using hm.pos, ?_, ?_, ?_, ?_, ?_⟩
      · intro i
        rw [getD_set hb]
        split
        · rw [hrec]; exact .cons h1 (hm.chain bi)
        · exact hm.chain i
      · intro i
        rw [getD_set hb, List.length_set]
        split
        · rename_i he
          rw [hrec]
          intro r hr'
          rcases List.mem_cons.1 hr' with h | h
          · subst h; simp [hbi, he]
          · rw [he]; exact hm.home bi r h
        · exact hm.home i
      · intro i
        rw [getD_set hb]
        split
        · rw [hrec, List.map_cons, List.nodup_cons]
          refine ⟨?_, hm.nodup bi⟩
          intro h
          obtain ⟨r, h1, h2⟩ := List.mem_map.1 h
          exact hfresh (List.mem_map.2 ⟨r, (hm.mem r).2 ⟨bi, h1⟩, h2⟩)
        · exact hm.nodup i
      · have := sum_set hb (b :: nb.getD bi [])
        have h2 := hm.sum
        simp only [List.length_cons, List.length_append, List.length_nil] at this ⊢
        omega
      · intro r
        simp only [List.mem_append, List.mem_singleton, hm.mem]
        constructor
        · rintro (⟨i, h⟩ | h)
          · by_cases he : i = bi
            · refine ⟨bi, ?_⟩
              rw [getD_set hb, if_pos rfl, hrec]
              subst he; exact List.mem_cons_of_mem _ h
            · exact ⟨i, by rw [getD_set hb, if_neg he]; exact h⟩
          · exact ⟨bi, by rw [getD_set hb, if_pos rfl, hrec, h]; exact List.mem_cons_self⟩
        · rintro ⟨i, h⟩
          rw [getD_set hb] at h
          split at h
          · rw [hrec] at h
            rcases List.mem_cons.1 h with h | h
            · exact Or.inr h
            · exact Or.inl ⟨bi, h⟩
          · exact Or.inl ⟨i, h⟩
    obtain ⟨nb', e, l, m⟩ := ih hm' (by simpa using hn)
    refine ⟨nb', ?_, by simpa using l, by simpa using m⟩
    simp only [relink, deserialize_holds h1, hbi]
    exact e

theorem relinkAll_moved (hr : InRange hash) {cs : List (List Blk)} (hc : ∀ c ∈ cs, Chain c (recs c)) :
    ∀ {nb : List (List Blk)} {done : List (Bytes × Bytes)}, Moved hash nb done →
    ((done ++ cs.flatMap recs).map (·.1)).Nodup →
    ∃ nb', relinkAll hash cs nb = some nb' ∧ nb'.length = nb.length ∧ Moved hash nb' (done ++ cs.flatMap recs) := by
  induction cs with
  | nil => intro nb done hm _; exact ⟨nb, rfl, rfl, by simpa using hm⟩
  | cons c cs ih =>
    intro nb done hm hn
    rw [List.forall_mem_cons] at hc
    rw [List.flatMap_cons, ← List.append_assoc] at hn ⊢
    have hn1 : ((done ++ recs c).map (·.1)).Nodup := by
      rw [List.map_append] at hn; exact (List.nodup_append.1 hn).1
    obtain ⟨nb1, e1, l1, m1⟩ := relink_moved hr hc.1 hm hn1
    obtain ⟨nb2, e2, l2, m2⟩ := ih hc.2 m1 hn
    exact ⟨nb2, by simp only [relinkAll, e1, Option.bind_some, e2], by rw [l2, l1], m2⟩

theorem moved_empty (n : Nat) (hn : 0 < n) : Moved hash (emptyBuckets n) [] := by
  refine ⟨by simpa [emptyBuckets] using hn, ?_, ?_, ?_, by simp [sum_empty], ?_⟩
  all_goals intro i
  · rw [bk_empty]; exact .nil
  · rw [bk_empty]; simp [recs]
  · rw [bk_empty]; simp [recs]
  · simp only [bk_empty]; simp [recs]

theorem mem_getD {l : List (List Blk)} {c : List Blk} (h : c ∈ l) : ∃ i, i < l.length ∧ l.getD i [] = c := by
  obtain ⟨i, hi, e⟩ := List.getElem_of_mem h
  exact ⟨i, hi, by simp [List.getD_eq_getElem?_getD, hi, e]⟩

theorem all_keys_nodup {s : State} (hi : Inv hash s) : ((s.buckets.flatMap recs).map (·.1)).Nodup := by
  have key : ∀ (l : List (List Blk)) (off : Nat), (∀ i, i < l.length → ((recs (l.getD i [])).map (·.1)).Nodup) →
      (∀ i, i < l.length → ∀ r ∈ recs (l.getD i []), hash r.1 s.buckets.length = off + i) →
      ((l.flatMap recs).map (·.1)).Nodup := by
    intro l
    induction l with
    | nil => intro off _ _; simp
    | cons c l ih =>
      intro off h1 h2
      rw [List.flatMap_cons, List.map_append, List.nodup_append]
      refine ⟨by simpa using h1 0 (by simp), ?_, ?_⟩
      · apply ih (off + 1)
        · intro i hi'; simpa using h1 (i + 1) (by simp; omega)
        · intro i hi' r hr'
          have := h2 (i + 1) (by simp; omega) r (by simpa using hr')
          omega
      · intro a ha b hb' hab
        obtain ⟨r, hr1, hr2⟩ := List.mem_map.1 ha
        obtain ⟨q, hq1, hq2⟩ := List.mem_map.1 hb'
        obtain ⟨c', hc', hq3⟩ := List.mem_flatMap.1 hq1
        obtain ⟨j, hj, e⟩ := mem_getD hc'
        have x1 := h2 0 (by simp) r (by simpa using hr1)
        have x2 := h2 (j + 1) (by simp; omega) q (by rw [List.getD_cons_succ, e]; exact hq3)
        have : r.1 = q.1 := by rw [hr2, hq2, hab]
        rw [this] at x1; omega
  apply key s.buckets 0
  · intro i _; exact hi.nodup i
  · intro i _ r h; rw [hi.home i r h]; omega

theorem mem_view {s : State} (hi : Inv hash s) (k v : Bytes) :
    view hash s k = some v ↔ (k, v) ∈ s.buckets.flatMap recs := by
  constructor
  · intro h
    have := assoc_mem h
    rw [List.mem_flatMap]
    refine ⟨s.bk (s.bucketOf hash k), ?_, this⟩
    simp only [State.bk]
    rcases Nat.lt_or_ge (s.bucketOf hash k) s.buckets.length with hl | hl
    · simp [List.getD_eq_getElem?_getD, hl]
    · exfalso
      simp only [State.bk, List.getD_eq_getElem?_getD, List.getElem?_eq_none hl] at this
      simp [recs] at this
  · intro h
    obtain ⟨c, hc, hm⟩ := List.mem_flatMap.1 h
    obtain ⟨i, hl, e⟩ := mem_getD hc
    have hh := hi.home i (k, v) (by simp only [State.bk]; rw [e]; exact hm)
    simp only [view, State.bucketOf]
    simp only at hh
    rw [hh]
    exact assoc_of_mem (hi.nodup i) (by simp only [State.bk]; rw [e]; exact hm)

theorem recs_length {s : State} (hi : Inv hash s) : (s.buckets.flatMap recs).length = (s.buckets.map List.length).sum := by
  have : ∀ l : List (List Blk), (∀ c ∈ l, Chain c (recs c)) → (l.flatMap recs).length = (l.map List.length).sum := by
    intro l h
    induction l with
    | nil => rfl
    | cons c l ih =>
      rw [List.forall_mem_cons] at h
      simp only [List.flatMap_cons, List.length_append, List.map_cons, List.sum_cons, ih h.2, h.1.length]
  apply this
  intro c hc
  obtain ⟨i, _, e⟩ := mem_getD hc
  have := hi.chain i
  simp only [State.bk] at this
  rwa [e] at this

theorem rebuild_spec (hr : InRange hash) (s : State) (n : Int) (hi : Inv hash s) :
    Inv hash (rebuild hash s n) ∧ view hash (rebuild hash s n) = view hash s ∧ (rebuild hash s n).log = s.log := by
  simp only [rebuild]
  generalize hN : Common.getHashBucketSize (min (if n > 0 then n else s.count * 2 + 1) 1099511627689) = N
  have hpos : 0 < N := by rw [← hN]; exact Common.C50_bucket_size_pos _
  have hc : ∀ c ∈ s.buckets, Chain c (recs c) := by
    intro c hc
    obtain ⟨i, _, e⟩ := mem_getD hc
    have := hi.chain i
    simp only [State.bk] at this
    rwa [e] at this
  obtain ⟨nb, e, l, m⟩ := relinkAll_moved hr hc (moved_empty N hpos) (by simpa using all_keys_nodup hi)
  simp only [e]
  have hi' : Inv hash { s with buckets := nb } := by
    refine ⟨hi.ok, m.pos, m.chain, m.home, m.nodup, ?_⟩
    have h1 := hi.count
    have h2 := m.sum
    rw [List.nil_append, recs_length hi] at h2
    simp only
    rw [h1, h2]
  refine ⟨hi', ?_, trivial⟩
  funext k
  have h : ∀ v, view hash { s with buckets := nb } k = some v ↔ view hash s k = some v := by
    intro v
    rw [mem_view hi, mem_view hi']
    have := m.mem (k, v)
    rw [List.nil_append] at this
    rw [this, List.mem_flatMap]
    constructor
    · rintro ⟨c, hc, hm⟩
      obtain ⟨i, _, e⟩ := mem_getD hc
      exact ⟨i, by rw [e]; exact hm⟩
    · rintro ⟨i, hm⟩
      refine ⟨nb.getD i [], ?_, hm⟩
      rcases Nat.lt_or_ge i nb.length with hl | hl
      · simp [List.getD_eq_getElem?_getD, hl]
      · exfalso
        rw [List.getD_eq_getElem?_getD, List.getElem?_eq_none hl] at hm
        simp [recs] at hm
  cases hx : view hash s k with
  | none =>
    cases hy : view hash { s with buckets := nb } k with
    | none => rfl
    | some v => rw [(h v).1 hy] at hx; simp at hx
  | some v => exact (h v).2 hx

end Verif.Tiny
