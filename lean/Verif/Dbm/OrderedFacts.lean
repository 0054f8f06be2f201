import Verif.Dbm.Ordered
/-
What the specification of an ordered database means: records stay in strictly ascending order, a scan from the first record visits every record once in
ascending order, a scan from the last in descending order, and under a comparator that tells all keys apart the database is a dictionary.
-/
namespace Verif.OMap
open Verif

variable {lt : Bytes → Bytes → Bool}

/-- The results of processors among the outputs of a history, in order; `none` where there was no record. -/
def results {ω : Type} : List (Call ω × Out ω) → List (Option ω)
  | [] => []
  | (_, .res r) :: l => r :: results l
  | _ :: l => results l

/-- Reading the record at an iterator: the processor hands out what it is shown. -/
def look (i : Nat) : Call Rec := .iterProcess i false fun k v => (.noop, (k, v.getD []))

/-- `n` times: look at the record, and move to the next. -/
def forth (i : Nat) : Nat → List (Call Rec)
  | 0 => []
  | n + 1 => look i :: .iterNext i :: forth i n

/-- `n` times: look at the record, and move to the previous. -/
def back (i : Nat) : Nat → List (Call Rec)
  | 0 => []
  | n + 1 => look i :: .iterPrevious i :: back i n

theorem get_mem (hw : StrictWeak lt) {m : List Rec} (hm : OrdMap.Sorted lt m) {r : Rec} (hr : r ∈ m) : get lt r.1 m = some r := by
  obtain ⟨P, q, R, hcut⟩ := exists_cut hw r.1 hm
  rw [hcut.get hw]
  rw [hcut.eq] at hr
  rcases List.mem_append.1 hr with hr | hr
  · rcases List.mem_append.1 hr with hr | hr
    · have := hcut.lo r hr
      rw [hw.irrefl] at this
      cases this
    · cases q with
      | none => simp at hr
      | some y => simp at hr; rw [hr]
  · have := hcut.hi r hr
    rw [hw.irrefl] at this
    cases this

/-- The cut at a record of the list. -/
theorem cut_at (hw : StrictWeak lt) {P R : List Rec} {r : Rec} (hm : OrdMap.Sorted lt (P ++ r :: R)) : Cut lt r.1 (P ++ r :: R) P (some r) R := by
  obtain ⟨_, h2, h3⟩ := List.pairwise_append.1 hm
  exact ⟨by simp, fun x hx => h3 x hx r (by simp), fun x hx => by cases hx; exact hw.eqv_refl _, fun x hx => (List.pairwise_cons.1 h2).1 x hx⟩

theorem process_read {τ : Type} (m : List Rec) (k : Bytes) (p : Bytes → ProcR τ) :
    process lt m k false p = (m, [], (match get lt k m with | some r => p r.1 (some r.2) | none => p k none).2) := by
  unfold process
  cases get lt k m with
  | none =>
    simp only
    cases (p k none).1 <;> rfl
  | some r =>
    simp only
    cases (p r.1 (some r.2)).1 <;> rfl

/-- Looking at a record. -/
theorem look_at (hw : StrictWeak lt) {fw : Bool} {t u : St} {i : Nat} {o : Out Rec} {P R : List Rec} {r : Rec} (hm : OrdMap.Sorted lt t.recs)
    (hr : t.recs = P ++ r :: R) (hi : t.iters i = some r.1) (h : Allowed lt fw t (look i) o u) : o = .res (some r) ∧ u = t := by
  rcases h with h | ⟨j, hj, _⟩
  · rw [hr] at hm
    have hc := cut_at hw hm
    simp only [look, step, hi, hr, hc.atLeast hw, Option.toList_some, List.cons_append, List.head?_cons, process_read, hc.get hw] at h
    obtain ⟨h1, h2⟩ := Prod.mk.inj h
    refine ⟨h2, ?_⟩
    rw [h1, List.append_nil, ← hr]
    cases t
    simp only [St.setIter, St.mk.injEq, true_and, and_true]
    funext j
    by_cases hj : j = i
    · subst hj
      simp only [if_true]
      exact hi.symm
    · simp [hj]
  · cases hj

theorem look_none {fw : Bool} {t u : St} {i : Nat} {o : Out Rec} (hi : t.iters i = none) (h : Allowed lt fw t (look i) o u) : o = .res none ∧ u = t := by
  rcases h with h | ⟨j, hj, _⟩
  · simp only [look, step, hi] at h
    obtain ⟨h1, h2⟩ := Prod.mk.inj h
    exact ⟨h2, h1⟩
  · cases hj

theorem setIter_get (t : St) (i : Nat) (x : Option Bytes) : (t.setIter i x).iters i = x := by simp [St.setIter]

/-- A scan forth from where the iterator is. -/
theorem forth_results (hw : StrictWeak lt) {fw : Bool} {i : Nat} : ∀ (n : Nat) (outs : List (Call Rec × Out Rec)) (t t' : St) (P R : List Rec),
    OrdMap.Sorted lt t.recs → t.recs = P ++ R → t.iters i = R.head?.map (·.1) → outs.map (·.1) = forth i n → History lt fw t outs t' →
    results outs = (R.take n).map some ++ List.replicate (n - R.length) none
  | 0, outs, t, t', P, R, _, _, _, ho, _ => by
    have : outs = [] := by simpa [forth] using ho
    subst this
    simp [results]
  | n + 1, outs, t, t', P, R, hm, hr, hi, ho, h => by
    obtain ⟨⟨c1, o1⟩, outs, rfl, h1, hoA⟩ := List.map_eq_cons_iff.1 ho
    obtain ⟨⟨c2, o2⟩, outs, rfl, h2, hoB⟩ := List.map_eq_cons_iff.1 hoA
    simp only at h1 h2
    subst h1
    subst h2
    obtain ⟨u, g1, v, g2, g3⟩ := h
    cases R with
    | nil =>
      obtain ⟨e1, e2⟩ := look_none hi g1
      subst e1
      subst e2
      have hv : v = u ∧ o2 = .code .notFound := by
        rcases g2 with g2 | ⟨j, hj, _⟩
        · simp only [step, hi, List.head?_nil, Option.map_none] at g2
          exact Prod.mk.inj g2
        · cases hj
      obtain ⟨hv, ho2⟩ := hv
      subst hv
      subst ho2
      have := forth_results hw n outs v t' P [] hm hr hi hoB g3
      simp only [results, this]
      simp [List.replicate_succ]
    | cons r R =>
      obtain ⟨e1, e2⟩ := look_at hw hm hr hi g1
      subst e1
      subst e2
      have hv : v = u.setIter i (R.head?.map (·.1)) ∧ o2 = .code .success := by
        rcases g2 with g2 | ⟨j, hj, _⟩
        · simp only [step, hi, List.head?_cons, Option.map_some, hr, (cut_at hw (hr ▸ hm)).greater hw] at g2
          exact Prod.mk.inj g2
        · cases hj
      obtain ⟨hv, ho2⟩ := hv
      subst ho2
      have hvr : v.recs = u.recs := by rw [hv]; rfl
      have := forth_results hw n outs v t' (P ++ [r]) R (by rw [hvr]; exact hm) (by rw [hvr, hr]; simp) (by rw [hv, setIter_get]) hoB g3
      simp only [results, this]
      simp

/-- A scan back from where the iterator is. -/
theorem back_results (hw : StrictWeak lt) {fw : Bool} {i : Nat} : ∀ (n : Nat) (outs : List (Call Rec × Out Rec)) (t t' : St) (P R : List Rec),
    OrdMap.Sorted lt t.recs → t.recs = P ++ R → t.iters i = P.getLast?.map (·.1) → outs.map (·.1) = back i n → History lt fw t outs t' →
    results outs = (P.reverse.take n).map some ++ List.replicate (n - P.length) none
  | 0, outs, t, t', P, R, _, _, _, ho, _ => by
    have : outs = [] := by simpa [back] using ho
    subst this
    simp [results]
  | n + 1, outs, t, t', P, R, hm, hr, hi, ho, h => by
    obtain ⟨⟨c1, o1⟩, outs, rfl, h1, hoA⟩ := List.map_eq_cons_iff.1 ho
    obtain ⟨⟨c2, o2⟩, outs, rfl, h2, hoB⟩ := List.map_eq_cons_iff.1 hoA
    simp only at h1 h2
    subst h1
    subst h2
    obtain ⟨u, g1, v, g2, g3⟩ := h
    rcases List.eq_nil_or_concat P with rfl | ⟨P, r, rfl⟩
    · obtain ⟨e1, e2⟩ := look_none hi g1
      subst e1
      subst e2
      have hv : v = u ∧ o2 = .code .notFound := by
        rcases g2 with g2 | ⟨j, hj, _, x, hx, _⟩
        · simp only [step, hi, List.getLast?_nil, Option.map_none] at g2
          exact Prod.mk.inj g2
        · cases hj
          rw [hi] at hx
          cases hx
      obtain ⟨hv, ho2⟩ := hv
      subst hv
      subst ho2
      have := back_results hw n outs v t' [] R hm hr hi hoB g3
      simp only [results, this]
      simp [List.replicate_succ]
    · rw [List.concat_eq_append] at hr hi ⊢
      have hi' : u.iters i = some r.1 ∧ o1 = .res (some r) ∧ u = t := by
        have hit : t.iters i = some r.1 := by rw [hi]; simp
        obtain ⟨e1, e2⟩ := look_at hw hm (by rw [hr]; simp : t.recs = P ++ r :: R) hit g1
        exact ⟨by rw [e2]; exact hit, e1, e2⟩
      obtain ⟨hi', e1, e2⟩ := hi'
      subst e1
      subst e2
      have hr' : u.recs = P ++ r :: R := by rw [hr]; simp
      have hcut := cut_at hw (hr' ▸ hm)
      have hv : v = u.setIter i (P.getLast?.map (·.1)) ∧ ∃ cd, o2 = .code cd := by
        rcases g2 with g2 | ⟨j, hj, ho2, x, hx, y, hy, hex, _⟩
        · simp only [step, hi', hr', hcut.lesser hw] at g2
          exact ⟨(Prod.mk.inj g2).1, _, (Prod.mk.inj g2).2⟩
        · cases hj
          rw [hi'] at hx
          cases hx
          rw [hr', hcut.get hw, hcut.lesser hw] at hex
          rw [hex rfl] at hy
          exact ⟨hy, _, ho2⟩
      obtain ⟨hv, cd, ho2⟩ := hv
      subst ho2
      have hvr : v.recs = u.recs := by rw [hv]; rfl
      have := back_results hw n outs v t' P (r :: R) (by rw [hvr]; exact hm) (by rw [hvr, hr']) (by rw [hv, setIter_get]) hoB g3
      simp only [results, this]
      simp

/-- The history of two parts. -/
theorem history_append {ω : Type} {fw : Bool} : ∀ (a b : List (Call ω × Out ω)) (t t' : St), History lt fw t (a ++ b) t' ↔ ∃ u, History lt fw t a u ∧ History lt fw u b t'
  | [], b, t, t' => by simp [History]
  | (x, o) :: a, b, t, t' => by
    simp only [List.cons_append, History, history_append a b]
    constructor
    · rintro ⟨u, h1, v, h2, h3⟩
      exact ⟨v, ⟨u, h1, h2⟩, h3⟩
    · rintro ⟨v, ⟨u, h1, h2⟩, h3⟩
      exact ⟨u, h1, v, h2, h3⟩

/-- A whole scan in ascending order. -/
theorem scan_forth (hw : StrictWeak lt) {fw : Bool} {i n : Nat} {outs : List (Call Rec × Out Rec)} {t t' : St} (hm : OrdMap.Sorted lt t.recs)
    (ho : outs.map (·.1) = .iterFirst i :: forth i n) (h : History lt fw t outs t') :
    results outs = (t.recs.take n).map some ++ List.replicate (n - t.recs.length) none := by
  obtain ⟨⟨c1, o1⟩, outs, rfl, h1, hoB⟩ := List.map_eq_cons_iff.1 ho
  simp only at h1
  subst h1
  obtain ⟨u, g1, g2⟩ := h
  rcases g1 with g1 | ⟨j, hj, _⟩
  · obtain ⟨e1, e2⟩ := Prod.mk.inj g1
    subst e2
    have hu : u.recs = t.recs := by rw [e1]; rfl
    have := forth_results hw n outs u t' [] t.recs (by rw [hu]; exact hm) hu (by rw [e1, setIter_get]) hoB g2
    simpa only [results] using this
  · cases hj

/-- A whole scan in descending order. -/
theorem scan_back (hw : StrictWeak lt) {fw : Bool} {i n : Nat} {outs : List (Call Rec × Out Rec)} {t t' : St} (hm : OrdMap.Sorted lt t.recs)
    (ho : outs.map (·.1) = .iterLast i :: back i n) (h : History lt fw t outs t') :
    results outs = (t.recs.reverse.take n).map some ++ List.replicate (n - t.recs.length) none := by
  obtain ⟨⟨c1, o1⟩, outs, rfl, h1, hoB⟩ := List.map_eq_cons_iff.1 ho
  simp only at h1
  subst h1
  obtain ⟨u, g1, g2⟩ := h
  rcases g1 with g1 | ⟨j, hj, _⟩
  · obtain ⟨e1, e2⟩ := Prod.mk.inj g1
    subst e2
    have hu : u.recs = t.recs := by rw [e1]; rfl
    have := back_results hw n outs u t' t.recs [] (by rw [hu]; exact hm) (by rw [hu]; simp) (by rw [e1, setIter_get]) hoB g2
    simpa only [results] using this
  · cases hj

/-! ### Ascending order -/

theorem sorted_parts (hw : StrictWeak lt) {k v : Bytes} {m : List Rec} (hm : OrdMap.Sorted lt m) : OrdMap.Sorted lt (put lt k v m) ∧ OrdMap.Sorted lt (del lt k m) := by
  obtain ⟨P, q, R, hc⟩ := exists_cut hw k hm
  rw [hc.put hw, hc.del hw]
  rw [hc.eq] at hm
  obtain ⟨h1, h2, h3⟩ := List.pairwise_append.1 hm
  obtain ⟨h4, _, h6⟩ := List.pairwise_append.1 h1
  refine ⟨List.pairwise_append.2 ⟨h4, List.pairwise_cons.2 ⟨fun x hx => ?_, h2⟩, fun x hx y hy => ?_⟩, List.pairwise_append.2 ⟨h4, h2, fun x hx y hy => h3 x (by simp [hx]) y hy⟩⟩
  · cases q with
    | none => exact hc.hi x hx
    | some r => exact h3 r (by simp) x hx
  · rcases List.mem_cons.1 hy with rfl | hy
    · cases q with
      | none => exact hc.lo x hx
      | some r => exact h6 x hx r (by simp)
    · exact h3 x (by simp [hx]) y hy

/-! ### Under a comparator that tells all keys apart -/

/-- The dictionary a list of records stands for. -/
def dict (lt : Bytes → Bytes → Bool) (m : List Rec) : Dict := fun k => (get lt k m).map (·.2)

theorem get_put (hw : StrictWeak lt) {k v : Bytes} {m : List Rec} (hm : OrdMap.Sorted lt m) (k' : Bytes) :
    (get lt k' (put lt k v m)).map (·.2) = if eqv lt k k' then some v else (get lt k' m).map (·.2) := by
  obtain ⟨P, q, R, hc⟩ := exists_cut hw k hm
  rw [hc.put hw, hc.eq]
  have hk : eqv lt ((q.map (·.1)).getD k) k = true := by
    cases q with
    | none => exact hw.eqv_refl k
    | some r => exact hc.at_ r rfl
  by_cases he : eqv lt k k' = true
  · rw [if_pos he]
    unfold get
    have hx : eqv lt ((q.map (·.1)).getD k) k' = true := hw.eqv_trans hk he
    rw [List.find?_append, find_false (l := P) fun r hr => ?_, Option.none_or, List.find?_cons, hx]
    · rfl
    · have := hw.lt_of_eqv_right (hc.lo r hr) he
      simp [eqv, this]
  · rw [if_neg he]
    unfold get
    rw [List.find?_append, List.find?_append, List.find?_append, List.find?_cons]
    have hx : eqv lt ((q.map (·.1)).getD k) k' = false := by
      rw [← Bool.not_eq_true]
      intro hh
      rw [StrictWeak.eqv_symm] at hk
      exact he (hw.eqv_trans hk hh)
    rw [hx]
    cases q with
    | none => simp
    | some r =>
      have : eqv lt r.1 k' = false := hx
      simp [this]

theorem get_del (hw : StrictWeak lt) {k : Bytes} {m : List Rec} (hm : OrdMap.Sorted lt m) (k' : Bytes) :
    get lt k' (del lt k m) = if eqv lt k k' then none else get lt k' m := by
  obtain ⟨P, q, R, hc⟩ := exists_cut hw k hm
  rw [hc.del hw]
  by_cases he : eqv lt k k' = true
  · rw [if_pos he]
    unfold get
    rw [List.find?_append, find_false (l := P) fun r hr => ?_, Option.none_or, find_false (l := R) fun r hr => ?_]
    · rw [StrictWeak.eqv_symm] at he
      have := hw.lt_of_eqv_left he (hc.hi r hr)
      simp [eqv, this]
    · have := hw.lt_of_eqv_right (hc.lo r hr) he
      simp [eqv, this]
  · rw [if_neg he, hc.eq]
    unfold get
    rw [List.find?_append, List.find?_append, List.find?_append]
    cases q with
    | none => simp
    | some r =>
      have : eqv lt r.1 k' = false := by
        rw [← Bool.not_eq_true]
        intro hh
        have hk := hc.at_ r rfl
        rw [StrictWeak.eqv_symm] at hk
        exact he (hw.eqv_trans hk hh)
      simp [this]

theorem process_sorted (hw : StrictWeak lt) {τ : Type} {m : List Rec} (hm : OrdMap.Sorted lt m) (k : Bytes) (w : Bool) (p : Bytes → ProcR τ) :
    OrdMap.Sorted lt (process lt m k w p).1 := by
  unfold process
  split
  · split
    · exact (sorted_parts (v := []) hw hm).2
    · exact (sorted_parts hw hm).1
    · exact hm
  · split
    · exact (sorted_parts hw hm).1
    · exact hm

theorem multi_sorted (hw : StrictWeak lt) {ρ : Type} (w : Bool) : ∀ (l : List (Bytes × ProcS ρ)) {m : List Rec} (r : ρ), OrdMap.Sorted lt m →
    OrdMap.Sorted lt (multi lt w m l r).1
  | [], _, _, hm => hm
  | (k, p) :: l, _, r, hm => multi_sorted hw w l _ (process_sorted hw hm k w fun _ => p r)

/-- `Process` is that of a dictionary. -/
theorem process_dict (hw : StrictWeak lt) (hi : ∀ a b, eqv lt a b = true → a = b) {τ : Type} {m : List Rec} (hm : OrdMap.Sorted lt m) (k : Bytes) (w : Bool) (p : ProcR τ) :
    (dict lt (process lt m k w fun _ => p).1, (process lt m k w fun _ => p).2.2) = (dict lt m).process k w p := by
  have hput : ∀ v, dict lt (put lt k v m) = (dict lt m).upd k (some v) := by
    intro v
    funext k'
    show (get lt k' (put lt k v m)).map (·.2) = _
    rw [get_put hw hm, Dict.upd]
    by_cases he : k' = k
    · subst he; simp [hw.eqv_refl]
    · rw [if_neg he, if_neg fun hh => he (hi _ _ hh).symm]; rfl
  have hdel : dict lt (del lt k m) = (dict lt m).upd k none := by
    funext k'
    show (get lt k' (del lt k m)).map (·.2) = _
    rw [get_del hw hm, Dict.upd]
    by_cases he : k' = k
    · subst he; simp [hw.eqv_refl]
    · rw [if_neg he, if_neg fun hh => he (hi _ _ hh).symm]; rfl
  have hno : dict lt m k = none → (dict lt m).upd k none = dict lt m := by
    intro hn
    funext k'
    rw [Dict.upd]
    split
    · rename_i h; rw [h, hn]
    · rfl
  unfold process Dict.process
  cases hg : get lt k m with
  | none =>
    have hd : dict lt m k = none := by simp [dict, hg]
    rw [hd]
    cases ha : (p none).1 with
    | noop => cases w <;> simp [Dict.act]
    | remove => cases w <;> simp [Dict.act, hno hd]
    | set v => cases w <;> simp [Dict.act, hput]
  | some r =>
    have hd : dict lt m k = some r.2 := by simp [dict, hg]
    rw [hd]
    simp only
    cases ha : (p (some r.2)).1 with
    | noop => cases w <;> simp [Dict.act]
    | remove => cases w <;> simp [Dict.act, hdel]
    | set v => cases w <;> simp [Dict.act, hput]

theorem multi_dict (hw : StrictWeak lt) (hi : ∀ a b, eqv lt a b = true → a = b) {ρ : Type} (w : Bool) : ∀ (l : List (Bytes × ProcS ρ)) {m : List Rec} (r : ρ),
    OrdMap.Sorted lt m → (dict lt (multi lt w m l r).1, (multi lt w m l r).2.2) = (dict lt m).processMulti l w r
  | [], _, _, _ => rfl
  | (k, p) :: l, m, r, hm => by
    have h1 := process_dict hw hi hm k w (p r)
    simp only [multi, Dict.processMulti]
    rw [multi_dict hw hi w l _ (process_sorted hw hm k w fun _ => p r), ← h1]

end Verif.OMap

namespace Verif.OMap
open Verif

variable {lt : Bytes → Bytes → Bool}

/-! ### The update log -/

theorem process_log (hw : StrictWeak lt) (hi : ∀ a b, eqv lt a b = true → a = b) {τ : Type} {m : List Rec} (hm : OrdMap.Sorted lt m) (k : Bytes) (w : Bool)
    (p : Bytes → ProcR τ) : dict lt (process lt m k w p).1 = (dict lt m).replay (process lt m k w p).2.1 := by
  have hput : ∀ v, dict lt (put lt k v m) = (dict lt m).upd k (some v) := fun v => by
    have := congrArg Prod.fst (process_dict hw hi hm k true fun _ => (.set v, ()))
    unfold process at this
    cases hg : get lt k m <;> rw [hg] at this <;> simpa [Dict.process, Dict.act] using this
  have hdel : (get lt k m).isSome → dict lt (del lt k m) = (dict lt m).upd k none := fun hs => by
    have := congrArg Prod.fst (process_dict hw hi hm k true fun _ => (.remove, ()))
    unfold process at this
    cases hg : get lt k m with
    | none => rw [hg] at hs; cases hs
    | some r => rw [hg] at this; simpa [Dict.process, Dict.act] using this
  unfold process
  cases hg : get lt k m with
  | none =>
    simp only
    split
    · simp [Dict.replay, Dict.applyLog, hput]
    · rfl
  | some r =>
    simp only
    split
    · simp [Dict.replay, Dict.applyLog, hdel (by rw [hg]; rfl)]
    · simp [Dict.replay, Dict.applyLog, hput]
    · rfl

theorem replay_append (d : Dict) (a b : List LogOp) : d.replay (a ++ b) = (d.replay a).replay b := by
  simp [Dict.replay]

theorem multi_log (hw : StrictWeak lt) (hi : ∀ a b, eqv lt a b = true → a = b) {ρ : Type} (w : Bool) : ∀ (l : List (Bytes × ProcS ρ)) {m : List Rec} (r : ρ),
    OrdMap.Sorted lt m → dict lt (multi lt w m l r).1 = (dict lt m).replay (multi lt w m l r).2.1
  | [], _, _, _ => rfl
  | (k, p) :: l, m, r, hm => by
    simp only [multi]
    rw [multi_log hw hi w l _ (process_sorted hw hm k w fun _ => p r), replay_append, process_log hw hi hm]

theorem each_sorted (hw : StrictWeak lt) {ρ : Type} (w : Bool) (p : ρ → Bytes → ProcR ρ) : ∀ (ks : List Bytes) {m : List Rec} (r : ρ), OrdMap.Sorted lt m →
    OrdMap.Sorted lt (each lt w p ks m r).1
  | [], _, _, hm => hm
  | k :: ks, _, r, hm => each_sorted hw w p ks _ (process_sorted hw hm k w (p r))

theorem each_log (hw : StrictWeak lt) (hi : ∀ a b, eqv lt a b = true → a = b) {ρ : Type} (w : Bool) (p : ρ → Bytes → ProcR ρ) : ∀ (ks : List Bytes) {m : List Rec} (r : ρ),
    OrdMap.Sorted lt m → dict lt (each lt w p ks m r).1 = (dict lt m).replay (each lt w p ks m r).2.1
  | [], _, _, _ => rfl
  | k :: ks, m, r, hm => by
    simp only [each]
    rw [each_log hw hi w p ks _ (process_sorted hw hm k w (p r)), replay_append, process_log hw hi hm]

/-- SPECIFICATION: the order of the records, and the log tells how they came about. -/
def Logged (lt : Bytes → Bytes → Bool) (t : St) : Prop := OrdMap.Sorted lt t.recs ∧ dict lt t.recs = Dict.empty.replay t.log

theorem allowed_logged (hw : StrictWeak lt) (hi : ∀ a b, eqv lt a b = true → a = b) {ω : Type} {fw : Bool} {t t' : St} {c : Call ω} {o : Out ω}
    (h : Logged lt t) (ha : Allowed lt fw t c o t') : Logged lt t' := by
  obtain ⟨h1, h2⟩ := h
  have same : ∀ u : St, u.recs = t.recs → u.log = t.log → Logged lt u := fun u e1 e2 => ⟨e1 ▸ h1, by rw [e1, e2, h2]⟩
  have proc : ∀ {τ : Type} (k : Bytes) (w : Bool) (p : Bytes → ProcR τ) (f : Nat → Option Bytes),
      Logged lt { recs := (process lt t.recs k w p).1, iters := f, log := t.log ++ (process lt t.recs k w p).2.1 } := fun k w p f =>
    ⟨process_sorted hw h1 k w p, by show dict lt (process lt t.recs k w p).1 = _; rw [process_log hw hi h1, h2, replay_append]⟩
  rcases ha with ha | ⟨i, _, _, x, _, y, hy, _⟩
  · obtain ⟨ha, _⟩ := Prod.mk.inj ha
    subst ha
    cases c with
    | process k w p => exact proc k w p _
    | append k v delim =>
      have := proc k true (fun _ old => (.set (appended old v delim), ())) t.iters
      unfold process at this
      cases hg : get lt k t.recs with
      | none => rw [hg] at this; simpa [step, hg] using this
      | some r => rw [hg] at this; simpa [step, hg] using this
    | multi l w r => exact ⟨multi_sorted hw w l r h1, by simp only [step]; rw [multi_log hw hi w l r h1, h2, replay_append]⟩
    | first w p =>
      simp only [step]
      cases t.recs.head? with
      | none => exact same _ rfl rfl
      | some r => exact proc r.1 (w || fw) p _
    | each w p r => exact ⟨each_sorted hw w p _ r h1, by simp only [step]; rw [each_log hw hi w p _ r h1, h2, replay_append]⟩
    | count => exact same _ rfl rfl
    | clear => exact ⟨List.Pairwise.nil, by simp only [step, replay_append]; rfl⟩
    | iterFirst i => exact same _ rfl rfl
    | iterLast i => exact same _ rfl rfl
    | iterJump i x => exact same _ rfl rfl
    | iterJumpLower i x b => exact same _ rfl rfl
    | iterJumpUpper i x b => exact same _ rfl rfl
    | iterNext i =>
      simp only [step]
      cases t.iters i <;> exact same _ rfl rfl
    | iterPrevious i =>
      simp only [step]
      cases t.iters i <;> exact same _ rfl rfl
    | iterProcess i w p =>
      simp only [step]
      cases t.iters i with
      | none => exact same _ rfl rfl
      | some x =>
        simp only
        cases atLeast lt x t.recs with
        | none => exact same _ rfl rfl
        | some r => exact proc r.1 w p _
  · subst hy
    exact same _ rfl rfl

theorem history_logged (hw : StrictWeak lt) (hi : ∀ a b, eqv lt a b = true → a = b) {ω : Type} {fw : Bool} : ∀ (l : List (Call ω × Out ω)) (t t' : St),
    Logged lt t → History lt fw t l t' → Logged lt t'
  | [], t, t', h, hh => by
    have : t' = t := hh
    rw [this]
    exact h
  | (c, o) :: l, t, t', h, hh => by
    obtain ⟨u, h1, h2⟩ := hh
    exact history_logged hw hi l u t' (allowed_logged hw hi h h1) h2

/-! ### Calls that only read -/

/-- SPECIFICATION: the calls that say they do not write. -/
def Call.reads {ω : Type} : Call ω → Bool
  | .process _ w _ => !w
  | .append _ _ _ => false
  | .multi _ w _ => !w
  | .first w _ => !w
  | .each w _ _ => !w
  | .clear => false
  | .iterProcess _ w _ => !w
  | _ => true

/-- SPECIFICATION: the call is `ProcessFirst`. -/
def Call.isFirst {ω : Type} : Call ω → Bool
  | .first _ _ => true
  | _ => false

theorem multi_read {ρ : Type} : ∀ (l : List (Bytes × ProcS ρ)) (m : List Rec) (r : ρ), (multi lt false m l r).1 = m ∧ (multi lt false m l r).2.1 = []
  | [], _, _ => ⟨rfl, rfl⟩
  | (k, p) :: l, m, r => by
    simp only [multi, process_read, List.nil_append]
    exact multi_read l m _

theorem each_read_only {ρ : Type} (p : ρ → Bytes → ProcR ρ) : ∀ (ks : List Bytes) (m : List Rec) (r : ρ), (each lt false p ks m r).1 = m ∧ (each lt false p ks m r).2.1 = []
  | [], _, _ => ⟨rfl, rfl⟩
  | k :: ks, m, r => by
    simp only [each, process_read, List.nil_append]
    exact each_read_only p ks m _

theorem reads_same {ω : Type} {fw : Bool} {t t' : St} {c : Call ω} {o : Out ω} (hr : c.reads = true) (hf : fw = true → c.isFirst = false)
    (ha : Allowed lt fw t c o t') : t'.recs = t.recs ∧ t'.log = t.log := by
  rcases ha with ha | ⟨i, _, _, x, _, y, hy, _⟩
  · obtain ⟨ha, _⟩ := Prod.mk.inj ha
    subst ha
    cases c with
    | process k w p =>
      have hw : w = false := by simpa [Call.reads] using hr
      subst hw
      simp [step, process_read]
    | append k v delim => cases hr
    | multi l w r =>
      have hw : w = false := by simpa [Call.reads] using hr
      subst hw
      obtain ⟨h1, h2⟩ := multi_read (lt := lt) l t.recs r
      simp [step, h1, h2]
    | first w p =>
      have hw : w = false := by simpa [Call.reads] using hr
      subst hw
      have hfw : fw = false := by
        cases fw with
        | false => rfl
        | true => cases hf rfl
      subst hfw
      simp only [step, Bool.or_false, process_read]
      cases t.recs.head? <;> simp
    | each w p r =>
      have hw : w = false := by simpa [Call.reads] using hr
      subst hw
      obtain ⟨h1, h2⟩ := each_read_only (lt := lt) p (t.recs.map (·.1)) t.recs r
      simp [step, h1, h2]
    | count => exact ⟨rfl, rfl⟩
    | clear => cases hr
    | iterFirst i => exact ⟨rfl, rfl⟩
    | iterLast i => exact ⟨rfl, rfl⟩
    | iterJump i x => exact ⟨rfl, rfl⟩
    | iterJumpLower i x b => exact ⟨rfl, rfl⟩
    | iterJumpUpper i x b => exact ⟨rfl, rfl⟩
    | iterNext i => simp only [step]; cases t.iters i <;> exact ⟨rfl, rfl⟩
    | iterPrevious i => simp only [step]; cases t.iters i <;> exact ⟨rfl, rfl⟩
    | iterProcess i w p =>
      have hw : w = false := by simpa [Call.reads] using hr
      subst hw
      simp only [step]
      cases t.iters i with
      | none => exact ⟨rfl, rfl⟩
      | some x =>
        simp only [process_read]
        cases atLeast lt x t.recs with
        | none => exact ⟨rfl, rfl⟩
        | some r => simp
  · subst hy
    exact ⟨rfl, rfl⟩

theorem history_reads {ω : Type} {fw : Bool} : ∀ (l : List (Call ω × Out ω)) (t t' : St), (∀ x ∈ l, x.1.reads = true ∧ (fw = true → x.1.isFirst = false)) →
    History lt fw t l t' → t'.recs = t.recs ∧ t'.log = t.log
  | [], t, t', _, hh => by
    have : t' = t := hh
    rw [this]
    exact ⟨rfl, rfl⟩
  | (c, o) :: l, t, t', h, hh => by
    obtain ⟨u, h1, h2⟩ := hh
    have g1 := reads_same (h (c, o) (by simp)).1 (h (c, o) (by simp)).2 h1
    have g2 := history_reads l u t' (fun x hx => h x (by simp [hx])) h2
    exact ⟨g2.1.trans g1.1, g2.2.trans g1.2⟩

/-- SPECIFICATION: what the calls would do if every one were exact (see `step`), with their outputs. -/
def ideal {ω : Type} (lt : Bytes → Bytes → Bool) (fw : Bool) : St → List (Call ω) → List (Out ω)
  | _, [] => []
  | t, c :: l => (step lt fw t c).2 :: ideal lt fw (step lt fw t c).1 l

end Verif.OMap
