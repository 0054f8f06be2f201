import Verif.Index.Lemmas
/-
Every call of an index does what the specification says, whatever the ordered database below.
-/
namespace Verif.Index
open Verif Verif.Codec

local notation "lt" => recLt Cmp.lexCompare

/-- The records stand for the pairs. -/
structure Rel (t : OMap.St) (u : S Bytes Bytes) : Prop where
  recs : t.recs = u.pairs.map toRec
  small : ∀ q ∈ u.pairs, Small q
  asc : Asc u.pairs
  iters : ∀ i, t.iters (i + 1) = (u.iters i).map ser
  ismall : ∀ i p, u.iters i = some p → Small p

/-- SPECIFICATION: the database below behaves as an ordered database: every call gives a result which is allowed. -/
def Refines {σ : Type} (db : Db σ) (fw : Bool) (R : σ → OMap.St → Prop) : Prop :=
  ∀ s t c, R s t → ∃ s' o t', db s c = some (s', o) ∧ OMap.Allowed lt fw t c o t' ∧ R s' t'

theorem allowed_step {fw : Bool} {t t' : OMap.St} {c : OMap.Call Shown} {o : OMap.Out Shown} (hc : ∀ i, c ≠ .iterPrevious i)
    (h : OMap.Allowed lt fw t c o t') : (t', o) = OMap.step lt fw t c := by
  rcases h with h | ⟨i, h, -⟩
  · exact h
  · exact absurd h (hc i)

theorem Refines.step {σ : Type} {db : Db σ} {fw : Bool} {R : σ → OMap.St → Prop} (hd : Refines db fw R) {s : σ} {t : OMap.St} (h : R s t) (c : OMap.Call Shown)
    (hc : ∀ i, c ≠ .iterPrevious i) : ∃ s', db s c = some (s', (OMap.step lt fw t c).2) ∧ R s' (OMap.step lt fw t c).1 := by
  obtain ⟨s', o, t', h1, h2, h3⟩ := hd s t c h
  have := allowed_step hc h2
  rw [← this]
  exact ⟨s', h1, h3⟩

/-! ### The calls of the database on the records of pairs -/

theorem process_get {u : S Bytes Bytes} (hs : ∀ q ∈ u.pairs, Small q) {p : Pair} (hp : Small p) :
    OMap.process lt (u.pairs.map toRec) (ser p) false getProc = (u.pairs.map toRec, [], if p ∈ u.pairs then some (toRec p) else none) := by
  unfold OMap.process
  rw [get_rec hs hp]
  by_cases h : p ∈ u.pairs
  · rw [if_pos h]
    simp [getProc, toRec]
  · rw [if_neg h]
    simp [getProc]

theorem process_set {u : S Bytes Bytes} (hs : ∀ q ∈ u.pairs, Small q) {p : Pair} (hp : Small p) :
    (OMap.process lt (u.pairs.map toRec) (ser p) true setProc).1 = (added pairLt p u.pairs).map toRec := by
  unfold OMap.process
  rw [get_rec hs hp]
  by_cases h : p ∈ u.pairs
  · rw [if_pos h]
    simp only [setProc]
    exact put_rec hs hp
  · rw [if_neg h]
    simp only [setProc]
    exact put_rec hs hp

theorem process_remove {u : S Bytes Bytes} (hs : ∀ q ∈ u.pairs, Small q) {p : Pair} (hp : Small p) :
    (OMap.process lt (u.pairs.map toRec) (ser p) true removeProc).1 = (u.pairs.filter (· ≠ p)).map toRec := by
  unfold OMap.process
  rw [get_rec hs hp]
  by_cases h : p ∈ u.pairs
  · rw [if_pos h]
    simp only [removeProc]
    exact del_rec hs hp
  · rw [if_neg h]
    simp only [removeProc]
    rw [List.filter_eq_self.2]
    intro q hq
    simp only [ne_eq, decide_not, Bool.not_eq_true', decide_eq_false_iff_not]
    rintro rfl
    exact h hq

/-- What the iterator gives. -/
theorem look_rec {t : OMap.St} {u : S Bytes Bytes} (h : Rel t u) (fw : Bool) (i : Nat) (x : Option Pair) (hx : t.iters i = x.map ser) (hxs : ∀ p, x = some p → Small p) :
    OMap.step lt fw t (.iterProcess i false getProc) =
      (t.setIter i ((x.bind fun p => notLess pairLt p u.pairs).map ser), .res ((x.bind fun p => notLess pairLt p u.pairs).map fun q => some (toRec q))) := by
  cases x with
  | none =>
    simp only [OMap.step, hx, Option.map_none, Option.bind_none]
    congr 1
    unfold OMap.St.setIter
    cases t
    simp only [OMap.St.mk.injEq, true_and, and_true]
    funext j
    by_cases hj : j = i
    · subst hj; simpa using hx
    · simp [hj]
  | some p =>
    simp only [OMap.step, hx, Option.map_some, Option.bind_some, h.recs, atLeast_rec h.small (hxs p rfl)]
    cases hn : notLess pairLt p u.pairs with
    | none => rfl
    | some q =>
      have hm := (notLess_mem hn).1
      simp only [Option.map_some, toRec]
      rw [process_get h.small (h.small q hm), if_pos hm]
      simp only [List.append_nil, toRec, Prod.mk.injEq, and_true]
      rw [← h.recs]
      rfl

/-- The next record. -/
theorem next_rec {t : OMap.St} {u : S Bytes Bytes} (h : Rel t u) (fw : Bool) (i : Nat) (x : Option Pair) (hx : t.iters i = x.map ser) (hxs : ∀ p, x = some p → Small p) :
    (OMap.step lt fw t (.iterNext i : OMap.Call Shown)).1 = t.setIter i ((x.bind fun p => after pairLt p u.pairs).map ser) := by
  cases x with
  | none =>
    simp only [OMap.step, hx, Option.map_none, Option.bind_none]
    unfold OMap.St.setIter
    cases t
    simp only [OMap.St.mk.injEq, true_and, and_true]
    funext j
    by_cases hj : j = i
    · subst hj; simpa using hx
    · simp [hj]
  | some p =>
    simp only [OMap.step, hx, Option.map_some, Option.bind_some, h.recs, greater_rec h.small (hxs p rfl), Option.map_map]
    rfl

theorem Rel.set0 {t : OMap.St} {u : S Bytes Bytes} (h : Rel t u) (x : Option Bytes) : Rel (t.setIter 0 x) u where
  recs := h.recs
  small := h.small
  asc := h.asc
  iters i := by simp only [OMap.St.setIter]; rw [if_neg (by omega)]; exact h.iters i
  ismall := h.ismall

theorem Rel.move {t : OMap.St} {u : S Bytes Bytes} (h : Rel t u) (i : Nat) (x : Option Pair) (hx : ∀ p, x = some p → Small p) :
    Rel (t.setIter (i + 1) (x.map ser)) (u.move i x) where
  recs := h.recs
  small := h.small
  asc := h.asc
  iters j := by
    simp only [OMap.St.setIter, S.move]
    by_cases hj : j = i
    · subst hj; simp
    · rw [if_neg (by omega), if_neg hj]; exact h.iters j
  ismall j p hp := by
    simp only [S.move] at hp
    split at hp
    · exact hx p hp
    · exact h.ismall j p hp

/-! ### GetValues -/

/-- Where the iterator of GetValues is: `rest` are the pairs to come. -/
def At (t : OMap.St) (u : S Bytes Bytes) (rest : List Pair) : Prop :=
  ∃ A, u.pairs = A ++ rest ∧ ((t.iters 0 = none ∧ rest = []) ∨
    ∃ p, Small p ∧ t.iters 0 = some (ser p) ∧ (∀ a ∈ A, pairLt a p = true) ∧ ∀ b ∈ rest, pairLt b p = false)

theorem split_at (p : Pair) : ∀ {l : List Pair}, Asc l → ∃ A B, l = A ++ B ∧ (∀ a ∈ A, pairLt a p = true) ∧ ∀ b ∈ B, pairLt b p = false
  | [], _ => ⟨[], [], rfl, by simp, by simp⟩
  | q :: l, h => by
    have h' := List.pairwise_cons.1 h
    cases hq : pairLt q p with
    | true =>
      obtain ⟨A, B, e, h1, h2⟩ := split_at p h'.2
      refine ⟨q :: A, B, by rw [e]; rfl, fun a ha => ?_, h2⟩
      rcases List.mem_cons.1 ha with rfl | ha
      · exact hq
      · exact h1 a ha
    | false =>
      refine ⟨[], q :: l, rfl, by simp, fun b hb => ?_⟩
      rcases List.mem_cons.1 hb with rfl | hb
      · exact hq
      · cases hc : pairLt b p with
        | false => rfl
        | true => rw [pairLt_weak.trans _ _ _ (h'.1 b hb) hc] at hq; cases hq

theorem find_append {f : Pair → Bool} {A B : List Pair} (h1 : ∀ a ∈ A, f a = false) (h2 : ∀ b ∈ B, f b = true) : (A ++ B).find? f = B.head? := by
  rw [List.find?_append, List.find?_eq_none.2 (fun a ha => by rw [h1 a ha]; simp), Option.none_or]
  cases B with
  | nil => rfl
  | cons b B => rw [List.find?_cons_of_pos (h2 b (by simp))]; rfl

/-- What the loop collects. -/
def collected (key : Bytes) (max : Nat) (rest : List Pair) (n : Nat) : List Bytes :=
  let l := (rest.takeWhile fun q => decide (q.1 = key)).map (·.2)
  if max = 0 then l else l.take (max - n)

theorem valuesLoop_ok {σ : Type} {db : Db σ} {fw : Bool} {R : σ → OMap.St → Prop} (hd : Refines db fw R) (key : Bytes) (max : Nat) {u : S Bytes Bytes} :
    ∀ (n : Nat) (s : σ) (t : OMap.St) (values : List Bytes) (rest : List Pair), R s t → Rel t u → At t u rest → rest.length < n →
      ∃ s' t', valuesLoop db key max n s values = some (s', values ++ collected key max rest values.length) ∧ R s' t' ∧ Rel t' u
  | 0, _, _, _, _, _, _, _, hn => by omega
  | n + 1, s, t, values, rest, hR, hrel, hat, hn => by
    rw [valuesLoop]
    by_cases hm : 0 < max ∧ max ≤ values.length
    · rw [if_pos hm]
      refine ⟨s, t, ?_, hR, hrel⟩
      simp [collected, show max ≠ 0 by omega, show max - values.length = 0 by omega]
    · rw [if_neg hm]
      obtain ⟨A, hA, hcase⟩ := hat
      obtain ⟨s1, e1, hR1⟩ := hd.step hR (.iterProcess 0 false getProc) (by intro i; simp)
      rw [e1]
      -- the position
      obtain ⟨x, hx, hxs, hnl⟩ : ∃ x : Option Pair, t.iters 0 = x.map ser ∧ (∀ p, x = some p → Small p) ∧ (x.bind fun p => notLess pairLt p u.pairs) = rest.head? := by
        rcases hcase with ⟨h0, hr⟩ | ⟨p, hp, h0, h1, h2⟩
        · exact ⟨none, h0, by simp, by simp [hr]⟩
        · refine ⟨some p, h0, fun q hq => by cases hq; exact hp, ?_⟩
          simp only [Option.bind_some, notLess]
          rw [hA]
          exact find_append (fun a ha => by simp [h1 a ha]) (fun b hb => by simp [h2 b hb])
      have hlook := look_rec hrel fw 0 x hx hxs
      rw [hnl] at hlook
      rw [hlook] at hR1
      rw [hlook]
      cases rest with
      | nil =>
        refine ⟨s1, _, ?_, hR1, hrel.set0 _⟩
        simp [collected]
      | cons q rest =>
        have hq : q ∈ u.pairs := by rw [hA]; simp
        have hqs := hrel.small q hq
        have hrel1 := hrel.set0 (some (ser q))
        simp only [List.head?_cons, Option.map_some] at hR1
        simp only [List.head?_cons, Option.map_some, Option.bind_eq_bind, Option.bind_some, toRec, keyOf_ser hqs]
        by_cases hk : q.1 = key
        · rw [if_neg (by simpa using hk)]
          obtain ⟨s2, e2, hR2⟩ := hd.step hR1 (.iterNext 0) (by intro i; simp)
          rw [e2]
          simp only [Option.bind_some]
          have hnext := next_rec hrel1 fw 0 (some q) (by simp [OMap.St.setIter]) (fun p hp => by cases hp; exact hqs)
          rw [hnext] at hR2
          have hasc : Asc (A ++ q :: rest) := by rw [← hA]; exact hrel.asc
          have hs := List.pairwise_append.1 hasc
          have hAq : ∀ a ∈ A, pairLt a q = true := fun a ha => hs.2.2 a ha q (by simp)
          have hqr : ∀ b ∈ rest, pairLt q b = true := (List.pairwise_cons.1 hs.2.1).1
          have haft : after pairLt q u.pairs = rest.head? := by
            unfold after
            rw [hA, show A ++ q :: rest = (A ++ [q]) ++ rest by simp]
            refine find_append (fun a ha => ?_) hqr
            rcases List.mem_append.1 ha with ha | ha
            · exact pairLt_weak.asymm (hAq a ha)
            · simp at ha; subst ha; exact pairLt_weak.irrefl _
          simp only [Option.bind_some, haft] at hR2
          obtain ⟨s', t', e', hR', hrel'⟩ := valuesLoop_ok hd key max n s2 _ (values ++ [q.2]) rest hR2 (hrel1.set0 _) (by
            refine ⟨A ++ [q], by rw [hA]; simp, ?_⟩
            cases rest with
            | nil => exact Or.inl ⟨by simp [OMap.St.setIter], rfl⟩
            | cons q' rest =>
              refine Or.inr ⟨q', hrel.small q' (by rw [hA]; simp), by simp [OMap.St.setIter], fun a ha => ?_, fun b hb => ?_⟩
              · rcases List.mem_append.1 ha with ha | ha
                · exact hs.2.2 a ha q' (by simp)
                · simp at ha; subst ha; exact hqr q' (by simp)
              · rcases List.mem_cons.1 hb with rfl | hb
                · exact pairLt_weak.irrefl _
                · exact pairLt_weak.asymm ((List.pairwise_cons.1 (List.pairwise_cons.1 hs.2.1).2).1 b hb)) (by simp at hn; omega)
          refine ⟨s', t', ?_, hR', hrel'⟩
          rw [e']
          simp only [collected, List.takeWhile_cons, hk, decide_true, if_true, List.map_cons, List.length_append, List.length_cons, List.length_nil, Option.some.injEq,
            Prod.mk.injEq, true_and, List.append_assoc, List.cons_append, List.nil_append]
          by_cases hz : max = 0
          · simp [hz]
          · simp only [hz, if_false]
            rw [show max - values.length = (max - (values.length + 1)) + 1 by omega, List.take_succ_cons]
        · rw [if_pos (by simpa using hk)]
          refine ⟨s1, _, ?_, hR1, hrel1⟩
          simp [collected, List.takeWhile_cons, hk]

theorem takeWhile_key (key : Bytes) : ∀ {l : List Pair}, Asc l → (∀ b ∈ l, pairLt b (key, []) = false) →
    (l.takeWhile fun q => decide (q.1 = key)) = l.filter fun q => decide (q.1 = key)
  | [], _, _ => rfl
  | q :: l, h, hl => by
    have h' := List.pairwise_cons.1 h
    by_cases hk : q.1 = key
    · rw [List.takeWhile_cons_of_pos (by simpa using hk), List.filter_cons_of_pos (by simpa using hk), takeWhile_key key h'.2 fun b hb => hl b (by simp [hb])]
    · rw [List.takeWhile_cons_of_neg (by simpa using hk), List.filter_cons_of_neg (by simpa using hk)]
      symm
      rw [List.filter_eq_nil_iff]
      intro b hb
      simp only [decide_eq_true_eq]
      intro e
      have h1 := hl q (by simp)
      have h2 := h'.1 b hb
      simp only [pairLt, Bool.or_eq_false_iff, Bool.or_eq_true, Bool.and_eq_true, decide_eq_true_eq] at h1 h2
      rw [e] at h2
      rcases h2 with h2 | ⟨h2, -⟩
      · rw [h1.1] at h2; cases h2
      · exact hk h2

theorem collected_values {u : S Bytes Bytes} (h : Asc u.pairs) {A B : List Pair} (key : Bytes) (max : Nat) (e : u.pairs = A ++ B) (hA : ∀ a ∈ A, pairLt a (key, []) = true)
    (hB : ∀ b ∈ B, pairLt b (key, []) = false) : collected key max B 0 = valuesOf u.pairs key max := by
  unfold collected valuesOf
  rw [takeWhile_key key (by rw [e] at h; exact (List.pairwise_append.1 h).2.1) hB, e, List.filter_append]
  have : (A.filter fun p => decide (p.1 = key)) = [] := by
    rw [List.filter_eq_nil_iff]
    intro a ha
    have h1 := hA a ha
    simp only [decide_eq_true_eq]
    intro e
    simp only [pairLt, Bool.or_eq_true, Bool.and_eq_true, decide_eq_true_eq, e] at h1
    rcases h1 with h1 | ⟨-, h1⟩
    · rw [bytesLt_weak.irrefl] at h1; cases h1
    · simp [bytesLt] at h1
  rw [this, List.nil_append, Nat.sub_zero]

/-! ### Every call -/

theorem call_ok {σ : Type} {db : Db σ} {fw : Bool} {R : σ → OMap.St → Prop} (hd : Refines db fw R) {fuel : Nat} {s : σ} {t : OMap.St} {u : S Bytes Bytes} (hR : R s t) (h : Rel t u)
    (c : Call Bytes Bytes) (hc : c.Small) (hf : u.pairs.length < fuel) :
    ∃ s' o t' u', call db fuel s c = some (s', o) ∧ Spec u c u' o ∧ R s' t' ∧ Rel t' u' := by
  have move : ∀ (i : Nat) (x : OMap.Call Shown) (y : Option Pair), (∀ j, x ≠ .iterPrevious j) → (OMap.step lt fw t x).1 = t.setIter (i + 1) (y.map ser) →
      (∀ p, y = some p → Small p) → ∃ s', db s x = some (s', (OMap.step lt fw t x).2) ∧ R s' (t.setIter (i + 1) (y.map ser)) ∧
        Rel (t.setIter (i + 1) (y.map ser)) (u.move i y) := by
    intro i x y hx hy hs
    obtain ⟨s', h1, h2⟩ := hd.step hR x hx
    rw [hy] at h2
    exact ⟨s', h1, h2, h.move i y hs⟩
  cases c with
  | check p =>
    obtain ⟨s', h1, h2⟩ := hd.step hR (.process (ser p) false getProc) (by intro i; simp)
    refine ⟨s', .flag (decide (p ∈ u.pairs)), t, u, ?_, ⟨rfl, _, rfl, by simp⟩, ?_, h⟩
    · simp only [call, h1, OMap.step, h.recs, process_get h.small hc, Option.bind_eq_bind, Option.bind_some]
      by_cases hp : p ∈ u.pairs <;> simp [hp]
    · simp only [OMap.step, h.recs, process_get h.small hc, List.append_nil] at h2
      rw [← h.recs] at h2
      exact h2
  | getValues key max =>
    obtain ⟨s', h1, h2⟩ := hd.step hR (.iterJump 0 (ser (key, []))) (by intro i; simp)
    obtain ⟨A, B, e, hA, hB⟩ := split_at (key, []) h.asc
    obtain ⟨s'', t'', e', hR', hrel'⟩ := valuesLoop_ok hd key max fuel s' _ [] B h2 (h.set0 _)
      ⟨A, e, Or.inr ⟨(key, []), hc, by simp [OMap.step, OMap.St.setIter], hA, hB⟩⟩ (by
        have : B.length ≤ u.pairs.length := by rw [e]; simp
        omega)
    refine ⟨s'', _, t'', u, ?_, ⟨rfl, rfl⟩, hR', hrel'⟩
    simp only [call, h1, Option.bind_eq_bind, Option.bind_some, e', List.nil_append]
    rw [List.length_nil, collected_values h.asc key max e hA hB]
  | add p =>
    obtain ⟨s', h1, h2⟩ := hd.step hR (.process (ser p) true setProc) (by intro i; simp)
    refine ⟨s', .done, _, _, by simp [call, h1], ⟨rfl, rfl⟩, h2, ?_⟩
    refine ⟨?_, fun q hq => ?_, added_asc h.asc, h.iters, h.ismall⟩
    · simp only [OMap.step, h.recs]
      exact process_set h.small hc
    · rcases added_mem.1 hq with hq | rfl
      · exact h.small q hq
      · exact hc
  | remove p =>
    obtain ⟨s', h1, h2⟩ := hd.step hR (.process (ser p) true removeProc) (by intro i; simp)
    refine ⟨s', .done, _, _, by simp [call, h1], ⟨rfl, rfl⟩, h2, ?_⟩
    refine ⟨?_, mem_filter_small h.small, filter_asc h.asc, h.iters, h.ismall⟩
    simp only [OMap.step, h.recs]
    exact process_remove h.small hc
  | count =>
    obtain ⟨s', h1, h2⟩ := hd.step hR .count (by intro i; simp)
    exact ⟨s', _, t, u, by simp [call, h1, OMap.step, h.recs]; rfl, ⟨rfl, by simp⟩, h2, h⟩
  | clear =>
    obtain ⟨s', h1, h2⟩ := hd.step hR .clear (by intro i; simp)
    exact ⟨s', .done, _, S.empty, by simp [call, h1], ⟨rfl, rfl⟩, h2, ⟨rfl, by simp [S.empty], List.Pairwise.nil, fun _ => rfl, by simp [S.empty]⟩⟩
  | first i =>
    obtain ⟨s', h1, h2, h3⟩ := move i (.iterFirst (i + 1)) u.pairs.head? (by intro j; simp)
      (by simp only [OMap.step, h.recs, List.head?_map, Option.map_map]; rfl) (fun p hp => h.small p (List.mem_of_head? hp))
    exact ⟨s', .done, _, _, by simp [call, h1], ⟨rfl, rfl⟩, h2, h3⟩
  | last i =>
    obtain ⟨s', h1, h2, h3⟩ := move i (.iterLast (i + 1)) u.pairs.getLast? (by intro j; simp)
      (by simp only [OMap.step, h.recs, List.getLast?_map, Option.map_map]; rfl) (fun p hp => h.small p (List.mem_of_getLast? hp))
    exact ⟨s', .done, _, _, by simp [call, h1], ⟨rfl, rfl⟩, h2, h3⟩
  | jump i p =>
    obtain ⟨s', h1, h2, h3⟩ := move i (.iterJump (i + 1) (ser p)) (some p) (by intro j; simp) rfl (fun q hq => by cases hq; exact hc)
    exact ⟨s', .done, _, _, by simp [call, h1], ⟨rfl, rfl⟩, h2, h3⟩
  | next i =>
    obtain ⟨s', h1, h2, h3⟩ := move i (.iterNext (i + 1)) _ (by intro j; simp) (next_rec h fw (i + 1) (u.iters i) (h.iters i) (h.ismall i))
      (fun p hp => by
        obtain ⟨q, -, hq⟩ := Option.bind_eq_some_iff.1 hp
        exact h.small p (after_mem hq).1)
    exact ⟨s', .done, _, _, by simp [call, h1], ⟨rfl, rfl⟩, h2, h3⟩
  | previous i =>
    obtain ⟨s', o, t', h1, h2, h3⟩ := hd s t (.iterPrevious (i + 1)) hR
    have key : ∃ y : Option Pair, t' = t.setIter (i + 1) (y.map ser) ∧ (∀ p, u.iters i = some p → p ∈ u.pairs → y = before pairLt p u.pairs) ∧
        ∀ q, y = some q → q ∈ u.pairs ∧ ∃ p, u.iters i = some p ∧ pairLt q p = true := by
      rcases h2 with h2 | ⟨j, hj, -, x, hx, y, ht', hy1, hy2⟩
      · cases hi : u.iters i with
        | none =>
          refine ⟨none, ?_, by simp, by simp⟩
          have hn : t.iters (i + 1) = none := by rw [h.iters, hi]; rfl
          simp only [OMap.step, hn, Prod.mk.injEq] at h2
          rw [h2.1]
          unfold OMap.St.setIter
          cases t
          simp only [OMap.St.mk.injEq, true_and, and_true]
          funext j
          by_cases hj : j = i + 1
          · subst hj; simpa using hn
          · simp [hj]
        | some p =>
          have hp := h.ismall i p hi
          have hn : t.iters (i + 1) = some (ser p) := by rw [h.iters, hi]; rfl
          simp only [OMap.step, hn, Prod.mk.injEq, h.recs, lesser_rec h.small hp, Option.map_map] at h2
          refine ⟨before pairLt p u.pairs, h2.1, fun q hq _ => by cases hq; rfl, fun q hq => ?_⟩
          have := before_mem hq
          exact ⟨this.1, p, rfl, this.2⟩
      · cases hj
        rw [h.iters] at hx
        obtain ⟨p, hp, rfl⟩ := Option.map_eq_some_iff.1 hx
        have hps := h.ismall i p hp
        rw [h.recs, get_rec h.small hps, lesser_rec h.small hps] at hy1
        cases y with
        | none =>
          refine ⟨none, ht', fun q hq hm => ?_, by simp⟩
          rw [hp] at hq
          cases hq
          have := hy1 (by rw [if_pos hm]; rfl)
          cases hb : before pairLt p u.pairs with
          | none => rfl
          | some q => rw [hb] at this; cases this
        | some z =>
          obtain ⟨r, hr, rfl, hlt⟩ := hy2 z rfl
          rw [h.recs] at hr
          obtain ⟨q, hq, rfl⟩ := List.mem_map.1 hr
          have hqs := h.small q hq
          refine ⟨some q, ht', fun q' hq' hm => ?_, fun q' hq' => ?_⟩
          · rw [hp] at hq'
            cases hq'
            have := hy1 (by rw [if_pos hm]; rfl)
            cases hb : before pairLt p u.pairs with
            | none => rw [hb] at this; cases this
            | some q' =>
              rw [hb] at this
              simp only [Option.map_some, toRec, Option.some.injEq] at this
              rw [ser_inj hqs (h.small q' (before_mem hb).1) this]
          · cases hq'
            refine ⟨hq, p, hp, ?_⟩
            rw [← recLt_ser hqs hps]
            exact hlt
    obtain ⟨y, rfl, hy1, hy2⟩ := key
    exact ⟨s', .done, _, u.move i y, by simp [call, h1], ⟨⟨y, rfl, hy1, hy2⟩, rfl⟩, h3, h.move i y fun p hp => h.small p (hy2 p hp).1⟩
  | get i =>
    have hl := look_rec h fw (i + 1) (u.iters i) (h.iters i) (h.ismall i)
    obtain ⟨s', h1, h2, h3⟩ := move i (.iterProcess (i + 1) false getProc) _ (by intro j; simp) (congrArg Prod.fst hl)
      (fun p hp => by
        obtain ⟨q, -, hq⟩ := Option.bind_eq_some_iff.1 hp
        exact h.small p (notLess_mem hq).1)
    refine ⟨s', _, _, _, ?_, ⟨rfl, rfl⟩, h2, h3⟩
    simp only [call, h1, hl, Option.bind_eq_bind, Option.bind_some]
    cases hb : (u.iters i).bind fun p => notLess pairLt p u.pairs with
    | none => rfl
    | some q =>
      obtain ⟨p, -, hq⟩ := Option.bind_eq_some_iff.1 hb
      simp only [Option.map_some, pairOf, toRec, keyOf_ser (h.small q (notLess_mem hq).1), Option.bind_some]

theorem Spec.length {u u' : S Bytes Bytes} {c : Call Bytes Bytes} {o : Out Bytes Bytes} (h : Spec u c u' o) : u'.pairs.length ≤ u.pairs.length + 1 := by
  cases c with
  | add p =>
    rw [h.1]
    have e : (added pairLt p u.pairs).length = (u.pairs.filter (pairLt · p)).length + ((u.pairs.filter (pairLt p ·)).length + 1) := by simp [added]
    show (added pairLt p u.pairs).length ≤ _
    rw [e]
    have : (u.pairs.filter (pairLt · p)).length + (u.pairs.filter (pairLt p ·)).length ≤ u.pairs.length := by
      have key : ∀ l : List Pair, (l.filter (pairLt · p)).length + (l.filter (pairLt p ·)).length ≤ l.length := by
        intro l
        induction l with
        | nil => simp
        | cons q l ih =>
          simp only [List.filter_cons]
          cases h1 : pairLt q p with
          | true => simp [pairLt_weak.asymm h1]; omega
          | false => cases h2 : pairLt p q <;> simp <;> omega
      exact key _
    omega
  | remove p =>
    rw [h.1]
    have : (u.pairs.filter (· ≠ p)).length ≤ u.pairs.length := List.length_filter_le ..
    show (u.pairs.filter (· ≠ p)).length ≤ _
    omega
  | clear => rw [h.1]; simp [S.empty]
  | previous i =>
    obtain ⟨⟨y, rfl, -⟩, -⟩ := h
    simp [S.move]
  | _ => rw [h.1]; simp [S.move]

theorem calls_ok {σ : Type} {db : Db σ} {fw : Bool} {R : σ → OMap.St → Prop} (hd : Refines db fw R) {fuel : Nat} : ∀ (l : List (Call Bytes Bytes)) {s : σ} {t : OMap.St} {u : S Bytes Bytes}, R s t → Rel t u →
    (∀ c ∈ l, c.Small) → u.pairs.length + l.length < fuel →
    ∃ s' os t' u', calls db fuel s l = some (s', os) ∧ SpecRun u l u' os ∧ R s' t' ∧ Rel t' u'
  | [], s, t, u, hR, h, _, _ => ⟨s, [], t, u, rfl, ⟨rfl, rfl⟩, hR, h⟩
  | c :: l, s, t, u, hR, h, hc, hf => by
    simp only [List.length_cons] at hf
    obtain ⟨s1, o, t1, u1, h1, h2, h3, h4⟩ := call_ok (fuel := fuel) hd hR h c (hc c (by simp)) (by omega)
    have := h2.length
    obtain ⟨s', os, t', u', h5, h6, h7, h8⟩ := calls_ok (fuel := fuel) hd l h3 h4 (fun x hx => hc x (by simp [hx])) (by omega)
    exact ⟨s', o :: os, t', u', by simp [calls, h1, h5], ⟨u1, o, os, h2, h6, rfl⟩, h7, h8⟩

end Verif.Index
