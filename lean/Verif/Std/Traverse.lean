import Verif.Std.EachProps
/-
C10 for the iterators of StdTreeDBM and StdHashDBM: a traversal interleaved with arbitrary calls on the database and on
other iterators.
-/
namespace Verif.Std

/-- SPECIFICATION: the keys iterator `i` passes in an event: by `Next`, or by a `Process` of its own that removes the
record. -/
def passed (s : State) (i : Nat) : Ev → List Bytes
  | .next j => if j = i then (s.at i).toList else []
  | .iproc j w p =>
    if j = i then
      match s.at i with
      | some k => match view s k with
        | some v => if w = true ∧ (p k v).1 = .remove then [k] else []
        | none => []
      | none => []
    else []
  | _ => []

/-- SPECIFICATION: the keys passed along a sequence of events. -/
def passedAll (K : Kind) (i : Nat) : State → List Ev → List Bytes
  | _, [] => []
  | s, ev :: evs => passed s i ev ++ passedAll K i (evStep K s ev) evs

/-- SPECIFICATION: the event neither repositions iterator `i` nor replaces the whole contents. (`ProcessMulti` is the same
as the sequence of its `Process` calls, which are allowed.) -/
def Gentle (i : Nat) : Ev → Prop
  | .db .clear => False
  | .db (.rebuild _) => False
  | .multi _ _ _ => False
  | .free j => j ≠ i
  | .first j => j ≠ i
  | .last j => j ≠ i
  | .jump j _ => j ≠ i
  | .jumpLower j _ _ => j ≠ i
  | .jumpUpper j _ _ => j ≠ i
  | .previous j => j ≠ i
  | _ => True

/-- SPECIFICATION: the record of the key exists before, between and after the events. -/
def Throughout (K : Kind) (k : Bytes) : State → List Ev → Prop
  | s, [] => (view s k).isSome
  | s, ev :: evs => (view s k).isSome ∧ Throughout K k (evStep K s ev) evs

/-- The state of a traversal: the keys before the position were passed once, those from it on not yet. -/
structure Going (K : Kind) (i : Nat) (S : Bytes → Prop) (s : State) (em : List Bytes) : Prop where
  split : ∃ a b, keys s.map = a ++ b ∧ s.at i = b.head? ∧
    ∀ k, S k → (k ∈ a ∧ em.count k = 1) ∨ (k ∈ b ∧ em.count k = 0)
  asc : K = .tree → em.Pairwise (· < ·) ∧ ∀ x ∈ em, ∀ k, s.at i = some k → x < k

theorem keys_begin (b : List (Bytes × Bytes)) : begin b = (keys b).head? := by cases b <;> rfl

theorem Going.same {K : Kind} {i : Nat} {S : Bytes → Prop} {s s' : State} {em : List Bytes} (g : Going K i S s em)
    (hm : keys s'.map = keys s.map) (ha : s'.at i = s.at i) : Going K i S s' em := by
  obtain ⟨⟨a, b, h1, h2, h3⟩, h4⟩ := g
  exact ⟨⟨a, b, by rw [hm, h1], by rw [ha, h2], h3⟩, by rw [ha]; exact h4⟩

theorem Going.full {K : Kind} {i : Nat} {S : Bytes → Prop} {s : State} {em : List Bytes} (g : Going K i S s em) (hi : Inv K s)
    {x v : Bytes} (h : lookup x s.map = some v) (ac : Action) (hS : ∀ k, S k → (view (s.actFull x ac) k).isSome) :
    Going K i S (s.actFull x ac) em := by
  obtain ⟨c, d, e, hc, hd⟩ := hi.cut h
  have hat := actFull_at hi e hc ac i
  cases ac with
  | noop => exact g
  | set v' =>
    refine g.same ?_ (at_congr rfl i)
    rw [State.actFull, assignAt_eq e hc, e]; exact keys_mid
  | remove =>
    have hx : ¬ S x := by
      intro hx
      have := hS x hx
      rw [(actFull_spec hi h .remove).2] at this
      simp [Dict.act, Dict.upd] at this
    have hk' : keys (s.actFull x .remove).map = keys c ++ keys d := by
      rw [State.actFull, removeAt_eq hi e hc]; exact keys_append _ _
    obtain ⟨⟨a, b, h1, h2, h3⟩, h4⟩ := g
    have hnd := hi.nodup
    rw [h1, List.nodup_append] at hnd
    have h1' : a ++ b = keys c ++ x :: keys d := by rw [← h1, e, keys_append]; rfl
    simp only [true_and] at hat
    -- the new position is not before the old one
    have hpos : K = .tree → ∀ y k, s.at i = some y → (s.actFull x .remove).at i = some k → ¬ k < y := by
      intro hK y k hy hk hlt
      subst hK
      rw [hat] at hk
      split at hk
      · rename_i hxi
        rw [hy] at hxi; cases hxi
        have hs := tree_sorted hi
        rw [e, keys_append, List.pairwise_append] at hs
        simp only [keys, List.map_cons, List.pairwise_cons] at hs
        exact absurd (List.lt_trans (hs.2.1.1 k (begin_mem hk)) hlt) (List.lt_irrefl _)
      · rw [hy] at hk; cases hk; exact absurd hlt (List.lt_irrefl _)
    refine ⟨?_, fun hK => ⟨(h4 hK).1, fun y hy k hk => ?_⟩⟩
    · rcases List.append_eq_append_iff.1 h1' with ⟨a', e1, e2⟩ | ⟨c', e1, e2⟩
      · -- the position is not after the removed record
        cases a' with
        | nil =>
          rw [List.nil_append] at e2; rw [List.append_nil] at e1
          refine ⟨a, keys d, by rw [hk', e1], ?_, ?_⟩
          · rw [hat, if_pos (by rw [h2, e2]; rfl), keys_begin]
          · intro k hk
            rcases h3 k hk with h | ⟨h, h'⟩
            · exact .inl h
            · rw [e2] at h
              rcases List.mem_cons.1 h with h | h
              · subst h; exact absurd hk hx
              · exact .inr ⟨h, h'⟩
        | cons y a'' =>
          rw [List.cons_append] at e2
          refine ⟨a, y :: a'' ++ keys d, by rw [hk', e1]; simp, ?_, ?_⟩
          · rw [hat, if_neg, h2, e2]
            · rfl
            · rw [h2, e2]
              simp only [List.head?_cons, Option.some.injEq]
              rintro rfl
              exact hc (by rw [e1]; simp)
          · intro k hk
            rcases h3 k hk with h | ⟨h, h'⟩
            · exact .inl h
            · refine .inr ⟨?_, h'⟩
              rw [e2] at h
              simp only [List.cons_append, List.mem_cons, List.mem_append] at h ⊢
              rcases h with h | h | h | h
              · exact .inl h
              · exact .inr (.inl h)
              · subst h; exact absurd hk hx
              · exact .inr (.inr h)
      · cases c' with
        | nil =>
          rw [List.nil_append] at e2; rw [List.append_nil] at e1
          refine ⟨a, keys d, by rw [hk', e1], ?_, ?_⟩
          · rw [hat, if_pos (by rw [h2, ← e2]; rfl), keys_begin]
          · intro k hk
            rcases h3 k hk with h | ⟨h, h'⟩
            · exact .inl h
            · rw [← e2] at h
              rcases List.mem_cons.1 h with h | h
              · subst h; exact absurd hk hx
              · exact .inr ⟨h, h'⟩
        | cons y c'' =>
          rw [List.cons_append] at e2
          injection e2 with e3 e4
          subst e3
          refine ⟨keys c ++ c'', b, by rw [hk', e4]; simp, ?_, ?_⟩
          · rw [hat, if_neg, h2]
            rw [h2]
            intro hb
            have hm : x ∈ b := List.mem_of_head? hb
            exact hnd.2.2 x (by rw [e1]; simp) x hm rfl
          · intro k hk
            rcases h3 k hk with ⟨h, h'⟩ | h
            · refine .inl ⟨?_, h'⟩
              rw [e1] at h
              simp only [List.mem_append, List.mem_cons] at h ⊢
              rcases h with h | h | h
              · exact .inl h
              · subst h; exact absurd hk hx
              · exact .inr h
            · exact .inr h
    · cases hq : s.at i with
      | none => rw [hat, hq] at hk; simp at hk
      | some q =>
        have h5 := (h4 hK).2 y hy q hq
        have h6 := hpos hK q k hq hk
        rcases bytes_trichotomy y k with h | h | h
        · exact h
        · subst h; exact absurd h5 h6
        · exact absurd (List.lt_trans h h5) h6

theorem Going.empty {K : Kind} {i : Nat} {S : Bytes → Prop} {s : State} {em : List Bytes} (g : Going K i S s em)
    {x : Bytes} (h : lookup x s.map = none) (ac : Action) : Going K i S (s.actEmpty K x ac) em := by
  cases ac with
  | noop => exact g
  | remove => exact g
  | set v =>
    obtain ⟨p, q, e, e2⟩ := emplace_split K (v := v) h
    obtain ⟨⟨a, b, h1, h2, h3⟩, h4⟩ := g
    have hat : (s.actEmpty K x (.set v)).at i = s.at i := at_congr rfl i
    have hk : keys (s.actEmpty K x (.set v)).map = keys p ++ x :: keys q := by
      simp only [State.actEmpty, e2]; rw [keys_append]; rfl
    refine ⟨?_, by rw [hat]; exact h4⟩
    rw [e, keys_append] at h1
    rcases List.append_eq_append_iff.1 h1 with ⟨a', e1, e3⟩ | ⟨p', e1, e3⟩
    · refine ⟨keys p ++ x :: a', b, by rw [hk, e3]; simp, by rw [hat, h2], ?_⟩
      intro k hk
      rcases h3 k hk with ⟨h, h'⟩ | h
      · refine .inl ⟨?_, h'⟩
        rw [e1] at h
        simp only [List.mem_append, List.mem_cons] at h ⊢
        rcases h with h | h
        · exact .inl h
        · exact .inr (.inr h)
      · exact .inr h
    · cases p' with
      | nil =>
        rw [List.nil_append] at e3; rw [List.append_nil] at e1
        refine ⟨a ++ [x], keys q, by rw [hk, e1]; simp, by rw [hat, h2, e3], ?_⟩
        intro k hk
        rcases h3 k hk with ⟨h, h'⟩ | h
        · exact .inl ⟨by simp [h], h'⟩
        · rw [e3] at h; exact .inr h
      | cons y p'' =>
        refine ⟨a, y :: p'' ++ x :: keys q, by rw [hk, e1]; simp, by rw [hat, h2, e3]; rfl, ?_⟩
        intro k hk
        rcases h3 k hk with h | ⟨h, h'⟩
        · exact .inl h
        · refine .inr ⟨?_, h'⟩
          rw [e3] at h
          simp only [List.cons_append, List.mem_cons, List.mem_append] at h ⊢
          rcases h with h | h | h
          · exact .inl h
          · exact .inr (.inl h)
          · exact .inr (.inr (.inr h))

theorem Going.process {K : Kind} {i : Nat} {S : Bytes → Prop} {s : State} {em : List Bytes} (g : Going K i S s em) (hi : Inv K s)
    {τ : Type} (x : Bytes) (w : Bool) (p : ProcR τ) (hS : ∀ k, S k → (view (s.process K x w p).1 k).isSome) :
    Going K i S (s.process K x w p).1 em := by
  unfold State.process at *
  cases w with
  | false => exact g
  | true =>
    simp only [if_true] at *
    cases h : lookup x s.map with
    | none => exact g.empty h _
    | some v =>
      rw [h] at hS
      exact g.full hi h _ hS

theorem Going.each {K : Kind} {i : Nat} {S : Bytes → Prop} {em : List Bytes} {ρ : Type} (w : Bool)
    (p : Bytes → ρ → Bytes → Action × ρ) (todo : List (Bytes × Bytes)) :
    ∀ (n : Nat) (done : List (Bytes × Bytes)) (s : State) (r : ρ), Going K i S s em → Inv K s → s.map = done ++ todo → todo.length ≤ n →
    (∀ k, S k → (view s k).isSome) → (∀ k, S k → (view (eachLoop w p n (begin todo) s r).1 k).isSome) →
    Going K i S (eachLoop w p n (begin todo) s r).1 em := by
  induction todo with
  | nil => intro n done s r g hi e hn _ _; cases n <;> exact g
  | cons x t ih =>
    obtain ⟨k, v⟩ := x
    intro n done s r g hi e hn hS0 hS
    cases n with
    | zero => simp at hn
    | succ n =>
      have hnd := hi.nodup
      rw [e, keys_append, List.nodup_append] at hnd
      simp only [keys, List.map_cons, List.nodup_cons] at hnd
      have ha : k ∉ keys done := fun hx => hnd.2.2 k hx k (by simp) rfl
      have hkt : k ∉ keys t := hnd.2.1.1
      have hl : lookup k s.map = some v := by rw [e]; exact lookup_at ha
      have hinc : inc k s.map = some (begin t) := by rw [e]; exact inc_split ha
      have hstep : eachLoop w p (n + 1) (begin ((k, v) :: t)) s r =
          eachLoop w p n (begin t) (if w then s.actFull k (p k r v).1 else s) (p k r v).2 := by
        show eachLoop w p (n + 1) (some k) s r = _
        simp only [eachLoop, hl, hinc]
      rw [hstep] at hS ⊢
      obtain ⟨ac, hac⟩ : ∃ ac, ac = if w then (p k r v).1 else .noop := ⟨_, rfl⟩
      have hs1 : (if w then s.actFull k (p k r v).1 else s) = s.actFull k ac := by
        rw [hac]; cases w <;> rfl
      rw [hs1] at hS ⊢
      obtain ⟨hi1, hv1⟩ := actFull_spec hi hl ac
      obtain ⟨done', hm1⟩ : ∃ done', (s.actFull k ac).map = done' ++ t := by
        cases ac with
        | noop => exact ⟨done ++ [(k, v)], by simp [State.actFull, e]⟩
        | remove => exact ⟨done, by rw [State.actFull, removeAt_eq hi e ha]⟩
        | set v' => exact ⟨done ++ [(k, v')], by rw [State.actFull, assignAt_eq e ha]; simp⟩
      have hfin : view (eachLoop w p n (begin t) (s.actFull k ac) (p k r v).2).1 k = view (s.actFull k ac) k := by
        obtain ⟨_, g2, _⟩ := eachLoop_spec w p t n done' (s.actFull k ac) (p k r v).2 hi1 hm1 (by simpa using hn)
        have : view (eachLoop w p n (begin t) (s.actFull k ac) (p k r v).2).1 =
          (Dict.eachFold w p t (view (s.actFull k ac)) (p k r v).2).1 := by rw [← g2]
        rw [this, Dict.eachFold_other _ _ _ _ _ _ hkt]
      have hS1 : ∀ y, S y → (view (s.actFull k ac) y).isSome := by
        intro y hy
        by_cases e : y = k
        · subst e; rw [← hfin]; exact hS y hy
        · rw [hv1, Dict.act_other _ _ e]; exact hS0 y hy
      exact ih n done' _ _ (g.full hi hl ac hS1) hi1 hm1 (by simpa using hn) hS1 hS

theorem Going.pass {K : Kind} {i : Nat} {S : Bytes → Prop} {s s' : State} {em : List Bytes} (g : Going K i S s em) (hi : Inv K s)
    {k v : Bytes} {c d : List (Bytes × Bytes)} (e : s.map = c ++ (k, v) :: d) (hat : s.at i = some k)
    (hat' : s'.at i = begin d) (hm : (keys s'.map = keys s.map) ∨ (keys s'.map = keys c ++ keys d ∧ ¬ S k)) :
    Going K i S s' (em ++ [k]) := by
  obtain ⟨⟨a, b, h1, h2, h3⟩, h4⟩ := g
  rw [hat] at h2
  cases b with
  | nil => cases h2
  | cons y b =>
    cases h2
    have hnd := hi.nodup
    have h1' := h1
    rw [e, keys_append] at h1'
    have hc : a = keys c ∧ b = keys d := by
      rw [h1, List.nodup_append] at hnd
      have hka : k ∉ a := fun hx => hnd.2.2 k hx k (by simp) rfl
      have hnd2 := hi.nodup
      rw [e, keys_append, List.nodup_append] at hnd2
      have hkc : k ∉ keys c := fun hx => hnd2.2.2 k hx k (by simp) rfl
      rcases List.append_eq_append_iff.1 h1'.symm with ⟨a', e1, e3⟩ | ⟨p', e1, e3⟩
      · cases a' with
        | nil => rw [List.append_nil] at e1; rw [List.nil_append] at e3; injection e3 with _ e5; exact ⟨e1.symm, e5⟩
        | cons z a' => injection e3 with e4 _; subst e4; exact absurd (by rw [e1]; simp) hkc
      · cases p' with
        | nil => rw [List.append_nil] at e1; rw [List.nil_append] at e3; injection e3 with _ e5; exact ⟨e1, e5.symm⟩
        | cons z p' => injection e3 with e4 _; subst e4; exact absurd (by rw [e1]; simp) hka
    obtain ⟨ha, hb⟩ := hc
    have hnd' := hnd
    rw [h1, List.nodup_append] at hnd'
    simp only [List.nodup_cons] at hnd'
    have count_ne : ∀ y, y ≠ k → (em ++ [k]).count y = em.count y := by
      intro y hy; rw [List.count_append, List.count_cons_of_ne (Ne.symm hy)]; simp
    refine ⟨?_, fun hK => ?_⟩
    · rcases hm with hm | ⟨hm, hSk⟩
      · refine ⟨a ++ [k], b, by rw [hm, h1]; simp, by rw [hat', keys_begin, hb], ?_⟩
        intro y hy
        by_cases hyk : y = k
        · subst hyk
          rcases h3 y hy with ⟨h, _⟩ | ⟨_, h⟩
          · exact absurd rfl (hnd'.2.2 y h y (by simp))
          · left; refine ⟨by simp, ?_⟩; rw [List.count_append, h]; simp
        · rw [count_ne y hyk]
          rcases h3 y hy with ⟨h, h'⟩ | ⟨h, h'⟩
          · exact .inl ⟨by simp [h], h'⟩
          · exact .inr ⟨by simpa [hyk] using h, h'⟩
      · refine ⟨a, b, by rw [hm, ha, hb], by rw [hat', keys_begin, hb], ?_⟩
        intro y hy
        have hyk : y ≠ k := fun e => hSk (by rw [← e]; exact hy)
        rw [count_ne y hyk]
        rcases h3 y hy with ⟨h, h'⟩ | ⟨h, h'⟩
        · exact .inl ⟨h, h'⟩
        · exact .inr ⟨by simpa [hyk] using h, h'⟩
    · obtain ⟨h5, h6⟩ := h4 hK
      subst hK
      have hs := tree_sorted hi
      rw [e, keys_append, List.pairwise_append] at hs
      simp only [keys, List.map_cons, List.pairwise_cons] at hs
      refine ⟨?_, ?_⟩
      · rw [List.pairwise_append]
        refine ⟨h5, by simp, ?_⟩
        intro x hx y hy
        simp only [List.mem_singleton] at hy
        subst hy
        exact h6 x hx y hat
      · intro x hx y hy
        rw [hat'] at hy
        have hky : k < y := hs.2.1.1 y (begin_mem hy)
        rcases List.mem_append.1 hx with hx | hx
        · exact List.lt_trans (h6 x hx k hat) hky
        · simp only [List.mem_singleton] at hx; subst hx; exact hky

theorem move_keys (s : State) (j : Nat) (q : Pos) : (s.move j q).map = s.map := rfl

theorem moveOpt_keys (s : State) (j : Nat) (q : Option Pos) : (s.moveOpt j q).map = s.map := by cases q <;> rfl

theorem at_moveOpt_ne {s : State} {i j : Nat} (h : i ≠ j) (q : Option Pos) : (s.moveOpt j q).at i = s.at i := by
  cases q with
  | none => exact at_congr rfl i
  | some q => exact at_move_ne h q

theorem at_has {s : State} {i : Nat} {k : Bytes} (h : s.at i = some k) : s.has i :=
  List.mem_map.2 ⟨_, at_mem h, rfl⟩

theorem Going.iproc {K : Kind} {i : Nat} {S : Bytes → Prop} {s : State} {em : List Bytes} (g : Going K i S s em) (hi : Inv K s)
    (j : Nat) (w : Bool) (p : Bytes → Bytes → Action × Unit) (hS : ∀ k, S k → (view (s.iterProcess j w p).1 k).isSome) :
    Going K i S (s.iterProcess j w p).1 (em ++ passed s i (.iproc j w p)) := by
  obtain ⟨_, h2, h3⟩ := iterProcess_spec hi j w p
  cases hatj : s.at j with
  | none =>
    rw [h2 hatj]
    have : passed s i (.iproc j w p) = [] := by
      simp only [passed]; split
      · rename_i e; subst e; rw [hatj]
      · rfl
    rw [this, List.append_nil]; exact g
  | some k =>
    obtain ⟨v, hv⟩ := hi.at_lookup hatj
    have hv' : view s k = some v := hv
    obtain ⟨c, d, e, hc, hd⟩ := hi.cut hv
    by_cases hrem : w = true ∧ (p k v).1 = .remove
    · obtain ⟨rfl, hp⟩ := hrem
      have hnS : ¬ S k := by
        intro hk
        have := hS k hk
        rw [(h3 k v hatj hv').1, if_pos rfl, hp] at this
        simp [Dict.act, Dict.upd] at this
      obtain ⟨a, v1, b, e1, e2, hpos⟩ := C14_iter_removes hi j k p hatj (by intro v2 h2; rw [hv'] at h2; cases h2; exact hp)
      have hcd : c = a ∧ d = b := by
        have hka : k ∉ keys a := by
          have := hi.nodup
          rw [e1, keys_append, List.nodup_append] at this
          exact fun hx => this.2.2 k hx k (by simp) rfl
        have e3 : c ++ (k, v) :: d = a ++ (k, v1) :: b := by rw [← e, e1]
        have x1 := erase_split (k := k) (v := v) (b := d) hc
        rcases List.append_eq_append_iff.1 e3 with ⟨a', e4, e5⟩ | ⟨p', e4, e5⟩
        · cases a' with
          | nil => rw [List.append_nil] at e4; rw [List.nil_append] at e5; injection e5 with _ e6; exact ⟨e4.symm, e6⟩
          | cons z a' => injection e5 with e6 _; exact absurd (by rw [e4, ← e6]; simp) hka
        · cases p' with
          | nil => rw [List.append_nil] at e4; rw [List.nil_append] at e5; injection e5 with _ e6; exact ⟨e4, e6.symm⟩
          | cons z p' => injection e5 with e6 _; exact absurd (by rw [e4, ← e6]; simp) hc
      by_cases hj : j = i
      · subst hj
        have hpass : passed s j (.iproc j true p) = [k] := by simp [passed, hatj, hv', hp]
        rw [hpass]
        refine g.pass hi e hatj ?_ (.inr ⟨?_, hnS⟩)
        · rw [hpos j, if_pos hatj, hcd.2]; rfl
        · rw [e2, keys_append, hcd.1, hcd.2]
      · have hpass : passed s i (.iproc j true p) = [] := by simp [passed, hj]
        rw [hpass, List.append_nil]
        have gf := g.full hi hv .remove (by
          intro y hy
          have := hS y hy
          rw [(h3 k v hatj hv').1, if_pos rfl, hp] at this
          rw [(actFull_spec hi hv .remove).2]; exact this)
        refine gf.same ?_ ?_
        · rw [e2, State.actFull, removeAt_eq hi e hc, hcd.1, hcd.2]
        · rw [hpos i, actFull_at hi e hc, hcd.2]; simp [begin]
    · have hpass : passed s i (.iproc j w p) = [] := by
        simp only [passed]
        split
        · rename_i e; subst e; rw [hatj]; simp only [hv', hrem, if_false]
        · rfl
      rw [hpass, List.append_nil]
      have hst : (s.iterProcess j w p).1 = s ∨ ∃ v', (s.iterProcess j w p).1 = s.actFull k (.set v') := by
        simp only [State.iterProcess, hatj, hv]
        cases w with
        | false => exact .inl rfl
        | true =>
          simp only [if_true, true_and] at hrem ⊢
          cases hp : (p k v).1 with
          | noop => exact .inl rfl
          | remove => exact absurd hp hrem
          | set v' => exact .inr ⟨v', rfl⟩
      rcases hst with hst | ⟨v', hst⟩
      · rw [hst]; exact g
      · rw [hst] at hS ⊢; exact g.full hi hv _ hS

theorem Going.ev {K : Kind} {i : Nat} {S : Bytes → Prop} {s : State} {em : List Bytes} (g : Going K i S s em)
    (hi : Inv K s) (ev : Ev) (hg : Gentle i ev) (hS0 : ∀ k, S k → (view s k).isSome)
    (hS : ∀ k, S k → (view (evStep K s ev) k).isSome) : Going K i S (evStep K s ev) (em ++ passed s i ev) := by
  have noPass : passed s i ev = [] → Going K i S (evStep K s ev) em → Going K i S (evStep K s ev) (em ++ passed s i ev) := by
    intro h g'; rw [h, List.append_nil]; exact g'
  cases ev with
  | db op =>
    refine noPass rfl ?_
    cases op with
    | get k => exact g.process hi k false Api.getProc hS
    | set k v ow => exact g.process hi k true (Api.setProc v ow) hS
    | remove k => exact g.process hi k true Api.removeProc hS
    | append k v d => exact g.process hi k true (Api.appendProc v d) hS
    | process k w p => exact g.process hi k w p hS
    | clear => exact absurd hg id
    | rebuild n => exact absurd hg id
  | multi l w r => exact absurd hg id
  | firstRec w p =>
    refine noPass rfl ?_
    simp only [evStep] at hS ⊢
    unfold State.processFirst at *
    cases hm : s.map with
    | nil => exact g
    | cons x m =>
      obtain ⟨k, v⟩ := x
      rw [hm] at hS
      simp only at hS ⊢
      have hl : lookup k s.map = some v := by rw [hm]; simp [lookup]
      cases w with
      | false => exact g
      | true => exact g.full hi hl _ hS
  | each w p =>
    refine noPass rfl ?_
    exact Going.each w p s.map s.map.length [] s (id 0) g hi rfl (Nat.le_refl _) hS0 hS
  | make j =>
    refine noPass rfl ?_
    simp only [evStep]
    split
    · exact g
    · rename_i hj
      refine g.same rfl ?_
      unfold State.at State.makeIter
      simp only [List.find?_append]
      cases h : s.iters.find? (fun x => x.1 = i) with
      | none =>
        by_cases e : j = i
        · simp [e]
        · simp [e]
      | some x => simp
  | free j =>
    refine noPass rfl (g.same rfl ?_)
    unfold evStep State.at State.freeIter
    simp only [List.find?_filter]
    congr 3
    funext x
    by_cases e : x.1 = i
    · simp [e, Ne.symm (show j ≠ i from hg)]
    · simp [e]
  | first j => exact noPass rfl (g.same rfl (at_move_ne (Ne.symm hg) _))
  | last j =>
    refine noPass rfl ?_
    simp only [evStep, State.last]
    cases K with
    | hash _ _ => exact g
    | tree =>
      simp only
      split
      · exact g.same rfl (at_move_ne (Ne.symm hg) _)
      · exact g.same (by rw [moveOpt_keys]) (at_moveOpt_ne (Ne.symm hg) _)
  | jump j k =>
    refine noPass rfl ?_
    simp only [evStep, State.jump]
    cases K with
    | hash _ _ =>
      simp only
      split
      · exact g.same rfl (at_move_ne (Ne.symm hg) _)
      · exact g.same rfl (at_move_ne (Ne.symm hg) _)
    | tree => exact g.same rfl (at_move_ne (Ne.symm hg) _)
  | jumpLower j k b =>
    refine noPass rfl ?_
    simp only [evStep, State.jumpLower]
    cases K with
    | hash _ _ => exact g
    | tree => exact g.same (by rw [moveOpt_keys]) (at_moveOpt_ne (Ne.symm hg) _)
  | jumpUpper j k b =>
    refine noPass rfl ?_
    simp only [evStep, State.jumpUpper]
    cases K with
    | hash _ _ => exact g
    | tree => exact g.same rfl (at_move_ne (Ne.symm hg) _)
  | previous j =>
    refine noPass rfl ?_
    simp only [evStep, State.previous]
    cases K with
    | hash _ _ => exact g
    | tree =>
      simp only
      split
      · exact g
      · simp only
        split
        · exact g.same rfl (at_move_ne (Ne.symm hg) _)
        · exact g.same (by rw [moveOpt_keys]) (at_moveOpt_ne (Ne.symm hg) _)
  | next j =>
    by_cases hj : j = i
    · subst hj
      simp only [evStep, passed, if_true]
      cases hat : s.at j with
      | none => simp only [State.next, hat, Option.toList_none, List.append_nil]; exact g
      | some k =>
        obtain ⟨v, hv⟩ := hi.at_lookup hat
        obtain ⟨c, d, e, hc, hd⟩ := hi.cut hv
        obtain ⟨_, h6, h7⟩ := (C14_first_next hi (at_has hat)).2.2.2 c k v d e hat
        exact g.pass hi e hat h6 (.inl (by rw [h7]))
    · refine noPass (by simp [passed, hj]) ?_
      simp only [evStep, State.next]
      split
      · exact g
      · exact g.same (by rw [moveOpt_keys]) (at_moveOpt_ne (Ne.symm hj) _)
  | iproc j w p => exact g.iproc hi j w p hS

theorem Going.evs {K : Kind} (hK : K.Ok) {i : Nat} {S : Bytes → Prop} (evs : List Ev) : ∀ (s : State) (em : List Bytes),
    Going K i S s em → Inv K s → (∀ ev ∈ evs, Gentle i ev) → (∀ k, S k → Throughout K k s evs) →
    Going K i S (evRun K s evs) (em ++ passedAll K i s evs) := by
  induction evs with
  | nil => intro s em g _ _ _; simp only [passedAll, List.append_nil]; exact g
  | cons ev evs ih =>
    intro s em g hi hg hS
    have h1 : ∀ k, S k → (view (evStep K s ev) k).isSome := by
      intro k hk
      have := (hS k hk).2
      cases evs with
      | nil => exact this
      | cons _ _ => exact this.1
    have g' := g.ev hi ev (hg ev (by simp)) (fun k hk => (hS k hk).1) h1
    have := ih (evStep K s ev) _ g' (evStep_inv hK hi ev) (fun e he => hg e (by simp [he])) (fun k hk => (hS k hk).2)
    simp only [passedAll]
    rw [← List.append_assoc]
    exact this

/-- C10 for StdTreeDBM and StdHashDBM: after `First`, however the calls of the iterator are interleaved with updates of
the database and with other iterators, when the iterator reaches the end it has passed every record that existed all the
time exactly once. The keys passed by an iterator of StdTreeDBM are in ascending order. -/
theorem C10_std_iterator {K : Kind} (hK : K.Ok) {s : State} (hi : Inv K s) {i : Nat} (hh : s.has i) (evs : List Ev)
    (hg : ∀ ev ∈ evs, Gentle i ev) (hend : (evRun K (s.first i).1 evs).at i = none) :
    (∀ k, Throughout K k (s.first i).1 evs → (passedAll K i (s.first i).1 evs).count k = 1) ∧
    (K = .tree → (passedAll K i (s.first i).1 evs).Pairwise (· < ·)) := by
  have hi1 : Inv K (s.first i).1 := move_inv hi i (begin_valid _)
  have start : Going K i (fun k => Throughout K k (s.first i).1 evs) (s.first i).1 [] := by
    refine ⟨⟨[], keys s.map, rfl, ?_, ?_⟩, fun _ => ⟨List.Pairwise.nil, by simp⟩⟩
    · show (s.move i (begin s.map)).at i = _
      rw [at_move hh, keys_begin]
    · intro k hk
      right
      have : (view (s.first i).1 k).isSome := by cases evs with
        | nil => exact hk
        | cons _ _ => exact hk.1
      exact ⟨view_isSome.1 this, rfl⟩
  have g := start.evs hK evs _ _ hi1 hg (fun k hk => hk)
  rw [List.nil_append] at g
  refine ⟨fun k hk => ?_, fun hK => (g.asc hK).1⟩
  obtain ⟨a, b, h1, h2, h3⟩ := g.split
  rw [hend] at h2
  cases b with
  | nil =>
    rcases h3 k hk with h | h
    · exact h.2
    · simp at h
  | cons y b => cases h2

/-! ### Examples -/

/-- A hash map that puts new records in front and reverses at a rehash. -/
def sampleHash : Kind := .hash (fun _ _ => 0) List.reverse

theorem sampleHash_ok : sampleHash.Ok := fun m => List.reverse_perm m

/-- Three records and two iterators, both at the second record of the order. -/
def sampleEvs : List Ev :=
  [.db (.set [3] [30] true), .db (.set [1] [10] true), .db (.set [2] [20] true), .make 0, .make 1, .first 0, .next 0, .first 1, .next 1]

/-- In the tree, both iterators are at key 2; removing it by `Remove` moves both to key 3; in the hash map they are at
key 1 and move to key 3. -/
example : (evRun .tree {} sampleEvs).at 0 = some [2] ∧ (evRun .tree {} sampleEvs).at 1 = some [2] ∧
    (evRun .tree {} (sampleEvs ++ [.db (.remove [2])])).at 0 = some [3] ∧
    (evRun .tree {} (sampleEvs ++ [.db (.remove [2])])).at 1 = some [3] ∧
    (evRun sampleHash {} sampleEvs).at 0 = some [1] ∧
    (evRun sampleHash {} (sampleEvs ++ [.iproc 1 true (fun _ _ => (.remove, ()))])).at 0 = some [3] := by decide +kernel

/-- The hypotheses of `C14_process_removes`, `C14_iter_removes`, `C14_first_removes` and `C14_each_iterators` are met there. -/
example : view (evRun .tree {} sampleEvs) [2] = some [20] ∧ (Api.removeProc (some [20])).1 = .remove ∧
    (evRun .tree {} sampleEvs).map = [([1], [10])] ++ ([2], [20]) :: [([3], [30])] ∧
    (evRun .tree {} sampleEvs).iters = [(0, some [2]), (1, some [2])] := by decide +kernel

/-- Jumps on the sample. -/
example : ((evRun .tree {} sampleEvs).jumpLower .tree 0 [2] false).1.at 0 = some [1] ∧
    ((evRun .tree {} sampleEvs).jumpLower .tree 0 [2, 0] true).1.at 0 = some [2] ∧
    ((evRun .tree {} sampleEvs).jumpLower .tree 0 [1] false).1.at 0 = none ∧
    ((evRun .tree {} sampleEvs).jumpUpper .tree 0 [2] false).1.at 0 = some [3] ∧
    ((evRun .tree {} sampleEvs).jump .tree 0 [1, 5]).1.at 0 = some [2] ∧
    ((evRun .tree {} sampleEvs).previous .tree 0).1.at 0 = some [1] ∧
    ((evRun .tree {} sampleEvs).last .tree 0).1.at 0 = some [3] := by decide +kernel

/-- An interleaved traversal from the sample: key 4 is added, key 2 is removed by the other iterator. -/
def sampleTraverse : List Ev :=
  [.next 0, .db (.set [4] [40] true), .iproc 1 true (fun _ _ => (.remove, ())), .next 0, .db (.remove [9]), .next 0, .next 0, .next 0]

example : (∀ ev ∈ sampleTraverse, Gentle 0 ev) ∧
    (evRun .tree ((evRun .tree {} sampleEvs).first 0).1 sampleTraverse).at 0 = none ∧
    passedAll .tree 0 ((evRun .tree {} sampleEvs).first 0).1 sampleTraverse = [[1], [3], [4]] := by
  refine ⟨?_, by decide +kernel, by decide +kernel⟩
  intro ev hev
  simp only [sampleTraverse, List.mem_cons, List.not_mem_nil, or_false] at hev
  rcases hev with rfl | rfl | rfl | rfl | rfl | rfl | rfl | rfl <;> simp [Gentle]

/-- Saving and loading the sample, from tree to hash. -/
example : (Flat.importFile (saved [1] (evRun .tree {} sampleEvs)) (importSet sampleHash) {}).map (fun x => (x.2, x.1.map)) =
    some (.success, [([3], [30]), ([2], [20]), ([1], [10])]) := by decide +kernel

/-- The queue on StdTreeDBM. -/
example : Api.ClockAfter 0 [.push (fun n => 5 + n) [1], .push (fun n => 6 + n) [2], .pop] := by simp [Api.ClockAfter]

end Verif.Std
