import Verif.Std.Props
/-
C14, C10: the moves of the iterators of StdTreeDBM and StdHashDBM, `ProcessEach`, and traversals interleaved with
arbitrary calls.
-/
namespace Verif.Std

/-! ### Moves -/

/-- C14: `First` goes to the first record in the order of iteration, `Next` from a record to the following one. -/
theorem C14_first_next {K : Kind} {s : State} (hi : Inv K s) {i : Nat} (h : s.has i) :
    (s.first i).2 = .success ∧ (s.first i).1.at i = s.map.head?.map (·.1) ∧
    (s.at i = none → s.next i = (s, .notFound)) ∧
    ∀ before k v after, s.map = before ++ (k, v) :: after → s.at i = some k →
      (s.next i).2 = .success ∧ (s.next i).1.at i = after.head?.map (·.1) ∧ (s.next i).1.map = s.map := by
  refine ⟨rfl, at_move h _, ?_, ?_⟩
  · intro hn; simp [State.next, hn]
  · intro a k v b e hk
    have hn := hi.nodup
    rw [e, keys_append, List.nodup_append] at hn
    have ha : k ∉ keys a := fun hx => hn.2.2 k hx k (by simp) rfl
    simp only [State.next, hk, e, inc_split ha, State.moveOpt]
    exact ⟨trivial, at_move h _, e⟩

theorem keys_least {s : State} (hi : Inv .tree s) : Least (fun k => (view s k).isSome) (begin s.map) :=
  least_begin (tree_sorted hi) (List.suffix_refl _) (fun _ h => view_isSome.2 h) (fun _ h => view_isSome.1 h)

/-- C14 for StdTreeDBM: `First` goes to the record with the least key. -/
theorem C14_tree_first {s : State} (hi : Inv .tree s) {i : Nat} (h : s.has i) :
    Least (fun k => (view s k).isSome) ((s.first i).1.at i) := by
  show Least _ ((s.move i _).at i)
  rw [at_move h]; exact keys_least hi

/-- C14 for StdTreeDBM: `Last` goes to the record with the greatest key. -/
theorem C14_tree_last {s : State} (hi : Inv .tree s) {i : Nat} (h : s.has i) :
    Greatest (fun k => (view s k).isSome) ((s.last .tree i).1.at i) ∧ (s.last .tree i).2 = .success ∧
    (s.last .tree i).1.bad = false := by
  have g := greatest_last (P := fun k => (view s k).isSome) (tree_sorted hi) (List.prefix_refl _)
    (fun _ h => view_isSome.2 h) (fun _ h => view_isSome.1 h)
  simp only [State.last]
  split
  · rename_i hb
    rw [begin_none] at hb
    rw [hb] at g
    exact ⟨by rw [at_move h]; exact g, trivial, hi.ok⟩
  · rename_i hb
    rw [begin_none] at hb
    obtain ⟨x, hx⟩ := Option.isSome_iff_exists.1 (List.getLast?_isSome.2 hb)
    simp only [decEnd, hx, Option.map_some, State.moveOpt]
    rw [hx] at g
    exact ⟨by rw [at_move h]; exact g, trivial, hi.ok⟩

theorem suffix_dropWhile {α : Type} (p : α → Bool) (l : List α) : l.dropWhile p <:+ l := List.dropWhile_suffix p

/-- In a sorted list, the records dropped by a monotone test are exactly those that pass it. -/
theorem mem_dropWhile_sorted {l : List (Bytes × Bytes)} (hs : (keys l).Pairwise (· < ·)) (t : Bytes → Bool)
    (hm : ∀ a b, a < b → t b = true → t a = true) (k : Bytes) :
    k ∈ keys (l.dropWhile fun r => t r.1) ↔ k ∈ keys l ∧ t k = false := by
  induction l with
  | nil => simp
  | cons r l ih =>
    simp only [keys, List.map_cons, List.pairwise_cons] at hs
    rw [List.dropWhile_cons]
    split
    · rename_i h
      rw [ih hs.2]
      simp only [keys, List.map_cons, List.mem_cons]
      constructor
      · rintro ⟨h1, h2⟩; exact ⟨.inr h1, h2⟩
      · rintro ⟨h1 | h1, h2⟩
        · rw [h1, h] at h2; cases h2
        · exact ⟨h1, h2⟩
    · rename_i h
      simp only [Bool.not_eq_true] at h
      constructor
      · intro hk
        refine ⟨hk, ?_⟩
        simp only [keys, List.map_cons, List.mem_cons] at hk
        rcases hk with hk | hk
        · rw [hk]; exact h
        · cases hc : t k with
          | false => rfl
          | true => rw [hm _ _ (hs.1 k hk) hc] at h; cases h
      · exact fun h => h.1

theorem lowerBound_least {s : State} (hi : Inv .tree s) (key : Bytes) :
    Least (fun k => (view s k).isSome ∧ ¬ k < key) (lowerBound key s.map) := by
  have hm := mem_dropWhile_sorted (tree_sorted hi) (fun k => bytesLt k key)
    (by intro a b hab hb; simp only [bytesLt, decide_eq_true_eq] at *; exact List.lt_trans hab hb)
  refine least_begin (tree_sorted hi) (suffix_dropWhile _ _) ?_ ?_
  · intro k hk
    have := (hm k).1 hk
    exact ⟨view_isSome.2 this.1, by simpa [bytesLt] using this.2⟩
  · rintro k ⟨h1, h2⟩
    exact (hm k).2 ⟨view_isSome.1 h1, by simpa [bytesLt] using h2⟩

theorem upperBound_least {s : State} (hi : Inv .tree s) (key : Bytes) :
    Least (fun k => (view s k).isSome ∧ key < k) (upperBound key s.map) := by
  have hm := mem_dropWhile_sorted (tree_sorted hi) (fun k => !bytesLt key k)
    (by
      intro a b hab hb
      simp only [bytesLt, Bool.not_eq_true', decide_eq_false_iff_not] at *
      exact fun h => hb (List.lt_trans h hab))
  refine least_begin (tree_sorted hi) (suffix_dropWhile _ _) ?_ ?_
  · intro k hk
    have := (hm k).1 hk
    exact ⟨view_isSome.2 this.1, by simpa [bytesLt] using this.2⟩
  · rintro k ⟨h1, h2⟩
    exact (hm k).2 ⟨view_isSome.1 h1, by simpa [bytesLt] using h2⟩

/-- C14 for StdTreeDBM: `Jump` goes to the least key that is not less than the argument. -/
theorem C14_tree_jump {s : State} (hi : Inv .tree s) {i : Nat} (h : s.has i) (key : Bytes) :
    Least (fun k => (view s k).isSome ∧ ¬ k < key) ((s.jump .tree i key).1.at i) ∧ (s.jump .tree i key).2 = .success := by
  refine ⟨?_, rfl⟩
  show Least _ ((s.move i _).at i)
  rw [at_move h]; exact lowerBound_least hi key

/-- C14 for StdHashDBM: `Jump` goes to the record of the key if there is one, and else to the end with
NOT_FOUND_ERROR. -/
theorem C14_hash_jump {place perm} {s : State} {i : Nat} (h : s.has i) (key : Bytes) :
    (s.jump (.hash place perm) i key).1.at i = (if (view s key).isSome then some key else none) ∧
    (s.jump (.hash place perm) i key).2 = (if (view s key).isSome then .success else .notFound) := by
  show _ = (if (lookup key s.map).isSome then some key else none) ∧ _ = (if (lookup key s.map).isSome then Code.success else .notFound)
  simp only [State.jump]
  split
  · exact ⟨at_move h _, rfl⟩
  · exact ⟨at_move h _, rfl⟩

/-- C14 for StdTreeDBM: `JumpUpper` goes to the least key that is greater than the argument, or equal to it if
inclusive. -/
theorem C14_tree_jump_upper {s : State} (hi : Inv .tree s) {i : Nat} (h : s.has i) (key : Bytes) (inclusive : Bool) :
    Least (fun k => (view s k).isSome ∧ (key < k ∨ (inclusive = true ∧ k = key))) ((s.jumpUpper .tree i key inclusive).1.at i) := by
  show Least _ ((s.move i _).at i)
  rw [at_move h]
  cases inclusive with
  | true =>
    have := lowerBound_least hi key
    have e : (fun k => (view s k).isSome ∧ ¬ k < key) = fun k => (view s k).isSome ∧ (key < k ∨ (true = true ∧ k = key)) := by
      funext k
      have : (¬ k < key) = (key < k ∨ (true = true ∧ k = key)) := by
        apply propext
        constructor
        · intro h
          rcases bytes_trichotomy k key with h' | h' | h'
          · exact absurd h' h
          · exact .inr ⟨rfl, h'⟩
          · exact .inl h'
        · rintro (h | ⟨_, h⟩) hlt
          · exact absurd (List.lt_trans h hlt) (List.lt_irrefl _)
          · rw [h] at hlt; exact absurd hlt (List.lt_irrefl _)
      rw [this]
    rw [e] at this
    exact this
  | false =>
    have := upperBound_least hi key
    have e : (fun k => (view s k).isSome ∧ key < k) = fun k => (view s k).isSome ∧ (key < k ∨ (false = true ∧ k = key)) := by
      funext k; simp
    rw [e] at this
    exact this

/-- The backward loop from the last record of a prefix finds the last record of it that passes the test. -/
theorem lowerLoop_spec {m : List (Bytes × Bytes)} (hn : (keys m).Nodup) (key : Bytes) (inclusive : Bool) :
    ∀ (n : Nat) (a : List (Bytes × Bytes)) (k v : Bytes) (b : List (Bytes × Bytes)), m = a ++ (k, v) :: b → a.length < n →
    lowerLoop m key inclusive n k =
      some ((((a ++ [(k, v)]).filter fun r => lowerOk key inclusive r.1).getLast?).map (·.1)) := by
  intro n
  induction n with
  | zero => intro a k v b _ h; omega
  | succ n ih =>
    intro a k v b e hl
    have hn' := hn
    rw [e, keys_append, List.nodup_append] at hn'
    have ha : k ∉ keys a := fun hx => hn'.2.2 k hx k (by simp) rfl
    simp only [lowerLoop]
    rw [List.filter_append]
    split
    · rename_i h
      simp [h]
    · rename_i h
      have h' : ((([(k, v)] : List (Bytes × Bytes))).filter fun r => lowerOk key inclusive r.1) = [] := by
        simp only [Bool.not_eq_true] at h
        simp [h]
      rw [h', List.append_nil]
      split
      · rename_i hb
        have : a = [] := by
          cases a with
          | nil => rfl
          | cons r a =>
            rw [e] at hb
            simp only [begin, List.cons_append, List.head?_cons, Option.map_some, Option.some.injEq] at hb
            exact absurd (by simp [hb]) ha
        simp [this]
      · rename_i hb
        cases hg : a.getLast? with
        | none =>
          rw [List.getLast?_eq_none_iff] at hg
          rw [e, hg] at hb; simp [begin] at hb
        | some x =>
          obtain ⟨c, rfl⟩ := List.getLast?_eq_some_iff.1 hg
          rw [e, dec_split ha hg]
          simp only
          rw [← e]
          obtain ⟨x1, x2⟩ := x
          simp only [List.length_append, List.length_singleton] at hl
          exact ih c x1 x2 ((k, v) :: b) (by rw [e]; simp) (by omega)

/-- The last record that passes a test is the greatest one, in a sorted list. -/
theorem greatest_filter {l : List (Bytes × Bytes)} (hs : (keys l).Pairwise (· < ·)) (t : Bytes → Bool) :
    Greatest (fun k => k ∈ keys l ∧ t k = true) (((l.filter fun r => t r.1).getLast?).map (·.1)) := by
  refine greatest_last (l := l.filter fun r => t r.1) ?_ (List.prefix_refl _) ?_ ?_
  · exact hs.sublist (List.Sublist.map _ List.filter_sublist)
  · intro k hk
    obtain ⟨r, hr, rfl⟩ := List.mem_map.1 hk
    exact ⟨List.mem_map.2 ⟨r, (List.mem_filter.1 hr).1, rfl⟩, (List.mem_filter.1 hr).2⟩
  · rintro k ⟨h1, h2⟩
    obtain ⟨r, hr, rfl⟩ := List.mem_map.1 h1
    exact List.mem_map.2 ⟨r, List.mem_filter.2 ⟨hr, h2⟩, rfl⟩

theorem jumpLowerPos_spec {s : State} (hi : Inv .tree s) (key : Bytes) (inclusive : Bool) :
    ∃ q, jumpLowerPos s.map key inclusive = some q ∧
      Greatest (fun k => (view s k).isSome ∧ (k < key ∨ (inclusive = true ∧ k = key))) q := by
  have hs := tree_sorted hi
  have test : ∀ k, lowerOk key inclusive k = true ↔ (k < key ∨ (inclusive = true ∧ k = key)) := by
    intro k
    cases inclusive with
    | false => simp [lowerOk, bytesLt]
    | true =>
      simp only [lowerOk, if_true, bytesLt, Bool.not_eq_true', decide_eq_false_iff_not, true_and]
      rcases bytes_trichotomy k key with h | h | h
      · exact ⟨fun _ => .inl h, fun _ h2 => absurd (List.lt_trans h h2) (List.lt_irrefl _)⟩
      · exact ⟨fun _ => .inr h, fun _ => by rw [h]; exact List.lt_irrefl _⟩
      · refine ⟨fun h2 => absurd h h2, ?_⟩
        rintro (h2 | h2)
        · exact absurd (List.lt_trans h h2) (List.lt_irrefl _)
        · rw [h2] at h; exact absurd h (List.lt_irrefl _)
  -- the result of the loop from a record such that everything after it fails the test
  have go : ∀ (a : List (Bytes × Bytes)) (k v : Bytes) (b : List (Bytes × Bytes)), s.map = a ++ (k, v) :: b →
      (∀ k' ∈ keys b, lowerOk key inclusive k' = false) →
      ∃ q, lowerLoop s.map key inclusive s.map.length k = some q ∧
        Greatest (fun k => (view s k).isSome ∧ (k < key ∨ (inclusive = true ∧ k = key))) q := by
    intro a k v b e hb
    refine ⟨_, lowerLoop_spec hi.nodup key inclusive _ a k v b e (by rw [e]; simp), ?_⟩
    have h1 := hs
    rw [show s.map = (a ++ [(k, v)]) ++ b by rw [e]; simp, keys_append] at h1
    have g := greatest_filter (l := a ++ [(k, v)]) (List.pairwise_append.1 h1).1
      (lowerOk key inclusive)
    have e2 : (fun k_1 => k_1 ∈ keys (a ++ [(k, v)]) ∧ lowerOk key inclusive k_1 = true) =
        fun k => (view s k).isSome ∧ (k < key ∨ (inclusive = true ∧ k = key)) := by
      funext x
      apply propext
      rw [view_isSome, test, show s.map = (a ++ [(k, v)]) ++ b by rw [e]; simp, keys_append (a ++ [(k, v)]) b,
        List.mem_append (s := keys (a ++ [(k, v)]))]
      constructor
      · rintro ⟨h1, h2⟩; exact ⟨.inl h1, h2⟩
      · rintro ⟨h1 | h1, h2⟩
        · exact ⟨h1, h2⟩
        · have := hb x h1
          rw [← test] at h2
          rw [h2] at this; cases this
    rw [e2] at g
    exact g
  simp only [jumpLowerPos]
  have hl := lowerBound_least hi key
  cases hb : lowerBound key s.map with
  | some k =>
    rw [hb] at hl
    obtain ⟨v, hv⟩ := Option.isSome_iff_exists.1 hl.1.1
    obtain ⟨a, b, e, _, _⟩ := hi.cut hv
    simp only
    refine go a k v b e ?_
    intro k' hk'
    have h2 : k < k' := by
      rw [e, keys_append, List.pairwise_append] at hs
      simp only [keys, List.map_cons, List.pairwise_cons] at hs
      exact hs.2.1.1 k' hk'
    have h3 : key < k' := by
      rcases bytes_trichotomy k key with h | h | h
      · exact absurd h hl.1.2
      · rw [← h]; exact h2
      · exact List.lt_trans h h2
    cases inclusive
    · simp only [lowerOk, Bool.false_eq_true, if_false, bytesLt, decide_eq_false_iff_not]
      exact fun h => absurd (List.lt_trans h3 h) (List.lt_irrefl _)
    · simp [lowerOk, bytesLt, h3]
  | none =>
    rw [hb] at hl
    simp only
    split
    · rename_i hm
      rw [begin_none] at hm
      refine ⟨none, rfl, ?_⟩
      rintro k ⟨h1, _⟩
      rw [view_isSome, hm] at h1; simp at h1
    · rename_i hm
      rw [begin_none] at hm
      obtain ⟨x, hx⟩ := Option.isSome_iff_exists.1 (List.getLast?_isSome.2 hm)
      obtain ⟨c, hc⟩ := List.getLast?_eq_some_iff.1 hx
      obtain ⟨x1, x2⟩ := x
      simp only [decEnd, hx, Option.map_some]
      exact go c x1 x2 [] hc (by simp)

/-- C14 for StdTreeDBM: `JumpLower` goes to the greatest key that is less than the argument, or equal to it if
inclusive. -/
theorem C14_tree_jump_lower {s : State} (hi : Inv .tree s) {i : Nat} (h : s.has i) (key : Bytes) (inclusive : Bool) :
    Greatest (fun k => (view s k).isSome ∧ (k < key ∨ (inclusive = true ∧ k = key))) ((s.jumpLower .tree i key inclusive).1.at i) ∧
    (s.jumpLower .tree i key inclusive).1.bad = false := by
  obtain ⟨q, h1, h2⟩ := jumpLowerPos_spec hi key inclusive
  simp only [State.jumpLower, h1, State.moveOpt]
  exact ⟨by rw [at_move h]; exact h2, hi.ok⟩

/-- C14 for StdTreeDBM: `Next` goes to the least greater key. -/
theorem C14_tree_next {s : State} (hi : Inv .tree s) {i : Nat} (h : s.has i) (k : Bytes) (hat : s.at i = some k) :
    Least (fun k' => (view s k').isSome ∧ k < k') ((s.next i).1.at i) ∧ (s.next i).2 = .success := by
  obtain ⟨v, hv⟩ := hi.at_lookup hat
  obtain ⟨a, b, e, ha, hb⟩ := hi.cut hv
  obtain ⟨_, _, _, h4⟩ := C14_first_next hi h
  obtain ⟨h5, h6, _⟩ := h4 a k v b e hat
  refine ⟨?_, h5⟩
  rw [h6]
  have hs := tree_sorted hi
  have hs2 := hs
  rw [e, keys_append, List.pairwise_append] at hs
  simp only [keys, List.map_cons, List.pairwise_cons] at hs
  refine least_begin (l := s.map) hs2 ⟨a ++ [(k, v)], by rw [e]; simp⟩ ?_ ?_
  · intro k' hk'
    refine ⟨?_, hs.2.1.1 k' hk'⟩
    rw [view_isSome, e, keys_append, List.mem_append]; exact .inr (List.mem_cons_of_mem _ hk')
  · rintro k' ⟨h1, h2⟩
    rw [view_isSome, e, keys_append, List.mem_append] at h1
    rcases h1 with h1 | h1
    · exact absurd (List.lt_trans h2 (hs.2.2 k' h1 k (by simp))) (List.lt_irrefl _)
    · rcases List.mem_cons.1 h1 with h1 | h1
      · rw [h1] at h2; exact absurd h2 (List.lt_irrefl _)
      · exact h1

/-- C14 for StdTreeDBM: `Previous` goes to the greatest lesser key; from the first record it goes to the end. -/
theorem C14_tree_previous {s : State} (hi : Inv .tree s) {i : Nat} (h : s.has i) (k : Bytes) (hat : s.at i = some k) :
    Greatest (fun k' => (view s k').isSome ∧ k' < k) ((s.previous .tree i).1.at i) ∧ (s.previous .tree i).2 = .success ∧
    (s.previous .tree i).1.bad = false := by
  obtain ⟨v, hv⟩ := hi.at_lookup hat
  obtain ⟨a, b, e, ha, hb⟩ := hi.cut hv
  have hs := tree_sorted hi
  have g : Greatest (fun k' => (view s k').isSome ∧ k' < k) (a.getLast?.map (·.1)) := by
    have hs2 := hs
    rw [e, keys_append, List.pairwise_append] at hs
    simp only [keys, List.map_cons, List.pairwise_cons] at hs
    refine greatest_last (l := s.map) hs2 ⟨(k, v) :: b, by rw [e]⟩ ?_ ?_
    · intro k' hk'
      refine ⟨?_, hs.2.2 k' hk' k (by simp)⟩
      rw [view_isSome, e, keys_append, List.mem_append]; exact .inl hk'
    · rintro k' ⟨h1, h2⟩
      rw [view_isSome, e, keys_append, List.mem_append] at h1
      rcases h1 with h1 | h1
      · exact h1
      · rcases List.mem_cons.1 h1 with h1 | h1
        · rw [h1] at h2; exact absurd h2 (List.lt_irrefl _)
        · exact absurd (List.lt_trans h2 (hs.2.1.1 k' h1)) (List.lt_irrefl _)
  simp only [State.previous, hat]
  cases hg : a.getLast? with
  | none =>
    rw [hg] at g
    rw [List.getLast?_eq_none_iff] at hg
    rw [if_pos (by rw [e, hg]; rfl)]
    exact ⟨by rw [at_move h]; exact g, trivial, hi.ok⟩
  | some x =>
    rw [hg] at g
    rw [if_neg, e, dec_split ha hg]
    · simp only [State.moveOpt]
      exact ⟨by rw [at_move h]; exact g, trivial, hi.ok⟩
    · rw [e]
      cases a with
      | nil => cases hg
      | cons r a =>
        simp only [begin, List.cons_append, List.head?_cons, Option.map_some, Option.some.injEq]
        intro hr; exact ha (by simp [hr])

/-- C14: `Previous` at the end, and the backward moves of StdHashDBM, are refused without effect. -/
theorem C14_refused {s : State} (i : Nat) (k : Bytes) (b : Bool) (place perm) :
    (s.at i = none → s.previous .tree i = (s, .notFound)) ∧
    s.previous (.hash place perm) i = (s, .notImplemented) ∧ s.last (.hash place perm) i = (s, .notImplemented) ∧
    s.jumpLower (.hash place perm) i k b = (s, .notImplemented) ∧ s.jumpUpper (.hash place perm) i k b = (s, .notImplemented) :=
  ⟨fun h => by simp [State.previous, h], rfl, rfl, rfl, rfl⟩

end Verif.Std
