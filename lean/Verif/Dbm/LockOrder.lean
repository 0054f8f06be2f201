import Verif.Prelude.Bytes
/-
The argument against deadlocks, for any threads: if each of them waits only for a lock that is greater than all the locks it holds, not all threads that
are under way can be waiting for one another.
-/
namespace Verif.LockOrder

/-- Thread `i < n` waits for `want i` and holds `held i`; a thread that waits for a lock it cannot get waits for a thread that holds it. -/
theorem exists_free {n : Nat} {held : Nat → List Nat} {want : Nat → Option Nat} {stuck : Nat → Prop}
    (hw : ∀ i k, want i = some k → ∀ x ∈ held i, x < k)
    (hs : ∀ i, i < n → stuck i → ∃ k j, want i = some k ∧ j < n ∧ k ∈ held j)
    {i : Nat} (hi : i < n) (ha : held i ≠ []) :
    ∃ j, j < n ∧ held j ≠ [] ∧ ¬ stuck j := by
  -- a bound of the locks wanted
  have hb : ∃ M, ∀ j, j < n → ∀ k, want j = some k → k < M := by
    clear hs hi
    induction n with
    | zero => exact ⟨0, fun j hj => absurd hj (Nat.not_lt_zero _)⟩
    | succ n ih =>
      obtain ⟨M, hM⟩ := ih
      refine ⟨max M ((want n).getD 0 + 1), fun j hj k hk => ?_⟩
      by_cases h : j = n
      · subst h; rw [hk]; simp only [Option.getD_some]; omega
      · have := hM j (by omega) k hk; omega
  obtain ⟨M, hM⟩ := hb
  have key : ∀ d i, i < n → held i ≠ [] → (∀ k, want i = some k → M - k ≤ d) → ∃ j, j < n ∧ held j ≠ [] ∧ ¬ stuck j := by
    intro d
    induction d with
    | zero =>
      intro i hi ha hd
      refine ⟨i, hi, ha, fun hst => ?_⟩
      obtain ⟨k, j, h1, _⟩ := hs i hi hst
      have := hM i hi k h1
      have := hd k h1
      omega
    | succ d ih =>
      intro i hi ha hd
      by_cases hst : stuck i
      · obtain ⟨k, j, h1, hj, h2⟩ := hs i hi hst
        refine ih j hj (List.ne_nil_of_mem h2) fun k' hk' => ?_
        have := hw j k' hk' k h2
        have := hd k h1
        have := hM j hj k' hk'
        omega
      · exact ⟨i, hi, ha, hst⟩
  exact key M i hi ha fun k _ => by omega

theorem sum_set_lt {α : Type} (f : α → Nat) : ∀ {l : List α} {i : Nat} {a b : α}, l[i]? = some a → f b < f a → ((l.set i b).map f).sum < (l.map f).sum
  | [], _, _, _, h, _ => by simp at h
  | x :: l, 0, a, b, h, hlt => by
    simp only [List.getElem?_cons_zero, Option.some.injEq] at h
    subst h
    simp only [List.set_cons_zero, List.map_cons, List.sum_cons]; omega
  | x :: l, i + 1, a, b, h, hlt => by
    have := sum_set_lt f (l := l) (i := i) (by simpa using h) hlt
    simp only [List.set_cons_succ, List.map_cons, List.sum_cons]; omega

end Verif.LockOrder
