import Verif.Hash.EachLemmas
/-
C10 and C54 for the traversals of HashDBM.
-/
namespace Verif.Hash
open Verif.Codec

variable {e : Env}

/-- C10 (HashDBM, `ProcessEach`): after any history, in both update modes, the processor is run on every record of the
database exactly once and on nothing else, between two calls of `ProcessEmpty`; and its answers are applied. -/
theorem C10_hash_each (he : EnvOk e) {tunes : Int → Tune} (ht : ∀ n, (tunes n).Ok) {c : Cfg} (hc : CfgOk c) {x : Extra} (hx : x.Ok)
    {d0 : Db} {healthy : Bool} (h0 : openImpl x c [] = some (d0, healthy)) (ops : List SOp) (hroom : RunRoom e tunes d0 ops)
    (hfit : SRunFits Dict.empty ops) {d : Db} (hd : d = (run (step e tunes) d0 ops).1)
    {ρ : Type} (w : Bool) (p : Bytes → ρ → Bytes → Action × ρ) (emp : ρ → ρ) (r : ρ) (hf : ∀ k r v, ActFits hashFits k (p k r v).1)
    {s' : State} {r' : ρ} (hp : processEach e d.st w p emp r = (s', r')) (hr : s'.Room) :
    ∃ l, (run sstep Dict.empty ops).1.Lists l ∧ s'.bad = false ∧
      r' = emp (Dict.eachFold w p l (run sstep Dict.empty ops).1 (emp r)).2 ∧
      ∀ k, (Api.get (dbImpl e) { d with st := s' } k).2 = match (Dict.eachFold w p l (run sstep Dict.empty ops).1 (emp r)).1 k with
        | some v => (.success, some v) | none => (.notFound, none) := by
  obtain ⟨_, _, t, h1, h2, h3, h4⟩ := session_dictionary he ht hc hx h0 ops hroom hfit
  rw [← hd] at h1 h2
  have ev : (run sstep Dict.empty ops).1 = t.view := by rw [← h3]
  rw [h1.st] at hp
  obtain ⟨t', l, g1, g2, g3, g4, g5⟩ := processEach_spec he w p emp hf t r h1.inv (by rw [hp]; exact hr)
  rw [hp] at g1 g4
  dsimp only at g1 g4
  refine ⟨l, by rw [ev]; exact g5, by rw [g1]; exact g2.inv.ok, by rw [ev]; exact g4, ?_⟩
  intro k
  have hk : DbOk e { d with st := s' } t' := ⟨⟨g1, g2.inv, h1.extra⟩, g2.saved h1.saved⟩
  rw [ev, ← g3]
  exact view_get he hk hr k

/-- C10 (HashDBM, `ProcessFirst`): it runs the processor on a record of the database exactly as `Process` on its key would,
and reports NOT_FOUND_ERROR without any effect exactly when there is none. -/
theorem C10_hash_first (he : EnvOk e) {tunes : Int → Tune} (ht : ∀ n, (tunes n).Ok) {c : Cfg} (hc : CfgOk c) {x : Extra} (hx : x.Ok)
    {d0 : Db} {healthy : Bool} (h0 : openImpl x c [] = some (d0, healthy)) (ops : List SOp) (hroom : RunRoom e tunes d0 ops)
    (hfit : SRunFits Dict.empty ops) {d : Db} (hd : d = (run (step e tunes) d0 ops).1)
    {τ : Type} (w : Bool) (p : Bytes → Bytes → Action × τ) (hf : ∀ k v, ActFits hashFits k (p k v).1) :
    ((∀ k, (run sstep Dict.empty ops).1 k = none) → processFirst e d.st w p = (d.st, none)) ∧
    ((∃ k, (run sstep Dict.empty ops).1 k ≠ none) →
      ∃ k v, (run sstep Dict.empty ops).1 k = some v ∧ (processFirst e d.st w p).2 = some (p k v).2 ∧
        ∃ t', DbOk e { d with st := (processFirst e d.st w p).1 } t' ∧
          t'.view = if w then (run sstep Dict.empty ops).1.act k (p k v).1 else (run sstep Dict.empty ops).1) := by
  obtain ⟨_, _, t, h1, h2, h3, h4⟩ := session_dictionary he ht hc hx h0 ops hroom hfit
  rw [← hd] at h1 h2
  have ev : (run sstep Dict.empty ops).1 = t.view := by rw [← h3]
  rw [ev, h1.st]
  have hroom' : (t.toState e).Room := by rw [← h1.st]; exact h2
  have hs := firstFrom_spec he w p h1.inv hroom' (t.toState e).cfg.nb 0 (Nat.zero_add _)
  constructor
  · intro hn
    rcases hs with ⟨g1, _⟩ | ⟨k, v, g1, _⟩
    · exact g1
    · rw [hn k] at g1; cases g1
  · rintro ⟨k, hk⟩
    rcases hs with ⟨_, g2⟩ | ⟨k, v, g1, g2⟩
    · exact absurd (g2 k (Nat.zero_le _)) hk
    · have hfit' : ActFits hashFits k (fullOnly (fun v => ((p k v).1, some (p k v).2)) none (t.view k)).1 := by rw [g1]; exact hf k v
      have e1 := process_sim he h1.inv hroom' k w (fullOnly (fun v => ((p k v).1, some (p k v).2)) none) hfit'
      have e2 := processL_spec he h1.inv k w (fullOnly (fun v => ((p k v).1, some (p k v).2)) none) hfit'
      have g2' : processFirst e (t.toState e) w p = _ := g2
      rw [g1] at e2
      refine ⟨k, v, g1, ?_, _, ⟨⟨?_, e2.2.inv, h1.extra⟩, e2.2.saved h1.saved⟩, e2.2.view⟩
      · rw [g2', e1, e2.1]; rfl
      · dsimp only; rw [g2', e1]

/-- The loop of a user who reads a database with an iterator: `Get`, until it fails, and `Next` after each. The result `none`
means an error other than the end of the traversal, or more than `fuel` records. -/
def iterLoop (e : Env) (s : State) : (fuel : Nat) → Iter → Option (List (Bytes × Bytes))
  | 0, _ => none
  | fuel + 1, it =>
    match iterProcess e s it false (fun k v => (.noop, (k, v))) with
    | (s1, it, none) => if s1.bad then none else some []
    | (s1, it, some kv) =>
      match next s1 it with
      | some (it, true) => (iterLoop e s1 fuel it).map (kv :: ·)
      | _ => none

theorem iterLoop_spec (he : EnvOk e) {t : LSt} (h : t.Inv e) (hr : (t.toState e).Room) (fuel b : Nat) (hb : b ≤ t.cfg.nb) (keys : List Bytes)
    (hf : (pending (t.toState e) b keys).length < fuel) (hv : ∀ k ∈ pending (t.toState e) b keys, (t.view k).isSome = true) :
    iterLoop e (t.toState e) fuel ⟨b, keys⟩ = some ((pending (t.toState e) b keys).map fun k => (k, (t.view k).getD [])) := by
  induction fuel generalizing b keys with
  | zero => omega
  | succ fuel ih =>
    rcases readKeys_spec he h hr b hb keys with ⟨g1, g2⟩ | ⟨b', k, ks, g0, g1, g2⟩
    · simp only [iterLoop, iterProcess, g1, g2]
      rw [show (t.toState e).bad = false from h.ok]
      rfl
    · rw [g2, pending_cons] at hf hv
      obtain ⟨v, hkv⟩ := Option.isSome_iff_exists.1 (hv k (by simp))
      let q : Bytes → Bytes → Action × (Bytes × Bytes) := fun k v => (.noop, (k, v))
      have hfit : ActFits hashFits k (fullOnly (fun v => ((q k v).1, some ((q k v).1, (q k v).2))) none (t.view k)).1 := by
        rw [hkv]; trivial
      have e1 := process_sim he h hr k false (fullOnly (fun v => ((q k v).1, some ((q k v).1, (q k v).2))) none) hfit
      have e2 := processL_spec he h k false (fullOnly (fun v => ((q k v).1, some ((q k v).1, (q k v).2))) none) hfit
      rw [e2.2.same (Or.inl rfl), e2.1, hkv] at e1
      have e3 : iterProcess e (t.toState e) ⟨b, keys⟩ false q = (t.toState e, ⟨(b' : Nat), k :: ks⟩, some (k, v)) := by
        simp only [iterProcess, g1]
        rw [e1]
        rfl
      have e4 : next (t.toState e) ⟨(b' : Nat), k :: ks⟩ = some (⟨(b' : Nat), ks⟩, true) := by
        simp only [next, readKeys]
        rw [if_neg (by omega), if_neg (by simp)]
        rfl
      show (match iterProcess e (t.toState e) ⟨b, keys⟩ false q with
        | (s1, it, none) => if s1.bad then none else some []
        | (s1, it, some kv) =>
          match next s1 it with
          | some (it, true) => (iterLoop e s1 fuel it).map (kv :: ·)
          | _ => none) = _
      rw [e3]
      dsimp only
      rw [e4]
      dsimp only
      rw [ih b' g0 ks (by simp only [List.length_cons] at hf; omega) (fun x hx => hv x (by simp [hx])), g2, pending_cons]
      simp [hkv]

/-- C10 (HashDBM, iterator): after any history, the loop `First`, `Get`, `Next`, `Get`, … ends, and presents every record of
the database exactly once and nothing else. -/
theorem C10_hash_iterator (he : EnvOk e) {tunes : Int → Tune} (ht : ∀ n, (tunes n).Ok) {c : Cfg} (hc : CfgOk c) {x : Extra} (hx : x.Ok)
    {d0 : Db} {healthy : Bool} (h0 : openImpl x c [] = some (d0, healthy)) (ops : List SOp) (hroom : RunRoom e tunes d0 ops)
    (hfit : SRunFits Dict.empty ops) {d : Db} (hd : d = (run (step e tunes) d0 ops).1) :
    ∃ l, (run sstep Dict.empty ops).1.Lists l ∧ ∀ fuel, l.length < fuel → iterLoop e d.st fuel Iter.first = some l := by
  obtain ⟨_, _, t, h1, h2, h3, h4⟩ := session_dictionary he ht hc hx h0 ops hroom hfit
  rw [← hd] at h1 h2
  have ev : (run sstep Dict.empty ops).1 = t.view := by rw [← h3]
  rw [ev, h1.st]
  have hroom' : (t.toState e).Room := by rw [← h1.st]; exact h2
  have hpf := pending_first he h1.inv hroom' t.cfg.nb 0 (Nat.zero_add _)
  have ep : pending (t.toState e) 0 [] = (List.range' 0 t.cfg.nb).flatMap (bkKeys (t.toState e)) := rfl
  rw [← ep] at hpf
  refine ⟨(pending (t.toState e) 0 []).map fun k => (k, (t.view k).getD []), ⟨?_, ?_⟩, ?_⟩
  · rw [List.map_map]
    exact (List.map_id' (pending (t.toState e) 0 [])).symm ▸ hpf.1
  · intro k v
    constructor
    · intro h
      obtain ⟨k', hk', e2⟩ := List.mem_map.1 h
      simp only [Prod.mk.injEq] at e2
      obtain ⟨rfl, rfl⟩ := e2
      obtain ⟨v, hv⟩ := Option.isSome_iff_exists.1 ((hpf.2 k').1 hk').2
      simp [hv]
    · intro h
      exact List.mem_map.2 ⟨k, (hpf.2 k).2 ⟨Nat.zero_le _, by simp [h]⟩, by simp [h]⟩
  · intro fuel hfu
    rw [List.length_map] at hfu
    exact iterLoop_spec he h1.inv hroom' fuel 0 (Nat.zero_le _) [] hfu (fun k hk => ((hpf.2 k).1 hk).2)

/-- C54 (HashDBM, traversals): `ProcessEach` and `ProcessFirst` with writable=false leave the file and the members as they
are, whatever the processor returns and in whatever state the file is, except that a broken file is noticed. -/
theorem C54_hash_each_read_only {ρ τ : Type} (s : State) (p : Bytes → ρ → Bytes → Action × ρ) (emp : ρ → ρ) (r : ρ)
    (q : Bytes → Bytes → Action × τ) :
    ((processEach e s false p emp r).1 = s ∨ (processEach e s false p emp r).1 = s.fail) ∧
    ((processFirst e s false q).1 = s ∨ (processFirst e s false q).1 = s.fail) := by
  have hb : ∀ fuel i r, (eachBuckets e false p fuel i s r).1 = s ∨ (eachBuckets e false p fuel i s r).1 = s.fail := by
    intro fuel
    induction fuel with
    | zero => intro i r; exact Or.inl rfl
    | succ fuel ih =>
      intro i r
      simp only [eachBuckets, Bool.false_eq_true, if_false]
      split
      · exact Or.inr rfl
      · split
        · exact Or.inr rfl
        · exact ih _ _
  have hw : ∀ (k : Bytes) (i : Nat) (p : ProcR (Option τ)), (processImpl e metaMinReadSize s k i false p).1 = s ∨
      (processImpl e metaMinReadSize s k i false p).1 = s.fail := by
    intro k i p
    have hp : ∀ m' ws x, plan s.cfg (fileReader s.cfg s.file metaMinReadSize) s.mem k i false p = some (m', ws, x) →
        m' = s.mem ∧ ws = [] := by
      intro m' ws x h
      simp only [plan] at h
      split at h
      · cases h
      · split at h
        · cases h
        · split at h
          · cases h
          · simp only [true_or, if_true, Option.some.injEq, Prod.mk.injEq] at h
            exact ⟨h.1.symm, h.2.1.symm⟩
        · simp only [Option.some.injEq, Prod.mk.injEq] at h
          exact ⟨h.1.symm, h.2.1.symm⟩
    simp only [processImpl]
    split
    · exact Or.inr rfl
    · rename_i m ws x h
      obtain ⟨rfl, rfl⟩ := hp _ _ _ h
      exact Or.inl rfl
  constructor
  · simp only [processEach]
    split
    · split
      · exact Or.inr rfl
      · exact Or.inl rfl
    · exact hb _ _ _
  · have : ∀ fuel i, (firstFrom e s false q fuel i).1 = s ∨ (firstFrom e s false q fuel i).1 = s.fail := by
      intro fuel
      induction fuel with
      | zero => intro i; exact Or.inl rfl
      | succ fuel ih =>
        intro i
        simp only [firstFrom]
        split
        · exact Or.inr rfl
        · split
          · exact hw _ _ _
          · exact ih _
    exact this _ _

end Verif.Hash
