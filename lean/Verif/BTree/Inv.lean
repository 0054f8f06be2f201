import Verif.BTree.LeafSteps
/-
The invariant of the object, and that reorganising the tree keeps it and everything a user can see.
-/
namespace Verif.BTree
open Verif

variable {c : Cfg}

/-- The sizes of keys and values. -/
def dataSize (l : List Rec) : Int := (l.map fun r => ((r.1.length + r.2.length : Nat) : Int)).sum

theorem dataSize_append (a b : List Rec) : dataSize (a ++ b) = dataSize a + dataSize b := by simp [dataSize, List.sum_append]

theorem dataSize_cons (r : Rec) (l : List Rec) : dataSize (r :: l) = (r.1.length + r.2.length : Nat) + dataSize l := by simp [dataSize]

/-- The invariant, for the list `L` of the leaves with their separators. -/
structure Inv (c : Cfg) (s : State) (L : Layer) : Prop where
  upper : ∃ ups, Upper s ups L
  lower : Lower c s L
  reorg : ∀ q ∈ s.reorg, locate c.lt q.2 L = some q.1
  count : s.count = (contents s.leaves L).length ∧ s.eff = dataSize (contents s.leaves L)

/-- What the user sees is the same. -/
structure Keeps (s s' : State) : Prop where
  keys : ∀ i, (s'.iters i).key = (s.iters i).key
  count : s'.count = s.count ∧ s'.eff = s.eff
  log : s'.log = s.log
  ub : s'.ub = s.ub

theorem Keeps.refl (s : State) : Keeps s s := ⟨fun _ => rfl, ⟨rfl, rfl⟩, rfl, rfl⟩

theorem Keeps.trans {s s' s'' : State} (h1 : Keeps s s') (h2 : Keeps s' s'') : Keeps s s'' :=
  ⟨fun i => (h2.keys i).trans (h1.keys i), ⟨h2.count.1.trans h1.count.1, h2.count.2.trans h1.count.2⟩, h2.log.trans h1.log, h2.ub.trans h1.ub⟩

theorem SameRest.keeps {s s' : State} (h : SameRest s s') : Keeps s s' ∧ s'.reorg = s.reorg ∧ s'.leaves = s.leaves := by
  rw [h]
  exact ⟨⟨fun _ => rfl, ⟨rfl, rfl⟩, rfl, rfl⟩, rfl, rfl⟩

/-- The result of one round of reorganisation at the node `id`. -/
structure Round (c : Cfg) (s s' : State) (L L' : Layer) (id : Nat) : Prop where
  upper : ∃ ups, Upper s' ups L'
  lower : Lower c s' L'
  same : contents s'.leaves L' = contents s.leaves L
  keeps : Keeps s s'
  reorg : s'.reorg = s.reorg
  stay : ∀ y d, d ≠ id → locate c.lt y L = some d → locate c.lt y L' = some d

theorem trace_upper (hc : c.Ok) {s : State} {ups : List Layer} {L : Layer} (hU : Upper s ups L) (hs : SepSorted c.lt L) (x : Bytes) :
    ∃ A e B hist, trace c s x (s.level - 1) = some (e.2, hist) ∧ At c.lt x L A e B ∧ Path c.lt x ups hist := by
  have h := trace_spec hc.weak rfl (x := x) hU.shape hs
  rw [show s.level - 1 = ups.length by rw [hU.level]; rfl]
  exact h

theorem search_spec (hc : c.Ok) {s : State} {L : Layer} (hU : ∃ ups, Upper s ups L) (hs : SepSorted c.lt L) (x : Bytes) :
    ∃ A e B, search c s x = some e.2 ∧ At c.lt x L A e B := by
  obtain ⟨ups, hU⟩ := hU
  obtain ⟨A, e, B, hist, h1, h2, _⟩ := trace_upper hc hU hs x
  exact ⟨A, e, B, by simp [search, h1], h2⟩

theorem divide_spec (hc : c.Ok) {s : State} {ups : List Layer} {L : Layer} {id : Nat} {x : Bytes} {l : Leaf} (hU : Upper s ups L) (hLo : Lower c s L)
    (hx : locate c.lt x L = some id) (hl : s.leaves id = some l) (hb : c.big l = true) :
    ∃ s' L', divide c s id x = some s' ∧ Round c s s' L L' id := by
  obtain ⟨A, e, B, hist, t1, t2, t3⟩ := trace_upper hc hU hLo.seps x
  have he : e.2 = id := by
    have := t2.locate hc.weak hLo.seps
    rw [hx] at this
    exact (Option.some.inj this).symm
  obtain ⟨k, h⟩ := e
  subst he
  obtain ⟨s1, m, d1, d2, d3, d4, d5⟩ := divideLeaf_spec hc hLo t2.1 hl (hc.big l hb)
  have hU1 : Shape s1.inners s1.root ups L := by rw [d5]; exact hU.shape
  have hF1 : ∀ i ∈ ids ups, i < s1.numInner := by rw [d5]; exact hU.fresh
  obtain ⟨s2, ups', a1, a2, a3, a4, a5, a6, a7, a8, a9⟩ := addUp_spec hc.weak ups s1 hist L A B k h s.numLeaf m hU1 hU.nodup hF1 t2 d2.seps t3
  obtain ⟨r1, r2, r3⟩ := a9.keeps
  refine ⟨s2, _, ?_, ⟨ups', a2, ?_, a3, a4⟩, d2.same a9, ?_, ?_, ?_, ?_⟩
  · simp [divide, t1, d1, a1]
  · have : s1.level = s.level := by rw [d5]
    rw [this, hU.level] at a8
    omega
  · rw [r3]; exact d3
  · refine Keeps.trans ⟨d4, ?_, ?_, ?_⟩ r1
    · rw [d5]; exact ⟨rfl, rfl⟩
    · rw [d5]
    · rw [d5]
  · rw [r2, d5]
  · intro y d hd hy
    have hnd := hLo.nodup
    have hy' := hy
    rw [t2.1] at hnd hy
    rw [locate_insert hc.weak d2.seps hnd, hy, if_neg]
    rintro ⟨h1, _⟩
    exact hd (Option.some.inj h1)

theorem merge_spec (hc : c.Ok) {s : State} {ups : List Layer} {L : Layer} {id : Nat} {x : Bytes} {l : Leaf} (hU : Upper s ups L) (hLo : Lower c s L)
    (hx : locate c.lt x L = some id) (hm : toMerge c s id l = true) :
    ∃ s' L', merge c s id x = some s' ∧ Round c s s' L L' id := by
  have hw := hc.weak
  obtain ⟨A0, e0, B0, hist, t1, t2, t3⟩ := trace_upper hc hU hLo.seps x
  have he0 : e0.2 = id := by
    have := t2.locate hw hLo.seps
    rw [hx] at this
    exact (Option.some.inj this).symm
  cases ups with
  | nil =>
    exfalso
    have hL : L = [(none, s.root)] := hU.shape
    have hlev : s.level = 1 := hU.level
    have hr : s.root = id := by
      have : id ∈ L.map (·.2) := locate_mem hx
      rw [hL] at this
      simp at this
      exact this.symm
    unfold toMerge at hm
    simp [hlev, hr] at hm
  | cons U ups =>
    cases hist with
    | nil => exact t3.elim
    | cons pid up =>
      obtain ⟨⟨A, e, B, hat, rfl⟩, hpath⟩ := t3
      obtain ⟨h1, h2, h3⟩ := hU.shape
      obtain ⟨p, hp⟩ := h1 e (by rw [hat.1]; simp)
      obtain ⟨X, e', Y, g1, g2⟩ := at_expand hw h1 h2 hLo.seps hat hp
      have he' : e'.2 = id := by
        have := g2.locate hw hLo.seps
        rw [hx] at this
        exact (Option.some.inj this).symm
      obtain ⟨k, i⟩ := e'
      simp only at he'
      subst he'
      have hexp := g1.1
      have hnd := exp_nodup hat.1 hp h2 hLo.nodup
      have hlt : ups.length + 1 < s.level := by rw [hU.level]; simp
      have hLs := g2.1
      generalize hPA : A.flatMap (expand s.inners) = PA at hLs
      generalize hPB : B.flatMap (expand s.inners) = PB at hLs
      -- the end of all cases
      have fin : ∀ (s1 : State) (L1 : Layer), mergeLeaf c s e.2 p i = some s1 → Shape s1.inners s1.root (U :: ups) L1 → Lower c s1 L1 →
          contents s1.leaves L1 = contents s.leaves L → Keeps s s1 → s1.reorg = s.reorg → s1.level = s.level → s1.numInner = s.numInner →
          (∀ y d, d ≠ i → locate c.lt y L = some d → locate c.lt y L1 = some d) → ∃ s' L', merge c s i x = some s' ∧ Round c s s' L L' i := by
        intro s1 L1 m1 m2 m3 m4 m5 m6 m7 m8 m9
        obtain ⟨s2, ups', a1, a2, a3, a4, a5, a6, a7, a8⟩ :=
          mergeUp_spec hw (x := x) up s1 U ups L1 e.2 m2 hU.nodup m3.seps ⟨⟨A, e, B, hat, rfl⟩, hpath⟩ (by rw [m7]; exact hlt)
        obtain ⟨r1, r2, r3⟩ := a8.keeps
        refine ⟨s2, L1, ?_, ⟨ups', a2, ?_, a3, ?_⟩, m3.same a8, by rw [r3]; exact m4, m5.trans r1, by rw [r2, m6], m9⟩
        · simp [merge, t1, he0, hp, m1, a1]
        · rw [m7, hU.level] at a7
          simp only [List.length_cons] at a7
          omega
        · intro j hj
          rw [a6, m8]
          exact hU.fresh j (a4 j hj)
      have casePrev : ∀ (a : Nat) (kk : Bytes) (X' : Layer) (k1 : Option Bytes) (nx : Option Nat), X = X' ++ [(k1, a)] → k = some kk →
          (∀ n, nx = some n → headId (Y ++ PB) none = some n) → mergeLeaf c s e.2 p i = mergePrev c s e.2 p i a nx →
          ∃ s' L', merge c s i x = some s' ∧ Round c s s' L L' i := by
        intro a kk X' k1 nx e1 e2 e3 e4
        subst e1 e2
        have hL' : L = (PA ++ X') ++ (k1, a) :: (some kk, i) :: (Y ++ PB) := by rw [hLs]; simp
        obtain ⟨s1, m1, m2, m3, m4, m5⟩ := mergePrev_spec hc e.2 p hLo hL' e3
        have hj := joinPrev_spec (p := p) (k0 := e.1) (X := X') (k1 := k1) (k2 := kk) (Y := Y) (a := a) (b := i) (by rw [hexp]; simp) hnd
        refine fin s1 _ (e4.trans m1) ?_ m2 m3 ⟨m4, by rw [m5]; exact ⟨rfl, rfl⟩, by rw [m5], by rw [m5]⟩ (by rw [m5]) (by rw [m5]) (by rw [m5]) ?_
        · have := Shape.update (n' := { p with links := joinPrev p.links i, dirty := true }) hU.shape hU.nodup hat.1
          rw [hj, hPA, hPB] at this
          rw [m5]
          simpa using this
        · intro y d hd hy
          have hn' := hLo.nodup
          have hs' := hLo.seps
          rw [hL'] at hn' hs' hy
          rw [locate_merge (d := a) hw hs' hn', hy]
          split
          · rename_i h9
            rcases h9 with h9 | h9
            · exact h9.symm
            · exact absurd (Option.some.inj h9) hd
          · rfl
      have caseNext : ∀ (b : Nat) (kb : Bytes) (Y' : Layer) (pv : Option Nat), Y = (some kb, b) :: Y' →
          (∀ n, pv = some n → lastId (PA ++ X) none = some n) → mergeLeaf c s e.2 p i = mergeNext c s e.2 p i b pv →
          ∃ s' L', merge c s i x = some s' ∧ Round c s s' L L' i := by
        intro b kb Y' pv e1 e3 e4
        subst e1
        have hL' : L = (PA ++ X) ++ (k, i) :: (some kb, b) :: (Y' ++ PB) := by rw [hLs]; simp
        obtain ⟨p', j1, j2⟩ := joinNext_spec hexp hnd
        obtain ⟨s1, m1, m2, m3, m4, m5⟩ := mergeNext_spec hc e.2 p p' hLo hL' e3 j1
        refine fin s1 _ (e4.trans m1) ?_ m2 m3 ⟨m4, by rw [m5]; exact ⟨rfl, rfl⟩, by rw [m5], by rw [m5]⟩ (by rw [m5]) (by rw [m5]) (by rw [m5]) ?_
        · have := Shape.update (n' := p') hU.shape hU.nodup hat.1
          rw [j2, hPA, hPB] at this
          rw [m5]
          simpa using this
        · intro y d hd hy
          have hn' := hLo.nodup
          have hs' := hLo.seps
          rw [hL'] at hn' hs' hy
          rw [locate_merge (d := b) hw hs' hn', hy]
          split
          · rename_i h9
            rcases h9 with h9 | h9
            · exact absurd (Option.some.inj h9) hd
            · exact h9.symm
          · rfl
      obtain ⟨n1, n2⟩ := neighbours_spec hexp hnd
      generalize hN : neighbours p i = N at n1 n2
      obtain ⟨N1, N2⟩ := N
      simp only at n1 n2
      rcases n1 with ⟨rfl, n1⟩ | ⟨a, kk, X', k1, rfl, n1, n1'⟩ <;> rcases n2 with ⟨rfl, n2⟩ | ⟨kb, b, Y', rfl, n2⟩
      · refine fin s L ?_ hU.shape hLo rfl (Keeps.refl s) rfl rfl rfl (fun y d _ h => h)
        simp [mergeLeaf, hN]
      · exact caseNext b kb Y' none n2 (by simp) (by simp [mergeLeaf, hN])
      · exact casePrev a kk X' k1 none n1 n1' (by simp) (by simp [mergeLeaf, hN])
      · have hla : ∃ la, s.leaves a = some la := hLo.linked.get (e := (k1, a)) (by rw [hLs, n1]; simp)
        have hlb : ∃ lb, s.leaves b = some lb := hLo.linked.get (e := (some kb, b)) (by rw [hLs, n2]; simp)
        obtain ⟨la, hla⟩ := hla
        obtain ⟨lb, hlb⟩ := hlb
        by_cases hlg : c.lighter la lb = true
        · refine casePrev a kk X' k1 (some b) n1 n1' (fun n hn => ?_) (by simp [mergeLeaf, hN, hla, hlb, hlg])
          rw [n2]
          exact hn
        · refine caseNext b kb Y' (some a) n2 (fun n hn => ?_) (by simp [mergeLeaf, hN, hla, hlb, hlg])
          rw [n1, ← List.append_assoc, lastId_append]
          exact hn

theorem reorgOne_spec (hc : c.Ok) {s : State} {L : Layer} {id : Nat} {x : Bytes} (hU : ∃ ups, Upper s ups L) (hLo : Lower c s L)
    (hx : locate c.lt x L = some id) : ∃ s' L', reorgOne c s id x = some s' ∧ Round c s s' L L' id := by
  obtain ⟨ups, hU⟩ := hU
  obtain ⟨e, he, rfl⟩ := List.mem_map.1 (locate_mem hx)
  obtain ⟨l, hl⟩ := hLo.linked.get he
  by_cases hb : c.big l = true
  · obtain ⟨s', L', h1, h2⟩ := divide_spec hc hU hLo hx hl hb
    exact ⟨s', L', by simp [reorgOne, hl, hb, h1], h2⟩
  · by_cases hm : toMerge c s e.2 l = true
    · obtain ⟨s', L', h1, h2⟩ := merge_spec hc hU hLo hx hm
      exact ⟨s', L', by simp [reorgOne, hl, hb, hm, h1], h2⟩
    · exact ⟨s, L, by simp [reorgOne, hl, hb, hm], ⟨ups, hU⟩, hLo, rfl, Keeps.refl s, rfl, fun _ _ _ h => h⟩

theorem reorgLoop_spec (hc : c.Ok) : ∀ (n : Nat) (s : State) (L : Layer) (done : List Nat), s.reorg.length = n → (∃ ups, Upper s ups L) → Lower c s L →
    (∀ q ∈ s.reorg, q.1 ∈ done ∨ locate c.lt q.2 L = some q.1) →
    ∃ s' L', reorgLoop c n s done = some s' ∧ (∃ ups, Upper s' ups L') ∧ Lower c s' L' ∧ contents s'.leaves L' = contents s.leaves L ∧ Keeps s s' ∧
      s'.reorg = []
  | 0, s, L, done, hn, hU, hLo, hq => ⟨s, L, rfl, hU, hLo, rfl, Keeps.refl s, List.length_eq_zero_iff.1 hn⟩
  | n + 1, s, L, done, hn, hU, hLo, hq => by
    have hlt : c.pick s.reorg % s.reorg.length < s.reorg.length := Nat.mod_lt _ (by omega)
    generalize hj : c.pick s.reorg % s.reorg.length = j at hlt
    have hget : s.reorg[j]? = some s.reorg[j] := List.getElem?_eq_getElem hlt
    generalize he : s.reorg[j] = e at hget
    have hmem : e ∈ s.reorg := List.mem_of_getElem? hget
    let s1 : State := { s with reorg := s.reorg.eraseIdx j }
    have hlen : s1.reorg.length = n := by
      show (s.reorg.eraseIdx j).length = n
      rw [List.length_eraseIdx, if_pos hlt]; omega
    have hU1 : ∃ ups, Upper s1 ups L := by
      obtain ⟨ups, hU⟩ := hU
      exact ⟨ups, hU.shape, hU.level, hU.nodup, hU.fresh⟩
    have hLo1 : Lower c s1 L := ⟨hLo.seps, hLo.nodup, hLo.fresh, hLo.linked, hLo.first, hLo.last, hLo.leaf, hLo.iters⟩
    have hq1 : ∀ q ∈ s1.reorg, q.1 ∈ done ∨ locate c.lt q.2 L = some q.1 := fun q h => hq q (List.mem_of_mem_eraseIdx h)
    by_cases hd : e.1 ∈ done
    · obtain ⟨s', L', a1, a2, a3, a4, a5, a6⟩ := reorgLoop_spec hc n s1 L done hlen hU1 hLo1 hq1
      refine ⟨s', L', ?_, a2, a3, a4, ⟨a5.keys, a5.count, a5.log, a5.ub⟩, a6⟩
      simp only [reorgLoop, hj, hget, hd, if_true]
      exact a1
    · have hx : locate c.lt e.2 L = some e.1 := (hq e hmem).resolve_left hd
      obtain ⟨s2, L2, b1, b2⟩ := reorgOne_spec hc hU1 hLo1 hx
      have hlen2 : s2.reorg.length = n := by rw [b2.reorg]; exact hlen
      obtain ⟨s', L', a1, a2, a3, a4, a5, a6⟩ := reorgLoop_spec hc n s2 L2 (e.1 :: done) hlen2 b2.upper b2.lower (fun q h => by
        rw [b2.reorg] at h
        by_cases hqe : q.1 = e.1
        · exact Or.inl (by simp [hqe])
        · rcases hq1 q h with h | h
          · exact Or.inl (List.mem_cons_of_mem _ h)
          · exact Or.inr (b2.stay _ _ hqe h))
      have hk : Keeps s s2 := ⟨b2.keeps.keys, b2.keeps.count, b2.keeps.log, b2.keeps.ub⟩
      refine ⟨s', L', ?_, a2, a3, a4.trans b2.same, hk.trans a5, a6⟩
      simp only [reorgLoop, hj, hget, hd, if_false]
      rw [b1]
      exact a1

theorem reorganize_spec (hc : c.Ok) {s : State} {L : Layer} (h : Inv c s L) :
    ∃ s' L', reorganize c s = some s' ∧ Inv c s' L' ∧ contents s'.leaves L' = contents s.leaves L ∧ Keeps s s' ∧ s'.reorg = [] := by
  obtain ⟨s', L', a1, a2, a3, a4, a5, a6⟩ := reorgLoop_spec hc _ s L [] rfl h.upper h.lower (fun q hq => Or.inr (h.reorg q hq))
  exact ⟨s', L', a1, ⟨a2, a3, by simp [a6], by rw [a5.count.1, a5.count.2, h.count.1, h.count.2, a4]; exact ⟨rfl, rfl⟩⟩, a4, a5, a6⟩

theorem reorgIf_spec (hc : c.Ok) {s : State} {L : Layer} (h : Inv c s L) (w : Bool) :
    ∃ s' L', reorgIf c s w = some s' ∧ Inv c s' L' ∧ contents s'.leaves L' = contents s.leaves L ∧ Keeps s s' := by
  unfold reorgIf
  split
  · obtain ⟨s', L', a1, a2, a3, a4, _⟩ := reorganize_spec hc h
    exact ⟨s', L', a1, a2, a3, a4⟩
  · exact ⟨s, L, rfl, h, rfl, Keeps.refl s⟩

end Verif.BTree
