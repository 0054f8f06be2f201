import Verif.BTree.Paged
import Verif.BTree.PageLemmas
/-
The page store keeps the tree: what is seen through the cache does not depend on what is in the cache.
-/
namespace Verif.BTree
open Verif

variable {c : Cfg} {E : Env}

/-! ### Two states that agree on the nodes of the tree -/

theorem Shape.agree {inn inn' : Nat → Option Inner} {root : Nat} : ∀ {ups : List Layer} {L : Layer}, Shape inn root ups L →
    (∀ i ∈ ids ups, ∀ n, inn i = some n → ∃ d, inn' i = some { n with dirty := d }) → Shape inn' root ups L
  | [], L, h, _ => h
  | U :: ups, L, h, ha => by
    obtain ⟨h1, h2, h3⟩ := h
    have hm : ∀ e ∈ U, e.2 ∈ ids (U :: ups) := fun e he => by
      simp only [ids, List.flatMap_cons, List.mem_append, List.mem_map]
      exact Or.inl ⟨e, he, rfl⟩
    refine ⟨fun e he => ?_, ?_, Shape.agree h3 fun i hi => ha i ?_⟩
    · obtain ⟨n, hn⟩ := h1 e he
      obtain ⟨d, hd⟩ := ha _ (hm e he) n hn
      exact ⟨_, hd⟩
    · rw [← h2, List.flatMap_def, List.flatMap_def]
      congr 1
      refine List.map_congr_left fun e he => ?_
      obtain ⟨n, hn⟩ := h1 e he
      obtain ⟨d, hd⟩ := ha _ (hm e he) n hn
      unfold expand
      rw [hn, hd]
      rfl
    · simp only [ids, List.flatMap_cons, List.mem_append]
      exact Or.inr hi

/-- The children of the inner nodes of a tree are nodes of the tree. -/
theorem Shape.children {inn : Nat → Option Inner} {root : Nat} : ∀ {ups : List Layer} {L : Layer}, Shape inn root ups L →
    ∀ i ∈ ids ups, ∀ n, inn i = some n → ∀ j, (j = n.heir ∨ ∃ k ∈ n.links, k.2 = j) → j ∈ ids ups ∨ j ∈ L.map (·.2)
  | [], L, _, i, hi, _, _, _, _ => by simp [ids] at hi
  | U :: ups, L, h, i, hi, n, hn, j, hj => by
    obtain ⟨h1, h2, h3⟩ := h
    simp only [ids, List.flatMap_cons, List.mem_append] at hi ⊢
    rcases hi with hi | hi
    · obtain ⟨e, he, rfl⟩ := List.mem_map.1 hi
      refine Or.inr ?_
      rw [← h2]
      refine List.mem_map.2 ?_
      have hx : expand inn e = exp n e.1 := by unfold expand; rw [hn]
      rcases hj with rfl | ⟨k, hk, rfl⟩
      · exact ⟨(e.1, n.heir), List.mem_flatMap.2 ⟨e, he, by rw [hx]; simp [exp]⟩, rfl⟩
      · exact ⟨(some k.1, k.2), List.mem_flatMap.2 ⟨e, he, by rw [hx]; simp only [exp, List.mem_cons, List.mem_map]; exact Or.inr ⟨k, hk, rfl⟩⟩, rfl⟩
    · rcases Shape.children h3 i hi n hn j hj with h | h
      · exact Or.inl (Or.inr h)
      · exact Or.inl (Or.inl h)

theorem Linked.agree {lv lv' : Nat → Option Leaf} : ∀ {L : Layer} {p nx : Option Nat}, Linked lv p L nx →
    (∀ e ∈ L, ∀ l, lv e.2 = some l → ∃ d, lv' e.2 = some { l with dirty := d }) → Linked lv' p L nx
  | [], _, _, _, _ => trivial
  | e :: L, p, nx, h, ha => by
    obtain ⟨⟨l, h1, h2, h3⟩, h4⟩ := h
    obtain ⟨d, hd⟩ := ha e (by simp) l h1
    exact ⟨⟨_, hd, h2, h3⟩, h4.agree fun e he => ha e (by simp [he])⟩

theorem linked_mem {lv : Nat → Option Leaf} : ∀ {L : Layer} {p nx : Option Nat}, Linked lv p L nx → ∀ e ∈ L, ∃ l, lv e.2 = some l ∧
    (l.prev = p ∨ ∃ a ∈ L, l.prev = some a.2) ∧ (l.next = nx ∨ ∃ a ∈ L, l.next = some a.2)
  | [], _, _, _, e, he => by simp at he
  | x :: L, p, nx, h, e, he => by
    obtain ⟨⟨l, h1, h2, h3⟩, h4⟩ := h
    rcases List.mem_cons.1 he with rfl | he
    · refine ⟨l, h1, Or.inl h2, ?_⟩
      rw [h3]
      cases L with
      | nil => exact Or.inl rfl
      | cons a L => exact Or.inr ⟨a, by simp, rfl⟩
    · obtain ⟨l', h5, h6, h7⟩ := linked_mem h4 e he
      refine ⟨l', h5, ?_, ?_⟩
      · rcases h6 with h6 | ⟨a, ha, h6⟩
        · exact Or.inr ⟨x, by simp, h6⟩
        · exact Or.inr ⟨a, by simp [ha], h6⟩
      · rcases h7 with h7 | ⟨a, ha, h7⟩
        · exact Or.inl h7
        · exact Or.inr ⟨a, by simp [ha], h7⟩

theorem contents_agree {lv lv' : Nat → Option Leaf} {L : Layer} {p nx : Option Nat} (h : Linked lv p L nx)
    (ha : ∀ e ∈ L, ∀ l, lv e.2 = some l → ∃ d, lv' e.2 = some { l with dirty := d }) : contents lv' L = contents lv L := by
  unfold contents
  rw [List.flatMap_def, List.flatMap_def]
  congr 1
  refine List.map_congr_left fun e he => ?_
  obtain ⟨l, h1, _, _⟩ := linked_mem h e he
  obtain ⟨d, hd⟩ := ha e he l h1
  simp only [recsAt, h1, hd, Option.map_some]

/-- Only the nodes of the tree matter, and their dirty marks do not. -/
theorem Sim.agree {s s2 : State} {ups : List Layer} {L : Layer} {t : OMap.St} (h : Sim c s L t) (hu : Upper s ups L)
    (hl : ∀ e ∈ L, ∀ l, s.leaves e.2 = some l → ∃ d, s2.leaves e.2 = some { l with dirty := d })
    (hn : ∀ i ∈ ids ups, ∀ n, s.inners i = some n → ∃ d, s2.inners i = some { n with dirty := d })
    (hr : s2 = { s with leaves := s2.leaves, inners := s2.inners }) : Sim c s2 L t ∧ Upper s2 ups L := by
  obtain ⟨lv, inn, rfl⟩ : ∃ lv inn, s2 = { s with leaves := lv, inners := inn } := ⟨_, _, hr⟩
  have hU : Upper { s with leaves := lv, inners := inn } ups L := ⟨hu.shape.agree hn, hu.level, hu.nodup, hu.fresh⟩
  have hcon : contents lv L = contents s.leaves L := contents_agree h.inv.lower.linked hl
  refine ⟨⟨⟨⟨ups, hU⟩, ?_, h.inv.reorg, ?_⟩, hcon.trans h.recs, h.iters, h.log⟩, hU⟩
  · have hlo := h.inv.lower
    refine ⟨hlo.seps, hlo.nodup, hlo.fresh, hlo.linked.agree hl, hlo.first, hlo.last, fun e he l' hl' => ?_, hlo.iters⟩
    obtain ⟨l, h1, _, _⟩ := linked_mem hlo.linked e he
    obtain ⟨d, hd⟩ := hl e he l h1
    have : l' = { l with dirty := d } := by
      have : lv e.2 = some l' := hl'
      have hd' : lv e.2 = some { l with dirty := d } := hd
      rw [hd'] at this
      exact (Option.some.inj this).symm
    have ho := hlo.leaf e he l h1
    rw [this]
    exact ⟨ho.sorted, ho.own, ho.page⟩
  · show s.count = _ ∧ s.eff = _
    rw [hcon]
    exact h.inv.count

/-- The iterators are cleared and the id of the last leaf may be lost. -/
theorem Sim.reopened {s : State} {ups : List Layer} {L : Layer} {t : OMap.St} (h : Sim c s L t) (hu : Upper s ups L) (last : Nat) (ok : Bool)
    (hok : ok = true → lastId L none = some last) :
    Sim c { s with reorg := [], iters := fun _ => Iter.clear, last := last, lastOk := ok } L { t with iters := fun _ => none } ∧
    Upper { s with reorg := [], iters := fun _ => Iter.clear, last := last, lastOk := ok } ups L := by
  have hU : Upper { s with reorg := [], iters := fun _ => Iter.clear, last := last, lastOk := ok } ups L := ⟨hu.shape, hu.level, hu.nodup, hu.fresh⟩
  have hlo := h.inv.lower
  exact ⟨⟨⟨⟨ups, hU⟩, ⟨hlo.seps, hlo.nodup, hlo.fresh, hlo.linked, hlo.first, hok, hlo.leaf, fun i d hd => (by cases hd)⟩, fun q hq => (by cases hq), h.inv.count⟩, h.recs,
    fun _ => rfl, h.log⟩, hU⟩

/-! ### The invariant of the page store -/

/-- The node that is in a page. -/
def Paged.diskLeaf (P : Paged) (i : Nat) : Option Leaf := (P.disk (pageKey i)).bind fun b => (loadLeaf b).toOption
def Paged.diskInner (P : Paged) (i : Nat) : Option Inner := (P.disk (pageKey i)).bind fun b => (loadInner b).toOption

theorem Paged.leafAt_cached {P : Paged} {i : Nat} {n : Cached Leaf} (h : P.leafCache i = some n) (hi : leafIdBase ≤ i ∧ i < innerIdBase) : P.leafAt i = some n.node := by
  unfold Paged.leafAt
  rw [if_pos hi, h]

theorem Paged.leafAt_disk {P : Paged} {i : Nat} (h : P.leafCache i = none) (hi : leafIdBase ≤ i ∧ i < innerIdBase) : P.leafAt i = P.diskLeaf i := by
  unfold Paged.leafAt
  rw [if_pos hi, h]
  rfl

theorem Paged.leafAt_out {P : Paged} {i : Nat} (hi : ¬(leafIdBase ≤ i ∧ i < innerIdBase)) : P.leafAt i = none := by
  unfold Paged.leafAt
  rw [if_neg hi]

theorem Paged.innerAt_cached {P : Paged} {i : Nat} {n : Cached Inner} (h : P.innerCache i = some n) (hi : innerIdBase ≤ i ∧ i < 2 ^ 48) : P.innerAt i = some n.node := by
  unfold Paged.innerAt
  rw [if_pos hi, h]

theorem Paged.innerAt_disk {P : Paged} {i : Nat} (h : P.innerCache i = none) (hi : innerIdBase ≤ i ∧ i < 2 ^ 48) : P.innerAt i = P.diskInner i := by
  unfold Paged.innerAt
  rw [if_pos hi, h]
  rfl

theorem Paged.innerAt_out {P : Paged} {i : Nat} (hi : ¬(innerIdBase ≤ i ∧ i < 2 ^ 48)) : P.innerAt i = none := by
  unfold Paged.innerAt
  rw [if_neg hi]

theorem Paged.leafAt_range {P : Paged} {i : Nat} {l : Leaf} (h : P.leafAt i = some l) : leafIdBase ≤ i ∧ i < innerIdBase := by
  by_cases hi : leafIdBase ≤ i ∧ i < innerIdBase
  · exact hi
  · rw [Paged.leafAt_out hi] at h; cases h

theorem Paged.innerAt_range {P : Paged} {i : Nat} {n : Inner} (h : P.innerAt i = some n) : innerIdBase ≤ i ∧ i < 2 ^ 48 := by
  by_cases hi : innerIdBase ≤ i ∧ i < 2 ^ 48
  · exact hi
  · rw [Paged.innerAt_out hi] at h; cases h

/-- What holds between calls, for the list `L` of the leaves and the records and iterators `t` the user sees. -/
structure PInv (E : Env) (P : Paged) (L : Layer) (t : OMap.St) : Prop where
  sim : Sim (P.cfg E) P.view L t
  fine : Fine (P.cfg E) P.view
  leafIds : ∀ i n, P.leafCache i = some n → leafIdBase ≤ i ∧ i < innerIdBase
  innerIds : ∀ i n, P.innerCache i = some n → innerIdBase ≤ i ∧ i < 2 ^ 48
  numLeaf : P.regs.numLeaf ≤ innerIdBase
  numInner : innerIdBase ≤ P.regs.numInner ∧ P.regs.numInner ≤ 2 ^ 48
  cleanLeaf : ∀ i n, P.leafCache i = some n → n.node.dirty = false → P.diskLeaf i = some n.node
  cleanInner : ∀ i n, P.innerCache i = some n → n.node.dirty = false → P.diskInner i = some n.node
  newLeaf : ∀ i n, P.leafCache i = some n → n.onDisk = false → P.diskLeaf i = none
  newInner : ∀ i n, P.innerCache i = some n → n.onDisk = false → P.diskInner i = none
  order : StrictWeak (E.order P.comp)
  page : 1 ≤ P.maxPage ∧ P.maxPage < 2 ^ 24
  branch : 2 ≤ P.branch ∧ P.branch < 2 ^ 24
  comp : P.comp ∈ compTypes ∨ P.comp = 255

theorem PInv.ok {P : Paged} {L : Layer} {t : OMap.St} (h : PInv E P L t) : (P.cfg E).Ok := treeCfg_ok h.order _ _ _

theorem readKey {i : Nat} (h : i < 2 ^ 48) : Codec.readFixNum (pageKey i) 6 = i := by
  have := fix_read (n := i) (w := 6) (by omega) h []
  rwa [List.append_nil] at this

theorem pageKey_length (i : Nat) : (pageKey i).length = 6 := fix_length i (by omega)

/-- The pages after a call: those of the nodes that were removed are gone. -/
theorem settle_disk {P : Paged} {s : State} {tl ti : Nat → Bool} {i : Nat} (hi : i < 2 ^ 48) :
    (P.settle s tl ti).disk (pageKey i) =
      if pageGone (P.leafCache i) (P.leafAt i) (s.leaves i) ∨ pageGone (P.innerCache i) (P.innerAt i) (s.inners i) then none else P.disk (pageKey i) := by
  unfold Paged.settle
  dsimp only
  rw [readKey hi, pageKey_length]
  simp

theorem innerIdBase_lt : innerIdBase < 2 ^ 48 := by unfold innerIdBase; omega

/-- The page of a leaf after a call. -/
theorem settle_diskLeaf {P : Paged} {s : State} {tl ti : Nat → Bool} {i : Nat} (hi : leafIdBase ≤ i ∧ i < innerIdBase) :
    (P.settle s tl ti).diskLeaf i = if pageGone (P.leafCache i) (P.leafAt i) (s.leaves i) then none else P.diskLeaf i := by
  have h1 : i < 2 ^ 48 := Nat.lt_trans hi.2 innerIdBase_lt
  have h2 : P.innerAt i = none := Paged.innerAt_out fun h => Nat.lt_irrefl _ (Nat.lt_of_lt_of_le hi.2 h.1)
  have h3 : pageGone (P.innerCache i) (P.innerAt i) (s.inners i) = false := by rw [h2]; rfl
  unfold Paged.diskLeaf
  rw [settle_disk h1, h3]
  cases pageGone (P.leafCache i) (P.leafAt i) (s.leaves i) <;> simp

/-- The page of an inner node after a call. -/
theorem settle_diskInner {P : Paged} {s : State} {tl ti : Nat → Bool} {i : Nat} (hi : innerIdBase ≤ i ∧ i < 2 ^ 48) :
    (P.settle s tl ti).diskInner i = if pageGone (P.innerCache i) (P.innerAt i) (s.inners i) then none else P.diskInner i := by
  have h2 : P.leafAt i = none := Paged.leafAt_out fun h => Nat.lt_irrefl _ (Nat.lt_of_lt_of_le h.2 hi.1)
  have h3 : pageGone (P.leafCache i) (P.leafAt i) (s.leaves i) = false := by rw [h2]; rfl
  unfold Paged.diskInner
  rw [settle_disk hi.2, h3]
  cases pageGone (P.innerCache i) (P.innerAt i) (s.inners i) <;> simp

/-- One memory after a call.  `f` and `g` are what is seen through the cache and what is on the disk. -/
theorem settle_one {α : Type} {dirty : α → Bool} {old : Option (Cached α)} {was now disk : Option α} {touched : Bool}
    (hwas : was = match old with | some n => some n.node | none => disk)
    (hclean : ∀ n, old = some n → dirty n.node = false → disk = some n.node)
    (hnew : ∀ n, old = some n → n.onDisk = false → disk = none)
    (hframe : ∀ x, now = some x → dirty x = false → was = some x) :
    (match settleNode dirty old was now touched with | some n => some n.node | none => if pageGone old was now then none else disk) = now ∧
    (∀ n, settleNode dirty old was now touched = some n → dirty n.node = false → (if pageGone old was now then none else disk) = some n.node) ∧
    (∀ n, settleNode dirty old was now touched = some n → n.onDisk = false → (if pageGone old was now then none else disk) = none) := by
  cases now with
  | none =>
    refine ⟨?_, fun n hn => (by cases hn), fun n hn => (by cases hn)⟩
    simp only [settleNode, pageGone, Option.isNone_none, Bool.and_true]
    cases old with
    | none => cases was <;> simp_all
    | some n =>
      cases ho : n.onDisk with
      | true => simp only at hwas; rw [hwas]; simp [ho]
      | false => simp only at hwas; rw [hwas]; simp [ho, hnew n rfl ho]
  | some x =>
    have hg : pageGone old was (some x) = false := by simp [pageGone]
    rw [hg]
    simp only [Bool.false_eq_true, if_false]
    cases old with
    | some n =>
      refine ⟨rfl, fun m hm hd => ?_, fun m hm ho => ?_⟩
      · cases hm
        have := hframe x rfl hd
        simp only at hwas
        rw [hwas] at this
        cases this
        exact hclean n rfl hd
      · cases hm
        exact hnew n rfl ho
    | none =>
      simp only at hwas
      simp only [settleNode]
      cases hd : dirty x with
      | true =>
        simp only [Bool.true_or, if_true]
        refine ⟨by first | rfl | trivial, fun m hm hd' => ?_, fun m hm ho => ?_⟩
        · cases hm; rw [hd] at hd'; cases hd'
        · cases hm
          rw [← hwas]
          simpa using ho
      | false =>
        have := hframe x rfl hd
        cases touched with
        | true =>
          refine ⟨by first | rfl | trivial, fun m hm hd' => ?_, fun m hm ho => ?_⟩
          · cases hm; rw [← hwas]; exact this
          · cases hm
            rw [this] at ho
            cases ho
        | false =>
          simp only [Bool.or_self, Bool.false_eq_true, if_false]
          exact ⟨by rw [← hwas]; exact this, fun m hm => (by cases hm), fun m hm => (by cases hm)⟩

end Verif.BTree
