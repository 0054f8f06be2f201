import Verif.BTree.Merge
/-
The leaf nodes: the list they form, what is in them, and how dividing and merging change that.
-/
namespace Verif.BTree
open Verif

variable {c : Cfg}

/-- What the rest of the classes guarantee: the comparator is an order, and only a leaf with at least two records is divided. -/
structure Cfg.Ok (c : Cfg) : Prop where
  weak : StrictWeak c.lt
  big : ∀ l, c.big l = true → 1 < l.recs.length

/-- The first node of a layer, or `d`. -/
def headId (L : Layer) (d : Option Nat) : Option Nat := (L.head?.map (·.2)).or d

/-- The last node of a layer, or `d`. -/
def lastId (L : Layer) (d : Option Nat) : Option Nat := (L.getLast?.map (·.2)).or d

/-- The leaves are doubly linked in the order of the layer, between `p` and `nx`. -/
def Linked (lv : Nat → Option Leaf) : Option Nat → Layer → Option Nat → Prop
  | _, [], _ => True
  | p, e :: L, nx => (∃ l, lv e.2 = some l ∧ l.prev = p ∧ l.next = headId L nx) ∧ Linked lv (some e.2) L nx

/-- The records of a leaf. -/
def recsAt (lv : Nat → Option Leaf) (i : Nat) : List Rec := ((lv i).map (·.recs)).getD []

/-- All records of the leaves of a layer, from left to right. -/
def contents (lv : Nat → Option Leaf) (L : Layer) : List Rec := L.flatMap fun e => recsAt lv e.2

/-- The invariant of one leaf: its records are sorted and belong to it, and `page` is their size. -/
structure LeafOk (c : Cfg) (L : Layer) (i : Nat) (l : Leaf) : Prop where
  sorted : OrdMap.Sorted c.lt l.recs
  own : ∀ r ∈ l.recs, locate c.lt r.1 L = some i
  page : l.page = c.base + recsSize c l.recs

/-- The invariant of the leaves. -/
structure Lower (c : Cfg) (s : State) (L : Layer) : Prop where
  seps : SepSorted c.lt L
  nodup : (L.map (·.2)).Nodup
  fresh : ∀ e ∈ L, e.2 < s.numLeaf
  linked : Linked s.leaves none L none
  first : headId L none = some s.first
  last : s.lastOk = true → lastId L none = some s.last
  leaf : ∀ e ∈ L, ∀ l, s.leaves e.2 = some l → LeafOk c L e.2 l
  iters : ∀ i d, (s.iters i).leaf = some d → ∃ x, (s.iters i).key = some x ∧ locate c.lt x L = some d

/-- The invariant of the inner nodes. -/
structure Upper (s : State) (ups : List Layer) (L : Layer) : Prop where
  shape : Shape s.inners s.root ups L
  level : s.level = ups.length + 1
  nodup : (ids ups).Nodup
  fresh : ∀ i ∈ ids ups, i < s.numInner

/-! ### The list of leaves -/

theorem headId_cons (e : Option Bytes × Nat) (L : Layer) (d : Option Nat) : headId (e :: L) d = some e.2 := rfl

theorem headId_append (A : Layer) (e : Option Bytes × Nat) (B : Layer) (d : Option Nat) : headId (A ++ e :: B) d = headId A (some e.2) := by
  cases A <;> rfl

theorem lastId_append (A : Layer) (e : Option Bytes × Nat) (B : Layer) (d : Option Nat) : lastId (A ++ e :: B) d = lastId B (some e.2) := by
  unfold lastId
  rw [List.getLast?_append, List.getLast?_cons]
  cases h : B.getLast? with
  | none => simp
  | some b => simp

theorem lastId_cons (e : Option Bytes × Nat) (B : Layer) (d : Option Nat) : lastId (e :: B) d = lastId B (some e.2) := lastId_append [] e B d

theorem linked_append {lv : Nat → Option Leaf} : ∀ {A B : Layer} {p nx : Option Nat},
    Linked lv p (A ++ B) nx ↔ Linked lv p A (headId B nx) ∧ Linked lv (lastId A p) B nx
  | [], B, p, nx => by simp [Linked, lastId]
  | e :: A, B, p, nx => by
    simp only [List.cons_append, Linked, linked_append (A := A), lastId_cons]
    have : headId (A ++ B) nx = headId A (headId B nx) := by
      cases A with
      | nil => simp [headId]
      | cons a A => rfl
    rw [this, and_assoc]

theorem linked_split {lv : Nat → Option Leaf} {A B : Layer} {e : Option Bytes × Nat} {p nx : Option Nat} :
    Linked lv p (A ++ e :: B) nx ↔ Linked lv p A (some e.2) ∧ (∃ l, lv e.2 = some l ∧ l.prev = lastId A p ∧ l.next = headId B nx) ∧
      Linked lv (some e.2) B nx := by
  rw [linked_append]
  rfl

theorem Linked.congr {lv lv' : Nat → Option Leaf} : ∀ {A : Layer} {p nx : Option Nat}, Linked lv p A nx → (∀ e ∈ A, lv' e.2 = lv e.2) → Linked lv' p A nx
  | [], _, _, _, _ => trivial
  | e :: A, p, nx, h, hc => by
    obtain ⟨⟨l, h1, h2⟩, h3⟩ := h
    exact ⟨⟨l, by rw [hc e (by simp)]; exact h1, h2⟩, h3.congr fun d hd => hc d (by simp [hd])⟩

theorem Linked.get {lv : Nat → Option Leaf} {L : Layer} {p nx : Option Nat} (h : Linked lv p L nx) {e : Option Bytes × Nat} (he : e ∈ L) :
    ∃ l, lv e.2 = some l := by
  obtain ⟨A, B, rfl⟩ := List.append_of_mem he
  obtain ⟨_, ⟨l, h1, _⟩, _⟩ := linked_split.1 h
  exact ⟨l, h1⟩

/-- `setPrev` on the first node of the rest of the list. -/
theorem setPrev_spec {lv : Nat → Option Leaf} {B : Layer} {p q : Option Nat} (h : Linked lv p B none) (hn : (B.map (·.2)).Nodup) :
    ∃ lv', setPrev lv (headId B none) q = some lv' ∧ Linked lv' q B none ∧ (∀ i, i ∉ B.map (·.2) → lv' i = lv i) ∧
      ∀ i, (lv' i).map (fun l => (l.recs, l.page)) = (lv i).map (fun l => (l.recs, l.page)) := by
  cases B with
  | nil => exact ⟨lv, rfl, trivial, fun _ _ => rfl, fun _ => rfl⟩
  | cons b B =>
    obtain ⟨⟨l, h1, h2, h3⟩, h4⟩ := h
    rw [List.map_cons, List.nodup_cons] at hn
    refine ⟨upd lv b.2 (some { l with prev := q, dirty := true }), ?_, ⟨⟨{ l with prev := q, dirty := true }, by simp [upd], rfl, h3⟩, h4.congr fun d hd => ?_⟩, fun i hi => ?_, fun i => ?_⟩
    · simp [setPrev, headId, h1]
    · have : d.2 ≠ b.2 := fun h => hn.1 (h ▸ List.mem_map.2 ⟨d, hd, rfl⟩)
      simp [upd, this]
    · have : i ≠ b.2 := fun h => hi (by simp [h])
      simp [upd, this]
    · by_cases hi : i = b.2
      · subst hi; simp [upd, h1]
      · simp [upd, hi]

/-- `setNext` on the last node of the front of the list. -/
theorem setNext_spec {lv : Nat → Option Leaf} {A : Layer} {j : Nat} {q : Nat} (h : Linked lv none A (some j)) (hn : (A.map (·.2)).Nodup) :
    ∃ lv', setNext lv (lastId A none) (some q) = some lv' ∧ Linked lv' none A (some q) ∧ (∀ i, i ∉ A.map (·.2) → lv' i = lv i) ∧
      ∀ i, (lv' i).map (fun l => (l.recs, l.page)) = (lv i).map (fun l => (l.recs, l.page)) := by
  rcases List.eq_nil_or_concat A with rfl | ⟨A, a, rfl⟩
  · exact ⟨lv, rfl, trivial, fun _ _ => rfl, fun _ => rfl⟩
  · rw [List.concat_eq_append] at h hn ⊢
    obtain ⟨h1, ⟨l, h2, h3, h4⟩, _⟩ := linked_split.1 h
    rw [List.map_append, List.nodup_append] at hn
    have hl : lastId (A ++ [a]) none = some a.2 := by rw [lastId_append]; rfl
    rw [hl]
    refine ⟨upd lv a.2 (some { l with next := some q, dirty := true }), by simp [setNext, h2], ?_, fun i hi => ?_, fun i => ?_⟩
    · refine linked_split.2 ⟨h1.congr fun d hd => ?_, ⟨{ l with next := some q, dirty := true }, by simp [upd], h3, rfl⟩, trivial⟩
      have : d.2 ≠ a.2 := fun h => hn.2.2 d.2 (List.mem_map.2 ⟨d, hd, rfl⟩) a.2 (by simp) h
      simp [upd, this]
    · have : i ≠ a.2 := fun h => hi (by simp [h])
      simp [upd, this]
    · by_cases hi : i = a.2
      · subst hi; simp [upd, h2]
      · simp [upd, hi]

/-! ### What is in the leaves -/

theorem contents_append (lv : Nat → Option Leaf) (A B : Layer) : contents lv (A ++ B) = contents lv A ++ contents lv B := by
  simp [contents]

theorem contents_cons (lv : Nat → Option Leaf) (e : Option Bytes × Nat) (B : Layer) : contents lv (e :: B) = recsAt lv e.2 ++ contents lv B := by
  simp [contents]

theorem contents_congr {lv lv' : Nat → Option Leaf} {A : Layer} (h : ∀ e ∈ A, recsAt lv' e.2 = recsAt lv e.2) : contents lv' A = contents lv A := by
  unfold contents
  rw [List.flatMap_def, List.flatMap_def]
  congr 1
  exact List.map_congr_left h

theorem mem_contents {lv : Nat → Option Leaf} {A : Layer} {r : Rec} (h : r ∈ contents lv A) : ∃ e ∈ A, ∃ l, lv e.2 = some l ∧ r ∈ l.recs := by
  obtain ⟨e, he, hr⟩ := List.mem_flatMap.1 h
  refine ⟨e, he, ?_⟩
  unfold recsAt at hr
  cases hl : lv e.2 with
  | none => rw [hl] at hr; simp at hr
  | some l => rw [hl] at hr; exact ⟨l, rfl, by simpa using hr⟩

theorem recsAt_some {lv : Nat → Option Leaf} {i : Nat} {l : Leaf} (h : lv i = some l) : recsAt lv i = l.recs := by simp [recsAt, h]

/-- A record that belongs to a node of the layer: the nodes to the right have greater separators. -/
theorem own_split (hw : StrictWeak c.lt) {L P Q : Layer} {e : Option Bytes × Nat} (hs : SepSorted c.lt L) (hn : (L.map (·.2)).Nodup)
    (hL : L = P ++ e :: Q) {y : Bytes} (h : locate c.lt y L = some e.2) : above c.lt y e.1 = false ∧ ∀ d ∈ Q, above c.lt y d.1 = true := by
  obtain ⟨A, e', B, h1, h2⟩ := at_of_locate hw hs h
  have hu : P = A ∧ e = e' ∧ Q = B := by
    have he : P ++ e :: Q = A ++ e' :: B := hL.symm.trans h1.1
    rw [hL] at hn
    have key : ∀ (P A : Layer), P ++ e :: Q = A ++ e' :: B → ((P ++ e :: Q).map (·.2)).Nodup → P = A ∧ e = e' ∧ Q = B := by
      intro P
      induction P with
      | nil =>
        intro A he hn
        cases A with
        | nil => simpa using he
        | cons a A =>
          simp only [List.nil_append, List.cons_append, List.cons.injEq] at he
          simp only [List.nil_append, List.map_cons, List.nodup_cons] at hn
          exact absurd (by rw [← h2]; exact List.mem_map.2 ⟨e', by rw [he.2]; simp, rfl⟩) hn.1
      | cons p P ih =>
        intro A he hn
        cases A with
        | nil =>
          simp only [List.nil_append, List.cons_append, List.cons.injEq] at he
          simp only [List.cons_append, List.map_cons, List.nodup_cons] at hn
          exact absurd (by rw [he.1, h2]; exact List.mem_map.2 ⟨e, by simp, rfl⟩) hn.1
        | cons a A =>
          simp only [List.cons_append, List.cons.injEq] at he
          simp only [List.cons_append, List.map_cons, List.nodup_cons] at hn
          obtain ⟨i1, i2⟩ := ih A he.2 hn.2
          exact ⟨by rw [he.1, i1], i2⟩
    exact key P A he hn
  obtain ⟨rfl, rfl, rfl⟩ := hu
  exact ⟨h1.2.2.1, h1.2.2.2⟩

/-- The keys to the left and to the right of the leaf of a key. -/
theorem contents_sides (hw : StrictWeak c.lt) {s : State} {L A B : Layer} {e : Option Bytes × Nat} {x : Bytes} (h : Lower c s L) (ha : At c.lt x L A e B) :
    (∀ r ∈ contents s.leaves A, c.lt r.1 x = true) ∧ ∀ r ∈ contents s.leaves B, c.lt x r.1 = true := by
  constructor
  · intro r hr
    obtain ⟨a, haA, l, hl, hrl⟩ := mem_contents hr
    have := (h.leaf a (by rw [ha.1]; simp [haA]) l hl).own r hrl
    obtain ⟨A1, A2, rfl⟩ := List.append_of_mem haA
    obtain ⟨_, h2⟩ := own_split hw h.seps h.nodup (P := A1) (Q := A2 ++ e :: B) (e := a) (by rw [ha.1]; simp) this
    exact lt_of_above hw (h2 e (by simp)) ha.2.2.1
  · intro r hr
    obtain ⟨b, hbB, l, hl, hrl⟩ := mem_contents hr
    have := (h.leaf b (by rw [ha.1]; simp [hbB]) l hl).own r hrl
    obtain ⟨B1, B2, rfl⟩ := List.append_of_mem hbB
    obtain ⟨h1, _⟩ := own_split hw h.seps h.nodup (P := A ++ e :: B1) (Q := B2) (e := b) (by rw [ha.1]; simp) this
    exact lt_of_above hw (ha.2.2.2 b (by simp)) h1

/-- All records are in ascending order. -/
theorem contents_sorted (hw : StrictWeak c.lt) {s : State} {L : Layer} (h : Lower c s L) : OrdMap.Sorted c.lt (contents s.leaves L) := by
  have key : ∀ (B A : Layer), L = A ++ B → OrdMap.Sorted c.lt (contents s.leaves B) := by
    intro B
    induction B with
    | nil => intro _ _; exact List.Pairwise.nil
    | cons e B ih =>
      intro A hL
      have h1 := ih (A ++ [e]) (by rw [hL]; simp)
      rw [contents_cons]
      unfold OrdMap.Sorted
      rw [List.pairwise_append]
      obtain ⟨l, hl⟩ := h.linked.get (e := e) (by rw [hL]; simp)
      rw [recsAt_some hl]
      have hlo := h.leaf e (by rw [hL]; simp) l hl
      refine ⟨hlo.sorted, h1, fun r hr r' hr' => ?_⟩
      obtain ⟨b, hb, l', hl', hrl⟩ := mem_contents hr'
      have o1 := own_split hw h.seps h.nodup hL (hlo.own r hr)
      have := (h.leaf b (by rw [hL]; simp [hb]) l' hl').own r' hrl
      obtain ⟨B1, B2, rfl⟩ := List.append_of_mem hb
      obtain ⟨h3, _⟩ := own_split hw h.seps h.nodup (P := A ++ e :: B1) (Q := B2) (e := b) (by rw [hL]; simp) this
      exact lt_of_above hw (o1.2 b (by simp)) h3
  exact key L [] rfl

/-- The lower part does not depend on the inner nodes. -/
theorem Lower.same {s s' : State} {L : Layer} (h : Lower c s L) (hr : SameRest s s') : Lower c s' L := by
  rw [hr]
  exact ⟨h.seps, h.nodup, h.fresh, h.linked, h.first, h.last, h.leaf, h.iters⟩

end Verif.BTree
