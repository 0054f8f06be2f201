import Verif.BTree.Model
/-
The shape of the tree, seen as layers.  A layer is the list of all nodes of one level from left to right, each with the key that separates it from its left
neighbour (nothing for the leftmost).  A layer is what the inner nodes of the layer above expand to.
-/
namespace Verif.BTree
open Verif

variable {lt : Bytes → Bytes → Bool}

/-- A layer: separator and node. -/
abbrev Layer := List (Option Bytes × Nat)

/-- The node is to the right of the key: its separator is greater. -/
def above (lt : Bytes → Bytes → Bool) (x : Bytes) : Option Bytes → Bool
  | none => false
  | some k => lt x k

/-- The order of separators: nothing before everything. -/
def sepLt (lt : Bytes → Bytes → Bool) : Option Bytes → Option Bytes → Prop
  | _, none => False
  | none, some _ => True
  | some a, some b => lt a b = true

/-- The separators of a layer are in strictly ascending order. -/
def SepSorted (lt : Bytes → Bytes → Bool) (L : Layer) : Prop := (L.map (·.1)).Pairwise (sepLt lt)

/-- The last node whose separator is not greater than the key. -/
def locate (lt : Bytes → Bytes → Bool) (x : Bytes) : Layer → Option Nat
  | [] => none
  | e :: L => if above lt x e.1 then none else (locate lt x L).or (some e.2)

/-- The same as a decomposition of the layer. -/
def At (lt : Bytes → Bytes → Bool) (x : Bytes) (L A : Layer) (e : Option Bytes × Nat) (B : Layer) : Prop :=
  L = A ++ e :: B ∧ (∀ a ∈ A, above lt x a.1 = false) ∧ above lt x e.1 = false ∧ ∀ b ∈ B, above lt x b.1 = true

/-- The entries of the children of an inner node with separator `k`. -/
def exp (n : Inner) (k : Option Bytes) : Layer := (k, n.heir) :: n.links.map fun l => (some l.1, l.2)

/-- The same for an entry of a layer. -/
def expand (inn : Nat → Option Inner) (e : Option Bytes × Nat) : Layer :=
  match inn e.2 with
  | none => []
  | some n => exp n e.1

/-- `L` is the lowest layer of the tree whose layers above it are `ups`, the lowest first. -/
def Shape (inn : Nat → Option Inner) (root : Nat) : List Layer → Layer → Prop
  | [], L => L = [(none, root)]
  | U :: ups, L => (∀ e ∈ U, ∃ n, inn e.2 = some n) ∧ U.flatMap (expand inn) = L ∧ Shape inn root ups U

/-- The nodes of some layers. -/
def ids (ups : List Layer) : List Nat := ups.flatMap fun U => U.map (·.2)

/-- The path to the key `x`, the lowest node first. -/
def Path (lt : Bytes → Bytes → Bool) (x : Bytes) : List Layer → List Nat → Prop
  | [], [] => True
  | U :: ups, i :: h => (∃ A e B, At lt x U A e B ∧ e.2 = i) ∧ Path lt x ups h
  | _, _ => False

/-! ### Order of separators -/

theorem sepLt_trans (hw : StrictWeak lt) {a b d : Option Bytes} (h1 : sepLt lt a b) (h2 : sepLt lt b d) : sepLt lt a d := by
  cases a <;> cases b <;> cases d <;> simp only [sepLt] at * <;> first | trivial | exact hw.trans _ _ _ h1 h2

/-- A key to the left of a separator is to the left of every greater separator. -/
theorem above_mono (hw : StrictWeak lt) {x : Bytes} {a b : Option Bytes} (h : above lt x a = true) (h2 : sepLt lt a b) : above lt x b = true := by
  cases a <;> cases b <;> simp only [above, sepLt] at * <;> first | trivial | exact hw.trans _ _ _ h h2

theorem above_false_mono (hw : StrictWeak lt) {x : Bytes} {a b : Option Bytes} (h : above lt x b = false) (h2 : sepLt lt a b) : above lt x a = false := by
  cases h3 : above lt x a with
  | false => rfl
  | true => rw [above_mono hw h3 h2] at h; cases h

/-- Two keys on the two sides of a separator. -/
theorem lt_of_above (hw : StrictWeak lt) {x y : Bytes} {a : Option Bytes} (h1 : above lt x a = true) (h2 : above lt y a = false) : lt x y = true := by
  cases a with
  | none => cases h1
  | some k =>
    simp only [above] at h1 h2
    rcases hw.cotrans x y k h1 with h | h
    · exact h
    · rw [h] at h2; cases h2

theorem sepSorted_append {A B : Layer} : SepSorted lt (A ++ B) ↔
    SepSorted lt A ∧ SepSorted lt B ∧ ∀ a ∈ A, ∀ b ∈ B, sepLt lt a.1 b.1 := by
  simp only [SepSorted, List.map_append, List.pairwise_append, List.mem_map]
  constructor
  · rintro ⟨h1, h2, h3⟩
    exact ⟨h1, h2, fun a ha b hb => h3 _ ⟨a, ha, rfl⟩ _ ⟨b, hb, rfl⟩⟩
  · rintro ⟨h1, h2, h3⟩
    refine ⟨h1, h2, ?_⟩
    rintro _ ⟨a, ha, rfl⟩ _ ⟨b, hb, rfl⟩
    exact h3 a ha b hb

theorem sepSorted_cons {e : Option Bytes × Nat} {B : Layer} : SepSorted lt (e :: B) ↔ (∀ b ∈ B, sepLt lt e.1 b.1) ∧ SepSorted lt B := by
  simp [SepSorted, List.pairwise_cons]

/-! ### Locating a key in a layer -/

theorem locate_mem {x : Bytes} : ∀ {L : Layer} {i : Nat}, locate lt x L = some i → i ∈ L.map (·.2)
  | [], i, h => by simp [locate] at h
  | e :: L, i, h => by
    simp only [locate] at h
    split at h
    · cases h
    · cases h2 : locate lt x L with
      | none => rw [h2] at h; simp only [Option.none_or, Option.some.injEq] at h; simp [h]
      | some j =>
        rw [h2] at h
        simp only [Option.some_or, Option.some.injEq] at h
        subst h
        have := locate_mem h2
        simp only [List.map_cons, List.mem_cons]
        exact Or.inr this

/-- What precedes a node whose separator is not greater does not matter. -/
theorem locate_append_le (hw : StrictWeak lt) {x : Bytes} {e : Option Bytes × Nat} {B : Layer} (he : above lt x e.1 = false) :
    ∀ {A : Layer}, SepSorted lt (A ++ e :: B) → locate lt x (A ++ e :: B) = locate lt x (e :: B)
  | [], _ => rfl
  | a :: A, hs => by
    have hs' := hs
    rw [List.cons_append, sepSorted_cons] at hs'
    have h1 : above lt x a.1 = false := above_false_mono hw he (hs'.1 e (by simp))
    have h2 := locate_append_le hw he hs'.2
    have h3 : ∃ j, locate lt x (e :: B) = some j := by
      simp only [locate, he, Bool.false_eq_true, if_false]
      cases locate lt x B <;> simp
    obtain ⟨j, hj⟩ := h3
    simp only [List.cons_append, locate, h1, Bool.false_eq_true, if_false]
    rw [show locate lt x (A ++ e :: B) = some j from h2.trans hj]
    simp only [locate, he, Bool.false_eq_true, if_false] at hj
    simp [hj, he]

theorem locate_append_gt {x : Bytes} {e : Option Bytes × Nat} {B : Layer} (he : above lt x e.1 = true) :
    ∀ {A : Layer}, locate lt x (A ++ e :: B) = locate lt x A
  | [] => by simp [locate, he]
  | a :: A => by
    simp only [List.cons_append, locate]
    rw [locate_append_gt he]

theorem locate_none_of_above {x : Bytes} {B : Layer} (h : ∀ b ∈ B, above lt x b.1 = true) : locate lt x B = none := by
  cases B with
  | nil => rfl
  | cons b B => simp [locate, h b (by simp)]

theorem At.locate (hw : StrictWeak lt) {x : Bytes} {L A B : Layer} {e : Option Bytes × Nat} (h : At lt x L A e B) (hs : SepSorted lt L) :
    locate lt x L = some e.2 := by
  obtain ⟨rfl, _, h2, h3⟩ := h
  rw [locate_append_le hw h2 hs]
  simp [BTree.locate, h2, locate_none_of_above h3]

theorem at_cons (hw : StrictWeak lt) {x : Bytes} : ∀ {L : Layer} {e : Option Bytes × Nat}, SepSorted lt (e :: L) → above lt x e.1 = false →
    ∃ A e' B, At lt x (e :: L) A e' B
  | [], e, _, h => ⟨[], e, [], rfl, by simp, h, by simp⟩
  | d :: L, e, hs, h => by
    cases hd : above lt x d.1 with
    | true =>
      refine ⟨[], e, d :: L, rfl, by simp, h, fun b hb => ?_⟩
      rcases List.mem_cons.1 hb with rfl | hb
      · exact hd
      · exact above_mono hw hd ((sepSorted_cons.1 (sepSorted_cons.1 hs).2).1 b hb)
    | false =>
      obtain ⟨A, e', B, h1, h2, h3, h4⟩ := at_cons hw (sepSorted_cons.1 hs).2 hd
      refine ⟨e :: A, e', B, by rw [h1]; rfl, fun a ha => ?_, h3, h4⟩
      rcases List.mem_cons.1 ha with rfl | ha
      · exact h
      · exact h2 a ha

theorem at_of_locate (hw : StrictWeak lt) {x : Bytes} {L : Layer} {i : Nat} (hs : SepSorted lt L) (h : locate lt x L = some i) :
    ∃ A e B, At lt x L A e B ∧ e.2 = i := by
  cases L with
  | nil => simp [locate] at h
  | cons e L =>
    cases he : above lt x e.1 with
    | true => simp [locate, he] at h
    | false =>
      obtain ⟨A, e', B, h1⟩ := at_cons hw hs he
      refine ⟨A, e', B, h1, ?_⟩
      have := h1.locate hw hs
      rw [h] at this
      exact (Option.some.inj this).symm

theorem At.unique {x : Bytes} {L A B A' B' : Layer} {e e' : Option Bytes × Nat} (h : At lt x L A e B) (h' : At lt x L A' e' B') :
    A = A' ∧ e = e' ∧ B = B' := by
  obtain ⟨h1, h2, h3, h4⟩ := h
  obtain ⟨g1, g2, g3, g4⟩ := h'
  have key : ∀ (A A' : Layer), A ++ e :: B = A' ++ e' :: B' → (∀ a ∈ A, above lt x a.1 = false) → (∀ a ∈ A', above lt x a.1 = false) →
      A = A' ∧ e = e' ∧ B = B' := by
    intro A
    induction A with
    | nil =>
      intro A' he _ h'
      cases A' with
      | nil => simpa using he
      | cons a A' =>
        exfalso
        simp only [List.nil_append, List.cons_append, List.cons.injEq] at he
        have : e' ∈ B := by rw [he.2]; simp
        rw [h4 e' this] at g3
        cases g3
    | cons a A ih =>
      intro A' he hA h'
      cases A' with
      | nil =>
        exfalso
        simp only [List.nil_append, List.cons_append, List.cons.injEq] at he
        have : e ∈ B' := by rw [← he.2]; simp
        rw [g4 e this] at h3
        cases h3
      | cons a' A' =>
        simp only [List.cons_append, List.cons.injEq] at he
        obtain ⟨r1, r2⟩ := ih A' he.2 (fun y hy => hA y (by simp [hy])) (fun y hy => h' y (by simp [hy]))
        exact ⟨by rw [he.1, r1], r2⟩
  exact key A A' (h1.symm.trans g1) h2 g2

/-- A node is inserted after its left part. -/
theorem locate_insert (hw : StrictWeak lt) {A B : Layer} {k : Option Bytes} {h ch : Nat} {m : Bytes}
    (hs : SepSorted lt (A ++ (k, h) :: (some m, ch) :: B)) (hn : ((A ++ (k, h) :: B).map (·.2)).Nodup) (y : Bytes) :
    locate lt y (A ++ (k, h) :: (some m, ch) :: B) =
      if locate lt y (A ++ (k, h) :: B) = some h ∧ lt y m = false then some ch else locate lt y (A ++ (k, h) :: B) := by
  have hs2 : SepSorted lt (A ++ (k, h) :: B) := by
    unfold SepSorted at hs ⊢
    refine hs.sublist ?_
    simp only [List.map_append, List.map_cons]
    exact List.Sublist.append (List.Sublist.refl _) ((List.sublist_cons_self _ _).cons_cons _)
  cases hk : above lt y k with
  | true =>
    rw [locate_append_gt (e := (k, h)) hk, locate_append_gt (e := (k, h)) hk]
    rw [if_neg]
    rintro ⟨h1, _⟩
    have := locate_mem h1
    rw [List.map_append, List.nodup_append] at hn
    exact hn.2.2 h this h (by simp) rfl
  | false =>
    rw [locate_append_le hw (e := (k, h)) hk hs, locate_append_le hw (e := (k, h)) hk hs2]
    have hk' : above lt y ((k, h) : Option Bytes × Nat).1 = false := hk
    simp only [locate, hk', Bool.false_eq_true, if_false]
    have hb : ∀ j, locate lt y B = some j → lt y m = false := by
      intro j hj
      cases B with
      | nil => simp [locate] at hj
      | cons b B =>
        have hbm : above lt y b.1 = false := by
          cases hb : above lt y b.1 with
          | false => rfl
          | true => simp [locate, hb] at hj
        have := sepSorted_append.1 hs
        have := (sepSorted_cons.1 (sepSorted_cons.1 this.2.1).2).1 b (by simp)
        exact above_false_mono hw hbm this
    cases hB : locate lt y B with
    | none =>
      simp only [above, Option.none_or, true_and]
      rcases Bool.eq_false_or_eq_true (lt y m) with hm | hm <;> simp [hm]
    | some j =>
      have hm := hb j hB
      have hj : j ≠ h := by
        have hjm := locate_mem hB
        rw [List.map_append, List.nodup_append, List.map_cons, List.nodup_cons] at hn
        intro he
        subst he
        exact hn.2.1.1 hjm
      simp [above, hm, hj]

/-- Two neighbouring nodes become one. -/
theorem locate_merge (hw : StrictWeak lt) {A B : Layer} {k : Option Bytes} {a b d : Nat} {m : Bytes}
    (hs : SepSorted lt (A ++ (k, a) :: (some m, b) :: B)) (hn : ((A ++ (k, a) :: (some m, b) :: B).map (·.2)).Nodup) (y : Bytes) :
    locate lt y (A ++ (k, d) :: B) =
      if locate lt y (A ++ (k, a) :: (some m, b) :: B) = some a ∨ locate lt y (A ++ (k, a) :: (some m, b) :: B) = some b then some d
      else locate lt y (A ++ (k, a) :: (some m, b) :: B) := by
  have hs2 : SepSorted lt (A ++ (k, d) :: B) := by
    unfold SepSorted at hs ⊢
    refine hs.sublist ?_
    simp only [List.map_append, List.map_cons]
    exact List.Sublist.append (List.Sublist.refl _) ((List.sublist_cons_self _ _).cons_cons _)
  rw [List.map_append, List.nodup_append] at hn
  simp only [List.map_cons, List.nodup_cons, List.mem_cons, not_or] at hn
  obtain ⟨_, ⟨⟨nab, naB⟩, nbB, _⟩, nA⟩ := hn
  cases hk : above lt y k with
  | true =>
    rw [locate_append_gt (e := (k, d)) hk, locate_append_gt (e := (k, a)) hk]
    rw [if_neg]
    rintro (h1 | h1)
    · exact nA a (locate_mem h1) a (Or.inl rfl) rfl
    · exact nA b (locate_mem h1) b (Or.inr (Or.inl rfl)) rfl
  | false =>
    rw [locate_append_le hw (e := (k, d)) hk hs2, locate_append_le hw (e := (k, a)) hk hs]
    have hk1 : above lt y ((k, d) : Option Bytes × Nat).1 = false := hk
    have hk2 : above lt y ((k, a) : Option Bytes × Nat).1 = false := hk
    simp only [locate, hk1, hk2, Bool.false_eq_true, if_false]
    cases hB : locate lt y B with
    | none =>
      simp only [above, Option.none_or]
      rcases Bool.eq_false_or_eq_true (lt y m) with hm | hm <;> simp [hm]
    | some j =>
      have hjm := locate_mem hB
      have hm : lt y m = false := by
        cases B with
        | nil => simp [locate] at hB
        | cons b' B =>
          have hbm : above lt y b'.1 = false := by
            cases hb : above lt y b'.1 with
            | false => rfl
            | true => simp [locate, hb] at hB
          have := sepSorted_append.1 hs
          have := (sepSorted_cons.1 (sepSorted_cons.1 this.2.1).2).1 b' (by simp)
          exact above_false_mono hw hbm this
      have ha : j ≠ a := by intro he; subst he; exact naB hjm
      have hb : j ≠ b := by intro he; subst he; exact nbB hjm
      simp [above, hm, ha, hb]

/-! ### Expansion -/

theorem expand_some {inn : Nat → Option Inner} {e : Option Bytes × Nat} {n : Inner} (h : inn e.2 = some n) : expand inn e = exp n e.1 := by
  simp [expand, h]

theorem seps_sublist {inn : Nat → Option Inner} : ∀ {U : Layer}, (∀ e ∈ U, ∃ n, inn e.2 = some n) →
    (U.map (·.1)).Sublist ((U.flatMap (expand inn)).map (·.1))
  | [], _ => by simp
  | e :: U, h => by
    obtain ⟨n, hn⟩ := h e (by simp)
    rw [List.flatMap_cons, expand_some hn, exp, List.map_append, List.map_cons, List.map_cons, List.cons_append]
    refine List.Sublist.cons_cons _ ?_
    exact (seps_sublist (fun d hd => h d (by simp [hd]))).trans (List.sublist_append_right _ _)

theorem sorted_up {inn : Nat → Option Inner} {U L : Layer} (h : ∀ e ∈ U, ∃ n, inn e.2 = some n) (hL : U.flatMap (expand inn) = L)
    (hs : SepSorted lt L) : SepSorted lt U := by
  subst hL
  exact hs.sublist (seps_sublist h)

/-- The lowest layer is not empty and its first separator is nothing. -/
theorem Shape.head {inn : Nat → Option Inner} {root : Nat} : ∀ {ups : List Layer} {L : Layer}, Shape inn root ups L → ∃ i T, L = (none, i) :: T
  | [], L, h => ⟨root, [], h⟩
  | U :: ups, L, h => by
    obtain ⟨h1, h2, h3⟩ := h
    obtain ⟨i, T, hU⟩ := h3.head
    obtain ⟨n, hn⟩ := h1 (none, i) (by rw [hU]; simp)
    rw [hU, List.flatMap_cons, expand_some hn, exp] at h2
    exact ⟨n.heir, _, h2.symm⟩

theorem Shape.exists_at (hw : StrictWeak lt) {inn : Nat → Option Inner} {root : Nat} {ups : List Layer} {L : Layer} (h : Shape inn root ups L)
    (hs : SepSorted lt L) (x : Bytes) : ∃ A e B, At lt x L A e B := by
  obtain ⟨i, T, rfl⟩ := h.head
  exact at_cons hw hs rfl

theorem exp_links_split {n : Inner} {k : Option Bytes} {x : Bytes} {X Y : Layer} {e : Option Bytes × Nat} (h : At lt x (exp n k) X e Y) :
    child lt n x = e.2 ∧ ∀ ch, exp { n with links := addLink lt n.links x ch, dirty := true } k = X ++ e :: (some x, ch) :: Y := by
  obtain ⟨h1, h2, h3, h4⟩ := h
  -- the links before and after
  have key : ∀ (ls : List (Bytes × Nat)) (X' Y : Layer), ls.map (fun l => ((some l.1, l.2) : Option Bytes × Nat)) = X' ++ Y →
      (∀ a ∈ X', above lt x a.1 = false) → (∀ b ∈ Y, above lt x b.1 = true) →
      (ls.takeWhile fun l => !lt x l.1).map (fun l => ((some l.1, l.2) : Option Bytes × Nat)) = X' ∧
      (ls.dropWhile fun l => !lt x l.1).map (fun l => ((some l.1, l.2) : Option Bytes × Nat)) = Y := by
    intro ls
    induction ls with
    | nil =>
      intro X' Y h _ _
      simp only [List.map_nil] at h
      have := List.append_eq_nil_iff.1 h.symm
      simp [this.1, this.2]
    | cons l ls ih =>
      intro X' Y h ha hb
      cases X' with
      | nil =>
        simp only [List.nil_append] at h
        have : above lt x (some l.1) = true := hb (some l.1, l.2) (by rw [← h]; simp)
        simp only [above] at this
        simp [this, ← h]
      | cons a X' =>
        simp only [List.map_cons, List.cons_append, List.cons.injEq] at h
        have : above lt x a.1 = false := ha a (by simp)
        rw [← h.1] at this
        simp only [above] at this
        obtain ⟨i1, i2⟩ := ih X' Y h.2 (fun y hy => ha y (by simp [hy])) hb
        simp [this, i1, i2, h.1]
  rw [exp] at h1
  cases X with
  | nil =>
    simp only [List.nil_append, List.cons.injEq] at h1
    obtain ⟨i1, i2⟩ := key n.links [] Y h1.2 (by simp) h4
    have i1' : (n.links.takeWhile fun l => !lt x l.1) = [] := List.map_eq_nil_iff.1 i1
    constructor
    · simp [child, i1', ← h1.1]
    · intro ch
      simp [exp, addLink, i1', i2, h1.1]
  | cons a X =>
    simp only [List.cons_append, List.cons.injEq] at h1
    obtain ⟨i1, i2⟩ := key n.links (X ++ [e]) Y (by rw [h1.2]; simp) (fun y hy => by
      rcases List.mem_append.1 hy with hy | hy
      · exact h2 y (by simp [hy])
      · simp only [List.mem_singleton] at hy
        subst hy
        exact h3) h4
    constructor
    · unfold child
      have : ((n.links.takeWhile fun l => !lt x l.1).map (fun l => ((some l.1, l.2) : Option Bytes × Nat))).getLast? = some e := by
        rw [i1]; simp
      rw [List.getLast?_map] at this
      cases hg : (n.links.takeWhile fun l => !lt x l.1).getLast? with
      | none => rw [hg] at this; simp at this
      | some l =>
        rw [hg] at this
        simp only [Option.map_some, Option.some.injEq] at this
        rw [← this]
    · intro ch
      simp only [exp, addLink, List.map_append, List.map_cons, i1, i2, h1.1]
      simp

/-- Locating a key in a layer and in the layer below. -/
theorem at_expand (hw : StrictWeak lt) {inn : Nat → Option Inner} {x : Bytes} {U L A B : Layer} {e : Option Bytes × Nat} {n : Inner}
    (hU : ∀ e ∈ U, ∃ n, inn e.2 = some n) (hL : U.flatMap (expand inn) = L) (hs : SepSorted lt L) (h : At lt x U A e B) (hn : inn e.2 = some n) :
    ∃ X e' Y, At lt x (exp n e.1) X e' Y ∧ At lt x L (A.flatMap (expand inn) ++ X) e' (Y ++ B.flatMap (expand inn)) := by
  obtain ⟨h1, h2, h3, h4⟩ := h
  subst h1
  rw [List.flatMap_append, List.flatMap_cons, expand_some hn] at hL
  have hs' := hs
  rw [← hL, sepSorted_append] at hs'
  obtain ⟨sA, sR, sAR⟩ := hs'
  rw [sepSorted_append] at sR
  obtain ⟨sE, sB, sEB⟩ := sR
  have hhead : above lt x ((e.1, n.heir) : Option Bytes × Nat).1 = false := h3
  obtain ⟨X, e', Y, g⟩ := at_cons hw (L := n.links.map fun (l : Bytes × Nat) => ((some l.1, l.2) : Option Bytes × Nat)) (e := (e.1, n.heir)) sE hhead
  refine ⟨X, e', Y, g, ?_⟩
  obtain ⟨g1, g2, g3, g4⟩ := g
  refine ⟨?_, ?_, g3, ?_⟩
  · rw [← hL, show exp n e.1 = X ++ e' :: Y from g1]
    simp
  · intro a ha
    rcases List.mem_append.1 ha with ha | ha
    · exact above_false_mono hw h3 (sAR a ha (e.1, n.heir) (by simp [exp]))
    · exact g2 a ha
  · intro b hb
    rcases List.mem_append.1 hb with hb | hb
    · exact g4 b hb
    · obtain ⟨d, hd, hb⟩ := List.mem_flatMap.1 hb
      obtain ⟨nd, hnd⟩ := hU d (by simp [hd])
      rw [expand_some hnd] at hb
      have hd' := h4 d hd
      rw [exp] at hb
      rcases List.mem_cons.1 hb with rfl | hb
      · exact hd'
      · have : SepSorted lt (exp nd d.1) := by
          have : (exp nd d.1).Sublist (B.flatMap (expand inn)) := by
            obtain ⟨B1, B2, rfl⟩ := List.append_of_mem hd
            rw [List.flatMap_append, List.flatMap_cons, expand_some hnd]
            exact (List.sublist_append_left _ _).trans (List.sublist_append_right _ _)
          exact sB.sublist (this.map _)
        rw [exp, sepSorted_cons] at this
        exact above_mono hw hd' (this.1 b hb)

/-- The search arrives at the located node, along the path. -/
theorem trace_spec (hw : StrictWeak lt) {c : Cfg} (hc : c.lt = lt) {s : State} {x : Bytes} : ∀ {ups : List Layer} {L : Layer},
    Shape s.inners s.root ups L → SepSorted lt L → ∃ A e B hist, trace c s x ups.length = some (e.2, hist) ∧ At lt x L A e B ∧ Path lt x ups hist
  | [], L, h, _ => by
    refine ⟨[], (none, s.root), [], [], rfl, ⟨h, by simp, rfl, by simp⟩, trivial⟩
  | U :: ups, L, h, hs => by
    obtain ⟨h1, h2, h3⟩ := h
    obtain ⟨A, e, B, hist, t, ha, hp⟩ := trace_spec hw hc (x := x) h3 (sorted_up h1 h2 hs)
    obtain ⟨n, hn⟩ := h1 e (by rw [ha.1]; simp)
    obtain ⟨X, e', Y, g1, g2⟩ := at_expand hw h1 h2 hs ha hn
    refine ⟨_, e', _, e.2 :: hist, ?_, g2, ⟨⟨A, e, B, ha, rfl⟩, hp⟩⟩
    simp only [trace, List.length_cons, t, hn, Option.bind_eq_bind, Option.bind_some, hc, (exp_links_split g1).1]

/-! ### Frame -/

theorem flatMap_expand_congr {inn inn' : Nat → Option Inner} {U : Layer} (h : ∀ e ∈ U, inn' e.2 = inn e.2) :
    U.flatMap (expand inn') = U.flatMap (expand inn) := by
  rw [List.flatMap_def, List.flatMap_def]
  congr 1
  refine List.map_congr_left fun e he => ?_
  simp [expand, h e he]

theorem mem_ids {ups : List Layer} {U : Layer} {e : Option Bytes × Nat} (hU : U ∈ ups) (he : e ∈ U) : e.2 ∈ ids ups :=
  List.mem_flatMap.2 ⟨U, hU, List.mem_map.2 ⟨e, he, rfl⟩⟩

theorem Shape.congr {inn inn' : Nat → Option Inner} {root : Nat} : ∀ {ups : List Layer} {L : Layer}, Shape inn root ups L →
    (∀ i ∈ ids ups, inn' i = inn i) → Shape inn' root ups L
  | [], _, h, _ => h
  | U :: ups, L, h, hc => by
    obtain ⟨h1, h2, h3⟩ := h
    have hU : ∀ e ∈ U, inn' e.2 = inn e.2 := fun e he => hc _ (mem_ids (by simp) he)
    refine ⟨fun e he => by rw [hU e he]; exact h1 e he, by rw [flatMap_expand_congr hU]; exact h2, h3.congr fun i hi => hc i ?_⟩
    obtain ⟨V, hV, hi⟩ := List.mem_flatMap.1 hi
    exact List.mem_flatMap.2 ⟨V, by simp [hV], hi⟩

theorem ids_cons (U : Layer) (ups : List Layer) : ids (U :: ups) = U.map (·.2) ++ ids ups := by simp [ids]

/-- One node of the layer above is changed. -/
theorem Shape.update {inn : Nat → Option Inner} {root : Nat} {U A B : Layer} {ups : List Layer} {L : Layer} {e : Option Bytes × Nat} {n' : Inner}
    (h : Shape inn root (U :: ups) L) (hn : (ids (U :: ups)).Nodup) (hU : U = A ++ e :: B) :
    Shape (upd inn e.2 (some n')) root (U :: ups) (A.flatMap (expand inn) ++ exp n' e.1 ++ B.flatMap (expand inn)) := by
  obtain ⟨h1, h2, h3⟩ := h
  rw [ids_cons, List.nodup_append] at hn
  obtain ⟨n1, n2, n3⟩ := hn
  subst hU
  rw [List.map_append, List.nodup_append, List.map_cons, List.nodup_cons] at n1
  refine ⟨fun d hd => ?_, ?_, h3.congr fun i hi => ?_⟩
  · by_cases hde : d.2 = e.2
    · exact ⟨n', by simp [upd, hde]⟩
    · obtain ⟨n, hn⟩ := h1 d hd
      exact ⟨n, by simp [upd, hde, hn]⟩
  · rw [List.flatMap_append, List.flatMap_cons]
    have e1 : expand (upd inn e.2 (some n')) e = exp n' e.1 := by simp [expand, upd]
    have e2 : A.flatMap (expand (upd inn e.2 (some n'))) = A.flatMap (expand inn) := by
      refine flatMap_expand_congr fun d hd => ?_
      have : d.2 ≠ e.2 := fun he => n1.2.2 d.2 (List.mem_map.2 ⟨d, hd, rfl⟩) e.2 (by simp) he
      simp [upd, this]
    have e3 : B.flatMap (expand (upd inn e.2 (some n'))) = B.flatMap (expand inn) := by
      refine flatMap_expand_congr fun d hd => ?_
      have : d.2 ≠ e.2 := fun he => n1.2.1.1 (by rw [← he]; exact List.mem_map.2 ⟨d, hd, rfl⟩)
      simp [upd, this]
    rw [e1, e2, e3, List.append_assoc]
  · have : i ≠ e.2 := fun he => n3 e.2 (by simp) i hi he.symm
    simp [upd, this]

end Verif.BTree
