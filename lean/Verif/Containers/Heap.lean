import Verif.Prelude.OrdMap
/-
`HeapByCostAdd` and `HeapByCostFinish` (tkrzw_containers.h 878-904): C43.
-/
namespace Verif.Heap

/-- A cost with its payload, `std::pair<C, T>`. The cost is an integer (a `double` that is not NaN would do as well). -/
abbrev Item (T : Type) := Int × T

/-- The order of `std::pair`: by cost, then by payload. -/
def pairLt {T : Type} (lt : T → T → Bool) (x y : Item T) : Bool := decide (x.1 < y.1) || (decide (x.1 = y.1) && lt x.2 y.2)

/-- What C++ promises of `std::push_heap` and `std::pop_heap`; how they arrange the elements is left open. `IsHeap` is
`std::is_heap` for the order of pairs. -/
structure StdHeap {T : Type} (lt : T → T → Bool) where
  /-- Is the range a max heap? -/
  IsHeap : List (Item T) → Prop
  /-- `std::push_heap` on a range whose all but last elements are a heap. -/
  push : List (Item T) → List (Item T)
  /-- `std::pop_heap`. -/
  pop : List (Item T) → List (Item T)
  nil : IsHeap []
  front : ∀ x l, IsHeap (x :: l) → ∀ y ∈ l, pairLt lt x y = false
  push_perm : ∀ l x, IsHeap l → (push (l ++ [x])).Perm (l ++ [x])
  push_heap : ∀ l x, IsHeap l → IsHeap (push (l ++ [x]))
  pop_spec : ∀ x l, IsHeap (x :: l) → ∃ pre, pop (x :: l) = pre ++ [x] ∧ pre.Perm l ∧ IsHeap pre

/-- `HeapByCostAdd` (tkrzw_containers.h 879-891). `none` is `front` of an empty vector, which is undefined behaviour. -/
def add {T : Type} [DecidableEq T] {lt : T → T → Bool} (S : StdHeap lt) (cost : Int) (payload : T) (capacity : Nat) (heap : List (Item T)) : Option (List (Item T)) :=
  if heap.length ≥ capacity then
    match heap with
    | [] => none
    | f :: l =>
      if cost > f.1 ∨ (cost = f.1 ∧ (lt f.2 payload = true ∨ payload = f.2)) then some heap
      else some (S.push ((S.pop (f :: l)).dropLast ++ [(cost, payload)]))
  else some (S.push (heap ++ [(cost, payload)]))

/-- The loop of `HeapByCostFinish` (tkrzw_containers.h 899-903): the heap is the prefix of `n` elements. -/
def finishLoop {T : Type} {lt : T → T → Bool} (S : StdHeap lt) : Nat → List (Item T) → List (Item T)
  | 0, l => l
  | n + 1, l => finishLoop S n (S.pop (l.take (n + 1)) ++ l.drop (n + 1))

/-- `HeapByCostFinish` (tkrzw_containers.h 898-904). -/
def finish {T : Type} {lt : T → T → Bool} (S : StdHeap lt) (l : List (Item T)) : List (Item T) := finishLoop S l.length l

/-- Adding items one after another. -/
def addAll {T : Type} [DecidableEq T] {lt : T → T → Bool} (S : StdHeap lt) (capacity : Nat) : List (Item T) → List (Item T) → Option (List (Item T))
  | [], heap => some heap
  | x :: xs, heap => match add S x.1 x.2 capacity heap with
    | none => none
    | some h => addAll S capacity xs h

/-- SPECIFICATION: a strict total order. -/
structure StrictTotal {T : Type} (lt : T → T → Bool) : Prop where
  irrefl : ∀ a, lt a a = false
  trans : ∀ a b c, lt a b = true → lt b c = true → lt a c = true
  total : ∀ a b, lt a b = false → lt b a = false → a = b

/-- SPECIFICATION: `out` lists the `capacity` least of `items` in ascending order: the rest of the items is not less than any of
them. -/
def Least {T : Type} (lt : T → T → Bool) (capacity : Nat) (items out : List (Item T)) : Prop :=
  out.length = min capacity items.length ∧ out.Pairwise (fun x y => pairLt lt y x = false) ∧
  ∃ rest, (out ++ rest).Perm items ∧ ∀ x ∈ out, ∀ y ∈ rest, pairLt lt y x = false

variable {T : Type} [DecidableEq T] {lt : T → T → Bool}

theorem pairLt_total (h : StrictTotal lt) : StrictTotal (pairLt lt) where
  irrefl a := by simp [pairLt, h.irrefl]
  trans a b c h1 h2 := by
    simp only [pairLt, Bool.or_eq_true, decide_eq_true_eq, Bool.and_eq_true] at *
    rcases h1 with h1 | ⟨h1, h3⟩ <;> rcases h2 with h2 | ⟨h2, h4⟩
    · left; omega
    · left; omega
    · left; omega
    · right; exact ⟨by omega, h.trans _ _ _ h3 h4⟩
  total a b h1 h2 := by
    simp only [pairLt, Bool.or_eq_false_iff, decide_eq_false_iff_not, Bool.and_eq_false_iff] at h1 h2
    have e : a.1 = b.1 := by omega
    rcases a with ⟨a1, a2⟩
    rcases b with ⟨b1, b2⟩
    simp only at *
    subst e
    simp only [not_true, false_or] at h1 h2
    rw [h.total a2 b2 h1.2 h2.2]

theorem StrictTotal.asymm {α : Type} {lt : α → α → Bool} (h : StrictTotal lt) {a b : α} (h1 : lt a b = true) : lt b a = false := by
  cases h2 : lt b a with
  | false => rfl
  | true => have := h.trans _ _ _ h1 h2; rw [h.irrefl] at this; cases this

theorem StrictTotal.le_trans {α : Type} {lt : α → α → Bool} (h : StrictTotal lt) {a b c : α} (h1 : lt b a = false) (h2 : lt c b = false) : lt c a = false := by
  cases h3 : lt c a with
  | false => rfl
  | true =>
    cases h4 : lt a b with
    | true => have := h.trans _ _ _ h3 h4; rw [h2] at this; cases this
    | false => have := h.total _ _ h4 h1; subst this; rw [h2] at h3; cases h3

/-- The condition of `HeapByCostAdd` is "not less than the greatest". -/
theorem skip_iff (h : StrictTotal lt) (c : Int) (p : T) (f : Item T) :
    (c > f.1 ∨ (c = f.1 ∧ (lt f.2 p = true ∨ p = f.2))) ↔ pairLt lt (c, p) f = false := by
  simp only [pairLt, Bool.or_eq_false_iff, decide_eq_false_iff_not, Bool.and_eq_false_iff]
  constructor
  · rintro (h1 | ⟨h1, h2 | h2⟩)
    · exact ⟨by omega, Or.inl (by omega)⟩
    · exact ⟨by omega, Or.inr (h.asymm h2)⟩
    · subst h2; exact ⟨by omega, Or.inr (h.irrefl _)⟩
  · rintro ⟨h1, h2⟩
    by_cases h3 : c > f.1
    · exact Or.inl h3
    · have h4 : c = f.1 := by omega
      rcases h2 with h2 | h2
      · exact absurd h4 h2
      · refine Or.inr ⟨h4, ?_⟩
        cases h5 : lt f.2 p with
        | true => exact Or.inl rfl
        | false => exact Or.inr (h.total _ _ h2 h5)

/-- The heap holds the least of the items added. -/
structure Holds (S : StdHeap lt) (capacity : Nat) (items heap : List (Item T)) : Prop where
  isHeap : S.IsHeap heap
  size : heap.length = min capacity items.length
  rest : ∃ rest, (heap ++ rest).Perm items ∧ ∀ x ∈ heap, ∀ y ∈ rest, pairLt lt y x = false

theorem add_holds (h : StrictTotal lt) (S : StdHeap lt) {capacity : Nat} (hc : 1 ≤ capacity) {items heap : List (Item T)}
    (H : Holds S capacity items heap) (c : Int) (p : T) : ∃ out, add S c p capacity heap = some out ∧ Holds S capacity (items ++ [(c, p)]) out := by
  have hp := pairLt_total h
  obtain ⟨rest, h1, h2⟩ := H.rest
  have hl := h1.length_eq
  rw [List.length_append] at hl
  have hs := H.size
  unfold add
  by_cases hcap : heap.length ≥ capacity
  · rw [if_pos hcap]
    cases heap with
    | nil => simp at hcap; omega
    | cons f l =>
      by_cases hk : c > f.1 ∨ (c = f.1 ∧ (lt f.2 p = true ∨ p = f.2))
      · simp only [if_pos hk]
        refine ⟨_, rfl, H.isHeap, ?_, rest ++ [(c, p)], ?_, ?_⟩
        · rw [List.length_append, List.length_singleton]; omega
        · rw [← List.append_assoc]; exact h1.append_right _
        · intro x hx y hy
          rcases List.mem_append.1 hy with hy | hy
          · exact h2 x hx y hy
          · rw [List.mem_singleton] at hy; subst hy
            have hf := (skip_iff h c p f).1 hk
            rcases List.mem_cons.1 hx with hx | hx
            · subst hx; exact hf
            · exact hp.le_trans (S.front f l H.isHeap x hx) hf
      · simp only [if_neg hk]
        obtain ⟨pre, e1, e2, e3⟩ := S.pop_spec f l H.isHeap
        rw [e1, List.dropLast_concat]
        have hlt : pairLt lt (c, p) f = true := by
          have := mt (skip_iff h c p f).2 hk
          simpa using this
        have pp := S.push_perm pre (c, p) e3
        refine ⟨_, rfl, S.push_heap _ _ e3, ?_, f :: rest, ?_, ?_⟩
        · rw [pp.length_eq, List.length_append, e2.length_eq, List.length_append]
          simp only [List.length_cons, List.length_nil] at *; omega
        · have g1 : (S.push (pre ++ [(c, p)]) ++ f :: rest).Perm ((l ++ [(c, p)]) ++ f :: rest) :=
            (pp.trans (e2.append_right _)).append_right _
          refine g1.trans ?_
          have g2 : ((l ++ [(c, p)]) ++ f :: rest).Perm ((f :: l ++ rest) ++ [(c, p)]) := by
            simp only [List.append_assoc, List.cons_append, List.nil_append]
            refine (List.perm_middle (l₁ := l ++ [(c, p)]) (a := f) (l₂ := rest) |> fun q => ?_)
            simp only [List.append_assoc, List.cons_append, List.nil_append] at q
            refine q.trans (List.Perm.cons _ ?_)
            refine List.perm_middle.trans ?_
            rw [← List.append_assoc]
            exact (List.perm_append_singleton _ _).symm
          exact g2.trans (h1.append_right _)
        · intro x hx y hy
          have hx' := pp.mem_iff.1 hx
          have hxf : pairLt lt f x = false := by
            rcases List.mem_append.1 hx' with hx' | hx'
            · exact S.front f l H.isHeap x (e2.mem_iff.1 hx')
            · rw [List.mem_singleton] at hx'; subst hx'; exact hp.asymm hlt
          rcases List.mem_cons.1 hy with hy | hy
          · subst hy; exact hxf
          · exact hp.le_trans hxf (h2 f List.mem_cons_self y hy)
  · rw [if_neg hcap]
    have pp := S.push_perm heap (c, p) H.isHeap
    have hr : rest = [] := by
      have : rest.length = 0 := by omega
      exact List.length_eq_zero_iff.1 this
    subst hr
    refine ⟨_, rfl, S.push_heap _ _ H.isHeap, ?_, [], ?_, by simp⟩
    · rw [pp.length_eq, List.length_append, List.length_append]
      simp only [List.length_cons, List.length_nil]; omega
    · rw [List.append_nil]
      rw [List.append_nil] at h1
      exact pp.trans (h1.append_right _)

theorem addAll_holds (h : StrictTotal lt) (S : StdHeap lt) {capacity : Nat} (hc : 1 ≤ capacity) (xs : List (Item T)) {items heap : List (Item T)}
    (H : Holds S capacity items heap) : ∃ out, addAll S capacity xs heap = some out ∧ Holds S capacity (items ++ xs) out := by
  induction xs generalizing items heap with
  | nil => exact ⟨heap, rfl, by rwa [List.append_nil]⟩
  | cons x xs ih =>
    obtain ⟨o1, e1, H1⟩ := add_holds h S hc H x.1 x.2
    obtain ⟨o2, e2, H2⟩ := ih H1
    refine ⟨o2, ?_, ?_⟩
    · rw [addAll, e1]; exact e2
    · rw [List.append_assoc] at H2; exact H2

theorem finishLoop_spec (h : StrictTotal lt) (S : StdHeap lt) (n : Nat) : ∀ (hp srt : List (Item T)), hp.length = n → S.IsHeap hp →
    srt.Pairwise (fun x y => pairLt lt y x = false) → (∀ x ∈ hp, ∀ y ∈ srt, pairLt lt y x = false) →
    (finishLoop S n (hp ++ srt)).Pairwise (fun x y => pairLt lt y x = false) ∧ (finishLoop S n (hp ++ srt)).Perm (hp ++ srt) := by
  induction n with
  | zero =>
    intro hp srt hl _ hs _
    rw [List.length_eq_zero_iff] at hl
    subst hl
    exact ⟨hs, List.Perm.refl _⟩
  | succ n ih =>
    intro hp srt hl hH hs hle
    rw [finishLoop, List.take_left' hl, List.drop_left' hl]
    cases hp with
    | nil => simp at hl
    | cons f l =>
      obtain ⟨pre, e1, e2, e3⟩ := S.pop_spec f l hH
      rw [e1, List.append_assoc]
      have hlen : pre.length = n := by have := e2.length_eq; simp only [List.length_cons] at hl; omega
      obtain ⟨r1, r2⟩ := ih pre ([f] ++ srt) hlen e3
        (by
          rw [List.singleton_append, List.pairwise_cons]
          exact ⟨fun y hy => hle f List.mem_cons_self y hy, hs⟩)
        (by
          intro x hx y hy
          have hx' := e2.mem_iff.1 hx
          rcases List.mem_append.1 hy with hy | hy
          · rw [List.mem_singleton] at hy; subst hy; exact S.front _ l hH x hx'
          · exact hle x (List.mem_cons_of_mem _ hx') y hy)
      refine ⟨r1, r2.trans ?_⟩
      refine List.perm_middle.trans ?_
      exact List.Perm.cons _ (e2.append_right _)

/-- C43: adding any items to an empty heap vector of a positive capacity and finishing it gives the least items, as many as the
capacity allows, in ascending order of cost and payload. -/
theorem C43_heap_by_cost (h : StrictTotal lt) (S : StdHeap lt) (capacity : Nat) (hc : 1 ≤ capacity) (items : List (Item T)) :
    ∃ heap, addAll S capacity items [] = some heap ∧ Least lt capacity items (finish S heap) := by
  obtain ⟨heap, e, H⟩ := addAll_holds h S hc items (items := []) (heap := []) ⟨S.nil, by simp, [], by simp, by simp⟩
  refine ⟨heap, e, ?_⟩
  rw [List.nil_append] at H
  obtain ⟨r1, r2⟩ := finishLoop_spec h S heap.length heap [] rfl H.isHeap List.Pairwise.nil (by simp)
  rw [List.append_nil] at r1 r2
  obtain ⟨rest, g1, g2⟩ := H.rest
  refine ⟨?_, r1, rest, (r2.append_right _).trans g1, ?_⟩
  · rw [finish, r2.length_eq, H.size]
  · intro x hx y hy
    exact g2 x (r2.mem_iff.1 hx) y hy

/-- The outcome does not depend on the order of the items nor on how the library arranges a heap. -/
theorem C43_order_independent (h : StrictTotal lt) (S S' : StdHeap lt) (capacity : Nat) (hc : 1 ≤ capacity) (items items' : List (Item T))
    (hperm : items.Perm items') : (addAll S capacity items []).map (finish S) = (addAll S' capacity items' []).map (finish S') := by
  obtain ⟨h1, e1, l1⟩ := C43_heap_by_cost h S capacity hc items
  obtain ⟨h2, e2, l2⟩ := C43_heap_by_cost h S' capacity hc items'
  rw [e1, e2]
  simp only [Option.map_some, Option.some.injEq]
  have hp := pairLt_total h
  have key : ∀ (a b ra rb : List (Item T)), a.length = b.length → (a ++ ra).Perm (b ++ rb) →
      a.Pairwise (fun x y => pairLt lt y x = false) → b.Pairwise (fun x y => pairLt lt y x = false) →
      (∀ x ∈ a, ∀ y ∈ ra, pairLt lt y x = false) → (∀ x ∈ b, ∀ y ∈ rb, pairLt lt y x = false) → a = b := by
    intro a
    induction a with
    | nil => intro b ra rb hl _ _ _ _ _; exact (List.length_eq_zero_iff.1 hl.symm).symm
    | cons x a ih =>
      intro b ra rb hl hperm ha hb hra hrb
      cases b with
      | nil => simp at hl
      | cons y b =>
        have hxy : pairLt lt y x = false := by
          have : y ∈ x :: a ++ ra := hperm.mem_iff.2 (by simp)
          rcases List.mem_append.1 this with hm | hm
          · rcases List.mem_cons.1 hm with hm | hm
            · subst hm; exact hp.irrefl _
            · exact (List.pairwise_cons.1 ha).1 y hm
          · exact hra x List.mem_cons_self y hm
        have hyx : pairLt lt x y = false := by
          have : x ∈ y :: b ++ rb := hperm.mem_iff.1 (by simp)
          rcases List.mem_append.1 this with hm | hm
          · rcases List.mem_cons.1 hm with hm | hm
            · subst hm; exact hp.irrefl _
            · exact (List.pairwise_cons.1 hb).1 x hm
          · exact hrb y List.mem_cons_self x hm
        have e := hp.total _ _ hyx hxy
        subst e
        rw [ih b ra rb (by simpa using hl) ((List.perm_cons _).1 hperm) (List.pairwise_cons.1 ha).2 (List.pairwise_cons.1 hb).2
          (fun u hu => hra u (List.mem_cons_of_mem _ hu)) (fun u hu => hrb u (List.mem_cons_of_mem _ hu))]
  obtain ⟨s1, p1, r1, q1, o1⟩ := l1
  obtain ⟨s2, p2, r2, q2, o2⟩ := l2
  exact key _ _ r1 r2 (by rw [s1, s2, hperm.length_eq]) (q1.trans (hperm.trans q2.symm)) p1 p2 o1 o2

/-- With the capacity 0 the property fails: the first addition takes the front of an empty vector. -/
theorem C43_zero_violated (S : StdHeap lt) (c : Int) (p : T) : addAll S 0 [(c, p)] [] = none := by
  simp [addAll, add]

/-! ### A library that meets the contract, and a case -/

/-- Insertion into a list in descending order. -/
def insertDesc (lt : T → T → Bool) (x : Item T) : List (Item T) → List (Item T)
  | [] => [x]
  | y :: l => if pairLt lt x y then y :: insertDesc lt x l else x :: y :: l

theorem insertDesc_perm (x : Item T) (l : List (Item T)) : (insertDesc lt x l).Perm (l ++ [x]) := by
  induction l with
  | nil => exact List.Perm.refl _
  | cons y l ih =>
    rw [insertDesc]
    split
    · exact List.Perm.cons _ ih
    · exact (List.perm_append_singleton x (y :: l)).symm

theorem insertDesc_sorted (h : StrictTotal lt) (x : Item T) (l : List (Item T)) (hs : l.Pairwise (fun a b => pairLt lt a b = false)) :
    (insertDesc lt x l).Pairwise (fun a b => pairLt lt a b = false) := by
  have hp := pairLt_total h
  induction l with
  | nil => simp [insertDesc]
  | cons y l ih =>
    rw [List.pairwise_cons] at hs
    rw [insertDesc]
    split
    · rename_i hlt
      rw [List.pairwise_cons]
      refine ⟨?_, ih hs.2⟩
      intro z hz
      rcases List.mem_append.1 ((insertDesc_perm x l).mem_iff.1 hz) with hz | hz
      · exact hs.1 z hz
      · rw [List.mem_singleton] at hz; subst hz; exact hp.asymm hlt
    · rename_i hlt
      have hxy : pairLt lt x y = false := by simpa using hlt
      rw [List.pairwise_cons]
      refine ⟨?_, List.pairwise_cons.2 hs⟩
      intro z hz
      rcases List.mem_cons.1 hz with hz | hz
      · subst hz; exact hxy
      · exact hp.le_trans (hs.1 z hz) hxy

/-- Lists in descending order are heaps. -/
def descHeap (h : StrictTotal lt) : StdHeap lt where
  IsHeap l := l.Pairwise (fun a b => pairLt lt a b = false)
  push l := match l.getLast? with
    | some x => insertDesc lt x l.dropLast
    | none => []
  pop l := match l with
    | [] => []
    | x :: l => l ++ [x]
  nil := List.Pairwise.nil
  front x l hl := (List.pairwise_cons.1 hl).1
  push_perm l x _ := by simp only [List.getLast?_concat, List.dropLast_concat]; exact insertDesc_perm x l
  push_heap l x hl := by simp only [List.getLast?_concat, List.dropLast_concat]; exact insertDesc_sorted h x l hl
  pop_spec x l hl := ⟨l, rfl, List.Perm.refl _, (List.pairwise_cons.1 hl).2⟩

theorem nat_total : StrictTotal (fun a b : Nat => decide (a < b)) where
  irrefl := by simp
  trans a b c := by simp only [decide_eq_true_eq]; omega
  total a b := by simp only [decide_eq_false_iff_not]; omega

/-- Five items, two of the same cost; the three least remain. -/
example : (addAll (descHeap nat_total) 3 [(5, 1), (2, 9), (2, 4), (7, 0), (3, 3)] []).map (finish (descHeap nat_total)) =
    some [(2, 4), (2, 9), (3, 3)] := by decide +kernel

end Verif.Heap
