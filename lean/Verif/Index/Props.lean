import Verif.Index.StdSim
import Verif.BTree.Cfgs
/-
Property C52: an index answers as the set of the pairs that were added and not removed, in order. The ordered databases below are those of
`Verif/BTree`: MemIndex is over a BabyDBM, FileIndex over a TreeDBM, PolyIndex over either.
-/
namespace Verif.Index
open Verif Verif.Codec

section
variable {κ ν : Type} [DecidableEq κ] [DecidableEq ν]

/-- What a specification must have so that an index is a set. -/
structure SetLike (lt : κ × ν → κ × ν → Bool) (Sp : S κ ν → Call κ ν → S κ ν → Out κ ν → Prop) : Prop where
  order : ∀ p, lt p p = false
  mem : ∀ u c u' o p, Sp u c u' o → (p ∈ u'.pairs ↔ present p (decide (p ∈ u.pairs)) [c] = true)
  asc : ∀ u c u' o, Sp u c u' o → Ordered lt u.pairs → Ordered lt u'.pairs
  check : ∀ u p u' o, Sp u (.check p) u' o → ∃ b, o = .flag b ∧ (b = true ↔ p ∈ u.pairs)
  values : ∀ u key max u' o, Sp u (.getValues key max) u' o → o = .values (valuesOf u.pairs key max)
  count : ∀ u u' o, Sp u .count u' o → o = .num u.pairs.length

variable {lt : κ × ν → κ × ν → Bool} {Sp : S κ ν → Call κ ν → S κ ν → Out κ ν → Prop}

theorem present_cons (p : κ × ν) (b : Bool) (c : Call κ ν) (l : List (Call κ ν)) : present p b (c :: l) = present p (present p b [c]) l := by
  cases c <;> rfl

theorem SetLike.run (h : SetLike lt Sp) : ∀ (l : List (Call κ ν)) (u u' : S κ ν) (os : List (Out κ ν)), RunOf Sp u l u' os → Ordered lt u.pairs →
    os.length = l.length ∧ Ordered lt u'.pairs ∧ ∀ p, p ∈ u'.pairs ↔ present p (decide (p ∈ u.pairs)) l = true
  | [], u, u', os, hr, ho => by
    obtain ⟨rfl, rfl⟩ := hr
    exact ⟨rfl, ho, by simp [present]⟩
  | c :: l, u, u', os, ⟨u1, o, os', h1, h2, e⟩, ho => by
    obtain ⟨h3, h4, h5⟩ := h.run l u1 u' os' h2 (h.asc _ _ _ _ h1 ho)
    refine ⟨by rw [e]; simp [h3], h4, fun p => ?_⟩
    rw [h5 p, present_cons]
    have := h.mem _ _ _ _ p h1
    have e2 : decide (p ∈ u1.pairs) = present p (decide (p ∈ u.pairs)) [c] := by
      rw [Bool.eq_iff_iff]
      simpa using this
    rw [e2]

omit [DecidableEq κ] [DecidableEq ν] in
theorem run_snoc : ∀ (l : List (Call κ ν)) (c : Call κ ν) (u u' : S κ ν) (os : List (Out κ ν)), RunOf Sp u (l ++ [c]) u' os →
    ∃ u1 os1 o, RunOf Sp u l u1 os1 ∧ Sp u1 c u' o ∧ os = os1 ++ [o]
  | [], c, u, u', os, ⟨u1, o, os', h1, h2, e⟩ => by
    obtain ⟨rfl, rfl⟩ := h2
    exact ⟨u, [], o, ⟨rfl, rfl⟩, h1, e⟩
  | a :: l, c, u, u', os, ⟨u1, o, os', h1, h2, e⟩ => by
    obtain ⟨u2, os1, o', h3, h4, h5⟩ := run_snoc l c u1 u' os' h2
    exact ⟨u2, o :: os1, o', ⟨u1, o, os1, h1, h3, rfl⟩, h4, by rw [e, h5]; rfl⟩

/-- A system whose histories are those of such a specification answers as a set. -/
theorem SetLike.answers (h : SetLike lt Sp) {ok : Call κ ν → Prop} {outs : List (Call κ ν) → Option (List (Out κ ν))} (hcount : ok .count)
    (hr : ∀ l, (∀ c ∈ l, ok c) → ∃ os u, outs l = some os ∧ RunOf Sp S.empty l u os) : Answers lt ok outs := by
  have step : ∀ (l : List (Call κ ν)) c, (∀ x ∈ l, ok x) → ok c → ∃ os o u u', outs (l ++ [c]) = some (os ++ [o]) ∧ os.length = l.length ∧ Sp u c u' o ∧
      Ordered lt u.pairs ∧ ∀ p, p ∈ u.pairs ↔ present p false l = true := by
    intro l c hl hc
    obtain ⟨os, u', h1, h2⟩ := hr (l ++ [c]) (fun x hx => by
      rcases List.mem_append.1 hx with hx | hx
      · exact hl x hx
      · simp at hx; subst hx; exact hc)
    obtain ⟨u, os1, o, h3, h4, h5⟩ := run_snoc l c _ _ _ h2
    obtain ⟨h6, h7, h8⟩ := h.run l _ _ _ h3 List.Pairwise.nil
    exact ⟨os1, o, u, u', by rw [h1, h5], h6, h4, h7, by simpa [S.empty] using h8⟩
  refine ⟨fun l p hl hp => ?_, fun l key max hl hp => ?_, fun l hl => ?_⟩
  · obtain ⟨os, o, u, u', h1, h2, h3, h4, h5⟩ := step l (.check p) hl hp
    obtain ⟨b, rfl, hb⟩ := h.check _ _ _ _ h3
    refine ⟨os, ?_, h2⟩
    have : b = present p false l := by
      rw [Bool.eq_iff_iff, hb, h5]
    rw [h1, this]
  · obtain ⟨os, o, u, u', h1, h2, h3, h4, h5⟩ := step l (.getValues key max) hl hp
    refine ⟨os, (u.pairs.filter fun p => p.1 = key).map (·.2), h2, ?_, ?_, fun v => ?_⟩
    · rw [h1, h.values _ _ _ _ _ h3]
      rfl
    · rw [List.pairwise_map]
      have h6 : (u.pairs.filter fun p => decide (p.1 = key)).Pairwise fun p q => lt p q = true := List.Pairwise.filter _ h4
      refine List.Pairwise.imp_of_mem ?_ h6
      intro a b ha hb hab
      have e1 : a.1 = key := by simpa using (List.mem_filter.1 ha).2
      have e2 : b.1 = key := by simpa using (List.mem_filter.1 hb).2
      rw [show (key, a.2) = a by rw [← e1], show (key, b.2) = b by rw [← e2]]
      exact hab
    · rw [← h5]
      simp only [List.mem_map, List.mem_filter, decide_eq_true_eq]
      constructor
      · rintro ⟨p, ⟨h1, h2⟩, h3⟩
        have : p = (key, v) := Prod.ext h2 h3
        rw [← this]; exact h1
      · intro h
        exact ⟨_, ⟨h, rfl⟩, rfl⟩
  · obtain ⟨os, o, u, u', h1, h2, h3, h4, h5⟩ := step l .count hl hcount
    refine ⟨os, u.pairs, h2, by rw [h1, h.count _ _ _ h3], ?_, h5⟩
    refine List.Pairwise.imp ?_ h4
    rintro a b hab rfl
    rw [h.order] at hab
    cases hab

theorem base_mem (ho : KeyOrder lt d) {u u' : S κ ν} {c : Call κ ν} {o : Out κ ν} (h : Base lt u c u' o) (p : κ × ν) :
    p ∈ u'.pairs ↔ present p (decide (p ∈ u.pairs)) [c] = true := by
  cases c with
  | add q =>
    rw [h.1]
    simp only [present, Bool.or_eq_true, decide_eq_true_eq, added, List.mem_append, List.mem_filter, List.mem_cons]
    constructor
    · rintro (⟨h, -⟩ | rfl | ⟨h, -⟩)
      · exact Or.inl h
      · exact Or.inr rfl
      · exact Or.inl h
    · rintro (h | rfl)
      · cases h1 : lt p q with
        | true => exact Or.inl ⟨h, rfl⟩
        | false =>
          cases h2 : lt q p with
          | true => exact Or.inr (Or.inr ⟨h, rfl⟩)
          | false => exact Or.inr (Or.inl (ho.total p q h1 h2))
      · exact Or.inr (Or.inl rfl)
  | clear => rw [h.1]; simp [present, S.empty]
  | check q => rw [h.1]; simp [present]
  | getValues k m => rw [h.1]; simp [present]
  | count => rw [h.1]; simp [present]
  | _ => exact h.elim

theorem added_ordered (ho : KeyOrder lt d) {p : κ × ν} {l : List (κ × ν)} (h : Ordered lt l) : Ordered lt (added lt p l) := by
  unfold Ordered added
  rw [List.pairwise_append]
  refine ⟨List.Pairwise.filter _ h, ?_, ?_⟩
  · rw [List.pairwise_cons]
    exact ⟨fun q hq => by simpa using (List.mem_filter.1 hq).2, List.Pairwise.filter _ h⟩
  · intro a ha b hb
    have h1 : lt a p = true := (List.mem_filter.1 ha).2
    rcases List.mem_cons.1 hb with rfl | hb
    · exact h1
    · exact ho.weak.trans _ _ _ h1 (by simpa using (List.mem_filter.1 hb).2)

theorem base_asc (ho : KeyOrder lt d) {u u' : S κ ν} {c : Call κ ν} {o : Out κ ν} (h : Base lt u c u' o) (ha : Ordered lt u.pairs) : Ordered lt u'.pairs := by
  cases c with
  | add q => rw [h.1]; exact added_ordered ho ha
  | clear => rw [h.1]; exact List.Pairwise.nil
  | check q => rw [h.1]; exact ha
  | getValues k m => rw [h.1]; exact ha
  | count => rw [h.1]; exact ha
  | _ => exact h.elim

theorem stdSpec_setLike (ho : KeyOrder lt d) : SetLike lt (StdSpec lt) where
  order := ho.weak.irrefl
  mem u c u' o p h := by
    cases c with
    | remove q => rw [h.1]; simp [present]
    | first i => rw [h.1]; simp [present, S.move]
    | last i => rw [h.1]; simp [present, S.move]
    | jump i q => rw [h.1]; simp [present, S.move]
    | next i => rw [h.1]; simp [present, S.move]
    | previous i => rw [h.1]; simp [present, S.move]
    | get i => rw [h.1]; simp [present]
    | _ => simp only [StdSpec] at h; exact base_mem ho h p
  asc u c u' o h ha := by
    cases c with
    | remove q => rw [h.1]; exact List.Pairwise.filter _ ha
    | first i => rw [h.1]; exact ha
    | last i => rw [h.1]; exact ha
    | jump i q => rw [h.1]; exact ha
    | next i => rw [h.1]; exact ha
    | previous i => rw [h.1]; exact ha
    | get i => rw [h.1]; exact ha
    | _ => simp only [StdSpec] at h; exact base_asc ho h ha
  check u p u' o h := h.2
  values u key max u' o h := h.2
  count u u' o h := h.2
end

theorem spec_setLike : SetLike pairLt Spec where
  order := pairLt_weak.irrefl
  mem u c u' o p h := by
    cases c with
    | remove q => rw [h.1]; simp [present]
    | first i => rw [h.1]; simp [present, S.move]
    | last i => rw [h.1]; simp [present, S.move]
    | jump i q => rw [h.1]; simp [present, S.move]
    | next i => rw [h.1]; simp [present, S.move]
    | previous i => obtain ⟨⟨y, rfl, -⟩, -⟩ := h; simp [present, S.move]
    | get i => rw [h.1]; simp [present, S.move]
    | _ => simp only [Spec] at h; exact base_mem pairLt_keyOrder h p
  asc u c u' o h ha := by
    cases c with
    | remove q => rw [h.1]; exact List.Pairwise.filter _ ha
    | first i => rw [h.1]; exact ha
    | last i => rw [h.1]; exact ha
    | jump i q => rw [h.1]; exact ha
    | next i => rw [h.1]; exact ha
    | previous i => obtain ⟨⟨y, rfl, -⟩, -⟩ := h; exact ha
    | get i => rw [h.1]; exact ha
    | _ => simp only [Spec] at h; exact base_asc pairLt_keyOrder h ha
  check u p u' o h := h.2
  values u key max u' o h := h.2
  count u u' o h := h.2

/-! ### The databases -/

theorem tree_refines {c : BTree.Cfg} (hc : c.Ok) (hlt : c.lt = recLt Cmp.lexCompare) (own : Bool) :
    Refines (BTree.call c own) c.firstWrites (fun s t => ∃ L, BTree.Sim c s L t ∧ s.lastOk = true) := by
  intro s t x ⟨L, h, hl⟩
  obtain ⟨s', o, L', t', h1, h2, h3⟩ := BTree.call_sim hc own h x (fun _ => hl)
  exact ⟨s', o, t', h1, hlt ▸ h2, L', h3, BTree.call_lastOk h1 hl⟩

theorem empty_rel : Rel OMap.St.empty S.empty := ⟨rfl, by simp [S.empty], List.Pairwise.nil, fun _ => rfl, by simp [S.empty]⟩

/-- MemIndex with the comparator it has by default (tkrzw_index.h 329). The order in which the tree below reorganises its nodes is arbitrary. -/
def memIndex (pick : List (Nat × Bytes) → Nat) : BTree.Cfg := BTree.babyCfg (recLt Cmp.lexCompare) pick

/-- FileIndex with the comparator it has by default (tkrzw_index.h 919-928), and any page size and number of branches. -/
def fileIndex (maxPage branch : Nat) (pick : List (Nat × Bytes) → Nat) : BTree.Cfg := BTree.treeCfg (recLt Cmp.lexCompare) maxPage branch pick

/-- C52: every series of calls of a MemIndex and of its iterators is as the specification says. `fuel` bounds the rounds of the loop of GetValues in
the model: that the result exists means that the loop ends. -/
theorem C52_mem_history (pick : List (Nat × Bytes) → Nat) (l : List (Call Bytes Bytes)) (hl : ∀ c ∈ l, c.Small) (fuel : Nat) (hf : l.length < fuel) :
    ∃ s os u, calls (BTree.call (memIndex pick) true) fuel (BTree.init (memIndex pick)) l = some (s, os) ∧ SpecRun S.empty l u os := by
  obtain ⟨s', os, t', u', h1, h2, -, -⟩ := calls_ok (fuel := fuel) (tree_refines (BTree.babyCfg_ok recLt_weak pick) rfl true) l
    ⟨_, BTree.init_sim _, rfl⟩ empty_rel hl (by simpa [S.empty] using hf)
  exact ⟨s', os, u', h1, h2⟩

/-- C52: the same for a FileIndex. -/
theorem C52_file_history (maxPage branch : Nat) (pick : List (Nat × Bytes) → Nat) (l : List (Call Bytes Bytes)) (hl : ∀ c ∈ l, c.Small) (fuel : Nat) (hf : l.length < fuel) :
    ∃ s os u, calls (BTree.call (fileIndex maxPage branch pick) false) fuel (BTree.init (fileIndex maxPage branch pick)) l = some (s, os) ∧ SpecRun S.empty l u os := by
  obtain ⟨s', os, t', u', h1, h2, -, -⟩ := calls_ok (fuel := fuel) (tree_refines (BTree.treeCfg_ok recLt_weak maxPage branch pick) rfl false) l
    ⟨_, BTree.init_sim _, rfl⟩ empty_rel hl (by simpa [S.empty] using hf)
  exact ⟨s', os, u', h1, h2⟩

/-- C52: Check of a MemIndex says whether the pair was added and not removed since, GetValues gives exactly the values of such pairs of the key, each once and
in ascending order, the first `max` of them if `max` is not 0, and Count is the number of such pairs. -/
theorem C52_mem_set (pick : List (Nat × Bytes) → Nat) :
    Answers pairLt Call.Small fun l => (calls (BTree.call (memIndex pick) true) (l.length + 1) (BTree.init (memIndex pick)) l).map (·.2) :=
  spec_setLike.answers trivial fun l hl => by
    obtain ⟨s, os, u, h1, h2⟩ := C52_mem_history pick l hl (l.length + 1) (by omega)
    exact ⟨os, u, by rw [h1]; rfl, h2⟩

/-- C52: the same for a FileIndex. -/
theorem C52_file_set (maxPage branch : Nat) (pick : List (Nat × Bytes) → Nat) :
    Answers pairLt Call.Small fun l =>
      (calls (BTree.call (fileIndex maxPage branch pick) false) (l.length + 1) (BTree.init (fileIndex maxPage branch pick)) l).map (·.2) :=
  spec_setLike.answers trivial fun l hl => by
    obtain ⟨s, os, u, h1, h2⟩ := C52_file_history maxPage branch pick l hl (l.length + 1) (by omega)
    exact ⟨os, u, by rw [h1]; rfl, h2⟩

/-- C52: every series of calls of a StdIndex and of its iterators is as the specification says, if the order of the pairs is total, keeps the pairs of a
key together, and puts no value before a default one. -/
theorem C52_std_history_partial {κ ν : Type} [DecidableEq κ] [DecidableEq ν] {lt : κ × ν → κ × ν → Bool} {dflt : ν} (ho : KeyOrder lt dflt) (l : List (Call κ ν)) :
    ∃ s os u, stdCalls (stdIndex lt dflt) StdState.empty l = some (s, os) ∧ StdSpecRun lt S.empty l u os := by
  obtain ⟨s, os, u, h1, h2, -⟩ := stdCalls_ok (stdIndex_coded ho) l empty_std fun x _ => by cases x <;> trivial
  exact ⟨s, os, u, h1, h2⟩

/-- C52: the same for a StdIndexStr. -/
theorem C52_str_history (l : List (Call Bytes Bytes)) (hl : ∀ c ∈ l, c.Small) :
    ∃ s os u, stdCalls stdIndexStr StdState.empty l = some (s, os) ∧ StdSpecRun pairLt S.empty l u os := by
  obtain ⟨s, os, u, h1, h2, -⟩ := stdCalls_ok stdIndexStr_coded l empty_std fun x hx => by
    have := hl x hx
    cases x <;> first | exact this | trivial
  exact ⟨s, os, u, h1, h2⟩

/-- C52: a StdIndex answers as the set of the pairs added and not removed. Not so for every order and type of values, see
`C52_std_default_value_violated`. -/
theorem C52_std_set_partial {κ ν : Type} [DecidableEq κ] [DecidableEq ν] {lt : κ × ν → κ × ν → Bool} {dflt : ν} (ho : KeyOrder lt dflt) :
    Answers lt (fun _ => True) fun l => (stdCalls (stdIndex lt dflt) StdState.empty l).map (·.2) :=
  (stdSpec_setLike ho).answers trivial fun l _ => by
    obtain ⟨s, os, u, h1, h2⟩ := C52_std_history_partial ho l
    exact ⟨os, u, by rw [h1]; rfl, h2⟩

/-- C52: a StdIndexStr answers as the set of the pairs added and not removed. -/
theorem C52_str_set : Answers pairLt Call.Small fun l => (stdCalls stdIndexStr StdState.empty l).map (·.2) :=
  (stdSpec_setLike pairLt_keyOrder).answers trivial fun l hl => by
    obtain ⟨s, os, u, h1, h2⟩ := C52_str_history l hl
    exact ⟨os, u, by rw [h1]; rfl, h2⟩

/-! ### The hypotheses are met -/

/-- Series of calls of the examples. -/
def exCalls : List (Call Bytes Bytes) :=
  [.add (asc "b", asc "2"), .add (asc "a", asc "9"), .add (asc "b", asc "10"), .add (asc "c", []), .add (asc "b", asc "2"), .remove (asc "a", asc "9"), .first 0, .get 0,
    .next 0, .get 0, .remove (asc "b", asc "2"), .get 0, .getValues (asc "b") 0, .add (asc "b", []), .getValues (asc "b") 1, .check (asc "b", asc "2"), .check (asc "c", []), .count]

example : (∀ c ∈ exCalls, c.Small) ∧ (calls (BTree.call (memIndex fun _ => 0) true) 30 (BTree.init (memIndex fun _ => 0)) exCalls).map (·.2) =
    some [.done, .done, .done, .done, .done, .done, .done, .pair (some (asc "b", asc "10")), .done, .pair (some (asc "b", asc "2")), .done, .pair (some (asc "c", [])),
      .values [asc "10"], .done, .values [[]], .flag false, .flag true, .num 3] := by
  refine ⟨?_, by decide +kernel⟩
  intro c hc
  simp only [exCalls, List.mem_cons, List.not_mem_nil, or_false] at hc
  rcases hc with h | h | h | h | h | h | h | h | h | h | h | h | h | h | h | h | h | h <;> subst h <;> first | trivial | exact ⟨by decide, by decide⟩

example : (calls (BTree.call (fileIndex 20 2 fun _ => 0) false) 30 (BTree.init (fileIndex 20 2 fun _ => 0)) exCalls).map (·.2) =
    (calls (BTree.call (memIndex fun _ => 0) true) 30 (BTree.init (memIndex fun _ => 0)) exCalls).map (·.2) := by decide +kernel

example : (stdCalls stdIndexStr StdState.empty exCalls).map (·.2) = (calls (BTree.call (memIndex fun _ => 0) true) 30 (BTree.init (memIndex fun _ => 0)) exCalls).map (·.2) := by
  decide +kernel

/-- The order of `std::pair` of numbers (`std::less<std::pair<...>>`, tkrzw_index.h 605). -/
def intPairLt (p q : Int × Int) : Bool := decide (p.1 < q.1) || (!decide (q.1 < p.1) && decide (p.2 < q.2))

/-- The same of natural numbers, that is, of an unsigned type. -/
def natPairLt (p q : Nat × Nat) : Bool := decide (p.1 < q.1) || (!decide (q.1 < p.1) && decide (p.2 < q.2))

/-- An order as the theorems on StdIndex ask for. -/
example : KeyOrder natPairLt 0 where
  weak := ⟨fun a => by simp [natPairLt], fun a b c => by simp [natPairLt]; omega, fun a b c => by simp [natPairLt]; omega⟩
  total := fun p q h1 h2 => by
    simp [natPairLt] at h1 h2
    exact Prod.ext (by omega) (by omega)
  together := fun p q r e h1 h2 => by
    simp [natPairLt] at h1 h2
    omega
  least := fun k v => by simp [natPairLt]

/-- C52 is not so for a StdIndex whose values can be less than the default one: a negative number which was added is there for Check, but GetValues
begins at 0 and leaves it out (tkrzw_index.h 1296). -/
theorem C52_std_default_value_violated :
    (stdCalls (stdIndex intPairLt 0) StdState.empty [.add (5, -1), .add (5, 7), .check (5, -1), .getValues 5 0]).map (·.2) =
      some [.done, .done, .flag true, .values [7]] := by decide +kernel

/-- MemIndex with the comparator that does not distinguish the case of letters, which is one of those it may be given (tkrzw_index.h 325-328). -/
def caseIndex : BTree.Cfg := BTree.babyCfg (recLt Cmp.strCaseCompare) fun _ => 0

/-- C52 is not so for an index whose comparator takes different keys as the same: then Check finds a pair that was never added, Add of a pair takes no effect, and GetValues of a
key gives nothing when a pair with a key that counts as the same comes first. -/
theorem C52_case_violated :
    (calls (BTree.call caseIndex true) 9 (BTree.init caseIndex) [.add (asc "a", asc "1"), .check (asc "A", asc "1"), .add (asc "A", asc "1"), .add (asc "A", asc "2"), .getValues (asc "A") 0,
      .getValues (asc "a") 0, .count]).map (·.2) = some [.done, .flag true, .done, .done, .values [], .values [asc "1"], .num 2] := by decide +kernel

end Verif.Index
