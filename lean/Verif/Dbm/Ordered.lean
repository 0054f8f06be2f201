import Verif.Dbm.Core
import Verif.Prelude.OrdMap
/-
SPECIFICATION of an ordered database: the list of its records in ascending order of the keys, and iterators that remember a key.
`lt a b` says that the comparator puts `a` before `b`; keys are the same for the database when neither is before the other.
-/
namespace Verif.OMap
open Verif

/-- A record: key and value. -/
abbrev Rec := Bytes × Bytes

variable (lt : Bytes → Bytes → Bool)

/-- SPECIFICATION: the record under a key. -/
def get (k : Bytes) (m : List Rec) : Option Rec := m.find? fun r => eqv lt r.1 k

/-- SPECIFICATION: the records after a value is stored under a key: those before it, it, those after it.  A key that is already there keeps its spelling. -/
def put (k v : Bytes) (m : List Rec) : List Rec :=
  (m.filter fun r => lt r.1 k) ++ (((get lt k m).map (·.1)).getD k, v) :: m.filter fun r => lt k r.1

/-- SPECIFICATION: the records after a key is removed. -/
def del (k : Bytes) (m : List Rec) : List Rec := m.filter fun r => !eqv lt r.1 k

/-- SPECIFICATION: `Process`: the records, what the update logger is told, and the result of the processor, which is called once with the record under the
key, or with nothing. -/
def process {τ : Type} (m : List Rec) (k : Bytes) (w : Bool) (p : Bytes → ProcR τ) : List Rec × List LogOp × τ :=
  match get lt k m with
  | some r =>
    match (p r.1 (some r.2)).1, w with
    | .remove, true => (del lt k m, [.remove k], (p r.1 (some r.2)).2)
    | .set v, true => (put lt k v m, [.set k v], (p r.1 (some r.2)).2)
    | _, _ => (m, [], (p r.1 (some r.2)).2)
  | none =>
    match (p k none).1, w with
    | .set v, true => (put lt k v m, [.set k v], (p k none).2)
    | _, _ => (m, [], (p k none).2)

/-- SPECIFICATION: `ProcessMulti`: one after the other. -/
def multi {ρ : Type} (w : Bool) : List Rec → List (Bytes × ProcS ρ) → ρ → List Rec × List LogOp × ρ
  | m, [], r => (m, [], r)
  | m, (k, p) :: l, r =>
    let x := process lt m k w (fun _ => p r)
    let y := multi w x.1 l x.2.2
    (y.1, x.2.1 ++ y.2.1, y.2.2)

/-- SPECIFICATION: `ProcessEach`: every record there is at the beginning, in order. -/
def each {ρ : Type} (w : Bool) (p : ρ → Bytes → ProcR ρ) : List Bytes → List Rec → ρ → List Rec × List LogOp × ρ
  | [], m, r => (m, [], r)
  | k :: ks, m, r =>
    let x := process lt m k w (p r)
    let y := each w p ks x.1 x.2.2
    (y.1, x.2.1 ++ y.2.1, y.2.2)

/-- SPECIFICATION: the value after `Append`. -/
def appended (old : Option Bytes) (v delim : Bytes) : Bytes :=
  match old with
  | none => v
  | some o => o ++ delim ++ v

/-- SPECIFICATION: the least key that is not less than `x`. -/
def atLeast (x : Bytes) (m : List Rec) : Option Rec := m.find? fun r => !lt r.1 x

/-- SPECIFICATION: the least key greater than `x`. -/
def greater (x : Bytes) (m : List Rec) : Option Rec := m.find? fun r => lt x r.1

/-- SPECIFICATION: the greatest key less than `x`. -/
def lesser (x : Bytes) (m : List Rec) : Option Rec := (m.filter fun r => lt r.1 x).getLast?

/-- SPECIFICATION: the greatest key that is not greater than `x`. -/
def atMost (x : Bytes) (m : List Rec) : Option Rec := (m.filter fun r => !lt x r.1).getLast?

/-- SPECIFICATION: the database and its iterators; `log` is what the update logger was told so far. -/
structure St where
  recs : List Rec
  iters : Nat → Option Bytes
  log : List LogOp

/-- Calls of a database and of its iterators (iterators are numbered).  `ω` is the type of the results of processors. -/
inductive Call (ω : Type) where
  | process (k : Bytes) (w : Bool) (p : Bytes → ProcR ω)
  | append (k v delim : Bytes)
  | multi (l : List (Bytes × ProcS ω)) (w : Bool) (r : ω)
  | first (w : Bool) (p : Bytes → ProcR ω)
  | each (w : Bool) (p : ω → Bytes → ProcR ω) (r : ω)
  | count
  | clear
  | iterFirst (i : Nat)
  | iterLast (i : Nat)
  | iterJump (i : Nat) (x : Bytes)
  | iterJumpLower (i : Nat) (x : Bytes) (inclusive : Bool)
  | iterJumpUpper (i : Nat) (x : Bytes) (inclusive : Bool)
  | iterNext (i : Nat)
  | iterPrevious (i : Nat)
  | iterProcess (i : Nat) (w : Bool) (p : Bytes → ProcR ω)

/-- What a call gives back. -/
inductive Out (ω : Type) where
  | code (c : Code)
  | res (r : Option ω)
  | num (n : Int)
deriving DecidableEq

/-- Sets where an iterator is. -/
def St.setIter (t : St) (i : Nat) (x : Option Bytes) : St := { t with iters := fun j => if j = i then x else t.iters j }

/-- SPECIFICATION of the calls other than `Previous`.  `fw` says whether a read-only `ProcessFirst` can write. -/
def step {ω : Type} (fw : Bool) (t : St) : Call ω → St × Out ω
  | .process k w p =>
    let x := process lt t.recs k w p
    ({ t with recs := x.1, log := t.log ++ x.2.1 }, .res (some x.2.2))
  | .append k v delim =>
    let w := appended ((get lt k t.recs).map (·.2)) v delim
    ({ t with recs := put lt k w t.recs, log := t.log ++ [.set k w] }, .code .success)
  | .multi l w r =>
    let x := multi lt w t.recs l r
    ({ t with recs := x.1, log := t.log ++ x.2.1 }, .res (some x.2.2))
  | .first w p =>
    match t.recs.head? with
    | none => (t, .res none)
    | some r =>
      let x := process lt t.recs r.1 (w || fw) p
      ({ t with recs := x.1, log := t.log ++ x.2.1 }, .res (some x.2.2))
  | .each w p r =>
    let x := each lt w p (t.recs.map (·.1)) t.recs r
    ({ t with recs := x.1, log := t.log ++ x.2.1 }, .res (some x.2.2))
  | .count => (t, .num t.recs.length)
  | .clear => ({ recs := [], iters := fun _ => none, log := t.log ++ [.clear] }, .code .success)
  | .iterFirst i => (t.setIter i (t.recs.head?.map (·.1)), .code .success)
  | .iterLast i => (t.setIter i (t.recs.getLast?.map (·.1)), .code .success)
  | .iterJump i x => (t.setIter i (some x), .code .success)
  | .iterJumpLower i x inclusive => (t.setIter i ((if inclusive then atMost lt x t.recs else lesser lt x t.recs).map (·.1)), .code .success)
  | .iterJumpUpper i x inclusive => (t.setIter i ((if inclusive then atLeast lt x t.recs else greater lt x t.recs).map (·.1)), .code .success)
  | .iterNext i =>
    match t.iters i with
    | none => (t, .code .notFound)
    | some x => (t.setIter i ((greater lt x t.recs).map (·.1)), .code .success)
  | .iterPrevious i =>
    match t.iters i with
    | none => (t, .code .notFound)
    | some x => (t.setIter i ((lesser lt x t.recs).map (·.1)), .code .success)
  | .iterProcess i w p =>
    match t.iters i with
    | none => (t, .res none)
    | some x =>
      match atLeast lt x t.recs with
      | none => (t.setIter i none, .res none)
      | some r =>
        let y := process lt t.recs r.1 w p
        ({ t.setIter i (some r.1) with recs := y.1, log := t.log ++ y.2.1 }, .res (some y.2.2))

/-- SPECIFICATION: `Previous` with less than one would like: if the record the iterator is at is there, the iterator goes to the record before it; if the record was
removed meanwhile, the iterator may go to any record before it, or nowhere. -/
def Previous (i : Nat) (t t' : St) : Prop :=
  ∃ x, t.iters i = some x ∧ ∃ y, t' = t.setIter i y ∧ ((get lt x t.recs).isSome → y = (lesser lt x t.recs).map (·.1)) ∧
    ∀ z, y = some z → ∃ r ∈ t.recs, r.1 = z ∧ lt z x = true

/-- SPECIFICATION of one call. -/
def Allowed {ω : Type} (fw : Bool) (t : St) (c : Call ω) (o : Out ω) (t' : St) : Prop :=
  (t', o) = step lt fw t c ∨ ∃ i, c = .iterPrevious i ∧ o = .code .success ∧ Previous lt i t t'

/-- SPECIFICATION of a history of calls with their results. -/
def History {ω : Type} (fw : Bool) : St → List (Call ω × Out ω) → St → Prop
  | t, [], t' => t' = t
  | t, (c, o) :: l, t' => ∃ u, Allowed lt fw t c o u ∧ History fw u l t'

/-- SPECIFICATION: the empty database. -/
def St.empty : St := ⟨[], fun _ => none, []⟩

variable {lt}

/-! ### Facts -/

/-- A list cut at a key. -/
structure Cut (lt : Bytes → Bytes → Bool) (k : Bytes) (m P : List Rec) (q : Option Rec) (R : List Rec) : Prop where
  eq : m = P ++ q.toList ++ R
  lo : ∀ r ∈ P, lt r.1 k = true
  at_ : ∀ r, q = some r → eqv lt r.1 k = true
  hi : ∀ r ∈ R, lt k r.1 = true

theorem filter_true {α : Type} {p : α → Bool} {l : List α} (h : ∀ a ∈ l, p a = true) : l.filter p = l := List.filter_eq_self.2 h

theorem filter_false {α : Type} {p : α → Bool} {l : List α} (h : ∀ a ∈ l, p a = false) : l.filter p = [] :=
  List.filter_eq_nil_iff.2 fun a ha => by rw [h a ha]; simp

theorem find_false {α : Type} {p : α → Bool} {l : List α} (h : ∀ a ∈ l, p a = false) : l.find? p = none :=
  List.find?_eq_none.2 fun a ha => by rw [h a ha]; simp

theorem Cut.get (hw : StrictWeak lt) {k : Bytes} {m P R : List Rec} {q : Option Rec} (h : Cut lt k m P q R) : get lt k m = q := by
  unfold OMap.get
  rw [h.eq, List.append_assoc, List.find?_append, find_false fun r hr => by simp [eqv, h.lo r hr], Option.none_or]
  cases q with
  | none =>
    simp only [Option.toList_none, List.nil_append]
    exact find_false fun r hr => by simp [eqv, h.hi r hr]
  | some r => simp [h.at_ r rfl]

theorem Cut.lower (hw : StrictWeak lt) {k : Bytes} {m P R : List Rec} {q : Option Rec} (h : Cut lt k m P q R) : (m.filter fun r => lt r.1 k) = P := by
  rw [h.eq, List.filter_append, List.filter_append, filter_true h.lo, filter_false (l := R) fun r hr => hw.asymm (h.hi r hr)]
  cases q with
  | none => simp
  | some r => simp [(StrictWeak.eqv_iff.1 (h.at_ r rfl)).1]

theorem Cut.upper (hw : StrictWeak lt) {k : Bytes} {m P R : List Rec} {q : Option Rec} (h : Cut lt k m P q R) : (m.filter fun r => lt k r.1) = R := by
  rw [h.eq, List.filter_append, List.filter_append, filter_true h.hi, filter_false (l := P) fun r hr => hw.asymm (h.lo r hr)]
  cases q with
  | none => simp
  | some r => simp [(StrictWeak.eqv_iff.1 (h.at_ r rfl)).2]

theorem Cut.put (hw : StrictWeak lt) {k v : Bytes} {m P R : List Rec} {q : Option Rec} (h : Cut lt k m P q R) :
    put lt k v m = P ++ ((q.map (·.1)).getD k, v) :: R := by
  unfold OMap.put
  rw [h.lower hw, h.upper hw, h.get hw]

theorem Cut.del (hw : StrictWeak lt) {k : Bytes} {m P R : List Rec} {q : Option Rec} (h : Cut lt k m P q R) : del lt k m = P ++ R := by
  unfold OMap.del
  rw [h.eq, List.filter_append, List.filter_append, filter_true fun r hr => by simp [eqv, h.lo r hr],
    filter_true (l := R) fun r hr => by simp [eqv, h.hi r hr]]
  cases q with
  | none => simp
  | some r => simp [h.at_ r rfl]

theorem Cut.greater (hw : StrictWeak lt) {k : Bytes} {m P R : List Rec} {q : Option Rec} (h : Cut lt k m P q R) : greater lt k m = R.head? := by
  unfold OMap.greater
  rw [← List.head?_filter, h.upper hw]

theorem Cut.lesser (hw : StrictWeak lt) {k : Bytes} {m P R : List Rec} {q : Option Rec} (h : Cut lt k m P q R) : lesser lt k m = P.getLast? := by
  unfold OMap.lesser
  rw [h.lower hw]

theorem Cut.atLeast (hw : StrictWeak lt) {k : Bytes} {m P R : List Rec} {q : Option Rec} (h : Cut lt k m P q R) : atLeast lt k m = (q.toList ++ R).head? := by
  unfold OMap.atLeast
  rw [← List.head?_filter, h.eq, List.append_assoc, List.filter_append, filter_false (l := P) fun r hr => by simp [h.lo r hr], List.nil_append]
  rw [filter_true]
  intro r hr
  rcases List.mem_append.1 hr with hr | hr
  · have : q = some r := by
      cases q with
      | none => simp at hr
      | some r' => simp at hr; rw [hr]
    simp [(StrictWeak.eqv_iff.1 (h.at_ r this)).1]
  · simp [hw.asymm (h.hi r hr)]

theorem Cut.atMost (hw : StrictWeak lt) {k : Bytes} {m P R : List Rec} {q : Option Rec} (h : Cut lt k m P q R) : atMost lt k m = (P ++ q.toList).getLast? := by
  unfold OMap.atMost
  rw [h.eq, List.filter_append, filter_false (l := R) fun r hr => by simp [h.hi r hr], List.append_nil]
  rw [filter_true]
  intro r hr
  rcases List.mem_append.1 hr with hr | hr
  · simp [hw.asymm (h.lo r hr)]
  · have : q = some r := by
      cases q with
      | none => simp at hr
      | some r' => simp at hr; rw [hr]
    simp [(StrictWeak.eqv_iff.1 (h.at_ r this)).2]

/-- Every list in ascending order can be cut at every key. -/
theorem exists_cut (hw : StrictWeak lt) (k : Bytes) : ∀ {m : List Rec}, OrdMap.Sorted lt m → ∃ P q R, Cut lt k m P q R
  | [], _ => ⟨[], none, [], ⟨rfl, by simp, by simp, by simp⟩⟩
  | r :: m, h => by
    rw [OrdMap.sorted_cons] at h
    by_cases h1 : lt r.1 k = true
    · obtain ⟨P, q, R, g⟩ := exists_cut hw k h.2
      refine ⟨r :: P, q, R, ⟨by rw [g.eq]; rfl, fun x hx => ?_, g.at_, g.hi⟩⟩
      rcases List.mem_cons.1 hx with rfl | hx
      · exact h1
      · exact g.lo x hx
    · by_cases h2 : lt k r.1 = true
      · refine ⟨[], none, r :: m, ⟨rfl, by simp, by simp, fun x hx => ?_⟩⟩
        rcases List.mem_cons.1 hx with rfl | hx
        · exact h2
        · exact hw.trans _ _ _ h2 (h.1 x hx)
      · have he : eqv lt r.1 k = true := StrictWeak.eqv_iff.2 ⟨by simpa using h1, by simpa using h2⟩
        refine ⟨[], some r, m, ⟨rfl, by simp, fun x hx => by cases hx; exact he, fun x hx => ?_⟩⟩
        rw [StrictWeak.eqv_symm] at he
        exact hw.lt_of_eqv_left he (h.1 x hx)

end Verif.OMap
