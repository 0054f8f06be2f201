import Verif.Dbm.Api
import Verif.Codec.NumProps
/-
C19-C23 and the basic methods of `DBM`, for every lawful database.
-/
namespace Verif.Api
open Verif.Codec

variable {σ : Type} {D : DbmImpl σ} {inv : σ → Prop} {view : σ → Dict} {fits : Bytes → Bytes → Prop}

theorem proc_eq (L : Lawful D inv view fits) {τ : Type} (s : σ) (k : Bytes) (w : Bool) (p : ProcR τ) (hi : inv s)
    (hf : ActFits fits k (p (view s k)).1) :
    inv (D.process s k w p).1 ∧
    view (D.process s k w p).1 = (if w then (view s).act k (p (view s k)).1 else view s) ∧
    (D.process s k w p).2 = (p (view s k)).2 := by
  have h := L.process_view s k w p hi hf
  refine ⟨L.process_inv s k w p hi hf, ?_, ?_⟩
  · have := congrArg Prod.fst h; simpa [Dict.process] using this
  · have := congrArg Prod.snd h; simpa [Dict.process] using this

theorem actFits_of {k : Bytes} {a : Action} (h : ∀ v, a = .set v → fits k v) : ActFits fits k a := by
  cases a with
  | set v => exact h v rfl
  | _ => trivial

theorem cex_val (e d : Arg) (o : Option Bytes) (v : Bytes) (h : (cexProc e d o).1 = .set v) : d = .val v := by
  cases o <;> cases e <;> cases d <;> simp [cexProc] at h ⊢ <;> grind

/-! ### Get, Set, Remove, Append -/

/-- C58: `Get` returns SUCCESS and the value if the record exists, NOT_FOUND_ERROR otherwise, and changes nothing. -/
theorem C58_get (L : Lawful D inv view fits) (s : σ) (k : Bytes) (hi : inv s) :
    inv (get D s k).1 ∧ view (get D s k).1 = view s ∧
    (∀ v, view s k = some v → (get D s k).2 = (.success, some v)) ∧
    (view s k = none → (get D s k).2 = (.notFound, none)) := by
  have h := proc_eq L s k false getProc hi (by cases h : view s k <;> simp [getProc, ActFits])
  refine ⟨h.1, by simpa [get] using h.2.1, ?_, ?_⟩
  · intro v hv; simp [get, h.2.2, hv, getProc]
  · intro hv; simp [get, h.2.2, hv, getProc]

/-- C58: `GetSimple` returns the value or the default. -/
theorem C58_get_simple (L : Lawful D inv view fits) (s : σ) (k dflt : Bytes) (hi : inv s) :
    view (getSimple D s k dflt).1 = view s ∧ (getSimple D s k dflt).2 = (view s k).getD dflt := by
  have h := C58_get L s k hi
  refine ⟨h.2.1, ?_⟩
  cases hv : view s k with
  | none => simp [getSimple, h.2.2.2 hv]
  | some v => simp [getSimple, h.2.2.1 v hv]

/-- C58: `Set` stores the value and reports the old one; with overwrite=false it refuses an existing record. -/
theorem C58_set (L : Lawful D inv view fits) (s : σ) (k v : Bytes) (ow : Bool) (hi : inv s) (hf : fits k v) :
    inv (set D s k v ow).1 ∧ (set D s k v ow).2.2 = view s k ∧
    (if ow = false ∧ (view s k).isSome then
      (set D s k v ow).2.1 = .duplication ∧ view (set D s k v ow).1 = view s
    else (set D s k v ow).2.1 = .success ∧ view (set D s k v ow).1 = (view s).upd k (some v)) := by
  have h := proc_eq L s k true (setProc v ow) hi (by
    cases h : view s k <;> cases ow <;> simp [setProc, ActFits, hf])
  refine ⟨h.1, ?_, ?_⟩
  · simp only [set, h.2.2]
    cases hv : view s k <;> cases ow <;> simp [setProc]
  · simp only [set, h.2.2, h.2.1]
    cases hv : view s k <;> cases ow <;> simp [setProc, Dict.act]

/-- C58: `Remove` removes the record and reports its value, or reports NOT_FOUND_ERROR. -/
theorem C58_remove (L : Lawful D inv view fits) (s : σ) (k : Bytes) (hi : inv s) :
    inv (remove D s k).1 ∧ view (remove D s k).1 = (view s).upd k none ∧ (remove D s k).2.2 = view s k ∧
    (remove D s k).2.1 = (if (view s k).isSome then .success else .notFound) := by
  have h := proc_eq L s k true removeProc hi (by cases h : view s k <;> simp [removeProc, ActFits])
  refine ⟨h.1, ?_, ?_, ?_⟩
  · simp only [remove, h.2.1]
    cases hv : view s k with
    | none => simp only [removeProc, if_pos, Dict.act]; rw [← hv, Dict.upd_same]
    | some v => simp [removeProc, Dict.act]
  · simp only [remove, h.2.2]; cases hv : view s k <;> simp [removeProc]
  · simp only [remove, h.2.2]; cases hv : view s k <;> simp [removeProc]

/-- SPECIFICATION of `Append`: an existing value gets the delimiter and the new data, an absent one is created
without delimiter. -/
def appended (o : Option Bytes) (v delim : Bytes) : Bytes :=
  match o with
  | some old => old ++ delim ++ v
  | none => v

/-- C58: `Append`. -/
theorem C58_append (L : Lawful D inv view fits) (s : σ) (k v delim : Bytes) (hi : inv s)
    (hf : fits k (appended (view s k) v delim)) :
    inv (append D s k v delim) ∧
    view (append D s k v delim) = (view s).upd k (some (appended (view s k) v delim)) := by
  have h := proc_eq L s k true (appendProc v delim) hi (by
    cases h : view s k <;> simp [appendProc, ActFits] <;> rw [h] at hf <;> simpa [appended] using hf)
  refine ⟨h.1, ?_⟩
  simp only [append, h.2.1]
  cases hv : view s k <;> simp [appendProc, Dict.act, appended]

/-! ### C19 CompareExchange -/

/-- SPECIFICATION: the current state of a record meets an expectation. -/
def Meets : Arg → Option Bytes → Prop
  | .null, o => o = none
  | .any, o => ∃ v, o = some v
  | .val e, o => o = some e

/-- SPECIFICATION: the state a record has after an exchange to `desired`. -/
def exchanged (d : Dict) (k : Bytes) : Arg → Dict
  | .null => d.upd k none
  | .any => d
  | .val v => d.upd k (some v)

/-- C19: `CompareExchange` changes the record exactly when the expectation holds, leaves exactly the desired
state, reports the status, the actual value and whether the record was found. -/
theorem C19_compare_exchange (L : Lawful D inv view fits) (s : σ) (k : Bytes) (expected desired : Arg) (hi : inv s)
    (hf : ∀ v, desired = .val v → fits k v) :
    inv (compareExchange D s k expected desired).1 ∧
    (Meets expected (view s k) →
      (compareExchange D s k expected desired).2.1 = .success ∧
      view (compareExchange D s k expected desired).1 = exchanged (view s) k desired) ∧
    (¬ Meets expected (view s k) →
      (compareExchange D s k expected desired).2.1 = .infeasible ∧
      view (compareExchange D s k expected desired).1 = view s) ∧
    (compareExchange D s k expected desired).2.2 = ((view s k).getD [], (view s k).isSome) := by
  have hfit : ActFits fits k (cexProc expected desired (view s k)).1 := by
    apply actFits_of
    intro v hv
    exact hf v (cex_val _ _ _ _ hv)
  have h := proc_eq L s k (desired != .any) (cexProc expected desired) hi hfit
  refine ⟨h.1, ?_, ?_, ?_⟩
  · intro hm
    simp only [compareExchange, h.2.1, h.2.2]
    cases hv : view s k with
    | none =>
      cases expected <;> simp [Meets, hv] at hm
      cases desired <;> simp [cexProc, exchanged, Dict.act]
      rw [← hv, Dict.upd_same]
    | some v =>
      cases expected with
      | null => simp [Meets, hv] at hm
      | any => cases desired <;> simp [cexProc, exchanged, Dict.act]
      | val e =>
        simp only [Meets, hv, Option.some.injEq] at hm
        subst hm
        cases desired <;> simp [cexProc, exchanged, Dict.act]
  · intro hm
    simp only [compareExchange, h.2.1, h.2.2]
    cases hv : view s k with
    | none => cases expected <;> simp [Meets, hv] at hm <;> simp [cexProc, Dict.act]
    | some v =>
      cases expected with
      | null => simp [cexProc, Dict.act]
      | any => simp [Meets, hv] at hm
      | val e =>
        simp only [Meets, hv, Option.some.injEq] at hm
        have : e ≠ v := fun h => hm h.symm
        simp [cexProc, Dict.act, this]
  · simp only [compareExchange, h.2.2]
    cases hv : view s k with
    | none => cases expected <;> simp [cexProc]
    | some v =>
      cases expected <;> simp [cexProc]
      split <;> simp

/-- A dictionary as a database: the hypotheses are met, and the two outcomes occur. -/
example : (compareExchange Dict.impl (Dict.empty.upd [1] (some [2])) [1] (.val [2]) (.val [3])).2 = (.success, [2], true)
    ∧ (compareExchange Dict.impl (Dict.empty.upd [1] (some [2])) [1] .null (.val [3])).2 = (.infeasible, [2], true)
    ∧ Lawful Dict.impl (fun _ => True) id (fun _ _ => True) := ⟨rfl, rfl, Dict.lawful _⟩

/-! ### C20 CompareExchangeMulti -/

/-- SPECIFICATION: the changes of `desired` performed one after the other (a later change of the same key wins).
`ANY_DATA` is documented only as an expectation; as a desired value the code stores its bytes. -/
def exchangedAll (d : Dict) : List (Bytes × Arg) → Dict
  | [] => d
  | (k, .null) :: rest => exchangedAll (d.upd k none) rest
  | (k, .any) :: rest => exchangedAll (d.upd k (some [0x00, 0xBA, 0xBE, 0x02, 0x11])) rest
  | (k, .val v) :: rest => exchangedAll (d.upd k (some v)) rest

theorem multi_append {ρ : Type} (l1 l2 : List (Bytes × ProcS ρ)) (w : Bool) (d : Dict) (r : ρ) :
    d.processMulti (l1 ++ l2) w r =
      (d.processMulti l1 w r).1.processMulti l2 w (d.processMulti l1 w r).2 := by
  induction l1 generalizing d r with
  | nil => rfl
  | cons x l ih => obtain ⟨k, p⟩ := x; simp only [List.cons_append, Dict.processMulti]; rw [ih]

theorem fits_append {ρ : Type} (l1 l2 : List (Bytes × ProcS ρ)) (w : Bool) (d : Dict) (r : ρ) :
    MultiFits fits d (l1 ++ l2) w r ↔ MultiFits fits d l1 w r ∧
      MultiFits fits (d.processMulti l1 w r).1 l2 w (d.processMulti l1 w r).2 := by
  induction l1 generalizing d r with
  | nil => simp [MultiFits, Dict.processMulti]
  | cons x l ih =>
    obtain ⟨k, p⟩ := x
    simp only [List.cons_append, MultiFits, Dict.processMulti, ih, and_assoc]

theorem checker_act (e : Arg) (n : Bool) (o : Option Bytes) : (cexChecker e n o).1 = .noop := by
  cases o <;> cases e <;> simp [cexChecker]
  split <;> rfl

theorem checker_flag (e : Arg) (n : Bool) (o : Option Bytes) :
    (cexChecker e n o).2 = false ↔ n = false ∧ Meets e o := by
  cases o <;> cases e <;> simp [cexChecker, Meets]
  split
  · rename_i h; simp [h]
  · rename_i h; simp; intro _ h'; exact h h'.symm

theorem checkers_run (es : List (Bytes × Arg)) (d : Dict) (n : Bool) :
    (d.processMulti (es.map fun kv => (kv.1, cexChecker kv.2)) true n).1 = d ∧
    ((d.processMulti (es.map fun kv => (kv.1, cexChecker kv.2)) true n).2 = false ↔
      n = false ∧ ∀ kv ∈ es, Meets kv.2 (d kv.1)) ∧
    MultiFits fits d (es.map fun kv => (kv.1, cexChecker kv.2)) true n := by
  induction es generalizing n with
  | nil => simp [Dict.processMulti, MultiFits]
  | cons x es ih =>
    obtain ⟨k, e⟩ := x
    simp only [List.map_cons, Dict.processMulti, Dict.process, checker_act, MultiFits, ActFits, Dict.act,
      if_true, List.forall_mem_cons]
    have := ih (cexChecker e n (d k)).2
    refine ⟨this.1, ?_, trivial, this.2.2⟩
    rw [this.2.1, checker_flag]; grind

theorem setters_noop (ds : List (Bytes × Arg)) (d : Dict) :
    d.processMulti (ds.map fun kv => (kv.1, cexSetter kv.2)) true true = (d, true) ∧
    MultiFits fits d (ds.map fun kv => (kv.1, cexSetter kv.2)) true true := by
  induction ds with
  | nil => exact ⟨rfl, trivial⟩
  | cons x ds ih =>
    obtain ⟨k, e⟩ := x
    simpa [Dict.processMulti, Dict.process, cexSetter, Dict.act, MultiFits, ActFits] using ih

theorem setters_run (ds : List (Bytes × Arg)) (d : Dict)
    (hf : ∀ kv ∈ ds, kv.2 ≠ .null → fits kv.1 kv.2.bytes) :
    d.processMulti (ds.map fun kv => (kv.1, cexSetter kv.2)) true false = (exchangedAll d ds, false) ∧
    MultiFits fits d (ds.map fun kv => (kv.1, cexSetter kv.2)) true false := by
  induction ds generalizing d with
  | nil => exact ⟨rfl, trivial⟩
  | cons x ds ih =>
    obtain ⟨k, e⟩ := x
    rw [List.forall_mem_cons] at hf
    have a : d.act k (cexSetter e false (d k)).1 = exchangedAll d [(k, e)] := by
      cases hk : d k <;> cases e <;> simp [cexSetter, Dict.act, exchangedAll, Arg.bytes, anyData]
      rw [← hk, Dict.upd_same]
    have b : (cexSetter e false (d k)).2 = false := by cases hk : d k <;> simp [cexSetter]
    have c : exchangedAll d ((k, e) :: ds) = exchangedAll (exchangedAll d [(k, e)]) ds := by
      cases e <;> simp [exchangedAll]
    have f : ActFits fits k (cexSetter e false (d k)).1 := by
      have := hf.1
      cases hk : d k <;> cases e <;> simp [cexSetter, ActFits] at this ⊢ <;> exact this
    simp only [List.map_cons, Dict.processMulti, Dict.process, MultiFits, if_true, a, b, c]
    exact ⟨(ih _ hf.2).1, f, (ih _ hf.2).2⟩

/-- C20: `CompareExchangeMulti` performs all the changes if every expectation holds in the state before the call,
and changes nothing otherwise. -/
theorem C20_compare_exchange_multi (L : Lawful D inv view fits) (s : σ) (expected desired : List (Bytes × Arg))
    (hi : inv s) (hf : ∀ kv ∈ desired, kv.2 ≠ .null → fits kv.1 kv.2.bytes) :
    inv (compareExchangeMulti D s expected desired).1 ∧
    ((∀ kv ∈ expected, Meets kv.2 (view s kv.1)) →
      (compareExchangeMulti D s expected desired).2 = .success ∧
      view (compareExchangeMulti D s expected desired).1 = exchangedAll (view s) desired) ∧
    ((¬ ∀ kv ∈ expected, Meets kv.2 (view s kv.1)) →
      (compareExchangeMulti D s expected desired).2 = .infeasible ∧
      view (compareExchangeMulti D s expected desired).1 = view s) := by
  have c := checkers_run (fits := fits) expected (view s) false
  have mf : MultiFits fits (view s) (expected.map (fun kv => (kv.1, cexChecker kv.2)) ++
      desired.map (fun kv => (kv.1, cexSetter kv.2))) true false := by
    rw [fits_append, c.1]
    refine ⟨c.2.2, ?_⟩
    cases ((view s).processMulti (expected.map fun kv => (kv.1, cexChecker kv.2)) true false).2
    · exact (setters_run desired _ hf).2
    · exact (setters_noop desired _).2
  have h := L.multi_view s _ true false hi mf
  refine ⟨L.multi_inv s _ true false hi mf, ?_, ?_⟩
  · intro hm
    have f : ((view s).processMulti (expected.map fun kv => (kv.1, cexChecker kv.2)) true false).2 = false :=
      c.2.1.2 ⟨rfl, hm⟩
    rw [multi_append, c.1, f, (setters_run desired _ hf).1] at h
    simp only [Prod.mk.injEq] at h
    simp [compareExchangeMulti, h.1, h.2]
  · intro hm
    have f : ((view s).processMulti (expected.map fun kv => (kv.1, cexChecker kv.2)) true false).2 = true := by
      cases hb : ((view s).processMulti (expected.map fun kv => (kv.1, cexChecker kv.2)) true false).2
      · exact absurd (c.2.1.1 hb).2 hm
      · rfl
    rw [multi_append, c.1, f, (setters_noop (fits := fits) desired _).1] at h
    simp only [Prod.mk.injEq] at h
    simp [compareExchangeMulti, h.1, h.2]

example : (compareExchangeMulti Dict.impl (Dict.empty.upd [1] (some [2])) [([1], .any), ([5], .null)]
    [([5], .val [6]), ([1], .null)]).2 = .success := by decide
example : (compareExchangeMulti Dict.impl (Dict.empty.upd [1] (some [2])) [([1], .any), ([5], .any)]
    [([5], .val [6]), ([1], .null)]).2 = .infeasible := by decide

/-! ### C21 Increment -/

/-- SPECIFICATION: a byte string is the 8-byte big-endian two's complement form of `n`. -/
def IsInt64 (v : Bytes) (n : Int) : Prop :=
  v.length = 8 ∧ -(2 ^ 63) ≤ n ∧ n < 2 ^ 63 ∧ (fromBe64 v : Int) = n % 2 ^ 64

theorem toInt64_range (x : Int) : -(2 ^ 63) ≤ toInt64 x ∧ toInt64 x < 2 ^ 63 := by
  constructor
  · have := @Int.le_bmod x (2 ^ 64) (by decide); simp only [toInt64]; omega
  · have := @Int.bmod_lt x (2 ^ 64) (by decide); simp only [toInt64]; omega

theorem toInt64_of_range {x : Int} (h1 : -(2 ^ 63) ≤ x) (h2 : x < 2 ^ 63) : toInt64 x = x := by
  apply Int.bmod_eq_of_le <;> omega

theorem bmod_emod_add (n i : Int) : Int.bmod (n % 2 ^ 64 + i) (2 ^ 64) = Int.bmod (n + i) (2 ^ 64) := by
  simp only [Int.bmod]; omega

theorem isInt64_encode {n : Int} (h1 : -(2 ^ 63) ≤ n) (h2 : n < 2 ^ 63) :
    IsInt64 (intToStrBigEndian (toUInt64 n) 8) n := by
  have hlt : toUInt64 n < 2 ^ 64 := by
    have := Int.emod_lt_of_pos n (by decide : (0 : Int) < 2 ^ 64)
    have h0 := Int.emod_nonneg n (by decide : (2 : Int) ^ 64 ≠ 0)
    simp only [toUInt64]; omega
  have hw : intToStrBigEndian (toUInt64 n) 8 = writeFixNum (toUInt64 n) 8 := by simp [intToStrBigEndian]
  refine ⟨by rw [hw, writeFixNum_length _ (by omega)], h1, h2, ?_⟩
  rw [hw, fromBe64_writeFixNum _ (by omega), Nat.mod_eq_of_lt (by simpa using hlt)]
  have h0 := Int.emod_nonneg n (by decide : (2 : Int) ^ 64 ≠ 0)
  simp only [toUInt64]; omega

theorem decode_isInt64 {v : Bytes} {n : Int} (h : IsInt64 v n) : (strToIntBigEndian v : Int) = n % 2 ^ 64 := by
  obtain ⟨hl, _, _, e⟩ := h
  have hne : v ≠ [] := by intro h; simp [h] at hl
  rw [← e, strToIntBigEndian, if_neg (by simpa using hne), hl]
  rw [readFixNum_eq _ (by omega), List.take_of_length_le (by omega)]

/-- C21: on a record holding the integer `n`, `Increment` stores and reports the sum as a 64-bit two's complement
integer (so the exact sum whenever that fits), and touches no other record. -/
theorem C21_increment_present (L : Lawful D inv view fits) (s : σ) (k v : Bytes) (n inc initial : Int) (hi : inv s)
    (hv : view s k = some v) (hn : IsInt64 v n) (hinc : inc ≠ int64min)
    (hf : ∀ w : Bytes, w.length = 8 → fits k w) :
    inv (increment D s k inc initial).1 ∧
    ∃ w m, IsInt64 w m ∧ m = Int.bmod (n + inc) (2 ^ 64) ∧
      (-(2 ^ 63) ≤ n + inc → n + inc < 2 ^ 63 → m = n + inc) ∧
      (increment D s k inc initial).2 = some m ∧
      view (increment D s k inc initial).1 = (view s).upd k (some w) := by
  have r := toInt64_range ((strToIntBigEndian v : Int) + inc)
  have he : toInt64 ((strToIntBigEndian v : Int) + inc) = Int.bmod (n + inc) (2 ^ 64) := by
    rw [decode_isInt64 hn, toInt64]; exact bmod_emod_add n inc
  have enc := isInt64_encode r.1 r.2
  have h := proc_eq L s k (inc != int64min) (incProc inc initial) hi (by
    rw [hv]; simp only [incProc, if_neg hinc, ActFits]; exact hf _ enc.1)
  refine ⟨h.1, _, _, enc, he, ?_, ?_, ?_⟩
  · intro h1 h2; rw [he]; exact toInt64_of_range h1 h2
  · simp [increment, h.2.2, hv, incProc, hinc]
  · simp [increment, h.2.1, hv, incProc, hinc, Dict.act]

/-- C21: on an absent record, `Increment` starts from the initial value. (If the sum leaves the range of
`int64_t`, the C++ addition is undefined: the model reports `none`, see `C21_increment_overflow_violated`.) -/
theorem C21_increment_absent (L : Lawful D inv view fits) (s : σ) (k : Bytes) (inc initial : Int) (hi : inv s)
    (hv : view s k = none) (hinc : inc ≠ int64min) (h1 : -(2 ^ 63) ≤ initial + inc) (h2 : initial + inc < 2 ^ 63)
    (hf : ∀ w : Bytes, w.length = 8 → fits k w) :
    inv (increment D s k inc initial).1 ∧
    ∃ w, IsInt64 w (initial + inc) ∧ (increment D s k inc initial).2 = some (initial + inc) ∧
      view (increment D s k inc initial).1 = (view s).upd k (some w) := by
  have enc := isInt64_encode h1 h2
  have c : ¬ (initial + inc < -(2 ^ 63) ∨ 2 ^ 63 ≤ initial + inc) := by omega
  have h := proc_eq L s k (inc != int64min) (incProc inc initial) hi (by
    rw [hv]; simp only [incProc, if_neg hinc, if_neg c, ActFits]; exact hf _ enc.1)
  refine ⟨h.1, _, enc, ?_, ?_⟩
  · simp only [increment, h.2.2, hv, incProc, if_neg hinc, if_neg c]
  · simp only [increment, h.2.1, hv, incProc, if_neg hinc, if_neg c, Dict.act]; simp [hinc]

/-- C21: with the increment INT64MIN nothing changes and the current (or initial) value is reported. -/
theorem C21_increment_probe (L : Lawful D inv view fits) (s : σ) (k : Bytes) (initial : Int) (hi : inv s) :
    view (increment D s k int64min initial).1 = view s ∧
    (view s k = none → (increment D s k int64min initial).2 = some initial) ∧
    (∀ v n, view s k = some v → IsInt64 v n → (increment D s k int64min initial).2 = some n) := by
  have h := proc_eq L s k (int64min != int64min) (incProc int64min initial) hi (by
    cases view s k <;> simp [incProc, ActFits])
  refine ⟨?_, ?_, ?_⟩
  · simp only [increment, h.2.1]; simp
  · intro hv; simp only [increment, h.2.2, hv, incProc, if_true]
  · intro v n hv hn
    simp only [increment, h.2.2, hv, incProc, if_true, decode_isInt64 hn]
    have : toInt64 (n % 2 ^ 64) = n := by
      have h1 := toInt64_of_range hn.2.1 hn.2.2.1
      have h2 := bmod_emod_add n 0
      simp only [toInt64, Int.add_zero] at h1 h2 ⊢
      rw [h2, h1]
    rw [this]

/-- C21: FINDING. With an absent record, `initial + increment` is computed in signed 64-bit arithmetic: two
legal arguments whose sum leaves the range are undefined behaviour, whereas on an existing record the same sum
wraps around. -/
theorem C21_increment_overflow_violated :
    (increment Dict.impl Dict.empty [1] (2 ^ 63 - 1) 1).2 = none := by decide

/-- SPECIFICATION: run a list of increments on one key, starting from state `s`. -/
def incAll (D : DbmImpl σ) (s : σ) (k : Bytes) : List Int → σ
  | [] => s
  | i :: is => incAll D (increment D s k i 0).1 k is

/-- C21: no increment is lost: after any list of increments of a record holding `n`, it holds `n` plus their sum,
modulo 2^64. -/
theorem C21_increment_sum (L : Lawful D inv view fits) (k : Bytes) (hf : ∀ w : Bytes, w.length = 8 → fits k w)
    (is : List Int) (his : ∀ i ∈ is, i ≠ int64min) (s : σ) (hi : inv s) (v : Bytes) (n : Int)
    (hv : view s k = some v) (hn : IsInt64 v n) :
    ∃ w, view (incAll D s k is) k = some w ∧ IsInt64 w (Int.bmod (n + is.sum) (2 ^ 64)) := by
  induction is generalizing s v n with
  | nil =>
    refine ⟨v, hv, ?_⟩
    have := toInt64_of_range hn.2.1 hn.2.2.1
    simp only [toInt64] at this
    simpa [this] using hn
  | cons i is ih =>
    rw [List.forall_mem_cons] at his
    obtain ⟨h1, w, m, hm, em, _, _, hw⟩ := C21_increment_present L s k v n i 0 hi hv hn his.1 hf
    obtain ⟨w', h2, h3⟩ := ih his.2 _ h1 w m (by rw [hw, Dict.upd_self]) hm
    refine ⟨w', h2, ?_⟩
    have : Int.bmod (m + is.sum) (2 ^ 64) = Int.bmod (n + (i :: is).sum) (2 ^ 64) := by
      rw [em, List.sum_cons, ← Int.add_assoc]; exact Int.bmod_add_bmod
    rwa [this] at h3

example : IsInt64 [0xff, 0xff, 0xff, 0xff, 0xff, 0xff, 0xff, 0xfe] (-2) := ⟨rfl, by decide, by decide, by decide⟩
example : (increment Dict.impl (Dict.empty.upd [1] (some [0xff, 0xff, 0xff, 0xff, 0xff, 0xff, 0xff, 0xfe])) [1] 5 0).2
    = some 3 := by decide

/-! ### C22 Rekey -/

/-- SPECIFICATION of `Rekey` on a dictionary. -/
def rekeyed (d : Dict) (oldKey newKey : Bytes) (overwrite copying : Bool) : Dict × Code × Option Bytes :=
  match d oldKey with
  | none => (d, .notFound, none)
  | some v =>
    if overwrite = false ∧ (d newKey).isSome then (d, .duplication, none)
    else (if copying then d.upd newKey (some v) else (d.upd oldKey none).upd newKey (some v), .success, some v)

/-- C22: `Rekey` moves (or copies) the record, or fails leaving everything unchanged; aliasing is covered. -/
theorem C22_rekey (L : Lawful D inv view fits) (s : σ) (oldKey newKey : Bytes) (overwrite copying : Bool) (hi : inv s)
    (hf : ∀ v, view s oldKey = some v → fits newKey v) :
    inv (rekey D s oldKey newKey overwrite copying).1 ∧
    (view (rekey D s oldKey newKey overwrite copying).1, (rekey D s oldKey newKey overwrite copying).2) =
      rekeyed (view s) oldKey newKey overwrite copying := by
  have mf : MultiFits fits (view s) ((if overwrite then [] else [(newKey, rekeyChecker)]) ++
    [(oldKey, rekeyRemover copying), (newKey, rekeySetter)]) true { status := .success, value := [] } := by
    cases overwrite <;> cases copying <;> cases h1 : view s newKey <;> cases h2 : view s oldKey <;>
      simp [MultiFits, rekeyChecker, rekeyRemover, rekeySetter, ActFits, Dict.process, Dict.act, h1, h2] <;>
      exact hf _ h2
  have h := L.multi_view s _ true _ hi mf
  refine ⟨L.multi_inv s _ true _ hi mf, ?_⟩
  simp only [rekey]
  have e1 := congrArg Prod.fst h
  have e2 := congrArg Prod.snd h
  simp only at e1 e2
  rw [e1, e2]
  cases overwrite <;> cases copying <;> cases h1 : view s newKey <;> cases h2 : view s oldKey <;>
    simp [Dict.processMulti, rekeyChecker, rekeyRemover, rekeySetter, Dict.process, Dict.act, h1, h2, rekeyed]

/-- C22: consequences in plain terms: the new key holds the value of the old one, the old key is gone (if
different and not copying), every other record is as before. -/
theorem C22_rekey_effect (d : Dict) (o n : Bytes) (ow cp : Bool) (v : Bytes) (hv : d o = some v)
    (hok : ow = true ∨ d n = none) :
    (rekeyed d o n ow cp).1 n = some v ∧ (o ≠ n → cp = false → (rekeyed d o n ow cp).1 o = none) ∧
    (o ≠ n → cp = true → (rekeyed d o n ow cp).1 o = some v) ∧
    ∀ k, k ≠ o → k ≠ n → (rekeyed d o n ow cp).1 k = d k := by
  have c : ¬ (ow = false ∧ (d n).isSome) := by
    rintro ⟨h1, h2⟩; rcases hok with h | h
    · simp [h] at h1
    · simp [h] at h2
  simp only [rekeyed, hv, if_neg c]
  cases cp <;> simp [Dict.upd_self, Dict.upd]
  all_goals grind

example : (rekey Dict.impl (Dict.empty.upd [1] (some [9])) [1] [2] false false).2 = (.success, some [9]) := by decide
example : (rekey Dict.impl (Dict.empty.upd [1] (some [9])) [1] [1] false false).2 = (.duplication, none) := by decide

end Verif.Api
