import Verif.Dbm.ApiProps
import Verif.Prelude.OrdMap
/-
The methods on several records (C58), status accumulation (C55) and the queue methods (C23).
-/
namespace Verif.Api
open Verif.Codec

variable {σ : Type} {inv : σ → Prop} {view : σ → Dict} {fits : Bytes → Bytes → Prop}

/-! ### C55 Status accumulation -/

/-- C55: accumulating any sequence of results with `|=` gives SUCCESS iff all of them are SUCCESS, and otherwise
the first failure. -/
theorem C55_or_first_failure (l : List Code) :
    l.foldl Code.or .success = ((l.find? (fun c => c != .success)).getD .success) := by
  have keep : ∀ (l : List Code) (c : Code), c ≠ .success → l.foldl Code.or c = c := by
    intro l
    induction l with
    | nil => intro c _; rfl
    | cons a l ih => intro c hc; simp only [List.foldl_cons, Code.or]; rw [if_neg (by simp [hc])]; exact ih c hc
  induction l with
  | nil => rfl
  | cons a l ih =>
    by_cases h : a = .success
    · subst h; simp [Code.or, ih]
    · simp only [List.foldl_cons, Code.or, ne_eq, h, not_false_eq_true, and_self, if_true]
      rw [keep _ _ h]; simp [h]

/-- C55: the accumulated status is SUCCESS exactly when every result is. -/
theorem C55_or_success_iff (l : List Code) : l.foldl Code.or .success = .success ↔ ∀ c ∈ l, c = .success := by
  rw [C55_or_first_failure]
  constructor
  · intro h c hc
    cases hf : l.find? (fun c => c != .success) with
    | none => have := List.find?_eq_none.1 hf c hc; simpa using this
    | some x =>
      have := List.find?_some hf
      simp [hf] at h
      simp [h] at this
  · intro h
    have : l.find? (fun c => c != .success) = none := List.find?_eq_none.2 (fun c hc => by simp [h c hc])
    simp [this]

example : [Code.success, .notFound, .duplication].foldl Code.or .success = .notFound := by decide

/-! ### Methods on several records -/

section
variable {D : DbmImpl σ}

theorem getMulti_aux (L : Lawful D inv view fits) (ks : List Bytes) (s : σ) (hi : inv s) (records : Dict) (st : Code) :
    inv (getMulti D s records ks st).1 ∧ view (getMulti D s records ks st).1 = view s ∧
    (∀ k, (getMulti D s records ks st).2.2 k =
      if (records k).isSome then records k else if k ∈ ks then view s k else none) ∧
    (getMulti D s records ks st).2.1 =
      (if st = .success ∧ ∃ k ∈ ks, view s k = none then .notFound else st) := by
  induction ks generalizing s records st with
  | nil =>
    refine ⟨hi, rfl, ?_, ?_⟩
    · intro k; simp only [getMulti]; cases records k <;> simp
    · simp [getMulti]
  | cons a ks ih =>
    have g := C58_get L s a hi
    cases hv : view s a with
    | none =>
      have e := g.2.2.2 hv
      have := ih (get D s a).1 g.1 records (Code.or st .notFound)
      simp only [getMulti, e]
      rw [if_neg (by simp)]
      rw [g.2.1] at this
      refine ⟨this.1, this.2.1, ?_, ?_⟩
      · intro k
        rw [this.2.2.1 k]
        by_cases hk : k = a
        · subst hk; simp [hv]
        · simp [hk]
      · rw [this.2.2.2]
        by_cases h : st = .success
        · subst h; simp [Code.or, hv]
        · simp [Code.or, h]
    | some v =>
      have e := g.2.2.1 v hv
      have := ih (get D s a).1 g.1 (if (records a).isSome then records else records.upd a (some v)) st
      simp only [getMulti, e, if_true]
      rw [g.2.1] at this
      refine ⟨this.1, this.2.1, ?_, ?_⟩
      · intro k
        rw [this.2.2.1 k]
        by_cases hk : k = a
        · subst hk
          cases hr : records k <;> simp [hr, hv, Dict.upd]
        · cases hr : records a <;> simp [hr, hk, Dict.upd]
      · rw [this.2.2.2]; simp [hv]

/-- C58: `GetMulti` collects exactly the existing records among the keys, and reports NOT_FOUND_ERROR iff one is
missing. -/
theorem C58_get_multi (L : Lawful D inv view fits) (ks : List Bytes) (s : σ) (hi : inv s) :
    view (getMulti D s Dict.empty ks .success).1 = view s ∧
    (∀ k, (getMulti D s Dict.empty ks .success).2.2 k = if k ∈ ks then view s k else none) ∧
    (getMulti D s Dict.empty ks .success).2.1 = (if ∃ k ∈ ks, view s k = none then .notFound else .success) := by
  have h := getMulti_aux L ks s hi Dict.empty .success
  refine ⟨h.2.1, fun k => ?_, ?_⟩
  · rw [h.2.2.1 k]; simp [Dict.empty]
  · rw [h.2.2.2]; simp

/-- SPECIFICATION: the dictionary after storing pairs one after the other. -/
def stored (d : Dict) (overwrite : Bool) : List (Bytes × Bytes) → Dict
  | [] => d
  | (k, v) :: rest =>
    stored (if overwrite = false ∧ (d k).isSome then d else d.upd k (some v)) overwrite rest

/-- C58: `SetMulti` stores all the records; with overwrite=false it skips existing ones and reports
DUPLICATION_ERROR iff it skipped one. -/
theorem C58_set_multi (L : Lawful D inv view fits) (overwrite : Bool) (kvs : List (Bytes × Bytes))
    (hf : ∀ kv ∈ kvs, fits kv.1 kv.2) (hnd : (kvs.map (·.1)).Nodup) (s : σ) (hi : inv s) (st : Code)
    (hst : st = .success ∨ st = .duplication) :
    inv (setMulti D s overwrite kvs st).1 ∧ view (setMulti D s overwrite kvs st).1 = stored (view s) overwrite kvs ∧
    (setMulti D s overwrite kvs st).2 =
      (if st = .success ∧ overwrite = false ∧ ∃ kv ∈ kvs, (view s kv.1).isSome then .duplication else st) := by
  induction kvs generalizing s st with
  | nil => exact ⟨hi, rfl, by simp [setMulti]⟩
  | cons kv kvs ih =>
    obtain ⟨k, v⟩ := kv
    rw [List.forall_mem_cons] at hf
    simp only [List.map_cons, List.nodup_cons] at hnd
    have h := C58_set L s k v overwrite hi hf.1
    have fresh : ∀ kv ∈ kvs, view (set D s k v overwrite).1 kv.1 = view s kv.1 := by
      intro kv hkv
      have hne : kv.1 ≠ k := fun e => hnd.1 (e ▸ List.mem_map_of_mem hkv)
      have := h.2.2
      split at this
      · rw [this.2]
      · rw [this.2, Dict.upd_other _ _ hne]
    have ex : (∃ kv ∈ kvs, (view (set D s k v overwrite).1 kv.1).isSome) ↔ ∃ kv ∈ kvs, (view s kv.1).isSome := by
      constructor <;> rintro ⟨x, hx, h'⟩ <;> refine ⟨x, hx, ?_⟩
      · rwa [fresh x hx] at h'
      · rwa [fresh x hx]
    simp only [setMulti, stored]
    have key : ∀ (c : Code) (d' : Dict), (set D s k v overwrite).2.1 = c → view (set D s k v overwrite).1 = d' →
        (c = .success ∨ c = .duplication) → _ := fun c d' hc hd hcc =>
      ih hf.2 hnd.2 (set D s k v overwrite).1 h.1 (Code.or st c) (by
        rcases hst with e | e <;> rcases hcc with e' | e' <;> simp [e, e', Code.or])
    by_cases c : overwrite = false ∧ (view s k).isSome
    · have hs := h.2.2; rw [if_pos c] at hs
      have := key _ _ hs.1 hs.2 (Or.inr rfl)
      rw [hs.2] at this
      rw [if_pos c, hs.1, if_neg (by rcases hst with e | e <;> simp [e, Code.or])]
      refine ⟨this.1, this.2.1, ?_⟩
      rw [this.2.2]
      rcases hst with e | e <;> simp [e, Code.or, c]
    · have hs := h.2.2; rw [if_neg c] at hs
      have := key _ _ hs.1 hs.2 (Or.inl rfl)
      rw [hs.2] at this
      rw [if_neg c, hs.1, if_neg (by rcases hst with e | e <;> simp [e, Code.or])]
      refine ⟨this.1, this.2.1, ?_⟩
      rw [this.2.2]
      rw [hs.2] at ex
      simp only [ex, List.exists_mem_cons]
      by_cases P : ∃ kv ∈ kvs, (view s kv.1).isSome
      all_goals
        simp only [P]
        clear ih key this ex fresh
        rcases hst with e | e <;> subst e <;> cases hk : (view s k).isSome <;> cases overwrite <;>
          simp [Code.or, hk] at c P ⊢ <;> first | exact P | simpa [Option.isSome_iff_ne_none] using P

/-- C58: `RemoveMulti` removes all the keys and reports NOT_FOUND_ERROR iff one of them was missing. -/
theorem C58_remove_multi (L : Lawful D inv view fits) (ks : List Bytes) (hnd : ks.Nodup) (s : σ) (hi : inv s) (st : Code)
    (hst : st = .success ∨ st = .notFound) :
    inv (removeMulti D s ks st).1 ∧
    (∀ k, view (removeMulti D s ks st).1 k = if k ∈ ks then none else view s k) ∧
    (removeMulti D s ks st).2 = (if st = .success ∧ ∃ k ∈ ks, view s k = none then .notFound else st) := by
  induction ks generalizing s st with
  | nil => exact ⟨hi, by simp [removeMulti], by simp [removeMulti]⟩
  | cons a ks ih =>
    rw [List.nodup_cons] at hnd
    have h := C58_remove L s a hi
    simp only [removeMulti]
    have hc : (remove D s a).2.1 = .success ∨ (remove D s a).2.1 = .notFound := by
      rw [h.2.2.2]; cases (view s a).isSome <;> simp
    have hst' : Code.or st (remove D s a).2.1 = .success ∨ Code.or st (remove D s a).2.1 = .notFound := by
      rcases hst with e | e <;> rcases hc with e' | e' <;> simp [e, e', Code.or]
    rw [if_neg (by rcases hst' with e | e <;> simp [e])]
    have := ih hnd.2 (remove D s a).1 h.1 _ hst'
    refine ⟨this.1, ?_, ?_⟩
    · intro k
      rw [this.2.1 k, h.2.1]
      by_cases hk : k = a
      · subst hk; simp [Dict.upd]
      · simp [hk, Dict.upd]
    · rw [this.2.2]
      have fr : (∃ k ∈ ks, view (remove D s a).1 k = none) ↔ ∃ k ∈ ks, view s k = none := by
        have ne : ∀ x ∈ ks, x ≠ a := fun x hx e => hnd.1 (e ▸ hx)
        constructor <;> rintro ⟨x, hx, h'⟩ <;> refine ⟨x, hx, ?_⟩
        · rwa [h.2.1, Dict.upd_other _ _ (ne x hx)] at h'
        · rwa [h.2.1, Dict.upd_other _ _ (ne x hx)]
      simp only [fr, h.2.2.2]
      cases hv : view s a with
      | none => rcases hst with e | e <;> simp [e, Code.or, hv]
      | some v => rcases hst with e | e <;> simp [e, Code.or, hv]

example : (removeMulti Dict.impl (Dict.empty.upd [1] (some [9])) [[1], [2]] .success).2 = .notFound := by decide
example : (setMulti Dict.impl (Dict.empty.upd [1] (some [9])) false [([1], [3]), ([2], [4])] .success).2 = .duplication := by
  decide

/-- SPECIFICATION: the dictionary after appending pairs one after the other. -/
def appendedAll (d : Dict) (delim : Bytes) : List (Bytes × Bytes) → Dict
  | [] => d
  | (k, v) :: rest => appendedAll (d.upd k (some (appended (d k) v delim))) delim rest

/-- C58: `AppendMulti`. -/
theorem C58_append_multi (L : Lawful D inv view fits) (hf : ∀ k v, fits k v) (delim : Bytes) (kvs : List (Bytes × Bytes))
    (s : σ) (hi : inv s) :
    inv (appendMulti D s delim kvs) ∧ view (appendMulti D s delim kvs) = appendedAll (view s) delim kvs := by
  induction kvs generalizing s with
  | nil => exact ⟨hi, rfl⟩
  | cons kv kvs ih =>
    obtain ⟨k, v⟩ := kv
    have h := C58_append L s k v delim hi (hf _ _)
    simp only [appendMulti, appendedAll, ← h.2]
    exact ih _ h.1
end

/-! ### C23 PushLast / PopFirst -/

/-- SPECIFICATION of `ProcessFirst`: the processor is run on a record whose key no existing key precedes in the
order `lt` (for an unordered database, `lt` is never true); on an empty database it fails. -/
structure LawfulFirst (D : FirstImpl σ) (inv : σ → Prop) (view : σ → Dict) (fits : Bytes → Bytes → Prop)
    (lt : Bytes → Bytes → Prop) : Prop extends Lawful D.toDbmImpl inv view fits where
  first_none : ∀ {τ : Type} (s : σ) (w : Bool) (p : Bytes → Bytes → Action × τ), inv s →
    (∀ k, view s k = none) → inv (D.processFirst s w p).1 ∧ view (D.processFirst s w p).1 = view s ∧
      (D.processFirst s w p).2 = none
  first_some : ∀ {τ : Type} (s : σ) (w : Bool) (p : Bytes → Bytes → Action × τ), inv s →
    (∃ k, view s k ≠ none) →
    ∃ k v, view s k = some v ∧ (∀ k' v', view s k' = some v' → ¬ lt k' k) ∧
      (ActFits fits k (p k v).1 → inv (D.processFirst s w p).1 ∧
        view (D.processFirst s w p).1 = (if w then (view s).act k (p k v).1 else view s) ∧
        (D.processFirst s w p).2 = some (p k v).2)

/-- The key made of a timestamp. -/
abbrev tkey (t : Nat) : Bytes := intToStrBigEndian t 8

theorem tkey_lt {a b : Nat} (ha : a < 2 ^ 64) (hb : b < 2 ^ 64) : tkey a < tkey b ↔ a < b :=
  C33_bigendian_order a b 8 (by omega) (by omega) (by simpa using ha) (by simpa using hb)

theorem tkey_inj {a b : Nat} (ha : a < 2 ^ 64) (hb : b < 2 ^ 64) (h : tkey a = tkey b) : a = b := by
  have h1 := tkey_lt ha hb
  have h2 := tkey_lt hb ha
  rw [h] at h1 h2
  have irr : ¬ (tkey b < tkey b) := List.lt_irrefl _
  have x1 : ¬ a < b := fun x => irr (h1.2 x)
  have x2 : ¬ b < a := fun x => irr (h2.2 x)
  omega

/-- C23: `PushLast` stores the value under the first generated key that is not in use; no existing record is
overwritten. -/
theorem C23_push {D : DbmImpl σ} (L : Lawful D inv view fits) (v : Bytes) (stamp : Nat → Nat)
    (hf : ∀ k, fits k v) (n : Nat) (seq fuel : Nat) (s : σ) (hi : inv s) (hn : n < fuel)
    (hbusy : ∀ m, m < n → (view s (tkey (stamp (seq + m)))).isSome)
    (hfree : view s (tkey (stamp (seq + n))) = none) :
    ∃ s', pushLast D s v stamp fuel seq = some (s', tkey (stamp (seq + n))) ∧ inv s' ∧
      view s' = (view s).upd (tkey (stamp (seq + n))) (some v) := by
  induction n generalizing seq fuel s with
  | zero =>
    obtain ⟨f, rfl⟩ : ∃ f, fuel = f + 1 := ⟨fuel - 1, by omega⟩
    have h := C58_set L s (tkey (stamp seq)) v false hi (hf _)
    simp only [Nat.add_zero] at hfree ⊢
    have h2 := h.2.2
    rw [if_neg (by simp [hfree])] at h2
    refine ⟨_, ?_, h.1, h2.2⟩
    simp [pushLast, h2.1]
  | succ n ih =>
    obtain ⟨f, rfl⟩ : ∃ f, fuel = f + 1 := ⟨fuel - 1, by omega⟩
    have h := C58_set L s (tkey (stamp seq)) v false hi (hf _)
    have b0 := hbusy 0 (by omega)
    simp only [Nat.add_zero] at b0
    have h2 := h.2.2
    rw [if_pos (by simp [b0])] at h2
    have := ih (seq + 1) f (set D s (tkey (stamp seq)) v false).1 h.1 (by omega)
      (by intro m hm; rw [h2.2]; have := hbusy (m + 1) (by omega); rwa [show seq + (m + 1) = seq + 1 + m by omega] at this)
      (by rw [h2.2]; rwa [show seq + (n + 1) = seq + 1 + n by omega] at hfree)
    rw [h2.2, show seq + 1 + n = seq + (n + 1) by omega] at this
    obtain ⟨s', e, i, w⟩ := this
    refine ⟨s', ?_, i, w⟩
    simp only [pushLast]
    rw [if_neg (by simp [h2.1])]
    exact e

/-- An operation of a queue client. `stamp` is the timestamp read by the push at each attempt. -/
inductive QOp where
  | push (stamp : Nat → Nat) (v : Bytes)
  | pop

/-- Run queue operations on a database, collecting the popped values (`none` = NOT_FOUND_ERROR). -/
def runQ (D : FirstImpl σ) (s : σ) : List QOp → Option (σ × List (Option Bytes))
  | [] => some (s, [])
  | .push stamp v :: ops =>
    match pushLast D.toDbmImpl s v stamp 1 0 with
    | none => none
    | some (s', _) => runQ D s' ops
  | .pop :: ops =>
    let x := popFirst D s
    match runQ D x.1 ops with
    | none => none
    | some (s', out) => some (s', x.2.map (·.2) :: out)

/-- SPECIFICATION: a first-in first-out queue. -/
def fifo (q : List Bytes) : List QOp → List (Option Bytes)
  | [] => []
  | .push _ v :: ops => fifo (q ++ [v]) ops
  | .pop :: ops => q.head? :: fifo q.tail ops

/-- SPECIFICATION: the clock reading of every push is later than `t`, and they increase strictly. -/
def ClockAfter : Nat → List QOp → Prop
  | _, [] => True
  | t, .push stamp _ :: ops => t < stamp 0 ∧ stamp 0 < 2 ^ 64 ∧ ClockAfter (stamp 0) ops
  | t, .pop :: ops => ClockAfter t ops

/-- The dictionary holding a queue of (timestamp, value) pairs. -/
def qdict (q : List (Nat × Bytes)) : Dict := fun k => (q.find? (fun p => tkey p.1 = k)).map (·.2)

theorem qdict_none {q : List (Nat × Bytes)} {k : Bytes} (h : ∀ p ∈ q, tkey p.1 ≠ k) : qdict q k = none := by
  have : q.find? (fun p => tkey p.1 = k) = none := List.find?_eq_none.2 (by simpa using h)
  simp [qdict, this]

theorem qdict_some {q : List (Nat × Bytes)} {k v : Bytes} (h : qdict q k = some v) :
    ∃ p ∈ q, tkey p.1 = k ∧ p.2 = v := by
  simp only [qdict, Option.map_eq_some_iff] at h
  obtain ⟨p, hp, rfl⟩ := h
  exact ⟨p, List.mem_of_find?_eq_some hp, by simpa using List.find?_some hp, rfl⟩

theorem run_fifo {D : FirstImpl σ} (L : LawfulFirst D inv view fits (fun a b => a < b)) (hf : ∀ k v, fits k v)
    (ops : List QOp) : ∀ (s : σ) (q : List (Nat × Bytes)) (t : Nat), inv s → view s = qdict q →
    (∀ p ∈ q, p.1 ≤ t ∧ p.1 < 2 ^ 64) → q.Pairwise (fun a b => a.1 < b.1) → ClockAfter t ops →
    ∃ s', runQ D s ops = some (s', fifo (q.map (·.2)) ops) := by
  induction ops with
  | nil => intro s q t hi hv hb hs hc; exact ⟨s, rfl⟩
  | cons op ops ih =>
    intro s q t hi hv hb hs hc
    cases op with
    | push stamp v =>
      simp only [ClockAfter] at hc
      have hne : ∀ p ∈ q, tkey p.1 ≠ tkey (stamp 0) := fun p hp e => by
        have := tkey_inj (hb p hp).2 hc.2.1 e
        have := (hb p hp).1; omega
      obtain ⟨s', e, i, w⟩ := C23_push L.toLawful v stamp (fun k => hf k v) 0 0 1 s hi (by omega) (by omega)
        (by simpa [hv] using qdict_none hne)
      simp only [Nat.zero_add] at e w
      have hv' : view s' = qdict (q ++ [(stamp 0, v)]) := by
        rw [w, hv]; funext k
        by_cases hk : k = tkey (stamp 0)
        · subst hk
          have : q.find? (fun p => tkey p.1 = tkey (stamp 0)) = none := List.find?_eq_none.2 (by simpa using hne)
          simp [Dict.upd, qdict, List.find?_append, this]
        · have : ¬ tkey (stamp 0) = k := fun h => hk h.symm
          simp only [Dict.upd, hk, if_false, qdict, List.find?_append]
          cases q.find? (fun p => tkey p.1 = k) <;> simp [this]
      obtain ⟨s'', h⟩ := ih s' (q ++ [(stamp 0, v)]) (stamp 0) i hv'
        (by
          intro p hp
          rcases List.mem_append.1 hp with h | h
          · exact ⟨by have := (hb p h).1; omega, (hb p h).2⟩
          · simp at h; subst h; exact ⟨Nat.le_refl _, hc.2.1⟩)
        (by
          rw [List.pairwise_append]
          refine ⟨hs, by simp, ?_⟩
          intro a ha b hb'
          simp at hb'; subst hb'
          have := (hb a ha).1
          show a.1 < stamp 0; omega) hc.2.2
      refine ⟨s'', ?_⟩
      simp only [runQ, e]
      simpa [fifo] using h
    | pop =>
      simp only [ClockAfter] at hc
      cases q with
      | nil =>
        have hn : ∀ k, view s k = none := fun k => by rw [hv]; exact qdict_none (by simp)
        obtain ⟨i, w, e⟩ := L.first_none s true (fun k v => (Action.remove, (k, v))) hi hn
        obtain ⟨s', h⟩ := ih (popFirst D s).1 [] t i (by simp only [popFirst]; rw [w, hv]) (by simp) (by simp) hc
        refine ⟨s', ?_⟩
        simp only [runQ, h]
        simp [popFirst, e, fifo]
      | cons a q =>
        rw [List.pairwise_cons] at hs
        have ha : view s (tkey a.1) = some a.2 := by rw [hv]; simp [qdict]
        obtain ⟨k, v, hk, hmin, hrun⟩ := L.first_some s true (fun k v => (Action.remove, (k, v))) hi ⟨tkey a.1, by simp [ha]⟩
        have hka : k = tkey a.1 ∧ v = a.2 := by
          rw [hv] at hk
          obtain ⟨p, hp, e1, e2⟩ := qdict_some hk
          rcases List.mem_cons.1 hp with h | h
          · subst h; exact ⟨e1.symm, e2.symm⟩
          · exfalso
            apply hmin _ _ ha
            rw [← e1]
            exact (tkey_lt (hb a (by simp)).2 (hb p hp).2).2 (hs.1 p h)
        obtain ⟨rfl, rfl⟩ := hka
        obtain ⟨i, w, e⟩ := hrun trivial
        have hv' : view (popFirst D s).1 = qdict q := by
          simp only [popFirst]
          rw [w, hv]
          funext k
          simp only [if_true, Dict.act, Dict.upd]
          by_cases hk : k = tkey a.1
          · subst hk
            rw [if_pos rfl, qdict_none]
            intro p hp e'
            have h1 := tkey_inj (hb p (by simp [hp])).2 (hb a (by simp)).2 e'
            have := hs.1 p hp; omega
          · have : ¬ tkey a.1 = k := fun h => hk h.symm
            simp [hk, qdict, this]
        obtain ⟨s', h⟩ := ih (popFirst D s).1 q t i hv' (fun p hp => hb p (by simp [hp])) hs.2 hc
        refine ⟨s', ?_⟩
        simp only [runQ, h]
        simp [popFirst, e, fifo]

/-- C23 (part): on an ordered database that starts empty, if every `PushLast` reads a later clock value than the
pushes before it, then any interleaving of pushes and pops behaves as a FIFO queue. Missing from the full
statement: equal clock readings, for which it is false (`C23_fifo_violated`). -/
theorem C23_fifo_partial {D : FirstImpl σ} (L : LawfulFirst D inv view fits (fun a b => a < b)) (hf : ∀ k v, fits k v)
    (s : σ) (hi : inv s) (hempty : view s = Dict.empty) (ops : List QOp) (hc : ClockAfter 0 ops) :
    ∃ s', runQ D s ops = some (s', fifo [] ops) :=
  run_fifo L hf ops s [] 0 hi (by rw [hempty]; rfl) (by simp) (by simp) hc

example : ClockAfter 0 [.push (fun n => 5 + n) [1], .push (fun n => 6 + n) [2], .pop, .push (fun n => 9 + n) [3], .pop] := by
  simp [ClockAfter]

/-- A sorted association list as an ordered database, to exhibit concrete runs. -/
def listImpl : FirstImpl (List (Bytes × Bytes)) where
  process := fun l k w p =>
    let r := p (OrdMap.find bytesLt k l)
    (if w then match r.1 with
      | .noop => l
      | .remove => OrdMap.erase bytesLt k l
      | .set v => OrdMap.assign bytesLt k v l
    else l, r.2)
  processMulti := fun l ps w r => seqMulti (fun l k w p =>
    let r := p (OrdMap.find bytesLt k l)
    (if w then match r.1 with
      | .noop => l
      | .remove => OrdMap.erase bytesLt k l
      | .set v => OrdMap.assign bytesLt k v l
    else l, r.2)) l ps w r
  processFirst := fun l w p =>
    match l with
    | [] => (l, none)
    | (k, v) :: rest =>
      let r := p k v
      (if w then match r.1 with
        | .noop => l
        | .remove => rest
        | .set v' => (k, v') :: rest
      else l, some r.2)

/-- C23: FINDING. With a clock that reads the same value (which `wtime` or a coarse clock allows), a key freed by
`PopFirst` is used again by the next `PushLast`, so the value pushed last overtakes one pushed before it: push 1,
push 2, pop, push 3, pop gives 1 and then 3. -/
theorem C23_fifo_violated :
    let clock := fun n => 100 + n
    let r1 := pushLast listImpl.toDbmImpl [] [1] clock 10 0
    let s1 := (r1.map (·.1)).getD []
    let r2 := pushLast listImpl.toDbmImpl s1 [2] clock 10 0
    let s2 := (r2.map (·.1)).getD []
    let p1 := popFirst listImpl s2
    let r3 := pushLast listImpl.toDbmImpl p1.1 [3] clock 10 0
    let s3 := (r3.map (·.1)).getD []
    let p2 := popFirst listImpl s3
    p1.2.map (·.2) = some [1] ∧ p2.2.map (·.2) = some [3] := by
  decide +kernel

end Verif.Api
