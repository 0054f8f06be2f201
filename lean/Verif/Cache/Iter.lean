import Verif.Cache.EachProps
import Verif.Dbm.BucketIter
/-
The iterator of CacheDBM, and C10 for it: a traversal interleaved with arbitrary calls on the database.
-/
namespace Verif.Cache
open Verif.BucketIter

/-- `CacheDBMIteratorImpl` (tkrzw_dbm_cache.cc 142-158): the next partition to read (-1: no position) and the keys read. -/
structure Iter where
  slot : Int
  keys : List Bytes
deriving Repr, DecidableEq

/-- `CacheSlot::GetKeys` (tkrzw_dbm_cache.cc 593-605). -/
def getKeys (s : State) (i : Nat) : Option (List Bytes) := (Linked.toList (s.slots i).map).map fun l => l.map (·.1)

/-- `ReadNextBucketRecords` (tkrzw_dbm_cache.cc 1000-1016): `none` is undefined behaviour, the flag is SUCCESS; `fuel` bounds the
partitions. -/
def readNext (s : State) : (fuel : Nat) → Iter → Option (Iter × Bool)
  | 0, it => some ({ it with slot := -1 }, false)
  | fuel + 1, it =>
    if it.slot < 0 ∨ it.slot ≥ numSlots then some ({ it with slot := -1 }, false)
    else
      match getKeys s it.slot.toNat with
      | none => none
      | some keys => if keys ≠ [] then some (⟨it.slot + 1, keys⟩, true) else readNext s fuel ⟨it.slot + 1, keys⟩

/-- `First` (tkrzw_dbm_cache.cc 1032-1037). -/
def Iter.first : Iter := ⟨0, []⟩

/-- `ReadKeys` (tkrzw_dbm_cache.cc 1106-1121). -/
def readKeys (s : State) (it : Iter) : Option (Iter × Bool) :=
  if it.slot < 0 then some (it, false)
  else if it.keys = [] then
    match readNext s (numSlots + 1) it with
    | none => none
    | some (it, ok) => some (it, ok && !it.keys.isEmpty)
  else some (it, true)

/-- `Next` (tkrzw_dbm_cache.cc 1060-1068): `some false` is NOT_FOUND_ERROR. -/
def next (s : State) (it : Iter) : Option (Iter × Bool) :=
  match readKeys s it with
  | none => none
  | some (it, false) => some (it, false)
  | some (it, true) => some ({ it with keys := it.keys.drop 1 }, true)

/-- `Process` of the iterator (tkrzw_dbm_cache.cc 1070-1104). The last component is what the processor returns; `none` is
NOT_FOUND_ERROR. -/
def iterProcess {τ : Type} (E : Env) (s : State) (it : Iter) (w : Bool) (p : Bytes → Bytes → Action × τ) :
    State × Iter × Option τ :=
  match readKeys s it with
  | none => ({ s with bad := true }, it, none)
  | some (it, false) => (s, it, none)
  | some (it, true) =>
    match it.keys with
    | [] => ({ s with bad := true }, it, none)
    | k :: ks =>
      let x := s.processAt E (E.slotOf k) k w (fullOnly (fun v => ((p k v).1, some ((p k v).1, (p k v).2))) none)
      match x.2 with
      | none => (x.1, it, none)
      | some (.remove, t) => (x.1, { it with keys := ks }, some t)
      | some (_, t) => (x.1, it, some t)

/-- `Jump` (tkrzw_dbm_cache.cc 1039-1058). -/
def jump (E : Env) (s : State) (k : Bytes) : Option (Iter × Bool) :=
  match readNext s (numSlots + 1) ⟨E.slotOf k, []⟩ with
  | none => none
  | some (it, false) => some (it, false)
  | some (it, true) =>
    if k ∈ it.keys then some ({ it with keys := it.keys.dropWhile (· ≠ k) }, true) else some (⟨-1, []⟩, false)

/-- `CancelIterators` (tkrzw_dbm_cache.cc 886-890), which `Clear` and `Rebuild` call (774, 792). -/
def Iter.cancel (it : Iter) : Iter := { it with slot := -1 }

/-- What `Iterator::Get` returns: the key and the value of the current record, if it succeeds. -/
def iterGet (E : Env) (s : State) (it : Iter) : Option (Bytes × Bytes) :=
  (iterProcess E s it false (fun k v => (.noop, (k, v)))).2.2

/-- An event during a traversal: a call on the database, `Iterator::Next`, or `Iterator::Process` (which covers `Get`, `Set` and
`Remove` of the iterator). -/
inductive Ev where
  | db (op : Op)
  | next
  | proc (w : Bool) (p : Bytes → Bytes → Action × Unit)

/-- The iterator after a call on the database: `Clear` and `Rebuild` cancel it (tkrzw_dbm_cache.cc 774, 792). -/
def iterAfter (it : Iter) : Op → Iter
  | .process _ _ _ => it
  | .clear => it.cancel
  | .rebuild _ _ => it.cancel

/-- One event. -/
def evStep (E : Env) (s : State) (it : Iter) : Ev → State × Iter
  | .db op => (step E s op, iterAfter it op)
  | .next => match Cache.next s it with
    | none => ({ s with bad := true }, it)
    | some (it, _) => (s, it)
  | .proc w p => let x := iterProcess E s it w p; (x.1, x.2.1)

/-- SPECIFICATION: the record `Get` would return is passed by `Next`, and by a `Process` that returns REMOVE. -/
def passed (E : Env) (s : State) (it : Iter) : Ev → List Bytes
  | .db _ => []
  | .next => ((iterGet E s it).map (·.1)).toList
  | .proc _ p => match iterGet E s it with
    | some (k, v) => if (p k v).1 = .remove then [k] else []
    | none => []

/-- Run events and collect the keys passed. -/
def evRun (E : Env) : State → Iter → List Ev → State × Iter × List Bytes
  | s, it, [] => (s, it, [])
  | s, it, e :: evs =>
    let x := evStep E s it e
    let y := evRun E x.1 x.2 evs
    (y.1, y.2.1, passed E s it e ++ y.2.2)

/-- SPECIFICATION: the event stores nothing larger than 2 GiB. -/
def EvOk : Ev → Prop
  | .db op => Fits [op]
  | .next => True
  | .proc _ p => ∀ k v, ActFits recFits k (p k v).1

/-- SPECIFICATION: the event is not `Rebuild`, which cancels all iterators. -/
def EvKeeps : Ev → Prop
  | .db (.rebuild _ _) => False
  | _ => True

/-- SPECIFICATION: the record of the key exists all the time. -/
def Throughout (E : Env) (k : Bytes) : State → Iter → List Ev → Prop
  | s, _, [] => (look E s k).isSome
  | s, it, e :: evs => (look E s k).isSome ∧ Throughout E k (evStep E s it e).1 (evStep E s it e).2 evs

/-! ### The iterator is a bucket iterator -/

def Iter.it (it : Iter) : It := ⟨it.slot, it.keys⟩

theorem getKeys_ok {E : Env} {s : State} {P : Nat → List (Bytes × Bytes)} (h : StateOk E s P) (i : Nat) :
    getKeys s i = some ((P i).map (·.1)) := by rw [getKeys, toList_spec (h.slot i)]; rfl

theorem keysOk {E : Env} {s : State} {P : Nat → List (Bytes × Bytes)} (h : StateOk E s P) :
    KeysOk numSlots E.slotOf (fun i => (P i).map (·.1)) (fun k => (look E s k).isSome = true) := by
  refine ⟨slotOf_lt E, fun i _ => (h.slot i).nodup, fun i _ k => ?_⟩
  rw [(look_eq h k).1]
  constructor
  · intro hk
    obtain ⟨e, he, rfl⟩ := List.mem_map.1 hk
    have := h.home i e he
    refine ⟨this, ?_⟩
    rw [this, mem_get (h.slot i).nodup he]; rfl
  · rintro ⟨rfl, hs⟩
    obtain ⟨v, hv⟩ := Option.isSome_iff_exists.1 hs
    exact List.mem_map.2 ⟨_, get_mem hv, rfl⟩

theorem readNext_eq {E : Env} {s : State} {P : Nat → List (Bytes × Bytes)} (h : StateOk E s P) (fuel : Nat) : ∀ it : Iter,
    it.keys = [] → ∃ it' b, Cache.readNext s fuel it = some (it', b) ∧
      BucketIter.readNext numSlots (fun i => (P i).map (·.1)) fuel it.it = (it'.it, b) := by
  induction fuel with
  | zero => intro it _; exact ⟨_, _, rfl, rfl⟩
  | succ fuel ih =>
    intro it hk
    rw [Cache.readNext, BucketIter.readNext, getKeys_ok h]
    by_cases hb : it.slot < 0 ∨ it.slot ≥ numSlots
    · rw [if_pos hb, if_pos (show it.it.idx < 0 ∨ it.it.idx ≥ numSlots from hb)]
      exact ⟨_, _, rfl, rfl⟩
    · rw [if_neg hb, if_neg (show ¬ (it.it.idx < 0 ∨ it.it.idx ≥ numSlots) from hb)]
      have ei : it.it.idx.toNat = it.slot.toNat := rfl
      simp only [ei]
      by_cases he : (P it.slot.toNat).map (·.1) = []
      · rw [if_neg (by simpa using he), if_pos he, he]
        exact ih ⟨it.slot + 1, []⟩ rfl
      · rw [if_pos he, if_neg he]
        exact ⟨_, _, rfl, rfl⟩

theorem readNext_true {n : Nat} {ks : Nat → List Bytes} (fuel : Nat) : ∀ it : It,
    (BucketIter.readNext n ks fuel it).2 = true → (BucketIter.readNext n ks fuel it).1.keys ≠ [] := by
  induction fuel with
  | zero => intro it h; simp [BucketIter.readNext] at h
  | succ fuel ih =>
    intro it
    simp only [BucketIter.readNext]
    split
    · simp
    · split
      · exact ih _
      · rename_i h; exact fun _ => h

theorem readKeys_eq {E : Env} {s : State} {P : Nat → List (Bytes × Bytes)} (h : StateOk E s P) (it : Iter) :
    ∃ it' b, Cache.readKeys s it = some (it', b) ∧
      BucketIter.readKeys numSlots (fun i => (P i).map (·.1)) it.it = (it'.it, b) := by
  simp only [Cache.readKeys, BucketIter.readKeys]
  by_cases h1 : it.slot < 0
  · exact ⟨_, _, if_pos h1, if_pos h1⟩
  · rw [if_neg h1, if_neg (show ¬ it.it.idx < 0 from h1)]
    by_cases h2 : it.keys = []
    · rw [if_pos h2, if_pos (show it.it.keys = [] from h2)]
      obtain ⟨it', b, e1, e2⟩ := readNext_eq h (numSlots + 1) it h2
      refine ⟨it', b, ?_, e2⟩
      rw [e1]
      cases b with
      | false => rfl
      | true =>
        have := readNext_true (n := numSlots) (ks := fun i => (P i).map (·.1)) (numSlots + 1) it.it (by rw [e2])
        rw [e2] at this
        have h3 : it'.keys ≠ [] := this
        simp [h3]
    · rw [if_neg h2, if_neg (show ¬ it.it.keys = [] from h2)]
      exact ⟨_, _, rfl, rfl⟩

/-- A call through the iterator at a key. -/
theorem fullAt {E : Env} {s : State} {P : Nat → List (Bytes × Bytes)} (h : StateOk E s P) {τ : Type} (k : Bytes) (w : Bool)
    (p : Bytes → Action × τ) (hf : ∀ v, ActFits recFits k (p v).1) :
    (s.processAt E (E.slotOf k) k w (fullOnly (fun v => ((p v).1, some (p v))) none)).2 = (look E s k).map p ∧
    ∃ P', StateOk E (s.processAt E (E.slotOf k) k w (fullOnly (fun v => ((p v).1, some (p v))) none)).1 P' := by
  obtain ⟨h1, _, _, _, h5⟩ := h.processAt k w (fullOnly (fun v => ((p v).1, some (p v))) none) (by
    intro _
    cases Spec.get (P (E.slotOf k)) k with
    | none => trivial
    | some v => exact hf v)
  refine ⟨?_, _, h5⟩
  rw [h1, (look_eq h k).1]
  cases Spec.get (P (E.slotOf k)) k <;> rfl

theorem iterProcess_at {E : Env} {s : State} {P : Nat → List (Bytes × Bytes)} (h : StateOk E s P) {τ : Type} {it it' : Iter} (w : Bool)
    (p : Bytes → Bytes → Action × τ) (hf : ∀ k v, ActFits recFits k (p k v).1) (e : Cache.readKeys s it = some (it', true))
    {k : Bytes} {rest : List Bytes} (hk : it'.keys = k :: rest) :
    (∃ P', StateOk E (iterProcess E s it w p).1 P') ∧
    (iterProcess E s it w p).2 = match look E s k with
      | none => (it', none)
      | some v => (if (p k v).1 = .remove then { it' with keys := rest } else it', some (p k v).2) := by
  obtain ⟨h1, h2⟩ := fullAt h k w (p k) (hf k)
  have eq : iterProcess E s it w p =
      match (s.processAt E (E.slotOf k) k w (fullOnly (fun v => ((p k v).1, some (p k v))) none)).2 with
      | none => ((s.processAt E (E.slotOf k) k w (fullOnly (fun v => ((p k v).1, some (p k v))) none)).1, it', none)
      | some (a, t) => ((s.processAt E (E.slotOf k) k w (fullOnly (fun v => ((p k v).1, some (p k v))) none)).1,
          if a = .remove then { it' with keys := rest } else it', some t) := by
    simp only [iterProcess, e, hk]
    have : (fun v => ((p k v).1, some ((p k v).1, (p k v).2))) = (fun v => ((p k v).1, some (p k v))) := rfl
    rw [this]
    generalize s.processAt E (E.slotOf k) k w (fullOnly (fun v => ((p k v).1, some (p k v))) none) = y
    obtain ⟨y1, y2⟩ := y
    cases y2 with
    | none => rfl
    | some a =>
      obtain ⟨a, t⟩ := a
      cases a <;> rfl
  rw [eq, h1]
  cases look E s k with
  | none => exact ⟨h2, rfl⟩
  | some v => exact ⟨h2, rfl⟩

theorem iterProcess_end {E : Env} {s : State} {τ : Type} {it it' : Iter} (w : Bool)
    (p : Bytes → Bytes → Action × τ) (e : Cache.readKeys s it = some (it', false)) : iterProcess E s it w p = (s, it', none) := by
  simp only [iterProcess, e]

/-- One event keeps the traversal invariant. -/
theorem trav_step {E : Env} {K : Bytes → Prop} {s : State} {it : Iter} {em : List Bytes} {P : Nat → List (Bytes × Bytes)}
    (h : StateOk E s P) (hK : ∀ k, K k → (look E s k).isSome = true) (ht : Trav numSlots E.slotOf K it.it em) (ev : Ev) (ok : EvOk ev)
    (hkeep : EvKeeps ev ∨ ∀ k, ¬ K k)
    (hK' : ∀ k, K k → (look E (evStep E s it ev).1 k).isSome = true) :
    (∃ P', StateOk E (evStep E s it ev).1 P') ∧
    Trav numSlots E.slotOf K (evStep E s it ev).2.it (em ++ passed E s it ev) := by
  cases ev with
  | db op =>
    have hs := (step_ok h op ok).1
    refine ⟨⟨_, hs⟩, ?_⟩
    simp only [passed, List.append_nil, evStep]
    cases op with
    | process k w p => exact ht
    | clear =>
      refine ht.cancel fun k hk => ?_
      have := hK' k hk
      simp only [evStep] at this
      rw [(look_eq hs k).1] at this
      cases this
    | rebuild a b =>
      refine ht.cancel ?_
      rcases hkeep with hk | hk
      · exact hk.elim
      · exact hk
  | next =>
    obtain ⟨it', b, e1, e2⟩ := readKeys_eq h it
    have sp := readKeys_spec (keysOk h) hK ht
    rw [e2] at sp
    simp only [evStep, Cache.next, passed, iterGet, e1]
    cases b with
    | true =>
      refine ⟨⟨_, h⟩, ?_⟩
      rcases sp with ⟨_, g, ne⟩ | ⟨e, _⟩
      · obtain ⟨k, rest, hk⟩ := List.exists_cons_of_ne_nil ne
        have hk' : it'.keys = k :: rest := hk
        have hat := (iterProcess_at h false (fun k v => (Action.noop, (k, v))) (by intro _ _; trivial) e1 hk').2
        rw [hat]
        have g' := g.drop hk
        simp only [hk', List.drop_succ_cons, List.drop_zero]
        left
        apply g'
        cases hv : look E s k with
        | none =>
          refine .inr ⟨rfl, fun hkk => ?_⟩
          have := hK k hkk
          rw [hv] at this; cases this
        | some v => exact .inl rfl
      · cases e
    | false =>
      refine ⟨⟨_, h⟩, ?_⟩
      rw [iterProcess_end _ _ e1]
      rcases sp with ⟨e, _⟩ | ⟨_, o⟩
      · cases e
      · right; simpa using o
  | proc w p =>
    obtain ⟨it', b, e1, e2⟩ := readKeys_eq h it
    have sp := readKeys_spec (keysOk h) hK ht
    rw [e2] at sp
    simp only [evStep, passed, iterGet]
    cases b with
    | true =>
      rcases sp with ⟨_, g, ne⟩ | ⟨e, _⟩
      · obtain ⟨k, rest, hk⟩ := List.exists_cons_of_ne_nil ne
        have hk' : it'.keys = k :: rest := hk
        have hat := (iterProcess_at h false (fun k v => (Action.noop, (k, v))) (by intro _ _; trivial) e1 hk').2
        obtain ⟨hs, hat'⟩ := iterProcess_at h w p ok e1 hk'
        refine ⟨hs, ?_⟩
        rw [hat, hat']
        left
        cases hv : look E s k with
        | none => simpa using g
        | some v =>
          simp only
          split
          · exact g.drop hk _ (.inl rfl)
          · simpa using g
      · cases e
    | false =>
      rw [iterProcess_end _ _ e1, iterProcess_end _ _ e1]
      refine ⟨⟨_, h⟩, ?_⟩
      rcases sp with ⟨e, _⟩ | ⟨_, o⟩
      · cases e
      · right; simpa using o

theorem Throughout.head {E : Env} {k : Bytes} {s : State} {it : Iter} {evs : List Ev} (h : Throughout E k s it evs) :
    (look E s k).isSome = true := by
  cases evs with
  | nil => exact h
  | cons _ _ => exact h.1

theorem trav_run {E : Env} (K : Bytes → Prop) (evs : List Ev) : ∀ (s : State) (it : Iter) (em : List Bytes) (P : Nat → List (Bytes × Bytes)),
    StateOk E s P → Trav numSlots E.slotOf K it.it em → (∀ ev ∈ evs, EvOk ev) → ((∀ ev ∈ evs, EvKeeps ev) ∨ ∀ k, ¬ K k) →
    (∀ k, K k → Throughout E k s it evs) →
    (∃ P', StateOk E (evRun E s it evs).1 P') ∧
    Trav numSlots E.slotOf K (evRun E s it evs).2.1.it (em ++ (evRun E s it evs).2.2) ∧
    ∀ k, K k → (look E (evRun E s it evs).1 k).isSome = true := by
  induction evs with
  | nil => intro s it em P h ht _ _ hK; exact ⟨⟨_, h⟩, by simpa [evRun] using ht, fun k hk => hK k hk⟩
  | cons ev evs ih =>
    intro s it em P h ht ok hkeep hK
    obtain ⟨⟨P', h1⟩, h2⟩ := trav_step h (fun k hk => (hK k hk).1) ht ev (ok ev (by simp)) (hkeep.imp (fun f => f ev (by simp)) id)
      (fun k hk => (hK k hk).2.head)
    have := ih _ _ _ P' h1 h2 (fun e he => ok e (by simp [he])) (hkeep.imp (fun f e he => f e (by simp [he])) id) (fun k hk => (hK k hk).2)
    simp only [evRun]
    rw [← List.append_assoc]
    exact this

/-- C10 (CacheDBM, iterator): a traversal from `First` of a database with any history, interleaved with any calls on the database and
through the iterator, does no undefined behaviour and passes no key twice; and if there is no `Rebuild` among the calls, then when `Next`
says NOT_FOUND_ERROR, it has passed every record that existed all the time. -/
theorem C10_cache_iterator (E : Env) (capRec capMem : Int) (h : List Op) (hh : Fits h) (evs : List Ev) (ok : ∀ ev ∈ evs, EvOk ev) :
    let s := run E (State.new capRec capMem) h
    let x := evRun E s Iter.first evs
    x.1.bad = false ∧ x.2.2.Nodup ∧
    ∃ it b, Cache.next x.1 x.2.1 = some (it, b) ∧
      (b = false → (∀ ev ∈ evs, EvKeeps ev) → ∀ k, Throughout E k s Iter.first evs → k ∈ x.2.2) := by
  intro s x
  obtain ⟨P, rch⟩ := reached E capRec capMem h hh
  obtain ⟨⟨P', h1⟩, h2, _⟩ := trav_run (fun _ => False) evs s Iter.first [] P rch.toStateOk trav_first ok (.inr fun _ h => h) (fun _ h => h.elim)
  obtain ⟨it', b, e1, e2⟩ := readKeys_eq h1 x.2.1
  have en : ∃ it, Cache.next x.1 x.2.1 = some (it, b) := by
    unfold Cache.next
    have e1 : Cache.readKeys x.1 x.2.1 = some (it', b) := e1
    rw [e1]
    cases b <;> exact ⟨_, rfl⟩
  obtain ⟨it, en⟩ := en
  refine ⟨h1.good, by simpa using h2.nodup, it, b, en, ?_⟩
  intro hb hkeep k hk
  subst hb
  obtain ⟨⟨P'', g1⟩, g2, g3⟩ := trav_run (fun y => y = k) evs s Iter.first [] P rch.toStateOk trav_first ok (.inl hkeep)
    (by rintro _ rfl; exact hk)
  have sp := readKeys_spec (keysOk g1) g3 g2
  obtain ⟨it'', b', f1, f2⟩ := readKeys_eq g1 x.2.1
  have f1' : Cache.readKeys x.1 x.2.1 = some (it'', b') := f1
  have e1' : Cache.readKeys x.1 x.2.1 = some (it', false) := e1
  rw [f1'] at e1'
  injection e1' with e1'
  injection e1' with _ hb'
  subst hb'
  rw [f2] at sp
  rcases sp with ⟨e, _⟩ | ⟨_, o⟩
  · cases e
  · simpa using o.all k rfl

/-- C10 (CacheDBM, `Jump`): jumping to an existing key positions the iterator at that key, and to an absent key fails with
NOT_FOUND_ERROR and leaves the iterator without position. -/
theorem C10_cache_jump (E : Env) (capRec capMem : Int) (h : List Op) (hh : Fits h) (k : Bytes) :
    let s := run E (State.new capRec capMem) h
    (∀ v, look E s k = some v → ∃ it, jump E s k = some (it, true) ∧ iterGet E s it = some (k, v)) ∧
    (look E s k = none → ∃ it, jump E s k = some (it, false) ∧ iterGet E s it = none) := by
  intro s
  obtain ⟨P, rch⟩ := reached E capRec capMem h hh
  have ho := rch.toStateOk
  have hko := keysOk ho
  obtain ⟨it', b, e1, e2⟩ := readNext_eq ho (numSlots + 1) ⟨E.slotOf k, []⟩ rfl
  replace e1 : Cache.readNext s (numSlots + 1) ⟨E.slotOf k, []⟩ = some (it', b) := e1
  constructor
  · intro v hv
    have hit := readNext_hit hko (k := k) (by rw [hv]; rfl) numSlots
    have e2' : BucketIter.readNext numSlots (fun i => (P i).map (·.1)) (numSlots + 1) ⟨E.slotOf k, []⟩ = (it'.it, b) := e2
    rw [hit] at e2'
    injection e2' with e3 e4
    subst e4
    have hk3 : it'.keys = (P (E.slotOf k)).map (·.1) := (congrArg It.keys e3).symm
    have hs3 : it'.slot = E.slotOf k + 1 := (congrArg It.idx e3).symm
    have hm : k ∈ it'.keys := by
      rw [hk3]
      exact (hko.mem _ (hko.home_lt k) k).2 ⟨rfl, by rw [hv]; rfl⟩
    obtain ⟨t, hd⟩ := dropWhile_ne hm
    have ej : jump E s k = some (⟨it'.slot, k :: t⟩, true) := by
      unfold jump
      rw [e1]
      dsimp only
      rw [if_pos hm, hd]
    refine ⟨_, ej, ?_⟩
    have rk : Cache.readKeys s ⟨it'.slot, k :: t⟩ = some (⟨it'.slot, k :: t⟩, true) := by
      simp only [Cache.readKeys]
      rw [if_neg (by omega), if_neg (by simp)]
    have := (iterProcess_at ho false (fun k v => (Action.noop, (k, v))) (by intro _ _; trivial) rk rfl).2
    rw [hv] at this
    rw [iterGet, this]
  · intro hv
    cases b with
    | true =>
      have hn : k ∉ it'.keys := by
        intro hm
        have := readNext_mem hko (numSlots + 1) (Iter.it ⟨E.slotOf k, []⟩) rfl k (by rw [e2]; exact hm)
        rw [hv] at this; cases this
      have ej : jump E s k = some (⟨-1, []⟩, false) := by
        unfold jump
        rw [e1]
        dsimp only
        rw [if_neg hn]
      refine ⟨_, ej, ?_⟩
      rw [iterGet, iterProcess_end (it' := ⟨-1, []⟩) _ _ rfl]
    | false =>
      have ej : jump E s k = some (it', false) := by unfold jump; rw [e1]
      refine ⟨_, ej, ?_⟩
      have g0 : Going numSlots E.slotOf (fun _ => False) (Iter.it ⟨E.slotOf k, []⟩) [] := by
        refine ⟨?_, by simp [Iter.it], by simp [Iter.it], fun _ h => h.elim⟩
        have := slotOf_lt E k
        simp only [Iter.it]; omega
      have sp := readNext_spec hko (fun _ h => h.elim) (numSlots + 1) _ g0 rfl (by simp only [Iter.it]; omega)
      rw [e2] at sp
      rcases sp with ⟨e, _⟩ | ⟨_, o⟩
      · cases e
      · have : it'.slot = -1 := o.idx
        have rk : Cache.readKeys s it' = some (it', false) := by
          unfold Cache.readKeys
          rw [if_pos (by omega)]
        rw [iterGet, iterProcess_end _ _ rk]

/-! ### The loop without updates -/

/-- SPECIFICATION: the loop `Get`, `Next`, `Get`, … until `Get` fails: the records got. `none`: `Next` fails after a successful `Get`, or
the loop goes on for more than `fuel` rounds. -/
def iterLoop (E : Env) : (fuel : Nat) → State → Iter → Option (List (Bytes × Bytes))
  | 0, _, _ => none
  | fuel + 1, s, it =>
    match iterProcess E s it false (fun k v => (.noop, (k, v))) with
    | (_, _, none) => some []
    | (s', it', some r) => match Cache.next s' it' with
      | some (it'', true) => (iterLoop E fuel s' it'').map (r :: ·)
      | _ => none

theorem nodup_length_le {l m : List Bytes} (hn : l.Nodup) : l ⊆ m → l.length ≤ m.length := by
  induction l generalizing m with
  | nil => intro _; exact Nat.zero_le _
  | cons a l ih =>
    intro hs
    obtain ⟨x, y, e⟩ := List.append_of_mem (hs (List.mem_cons_self ..))
    subst e
    have hn' := List.nodup_cons.1 hn
    have := ih hn'.2 (m := x ++ y) (by
      intro b hb
      have := hs (List.mem_cons_of_mem _ hb)
      rcases List.mem_append.1 this with h | h
      · exact List.mem_append.2 (.inl h)
      · rcases List.mem_cons.1 h with h | h
        · subst h; exact absurd hb hn'.1
        · exact List.mem_append.2 (.inr h))
    simp only [List.length_cons, List.length_append] at this ⊢
    omega

theorem processAt_read {E : Env} {s : State} {P : Nat → List (Bytes × Bytes)} (h : StateOk E s P) {τ : Type} (k : Bytes) (p : ProcR τ) :
    look E (s.processAt E (E.slotOf k) k false p).1 = look E s := by
  obtain ⟨_, _, _, _, h5⟩ := h.processAt k false p (by intro h; cases h)
  funext x
  rw [(look_eq h5 x).1, (look_eq h x).1]
  simp only [setPart]
  split
  · rename_i hx
    rcases step_get (slotCapRec s.capRec) (slotCapMem s.capMem) (P (E.slotOf k)) (h.slot _).nodup k false (fun o => (p o).1) x with g | ⟨_, _, v, g, _⟩
    · rw [g, hx]
      rfl
    · cases g
  · rfl

theorem iterProcess_read {E : Env} {s : State} {P : Nat → List (Bytes × Bytes)} (h : StateOk E s P) {τ : Type} (it : Iter)
    (p : Bytes → Bytes → Action × τ) : look E (iterProcess E s it false p).1 = look E s := by
  unfold iterProcess
  obtain ⟨it', b, e1, _⟩ := readKeys_eq h it
  rw [e1]
  cases b with
  | false => rfl
  | true =>
    dsimp only
    cases it'.keys with
    | nil =>
      funext x
      simp only [look, Api.get, impl, State.process, State.processAt]
      repeat' split
      all_goals first | rfl | simp_all
    | cons k ks =>
      dsimp only
      have := processAt_read h k (fullOnly (fun v => ((p k v).1, some ((p k v).1, (p k v).2))) none)
      generalize s.processAt E (E.slotOf k) k false (fullOnly (fun v => ((p k v).1, some ((p k v).1, (p k v).2))) none) = y at this
      obtain ⟨y1, y2⟩ := y
      rcases y2 with _ | ⟨a, t⟩
      · exact this
      · cases a <;> exact this

theorem iterLoop_spec {E : Env} (d : Dict) (l0 : List (Bytes × Bytes)) (hl : Dict.Lists d l0) (fuel : Nat) :
    ∀ (s : State) (it : Iter) (em : List Bytes) (P : Nat → List (Bytes × Bytes)), StateOk E s P → look E s = d →
    Trav numSlots E.slotOf (fun k => (d k).isSome = true) it.it em → (∀ k ∈ em, (d k).isSome = true) →
    (∀ k ∈ it.keys, (d k).isSome = true) → l0.length < em.length + fuel →
    ∃ l, iterLoop E fuel s it = some l ∧ (em ++ l.map (·.1)).Nodup ∧ (∀ k, (d k).isSome = true → k ∈ em ++ l.map (·.1)) ∧
      ∀ e ∈ l, d e.1 = some e.2 := by
  induction fuel with
  | zero =>
    intro s it em P h hd ht hem hik hn
    exfalso
    have := nodup_length_le (m := l0.map (·.1)) ht.nodup (by
      intro k hk
      obtain ⟨v, hv⟩ := Option.isSome_iff_exists.1 (hem k hk)
      exact List.mem_map.2 ⟨(k, v), (hl.2 k v).2 hv, rfl⟩)
    rw [List.length_map] at this
    omega
  | succ fuel ih =>
    intro s it em P h hd ht hem hik hn
    subst hd
    obtain ⟨it', b, e1, e2⟩ := readKeys_eq h it
    have sp := readKeys_spec (keysOk h) (fun _ h => h) ht
    have hmem := readKeys_mem (keysOk h) (it := it.it) hik
    rw [e2] at sp hmem
    replace hmem : ∀ k ∈ it'.keys, (look E s k).isSome = true := hmem
    cases b with
    | false =>
      rcases sp with ⟨e, _⟩ | ⟨_, o⟩
      · cases e
      · refine ⟨[], ?_, ?_, ?_, by simp⟩
        · simp only [iterLoop, iterProcess_end _ _ e1]
        · simpa using o.nodup
        · intro k hk; simpa using o.all k hk
    | true =>
      rcases sp with ⟨_, g, ne⟩ | ⟨e, _⟩
      · obtain ⟨k, rest, hk⟩ := List.exists_cons_of_ne_nil ne
        have hk' : it'.keys = k :: rest := hk
        obtain ⟨⟨P', hs⟩, hat⟩ := iterProcess_at h false (fun k v => (Action.noop, (k, v))) (by intro _ _; trivial) e1 hk'
        have hr := iterProcess_read h it (fun k v => (Action.noop, (k, v)))
        rw [iterLoop.eq_def]
        dsimp only
        generalize iterProcess E s it false (fun k v => (Action.noop, (k, v))) = y at hs hat hr ⊢
        obtain ⟨s', r⟩ := y
        simp only at hs hat hr
        subst hat
        have hnn : ∀ s', Cache.next s' it' = some (⟨it'.slot, rest⟩, true) := by
          intro s'
          have hi : ¬ it'.slot < 0 := by have := g.idx.1; simp only [Iter.it] at this; omega
          unfold Cache.next Cache.readKeys
          rw [if_neg hi, if_neg (by rw [hk']; simp)]
          simp only [hk', List.drop_succ_cons, List.drop_zero]
        cases hv : look E s k with
        | none =>
          have := hmem k (by rw [hk']; simp)
          rw [hv] at this; cases this
        | some v =>
          have hv' : (look E s k).isSome = true := by rw [hv]; rfl
          simp only [if_neg (show ¬ (Action.noop = Action.remove) by simp), hnn]
          obtain ⟨l, i1, i2, i3, i4⟩ := ih s' ⟨it'.slot, rest⟩ (em ++ [k]) P' hs hr (.inl (g.drop hk [k] (.inl rfl))) (by
            intro x hx
            rcases List.mem_append.1 hx with hx | hx
            · exact hem x hx
            · rw [List.mem_singleton.1 hx]; exact hv') (by
            intro x hx
            exact hmem x (by rw [hk']; exact List.mem_cons_of_mem _ hx)) (by simp only [List.length_append, List.length_singleton]; omega)
          refine ⟨(k, v) :: l, by rw [i1]; rfl, ?_, ?_, ?_⟩
          · simpa using i2
          · simpa using i3
          · intro e he
            rcases List.mem_cons.1 he with rfl | he
            · exact hv
            · exact i4 e he
      · cases e

theorem iterLoop_succ {E : Env} (fuel : Nat) : ∀ (s : State) (it : Iter) {l : List (Bytes × Bytes)}, iterLoop E fuel s it = some l →
    iterLoop E (fuel + 1) s it = some l := by
  induction fuel with
  | zero => intro s it l h; cases h
  | succ fuel ih =>
    intro s it l h
    rw [iterLoop.eq_def] at h ⊢
    dsimp only at h ⊢
    split at h
    · exact h
    · split at h
      · rw [Option.map_eq_some_iff] at h ⊢
        obtain ⟨a, h1, h2⟩ := h
        exact ⟨a, ih _ _ h1, h2⟩
      · cases h

theorem iterLoop_mono {E : Env} {fuel fuel' : Nat} (s : State) (it : Iter) {l : List (Bytes × Bytes)} (h : iterLoop E fuel s it = some l)
    (hle : fuel ≤ fuel') : iterLoop E fuel' s it = some l := by
  obtain ⟨d, rfl⟩ := Nat.exists_eq_add_of_le hle
  clear hle
  induction d with
  | zero => exact h
  | succ d ih => exact iterLoop_succ _ _ _ ih

/-- C10 (CacheDBM, iterator without updates): after any history, the loop `First`, `Get`, `Next`, `Get`, … ends, and presents every record
of the database exactly once and nothing else. -/
theorem C10_cache_loop (E : Env) (capRec capMem : Int) (h : List Op) (hh : Fits h) :
    let s := run E (State.new capRec capMem) h
    ∃ l, Dict.Lists (look E s) l ∧ ∀ fuel, l.length < fuel → iterLoop E fuel s Iter.first = some l := by
  intro s
  obtain ⟨P, rch⟩ := reached E capRec capMem h hh
  have hl := allRecs_lists rch.toStateOk
  obtain ⟨l, h1, h2, h3, h4⟩ := iterLoop_spec (look E s) (allRecs P) hl ((allRecs P).length + 1) s Iter.first [] P rch.toStateOk rfl
    trav_first (fun _ h => by cases h) (fun _ h => by cases h) (by simp)
  have hL : Dict.Lists (look E s) l := by
    refine ⟨by simpa using h2, fun k v => ⟨fun he => h4 _ he, fun hv => ?_⟩⟩
    have := h3 k (by rw [hv]; rfl)
    rw [List.nil_append] at this
    obtain ⟨e, he, rfl⟩ := List.mem_map.1 this
    have := h4 e he
    rw [hv] at this
    injection this with this
    subst this
    exact he
  refine ⟨l, hL, fun fuel hf => ?_⟩
  obtain ⟨l', g1, _⟩ := iterLoop_spec (look E s) l hL fuel s Iter.first [] P rch.toStateOk rfl
    trav_first (fun _ h => by cases h) (fun _ h => by cases h) (by simpa using hf)
  rcases Nat.le_total fuel ((allRecs P).length + 1) with hle | hle
  · rw [g1, ← iterLoop_mono _ _ g1 hle, h1]
  · exact iterLoop_mono _ _ h1 hle

end Verif.Cache
