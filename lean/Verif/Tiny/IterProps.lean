import Verif.Tiny.Props
/-
C10 for the iterator of TinyDBM: a traversal interleaved with arbitrary updates of the database.
-/
namespace Verif.Tiny
open Verif.Codec

variable {hash : Bytes → Nat → Nat}

/-- What `Iterator::Get` returns: the key and the value of the current record, if it succeeds. -/
def iterGet (hash : Bytes → Nat → Nat) (s : State) (it : Iter) : Option (Bytes × Bytes) :=
  (iterProcess hash s it false (fun k v => (.noop, (k, v)))).2.2.2

/-- An event during a traversal: a call on the database, `Iterator::Next`, or `Iterator::Process` (which covers
`Get`, `Set` and `Remove` of the iterator). -/
inductive Ev where
  | db (op : Op)
  | next
  | proc (w : Bool) (p : Bytes → Bytes → Action × Unit)

/-- SPECIFICATION: the record `Get` would return is passed by `Next`, and by a `Process` that returns REMOVE. -/
def passed (hash : Bytes → Nat → Nat) (s : State) (it : Iter) : Ev → List Bytes
  | .db _ => []
  | .next => ((iterGet hash s it).map (·.1)).toList
  | .proc _ p => match iterGet hash s it with
    | some (k, v) => if (p k v).1 = .remove then [k] else []
    | none => []

/-- `CancelIterators` (tkrzw_dbm_tiny.cc 516-520). -/
def Iter.cancel (it : Iter) : Iter := { it with bucketIndex := -1 }

/-- The iterator after a call on the database: `Clear` and `Rebuild` cancel it (tkrzw_dbm_tiny.cc 417, 445). -/
def iterAfter (it : Iter) : Op → Iter
  | .clear => it.cancel
  | .rebuild _ => it.cancel
  | _ => it

/-- One event. -/
def evStep (hash : Bytes → Nat → Nat) (s : State) (it : Iter) : Ev → State × Iter
  | .db op => ((step hash s op).1, iterAfter it op)
  | .next => (s, (next s it).1)
  | .proc w p => let x := iterProcess hash s it w p; (x.1, x.2.1)

/-- Run events and collect the keys passed. -/
def evRun (hash : Bytes → Nat → Nat) : State → Iter → List Ev → State × Iter × List Bytes
  | s, it, [] => (s, it, [])
  | s, it, e :: evs =>
    let x := evStep hash s it e
    let y := evRun hash x.1 x.2 evs
    (y.1, y.2.1, passed hash s it e ++ y.2.2)

/-- SPECIFICATION: the event is not `Rebuild`, which cancels all iterators. -/
def EvKeeps : Ev → Prop
  | .db (.rebuild _) => False
  | _ => True

/-- SPECIFICATION: the event respects the size limit. -/
def EvOk (hash : Bytes → Nat → Nat) (s : State) : Ev → Prop
  | .db op => OpFits recFits (view hash s) op
  | .next => True
  | .proc _ p => ∀ k v, ActFits recFits k (p k v).1

/-- SPECIFICATION: `EvOk` along the run. -/
def EvsOk (hash : Bytes → Nat → Nat) : State → Iter → List Ev → Prop
  | _, _, [] => True
  | s, it, e :: evs => EvOk hash s e ∧ EvsOk hash (evStep hash s it e).1 (evStep hash s it e).2 evs

/-- SPECIFICATION: the record of the key exists all the time. -/
def Throughout (hash : Bytes → Nat → Nat) (k : Bytes) : State → Iter → List Ev → Prop
  | s, _, [] => (view hash s k).isSome
  | s, it, e :: evs => (view hash s k).isSome ∧ Throughout hash k (evStep hash s it e).1 (evStep hash s it e).2 evs

/-- The traversal after passing `em`; `K` are the keys that stay. -/
structure Going (hash : Bytes → Nat → Nat) (K : Bytes → Prop) (s : State) (it : Iter) (em : List Bytes) : Prop where
  idx : 0 ≤ it.bucketIndex ∧ it.bucketIndex ≤ s.buckets.length
  nodup : (em ++ it.keys).Nodup
  below : ∀ x ∈ em ++ it.keys, (hash x s.buckets.length : Int) < it.bucketIndex
  all : ∀ k, K k → (hash k s.buckets.length : Int) < it.bucketIndex → k ∈ em ++ it.keys

/-- The traversal is over. -/
structure Over (K : Bytes → Prop) (it : Iter) (em : List Bytes) : Prop where
  idx : it.bucketIndex = -1
  nodup : em.Nodup
  all : ∀ k, K k → k ∈ em

theorem chainKeys_eq {c rs} (h : Chain c rs) : chainKeys c = rs.map (·.1) := by
  induction h with
  | nil => rfl
  | cons h1 _ ih => simp [chainKeys, deserialize_holds h1, ih]

theorem readNext_spec (hr : InRange hash) {K : Bytes → Prop} {s : State} {em : List Bytes} (hi : Inv hash s)
    (hK : ∀ k, K k → (view hash s k).isSome) (n : Nat) :
    ∀ it : Iter, Going hash K s it em → it.keys = [] → (s.buckets.length : Int) < it.bucketIndex + n →
    ((readNext s n it).2 = true ∧ Going hash K s (readNext s n it).1 em ∧ (readNext s n it).1.keys ≠ []) ∨
    ((readNext s n it).2 = false ∧ Over K (readNext s n it).1 em) := by
  induction n with
  | zero => intro it g _ hn; have := g.idx; omega
  | succ n ih =>
    intro it g hk hn
    simp only [readNext]
    by_cases hb : it.bucketIndex < 0 ∨ it.bucketIndex ≥ s.buckets.length
    · rw [if_pos hb]
      right
      refine ⟨rfl, rfl, ?_, ?_⟩
      · have := g.nodup; rw [hk] at this; simpa using this
      · intro k hkk
        have h1 := g.all k hkk (by have := hr k _ hi.pos; have := g.idx; omega)
        rw [hk] at h1; simpa using h1
    · rw [if_neg hb]
      obtain ⟨B, hB⟩ : ∃ B : Nat, it.bucketIndex = B := ⟨it.bucketIndex.toNat, by omega⟩
      have ck : chainKeys (s.buckets.getD it.bucketIndex.toNat []) = (recs (s.bk B)).map (·.1) := by
        rw [hB]; exact chainKeys_eq (hi.chain B)
      have hm : ∀ x ∈ (recs (s.bk B)).map (·.1), hash x s.buckets.length = B := by
        intro x hx
        obtain ⟨r, h1, rfl⟩ := List.mem_map.1 hx
        exact hi.home B r h1
      have g' : Going hash K s ⟨it.bucketIndex + 1, it.keys ++ chainKeys (s.buckets.getD it.bucketIndex.toNat [])⟩ em := by
        rw [ck, hk, List.nil_append]
        have gn := g.nodup
        have gb := g.below
        have ga := g.all
        rw [hk, List.append_nil] at gn gb ga
        refine ⟨by simp only; omega, ?_, ?_, ?_⟩
        · rw [List.nodup_append]
          refine ⟨gn, hi.nodup B, ?_⟩
          intro a ha b hb' hab
          have h1 := gb a ha
          have h2 := hm b hb'
          rw [hab, h2] at h1; omega
        · intro x hx
          simp only
          rcases List.mem_append.1 hx with h | h
          · have := gb x h; omega
          · rw [hm x h]; omega
        · intro k hkk hlt
          simp only at hlt
          rw [List.mem_append]
          by_cases he : hash k s.buckets.length = B
          · right
            obtain ⟨v, hv⟩ := Option.isSome_iff_exists.1 (hK k hkk)
            simp only [view, State.bucketOf, he] at hv
            exact List.mem_map.2 ⟨(k, v), assoc_mem hv, rfl⟩
          · left; exact ga k hkk (by omega)
      split
      · rename_i he
        exact ih _ g' (by simpa using he) (by simp only; omega)
      · rename_i he
        exact Or.inl ⟨rfl, g', by simpa using he⟩

theorem readNext_mem {s : State} (hi : Inv hash s) (n : Nat) : ∀ it : Iter, it.keys = [] →
    ∀ k ∈ (readNext s n it).1.keys, (view hash s k).isSome := by
  induction n with
  | zero => intro it _ k hk; simp [readNext] at hk
  | succ n ih =>
    intro it h k
    simp only [readNext]
    split
    · simp [h]
    · split
      · rename_i he; intro hk; exact ih _ (by simpa using he) k hk
      · simp only [h, List.nil_append]
        rw [chainKeys_eq (hi.chain it.bucketIndex.toNat)]
        intro hk
        obtain ⟨r, hr, rfl⟩ := List.mem_map.1 hk
        simp only [view, State.bucketOf, hi.home _ r hr]
        rw [assoc_of_mem (hi.nodup _) hr]; rfl

/-- The invariant of a traversal. -/
def Trav (hash : Bytes → Nat → Nat) (K : Bytes → Prop) (s : State) (it : Iter) (em : List Bytes) : Prop :=
  Going hash K s it em ∨ Over K it em

theorem readKeys_spec (hr : InRange hash) {K : Bytes → Prop} {s : State} {it : Iter} {em : List Bytes} (hi : Inv hash s)
    (hK : ∀ k, K k → (view hash s k).isSome) (h : Trav hash K s it em) :
    ((readKeys s it).2 = true ∧ Going hash K s (readKeys s it).1 em ∧ (readKeys s it).1.keys ≠ []) ∨
    ((readKeys s it).2 = false ∧ Over K (readKeys s it).1 em) := by
  simp only [readKeys]
  rcases h with g | o
  · rw [if_neg (by have := g.idx; omega)]
    by_cases hk : it.keys = []
    · rw [if_pos (by simp [hk])]
      rcases readNext_spec hr hi hK (s.buckets.length + 1) it g hk (by have := g.idx; omega) with ⟨e, g', ne⟩ | ⟨e, o⟩
      · left
        rw [if_pos e]
        exact ⟨by simpa using ne, g', ne⟩
      · right
        rw [if_neg (by simp [e])]
        exact ⟨e, o⟩
    · rw [if_neg (by simpa using hk)]
      exact Or.inl ⟨rfl, g, hk⟩
  · rw [if_pos (by rw [o.idx]; omega)]
    exact Or.inr ⟨rfl, o⟩

/-- What the iterator's `Process` does at the head of the keys. -/
theorem iterProcess_at (hr : InRange hash) {τ : Type} {s : State} {it : Iter} (hi : Inv hash s) (w : Bool)
    (p : Bytes → Bytes → Action × τ) (hf : ∀ k v, ActFits recFits k (p k v).1)
    (e : (readKeys s it).2 = true) {k : Bytes} {rest : List Bytes} (hk : (readKeys s it).1.keys = k :: rest) :
    Inv hash (iterProcess hash s it w p).1 ∧ (iterProcess hash s it w p).1.buckets.length = s.buckets.length ∧
    (match view hash s k with
     | some v => view hash (iterProcess hash s it w p).1 = (if w then (view hash s).act k (p k v).1 else view hash s) ∧
        (iterProcess hash s it w p).2.1 =
          (if (p k v).1 = .remove then { (readKeys s it).1 with keys := rest } else (readKeys s it).1) ∧
        (iterProcess hash s it w p).2.2 = (.success, some (p k v).2)
     | none => view hash (iterProcess hash s it w p).1 = view hash s ∧
        (iterProcess hash s it w p).2.1 = (readKeys s it).1 ∧ (iterProcess hash s it w p).2.2 = (.notFound, none)) := by
  have sp := processImpl_spec hr s k w (fullOnly (fun v => ((p k v).1, some (p k v))) none) hi (by
    cases hv : view hash s k
    · simp [fullOnly, ActFits]
    · exact hf _ _)
  obtain ⟨i1, e1, e2, e3, _⟩ := sp
  have eq : iterProcess hash s it w p =
      match (process hash s k w (fullOnly (fun v => ((p k v).1, some (p k v))) none)).2 with
      | none => ((process hash s k w (fullOnly (fun v => ((p k v).1, some (p k v))) none)).1, (readKeys s it).1, .notFound, none)
      | some (a, t) => ((process hash s k w (fullOnly (fun v => ((p k v).1, some (p k v))) none)).1,
          if a = .remove then { (readKeys s it).1 with keys := rest } else (readKeys s it).1, .success, some t) := by
    simp only [iterProcess, e, hk]
    rfl
  rw [eq]
  simp only [process, e2]
  cases hv : view hash s k with
  | none =>
    rw [hv] at e1
    simp only [fullOnly]
    simp only [fullOnly] at e1 i1 e3
    refine ⟨i1, e3, ?_, trivial, trivial⟩
    rw [e1]; cases w <;> rfl
  | some v =>
    rw [hv] at e1
    simp only [fullOnly] at e1 ⊢
    refine ⟨i1, e3, e1, trivial, trivial⟩

theorem iterProcess_end {τ : Type} {s : State} {it : Iter} (w : Bool) (p : Bytes → Bytes → Action × τ)
    (e : (readKeys s it).2 = false) : iterProcess hash s it w p = (s, (readKeys s it).1, .notFound, none) := by
  simp [iterProcess, e]

theorem step_buckets (hr : InRange hash) (s : State) (op : Op) (hi : Inv hash s) (hf : OpFits recFits (view hash s) op)
    (hne : ∀ n, op ≠ .rebuild n) : (step hash s op).1.buckets.length = s.buckets.length := by
  have P : ∀ {τ : Type} (k : Bytes) (w : Bool) (p : ProcR τ),
      (processImpl s k (s.bucketOf hash k) w p).1.buckets.length = s.buckets.length := by
    intro τ k w p
    simp only [processImpl]
    repeat' split
    all_goals simp [State.fail]
  cases op with
  | get k => exact P k false Api.getProc
  | set k v ow => exact P k true (Api.setProc v ow)
  | remove k => exact P k true Api.removeProc
  | append k v d =>
    simp only [step, apiStep, append, appendImpl]
    repeat' split
    all_goals simp [State.fail]
  | process k w p => exact P k w p
  | clear => simp [step, apiStep, clear, emptyBuckets]
  | rebuild n => exact absurd rfl (hne n)

theorem Going.sublist {K : Bytes → Prop} {s : State} {it : Iter} {em : List Bytes} {k : Bytes} {rest : List Bytes}
    (g : Going hash K s it em) (hk : it.keys = k :: rest) (add : List Bytes)
    (hadd : add = [k] ∨ (add = [] ∧ ¬ K k)) : Going hash K s { it with keys := rest } (em ++ add) := by
  obtain ⟨g1, g2, g3, g4⟩ := g
  rw [hk] at g2 g3 g4
  rcases hadd with rfl | ⟨rfl, hn⟩
  · have e : em ++ [k] ++ rest = em ++ k :: rest := by simp
    exact ⟨g1, by rw [e]; exact g2, by rw [e]; exact g3, by rw [e]; exact g4⟩
  · refine ⟨g1, ?_, ?_, ?_⟩
    · rw [List.append_nil]
      exact g2.sublist (List.Sublist.append_left (List.sublist_cons_self k rest) em)
    · intro x hx
      apply g3 x
      rw [List.append_nil] at hx
      rcases List.mem_append.1 hx with h | h <;> simp [h]
    · intro k' hk' hl
      have := g4 k' hk' hl
      rw [List.append_nil]
      rcases List.mem_append.1 this with h | h
      · simp [h]
      · rcases List.mem_cons.1 h with h | h
        · subst h; exact absurd hk' hn
        · simp [h]

theorem Trav.congr {K : Bytes → Prop} {s s' : State} {it : Iter} {em : List Bytes}
    (h : Trav hash K s it em) (e : s'.buckets.length = s.buckets.length) : Trav hash K s' it em := by
  rcases h with ⟨g1, g2, g3, g4⟩ | o
  · left
    exact ⟨by rw [e]; exact g1, g2, by rw [e]; exact g3, by rw [e]; exact g4⟩
  · exact Or.inr o

/-- One event keeps the traversal invariant. -/
theorem trav_step (hr : InRange hash) {K : Bytes → Prop} {s : State} {it : Iter} {em : List Bytes} (hi : Inv hash s)
    (hK : ∀ k, K k → (view hash s k).isSome) (h : Trav hash K s it em) (ev : Ev) (ok : EvOk hash s ev)
    (hkeep : EvKeeps ev ∨ ∀ k, ¬ K k) (hK' : ∀ k, K k → (view hash (evStep hash s it ev).1 k).isSome) :
    Inv hash (evStep hash s it ev).1 ∧
    Trav hash K (evStep hash s it ev).1 (evStep hash s it ev).2 (em ++ passed hash s it ev) := by
  cases ev with
  | db op =>
    have hf : OpFits recFits (view hash s) op := ok
    have hs := step_sim hr s op hi hf
    refine ⟨hs.1, ?_⟩
    simp only [passed, List.append_nil]
    have cancel : (∀ k, ¬ K k) → Trav hash K (step hash s op).1 it.cancel em := by
      intro hno
      refine .inr ⟨rfl, ?_, fun k hk => absurd hk (hno k)⟩
      rcases h with g | o
      · exact (List.nodup_append.1 g.nodup).1
      · exact o.nodup
    by_cases hc : op = .clear
    · subst hc
      refine cancel fun k hk => ?_
      have h1 := hK' k hk
      have h2 := congrArg Prod.fst hs.2
      simp only [evStep] at h1
      simp only at h2
      rw [h2] at h1
      simp [Dict.step, Dict.empty] at h1
    · by_cases hb : ∃ n, op = .rebuild n
      · obtain ⟨n, rfl⟩ := hb
        refine cancel ?_
        rcases hkeep with hk | hk
        · exact hk.elim
        · exact hk
      · have hne : ∀ n, op ≠ .rebuild n := fun n e => hb ⟨n, e⟩
        have e : iterAfter it op = it := by cases op <;> first | rfl | exact absurd rfl hc | exact absurd rfl (hne _)
        simp only [evStep, e]
        exact h.congr (step_buckets hr s op hi hf hne)
  | next =>
    refine ⟨hi, ?_⟩
    simp only [evStep, next, passed, iterGet]
    rcases readKeys_spec hr hi hK h with ⟨e, g, ne⟩ | ⟨e, o⟩
    · obtain ⟨k, rest, hk⟩ := List.exists_cons_of_ne_nil ne
      have at' := (iterProcess_at hr hi false (fun k v => (Action.noop, (k, v))) (by intro _ _; trivial) e hk).2.2
      simp only [e, if_true, hk, List.tail_cons]
      left
      apply g.sublist hk
      cases hv : view hash s k with
      | none =>
        right
        rw [hv] at at'
        refine ⟨by simp [at'.2.2], fun hkk => ?_⟩
        have := hK k hkk
        rw [hv] at this; simp at this
      | some v =>
        left
        rw [hv] at at'
        simp [at'.2.2]
    · rw [iterProcess_end _ _ e]
      simp only [e, Bool.false_eq_true, if_false]
      right
      simpa using o
  | proc w p =>
    simp only [evStep, passed, iterGet]
    rcases readKeys_spec hr hi hK h with ⟨e, g, ne⟩ | ⟨e, o⟩
    · obtain ⟨k, rest, hk⟩ := List.exists_cons_of_ne_nil ne
      have at' := (iterProcess_at hr hi false (fun k v => (Action.noop, (k, v))) (by intro _ _; trivial) e hk).2.2
      obtain ⟨i1, l1, r1⟩ := iterProcess_at hr hi w p ok e hk
      refine ⟨i1, ?_⟩
      refine Trav.congr ?_ l1
      cases hv : view hash s k with
      | none =>
        rw [hv] at at' r1
        rw [at'.2.2, r1.2.1]
        simp only [List.append_nil]
        exact Or.inl g
      | some v =>
        rw [hv] at at' r1
        rw [at'.2.2, r1.2.1]
        simp only
        split
        · left; exact g.sublist hk _ (Or.inl rfl)
        · left; simpa using g
    · rw [iterProcess_end _ _ e, iterProcess_end _ _ e]
      exact ⟨hi, Or.inr (by simpa using o)⟩

theorem Throughout.head {k : Bytes} {s : State} {it : Iter} {evs : List Ev} (h : Throughout hash k s it evs) : (view hash s k).isSome := by
  cases evs with
  | nil => exact h
  | cons _ _ => exact h.1

theorem trav_run (hr : InRange hash) (K : Bytes → Prop) (evs : List Ev) :
    ∀ (s : State) (it : Iter) (em : List Bytes), Inv hash s → Trav hash K s it em → EvsOk hash s it evs →
    ((∀ ev ∈ evs, EvKeeps ev) ∨ ∀ k, ¬ K k) → (∀ k, K k → Throughout hash k s it evs) →
    Inv hash (evRun hash s it evs).1 ∧
    Trav hash K (evRun hash s it evs).1 (evRun hash s it evs).2.1 (em ++ (evRun hash s it evs).2.2) ∧
    ∀ k, K k → (view hash (evRun hash s it evs).1 k).isSome := by
  induction evs with
  | nil => intro s it em hi h _ _ hK; exact ⟨hi, by simpa [evRun] using h, fun k hk => hK k hk⟩
  | cons ev evs ih =>
    intro s it em hi h ok hkeep hK
    have st := trav_step hr hi (fun k hk => (hK k hk).1) h ev ok.1 (hkeep.imp (fun f => f ev (by simp)) id) (fun k hk => (hK k hk).2.head)
    have := ih _ _ _ st.1 st.2 ok.2 (hkeep.imp (fun f e he => f e (by simp [he])) id) (fun k hk => (hK k hk).2)
    simp only [evRun]
    rw [← List.append_assoc]
    exact this

theorem trav_first (K : Bytes → Prop) (s : State) : Trav hash K s Iter.first [] := by
  left
  refine ⟨by simp [Iter.first], by simp [Iter.first], by simp [Iter.first], ?_⟩
  intro k _ h
  simp only [Iter.first] at h; omega

/-- C10 (iterator): a traversal from `First`, interleaved with any updates of the database, passes no key twice; and if there is
no `Rebuild` among them, when it ends with NOT_FOUND_ERROR, it has passed every record that existed all the time. -/
theorem C10_tiny_iterator (hr : InRange hash) (s : State) (hi : Inv hash s) (evs : List Ev)
    (ok : EvsOk hash s Iter.first evs) :
    (evRun hash s Iter.first evs).2.2.Nodup ∧
    ((next (evRun hash s Iter.first evs).1 (evRun hash s Iter.first evs).2.1).2 = .notFound →
      (∀ ev ∈ evs, EvKeeps ev) → ∀ k, Throughout hash k s Iter.first evs → k ∈ (evRun hash s Iter.first evs).2.2) := by
  constructor
  · have h := (trav_run hr (fun _ => False) evs s Iter.first [] hi (trav_first _ s) ok (.inr fun _ h => h) (by simp)).2.1
    rw [List.nil_append] at h
    rcases h with g | o
    · exact (List.nodup_append.1 g.nodup).1
    · exact o.nodup
  · intro hend hkeep k hk
    obtain ⟨i1, h, hK⟩ := trav_run hr (fun x => x = k) evs s Iter.first [] hi (trav_first _ s) ok (.inl hkeep) (by rintro _ rfl; exact hk)
    rw [List.nil_append] at h
    rcases readKeys_spec hr i1 hK h with ⟨e, g, ne⟩ | ⟨e, o⟩
    · simp [next, e] at hend
    · exact o.all k rfl

/-- Three records in one bucket; one is removed before the traversal reaches it and one through the iterator. -/
def sampleDb : State := (run (step sampleHash) (init 1) [.set [1] [10] true, .set [2] [20] true, .set [3] [30] true]).1

def sampleEvs : List Ev := [.next, .db (.remove [2]), .next, .db (.set [5] [50] true), .proc true (fun _ _ => (.remove, ()))]

example : (evRun sampleHash sampleDb Iter.first sampleEvs).2.2 = [[3], [1]] ∧
    (next (evRun sampleHash sampleDb Iter.first sampleEvs).1 (evRun sampleHash sampleDb Iter.first sampleEvs).2.1).2 =
      .notFound := by decide +kernel

/-- C10 (`Jump`): jumping to an existing key positions the iterator at that key, and to an absent key fails with
NOT_FOUND_ERROR. -/
theorem C10_tiny_jump (hr : InRange hash) (s : State) (hi : Inv hash s) (k : Bytes) :
    (∀ v, view hash s k = some v → (jump hash s k).2 = .success ∧ iterGet hash s (jump hash s k).1 = some (k, v)) ∧
    (view hash s k = none → (jump hash s k).2 = .notFound ∧ iterGet hash s (jump hash s k).1 = none) := by
  have hb := hr k _ hi.pos
  have g0 : ∀ (K : Bytes → Prop), (∀ x, K x → hash k s.buckets.length ≤ hash x s.buckets.length) →
      Going hash K s { bucketIndex := s.bucketOf hash k, keys := [] } [] := by
    intro K hK
    refine ⟨?_, by simp, by simp, ?_⟩
    · simp only [State.bucketOf]; omega
    · intro x hx hl
      have := hK x hx
      simp only [State.bucketOf] at hl; omega
  constructor
  · intro v hv
    have hmem : k ∈ chainKeys (s.bk (s.bucketOf hash k)) := by
      rw [chainKeys_eq (hi.chain _)]
      exact List.mem_map.2 ⟨(k, v), assoc_mem hv, rfl⟩
    have rn : readNext s (s.buckets.length + 1) { bucketIndex := s.bucketOf hash k, keys := [] } =
        ({ bucketIndex := s.bucketOf hash k + 1, keys := chainKeys (s.bk (s.bucketOf hash k)) }, true) := by
      simp only [readNext]
      rw [if_neg (by simp only [State.bucketOf]; omega)]
      simp only [List.nil_append, Int.toNat_natCast]
      rw [if_neg]
      simp only [List.isEmpty_iff]
      intro e
      rw [State.bk, e] at hmem; simp at hmem
    obtain ⟨a, b, hab⟩ := List.append_of_mem hmem
    have hd : ∃ t, (chainKeys (s.bk (s.bucketOf hash k))).dropWhile (fun k' => k' != k) = k :: t := by
      generalize chainKeys (s.bk (s.bucketOf hash k)) = l at hmem
      induction l with
      | nil => simp at hmem
      | cons x l ih =>
        by_cases hx : x = k
        · subst hx; exact ⟨l, by simp⟩
        · rw [List.dropWhile_cons_of_pos (by simp [hx])]
          apply ih
          rcases List.mem_cons.1 hmem with h | h
          · exact absurd h.symm hx
          · exact h
    obtain ⟨t, ht⟩ := hd
    have ej : jump hash s k = ({ bucketIndex := s.bucketOf hash k + 1, keys := k :: t }, .success) := by
      simp only [jump, rn, Bool.not_true, Bool.false_eq_true, if_false]
      rw [if_pos hmem, ht]
    rw [ej]
    refine ⟨rfl, ?_⟩
    have rk : readKeys s { bucketIndex := s.bucketOf hash k + 1, keys := k :: t } =
        ({ bucketIndex := s.bucketOf hash k + 1, keys := k :: t }, true) := by
      simp only [readKeys]
      rw [if_neg (by omega)]; simp
    have := (iterProcess_at hr (it := { bucketIndex := s.bucketOf hash k + 1, keys := k :: t }) hi false
      (fun k v => (Action.noop, (k, v))) (by intro _ _; trivial) (by rw [rk]) (k := k) (rest := t) (by rw [rk])).2.2
    rw [hv] at this
    simp only [iterGet, this.2.2]
  · intro hv
    rcases readNext_spec hr hi (K := fun _ => False) (by simp) (s.buckets.length + 1) _ (g0 _ (by simp)) rfl
      (by simp only [State.bucketOf]; omega) with ⟨e, g, ne⟩ | ⟨e, o⟩
    · simp only [jump, e, Bool.not_true, Bool.false_eq_true, if_false]
      have hn : k ∉ (readNext s (s.buckets.length + 1) { bucketIndex := s.bucketOf hash k, keys := [] }).1.keys := by
        intro hm
        have := readNext_mem hi (s.buckets.length + 1) _ rfl k hm
        rw [hv] at this; simp at this
      rw [if_neg hn]
      refine ⟨rfl, ?_⟩
      simp [iterGet, iterProcess, readKeys]
    · simp only [jump, e, Bool.not_false, if_true]
      refine ⟨trivial, ?_⟩
      have : (readKeys s (readNext s (s.buckets.length + 1) { bucketIndex := s.bucketOf hash k, keys := [] }).1).2 = false := by
        simp only [readKeys]
        rw [if_pos (by rw [o.idx]; omega)]
      simp only [iterGet]
      rw [iterProcess_end _ _ this]

end Verif.Tiny
