import Verif.Shard.Iter
/-
Lemmas for C30.
-/
namespace Verif.ShardIter
open Verif

/-- SPECIFICATION: the comparator is a total order of the keys: keys neither of which is less are the same key. -/
structure KeyOrder (lt : Bytes → Bytes → Bool) : Prop where
  weak : StrictWeak lt
  eq : ∀ a b, lt a b = false → lt b a = false → a = b

variable {lt : Bytes → Bytes → Bool}

theorem KeyOrder.before (h : KeyOrder lt) (asc : Bool) : KeyOrder (before lt asc) := by
  cases asc with
  | true => exact ⟨⟨h.weak.irrefl, h.weak.trans, h.weak.cotrans⟩, h.eq⟩
  | false =>
    refine ⟨⟨h.weak.irrefl, fun a b c h1 h2 => h.weak.trans _ _ _ h2 h1, fun a b c h1 => ?_⟩, fun a b h1 h2 => h.eq _ _ h2 h1⟩
    exact (h.weak.cotrans c b a h1).symm

theorem slotLt_weak (h : KeyOrder lt) (asc : Bool) : StrictWeak (slotLt lt asc) := by
  cases asc with
  | true =>
    exact ⟨fun a => h.weak.irrefl _, fun a b c h1 h2 => h.weak.trans _ _ _ h2 h1, fun a b c h1 => (h.weak.cotrans _ b.key _ h1).symm⟩
  | false =>
    exact ⟨fun a => h.weak.irrefl _, fun a b c h1 h2 => h.weak.trans _ _ _ h1 h2, fun a b c h1 => h.weak.cotrans _ b.key _ h1⟩

theorem slotLt_before (asc : Bool) (a b : Slot) : slotLt lt asc a b = before lt asc b.key a.key := by
  cases asc <;> rfl

/-- The first record in the direction that meets the condition. -/
def Best (lt : Bytes → Bytes → Bool) (asc : Bool) (P : Bytes → Prop) (recs : Recs) : Option (Bytes × Bytes) → Prop
  | some r => r ∈ recs ∧ P r.1 ∧ ∀ r' ∈ recs, P r'.1 → before lt asc r'.1 r.1 = false
  | none => ∀ r ∈ recs, ¬ P r.1

theorem find_best {ho : KeyOrder lt} {asc : Bool} {l : Recs} (hs : l.Pairwise (fun a b => before lt asc a.1 b.1 = true)) (P : Bytes → Bool) :
    Best lt asc (fun k => P k = true) l (l.find? fun r => P r.1) := by
  induction l with
  | nil => intro r hr; cases hr
  | cons x l ih =>
    rw [List.pairwise_cons] at hs
    rw [List.find?_cons]
    cases hx : P x.1 with
    | true =>
      refine ⟨List.mem_cons_self, hx, ?_⟩
      intro r' hr' _
      rcases List.mem_cons.1 hr' with rfl | hr'
      · exact (ho.before asc).weak.irrefl _
      · exact (ho.before asc).weak.asymm (hs.1 r' hr')
    | false =>
      have := ih hs.2
      cases hf : l.find? (fun r => P r.1) with
      | none =>
        rw [hf] at this
        intro r hr hp
        rcases List.mem_cons.1 hr with rfl | hr
        · rw [hx] at hp; cases hp
        · exact this r hr hp
      | some r =>
        rw [hf] at this
        refine ⟨by simp [this.1], this.2.1, ?_⟩
        intro r' hr' hp
        rcases List.mem_cons.1 hr' with rfl | hr'
        · rw [hx] at hp; cases hp
        · exact this.2.2 r' hr' hp

/-- The shards: each sorted, no key in two of them. -/
structure Shards (lt : Bytes → Bytes → Bool) (ms : List Recs) : Prop where
  sorted : ∀ m ∈ ms, OrdMap.Sorted lt m
  apart : ∀ (i j : Nat) (m m' : Recs), ms[i]? = some m → ms[j]? = some m' → ∀ k v v', (k, v) ∈ m → (k, v') ∈ m' → i = j

theorem sorted_dir {m : Recs} (hs : OrdMap.Sorted lt m) (asc : Bool) :
    (if asc then m else m.reverse).Pairwise (fun a b => before lt asc a.1 b.1 = true) := by
  cases asc with
  | true => exact hs
  | false => simp only [Bool.false_eq_true, if_false]; rw [List.pairwise_reverse]; exact hs

theorem mem_dir {m : Recs} {asc : Bool} {r : Bytes × Bytes} : r ∈ (if asc then m else m.reverse) ↔ r ∈ m := by
  cases asc <;> simp

theorem sorted_unique (ho : KeyOrder lt) {m : Recs} (hs : OrdMap.Sorted lt m) {k v v' : Bytes} (h : (k, v) ∈ m) (h' : (k, v') ∈ m) : v = v' := by
  induction m with
  | nil => cases h
  | cons x m ih =>
    unfold OrdMap.Sorted at hs
    rw [List.pairwise_cons] at hs
    rcases List.mem_cons.1 h with e | h <;> rcases List.mem_cons.1 h' with e' | h'
    · rw [← e] at e'; simp at e'; exact e'.symm
    · have := hs.1 _ h'; rw [← e] at this; simp only at this; rw [ho.weak.irrefl] at this; cases this
    · have := hs.1 _ h; rw [← e'] at this; simp only at this; rw [ho.weak.irrefl] at this; cases this
    · exact ih hs.2 h h'

theorem getRec_iff (ho : KeyOrder lt) {m : Recs} (hs : OrdMap.Sorted lt m) (p : Option Bytes) (r : Bytes × Bytes) :
    getRec m p = some r ↔ p = some r.1 ∧ r ∈ m := by
  cases p with
  | none => simp [getRec]
  | some k =>
    simp only [getRec, Option.bind_some, Option.some.injEq]
    constructor
    · intro h
      have h1 := List.find?_some h
      simp only [decide_eq_true_eq] at h1
      exact ⟨h1.symm, List.mem_of_find?_eq_some h⟩
    · rintro ⟨rfl, hr⟩
      cases hf : m.find? (fun x => decide (x.1 = r.1)) with
      | none =>
        rw [List.find?_eq_none] at hf
        exact absurd (by simp) (hf r hr)
      | some r' =>
        have h1 := List.find?_some hf
        simp only [decide_eq_true_eq] at h1
        have h2 := List.mem_of_find?_eq_some hf
        obtain ⟨k', v'⟩ := r'
        obtain ⟨k, v⟩ := r
        simp only at h1
        subst h1
        rw [sorted_unique ho hs h2 hr]

/-- Where a seek leaves the iterator of a shard, and what `Get` says there. -/
theorem seekPos_best (ho : KeyOrder lt) {m : Recs} (hs : OrdMap.Sorted lt m) (asc : Bool) (P : Bytes → Bool) :
    ∃ o, Best lt asc (fun k => P k = true) m o ∧ seekPos asc P m = o.map (·.1) ∧ getRec m (seekPos asc P m) = o := by
  have h := find_best (ho := ho) (sorted_dir hs asc) P
  refine ⟨(if asc then m else m.reverse).find? (fun r => P r.1), ?_, rfl, ?_⟩
  · cases hf : (if asc then m else m.reverse).find? (fun r => P r.1) with
    | none => rw [hf] at h; exact fun r hr => h r (mem_dir.2 hr)
    | some r => rw [hf] at h; exact ⟨mem_dir.1 h.1, h.2.1, fun r' hr' => h.2.2 r' (mem_dir.2 hr')⟩
  · unfold seekPos
    cases hf : (if asc then m else m.reverse).find? (fun r => P r.1) with
    | none => rfl
    | some r =>
      rw [hf] at h
      exact (getRec_iff ho hs _ _).2 ⟨rfl, mem_dir.1 h.1⟩

theorem seekPos_congr {m : Recs} {asc : Bool} {P Q : Bytes → Bool} (h : ∀ r ∈ m, P r.1 = Q r.1) : seekPos asc P m = seekPos asc Q m := by
  unfold seekPos
  have : ∀ l : Recs, (∀ r ∈ l, P r.1 = Q r.1) → l.find? (fun r => P r.1) = l.find? (fun r => Q r.1) := by
    intro l
    induction l with
    | nil => intro _; rfl
    | cons x l ih =>
      intro hl
      rw [List.find?_cons, List.find?_cons, hl x (by simp), ih (fun r hr => hl r (by simp [hr]))]
  rw [this _ (fun r hr => h r (mem_dir.1 hr))]

/-- The slot is a record at which the iterator of its shard is. -/
def Valid (ms : List Recs) (pos : List (Option Bytes)) (s : Slot) : Prop :=
  ∃ m, ms[s.idx]? = some m ∧ pos[s.idx]? = some (some s.key) ∧ (s.key, s.value) ∈ m

theorem Valid.eq {ms : List Recs} {pos : List (Option Bytes)} (ho : KeyOrder lt) (hms : Shards lt ms) {s s' : Slot} (h : Valid ms pos s) (h' : Valid ms pos s')
    (e : s.idx = s'.idx) : s = s' := by
  obtain ⟨i, k, v⟩ := s
  obtain ⟨i', k', v'⟩ := s'
  obtain ⟨m, h1, h2, h3⟩ := h
  obtain ⟨m', h1', h2', h3'⟩ := h'
  simp only at *
  subst e
  rw [h1] at h1'; cases h1'
  rw [h2] at h2'; cases h2'
  rw [sorted_unique ho (hms.sorted m (List.mem_of_getElem? h1)) h3 h3']

/-- The heap holds the slots of the shards other than `skip` whose iterators are at records. -/
structure HeapOk (lt : Bytes → Bytes → Bool) (asc : Bool) (ms : List Recs) (pos : List (Option Bytes)) (skip : Nat → Prop) (heap : List Slot) : Prop where
  isHeap : StdHeap.isHeap (slotLt lt asc) heap = true
  nodup : (heap.map (·.idx)).Nodup
  slots : ∀ s, s ∈ heap ↔ ¬ skip s.idx ∧ Valid ms pos s

/-- The slots in the order of the shards. -/
def slotsFrom : Nat → List Recs → List (Option Bytes) → List Slot
  | i, m :: ms, p :: ps =>
    match getRec m p with
    | some r => ⟨i, r.1, r.2⟩ :: slotsFrom (i + 1) ms ps
    | none => slotsFrom (i + 1) ms ps
  | _, _, _ => []

theorem fill_spec (S : (asc : Bool) → StdHeap.Fns (slotLt lt asc)) (asc : Bool) (ms : List Recs) : ∀ (i : Nat) (ps : List (Option Bytes)) (h : List Slot) (b : Bool),
    StdHeap.isHeap (slotLt lt asc) h = true →
    (fill S asc i ms ps (h, b)).2 = b ∧ StdHeap.isHeap (slotLt lt asc) (fill S asc i ms ps (h, b)).1 = true ∧
    (fill S asc i ms ps (h, b)).1.Perm (h ++ slotsFrom i ms ps) := by
  induction ms with
  | nil => intro i ps h b hh; simp [fill, slotsFrom, hh]
  | cons m ms ih =>
    intro i ps h b hh
    cases ps with
    | nil => simp [fill, slotsFrom, hh]
    | cons p ps =>
      simp only [fill, slotsFrom]
      cases hg : getRec m p with
      | none => exact ih _ _ _ _ hh
      | some r =>
        simp only
        obtain ⟨h1, h2⟩ := (S asc).push_spec h ⟨i, r.1, r.2⟩ hh
        have hp : pushSlot S asc (h, b) ⟨i, r.1, r.2⟩ = ((S asc).push (h ++ [⟨i, r.1, r.2⟩]), b) := by
          simp [pushSlot, hh]
        rw [hp]
        obtain ⟨g1, g2, g3⟩ := ih (i + 1) ps ((S asc).push (h ++ [⟨i, r.1, r.2⟩])) b h2
        refine ⟨g1, g2, g3.trans ?_⟩
        have := h1.append_right (slotsFrom (i + 1) ms ps)
        simpa using this

theorem slotsFrom_mem (ho : KeyOrder lt) (ms : List Recs) : ∀ (i : Nat) (ps : List (Option Bytes)), (∀ m ∈ ms, OrdMap.Sorted lt m) → ∀ s : Slot,
    s ∈ slotsFrom i ms ps ↔ ∃ j m, s.idx = i + j ∧ ms[j]? = some m ∧ ps[j]? = some (some s.key) ∧ (s.key, s.value) ∈ m := by
  induction ms with
  | nil => intro i ps _ s; simp [slotsFrom]
  | cons m ms ih =>
    intro i ps hs s
    cases ps with
    | nil => simp [slotsFrom]
    | cons p ps =>
      have ih' := ih (i + 1) ps (fun m h => hs m (by simp [h])) s
      have hsplit : (∃ j m', s.idx = i + j ∧ (m :: ms)[j]? = some m' ∧ (p :: ps)[j]? = some (some s.key) ∧ (s.key, s.value) ∈ m') ↔
          (s.idx = i ∧ p = some s.key ∧ (s.key, s.value) ∈ m) ∨
          (∃ j m', s.idx = i + 1 + j ∧ ms[j]? = some m' ∧ ps[j]? = some (some s.key) ∧ (s.key, s.value) ∈ m') := by
        constructor
        · rintro ⟨j, m', h1, h2, h3, h4⟩
          cases j with
          | zero => simp at h2 h3; subst h2; exact .inl ⟨h1, h3, h4⟩
          | succ j => exact .inr ⟨j, m', by omega, by simpa using h2, by simpa using h3, h4⟩
        · rintro (⟨h1, h2, h3⟩ | ⟨j, m', h1, h2, h3, h4⟩)
          · exact ⟨0, m, h1, rfl, by simp [h2], h3⟩
          · exact ⟨j + 1, m', by omega, by simpa using h2, by simpa using h3, h4⟩
      rw [hsplit, ← ih']
      simp only [slotsFrom]
      have hgi := getRec_iff ho (hs m (by simp)) p
      cases hg : getRec m p with
      | none =>
        simp only
        constructor
        · exact .inr
        · rintro (⟨_, h2, h3⟩ | h)
          · have := (hgi (s.key, s.value)).2 ⟨h2, h3⟩
            rw [hg] at this; cases this
          · exact h
      | some r =>
        simp only [List.mem_cons]
        refine or_congr ?_ Iff.rfl
        constructor
        · rintro rfl
          obtain ⟨a, b⟩ := (hgi r).1 hg
          exact ⟨rfl, a, b⟩
        · rintro ⟨h1, h2, h3⟩
          have := (hgi (s.key, s.value)).2 ⟨h2, h3⟩
          rw [hg] at this; cases this
          obtain ⟨a, b, c⟩ := s
          simp only at h1; subst h1; rfl

theorem slotsFrom_nodup (ms : List Recs) : ∀ (i : Nat) (ps : List (Option Bytes)), ((slotsFrom i ms ps).map (·.idx)).Nodup ∧
    ∀ s ∈ slotsFrom i ms ps, i ≤ s.idx := by
  induction ms with
  | nil => intro i ps; simp [slotsFrom]
  | cons m ms ih =>
    intro i ps
    cases ps with
    | nil => simp [slotsFrom]
    | cons p ps =>
      obtain ⟨h1, h2⟩ := ih (i + 1) ps
      simp only [slotsFrom]
      split
      · refine ⟨?_, ?_⟩
        · rw [List.map_cons, List.nodup_cons]
          refine ⟨?_, h1⟩
          intro hm
          obtain ⟨s, hs, e⟩ := List.mem_map.1 hm
          have := h2 s hs
          simp only at e
          omega
        · intro s hs
          rcases List.mem_cons.1 hs with rfl | hs
          · exact Nat.le_refl _
          · have := h2 s hs; omega
      · exact ⟨h1, fun s hs => by have := h2 s hs; omega⟩

theorem fill_ok (ho : KeyOrder lt) (S : (asc : Bool) → StdHeap.Fns (slotLt lt asc)) (asc : Bool) {ms : List Recs} (hms : Shards lt ms) (ps : List (Option Bytes)) :
    (fill S asc 0 ms ps ([], false)).2 = false ∧ HeapOk lt asc ms ps (fun _ => False) (fill S asc 0 ms ps ([], false)).1 := by
  obtain ⟨h1, h2, h3⟩ := fill_spec S asc ms 0 ps [] false StdHeap.isHeap_nil
  refine ⟨h1, h2, ?_, ?_⟩
  · exact (h3.map _).nodup_iff.2 (by simpa using (slotsFrom_nodup ms 0 ps).1)
  · intro s
    rw [h3.mem_iff, List.nil_append, slotsFrom_mem ho ms 0 ps hms.sorted]
    simp only [not_false_eq_true, true_and, Valid]
    constructor
    · rintro ⟨j, m, e, h⟩; exact ⟨m, by rw [e, Nat.zero_add]; exact h⟩
    · rintro ⟨m, h⟩; exact ⟨s.idx, m, by simp, h⟩

/-- The iterator is in order: `P` is the condition that the records not yet passed meet. -/
structure OkP (lt : Bytes → Bytes → Bool) (it : State) (P : Bytes → Bool) : Prop where
  ok : it.bad = false
  shards : Shards lt it.ms
  len : it.pos.length = it.ms.length
  heap : HeapOk lt it.asc it.ms it.pos (fun _ => False) it.heap
  mono : ∀ a b, P a = true → before lt it.asc a b = true → P b = true
  at_ : ∀ (i : Nat) (m : Recs), it.ms[i]? = some m → it.pos[i]? = some (seekPos it.asc P m)

/-- The records of the database. -/
def recs (it : State) : Recs := it.ms.flatten

theorem mem_recs {it : State} {r : Bytes × Bytes} : r ∈ recs it ↔ ∃ (i : Nat) (m : Recs), it.ms[i]? = some m ∧ r ∈ m := by
  unfold recs
  rw [List.mem_flatten]
  constructor
  · rintro ⟨m, hm, hr⟩
    obtain ⟨i, hi⟩ := List.getElem?_of_mem hm
    exact ⟨i, m, hi, hr⟩
  · rintro ⟨i, m, hi, hr⟩; exact ⟨m, List.mem_of_getElem? hi, hr⟩

/-- `Get` is the first of the records not yet passed. -/
theorem OkP.get (ho : KeyOrder lt) {it : State} {P : Bytes → Bool} (h : OkP lt it P) :
    Best lt it.asc (fun k => P k = true) (recs it) (get it) := by
  have hslot : ∀ (j : Nat) (m : Recs) (r : Bytes × Bytes), it.ms[j]? = some m → r ∈ m → P r.1 = true →
      ∃ s ∈ it.heap, s.idx = j ∧ P s.key = true ∧ before lt it.asc r.1 s.key = false := by
    intro j m r hj hr hp
    obtain ⟨o, h1, h2, h3⟩ := seekPos_best ho (h.shards.sorted m (List.mem_of_getElem? hj)) it.asc P
    cases o with
    | none => exact absurd hp (h1 r hr)
    | some q =>
      have hat := h.at_ j m hj
      rw [h2] at hat
      exact ⟨⟨j, q.1, q.2⟩, (h.heap.slots _).2 ⟨not_false, m, hj, hat, h1.1⟩, rfl, h1.2.1, h1.2.2 r hr hp⟩
  unfold ShardIter.get
  cases hh : it.heap with
  | nil =>
    intro r hr hp
    obtain ⟨j, m, hj, hm⟩ := mem_recs.1 hr
    obtain ⟨s, hs, _⟩ := hslot j m r hj hm hp
    rw [hh] at hs; cases hs
  | cons f l =>
    have hfm : f ∈ it.heap := by rw [hh]; exact List.mem_cons_self
    obtain ⟨_, m, h1, h2, h3⟩ := (h.heap.slots f).1 hfm
    have hfront := StdHeap.front (slotLt_weak ho it.asc) (hh ▸ h.heap.isHeap)
    refine ⟨mem_recs.2 ⟨f.idx, m, h1, h3⟩, ?_, ?_⟩
    · have := h.at_ f.idx m h1
      rw [h2] at this
      obtain ⟨o, b1, b2, b3⟩ := seekPos_best ho (h.shards.sorted m (List.mem_of_getElem? h1)) it.asc P
      simp only [Option.some.injEq] at this
      rw [b2] at this
      cases o with
      | none => cases this
      | some q => simp only [Option.map_some, Option.some.injEq] at this; simp only; rw [this]; exact b1.2.1
    · intro r' hr' hp
      obtain ⟨j, m', hj, hm⟩ := mem_recs.1 hr'
      obtain ⟨s, hs, _, _, hb⟩ := hslot j m' r' hj hm hp
      have := hfront s (hh ▸ hs)
      rw [slotLt_before] at this
      cases hc : before lt it.asc r'.1 f.key with
      | false => rfl
      | true =>
        rcases (ho.before it.asc).weak.cotrans r'.1 s.key f.key hc with h4 | h4
        · rw [hb] at h4; cases h4
        · rw [this] at h4; cases h4

/-- `First`, `Last` and the jumps. -/
theorem seek_ok (ho : KeyOrder lt) (S : (asc : Bool) → StdHeap.Fns (slotLt lt asc)) {it : State} (hb : it.bad = false) (hms : Shards lt it.ms)
    (asc : Bool) (P : Bytes → Bool) (hP : ∀ a b, P a = true → before lt asc a b = true → P b = true) :
    OkP lt (seek S asc P it) P ∧ (seek S asc P it).ms = it.ms ∧ (seek S asc P it).asc = asc := by
  obtain ⟨h1, h2⟩ := fill_ok ho S asc hms (it.ms.map (seekPos asc P))
  refine ⟨⟨?_, hms, by simp [seek], h2, hP, ?_⟩, rfl, rfl⟩
  · simp [seek, hb, h1]
  · intro i m hi
    have hi' : it.ms[i]? = some m := hi
    simp [seek, List.getElem?_map, hi']

/-- `std::pop_heap`: the front slot goes. -/
theorem pop_ok (S : (asc : Bool) → StdHeap.Fns (slotLt lt asc)) {it : State} {asc : Bool} {f : Slot} {l : List Slot} (hb : it.bad = false) (hh : it.heap = f :: l)
    (h : StdHeap.isHeap (slotLt lt asc) it.heap = true) (hn : (it.heap.map (·.idx)).Nodup) {ms : List Recs} {pos : List (Option Bytes)}
    (hsl : ∀ s, s.idx ≠ f.idx → (s ∈ it.heap ↔ Valid ms pos s)) :
    ∃ pre, popSlot S asc it = some (f, { it with heap := pre }) ∧ HeapOk lt asc ms pos (fun i => i = f.idx) pre := by
  rw [hh] at h hn hsl
  obtain ⟨pre, h1, h2, h3⟩ := (S asc).pop_spec f l h
  refine ⟨pre, ?_, h3, ?_, ?_⟩
  · unfold popSlot
    rw [hh, h1]
    simp only [List.getLast?_append, List.getLast?_singleton, Option.some_or, List.dropLast_concat, h, hb]
    simp
  · rw [List.map_cons, List.nodup_cons] at hn
    exact (h2.map _).nodup_iff.2 hn.2
  · intro s
    rw [List.map_cons, List.nodup_cons] at hn
    rw [h2.mem_iff]
    constructor
    · intro hs
      have hne : s.idx ≠ f.idx := fun e => hn.1 (List.mem_map.2 ⟨s, hs, e⟩)
      exact ⟨hne, (hsl s hne).1 (by simp [hs])⟩
    · rintro ⟨hne, hv⟩
      have := (hsl s hne).2 hv
      rcases List.mem_cons.1 this with rfl | hs
      · exact absurd rfl hne
      · exact hs

/-- `Get` of the slot and `std::push_heap`. -/
theorem reload_ok (ho : KeyOrder lt) (S : (asc : Bool) → StdHeap.Fns (slotLt lt asc)) {it : State} {asc : Bool} {i : Nat} (hb : it.bad = false)
    (hms : Shards lt it.ms) (h : HeapOk lt asc it.ms it.pos (fun j => j = i) it.heap) :
    (reload S asc i it).bad = false ∧ (reload S asc i it).ms = it.ms ∧ (reload S asc i it).pos = it.pos ∧ (reload S asc i it).asc = it.asc ∧
    HeapOk lt asc it.ms it.pos (fun _ => False) (reload S asc i it).heap := by
  unfold reload
  cases hg : (it.ms[i]?).bind fun m => (it.pos[i]?).bind fun p => getRec m p with
  | none =>
    refine ⟨hb, rfl, rfl, rfl, h.isHeap, h.nodup, ?_⟩
    intro s
    rw [h.slots]
    simp only [not_false_eq_true, true_and]
    constructor
    · exact fun h => h.2
    · intro hv
      refine ⟨?_, hv⟩
      intro e
      obtain ⟨m, h1, h2, h3⟩ := hv
      rw [e] at h1 h2
      have := (getRec_iff ho (hms.sorted m (List.mem_of_getElem? h1)) _ _).2 ⟨rfl, h3⟩
      rw [h1, h2] at hg
      simp only [Option.bind_some] at hg
      rw [hg] at this; cases this
  | some r =>
    obtain ⟨h1, h2⟩ := (S asc).push_spec it.heap ⟨i, r.1, r.2⟩ h.isHeap
    refine ⟨by simp [pushSlot, hb, h.isHeap], rfl, rfl, rfl, h2, ?_, ?_⟩
    · refine (h1.map _).nodup_iff.2 ?_
      rw [List.map_append, List.nodup_append]
      refine ⟨h.nodup, by simp, ?_⟩
      intro a ha b hb' e
      subst e
      simp only [List.map_cons, List.map_nil, List.mem_singleton] at hb'
      obtain ⟨s, hs, e⟩ := List.mem_map.1 ha
      exact ((h.slots s).1 hs).1 (e.trans hb')
    · intro s
      simp only [pushSlot]
      rw [h1.mem_iff, List.mem_append, h.slots]
      simp only [not_false_eq_true, true_and, List.mem_singleton]
      have hvr : Valid it.ms it.pos ⟨i, r.1, r.2⟩ := by
        cases hm : it.ms[i]? with
        | none => rw [hm] at hg; cases hg
        | some m =>
          cases hp : it.pos[i]? with
          | none => rw [hm, hp] at hg; cases hg
          | some p =>
            rw [hm, hp] at hg
            simp only [Option.bind_some] at hg
            obtain ⟨a, b⟩ := (getRec_iff ho (hms.sorted m (List.mem_of_getElem? hm)) _ _).1 hg
            exact ⟨m, hm, by rw [hp, a], b⟩
      constructor
      · rintro (h | rfl)
        · exact h.2
        · exact hvr
      · intro hv
        by_cases e : s.idx = i
        · exact .inr (hv.eq ho hms hvr e)
        · exact .inl ⟨e, hv⟩

/-- The slots of the other shards stay valid when a shard changes. -/
theorem Valid.other {ms ms' : List Recs} {pos pos' : List (Option Bytes)} {i : Nat} (h1 : ∀ j, j ≠ i → ms'[j]? = ms[j]?) (h2 : ∀ j, j ≠ i → pos'[j]? = pos[j]?)
    {s : Slot} (hs : s.idx ≠ i) : Valid ms' pos' s ↔ Valid ms pos s := by
  unfold Valid; rw [h1 _ hs, h2 _ hs]

/-- The records after that of the front slot. -/
theorem OkP.rest (ho : KeyOrder lt) {it : State} {P : Bytes → Bool} (h : OkP lt it P) {f : Slot} {l : List Slot} (hh : it.heap = f :: l) :
    ∀ (j : Nat) (m : Recs), j ≠ f.idx → it.ms[j]? = some m → seekPos it.asc P m = seekPos it.asc (before lt it.asc f.key) m := by
  intro j m hj hm
  have hg := h.get ho
  have e : ShardIter.get it = some (f.key, f.value) := by simp [ShardIter.get, hh]
  rw [e] at hg
  obtain ⟨_, g2, g3⟩ := hg
  obtain ⟨_, mf, v1, v2, v3⟩ := (h.heap.slots f).1 (by rw [hh]; exact List.mem_cons_self)
  apply seekPos_congr
  intro r hr
  cases hc : before lt it.asc f.key r.1 with
  | true => exact h.mono _ _ g2 hc
  | false =>
    cases hp : P r.1 with
    | false => rfl
    | true =>
      exfalso
      have := g3 r (mem_recs.2 ⟨j, m, hm, hr⟩) hp
      have e2 := (ho.before it.asc).eq _ _ this hc
      obtain ⟨rk, rv⟩ := r
      simp only at e2
      subst e2
      exact hj (h.shards.apart _ _ _ _ hm v1 _ _ _ hr v3)

theorem OkP.advance (ho : KeyOrder lt) (S : (asc : Bool) → StdHeap.Fns (slotLt lt asc)) {it : State} {P : Bytes → Bool} (h : OkP lt it P) {f : Slot} {l : List Slot}
    (hh : it.heap = f :: l) :
    OkP lt (advance S it.asc it).1 (before lt it.asc f.key) ∧ (advance S it.asc it).2 = .success ∧ (advance S it.asc it).1.ms = it.ms ∧ (advance S it.asc it).1.asc = it.asc := by
  obtain ⟨_, mf, v1, v2, v3⟩ := (h.heap.slots f).1 (by rw [hh]; exact List.mem_cons_self)
  have hlt : f.idx < it.pos.length := by
    rcases Nat.lt_or_ge f.idx it.pos.length with h | h
    · exact h
    · rw [List.getElem?_eq_none h] at v2; cases v2
  generalize hp : (it.pos.set f.idx (seekPos it.asc (before lt it.asc f.key) mf)) = pos'
  have hother : ∀ j, j ≠ f.idx → pos'[j]? = it.pos[j]? := by
    intro j hj; rw [← hp, List.getElem?_set_ne (Ne.symm hj)]
  obtain ⟨pre, p1, p2⟩ := pop_ok S h.ok hh h.heap.isHeap h.heap.nodup (ms := it.ms) (pos := pos')
    (by intro s hs; rw [h.heap.slots, Valid.other (fun _ _ => rfl) hother hs]; simp)
  unfold ShardIter.advance
  rw [p1]
  simp only [v1, v2, Option.bind_some, stepPos, hp]
  obtain ⟨r1, r2, r3, r4, r5⟩ := reload_ok ho S (it := { it with heap := pre, pos := pos' }) h.ok h.shards p2
  simp only at r2 r3 r4 r5
  refine ⟨⟨r1, by rw [r2]; exact h.shards, by rw [r2, r3, ← hp]; simpa using h.len, by rw [r2, r3, r4]; exact r5, ?_, ?_⟩, trivial, r2, r4⟩
  · rw [r4]; intro a b; exact (ho.before it.asc).weak.trans _ a b
  · rw [r2, r3, r4]
    intro j m hm
    by_cases hj : j = f.idx
    · subst hj
      rw [v1] at hm; cases hm
      rw [← hp, List.getElem?_set_self hlt]
    · rw [hother j hj, h.at_ j m hm, h.rest ho hh j m hj hm]

end Verif.ShardIter
