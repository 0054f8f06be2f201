import Verif.Shard.IterProps
/-
C30: changing records through the iterator of ShardDBM.
-/
namespace Verif.ShardIter
open Verif

variable {lt : Bytes → Bytes → Bool}

theorem Shards.set {ms : List Recs} (h : Shards lt ms) {i : Nat} {m m' : Recs} (hi : ms[i]? = some m) (hs : OrdMap.Sorted lt m')
    (hk : ∀ k v, (k, v) ∈ m' → ∃ v', (k, v') ∈ m) : Shards lt (ms.set i m') := by
  have key : ∀ (j : Nat) (u : Recs), (ms.set i m')[j]? = some u → ∃ u', ms[j]? = some u' ∧ ∀ k v, (k, v) ∈ u → ∃ v', (k, v') ∈ u' := by
    intro j u hj
    by_cases e : i = j
    · subst e
      rw [List.getElem?_set] at hj
      simp only [if_true] at hj
      split at hj
      · cases hj; exact ⟨m, hi, hk⟩
      · cases hj
    · rw [List.getElem?_set_ne e] at hj
      exact ⟨u, hj, fun k v h => ⟨v, h⟩⟩
  refine ⟨?_, ?_⟩
  · intro u hu
    rcases List.mem_or_eq_of_mem_set hu with hu | rfl
    · exact h.sorted u hu
    · exact hs
  · intro a b u u' ha hb k v v' hv hv'
    obtain ⟨w, ha', hw⟩ := key a u ha
    obtain ⟨w', hb', hw'⟩ := key b u' hb
    obtain ⟨x, hx⟩ := hw k v hv
    obtain ⟨x', hx'⟩ := hw' k v' hv'
    exact h.apart a b w w' ha' hb' k x x' hx hx'

/-- What `Process` of the iterator of the front shard does. -/
theorem OkP.front {it : State} {P : Bytes → Bool} (ho : KeyOrder lt) (h : OkP lt it P) {f : Slot} {l : List Slot} (hh : it.heap = f :: l) :
    ∃ m, it.ms[f.idx]? = some m ∧ it.pos[f.idx]? = some (some f.key) ∧ (f.key, f.value) ∈ m ∧ getRec m (some f.key) = some (f.key, f.value) := by
  obtain ⟨_, m, v1, v2, v3⟩ := (h.heap.slots f).1 (by rw [hh]; exact List.mem_cons_self)
  exact ⟨m, v1, v2, v3, (getRec_iff ho (h.shards.sorted m (List.mem_of_getElem? v1)) _ _).2 ⟨rfl, v3⟩⟩

/-- The records after the removal of a key from its shard. -/
theorem removed_recs {it : State} {i : Nat} {m : Recs} (hms : Shards lt it.ms) (hi : it.ms[i]? = some m) {k v : Bytes} (hk : (k, v) ∈ m) (r : Bytes × Bytes) :
    r ∈ (it.ms.set i (m.filter fun x => x.1 ≠ k)).flatten ↔ r ∈ recs it ∧ r.1 ≠ k := by
  have hlt : i < it.ms.length := by
    rcases Nat.lt_or_ge i it.ms.length with h | h
    · exact h
    · rw [List.getElem?_eq_none h] at hi; cases hi
  have e := mem_recs (it := { it with ms := it.ms.set i (m.filter fun x => x.1 ≠ k) }) (r := r)
  unfold recs at e
  simp only at e
  rw [e, mem_recs]
  constructor
  · rintro ⟨j, u, hj, hr⟩
    by_cases hji : i = j
    · subst hji
      rw [List.getElem?_set_self hlt] at hj
      cases hj
      obtain ⟨h1, h2⟩ := List.mem_filter.1 hr
      exact ⟨⟨i, m, hi, h1⟩, by simpa using h2⟩
    · rw [List.getElem?_set_ne hji] at hj
      refine ⟨⟨j, u, hj, hr⟩, ?_⟩
      rintro rfl
      obtain ⟨rk, rv⟩ := r
      exact hji (hms.apart _ _ _ _ hi hj _ _ _ hk hr)
  · rintro ⟨⟨j, u, hj, hr⟩, hne⟩
    by_cases hji : i = j
    · subst hji
      rw [hi] at hj; cases hj
      exact ⟨i, _, List.getElem?_set_self hlt, List.mem_filter.2 ⟨hr, by simpa using hne⟩⟩
    · exact ⟨j, u, by rw [List.getElem?_set_ne hji]; exact hj, hr⟩

theorem find_filter {l : Recs} {P Q : Bytes × Bytes → Bool} (h : ∀ r, P r = true → Q r = true) : (l.filter Q).find? P = l.find? P := by
  induction l with
  | nil => rfl
  | cons x l ih =>
    cases hq : Q x with
    | true => rw [List.filter_cons_of_pos hq, List.find?_cons, List.find?_cons, ih]
    | false =>
      have hp : P x = false := by
        cases hp : P x with
        | false => rfl
        | true => rw [h x hp] at hq; cases hq
      rw [List.filter_cons_of_neg (by simp [hq]), List.find?_cons, hp, ih]

/-- After a removal in the ascending direction. -/
theorem remove_ok (ho : KeyOrder lt) (S : (asc : Bool) → StdHeap.Fns (slotLt lt asc)) {it : State} {P : Bytes → Bool} (h : OkP lt it P) (hasc : it.asc = true)
    {f : Slot} {l : List Slot} (hh : it.heap = f :: l) {m : Recs} (hm : it.ms[f.idx]? = some m) :
    let it' := afterRemove S { it with
      ms := it.ms.set f.idx (m.filter fun x => x.1 ≠ f.key), pos := it.pos.set f.idx (stepPos (lt := lt) true m (some f.key)) }
    OkP lt it' (lt f.key) ∧ it'.asc = true ∧ it'.ms = it.ms.set f.idx (m.filter fun x => x.1 ≠ f.key) := by
  obtain ⟨m', v1, v2, v3, v4⟩ := h.front ho hh
  rw [hm] at v1; cases v1
  have hlt : f.idx < it.pos.length := by
    rcases Nat.lt_or_ge f.idx it.pos.length with h | h
    · exact h
    · rw [List.getElem?_eq_none h] at v2; cases v2
  have hlt' : f.idx < it.ms.length := by rw [← h.len]; exact hlt
  have hsorted := h.shards.sorted m (List.mem_of_getElem? hm)
  have hsh : Shards lt (it.ms.set f.idx (m.filter fun x => x.1 ≠ f.key)) :=
    h.shards.set hm (List.Pairwise.filter _ hsorted) (fun k v hv => ⟨v, (List.mem_filter.1 hv).1⟩)
  have hheap := h.heap.isHeap
  rw [hasc] at hheap
  obtain ⟨pre, p1, p2⟩ := pop_ok S (asc := true)
    (it := { it with ms := it.ms.set f.idx (m.filter fun x => x.1 ≠ f.key), pos := it.pos.set f.idx (stepPos (lt := lt) true m (some f.key)) })
    h.ok hh hheap h.heap.nodup
    (ms := it.ms.set f.idx (m.filter fun x => x.1 ≠ f.key)) (pos := it.pos.set f.idx (stepPos (lt := lt) true m (some f.key)))
    (by
      intro s hs
      rw [Valid.other (ms := it.ms) (pos := it.pos) (fun j hj => List.getElem?_set_ne (Ne.symm hj)) (fun j hj => List.getElem?_set_ne (Ne.symm hj)) hs]
      simp only
      rw [h.heap.slots]
      simp)
  simp only
  unfold afterRemove
  rw [p1]
  simp only
  obtain ⟨r1, r2, r3, r4, r5⟩ := reload_ok ho S (asc := true) (i := f.idx) (it := { it with
      heap := pre, ms := it.ms.set f.idx (m.filter fun x => x.1 ≠ f.key), pos := it.pos.set f.idx (stepPos (lt := lt) true m (some f.key)) })
    h.ok hsh p2
  simp only at r2 r3 r4 r5
  refine ⟨⟨r1, by rw [r2]; exact hsh, by rw [r2, r3]; simp [h.len], by rw [r2, r3, r4]; exact hasc.symm ▸ r5, ?_, ?_⟩, by rw [r4]; exact hasc, r2⟩
  · intro a b h1 h2
    rw [r4, hasc] at h2
    exact ho.weak.trans _ _ _ h1 h2
  · rw [r2, r3, r4, hasc]
    intro j u hu
    by_cases hj : j = f.idx
    · subst hj
      rw [List.getElem?_set_self hlt'] at hu
      cases hu
      rw [List.getElem?_set_self hlt]
      simp only [stepPos, Option.bind_some, seekPos, if_true]
      rw [find_filter]
      · rfl
      · intro r hr
        simp only [decide_eq_true_eq]
        intro e
        rw [e, ho.weak.irrefl] at hr; cases hr
    · rw [List.getElem?_set_ne (Ne.symm hj)] at hu ⊢
      have h1 := h.at_ j u hu
      have h2 := h.rest ho hh j u hj hu
      rw [hasc] at h1 h2
      rw [h1, h2]
      rfl

/-- C30: `Remove` in the ascending direction removes the record, and only it, and leaves the iterator at the least record
greater than it. (The direction is ascending after `First`, `Jump`, `JumpUpper` and `Next`. For the descending direction see
`C30_remove_backward_violated`.) -/
theorem C30_remove_partial (ho : KeyOrder lt) (S : (asc : Bool) → StdHeap.Fns (slotLt lt asc)) {it : State} (h : Ok lt it) (hasc : it.asc = true)
    {k v : Bytes} (hg : get it = some (k, v)) :
    Ok lt (remove S it).1 ∧ (remove S it).1.asc = true ∧ (remove S it).2 = .success ∧ (∀ r, r ∈ recs (remove S it).1 ↔ r ∈ recs it ∧ r.1 ≠ k) ∧
    LeastRec lt (fun k' => lt k k' = true) (recs it) (get (remove S it).1) := by
  obtain ⟨P, h⟩ := h
  obtain ⟨i, l, hh⟩ := get_cons hg
  obtain ⟨m, v1, v2, v3, v4⟩ := h.front ho hh
  simp only at v1 v2 v3 v4
  obtain ⟨r1, r2, r3⟩ := remove_ok ho S h hasc hh v1
  simp only at r1 r2 r3
  have he : remove S it = (afterRemove S { it with ms := it.ms.set i (m.filter fun x => x.1 ≠ k), pos := it.pos.set i (stepPos (lt := lt) true m (some k)) }, .success) := by
    unfold remove
    rw [hh]
    simp only [shardProcess, v1, v2, v4, if_true, ← hh]
  rw [he]
  simp only
  have hrec : ∀ r, r ∈ recs (afterRemove S { it with ms := it.ms.set i (m.filter fun x => x.1 ≠ k), pos := it.pos.set i (stepPos (lt := lt) true m (some k)) }) ↔
      r ∈ recs it ∧ r.1 ≠ k := by
    intro r
    have : r ∈ recs (afterRemove S { it with ms := it.ms.set i (m.filter fun x => x.1 ≠ k), pos := it.pos.set i (stepPos (lt := lt) true m (some k)) }) ↔
      r ∈ (it.ms.set i (m.filter fun x => x.1 ≠ k)).flatten := by unfold recs; rw [r3]
    rw [this]
    exact removed_recs h.shards v1 v3 r
  refine ⟨⟨_, r1⟩, r2, trivial, hrec, ?_⟩
  have hb := r1.get ho
  rw [r2] at hb
  have hb := best_least hb
  generalize get (afterRemove S { it with ms := it.ms.set i (m.filter fun x => x.1 ≠ k), pos := it.pos.set i (stepPos (lt := lt) true m (some k)) }) = o at hb
  cases o with
  | none =>
    intro r hr hlt
    refine hb r ((hrec r).2 ⟨hr, ?_⟩) hlt
    intro e; rw [e, ho.weak.irrefl] at hlt; cases hlt
  | some q =>
    obtain ⟨b1, b2, b3⟩ := hb
    refine ⟨((hrec q).1 b1).1, b2, ?_⟩
    intro r hr hlt
    refine b3 r ((hrec r).2 ⟨hr, ?_⟩) hlt
    intro e; rw [e, ho.weak.irrefl] at hlt; cases hlt

/-- C30: `Process` in the ascending direction with a processor that removes does the same as `Remove`. -/
theorem C30_process_remove_partial (ho : KeyOrder lt) (S : (asc : Bool) → StdHeap.Fns (slotLt lt asc)) {it : State} (h : Ok lt it)
    {k v : Bytes} (hg : get it = some (k, v)) {τ : Type} (p : Bytes → Bytes → Action × τ) (hp : (p k v).1 = .remove) :
    process S it true p = ((remove S it).1, .success, some (p k v).2) := by
  obtain ⟨P, h⟩ := h
  obtain ⟨i, l, hh⟩ := get_cons hg
  obtain ⟨m, v1, v2, v3, v4⟩ := h.front ho hh
  simp only at v1 v2 v3 v4
  have hpair : p k v = (.remove, (p k v).2) := by rw [← hp]
  unfold process remove
  rw [hh]
  simp only [shardProcess, v1, v2, v4]
  rw [hpair]
  simp only [if_true, and_self]

/-- C30: `Process` with a processor that leaves the record, or on a database opened for reading, changes nothing; the
processor is shown the record at which the iterator is. -/
theorem C30_process_noop (ho : KeyOrder lt) (S : (asc : Bool) → StdHeap.Fns (slotLt lt asc)) {it : State} (h : Ok lt it)
    {k v : Bytes} (hg : get it = some (k, v)) {τ : Type} (w : Bool) (p : Bytes → Bytes → Action × τ) (hp : w = false ∨ (p k v).1 = .noop) :
    process S it w p = (it, .success, some (p k v).2) := by
  obtain ⟨P, h⟩ := h
  obtain ⟨i, l, hh⟩ := get_cons hg
  obtain ⟨m, v1, v2, v3, v4⟩ := h.front ho hh
  simp only at v1 v2 v3 v4
  unfold process
  rw [hh]
  simp only [shardProcess, v1, v2, v4]
  rcases hp with rfl | hp
  · simp
  · have hpair : p k v = (.noop, (p k v).2) := by rw [← hp]
    rw [hpair]
    cases w <;> simp

theorem mem_assign {m : Recs} (k v : Bytes) (r : Bytes × Bytes) :
    r ∈ m.map (fun x => if x.1 = k then (k, v) else x) ↔ (r ∈ m ∧ r.1 ≠ k) ∨ (r = (k, v) ∧ ∃ v', (k, v') ∈ m) := by
  rw [List.mem_map]
  constructor
  · rintro ⟨x, hx, rfl⟩
    by_cases e : x.1 = k
    · rw [if_pos e]; obtain ⟨a, b⟩ := x; simp only at e; subst e; exact .inr ⟨rfl, b, hx⟩
    · rw [if_neg e]; exact .inl ⟨hx, e⟩
  · rintro (⟨h, e⟩ | ⟨rfl, v', h⟩)
    · exact ⟨r, h, if_neg e⟩
    · exact ⟨(k, v'), h, if_pos rfl⟩

theorem find_assign {l : Recs} {P : Bytes → Bool} (k v : Bytes) :
    ((l.map fun x => if x.1 = k then (k, v) else x).find? fun r => P r.1).map (·.1) = (l.find? fun r => P r.1).map (·.1) := by
  induction l with
  | nil => rfl
  | cons x l ih =>
    have e : (if x.1 = k then (k, v) else x).1 = x.1 := by
      split
      · rename_i h; exact h.symm
      · rfl
    rw [List.map_cons, List.find?_cons, List.find?_cons, e]
    cases P x.1 with
    | true => simp only [Option.map_some]; rw [e]
    | false => exact ih

theorem seekPos_assign {m : Recs} {asc : Bool} {P : Bytes → Bool} (k v : Bytes) :
    seekPos asc P (m.map fun x => if x.1 = k then (k, v) else x) = seekPos asc P m := by
  unfold seekPos
  cases asc
  · simp only [Bool.false_eq_true, if_false]
    rw [← List.map_reverse]
    exact find_assign k v
  · exact find_assign k v

/-- C30: `Set` changes the value of the record at which the iterator is, and no other record; the iterator stays at it and
shows the new value. -/
theorem C30_set (ho : KeyOrder lt) {it : State} (h : Ok lt it) {k v : Bytes} (hg : get it = some (k, v)) (v' : Bytes) :
    Ok lt (set (lt := lt) it v').1 ∧ (set (lt := lt) it v').2 = .success ∧ (set (lt := lt) it v').1.asc = it.asc ∧
    get (set (lt := lt) it v').1 = some (k, v') ∧
    ∀ r, r ∈ recs (set (lt := lt) it v').1 ↔ (r ∈ recs it ∧ r.1 ≠ k) ∨ r = (k, v') := by
  obtain ⟨P, h⟩ := h
  obtain ⟨i, l, hh⟩ := get_cons hg
  obtain ⟨m, v1, v2, v3, v4⟩ := h.front ho hh
  simp only at v1 v2 v3 v4
  have hlt : i < it.ms.length := by
    rcases Nat.lt_or_ge i it.ms.length with h | h
    · exact h
    · rw [List.getElem?_eq_none h] at v1; cases v1
  have hs := h.shards.sorted m (List.mem_of_getElem? v1)
  have he : set (lt := lt) it v' = ({ it with ms := it.ms.set i (m.map fun x => if x.1 = k then (k, v') else x), heap := ⟨i, k, v'⟩ :: l }, .success) := by
    unfold ShardIter.set
    rw [hh]
    simp only [shardProcess, v1, v2, v4, if_true]
  rw [he]
  simp only
  have hs' : OrdMap.Sorted lt (m.map fun x => if x.1 = k then (k, v') else x) := by
    unfold OrdMap.Sorted at hs ⊢
    rw [List.pairwise_map]
    refine hs.imp ?_
    intro a b hab
    have e : ∀ x : Bytes × Bytes, (if x.1 = k then (k, v') else x).1 = x.1 := by
      intro x; split
      · rename_i h; exact h.symm
      · rfl
    rw [e, e]; exact hab
  have hsh : Shards lt (it.ms.set i (m.map fun x => if x.1 = k then (k, v') else x)) :=
    h.shards.set v1 hs' (fun a b hab => by
      rcases (mem_assign k v' _).1 hab with ⟨h1, _⟩ | ⟨h1, w, hw⟩
      · exact ⟨b, h1⟩
      · simp only [Prod.mk.injEq] at h1; rw [h1.1]; exact ⟨w, hw⟩)
  have hheap : StdHeap.isHeap (slotLt lt it.asc) (⟨i, k, v'⟩ :: l) = true := by
    have := h.heap.isHeap
    rw [hh] at this
    rw [StdHeap.isHeap_iff] at this ⊢
    intro j a b ha hb
    have hb' : ((⟨i, k, v⟩ :: l : List Slot))[j + 1]? = some b := by simpa using hb
    cases hj : j / 2 with
    | zero =>
      rw [hj] at ha
      simp at ha
      subst ha
      have := this j ⟨i, k, v⟩ b (by rw [hj]; rfl) hb'
      unfold slotLt at this ⊢
      exact this
    | succ n =>
      rw [hj] at ha
      exact this j a b (by rw [hj]; simpa using ha) hb'
  refine ⟨⟨P, h.ok, hsh, by simpa using h.len, ⟨hheap, ?_, ?_⟩, h.mono, ?_⟩, trivial, trivial, rfl, ?_⟩
  · have := h.heap.nodup; rw [hh] at this; exact this
  · intro s
    have hold := h.heap.slots s
    rw [hh] at hold
    have hnd := h.heap.nodup
    rw [hh, List.map_cons, List.nodup_cons] at hnd
    simp only [not_false_eq_true, true_and] at hold ⊢
    by_cases e : s.idx = i
    · have hnew : Valid (it.ms.set i (m.map fun x => if x.1 = k then (k, v') else x)) it.pos ⟨i, k, v'⟩ :=
        ⟨_, List.getElem?_set_self hlt, v2, (mem_assign k v' _).2 (.inr ⟨rfl, v, v3⟩)⟩
      constructor
      · intro hs
        rcases List.mem_cons.1 hs with rfl | hs
        · exact hnew
        · exact absurd (List.mem_map.2 ⟨s, hs, e⟩) hnd.1
      · intro hv
        rw [hv.eq ho hsh hnew e]
        exact List.mem_cons_self
    · rw [Valid.other (ms := it.ms) (pos := it.pos) (fun j hj => List.getElem?_set_ne (Ne.symm hj)) (fun _ _ => rfl) e, ← hold]
      simp only [List.mem_cons]
      constructor
      · rintro (rfl | hs)
        · exact absurd rfl e
        · exact .inr hs
      · rintro (rfl | hs)
        · exact absurd rfl e
        · exact .inr hs
  · intro j u hu
    simp only at hu ⊢
    by_cases hj : i = j
    · subst hj
      rw [List.getElem?_set_self hlt] at hu
      cases hu
      rw [seekPos_assign]
      exact h.at_ i m v1
    · rw [List.getElem?_set_ne hj] at hu
      exact h.at_ j u hu
  · intro r
    rw [mem_recs, mem_recs]
    simp only
    constructor
    · rintro ⟨j, u, hj, hr⟩
      by_cases hji : i = j
      · subst hji
        rw [List.getElem?_set_self hlt] at hj
        cases hj
        rcases (mem_assign k v' r).1 hr with ⟨h1, h2⟩ | ⟨h1, _⟩
        · exact .inl ⟨⟨i, m, v1, h1⟩, h2⟩
        · exact .inr h1
      · rw [List.getElem?_set_ne hji] at hj
        refine .inl ⟨⟨j, u, hj, hr⟩, ?_⟩
        rintro rfl
        obtain ⟨rk, rv⟩ := r
        exact hji (h.shards.apart _ _ _ _ v1 hj _ _ _ v3 hr)
    · rintro (⟨⟨j, u, hj, hr⟩, hne⟩ | rfl)
      · by_cases hji : i = j
        · subst hji
          rw [v1] at hj; cases hj
          exact ⟨i, _, List.getElem?_set_self hlt, (mem_assign k v' r).2 (.inl ⟨hr, hne⟩)⟩
        · exact ⟨j, u, by rw [List.getElem?_set_ne hji]; exact hj, hr⟩
      · exact ⟨i, _, List.getElem?_set_self hlt, (mem_assign k v' _).2 (.inr ⟨rfl, v, v3⟩)⟩

/-- C30: without a record, `Set`, `Remove` and `Process` say NOT_FOUND and change nothing. -/
theorem C30_none (S : (asc : Bool) → StdHeap.Fns (slotLt lt asc)) {it : State} (hg : get it = none) (v : Bytes) {τ : Type} (w : Bool) (p : Bytes → Bytes → Action × τ) :
    set (lt := lt) it v = (it, .notFound) ∧ remove S it = (it, .notFound) ∧ process S it w p = (it, .notFound, none) := by
  have hh : it.heap = [] := by
    unfold get at hg
    cases hh : it.heap with
    | nil => rfl
    | cons f l => rw [hh] at hg; cases hg
  unfold set remove process
  rw [hh]
  exact ⟨rfl, rfl, rfl⟩

/-! ### What does not hold -/

/-- C30 does not hold for `Remove` in the descending direction (after `Last`, `JumpLower` or `Previous`): whenever another
shard still has a record to show, `std::pop_heap` is called with the ascending comparator on a range that is a heap for the
descending one, which is not a heap for it; the behaviour is undefined. -/
theorem C30_remove_backward_violated (ho : KeyOrder lt) (S : (asc : Bool) → StdHeap.Fns (slotLt lt asc)) {it : State} (h : Ok lt it) (hasc : it.asc = false)
    (hlen : 2 ≤ it.heap.length) : (remove S it).1.bad = true := by
  obtain ⟨P, h⟩ := h
  cases hh : it.heap with
  | nil => rw [hh] at hlen; simp at hlen
  | cons f l =>
    cases l with
    | nil => rw [hh] at hlen; simp at hlen
    | cons g l =>
      obtain ⟨m, v1, v2, v3, v4⟩ := h.front ho hh
      have hfront := StdHeap.front (slotLt_weak ho it.asc) (hh ▸ h.heap.isHeap) g (by simp)
      rw [hasc] at hfront
      have hne : g.key ≠ f.key := by
        intro e
        obtain ⟨_, m', w1, w2, w3⟩ := (h.heap.slots g).1 (by rw [hh]; simp)
        rw [e] at w3
        have := h.shards.apart _ _ _ _ v1 w1 _ _ _ v3 w3
        have hnd := h.heap.nodup
        rw [hh] at hnd
        simp [this] at hnd
      have hlt : lt g.key f.key = true := by
        cases hc : lt g.key f.key with
        | true => rfl
        | false => exact absurd (ho.eq _ _ hc hfront) hne
      have hnot : StdHeap.isHeap (slotLt lt true) it.heap = false := by
        cases hc : StdHeap.isHeap (slotLt lt true) it.heap with
        | false => rfl
        | true =>
          rw [StdHeap.isHeap_iff, hh] at hc
          have := hc 0 f g rfl rfl
          unfold slotLt at this
          simp only [if_true] at this
          rw [hlt] at this; cases this
      have hreload : ∀ (i : Nat) (x : State), x.bad = true → (reload S true i x).bad = true := by
        intro i x hx
        unfold reload
        split
        · simp [pushSlot, hx]
        · exact hx
      unfold remove
      rw [hh]
      simp only [shardProcess, v1, v2, v4, if_true]
      unfold afterRemove popSlot
      simp only [hnot]
      split
      · rfl
      · rename_i s x he
        split at he
        · simp only [Option.some.injEq, Prod.mk.injEq] at he
          obtain ⟨rfl, rfl⟩ := he
          exact hreload _ _ (by simp)
        · cases he

/-- C30 does not hold for `Process` with a processor that sets a value: the record is changed, but `Get` goes on showing the
old value. -/
theorem C30_process_set_violated (ho : KeyOrder lt) (S : (asc : Bool) → StdHeap.Fns (slotLt lt asc)) {it : State} (h : Ok lt it)
    {k v v' : Bytes} (hg : get it = some (k, v)) {τ : Type} (p : Bytes → Bytes → Action × τ) (hp : (p k v).1 = .set v') :
    get (process S it true p).1 = some (k, v) ∧ (k, v') ∈ recs (process S it true p).1 := by
  obtain ⟨P, h⟩ := h
  obtain ⟨i, l, hh⟩ := get_cons hg
  obtain ⟨m, v1, v2, v3, v4⟩ := h.front ho hh
  simp only at v1 v2 v3 v4
  have hpair : p k v = (.set v', (p k v).2) := by rw [← hp]
  have hlt : i < it.ms.length := by
    rcases Nat.lt_or_ge i it.ms.length with h | h
    · exact h
    · rw [List.getElem?_eq_none h] at v1; cases v1
  have he : process S it true p = ({ it with ms := it.ms.set i (m.map fun x => if x.1 = k then (k, v') else x) }, .success, some (p k v).2) := by
    unfold process
    rw [hh]
    simp only [shardProcess, v1, v2, v4]
    rw [hpair]
    simp [hh]
  rw [he]
  refine ⟨hg, ?_⟩
  rw [mem_recs]
  exact ⟨i, _, List.getElem?_set_self hlt, (mem_assign k v' _).2 (.inr ⟨rfl, v, v3⟩)⟩

/-! ### Examples -/

theorem bytesLt_order : KeyOrder bytesLt := ⟨bytesLt_weak, fun a b h1 h2 => (bytesLt_eqv a b).1 (by simp [eqv, h1, h2])⟩

/-- Heap functions for the examples. -/
def sampleHeap (asc : Bool) : StdHeap.Fns (slotLt bytesLt asc) := StdHeap.bySorting (slotLt_weak bytesLt_order asc)

def sampleShards : List Recs := [[([1], [10]), ([4], [40])], [], [([2], [20]), ([3], [30]), ([5], [50])]]

theorem sampleShards_ok : Shards bytesLt sampleShards := by
  refine ⟨?_, ?_⟩
  · intro m hm
    simp only [sampleShards, List.mem_cons, List.not_mem_nil, or_false] at hm
    unfold OrdMap.Sorted
    rcases hm with rfl | rfl | rfl <;> decide
  · have key : ∀ i ∈ List.range 3, ∀ j ∈ List.range 3, ∀ m ∈ sampleShards[i]?, ∀ m' ∈ sampleShards[j]?, ∀ r ∈ m, ∀ r' ∈ m', r.1 = r'.1 → i = j := by
      decide
    intro i j m m' hi hj k v v' hv hv'
    have hil : i < 3 := (List.getElem?_eq_some_iff.1 hi).1
    have hjl : j < 3 := (List.getElem?_eq_some_iff.1 hj).1
    exact key i (List.mem_range.2 hil) j (List.mem_range.2 hjl) m hi m' hj _ hv _ hv' rfl

example : Ok bytesLt (make sampleShards) := (C30_make sampleShards_ok).1
example : walk (next sampleHeap) 5 (first sampleHeap (make sampleShards)) = [([1], [10]), ([2], [20]), ([3], [30]), ([4], [40]), ([5], [50])] := by
  decide +kernel
example : get (next sampleHeap (last sampleHeap (make sampleShards))).1 = none ∧
    get (next sampleHeap (previous sampleHeap (last sampleHeap (make sampleShards))).1).1 = some ([5], [50]) := by decide +kernel
example : get (remove sampleHeap (jump sampleHeap (make sampleShards) [3])).1 = some ([4], [40]) := by decide +kernel
example : (last sampleHeap (make sampleShards)).heap.length = 2 ∧ (last sampleHeap (make sampleShards)).asc = false := by decide +kernel

end Verif.ShardIter
