import Verif.Cache.Model
import Verif.Containers.LinkedProps
/-
A partition of CacheDBM refines a list of records in the order of use.
-/
namespace Verif.Cache
open Verif.Linked (Map Node Same WF view)

/-! ### SPECIFICATION of a partition: the records, the least recently used first -/

namespace Spec

/-- The total size of the keys and the values. -/
def dataSize (l : List (Bytes × Bytes)) : Int := (l.map (fun e => (e.1.length + e.2.length : Int))).sum

/-- The memory charged to a partition: the buckets, 34 bytes for each record, and the data. -/
def usage (capRec : Int) (l : List (Bytes × Bytes)) : Int := bucketNum capRec * 8 + l.length * 34 + dataSize l

/-- Whether a partition exceeds its limits. -/
def Over (capRec capMem : Int) (l : List (Bytes × Bytes)) : Prop := (l.length : Int) > capRec ∨ usage capRec l > capMem

instance (a b : Int) (l : List (Bytes × Bytes)) : Decidable (Over a b l) := inferInstanceAs (Decidable (_ ∨ _))

/-- The value of a key. -/
def get (l : List (Bytes × Bytes)) (k : Bytes) : Option Bytes := (l.find? (fun e => e.1 = k)).map (·.2)

/-- The list without a key. -/
def without (l : List (Bytes × Bytes)) (k : Bytes) : List (Bytes × Bytes) := l.filter (fun e => e.1 ≠ k)

/-- A call of a processor for a key: a record that is there becomes the most recently used, even if it is only read; a new record is the
most recently used, and the least recently used one goes if the limits are exceeded. -/
def step (capRec capMem : Int) (l : List (Bytes × Bytes)) (k : Bytes) (w : Bool) (a : Option Bytes → Action) : List (Bytes × Bytes) :=
  match get l k with
  | some v =>
    match (if w then a (some v) else .noop) with
    | .noop => without l k ++ [(k, v)]
    | .remove => without l k
    | .set v' => without l k ++ [(k, v')]
  | none =>
    match (if w then a none else .noop) with
    | .set v' => if Over capRec capMem (l ++ [(k, v')]) then (l ++ [(k, v')]).tail else l ++ [(k, v')]
    | _ => l

/-- What the update logger is told. -/
def logOf (l : List (Bytes × Bytes)) (k : Bytes) (w : Bool) (a : Option Bytes → Action) : List LogOp :=
  match (if w then a (get l k) else .noop) with
  | .noop => []
  | .remove => if (get l k).isSome then [.remove k] else []
  | .set v => [.set k v]

/-- `Rebuild` keeps the records from the least recently used on, as long as the limits are not reached. -/
def keep (capRec capMem : Int) (done : List (Bytes × Bytes)) : List (Bytes × Bytes) → List (Bytes × Bytes)
  | [] => done
  | e :: rest => if (done.length : Int) < capRec ∧ usage capRec done < capMem then keep capRec capMem (done ++ [e]) rest else done

end Spec

/-! ### The lookup does not depend on the list -/

theorem search_same {m m' : Map Bytes Bytes} (h : Same m m') (k : Bytes) : ∀ (fuel : Nat) (s : Linked.Slot),
    Linked.search m' k fuel s = Linked.search m k fuel s := by
  intro fuel
  induction fuel with
  | zero => intro s; rfl
  | succ fuel ih =>
    intro s
    have hload : m'.load s = m.load s := by
      cases s with
      | bucket i => simp [Map.load, h.buckets]
      | child p =>
        simp only [Map.load]
        have := h.data p
        cases e1 : m.mem p <;> cases e2 : m'.mem p <;> rw [e1, e2] at this <;> simp at this ⊢
        exact this.2.2
    simp only [Linked.search, hload]
    split
    · rfl
    · rfl
    · rename_i p _
      have := h.data p
      cases e1 : m.mem p <;> cases e2 : m'.mem p <;> rw [e1, e2] at this <;> simp at this ⊢
      rw [this.1, ih]

theorem find_same {m m' : Map Bytes Bytes} (hash : Bytes → Nat) (h : Same m m') (k : Bytes) : m'.find hash k = m.find hash k := by
  simp only [Map.find, Map.bucket, h.num, h.nb]
  exact search_same h k _ _

theorem searchPtr_of_search {m : Map Bytes Bytes} {k : Bytes} {p : Nat} (hk : ∀ q n, m.mem q = some n → (n.key = k ↔ q = p)) :
    ∀ (fuel : Nat) (s sl : Linked.Slot) (q : Nat), Linked.search m k fuel s = some (sl, some q) → searchPtr m p fuel s = some (some sl) := by
  intro fuel
  induction fuel with
  | zero => intro s sl q h; cases h
  | succ fuel ih =>
    intro s sl q h
    simp only [Linked.search] at h
    simp only [searchPtr]
    split at h
    · cases h
    · simp only [Option.some.injEq, Prod.mk.injEq] at h
      exact absurd h.2 (by simp)
    · rename_i r hr
      simp only [hr]
      split at h
      · cases h
      · rename_i n hn
        split at h
        · rename_i hkk
          rw [if_pos ((hk r n hn).1 hkk)]
          simp only [Option.some.injEq, Prod.mk.injEq] at h
          rw [h.1]
        · rename_i hkk
          rw [if_neg (fun e => hkk ((hk r n hn).2 e))]
          exact ih _ _ _ h

/-! ### Both ends of the list -/

theorem last_fields {m : Map Bytes Bytes} {a : List Nat} {p : Nat} {n : Node Bytes Bytes} (h : Linked.Links m (a ++ [p])) (hn : m.mem p = some n) :
    n.next = none ∧ n.prev = a.getLast? ∧ m.first = (if a = [] then some p else a.head?) ∧ m.last = some p := by
  have hs := h.seg
  rw [Linked.seg_append] at hs
  obtain ⟨_, ⟨n', h1, h2, h3⟩, _⟩ := hs
  rw [hn] at h1; injection h1 with h1; subst h1
  refine ⟨by simpa using h3, by simpa using h2, ?_, by simpa using h.last⟩
  rw [h.first]
  cases a <;> simp

theorem unlinkLast_eq {m : Map Bytes Bytes} {a : List Nat} {p : Nat} {n : Node Bytes Bytes} (h : Linked.Links m (a ++ [p])) (hn : m.mem p = some n) :
    unlinkLast m n = Linked.unlink m p := by
  obtain ⟨h1, h2, h3, h4⟩ := last_fields h hn
  unfold unlinkLast Linked.unlink
  rw [hn]
  simp only [h1]
  rcases List.eq_nil_or_concat a with rfl | ⟨a', q, rfl⟩
  · have : n.prev = none := by rw [h2]; rfl
    simp only [this, Map.modifyOpt]
    simp only [Option.bind_eq_bind, Option.bind_some]
    rw [h3]
    simp [h4]
  · rw [List.concat_eq_append] at *
    have hq : n.prev = some q := by rw [h2]; simp
    simp only [hq, Map.modifyOpt]
    have hne : m.first ≠ some p := by
      rw [h.first]
      have := h.nodup
      rw [List.nodup_append] at this
      intro e
      have hm : p ∈ a' ++ [q] := by
        cases a' with
        | nil => simp only [List.nil_append, List.cons_append, List.head?_cons, Option.some.injEq] at e; simp [e]
        | cons x a' => simp only [List.cons_append, List.head?_cons, Option.some.injEq] at e; simp [e]
      exact this.2.2 p hm p (by simp) rfl
    cases hmod : m.modify q (fun x => { x with next := none }) with
    | none => rfl
    | some m1 =>
      have hf1 : m1.first = m.first ∧ m1.last = m.last := by
        unfold Map.modify at hmod
        split at hmod
        · cases hmod
        · simp only [Option.some.injEq] at hmod; subst hmod; exact ⟨rfl, rfl⟩
      simp only [Option.bind_eq_bind, Option.bind_some, Option.map_some]
      have e1 : ¬ m1.first = some p := by rw [hf1.1]; exact hne
      have e2 : m1.last = some p := by rw [hf1.2]; exact h4
      simp [e1, e2]

theorem unlinkFirst_eq {m : Map Bytes Bytes} {a : List Nat} {p : Nat} {n : Node Bytes Bytes} (h : Linked.Links m (p :: a)) (hn : m.mem p = some n) :
    unlinkFirst m p n = Linked.unlink m p := by
  obtain ⟨⟨n', h1, h2, h3⟩, h4⟩ := h.seg
  rw [hn] at h1; injection h1 with h1; subst h1
  have hf : m.first = some p := by rw [h.first]; rfl
  unfold unlinkFirst Linked.unlink
  rw [hn]
  simp only [h2, Map.modifyOpt, Option.bind_eq_bind, Option.bind_some]
  cases hx : n.next with
  | none => simp [hf]
  | some q =>
    simp only
    cases hmod : m.modify q (fun x => { x with prev := none }) with
    | none => rfl
    | some m1 =>
      have hf1 : m1.first = m.first ∧ m1.last = m.last := by
        unfold Map.modify at hmod
        split at hmod
        · cases hmod
        · simp only [Option.some.injEq] at hmod; subst hmod; exact ⟨rfl, rfl⟩
      have e1 : m1.first = some p := by rw [hf1.1]; exact hf
      simp [e1]

/-! ### The partition refines the list -/

/-- The partition stands for the list. -/
structure SlotOk (E : Env) (s : Slot) (l : List (Bytes × Bytes)) : Prop where
  map : ∃ order, WF E.inner s.map order ∧ view s.map order = l
  eff : s.eff = Spec.dataSize l
  nb : s.map.nb = bucketNum s.capRec

theorem SlotOk.num {E : Env} {s : Slot} {l : List (Bytes × Bytes)} (h : SlotOk E s l) : s.map.num = l.length := by
  obtain ⟨o, h1, rfl⟩ := h.map
  exact (Linked.view_length E.inner h1).symm

theorem SlotOk.nodup {E : Env} {s : Slot} {l : List (Bytes × Bytes)} (h : SlotOk E s l) : (l.map (·.1)).Nodup := by
  obtain ⟨o, h1, rfl⟩ := h.map
  exact Linked.view_nodup E.inner h1

theorem SlotOk.usage {E : Env} {s : Slot} {l : List (Bytes × Bytes)} (h : SlotOk E s l) : s.memUsage = Spec.usage s.capRec l := by
  unfold Slot.memUsage Spec.usage
  rw [h.nb, h.num, h.eff]
  simp

theorem get_eq (l : List (Bytes × Bytes)) (k : Bytes) : Spec.get l k = Linked.Spec.lookup l k := rfl
theorem without_eq (l : List (Bytes × Bytes)) (k : Bytes) : Spec.without l k = Linked.Spec.without l k := rfl

theorem dataSize_append (a b : List (Bytes × Bytes)) : Spec.dataSize (a ++ b) = Spec.dataSize a + Spec.dataSize b := by
  simp [Spec.dataSize]

theorem dataSize_cons (e : Bytes × Bytes) (b : List (Bytes × Bytes)) : Spec.dataSize (e :: b) = (e.1.length + e.2.length) + Spec.dataSize b := by
  simp [Spec.dataSize]

/-- The list around a key. -/
theorem split_key {l : List (Bytes × Bytes)} (hn : (l.map (·.1)).Nodup) {k v : Bytes} (h : Spec.get l k = some v) :
    ∃ a b, l = a ++ (k, v) :: b ∧ Spec.without l k = a ++ b ∧ Linked.Absent a k ∧ Linked.Absent b k := by
  unfold Spec.get at h
  cases hf : l.find? (fun e => decide (e.1 = k)) with
  | none => rw [hf] at h; cases h
  | some e =>
    rw [hf] at h
    simp only [Option.map_some, Option.some.injEq] at h
    have hm := List.mem_of_find?_eq_some hf
    have hk : e.1 = k := by simpa using List.find?_some hf
    obtain ⟨a, b, rfl⟩ := List.append_of_mem hm
    rw [List.map_append, List.map_cons, List.nodup_append, List.nodup_cons] at hn
    have ha : Linked.Absent a k := fun x hx e' => hn.2.2 x.1 (List.mem_map_of_mem hx) e.1 (by simp) (by rw [e', hk])
    have hb : Linked.Absent b k := fun x hx e' => hn.2.1.1 (by rw [hk, ← e']; exact List.mem_map_of_mem hx)
    have he : e = (k, v) := Prod.ext hk h
    subst he
    exact ⟨a, b, rfl, Linked.without_split ha hb, ha, hb⟩

theorem dataSize_without {l : List (Bytes × Bytes)} (hn : (l.map (·.1)).Nodup) {k v : Bytes} (h : Spec.get l k = some v) :
    Spec.dataSize (Spec.without l k) = Spec.dataSize l - (k.length + v.length) := by
  obtain ⟨a, b, rfl, e, _⟩ := split_key hn h
  rw [e, dataSize_append, dataSize_append, dataSize_cons]; simp; omega

theorem takeOut_eq {E : Env} {m : Map Bytes Bytes} {k : Bytes} {sl : Linked.Slot} {p : Nat} {n : Node Bytes Bytes} (hf : m.find E.inner k = some (sl, some p))
    (hn : m.mem p = some n) : Linked.takeOut E.inner m k = (do
      let m ← Linked.unlink m p
      let m ← m.store sl n.child
      some (some n, { m.write p none with num := m.num - 1 })) := by
  unfold Linked.takeOut
  rw [hf]
  simp [hn]

/-- Removal of a record. -/
theorem drop_spec {E : Env} {s : Slot} {l : List (Bytes × Bytes)} (h : SlotOk E s l) {order : List Nat} (hw : WF E.inner s.map order)
    (hv : view s.map order = l) {k v : Bytes} {sl : Linked.Slot} {p : Nat}
    {n : Node Bytes Bytes} (hf : s.map.find E.inner k = some (sl, some p)) (hn : s.map.mem p = some n) (hg : Spec.get l k = some v) (hkv : n.key = k ∧ n.value = v)
    (u : Map Bytes Bytes → Option (Map Bytes Bytes)) (hu : u s.map = Linked.unlink s.map p) :
    ∃ s', (do
      let m ← u s.map
      let m ← m.store sl n.child
      some { s with map := { m.write p none with num := m.num - 1 }, eff := s.eff - (n.key.length + n.value.length) } : Option Slot) = some s' ∧
      SlotOk E s' (Spec.without l k) ∧ s'.capRec = s.capRec ∧ s'.capMem = s.capMem := by
  obtain ⟨r, m', o', g1, g2, g3, g4, g5, g6⟩ := Linked.takeOut_spec E.inner hw k
  rw [takeOut_eq hf hn] at g1
  rw [hu]
  cases h1 : Linked.unlink s.map p with
  | none => rw [h1] at g1; cases g1
  | some m1 =>
    rw [h1] at g1
    simp only [Option.bind_eq_bind, Option.bind_some] at g1 ⊢
    cases h2 : m1.store sl n.child with
    | none => rw [h2] at g1; cases g1
    | some m2 =>
      rw [h2] at g1
      simp only [Option.bind_some, Option.some.injEq, Prod.mk.injEq] at g1 ⊢
      refine ⟨_, rfl, ⟨⟨o', ?_, ?_⟩, ?_, ?_⟩, rfl, rfl⟩
      · show WF E.inner _ o'; rw [g1.2]; exact g2
      · show view _ o' = _; rw [g1.2, g6, hv]; rfl
      · rw [dataSize_without h.nodup hg, h.eff, hkv.1, hkv.2]
      · show Map.nb _ = _; rw [g1.2, g3, h.nb]

/-- `RemoveLRU`. -/
theorem removeLRU_spec {E : Env} {s : Slot} {e : Bytes × Bytes} {l : List (Bytes × Bytes)} (h : SlotOk E s (e :: l)) :
    ∃ s', removeLRU E s = some s' ∧ SlotOk E s' l ∧ s'.capRec = s.capRec ∧ s'.capMem = s.capMem := by
  obtain ⟨order, hw, hv⟩ := h.map
  cases order with
  | nil => simp [view] at hv
  | cons p order =>
    obtain ⟨n, hn⟩ := hw.get E.inner (p := p) (by simp)
    rw [Linked.view_cons _ hn] at hv
    have he : e = (n.key, n.value) := by injection hv with h1 _; exact h1.symm
    have hk : ∀ q x, s.map.mem q = some x → (x.key = n.key ↔ q = p) := by
      intro q x hx
      constructor
      · intro hxk
        exact hw.uniq q p x n ((hw.live q).2 ⟨x, hx⟩) (by simp) hx hn hxk
      · rintro rfl; rw [hn] at hx; injection hx with hx; rw [hx]
    obtain ⟨c, pre, r, e1, _, _, _, e5⟩ := Linked.find_spec E.inner hw n.key
    cases r with
    | none => exact absurd rfl (e5.2 p (by simp) n hn)
    | some q =>
      obtain ⟨hq, _, nq, hnq, hnk⟩ := e5
      have hqp : q = p := (hk q nq hnq).1 hnk
      subst hqp
      have hs := searchPtr_of_search hk _ _ _ _ e1
      have hg : Spec.get (e :: l) n.key = some n.value := by
        rw [he]; simp [Spec.get]
      obtain ⟨s', f1, f2, f3, f4⟩ := drop_spec h hw (by rw [Linked.view_cons _ hn]; exact hv) e1 hn hg ⟨rfl, rfl⟩ (fun m => unlinkFirst m q n)
        (unlinkFirst_eq hw.links hn)
      refine ⟨s', ?_, ?_, f3, f4⟩
      · unfold removeLRU
        have : s.map.first = some q := by rw [hw.links.first]; rfl
        simp only [this, hn, Option.bind_eq_bind, Option.bind_some]
        rw [hs]
        exact f1
      · have : Spec.without (e :: l) n.key = l := by
          have hnd := h.nodup
          rw [List.map_cons, List.nodup_cons] at hnd
          rw [without_eq, he]
          have := Linked.without_split (A := []) (B := l) (k := n.key) (v := n.value) (by intro x hx; cases hx)
            (fun x hx ex => hnd.1 (by rw [he]; simp only; rw [← ex]; exact List.mem_map_of_mem hx))
          simpa using this
        rwa [this] at f2

/-- A new record. -/
theorem insertNew_spec {E : Env} {s : Slot} {l : List (Bytes × Bytes)} (h : SlotOk E s l) {k v : Bytes} (hk : Spec.get l k = none) (hf : recFits k v) :
    ∃ s', insertNew E s k v = some s' ∧ SlotOk E s' (if Spec.Over s.capRec s.capMem (l ++ [(k, v)]) then (l ++ [(k, v)]).tail else l ++ [(k, v)]) ∧
      s'.capRec = s.capRec ∧ s'.capMem = s.capMem := by
  obtain ⟨order, hw, hv⟩ := h.map
  obtain ⟨m', o', g1, g2, g3, g4⟩ := Linked.create_spec E.inner hw k v .last (by
    intro p hp n hn e
    subst hv
    have : (n.key, n.value) ∈ view s.map order := by
      unfold view; rw [List.mem_filterMap]; exact ⟨p, hp, by rw [hn]; rfl⟩
    unfold Spec.get at hk
    rw [Option.map_eq_none_iff, List.find?_eq_none] at hk
    exact hk _ this (by simp [e]))
  unfold insertNew
  rw [if_neg (by simp [hf]), g1]
  simp only [Option.bind_eq_bind, Option.bind_some]
  generalize hs2 : ({ s with map := m', eff := s.eff + (k.length + v.length) } : Slot) = s2
  have c2 : s2.capRec = s.capRec ∧ s2.capMem = s.capMem := by rw [← hs2]; exact ⟨rfl, rfl⟩
  have ok2 : SlotOk E s2 (l ++ [(k, v)]) := by
    rw [← hs2]
    refine ⟨⟨o', g2, by rw [g4, hv]; rfl⟩, ?_, by show m'.nb = _; rw [g3, h.nb]⟩
    rw [dataSize_append, dataSize_cons, h.eff]; simp [Spec.dataSize]
  unfold evict
  by_cases hover : Spec.Over s.capRec s.capMem (l ++ [(k, v)])
  · rw [if_pos hover, if_pos (by rw [ok2.usage, c2.1, c2.2, ok2.num]; exact hover)]
    obtain ⟨e, t, het⟩ : ∃ e t, l ++ [(k, v)] = e :: t := by cases l <;> simp
    rw [het] at ok2 ⊢
    obtain ⟨s3, f1, f2, f3, f4⟩ := removeLRU_spec ok2
    exact ⟨s3, f1, f2, by rw [f3, c2.1], by rw [f4, c2.2]⟩
  · rw [if_neg hover, if_neg (by rw [ok2.usage, c2.1, c2.2, ok2.num]; exact hover)]
    exact ⟨s2, rfl, ok2, c2.1, c2.2⟩

/-- The record moved to the end, with its place in the list. -/
theorem move_last {E : Env} {m : Map Bytes Bytes} {order : List Nat} (h : WF E.inner m order) {p : Nat} {n : Node Bytes Bytes} (hp : p ∈ order) (hn : m.mem p = some n) :
    ∃ m' a n', Linked.move m p .last = some m' ∧ WF E.inner m' (a ++ [p]) ∧ Same m m' ∧ m'.mem p = some n' ∧ n'.key = n.key ∧ n'.value = n.value ∧
      view m' (a ++ [p]) = Spec.without (view m order) n.key ++ [(n.key, n.value)] := by
  obtain ⟨m', o', g1, g2, g3, g4⟩ := Linked.move_spec E.inner h hp hn .last
  have hl : m'.last = some p := by
    have := g1
    unfold Linked.move at this
    by_cases hh : m.last = some p
    · rw [if_pos hh] at this; injection this with this; rw [← this]; exact hh
    · rw [if_neg hh] at this
      cases h1 : Linked.unlink m p with
      | none => rw [h1] at this; cases this
      | some m1 =>
        rw [h1] at this
        simp only [Option.bind_some, Linked.linkLast] at this
        cases h2 : m1.modify p (fun q => { q with prev := m1.last, next := none }) with
        | none => rw [h2] at this; cases this
        | some m2 =>
          rw [h2] at this
          simp only [Option.bind_eq_bind, Option.bind_some] at this
          generalize Map.modifyOpt _ _ _ = o at this
          cases o with
          | none => cases this
          | some m3 => simp only [Option.bind_some, Option.some.injEq] at this; rw [← this]
  obtain ⟨n', e1, e2, e3, _⟩ := g3.fwd hn
  rw [g2.links.last] at hl
  rcases List.eq_nil_or_concat o' with rfl | ⟨a, q, rfl⟩
  · cases hl
  · rw [List.concat_eq_append] at *
    simp only [List.getLast?_append, List.getLast?_singleton, Option.some_or, Option.some.injEq] at hl
    subst hl
    exact ⟨m', a, n', g1, g2, g3, e1, e2, e3, g4⟩

theorem view_setValue {m : Map Bytes Bytes} {order : List Nat} {p : Nat} {n : Node Bytes Bytes} (hn : m.mem p = some n) (v : Bytes) (a : List Nat) (ha : p ∉ a)
    (ho : order = a ++ [p]) : view (m.write p (some { n with value := v })) order = view m a ++ [(n.key, v)] := by
  subst ho
  rw [Linked.view_append]
  congr 1
  · exact Linked.view_frame (fun q hq => by rw [Linked.write_mem_ne _ _ (fun e => ha (by rw [← e]; exact hq))])
  · rw [Linked.view_cons _ (Linked.write_mem_same _ _ _)]; rfl

/-- The part of the record in the list that stays. -/
theorem touched {l : List (Bytes × Bytes)} (hn : (l.map (·.1)).Nodup) {k v : Bytes} (h : Spec.get l k = some v) :
    Spec.get (Spec.without l k ++ [(k, v)]) k = some v ∧ Spec.without (Spec.without l k ++ [(k, v)]) k = Spec.without l k := by
  obtain ⟨a, b, rfl, e, ha, hb⟩ := split_key hn h
  rw [e]
  have hab : Linked.Absent (a ++ b) k := fun x hx => by
    rcases List.mem_append.1 hx with h | h
    · exact ha x h
    · exact hb x h
  exact ⟨Linked.lookup_split hab, by rw [without_eq, Linked.without_split hab (by intro x hx; cases hx), List.append_nil]⟩

theorem dataSize_touch {l : List (Bytes × Bytes)} (hn : (l.map (·.1)).Nodup) {k v : Bytes} (h : Spec.get l k = some v) (v' : Bytes) :
    Spec.dataSize (Spec.without l k ++ [(k, v')]) = Spec.dataSize l + (v'.length - v.length) := by
  rw [dataSize_append, dataSize_without hn h, dataSize_cons]; simp [Spec.dataSize]; omega

/-- `CacheSlot::ProcessImpl` refines the specification. -/
theorem process_spec {E : Env} {s : Slot} {l : List (Bytes × Bytes)} (h : SlotOk E s l) {τ : Type} (k : Bytes) (w : Bool) (p : ProcR τ)
    (hf : w = true → ActFits recFits k (p (Spec.get l k)).1) :
    ∃ s', s.process E k w p = some (s', Spec.logOf l k w (fun o => (p o).1), (p (Spec.get l k)).2) ∧
      SlotOk E s' (Spec.step s.capRec s.capMem l k w (fun o => (p o).1)) ∧ s'.capRec = s.capRec ∧ s'.capMem = s.capMem := by
  obtain ⟨order, hw, hv⟩ := h.map
  obtain ⟨c, pre, r, e1, e2, e3, e4, e5⟩ := Linked.find_spec E.inner hw k
  unfold Slot.process
  rw [e1]
  simp only [Option.bind_eq_bind, Option.bind_some]
  cases r with
  | none =>
    have hg : Spec.get l k = none := by rw [← hv]; exact Linked.absent_lookup (Linked.absent_of e5.2)
    unfold Spec.step Spec.logOf
    rw [hg] at hf ⊢
    cases w with
    | false => exact ⟨s, rfl, h, rfl, rfl⟩
    | true =>
      simp only [if_true]
      cases ha : (p none).1 with
      | noop => exact ⟨s, rfl, h, rfl, rfl⟩
      | remove => exact ⟨s, rfl, h, rfl, rfl⟩
      | set v =>
        have hfit := hf rfl
        rw [ha] at hfit
        obtain ⟨s', g1, g2, g3, g4⟩ := insertNew_spec h hg hfit
        exact ⟨s', by simp only [g1, Option.map_some], g2, g3, g4⟩
  | some ptr =>
    obtain ⟨hp, ⟨post, hc⟩, n0, hn0, hk0⟩ := e5
    have hg : Spec.get l k = some n0.value := by
      obtain ⟨a, b, _, _, _, hvv, haa, hbb⟩ := Linked.split_at E.inner hw hp hn0
      rw [← hv, hvv, ← hk0]; exact Linked.lookup_split haa
    obtain ⟨m, a, n, g1, g2, g3, g4, g5, g6, g7⟩ := move_last hw hp hn0
    have hnk : n.key = k := by rw [g5, hk0]
    have hnv : n.value = n0.value := g6
    have hl2 : view m (a ++ [ptr]) = Spec.without l k ++ [(k, n0.value)] := by rw [g7, hv, hk0]
    have hva : view m a = Spec.without l k := by
      rw [Linked.view_append, Linked.view_cons m g4] at hl2
      exact (List.append_inj' hl2 rfl).1
    have hnd := h.nodup
    have ok2 : SlotOk E { s with map := m } (Spec.without l k ++ [(k, n0.value)]) := by
      refine ⟨⟨_, g2, hl2⟩, ?_, by show m.nb = _; rw [g3.nb, h.nb]⟩
      rw [dataSize_touch hnd hg, ← h.eff]; simp
    have hfind2 : m.find E.inner k = some (Linked.endSlot (.bucket (s.map.bucket E.inner k)) pre, some ptr) := by rw [find_same _ g3, e1]
    have hpa : ptr ∉ a := by
      have := g2.links.nodup
      rw [List.nodup_append] at this
      exact fun hm => this.2.2 ptr hm ptr (by simp) rfl
    simp only [g1, g4, Option.bind_some, hnv]
    unfold Spec.step Spec.logOf
    rw [hg] at hf ⊢
    cases w with
    | false => exact ⟨_, rfl, ok2, rfl, rfl⟩
    | true =>
      simp only [if_true]
      cases ha : (p (some n0.value)).1 with
      | noop => exact ⟨_, rfl, ok2, rfl, rfl⟩
      | remove =>
        obtain ⟨s', f1, f2, f3, f4⟩ := drop_spec (k := k) (v := n0.value) ok2 g2 hl2 hfind2 g4 (touched hnd hg).1 ⟨hnk, hnv⟩ (fun m => unlinkLast m n)
          (unlinkLast_eq g2.links g4)
        rw [(touched hnd hg).2] at f2
        refine ⟨s', ?_, f2, f3, f4⟩
        have : dropHit { s with map := m } (Linked.endSlot (.bucket (s.map.bucket E.inner k)) pre) ptr n = some s' := f1
        simp only [this, Option.map_some, Option.isSome_some, if_true]
      | set v =>
        have hfit := hf rfl
        rw [ha] at hfit
        simp only
        unfold updateHit
        rw [hnk, if_neg (not_not_intro (show recFits k v from hfit))]
        by_cases hrel : E.relocates ptr k n.value v = true
        · rw [if_pos hrel]
          have hb : m.bucket E.inner n.key = s.map.bucket E.inner k := by simp [Map.bucket, g3.nb, hnk]
          obtain ⟨q, m', o', n', r1, r2, r3, r4, r5, r6, r7, r8⟩ := Linked.replace_spec E.inner g2 (d := ptr) (by simp) g4 v (c := c) (pre := pre) (post := post)
            (by rw [hb, g3.buckets]; exact e2.same g3) e3 (by
              intro q
              rw [e4 q]
              constructor
              · rintro ⟨_, x, x2, x3⟩
                obtain ⟨y, y1, y2, _⟩ := g3.fwd x2
                exact ⟨(g2.live q).2 ⟨y, y1⟩, y, y1, by rw [g3.nb, y2, x3, hb]⟩
              · rintro ⟨_, x, x2, x3⟩
                obtain ⟨y, y1, y2, _⟩ := g3.back x2
                exact ⟨(hw.live q).2 ⟨y, y1⟩, y, y1, by rw [y2, ← hb, ← x3, g3.nb]⟩) hc
          rw [hb, hnk] at r1
          refine ⟨{ s with map := m', eff := s.eff + (v.length - n.value.length) }, by simp only [r1, Option.map_some], ⟨⟨o', r2, ?_⟩, ?_, by show m'.nb = _; rw [r3, g3.nb, h.nb]⟩, rfl, rfl⟩
          · rw [r8, hl2, hnk]
            have hab : Linked.Absent (Spec.without l k) k := by
              intro x hx; unfold Spec.without at hx; rw [List.mem_filter] at hx; simpa using hx.2
            exact Linked.place_current hab (by intro x hx; cases hx)
          · rw [dataSize_touch hnd hg, ← h.eff, hnv]
        · rw [if_neg hrel]
          have hmod : m.modify ptr (fun x => { x with value := v }) = some (m.write ptr (some { n with value := v })) := Linked.modify_some m _ g4
          refine ⟨{ s with map := m.write ptr (some { n with value := v }), eff := s.eff + (v.length - n.value.length) }, by simp only [hmod, Option.map_some], ⟨⟨a ++ [ptr], Linked.setValue_spec E.inner g2 g4 v, ?_⟩, ?_, ?_⟩, rfl, rfl⟩
          · show view (m.write ptr _) _ = _
            rw [view_setValue g4 v a hpa rfl, hva, hnk]
          · rw [dataSize_touch hnd hg, ← h.eff, hnv]
          · show m.nb = _; rw [g3.nb, h.nb]

end Verif.Cache
