import Verif.Containers.LinkedLemmas
/-
The operations of `LinkedHashMap` refine those on ordered association lists.
-/
namespace Verif.Linked

variable {K V : Type} [DecidableEq K] (hash : K → Nat)

/-! ### Lists with one record of a key -/

/-- No record of the key. -/
def Absent (l : List (K × V)) (k : K) : Prop := ∀ e ∈ l, e.1 ≠ k

theorem absent_without {l : List (K × V)} {k : K} (h : Absent l k) : Spec.without l k = l := by
  unfold Spec.without
  rw [List.filter_eq_self]
  intro e he; simpa using h e he

theorem absent_lookup {l : List (K × V)} {k : K} (h : Absent l k) : Spec.lookup l k = none := by
  unfold Spec.lookup
  have : l.find? (fun e => e.1 = k) = none := by
    rw [List.find?_eq_none]; intro e he; simpa using h e he
  rw [this]; rfl

theorem absent_map {l : List (K × V)} {k : K} (v : V) (h : Absent l k) : l.map (fun e => if e.1 = k then (k, v) else e) = l := by
  induction l with
  | nil => rfl
  | cons e l ih =>
    rw [List.map_cons, ih (fun x hx => h x (List.mem_cons_of_mem _ hx)), if_neg (h e List.mem_cons_self)]

theorem without_split {A B : List (K × V)} {k : K} {v : V} (ha : Absent A k) (hb : Absent B k) : Spec.without (A ++ (k, v) :: B) k = A ++ B := by
  have h1 := absent_without ha
  have h2 := absent_without hb
  unfold Spec.without at *
  rw [List.filter_append, List.filter_cons, h1, h2]; simp

theorem lookup_split {A B : List (K × V)} {k : K} {v : V} (ha : Absent A k) : Spec.lookup (A ++ (k, v) :: B) k = some v := by
  unfold Spec.lookup
  have : A.find? (fun e => e.1 = k) = none := by
    rw [List.find?_eq_none]; intro e he; simpa using ha e he
  rw [List.find?_append, this]; simp

theorem place_current {A B : List (K × V)} {k : K} {v0 v : V} (ha : Absent A k) (hb : Absent B k) : Spec.place (A ++ (k, v0) :: B) k v .current = A ++ (k, v) :: B := by
  simp only [Spec.place]
  rw [List.map_append, List.map_cons, absent_map v ha, absent_map v hb]; simp

/-! ### Views -/

theorem view_append (m : Map K V) (a b : List Nat) : view m (a ++ b) = view m a ++ view m b := by simp [view]
theorem view_cons (m : Map K V) {p : Nat} {n : Node K V} (h : m.mem p = some n) (b : List Nat) : view m (p :: b) = (n.key, n.value) :: view m b := by
  simp [view, h]

theorem view_frame {m m' : Map K V} {l : List Nat} (h : ∀ p ∈ l, (m'.mem p).map (fun n => (n.key, n.value)) = (m.mem p).map (fun n => (n.key, n.value))) :
    view m' l = view m l := by
  induction l with
  | nil => rfl
  | cons p l ih =>
    unfold view at *
    rw [List.filterMap_cons, List.filterMap_cons, h p List.mem_cons_self, ih (fun q hq => h q (List.mem_cons_of_mem _ hq))]

theorem view_length {m : Map K V} {order : List Nat} (h : WF hash m order) : (view m order).length = m.num := by
  rw [h.num]
  have : ∀ l, (∀ p ∈ l, ∃ n, m.mem p = some n) → (view m l).length = l.length := by
    intro l
    induction l with
    | nil => intro _; rfl
    | cons p l ih =>
      intro hl
      obtain ⟨n, hn⟩ := hl p List.mem_cons_self
      rw [view_cons m hn, List.length_cons, List.length_cons, ih (fun q hq => hl q (List.mem_cons_of_mem _ hq))]
  exact this _ (fun p hp => h.get hash hp)

theorem view_mem {m : Map K V} {l : List Nat} {e : K × V} (h : e ∈ view m l) : ∃ p ∈ l, ∃ n, m.mem p = some n ∧ e = (n.key, n.value) := by
  unfold view at h
  rw [List.mem_filterMap] at h
  obtain ⟨p, hp, he⟩ := h
  obtain ⟨n, hn, hne⟩ := Option.map_eq_some_iff.1 he
  exact ⟨p, hp, n, hn, hne.symm⟩

theorem view_nodup {m : Map K V} {order : List Nat} (h : WF hash m order) : ((view m order).map (·.1)).Nodup := by
  have : ∀ l, l.Nodup → (∀ p ∈ l, p ∈ order) → ((view m l).map (·.1)).Nodup := by
    intro l
    induction l with
    | nil => intro _ _; simp [view]
    | cons p l ih =>
      intro hn hs
      rw [List.nodup_cons] at hn
      obtain ⟨n, hp⟩ := h.get hash (hs p List.mem_cons_self)
      rw [view_cons m hp, List.map_cons, List.nodup_cons]
      refine ⟨?_, ih hn.2 (fun q hq => hs q (List.mem_cons_of_mem _ hq))⟩
      intro hm
      obtain ⟨e, he, hk⟩ := List.mem_map.1 hm
      obtain ⟨q, hq, n', hn', rfl⟩ := view_mem he
      have := h.uniq q p n' n (hs q (List.mem_cons_of_mem _ hq)) (hs p List.mem_cons_self) hn' hp hk
      subst this; exact hn.1 hq
  exact this order h.links.nodup (fun _ hp => hp)

/-- The record of a key splits the list. -/
theorem split_at {m : Map K V} {order : List Nat} (h : WF hash m order) {p : Nat} {n : Node K V} (hp : p ∈ order) (hn : m.mem p = some n) :
    ∃ a b, order = a ++ p :: b ∧ p ∉ a ∧ p ∉ b ∧ view m order = view m a ++ (n.key, n.value) :: view m b ∧ Absent (view m a) n.key ∧ Absent (view m b) n.key := by
  obtain ⟨a, b, rfl⟩ := List.append_of_mem hp
  have hnd := h.links.nodup
  rw [List.nodup_append] at hnd
  have hpa : p ∉ a := fun hm => hnd.2.2 p hm p (by simp) rfl
  have hpb : p ∉ b := (List.nodup_cons.1 hnd.2.1).1
  refine ⟨a, b, rfl, hpa, hpb, by rw [view_append, view_cons m hn], ?_, ?_⟩
  · intro e he hk
    obtain ⟨q, hq, n', hn', rfl⟩ := view_mem he
    have := h.uniq q p n' n (by simp [hq]) hp hn' hn hk
    subst this; exact hpa hq
  · intro e he hk
    obtain ⟨q, hq, n', hn', rfl⟩ := view_mem he
    have := h.uniq q p n' n (by simp [hq]) hp hn' hn hk
    subst this; exact hpb hq

theorem absent_of {m : Map K V} {order : List Nat} {k : K} (h : ∀ p ∈ order, ∀ n, m.mem p = some n → n.key ≠ k) : Absent (view m order) k := by
  intro e he
  obtain ⟨p, hp, n, hn, rfl⟩ := view_mem he
  exact h p hp n hn

/-! ### Moving -/

theorem move_spec {m : Map K V} {order : List Nat} (h : WF hash m order) {p : Nat} {n : Node K V} (hp : p ∈ order) (hn : m.mem p = some n) (mode : Mode) :
    ∃ m' order', move m p mode = some m' ∧ WF hash m' order' ∧ Same m m' ∧ view m' order' = Spec.place (view m order) n.key n.value mode := by
  obtain ⟨a, b, rfl, hpa, hpb, hv, ha, hb⟩ := split_at hash h hp hn
  cases mode with
  | current => exact ⟨m, _, rfl, h, .refl m, by rw [hv, place_current ha hb]⟩
  | first =>
    simp only [move]
    by_cases hf : m.first = some p
    · rw [if_pos hf]
      refine ⟨m, _, rfl, h, .refl m, ?_⟩
      have : a = [] := by
        rw [h.links.first] at hf
        cases a with
        | nil => rfl
        | cons x a => simp at hf; exact absurd (by simp [hf]) hpa
      subst this
      rw [hv, Spec.place, without_split ha hb]; rfl
    · rw [if_neg hf]
      obtain ⟨m1, e1, l1, s1, u1⟩ := unlink_spec h.links
      have hpn : p ∉ a ++ b := by rw [List.mem_append]; exact fun h => h.elim hpa hpb
      obtain ⟨m2, e2, l2, s2⟩ := linkFirst_spec (n := n) l1 hpn (by rw [u1 p hpn, hn])
      refine ⟨m2, p :: (a ++ b), by rw [e1, Option.bind_some, e2], ?_, s1.trans s2, ?_⟩
      · exact h.same hash (s1.trans s2) l2 (fun q => by simp [or_left_comm]) (by simp; omega)
      · rw [view_same (s1.trans s2), view_cons m hn, view_append, hv, Spec.place, without_split ha hb]
  | last =>
    simp only [move]
    by_cases hf : m.last = some p
    · rw [if_pos hf]
      refine ⟨m, _, rfl, h, .refl m, ?_⟩
      have : b = [] := by
        rw [h.links.last] at hf
        rcases List.eq_nil_or_concat b with rfl | ⟨b', x, rfl⟩
        · rfl
        · rw [List.concat_eq_append, show a ++ p :: (b' ++ [x]) = (a ++ p :: b') ++ [x] by simp, List.getLast?_concat] at hf
          injection hf with hf
          exact absurd (by simp [hf]) hpb
      subst this
      rw [hv, Spec.place, without_split ha hb]; simp [view]
    · rw [if_neg hf]
      obtain ⟨m1, e1, l1, s1, u1⟩ := unlink_spec h.links
      have hpn : p ∉ a ++ b := by rw [List.mem_append]; exact fun h => h.elim hpa hpb
      obtain ⟨m2, e2, l2, s2⟩ := linkLast_spec (n := n) l1 hpn (by rw [u1 p hpn, hn])
      refine ⟨m2, (a ++ b) ++ [p], by rw [e1, Option.bind_some, e2], ?_, s1.trans s2, ?_⟩
      · exact h.same hash (s1.trans s2) l2 (fun q => by simp [or_left_comm, or_comm]) (by simp)
      · rw [view_same (s1.trans s2), view_append, view_append, view_cons m hn, hv, Spec.place, without_split ha hb]; simp [view]

/-! ### Get -/

theorem get_spec {m : Map K V} {order : List Nat} (h : WF hash m order) (k : K) (mode : Mode) :
    ∃ m' order', get hash m k mode = some (Spec.lookup (view m order) k, m') ∧ WF hash m' order' ∧ m'.nb = m.nb ∧
      view m' order' = match Spec.lookup (view m order) k with
        | none => view m order
        | some v => Spec.place (view m order) k v mode := by
  obtain ⟨c, pre, r, e, h1, h2, h3, h4⟩ := find_spec hash h k
  unfold get
  rw [e]
  cases r with
  | none =>
    rw [absent_lookup (absent_of h4.2)]
    exact ⟨m, order, rfl, h, rfl, rfl⟩
  | some p =>
    obtain ⟨hp, _, n, hn, hk⟩ := h4
    obtain ⟨a, b, _, _, _, hv, ha, hb⟩ := split_at hash h hp hn
    have hl : Spec.lookup (view m order) k = some n.value := by rw [hv, ← hk]; exact lookup_split ha
    obtain ⟨m', o', g1, g2, g3, g4⟩ := move_spec hash h hp hn mode
    rw [hl]
    refine ⟨m', o', ?_, g2, g3.nb, by rw [g4, hk]⟩
    simp [hn, g1]

/-! ### New records -/

/-- A new record in the list and in the chain of its bucket. -/
theorem attach_spec {m : Map K V} {order : List Nat} (h : WF hash m order) (k : K) (hk : ∀ p ∈ order, ∀ n, m.mem p = some n → n.key ≠ k)
    {m2 : Map K V} {order' : List Nat} (hl : Links m2 order') (hmem : ∀ q, q ∈ order' ↔ q = m.fresh ∨ q ∈ order) (hlen : order'.length = order.length + 1)
    {n2 : Node K V} (hp : m2.mem m.fresh = some n2) (hn2 : n2.key = k)
    (hfwd : ∀ q n, q ≠ m.fresh → m.mem q = some n → ∃ n', m2.mem q = some n' ∧ n'.key = n.key ∧ (hash n.key % m.nb ≠ m.bucket hash k → n'.child = n.child))
    (hback : ∀ q n, q ≠ m.fresh → m2.mem q = some n → ∃ n', m.mem q = some n' ∧ n'.key = n.key)
    (hnb : m2.nb = m.nb)
    (hchain : ∃ c', Path m2.mem (m2.buckets (m.bucket hash k)) c' ∧ c'.Nodup ∧
      ∀ p, p ∈ c' ↔ p = m.fresh ∨ (p ∈ order ∧ ∃ n, m.mem p = some n ∧ hash n.key % m.nb = m.bucket hash k))
    (hother : ∀ i, i ≠ m.bucket hash k → m2.buckets i = m.buckets i) (hnum : m2.num = m.num + 1) (hfresh : m2.fresh = m.fresh + 1) : WF hash m2 order' := by
  have hnot : m.fresh ∉ order := fun hm => by obtain ⟨n, hn⟩ := h.get hash hm; have := h.bound _ _ hn; omega
  have hb : hash n2.key % m.nb = m.bucket hash k := by rw [hn2]; rfl
  refine ⟨hl, ?_, ?_, ?_, ?_, ?_, by rw [hnb]; exact h.nb⟩
  · obtain ⟨c', p1, p2, p3⟩ := hchain
    refine chains_of hash h.chains hnb (m.bucket hash k) ⟨c', p1, p2, ?_⟩ hother ?_ ?_
    · intro q
      rw [p3 q, hmem q]
      constructor
      · rintro (rfl | ⟨g1, n, g2, g3⟩)
        · exact ⟨Or.inl rfl, _, hp, hb⟩
        · have hq : q ≠ m.fresh := fun e => hnot (by rw [← e]; exact g1)
          obtain ⟨n', a1, a2, _⟩ := hfwd q n hq g2
          exact ⟨Or.inr g1, n', a1, by rw [a2]; exact g3⟩
      · rintro ⟨rfl | g1, n, g2, g3⟩
        · exact Or.inl rfl
        · have hq : q ≠ m.fresh := fun e => hnot (by rw [← e]; exact g1)
          obtain ⟨n', a1, a2⟩ := hback q n hq g2
          exact Or.inr ⟨g1, n', a1, by rw [a2]; exact g3⟩
    · intro q hq n hn hne
      obtain ⟨n', a1, a2, a3⟩ := hfwd q n (fun e => hnot (by rw [← e]; exact hq)) hn
      exact ⟨(hmem q).2 (Or.inr hq), n', a1, a2, a3 hne⟩
    · intro q hq n hn hne
      have hqf : q ≠ m.fresh := by
        rintro rfl
        rw [hp] at hn; injection hn with hn; subst hn
        exact hne hb
      obtain ⟨n', a1, a2⟩ := hback q n hqf hn
      exact ⟨((hmem q).1 hq).resolve_left hqf, n', a1, a2⟩
  · intro p q n n' hp' hq g1 g2 g3
    by_cases hpf : p = m.fresh
    · by_cases hqf : q = m.fresh
      · rw [hpf, hqf]
      · subst hpf
        obtain ⟨x, a1, a2⟩ := hback q n' hqf g2
        rw [hp] at g1; injection g1 with g1; subst g1
        have : x.key = k := by rw [a2, ← g3]; exact hn2
        exact absurd this (hk q (((hmem q).1 hq).resolve_left hqf) x a1)
    · by_cases hqf : q = m.fresh
      · subst hqf
        obtain ⟨x, a1, a2⟩ := hback p n hpf g1
        rw [hp] at g2; injection g2 with g2; subst g2
        have : x.key = k := by rw [a2, g3]; exact hn2
        exact absurd this (hk p (((hmem p).1 hp').resolve_left hpf) x a1)
      · obtain ⟨x, a1, a2⟩ := hback p n hpf g1
        obtain ⟨y, b1, b2⟩ := hback q n' hqf g2
        exact h.uniq p q x y (((hmem p).1 hp').resolve_left hpf) (((hmem q).1 hq).resolve_left hqf) a1 b1 (by rw [a2, b2, g3])
  · rw [hlen, ← h.num, hnum]
  · intro q
    rw [hmem q]
    by_cases hqf : q = m.fresh
    · subst hqf; exact ⟨fun _ => ⟨_, hp⟩, fun _ => Or.inl rfl⟩
    · rw [h.live q]
      constructor
      · rintro (e | ⟨n, hn⟩)
        · exact absurd e hqf
        · obtain ⟨n', a1, _⟩ := hfwd q n hqf hn; exact ⟨n', a1⟩
      · rintro ⟨n, hn⟩
        obtain ⟨n', a1, _⟩ := hback q n hqf hn; exact Or.inr ⟨n', a1⟩
  · intro q n hn
    rw [hfresh]
    by_cases hqf : q = m.fresh
    · omega
    · obtain ⟨n', a1, _⟩ := hback q n hqf hn
      have := h.bound q n' a1; omega

/-- A new record put in the list. -/
theorem linkNew_spec {m : Map K V} {order : List Nat} (h : WF hash m order) (k : K) (v : V) (mode : Mode) (m0 : Map K V)
    (hm0 : ({ m.write m.fresh (some ⟨k, v, none, none, none⟩) with fresh := m.fresh + 1 } : Map K V) = m0) :
    ∃ m1 order', linkNew m0 m.fresh mode = some m1 ∧ Links m1 order' ∧ Same m0 m1 ∧
      (∀ q, q ∈ order' ↔ q = m.fresh ∨ q ∈ order) ∧ order'.length = order.length + 1 ∧ view m0 order' = Spec.enter (view m order) k v mode := by
  have hnot : m.fresh ∉ order := fun hm => by obtain ⟨n, hn⟩ := h.get hash hm; have := h.bound _ _ hn; omega
  have hm0p : m0.mem m.fresh = some ⟨k, v, none, none, none⟩ := by rw [← hm0]; exact write_mem_same _ _ _
  have hm0q : ∀ q, q ≠ m.fresh → m0.mem q = m.mem q := fun q hq => by rw [← hm0]; exact write_mem_ne _ _ hq
  have hl0 : Links m0 order := by
    refine ⟨h.links.nodup, h.links.seg.frame' (fun q hq => hm0q q (fun e => hnot (by rw [← e]; exact hq))), ?_, ?_⟩
    · rw [← hm0]; exact h.links.first
    · rw [← hm0]; exact h.links.last
  have hv0 : view m0 order = view m order := view_frame (fun q hq => by rw [hm0q q (fun e => hnot (by rw [← e]; exact hq))])
  have hv1 : view m0 [m.fresh] = [(k, v)] := by rw [view_cons m0 hm0p]; rfl
  by_cases hf : mode = .first
  · subst hf
    obtain ⟨m1, e1, l1, s1⟩ := linkFirst_spec hl0 hnot hm0p
    refine ⟨m1, m.fresh :: order, by simp [linkNew, e1], l1, s1, by simp, by simp, ?_⟩
    rw [view_cons m0 hm0p, hv0]; rfl
  · obtain ⟨m1, e1, l1, s1⟩ := linkLast_spec hl0 hnot hm0p
    refine ⟨m1, order ++ [m.fresh], by simp [linkNew, hf, e1], l1, s1, by simp [or_comm], by simp, ?_⟩
    rw [view_append, hv0, hv1]
    cases mode <;> first | rfl | exact absurd rfl hf

theorem create_spec {m : Map K V} {order : List Nat} (h : WF hash m order) (k : K) (v : V) (mode : Mode) (hk : ∀ p ∈ order, ∀ n, m.mem p = some n → n.key ≠ k)
    : ∃ m' order', create hash m k v mode = some m' ∧ WF hash m' order' ∧ m'.nb = m.nb ∧ view m' order' = Spec.enter (view m order) k v mode := by
  have hfresh : m.mem m.fresh = none := by
    cases e : m.mem m.fresh with
    | none => rfl
    | some n => have := h.bound _ _ e; omega
  have hnot : m.fresh ∉ order := fun hm => by obtain ⟨n, hn⟩ := h.get hash hm; rw [hfresh] at hn; cases hn
  generalize hm0 : ({ m.write m.fresh (some ⟨k, v, none, none, none⟩) with fresh := m.fresh + 1 } : Map K V) = m0
  have hm0p : m0.mem m.fresh = some ⟨k, v, none, none, none⟩ := by rw [← hm0]; exact write_mem_same _ _ _
  have hm0q : ∀ q, q ≠ m.fresh → m0.mem q = m.mem q := fun q hq => by rw [← hm0]; exact write_mem_ne _ _ hq
  obtain ⟨m1, order', e1, l1, s1, hmem, hlen, hv⟩ := linkNew_spec hash h k v mode m0 hm0
  obtain ⟨n1, hn1, hn1k, hn1v, hn1c⟩ := s1.fwd hm0p
  generalize hb : m.bucket hash k = b
  have hbk : hash k % m.nb = b := hb
  have hbuck : m1.buckets = m.buckets := by rw [s1.buckets, ← hm0]; rfl
  have hnb : m1.nb = m.nb := by rw [s1.nb, ← hm0]; rfl
  obtain ⟨c, hc1, hc2, hc3⟩ := h.chains b (by rw [← hb]; exact Nat.mod_lt _ h.nb)
  -- the final map
  generalize hm2 : ({ m1.write m.fresh (some { n1 with child := m1.buckets b }) with
    buckets := fun j => if j = b then some m.fresh else m1.buckets j, num := m1.num + 1 } : Map K V) = m2
  have hcreate : create hash m k v mode = some m2 := by
    unfold create
    simp only [hb]
    rw [hm0]
    have := modify_some m1 (fun q => { q with child := m1.buckets b }) hn1
    simp only [e1, Option.bind_eq_bind, Option.bind_some, this, Map.store]
    rw [← hm2]; rfl
  have hm2p : m2.mem m.fresh = some { n1 with child := m1.buckets b } := by rw [← hm2]; exact write_mem_same _ _ _
  have hm2q : ∀ q, q ≠ m.fresh → m2.mem q = m1.mem q := fun q hq => by rw [← hm2]; exact write_mem_ne _ _ hq
  have hdata : ∀ q n, q ≠ m.fresh → m.mem q = some n → ∃ n', m2.mem q = some n' ∧ n'.key = n.key ∧ n'.value = n.value ∧ n'.child = n.child := by
    intro q n hq hn
    obtain ⟨n', a1, a2⟩ := s1.fwd (p := q) (n := n) (by rw [hm0q q hq, hn])
    exact ⟨n', by rw [hm2q q hq, a1], a2⟩
  have hback : ∀ q n, q ≠ m.fresh → m2.mem q = some n → ∃ n', m.mem q = some n' ∧ n'.key = n.key ∧ n'.value = n.value ∧ n'.child = n.child := by
    intro q n hq hn
    rw [hm2q q hq] at hn
    obtain ⟨n', a1, a2⟩ := s1.back hn
    exact ⟨n', by rw [← hm0q q hq, a1], a2⟩
  have hpc : m.fresh ∉ c := fun hm => hnot ((hc3 _).1 hm).1
  have hnb2 : m2.nb = m.nb := by rw [← hm2]; exact hnb
  refine ⟨m2, order', hcreate, ?_, hnb2, ?_⟩
  · have hfr : m2.fresh = m.fresh + 1 := by rw [← hm2]; show m1.fresh = _; rw [s1.fresh, ← hm0]
    refine attach_spec hash h k hk (m2 := m2) ⟨l1.nodup, ?_, by rw [← hm2]; exact l1.first, by rw [← hm2]; exact l1.last⟩ hmem hlen hm2p hn1k ?_ ?_ hnb2
      ⟨m.fresh :: c, ?_, List.nodup_cons.2 ⟨hpc, hc2⟩, ?_⟩ ?_ ?_ hfr
    · refine l1.seg.frame (fun q hq n hn => ?_)
      by_cases hqf : q = m.fresh
      · subst hqf
        rw [hn1] at hn; injection hn with hn; subst hn
        exact ⟨_, hm2p, rfl, rfl⟩
      · exact ⟨n, by rw [hm2q q hqf, hn], rfl, rfl⟩
    · intro q n hq hn
      obtain ⟨n', a1, a2, _, a3⟩ := hdata q n hq hn
      exact ⟨n', a1, a2, fun _ => a3⟩
    · intro q n hq hn
      obtain ⟨n', a1, a2, _⟩ := hback q n hq hn
      exact ⟨n', a1, a2⟩
    · have : m2.buckets (m.bucket hash k) = some m.fresh := by rw [← hm2, hb]; simp
      refine ⟨this, _, hm2p, ?_⟩
      show Path m2.mem (m1.buckets b) c
      rw [hbuck]
      refine hc1.frame (fun q hq n hn => ?_)
      obtain ⟨n', a1, _, _, a2⟩ := hdata q n (fun e => hpc (by rw [← e]; exact hq)) hn
      exact ⟨n', a1, a2⟩
    · intro q
      rw [List.mem_cons, hc3 q, hb]
    · intro i hi; rw [hb] at hi; rw [← hm2]; simp [hi, hbuck]
    · rw [← hm2]
      show m1.num + 1 = m.num + 1
      rw [s1.num, ← hm0]; rfl
  · rw [← hv]
    refine (view_frame (m := m1) (fun q _ => ?_)).trans (view_same s1 order')
    by_cases hqf : q = m.fresh
    · subst hqf; rw [hm2p, hn1]; rfl
    · rw [hm2q q hqf]

/-! ### Set -/

/-- Writing a value. -/
theorem setValue_spec {m : Map K V} {order : List Nat} (h : WF hash m order) {p : Nat} {n : Node K V} (hn : m.mem p = some n) (v : V) :
    WF hash (m.write p (some { n with value := v })) order := by
  have hp := h.live p |>.2 ⟨n, hn⟩
  have hw : ∀ q n', m.mem q = some n' → ∃ n'', (m.write p (some { n with value := v })).mem q = some n'' ∧ n''.key = n'.key ∧ n''.child = n'.child ∧ n''.prev = n'.prev ∧ n''.next = n'.next := by
    intro q n' hq
    by_cases e : q = p
    · subst e
      rw [hn] at hq; injection hq with hq; subst hq
      exact ⟨_, write_mem_same _ _ _, rfl, rfl, rfl, rfl⟩
    · exact ⟨n', by rw [write_mem_ne _ _ e, hq], rfl, rfl, rfl, rfl⟩
  have hb : ∀ q n', (m.write p (some { n with value := v })).mem q = some n' → ∃ n'', m.mem q = some n'' ∧ n''.key = n'.key := by
    intro q n' hq
    by_cases e : q = p
    · subst e
      rw [write_mem_same] at hq; injection hq with hq; subst hq
      exact ⟨n, hn, rfl⟩
    · rw [write_mem_ne _ _ e] at hq; exact ⟨n', hq, rfl⟩
  refine ⟨⟨h.links.nodup, h.links.seg.frame (fun q _ n' hq => ?_), h.links.first, h.links.last⟩, ?_, ?_, h.num, ?_, ?_, h.nb⟩
  · obtain ⟨x, a1, a2, a3, a4, a5⟩ := hw q n' hq; exact ⟨x, a1, a4, a5⟩
  · intro i hi
    obtain ⟨c, h1, h2, h3⟩ := h.chains i hi
    refine ⟨c, h1.frame (fun q _ n' hq => ?_), h2, fun q => ?_⟩
    · obtain ⟨x, a1, a2, a3, _⟩ := hw q n' hq; exact ⟨x, a1, a3⟩
    · rw [h3 q]
      constructor
      · rintro ⟨g1, x, g2, g3⟩
        obtain ⟨y, a1, a2, _⟩ := hw q x g2
        exact ⟨g1, y, a1, by rw [a2]; exact g3⟩
      · rintro ⟨g1, x, g2, g3⟩
        obtain ⟨y, a1, a2⟩ := hb q x g2
        exact ⟨g1, y, a1, by rw [a2]; exact g3⟩
  · intro q r x y hq hr e1 e2 hk
    obtain ⟨x', a1, a2⟩ := hb q x e1
    obtain ⟨y', b1, b2⟩ := hb r y e2
    exact h.uniq q r x' y' hq hr a1 b1 (by rw [a2, b2, hk])
  · intro q
    rw [h.live q]
    constructor
    · rintro ⟨x, hx⟩; obtain ⟨y, hy, _⟩ := hw q x hx; exact ⟨y, hy⟩
    · rintro ⟨x, hx⟩; obtain ⟨y, hy, _⟩ := hb q x hx; exact ⟨y, hy⟩
  · intro q x hx
    obtain ⟨y, hy, _⟩ := hb q x hx
    exact h.bound q y hy

theorem set_spec {m : Map K V} {order : List Nat} (h : WF hash m order) (k : K) (v : V) (overwrite : Bool) (mode : Mode) :
    ∃ out m' order', set hash m k v overwrite mode = some (out, m') ∧ WF hash m' order' ∧ m'.nb = m.nb ∧
      match Spec.lookup (view m order) k with
      | none => out = v ∧ view m' order' = Spec.enter (view m order) k v mode
      | some v0 => if overwrite then out = v ∧ view m' order' = Spec.place (view m order) k v mode else out = v0 ∧ view m' order' = view m order := by
  obtain ⟨c, pre, r, e, h1, h2, h3, h4⟩ := find_spec hash h k
  unfold set
  rw [e]
  cases r with
  | none =>
    rw [absent_lookup (absent_of h4.2)]
    obtain ⟨m', o', g1, g2, g3, g4⟩ := create_spec hash h k v mode h4.2
    exact ⟨v, m', o', by simp [g1], g2, g3, rfl, g4⟩
  | some p =>
    obtain ⟨hp, _, n, hn, hk⟩ := h4
    obtain ⟨a, b, ho, hpa, hpb, hv, ha, hb⟩ := split_at hash h hp hn
    have hl : Spec.lookup (view m order) k = some n.value := by rw [hv, ← hk]; exact lookup_split ha
    rw [hl]
    by_cases hov : overwrite = true
    · subst hov
      have hw := setValue_spec hash h hn v
      obtain ⟨m', o', g1, g2, g3, g4⟩ := move_spec hash hw (n := { n with value := v }) hp (write_mem_same _ _ _) mode
      have he : m.modify p (fun q => { q with value := v }) = some (m.write p (some { n with value := v })) := modify_some m _ hn
      refine ⟨v, m', o', by simp [hn, he, g1], g2, g3.nb, ?_⟩
      simp only [if_true, true_and]
      rw [g4]
      have e1 : view (m.write p (some { n with value := v })) a = view m a := view_frame (fun q hq => by rw [write_mem_ne _ _ (fun e => hpa (by rw [← e]; exact hq))])
      have e2 : view (m.write p (some { n with value := v })) b = view m b := view_frame (fun q hq => by rw [write_mem_ne _ _ (fun e => hpb (by rw [← e]; exact hq))])
      have e3 : view (m.write p (some { n with value := v })) order = view m a ++ (n.key, v) :: view m b := by
        rw [ho, view_append, view_cons _ (write_mem_same _ _ _), e1, e2]
      rw [e3, hv]
      show Spec.place _ n.key v mode = _
      rw [← hk]
      cases mode with
      | current => rw [place_current ha hb, place_current ha hb]
      | first => simp only [Spec.place]; rw [without_split ha hb, without_split ha hb]
      | last => simp only [Spec.place]; rw [without_split ha hb, without_split ha hb]
    · have : overwrite = false := by simpa using hov
      subst this
      exact ⟨n.value, m, order, by simp [hn], h, rfl, by simp⟩

/-! ### Taking records out -/

theorem takeOut_spec {m : Map K V} {order : List Nat} (h : WF hash m order) (k : K) :
    ∃ r m' order', takeOut hash m k = some (r, m') ∧ WF hash m' order' ∧ m'.nb = m.nb ∧ r.map (·.value) = Spec.lookup (view m order) k ∧ (∀ n, r = some n → n.key = k) ∧
      view m' order' = Spec.without (view m order) k := by
  obtain ⟨c, pre, r, e, h1, h2, h3, h4⟩ := find_spec hash h k
  unfold takeOut
  rw [e]
  cases r with
  | none =>
    have := absent_of h4.2
    exact ⟨none, m, order, rfl, h, rfl, by rw [absent_lookup this]; rfl, by simp, by rw [absent_without this]⟩
  | some p =>
    obtain ⟨hp, ⟨post, hc⟩, n, hn, hk⟩ := h4
    obtain ⟨a, b, ho, hpa, hpb, hv, ha, hb⟩ := split_at hash h hp hn
    have hpn : p ∉ a ++ b := by rw [List.mem_append]; exact fun h => h.elim hpa hpb
    have hl : Spec.lookup (view m order) k = some n.value := by rw [hv, ← hk]; exact lookup_split ha
    obtain ⟨m1, e1, l1, s1, u1⟩ := unlink_spec (ho ▸ h.links)
    have hm1p : m1.mem p = some n := by rw [u1 p hpn, hn]
    have h1' : Path m1.mem (m1.buckets (m.bucket hash k)) c := by rw [s1.buckets]; exact h1.same s1
    rw [hc] at h2 h1'
    have hnd := List.nodup_append.1 h2
    have hpost : Path m1.mem n.child post := by
      have : ∀ (pre : List Nat) (o : Option Nat), Path m1.mem o (pre ++ p :: post) → Path m1.mem n.child post := by
        intro pre
        induction pre with
        | nil =>
          intro o ho'
          obtain ⟨_, n', e3, e4⟩ := ho'
          rw [hm1p] at e3; injection e3 with e3; subst e3; exact e4
        | cons q pre ih =>
          intro o ho'
          obtain ⟨_, n', e3, e4⟩ := ho'
          exact ih _ e4
      exact this pre _ h1'
    obtain ⟨m2, o2, g1, g2, g3, g4, g5, g6⟩ := store_spec (m := m1) n.child post hpost pre (.bucket (m.bucket hash k)) _ (p :: post) rfl h1'
      (by simpa [slotCell] using hnd.1)
      (by
        intro x hx hx'
        simp only [slotCell, List.nil_append] at hx
        exact hnd.2.2 x hx x (List.mem_cons_of_mem _ hx') rfl)
    have hl2 := g4.links l1
    have hppre : p ∉ pre := fun hm => hnd.2.2 p hm p (by simp) rfl
    have hppost : p ∉ post := (List.nodup_cons.1 hnd.2.1).1
    have hnb2 : m2.nb = m.nb := by rw [g4.nb, s1.nb]
    generalize hm3 : ({ m2.write p none with num := m2.num - 1 } : Map K V) = m3
    have hm3p : m3.mem p = none := by rw [← hm3]; exact write_mem_same _ _ _
    have hm3q : ∀ q, q ≠ p → m3.mem q = m2.mem q := fun q hq => by rw [← hm3]; exact write_mem_ne _ _ hq
    have hout : takeOut hash m k = some (some n, m3) := by
      unfold takeOut
      rw [e]
      simp [hn, e1, g1, hm3]
    have hfwd : ∀ q x, q ≠ p → m.mem q = some x → ∃ y, m3.mem q = some y ∧ y.key = x.key ∧ y.value = x.value ∧ (q ∉ pre → y.child = x.child) := by
      intro q x hq hx
      obtain ⟨x1, a1, a2, a3, a4⟩ := s1.fwd hx
      obtain ⟨x2, b1, b2, b3, _⟩ := g4.fwd a1
      refine ⟨x2, by rw [hm3q q hq, b1], by rw [b2, a2], by rw [b3, a3], ?_⟩
      intro hqp
      have := g5 q (by simpa [slotCell] using hqp)
      rw [b1, a1] at this
      injection this with this
      rw [this, a4]
    have hback : ∀ q y, m3.mem q = some y → q ≠ p ∧ ∃ x, m.mem q = some x ∧ x.key = y.key ∧ x.value = y.value := by
      intro q y hy
      have hq : q ≠ p := by rintro rfl; rw [hm3p] at hy; cases hy
      rw [hm3q q hq] at hy
      obtain ⟨x1, a1, a2, a3, _⟩ := g4.back hy
      obtain ⟨x2, b1, b2, b3, _⟩ := s1.back a1
      exact ⟨hq, x2, b1, by rw [b2, a2], by rw [b3, a3]⟩
    have hmemab : ∀ q, q ∈ a ++ b ↔ q ∈ order ∧ q ≠ p := by
      intro q
      rw [ho]
      constructor
      · intro hq
        refine ⟨?_, fun e => hpn (by rw [← e]; exact hq)⟩
        rcases List.mem_append.1 hq with h | h <;> simp [h]
      · rintro ⟨hq, hne⟩
        rcases List.mem_append.1 hq with h | h
        · simp [h]
        · rcases List.mem_cons.1 h with h | h
          · exact absurd h hne
          · simp [h]
    refine ⟨some n, m3, a ++ b, ?_, ?_, ?_, by rw [hl]; rfl, by rintro x hx; injection hx with hx; rw [← hx]; exact hk, ?_⟩
    · simp [hn, e1, g1, hm3]
    · refine ⟨⟨hl2.nodup, ?_, by rw [← hm3]; exact hl2.first, by rw [← hm3]; exact hl2.last⟩, ?_, ?_, ?_, ?_, ?_, ?_⟩
      · exact hl2.seg.frame' (fun q hq => hm3q q (fun e => hpn (by rw [← e]; exact hq)))
      · have hbk : ∀ q ∈ c, ∃ x, m.mem q = some x ∧ hash x.key % m.nb = m.bucket hash k := fun q hq => ((h3 q).1 hq).2
        refine chains_of hash h.chains (by rw [← hm3]; exact hnb2) (m.bucket hash k) ⟨pre ++ post, ?_, ?_, ?_⟩ ?_ ?_ ?_
        · have : m3.buckets = m2.buckets := by rw [← hm3]; rfl
          rw [this]
          simp only [Map.load, Option.some.injEq] at g2
          rw [g2]
          refine g3.frame (fun q hq x hx => ⟨x, ?_, rfl⟩)
          rw [hm3q q _, hx]
          rintro rfl
          exact (List.mem_append.1 hq).elim hppre hppost
        · exact h2.sublist (List.Sublist.append (List.Sublist.refl _) (List.sublist_cons_self _ _))
        · intro q
          have hqc : q ∈ pre ++ post ↔ q ∈ c ∧ q ≠ p := by
            rw [hc]
            constructor
            · intro hq
              refine ⟨by rcases List.mem_append.1 hq with h | h <;> simp [h], ?_⟩
              rintro rfl
              exact (List.mem_append.1 hq).elim hppre hppost
            · rintro ⟨hq, hne⟩
              rcases List.mem_append.1 hq with h | h
              · simp [h]
              · rcases List.mem_cons.1 h with h | h
                · exact absurd h hne
                · simp [h]
          rw [hqc, h3 q, hmemab q]
          constructor
          · rintro ⟨⟨g1, x, g2, g3⟩, hne⟩
            obtain ⟨y, a1, a2, _⟩ := hfwd q x hne g2
            exact ⟨⟨g1, hne⟩, y, a1, by rw [a2]; exact g3⟩
          · rintro ⟨⟨g1, hne⟩, y, g2, g3⟩
            obtain ⟨_, x, a1, a2, _⟩ := hback q y g2
            exact ⟨⟨g1, x, a1, by rw [a2]; exact g3⟩, hne⟩
        · intro i hi
          have : m3.buckets i = m2.buckets i := by rw [← hm3]; rfl
          rw [this, g6 i (fun b' e => by injection e with e; rw [← e]; exact hi), s1.buckets]
        · intro q hq x hx hne
          have hqp : q ≠ p := by
            rintro rfl
            rw [hn] at hx; injection hx with hx; subst hx
            exact hne (by rw [hk]; rfl)
          obtain ⟨y, a1, a2, _, a3⟩ := hfwd q x hqp hx
          refine ⟨(hmemab q).2 ⟨hq, hqp⟩, y, a1, a2, a3 ?_⟩
          intro hqpre
          obtain ⟨x', b1, b2⟩ := hbk q (by rw [hc]; simp [hqpre])
          rw [hx] at b1; injection b1 with b1; subst b1
          exact hne b2
        · intro q hq y hy _
          obtain ⟨_, x, a1, a2, _⟩ := hback q y hy
          exact ⟨((hmemab q).1 hq).1, x, a1, a2⟩
      · intro q r x y hq hr e3 e4 hkk
        obtain ⟨_, x', a1, a2, _⟩ := hback q x e3
        obtain ⟨_, y', b1, b2, _⟩ := hback r y e4
        exact h.uniq q r x' y' ((hmemab q).1 hq).1 ((hmemab r).1 hr).1 a1 b1 (by rw [a2, b2, hkk])
      · have : m3.num = m2.num - 1 := by rw [← hm3]
        rw [this, g4.num, s1.num, h.num, ho]; simp
      · intro q
        rw [hmemab q, h.live q]
        constructor
        · rintro ⟨⟨x, hx⟩, hne⟩
          obtain ⟨y, a1, _⟩ := hfwd q x hne hx; exact ⟨y, a1⟩
        · rintro ⟨y, hy⟩
          obtain ⟨hne, x, a1, _⟩ := hback q y hy; exact ⟨⟨x, a1⟩, hne⟩
      · intro q y hy
        obtain ⟨_, x, a1, _⟩ := hback q y hy
        have := h.bound q x a1
        have hfr : m3.fresh = m.fresh := by rw [← hm3]; show m2.fresh = _; rw [g4.fresh, s1.fresh]
        rw [hfr]; exact this
      · have : m3.nb = m.nb := by rw [← hm3]; exact hnb2
        rw [this]; exact h.nb
    · rw [← hm3]; exact hnb2
    · rw [hv, ← hk, without_split ha hb, ← view_append]
      refine (view_frame (m := m2) (fun q hq => by rw [hm3q q (fun e => hpn (by rw [← e]; exact hq))])).trans ?_
      rw [g4.view, view_same s1]

theorem remove_spec {m : Map K V} {order : List Nat} (h : WF hash m order) (k : K) :
    ∃ m' order', remove hash m k = some ((Spec.lookup (view m order) k).isSome, m') ∧ WF hash m' order' ∧ m'.nb = m.nb ∧
      view m' order' = Spec.without (view m order) k := by
  obtain ⟨r, m', o', e, h1, h2, h3, h4, h5⟩ := takeOut_spec hash h k
  refine ⟨m', o', ?_, h1, h2, h5⟩
  unfold remove
  rw [e, ← h3]
  cases r <;> rfl

/-! ### Migration -/

theorem replace_spec {m : Map K V} {order : List Nat} (h : WF hash m order) {d : Nat} {n : Node K V} (hd : d ∈ order) (hn : m.mem d = some n) (v : V)
    {c pre post : List Nat} (h1 : Path m.mem (m.buckets (m.bucket hash n.key)) c) (h2 : c.Nodup)
    (h3 : ∀ p, p ∈ c ↔ p ∈ order ∧ ∃ x, m.mem p = some x ∧ hash x.key % m.nb = m.bucket hash n.key) (hc : c = pre ++ d :: post) :
    ∃ p m' order' n', replace m (endSlot (.bucket (m.bucket hash n.key)) pre) d n.key v = some (p, m') ∧ WF hash m' order' ∧ m'.nb = m.nb ∧ p ∈ order' ∧
      m'.mem p = some n' ∧ n'.key = n.key ∧ n'.value = v ∧ view m' order' = Spec.place (view m order) n.key v .current := by
  obtain ⟨a, b, ho, hda, hdb, hv, ha, hb⟩ := split_at hash h hd hn
  have hnot : m.fresh ∉ order := fun hm => by obtain ⟨n, hn⟩ := h.get hash hm; have := h.bound _ _ hn; omega
  have hdf : d ≠ m.fresh := fun e => hnot (by rw [← e]; exact hd)
  have hfa : m.fresh ∉ a := fun hm => hnot (by rw [ho]; simp [hm])
  have hfb : m.fresh ∉ b := fun hm => hnot (by rw [ho]; simp [hm])
  generalize hm0 : ({ m.write m.fresh (some ⟨n.key, v, n.prev, n.next, n.child⟩) with fresh := m.fresh + 1 } : Map K V) = m0
  have hm0p : m0.mem m.fresh = some ⟨n.key, v, n.prev, n.next, n.child⟩ := by rw [← hm0]; exact write_mem_same _ _ _
  have hm0q : ∀ q, q ≠ m.fresh → m0.mem q = m.mem q := fun q hq => by rw [← hm0]; exact write_mem_ne _ _ hq
  have hndab : (a ++ b).Nodup := by
    have := h.links.nodup
    rw [ho] at this
    exact this.sublist (List.Sublist.append (List.Sublist.refl _) (List.sublist_cons_self _ _))
  have hsg := h.links.seg
  rw [ho, seg_append] at hsg
  obtain ⟨sa, ⟨n0, hn0, hpv, hnx⟩, sb⟩ := hsg
  rw [hn] at hn0; injection hn0 with hn0; subst hn0
  rw [Option.or_none] at hpv hnx
  have sa0 : Seg m0.mem none a _ := sa.frame' (fun q hq => hm0q q (fun e => hfa (by rw [← e]; exact hq)))
  have sb0 : Seg m0.mem (some d) b none := sb.frame' (fun q hq => hm0q q (fun e => hfb (by rw [← e]; exact hq)))
  obtain ⟨m1, m2, e1, e2, s2, f2, l2, ga, gb, u2⟩ := relink hndab _ _ sa0 sb0 (some m.fresh) (some m.fresh)
  have hfab : m.fresh ∉ a ++ b := by rw [List.mem_append]; exact fun h => h.elim hfa hfb
  have hdab : d ∉ a ++ b := by rw [List.mem_append]; exact fun h => h.elim hda hdb
  -- the ends
  generalize hm3 : (if m2.first = some d then { m2 with first := some m.fresh } else m2) = m3
  generalize hm4 : (if m3.last = some d then { m3 with last := some m.fresh } else m3) = m4
  have m34 : m4.mem = m2.mem ∧ m4.buckets = m2.buckets ∧ m4.nb = m2.nb ∧ m4.fresh = m2.fresh ∧ m4.num = m2.num := by
    rw [← hm4, ← hm3]
    split <;> split <;> exact ⟨rfl, rfl, rfl, rfl, rfl⟩
  have hf4 : m4.first = if m2.first = some d then some m.fresh else m2.first := by
    rw [← hm4, ← hm3]
    by_cases x1 : m2.first = some d <;> simp only [x1, if_true, if_false] <;> split <;> first | rfl | exact x1
  have hl4 : m4.last = if m2.last = some d then some m.fresh else m2.last := by
    rw [← hm4, ← hm3]
    by_cases x1 : m2.first = some d <;> by_cases x2 : m2.last = some d <;> simp [x1, x2]
  have hm4p : m4.mem m.fresh = some ⟨n.key, v, n.prev, n.next, n.child⟩ := by rw [m34.1, u2 _ hfab, hm0p]
  have hlinks : Links m4 (a ++ m.fresh :: b) := by
    refine ⟨?_, ?_, ?_, ?_⟩
    · have := List.nodup_append.1 hndab
      rw [List.nodup_append]
      refine ⟨this.1, List.nodup_cons.2 ⟨hfb, this.2.1⟩, ?_⟩
      intro x hx y hy
      rcases List.mem_cons.1 hy with rfl | hy
      · rintro rfl; exact hfa hx
      · exact this.2.2 x hx y hy
    · rw [m34.1, seg_append]
      refine ⟨by simpa using ga, ⟨⟨n.key, v, n.prev, n.next, n.child⟩, by rw [← m34.1]; exact hm4p, by simpa using hpv, by simpa using hnx⟩, gb⟩
    · have : m0.first = m.first := by rw [← hm0]; rfl
      rw [hf4, f2, this, h.links.first, ho]
      cases a with
      | nil => simp
      | cons x a =>
        have : x ≠ d := fun e => hda (by simp [e])
        simp [this]
    · have : m0.last = m.last := by rw [← hm0]; rfl
      rw [hl4, l2, this, h.links.last, ho]
      rcases List.eq_nil_or_concat b with rfl | ⟨b', x, rfl⟩
      · simp
      · rw [List.concat_eq_append] at *
        have hx : x ≠ d := fun e => hdb (by simp [e])
        have e1 : ∀ z, (a ++ z :: (b' ++ [x])).getLast? = some x := fun z => by
          rw [show a ++ z :: (b' ++ [x]) = (a ++ z :: b') ++ [x] by simp, List.getLast?_concat]
        rw [e1, e1, if_neg (by simpa using hx)]
  -- the chain
  have hsub : ∀ q ∈ c, q ≠ m.fresh := fun q hq e => hnot (by rw [← e]; exact ((h3 q).1 hq).1)
  have hkeep : ∀ q x, q ≠ m.fresh → m.mem q = some x → ∃ y, m4.mem q = some y ∧ y.key = x.key ∧ y.value = x.value ∧ y.child = x.child := by
    intro q x hq hx
    obtain ⟨y, a1, a2⟩ := s2.fwd (p := q) (n := x) (by rw [hm0q q hq, hx])
    exact ⟨y, by rw [m34.1]; exact a1, a2⟩
  have hkeep' : ∀ q y, q ≠ m.fresh → m4.mem q = some y → ∃ x, m.mem q = some x ∧ x.key = y.key ∧ x.value = y.value ∧ x.child = y.child := by
    intro q y hq hy
    rw [m34.1] at hy
    obtain ⟨x, a1, a2⟩ := s2.back hy
    rw [hm0q q hq] at a1
    exact ⟨x, a1, a2⟩
  have hb4 : m4.buckets = m.buckets := by rw [m34.2.1, s2.buckets, ← hm0]; rfl
  have h1' : Path m4.mem (m4.buckets (m.bucket hash n.key)) c := by
    rw [hb4]
    refine h1.frame (fun q hq x hx => ?_)
    obtain ⟨y, a1, _, _, a2⟩ := hkeep q x (hsub q hq) hx
    exact ⟨y, a1, a2⟩
  rw [hc] at h1' h2
  have hnd := List.nodup_append.1 h2
  have hdpre : d ∉ pre := fun hm => hnd.2.2 d hm d (by simp) rfl
  have hdpost : d ∉ post := (List.nodup_cons.1 hnd.2.1).1
  have hfpre : m.fresh ∉ pre := fun hm => hsub _ (by rw [hc]; simp [hm]) rfl
  have hfpost : m.fresh ∉ post := fun hm => hsub _ (by rw [hc]; simp [hm]) rfl
  have hpost : Path m4.mem n.child post := by
    obtain ⟨nd, hnd4, _, _, hndc⟩ := hkeep d n hdf hn
    have : ∀ (pre : List Nat) (o : Option Nat), Path m4.mem o (pre ++ d :: post) → Path m4.mem n.child post := by
      intro pre
      induction pre with
      | nil =>
        intro o ho'
        obtain ⟨_, n', e3, e4⟩ := ho'
        rw [hnd4] at e3; injection e3 with e3; subst e3; rw [← hndc]; exact e4
      | cons q pre ih =>
        intro o ho'
        obtain ⟨_, n', e3, e4⟩ := ho'
        exact ih _ e4
    exact this pre _ h1'
  obtain ⟨m5, o5, g1, g2, g3, g4, g5, g6⟩ := store_spec (m := m4) (some m.fresh) (m.fresh :: post) ⟨rfl, _, hm4p, hpost⟩ pre
    (.bucket (m.bucket hash n.key)) _ (d :: post) rfl h1' (by simpa [slotCell] using hnd.1)
    (by
      intro x hx hx'
      simp only [slotCell, List.nil_append] at hx
      rcases List.mem_cons.1 hx' with rfl | hx'
      · exact hfpre hx
      · exact hnd.2.2 x hx x (List.mem_cons_of_mem _ hx') rfl)
  have hl5 := g4.links hlinks
  generalize hm6 : m5.write d none = m6
  have hm6d : m6.mem d = none := by rw [← hm6]; exact write_mem_same _ _ _
  have hm6q : ∀ q, q ≠ d → m6.mem q = m5.mem q := fun q hq => by rw [← hm6]; exact write_mem_ne _ _ hq
  have hdn : d ∉ a ++ m.fresh :: b := by
    rw [List.mem_append, List.mem_cons]
    rintro (h | h | h)
    · exact hda h
    · exact hdf h
    · exact hdb h
  obtain ⟨n5, hn5, hn5k, hn5v, _⟩ := g4.fwd hm4p
  have hn6 : m6.mem m.fresh = some n5 := by rw [hm6q _ (Ne.symm hdf), hn5]
  have hnb6 : m6.nb = m.nb := by rw [← hm6]; show m5.nb = _; rw [g4.nb, m34.2.2.1, s2.nb, ← hm0]; rfl
  have hfwd : ∀ q x, q ≠ m.fresh → q ≠ d → m.mem q = some x → ∃ y, m6.mem q = some y ∧ y.key = x.key ∧ y.value = x.value ∧ (q ∉ pre → y.child = x.child) := by
    intro q x hq hqd hx
    obtain ⟨y, a1, a2, a3, a4⟩ := hkeep q x hq hx
    obtain ⟨z, b1, b2, b3, _⟩ := g4.fwd a1
    refine ⟨z, by rw [hm6q q hqd, b1], by rw [b2, a2], by rw [b3, a3], ?_⟩
    intro hqp
    have := g5 q (by simpa [slotCell] using hqp)
    rw [b1, a1] at this
    injection this with this
    rw [this, a4]
  have hback : ∀ q y, q ≠ m.fresh → m6.mem q = some y → q ≠ d ∧ ∃ x, m.mem q = some x ∧ x.key = y.key ∧ x.value = y.value := by
    intro q y hq hy
    have hqd : q ≠ d := by rintro rfl; rw [hm6d] at hy; cases hy
    rw [hm6q q hqd] at hy
    obtain ⟨x1, a1, a2, a3, _⟩ := g4.back hy
    obtain ⟨x2, b1, b2, b3, _⟩ := hkeep' q x1 hq a1
    exact ⟨hqd, x2, b1, by rw [b2, a2], by rw [b3, a3]⟩
  have hmem : ∀ q, q ∈ a ++ m.fresh :: b ↔ q = m.fresh ∨ (q ∈ order ∧ q ≠ d) := by
    intro q
    rw [ho]
    constructor
    · intro hq
      rcases List.mem_append.1 hq with h | h
      · exact Or.inr ⟨by simp [h], fun e => hda (by rw [← e]; exact h)⟩
      · rcases List.mem_cons.1 h with h | h
        · exact Or.inl h
        · exact Or.inr ⟨by simp [h], fun e => hdb (by rw [← e]; exact h)⟩
    · rintro (rfl | ⟨hq, hne⟩)
      · simp
      · rcases List.mem_append.1 hq with h | h
        · simp [h]
        · rcases List.mem_cons.1 h with h | h
          · exact absurd h hne
          · simp [h]
  have hbk : ∀ q ∈ c, ∃ x, m.mem q = some x ∧ hash x.key % m.nb = m.bucket hash n.key := fun q hq => ((h3 q).1 hq).2
  refine ⟨m.fresh, m6, a ++ m.fresh :: b, n5, ?_, ?_, hnb6, by simp, hn6, hn5k, hn5v, ?_⟩
  · unfold replace
    rw [hn]
    simp only [Option.bind_eq_bind, Option.bind_some]
    rw [hm0]
    simp only [hpv, hnx, e1, Option.bind_some, e2, hm3, hm4, g1, hm6]
  · refine ⟨⟨hl5.nodup, ?_, by rw [← hm6]; exact hl5.first, by rw [← hm6]; exact hl5.last⟩, ?_, ?_, ?_, ?_, ?_, by rw [hnb6]; exact h.nb⟩
    · exact hl5.seg.frame' (fun q hq => hm6q q (fun e => hdn (by rw [← e]; exact hq)))
    · refine chains_of hash h.chains hnb6 (m.bucket hash n.key) ⟨pre ++ m.fresh :: post, ?_, ?_, ?_⟩ ?_ ?_ ?_
      · have : m6.buckets = m5.buckets := by rw [← hm6]; rfl
        rw [this]
        simp only [Map.load, Option.some.injEq] at g2
        rw [g2]
        refine g3.frame (fun q hq x hx => ⟨x, ?_, rfl⟩)
        rw [hm6q q _, hx]
        rintro rfl
        rcases List.mem_append.1 hq with h | h
        · exact hdpre h
        · rcases List.mem_cons.1 h with h | h
          · exact hdf h
          · exact hdpost h
      · rw [List.nodup_append]
        refine ⟨hnd.1, List.nodup_cons.2 ⟨hfpost, (List.nodup_cons.1 hnd.2.1).2⟩, ?_⟩
        intro x hx y hy
        rcases List.mem_cons.1 hy with rfl | hy
        · rintro rfl; exact hfpre hx
        · exact hnd.2.2 x hx y (List.mem_cons_of_mem _ hy)
      · intro q
        have hqc : q ∈ pre ++ m.fresh :: post ↔ q = m.fresh ∨ (q ∈ c ∧ q ≠ d) := by
          rw [hc]
          constructor
          · intro hq
            rcases List.mem_append.1 hq with h | h
            · exact Or.inr ⟨by simp [h], fun e => hdpre (by rw [← e]; exact h)⟩
            · rcases List.mem_cons.1 h with h | h
              · exact Or.inl h
              · exact Or.inr ⟨by simp [h], fun e => hdpost (by rw [← e]; exact h)⟩
          · rintro (rfl | ⟨hq, hne⟩)
            · simp
            · rcases List.mem_append.1 hq with h | h
              · simp [h]
              · rcases List.mem_cons.1 h with h | h
                · exact absurd h hne
                · simp [h]
        rw [hqc, h3 q, hmem q]
        constructor
        · rintro (rfl | ⟨⟨g1, x, g2, g3⟩, hne⟩)
          · exact ⟨Or.inl rfl, n5, hn6, by rw [hn5k]; rfl⟩
          · obtain ⟨y, a1, a2, _⟩ := hfwd q x (fun e => hnot (by rw [← e]; exact g1)) hne g2
            exact ⟨Or.inr ⟨g1, hne⟩, y, a1, by rw [a2]; exact g3⟩
        · rintro ⟨rfl | ⟨g1, hne⟩, y, g2, g3⟩
          · exact Or.inl rfl
          · obtain ⟨_, x, a1, a2, _⟩ := hback q y (fun e => hnot (by rw [← e]; exact g1)) g2
            exact Or.inr ⟨⟨g1, x, a1, by rw [a2]; exact g3⟩, hne⟩
      · intro i hi
        have : m6.buckets i = m5.buckets i := by rw [← hm6]; rfl
        rw [this, g6 i (fun b' e => by injection e with e; rw [← e]; exact hi), hb4]
      · intro q hq x hx hne
        have hqd : q ≠ d := by
          rintro rfl
          rw [hn] at hx; injection hx with hx; subst hx
          exact hne rfl
        obtain ⟨y, a1, a2, _, a3⟩ := hfwd q x (fun e => hnot (by rw [← e]; exact hq)) hqd hx
        refine ⟨(hmem q).2 (Or.inr ⟨hq, hqd⟩), y, a1, a2, a3 ?_⟩
        intro hqpre
        obtain ⟨x', b1, b2⟩ := hbk q (by rw [hc]; simp [hqpre])
        rw [hx] at b1; injection b1 with b1; subst b1
        exact hne b2
      · intro q hq y hy hne
        have hqf : q ≠ m.fresh := by
          rintro rfl
          rw [hn6] at hy; injection hy with hy; subst hy
          exact hne (by rw [hn5k]; rfl)
        obtain ⟨_, x, a1, a2, _⟩ := hback q y hqf hy
        exact ⟨(((hmem q).1 hq).resolve_left hqf).1, x, a1, a2⟩
    · intro q r x y hq hr e3 e4 hkk
      have key : ∀ q x, q ∈ a ++ m.fresh :: b → m6.mem q = some x → (q = m.fresh ∧ x.key = n.key) ∨ (q ∈ order ∧ q ≠ d ∧ ∃ x', m.mem q = some x' ∧ x'.key = x.key) := by
        intro q x hq hx
        by_cases hqf : q = m.fresh
        · subst hqf
          rw [hn6] at hx; injection hx with hx; subst hx
          exact Or.inl ⟨rfl, hn5k⟩
        · obtain ⟨hqd, x', a1, a2, _⟩ := hback q x hqf hx
          exact Or.inr ⟨(((hmem q).1 hq).resolve_left hqf).1, hqd, x', a1, a2⟩
      rcases key q x hq e3 with ⟨q1, q2⟩ | ⟨q1, q2, x', q3, q4⟩ <;> rcases key r y hr e4 with ⟨r1, r2⟩ | ⟨r1, r2, y', r3, r4⟩
      · rw [q1, r1]
      · exact absurd (h.uniq r d y' n r1 hd r3 hn (by rw [r4, ← hkk, q2])) r2
      · exact absurd (h.uniq q d x' n q1 hd q3 hn (by rw [q4, hkk, r2])) q2
      · exact h.uniq q r x' y' q1 r1 q3 r3 (by rw [q4, r4, hkk])
    · have : m6.num = m5.num := by rw [← hm6]; rfl
      have h0 : m0.num = m.num := by rw [← hm0]; rfl
      rw [this, g4.num, m34.2.2.2.2, s2.num, h0, h.num, ho]; simp
    · intro q
      rw [hmem q]
      by_cases hqf : q = m.fresh
      · subst hqf; exact ⟨fun _ => ⟨_, hn6⟩, fun _ => Or.inl rfl⟩
      · constructor
        · rintro (e | ⟨hq, hne⟩)
          · exact absurd e hqf
          · obtain ⟨x, hx⟩ := h.get hash hq
            obtain ⟨y, a1, _⟩ := hfwd q x hqf hne hx; exact ⟨y, a1⟩
        · rintro ⟨y, hy⟩
          obtain ⟨hne, x, a1, _⟩ := hback q y hqf hy
          exact Or.inr ⟨(h.live q).2 ⟨x, a1⟩, hne⟩
    · intro q y hy
      have hfr : m6.fresh = m.fresh + 1 := by rw [← hm6]; show m5.fresh = _; rw [g4.fresh, m34.2.2.2.1, s2.fresh, ← hm0]
      rw [hfr]
      by_cases hqf : q = m.fresh
      · omega
      · obtain ⟨_, x, a1, _⟩ := hback q y hqf hy
        have := h.bound q x a1; omega
  · have hva : ∀ l, (∀ q ∈ l, q ∈ order ∧ q ≠ d) → view m6 l = view m l := by
      intro l hl
      refine view_frame (fun q hq => ?_)
      obtain ⟨h5, h6⟩ := hl q hq
      obtain ⟨x, hx⟩ := h.get hash h5
      obtain ⟨y, a1, a2, a3, _⟩ := hfwd q x (fun e => hnot (by rw [← e]; exact h5)) h6 hx
      rw [hx, a1]; simp [a2, a3]
    rw [view_append, view_cons m6 hn6, hn5k, hn5v, hv, place_current ha hb, hva a, hva b]
    · intro q hq; exact ⟨by rw [ho]; simp [hq], fun e => hdb (by rw [← e]; exact hq)⟩
    · intro q hq; exact ⟨by rw [ho]; simp [hq], fun e => hda (by rw [← e]; exact hq)⟩

/-- A new record at the end of its chain. -/
theorem appendNew_spec {m : Map K V} {order : List Nat} (h : WF hash m order) (k : K) (v : V) (mode : Mode) (hk : ∀ p ∈ order, ∀ n, m.mem p = some n → n.key ≠ k)
    {c : List Nat} (h1 : Path m.mem (m.buckets (m.bucket hash k)) c) (h2 : c.Nodup)
    (h3 : ∀ p, p ∈ c ↔ p ∈ order ∧ ∃ x, m.mem p = some x ∧ hash x.key % m.nb = m.bucket hash k) (m0 : Map K V)
    (hm0 : ({ m.write m.fresh (some ⟨k, v, none, none, none⟩) with fresh := m.fresh + 1 } : Map K V) = m0) :
    ∃ m1 m2 order', linkNew m0 m.fresh mode = some m1 ∧ m1.store (endSlot (.bucket (m.bucket hash k)) c) (some m.fresh) = some m2 ∧
      WF hash { m2 with num := m2.num + 1 } order' ∧ m2.nb = m.nb ∧ view { m2 with num := m2.num + 1 } order' = Spec.enter (view m order) k v mode := by
  have hnot : m.fresh ∉ order := fun hm => by obtain ⟨n, hn⟩ := h.get hash hm; have := h.bound _ _ hn; omega
  obtain ⟨m1, order', e1, l1, s1, hmem, hlen, hv⟩ := linkNew_spec hash h k v mode m0 hm0
  have hm0p : m0.mem m.fresh = some ⟨k, v, none, none, none⟩ := by rw [← hm0]; exact write_mem_same _ _ _
  have hm0q : ∀ q, q ≠ m.fresh → m0.mem q = m.mem q := fun q hq => by rw [← hm0]; exact write_mem_ne _ _ hq
  obtain ⟨n1, hn1, hn1k, hn1v, hn1c⟩ := s1.fwd hm0p
  have hfc : m.fresh ∉ c := fun hm => hnot ((h3 _).1 hm).1
  have hb1 : m1.buckets = m.buckets := by rw [s1.buckets, ← hm0]; rfl
  have h1' : Path m1.mem (m1.buckets (m.bucket hash k)) (c ++ []) := by
    rw [hb1, List.append_nil]
    refine h1.frame (fun q hq x hx => ?_)
    obtain ⟨y, a1, _, _, a2⟩ := s1.fwd (p := q) (n := x) (by rw [hm0q q (fun e => hfc (by rw [← e]; exact hq)), hx])
    exact ⟨y, a1, a2⟩
  obtain ⟨m2, o2, g1, g2, g3, g4, g5, g6⟩ := store_spec (m := m1) (some m.fresh) [m.fresh] ⟨rfl, n1, hn1, hn1c⟩ c
    (.bucket (m.bucket hash k)) _ [] rfl h1' (by simpa [slotCell] using h2)
    (by
      intro x hx hx'
      simp only [slotCell, List.nil_append] at hx
      rw [List.mem_singleton] at hx'
      subst hx'; exact hfc hx)
  obtain ⟨n2, hn2, hn2k, hn2v, _⟩ := g4.fwd hn1
  have hnb : m2.nb = m.nb := by rw [g4.nb, s1.nb, ← hm0]; rfl
  refine ⟨m1, m2, order', e1, g1, ?_, hnb, ?_⟩
  · have hl2 := g4.links l1
    refine attach_spec hash h k hk (m2 := { m2 with num := m2.num + 1 }) ⟨hl2.nodup, hl2.seg, hl2.first, hl2.last⟩ hmem hlen hn2 (by rw [hn2k, hn1k]) ?_ ?_ hnb
      ⟨c ++ [m.fresh], ?_, ?_, ?_⟩ ?_ ?_ ?_
    · intro q n hq hn
      obtain ⟨y, a1, a2, a3, a4⟩ := s1.fwd (p := q) (n := n) (by rw [hm0q q hq, hn])
      obtain ⟨z, b1, b2, b3, _⟩ := g4.fwd a1
      refine ⟨z, b1, by rw [b2, a2], ?_⟩
      intro hne
      have hqc : q ∉ c := by
        intro hm
        obtain ⟨_, x, c1, c2⟩ := (h3 q).1 hm
        rw [hn] at c1; injection c1 with c1; subst c1
        exact hne c2
      have := g5 q (by simpa [slotCell] using hqc)
      rw [b1, a1] at this
      injection this with this
      rw [this, a4]
    · intro q n hq hn
      obtain ⟨y, a1, a2, _⟩ := g4.back hn
      obtain ⟨z, b1, b2, _⟩ := s1.back a1
      rw [hm0q q hq] at b1
      exact ⟨z, b1, by rw [b2, a2]⟩
    · simp only [Map.load, Option.some.injEq] at g2
      show Path m2.mem (m2.buckets _) _
      rw [g2]; exact g3
    · rw [List.nodup_append]
      refine ⟨h2, by simp, ?_⟩
      intro x hx y hy e
      rw [List.mem_singleton] at hy
      subst hy; subst e; exact hfc hx
    · intro p
      rw [List.mem_append, List.mem_singleton, h3 p, or_comm]
    · intro i hi
      show m2.buckets i = _
      rw [g6 i (fun b' e => by injection e with e; rw [← e]; exact hi), hb1]
    · show m2.num + 1 = _
      rw [g4.num, s1.num, ← hm0]; rfl
    · show m2.fresh = _
      rw [g4.fresh, s1.fresh, ← hm0]
  · rw [← hv, ← view_same s1, ← g4.view]; rfl

theorem migrate_spec {m dest : Map K V} {order order2 : List Nat} (h : WF hash m order) (hd : WF hash dest order2) (k : K) (mode : Mode) :
    ∃ m' dest' o1 o2, migrate hash m dest k mode = some (Spec.lookup (view m order) k, m', dest') ∧ WF hash m' o1 ∧ WF hash dest' o2 ∧ m'.nb = m.nb ∧ dest'.nb = dest.nb ∧
      view m' o1 = Spec.without (view m order) k ∧
      view dest' o2 = match Spec.lookup (view m order) k with
        | none => view dest order2
        | some v => match Spec.lookup (view dest order2) k with
          | none => Spec.enter (view dest order2) k v mode
          | some _ => Spec.place (view dest order2) k v mode := by
  obtain ⟨r, m', o1, e, h1, h2, h3, h4, h5⟩ := takeOut_spec hash h k
  cases r with
  | none =>
    refine ⟨m', dest, o1, order2, ?_, h1, hd, h2, rfl, h5, ?_⟩
    · unfold migrate; rw [e, ← h3]; rfl
    · rw [← h3]; rfl
  | some n =>
    have hk := h4 n rfl
    rw [← h3]
    obtain ⟨c, pre, r, g1, g2, g3, g4, g5⟩ := find_spec hash hd k
    cases r with
    | none =>
      obtain ⟨hpre, habs⟩ := g5
      subst hpre
      obtain ⟨m1, m2, o2, f1, f2, f3, f4, f5⟩ := appendNew_spec hash hd k n.value mode habs g2 g3 g4 _ rfl
      refine ⟨m', { m2 with num := m2.num + 1 }, o1, o2, ?_, h1, f3, h2, f4, h5, ?_⟩
      · unfold migrate
        simp only [e, Option.bind_eq_bind, Option.bind_some, g1, hk, f1, f2]
        rfl
      · rw [absent_lookup (absent_of habs)]; exact f5
    | some d =>
      obtain ⟨hdm, ⟨post, hc⟩, nd, hnd, hndk⟩ := g5
      subst hndk
      obtain ⟨p, d1, o2, n', f1, f2, f3, f4, f5, f6, f7, f8⟩ := replace_spec hash hd hdm hnd n.value g2 g3 g4 hc
      obtain ⟨a, b, ho, _, _, hv, ha, hb⟩ := split_at hash hd hdm hnd
      obtain ⟨d2, o3, q1, q2, q3, q4⟩ := move_spec hash f2 f4 f5 mode
      refine ⟨m', d2, o1, o3, ?_, h1, q2, h2, by rw [q3.nb, f3], h5, ?_⟩
      · unfold migrate
        simp only [e, Option.bind_eq_bind, Option.bind_some, g1, hk, f1, q1]
        rfl
      · have hl : Spec.lookup (view dest order2) nd.key = some nd.value := by rw [hv]; exact lookup_split ha
        rw [hl]
        show _ = Spec.place (view dest order2) nd.key n.value mode
        rw [q4, f8, f6, f7, hv, place_current ha hb]
        cases mode with
        | current => rw [place_current ha hb, place_current ha hb]
        | first => simp only [Spec.place]; rw [without_split ha hb, without_split ha hb]
        | last => simp only [Spec.place]; rw [without_split ha hb, without_split ha hb]

/-! ### The other operations -/

theorem new_wf (nb : Nat) : WF hash (Map.new nb : Map K V) [] where
  links := ⟨List.nodup_nil, trivial, rfl, rfl⟩
  chains i _ := ⟨[], rfl, List.nodup_nil, by simp⟩
  uniq := by simp
  num := rfl
  live p := by simp [Map.new]
  bound p n h := by simp [Map.new] at h
  nb := by simp only [Map.new, defaultBuckets]; split <;> omega

theorem insert_spec {m : Map K V} {order : List Nat} (h : WF hash m order) (k : K) (v : V) :
    ∃ m' order', insert hash m k v = some ((Spec.lookup (view m order) k).isNone, m') ∧ WF hash m' order' ∧ m'.nb = m.nb ∧
      view m' order' = match Spec.lookup (view m order) k with
        | none => view m order ++ [(k, v)]
        | some _ => view m order := by
  obtain ⟨c, pre, r, e, h1, h2, h3, h4⟩ := find_spec hash h k
  unfold insert
  rw [e]
  cases r with
  | none =>
    rw [absent_lookup (absent_of h4.2)]
    obtain ⟨m', o', g1, g2, g3, g4⟩ := create_spec hash h k v .current h4.2
    exact ⟨m', o', by simp [g1], g2, g3, g4⟩
  | some p =>
    obtain ⟨hp, _, n, hn, hk⟩ := h4
    obtain ⟨a, b, _, _, _, hv, ha, hb⟩ := split_at hash h hp hn
    have hl : Spec.lookup (view m order) k = some n.value := by rw [hv, ← hk]; exact lookup_split ha
    rw [hl]
    exact ⟨m, order, rfl, h, rfl, rfl⟩

theorem walk_spec {m : Map K V} : ∀ (l : List Nat) (pv : Option Nat) (fuel : Nat), Seg m.mem pv l none → l.length ≤ fuel → walk m fuel l.head? = some (view m l) := by
  intro l
  induction l with
  | nil => intro pv fuel _ _; cases fuel <;> rfl
  | cons p l ih =>
    intro pv fuel hs hf
    obtain ⟨⟨n, h1, h2, h3⟩, h4⟩ := hs
    simp only [List.length_cons] at hf
    obtain ⟨fuel, rfl⟩ : ∃ f, fuel = f + 1 := ⟨fuel - 1, by omega⟩
    rw [Option.or_none] at h3
    simp only [List.head?_cons, walk, h1, h3]
    rw [ih (some p) fuel h4 (by omega), view_cons m h1]; rfl

theorem toList_spec {m : Map K V} {order : List Nat} (h : WF hash m order) : toList m = some (view m order) := by
  unfold toList
  rw [h.links.first]
  exact walk_spec order none m.num h.links.seg (by rw [h.num]; omega)

theorem walkBack_spec {m : Map K V} : ∀ (k : Nat) (l : List Nat) (nx : Option Nat) (fuel : Nat), l.length = k → Seg m.mem none l nx → l.length ≤ fuel →
    walkBack m fuel l.getLast? = some (view m l).reverse := by
  intro k
  induction k with
  | zero =>
    intro l nx fuel hl _ _
    rw [List.length_eq_zero_iff] at hl
    subst hl
    cases fuel <;> rfl
  | succ k ih =>
    intro l nx fuel hl hs hf
    rcases List.eq_nil_or_concat l with rfl | ⟨l', p, rfl⟩
    · simp at hl
    · rw [List.concat_eq_append] at *
      rw [List.length_append, List.length_singleton] at hl hf
      obtain ⟨fuel, rfl⟩ : ∃ f, fuel = f + 1 := ⟨fuel - 1, by omega⟩
      rw [seg_append] at hs
      obtain ⟨h1, ⟨n, h2, h3, _⟩, _⟩ := hs
      rw [Option.or_none] at h3
      simp only [List.getLast?_concat, walkBack, h2, h3]
      rw [ih l' _ fuel (by omega) h1 (by omega), view_append, view_cons m h2]
      simp [view]

theorem front_spec {m : Map K V} {order : List Nat} (h : WF hash m order) : front m = (view m order).head? := by
  unfold front
  rw [h.links.first]
  cases order with
  | nil => rfl
  | cons p l =>
    obtain ⟨n, hn⟩ := h.get hash (p := p) (by simp)
    simp [hn, view_cons m hn]

theorem back_spec {m : Map K V} {order : List Nat} (h : WF hash m order) : back m = (view m order).getLast? := by
  unfold back
  rw [h.links.last]
  rcases List.eq_nil_or_concat order with rfl | ⟨l, p, rfl⟩
  · rfl
  · rw [List.concat_eq_append] at *
    obtain ⟨n, hn⟩ := h.get hash (p := p) (by simp)
    rw [view_append, view_cons m hn]
    simp [hn, view]

theorem deleteLoop_spec : ∀ (k : Nat) (l : List Nat) (m : Map K V) (nx : Option Nat) (fuel : Nat), l.length = k → l.Nodup → Seg m.mem none l nx → l.length ≤ fuel →
    ∃ m', deleteLoop fuel m l.getLast? = some m' ∧ m'.nb = m.nb ∧ m'.fresh = m.fresh ∧ (∀ p, m'.mem p = if p ∈ l then none else m.mem p) := by
  intro k
  induction k with
  | zero =>
    intro l m nx fuel hl _ _ _
    rw [List.length_eq_zero_iff] at hl
    subst hl
    refine ⟨m, by cases fuel <;> rfl, rfl, rfl, by simp⟩
  | succ k ih =>
    intro l m nx fuel hl hnd hs hf
    rcases List.eq_nil_or_concat l with rfl | ⟨l', p, rfl⟩
    · simp at hl
    · rw [List.concat_eq_append] at *
      rw [List.length_append, List.length_singleton] at hl hf
      obtain ⟨fuel, rfl⟩ : ∃ f, fuel = f + 1 := ⟨fuel - 1, by omega⟩
      have hnd' := List.nodup_append.1 hnd
      have hpl : p ∉ l' := fun hm => hnd'.2.2 p hm p (by simp) rfl
      rw [seg_append] at hs
      obtain ⟨h1, ⟨n, h2, h3, _⟩, _⟩ := hs
      rw [Option.or_none] at h3
      obtain ⟨m', e1, e2, e3, e4⟩ := ih l' (m.write p none) _ fuel (by omega) hnd'.1
        (h1.frame' (fun q hq => write_mem_ne _ _ (fun e => hpl (by rw [← e]; exact hq)))) (by omega)
      refine ⟨m', ?_, e2, e3, ?_⟩
      · simp only [List.getLast?_concat, deleteLoop, h2, h3]; exact e1
      · intro q
        rw [e4 q]
        by_cases hq : q ∈ l'
        · simp [hq]
        · by_cases hqp : q = p
          · subst hqp; simp [hq]
          · simp [hq, hqp, write_mem_ne]

theorem clear_spec {m : Map K V} {order : List Nat} (h : WF hash m order) : ∃ m', clear m = some m' ∧ WF hash m' [] ∧ m'.nb = m.nb := by
  unfold clear
  by_cases hz : m.num < 1
  · rw [if_pos hz]
    have : order = [] := by
      have := h.num
      exact List.length_eq_zero_iff.1 (by omega)
    subst this
    exact ⟨m, rfl, h, rfl⟩
  · rw [if_neg hz]
    obtain ⟨m1, e1, e2, e3, e4⟩ := deleteLoop_spec order.length order m none m.num rfl h.links.nodup h.links.seg (by rw [h.num]; omega)
    have hmem : ∀ p, m1.mem p = none := by
      intro p
      rw [e4 p]
      by_cases hp : p ∈ order
      · simp [hp]
      · rw [if_neg hp]
        cases e : m.mem p with
        | none => rfl
        | some n => exact absurd ((h.live p).2 ⟨n, e⟩) hp
    refine ⟨{ m1 with buckets := fun _ => none, first := none, last := none, num := 0 }, ?_, ?_, e2⟩
    · rw [h.links.last, e1]; rfl
    · refine ⟨⟨List.nodup_nil, trivial, rfl, rfl⟩, fun i _ => ⟨[], rfl, List.nodup_nil, by simp⟩, by simp, rfl, ?_, ?_, by show 1 ≤ m1.nb; rw [e2]; exact h.nb⟩
      · intro p; simp [hmem p]
      · intro p n hn; rw [show _ = m1.mem p from rfl, hmem p] at hn; cases hn

/-- The state of `rehash` after the first `done` records. -/
theorem rehashLoop_spec {m0 : Map K V} {order : List Nat} (h : WF hash m0 order) (nb : Nat) (hnb : 1 ≤ nb) : ∀ (rest done : List Nat) (m : Map K V) (fuel : Nat),
    order = done ++ rest → rest.length ≤ fuel → m.nb = nb → m.fresh = m0.fresh → m.num = m0.num → m.first = m0.first → m.last = m0.last →
    (∀ q, (m.mem q).map (fun n => (n.key, n.value, n.prev, n.next)) = (m0.mem q).map (fun n => (n.key, n.value, n.prev, n.next))) →
    Chains hash m done →
    ∃ m', rehashLoop hash fuel m rest.head? = some m' ∧ WF hash m' order ∧ m'.nb = nb ∧ view m' order = view m0 order := by
  intro rest
  induction rest with
  | nil =>
    intro done m fuel ho _ h1 h2 h3 h4 h5 h6 h7
    rw [List.append_nil] at ho
    subst ho
    refine ⟨m, by cases fuel <;> rfl, ?_, h1, ?_⟩
    · have hback : ∀ q n, m.mem q = some n → ∃ n', m0.mem q = some n' ∧ n'.key = n.key := by
        intro q n hn
        have := h6 q
        rw [hn] at this
        cases e : m0.mem q with
        | none => rw [e] at this; simp at this
        | some n' => rw [e] at this; simp only [Option.map_some, Option.some.injEq, Prod.mk.injEq] at this; exact ⟨n', rfl, this.1.symm⟩
      refine ⟨⟨h.links.nodup, h.links.seg.frame (fun q _ n hn => ?_), by rw [h4, h.links.first], by rw [h5, h.links.last]⟩, h7, ?_, by rw [h3, h.num], ?_, ?_, by rw [h1]; exact hnb⟩
      · have := h6 q
        rw [hn] at this
        cases e : m.mem q with
        | none => rw [e] at this; simp at this
        | some n' => rw [e] at this; simp only [Option.map_some, Option.some.injEq, Prod.mk.injEq] at this; exact ⟨n', rfl, this.2.2.1, this.2.2.2⟩
      · intro p q n n' hp hq a1 a2 hk
        obtain ⟨x, b1, b2⟩ := hback p n a1
        obtain ⟨y, c1, c2⟩ := hback q n' a2
        exact h.uniq p q x y hp hq b1 c1 (by rw [b2, c2, hk])
      · intro p
        rw [h.live p]
        have := h6 p
        cases e1 : m.mem p <;> cases e2 : m0.mem p <;> rw [e1, e2] at this <;> simp at this ⊢
      · intro p n hn
        obtain ⟨x, b1, _⟩ := hback p n hn
        rw [h2]; exact h.bound p x b1
    · refine view_frame (fun q _ => ?_)
      have := h6 q
      cases e1 : m.mem q <;> cases e2 : m0.mem q <;> rw [e1, e2] at this <;> simp at this ⊢
      exact ⟨this.1, this.2.1⟩
  | cons p rest ih =>
    intro done m fuel ho hf h1 h2 h3 h4 h5 h6 h7
    simp only [List.length_cons] at hf
    obtain ⟨fuel, rfl⟩ : ∃ f, fuel = f + 1 := ⟨fuel - 1, by omega⟩
    have hpo : p ∈ order := by rw [ho]; simp
    obtain ⟨n0, hn0⟩ := h.get hash hpo
    obtain ⟨n, hn, hnk, hnv, hnp, hnn⟩ : ∃ n, m.mem p = some n ∧ n.key = n0.key ∧ n.value = n0.value ∧ n.prev = n0.prev ∧ n.next = n0.next := by
      have := h6 p
      rw [hn0] at this
      cases e : m.mem p with
      | none => rw [e] at this; simp at this
      | some n' => rw [e] at this; simp only [Option.map_some, Option.some.injEq, Prod.mk.injEq] at this; exact ⟨n', rfl, this⟩
    have hnext : n.next = rest.head? := by
      have hs := h.links.seg
      rw [ho, seg_append] at hs
      obtain ⟨_, ⟨x, hx, _, hx2⟩, _⟩ := hs
      rw [hn0] at hx; injection hx with hx; subst hx
      rw [hnn, hx2, Option.or_none]
    have hpd : p ∉ done := by
      have := h.links.nodup
      rw [ho, List.nodup_append] at this
      exact fun hm => this.2.2 p hm p (by simp) rfl
    generalize hb : m.bucket hash n.key = b
    have hbl : b < m.nb := by rw [← hb]; exact Nat.mod_lt _ (by omega)
    obtain ⟨c, hc1, hc2, hc3⟩ := h7 b hbl
    have hpc : p ∉ c := fun hm => hpd ((hc3 p).1 hm).1
    generalize hm2 : ({ m.write p (some { n with child := m.buckets b }) with
      buckets := fun j => if j = b then some p else m.buckets j } : Map K V) = m2
    have hm2p : m2.mem p = some { n with child := m.buckets b } := by rw [← hm2]; exact write_mem_same _ _ _
    have hm2q : ∀ q, q ≠ p → m2.mem q = m.mem q := fun q hq => by rw [← hm2]; exact write_mem_ne _ _ hq
    have hstep : rehashLoop hash (fuel + 1) m (p :: rest).head? = rehashLoop hash fuel m2 rest.head? := by
      have := modify_some m (fun q => { q with child := m.buckets b }) hn
      simp only [List.head?_cons, rehashLoop, hn, hb, Option.bind_eq_bind, this, Option.bind_some, Map.store]
      rw [← hm2, ← hnext]; rfl
    rw [hstep]
    refine ih (done ++ [p]) m2 fuel (by rw [ho]; simp) (by omega) (by rw [← hm2]; exact h1) (by rw [← hm2]; exact h2) (by rw [← hm2]; exact h3)
      (by rw [← hm2]; exact h4) (by rw [← hm2]; exact h5) ?_ ?_
    · intro q
      by_cases hq : q = p
      · subst hq; rw [hm2p, ← h6 q, hn]; rfl
      · rw [hm2q q hq, h6 q]
    · have hnb2 : m2.nb = m.nb := by rw [← hm2]; rfl
      have hbk : hash n.key % m.nb = b := hb
      refine chains_of hash h7 hnb2 b ⟨p :: c, ?_, List.nodup_cons.2 ⟨hpc, hc2⟩, ?_⟩ ?_ ?_ ?_
      · have : m2.buckets b = some p := by rw [← hm2]; simp
        refine ⟨this, _, hm2p, ?_⟩
        exact hc1.frame (fun q hq x hx => ⟨x, by rw [hm2q q (fun e => hpc (by rw [← e]; exact hq)), hx], rfl⟩)
      · intro q
        rw [List.mem_cons, hc3 q, List.mem_append, List.mem_singleton]
        by_cases hq : q = p
        · subst hq
          exact ⟨fun _ => ⟨Or.inr rfl, _, hm2p, hbk⟩, fun _ => Or.inl rfl⟩
        · rw [hm2q q hq]
          constructor
          · rintro (e | ⟨g1, g2⟩)
            · exact absurd e hq
            · exact ⟨Or.inl g1, g2⟩
          · rintro ⟨g1 | e, g2⟩
            · exact Or.inr ⟨g1, g2⟩
            · exact absurd e hq
      · intro i hi; rw [← hm2]; simp [hi]
      · intro q hq x hx _
        exact ⟨by simp [hq], x, by rw [hm2q q (fun e => hpd (by rw [← e]; exact hq)), hx], rfl, rfl⟩
      · intro q hq x hx hne
        have hqp : q ≠ p := by
          rintro rfl
          rw [hm2p] at hx; injection hx with hx; subst hx
          exact hne hbk
        rw [hm2q q hqp] at hx
        rcases List.mem_append.1 hq with hq | hq
        · exact ⟨hq, x, hx, rfl⟩
        · rw [List.mem_singleton] at hq; exact absurd hq hqp

theorem rehash_spec {m : Map K V} {order : List Nat} (h : WF hash m order) (nb : Nat) (hnb : 1 ≤ nb) :
    ∃ m', rehash hash m nb = some m' ∧ WF hash m' order ∧ m'.nb = nb ∧ view m' order = view m order := by
  unfold rehash
  rw [if_neg (by omega)]
  have := rehashLoop_spec hash h nb hnb order [] { m with nb := nb, buckets := fun _ => none } m.num rfl (by rw [h.num]; omega) rfl rfl rfl rfl rfl
    (fun _ => rfl) (fun i _ => ⟨[], rfl, List.nodup_nil, by simp⟩)
  rw [← h.links.first] at this
  exact this

end Verif.Linked
