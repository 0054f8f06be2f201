import Verif.Containers.Linked
/-
Invariant of `LinkedHashMap` and its preservation.
-/
namespace Verif.Linked

variable {K V : Type} [DecidableEq K] (hash : K → Nat)

abbrev Mem (K V : Type) := Nat → Option (Node K V)

/-! ### Segments of the list -/

/-- The cells of `l` are linked both ways; `pv` precedes and `nx` follows. -/
def Seg (mem : Mem K V) : Option Nat → List Nat → Option Nat → Prop
  | _, [], _ => True
  | pv, p :: l, nx => (∃ n, mem p = some n ∧ n.prev = pv ∧ n.next = l.head?.or nx) ∧ Seg mem (some p) l nx

theorem Seg.frame {mem mem' : Mem K V} {l : List Nat} : ∀ {pv nx}, (∀ p ∈ l, ∀ n, mem p = some n → ∃ n', mem' p = some n' ∧ n'.prev = n.prev ∧ n'.next = n.next) →
    Seg mem pv l nx → Seg mem' pv l nx := by
  induction l with
  | nil => intro pv nx _ _; trivial
  | cons p l ih =>
    intro pv nx h hs
    obtain ⟨⟨n, h1, h2, h3⟩, h4⟩ := hs
    obtain ⟨n', e1, e2, e3⟩ := h p List.mem_cons_self n h1
    exact ⟨⟨n', e1, by rw [e2, h2], by rw [e3, h3]⟩, ih (fun q hq => h q (List.mem_cons_of_mem _ hq)) h4⟩

theorem Seg.frame' {mem mem' : Mem K V} {l : List Nat} {pv nx} (h : ∀ p ∈ l, mem' p = mem p) (hs : Seg mem pv l nx) : Seg mem' pv l nx :=
  hs.frame (fun p hp n hn => ⟨n, by rw [h p hp, hn], rfl, rfl⟩)

theorem Seg.mem {mem : Mem K V} {l : List Nat} : ∀ {pv nx}, Seg mem pv l nx → ∀ p ∈ l, ∃ n, mem p = some n := by
  induction l with
  | nil => intro _ _ _ p hp; cases hp
  | cons q l ih =>
    intro pv nx hs p hp
    obtain ⟨⟨n, h1, _⟩, h4⟩ := hs
    rcases List.mem_cons.1 hp with rfl | hp
    · exact ⟨n, h1⟩
    · exact ih h4 p hp

theorem seg_append {mem : Mem K V} {a b : List Nat} : ∀ {pv nx}, Seg mem pv (a ++ b) nx ↔ Seg mem pv a (b.head?.or nx) ∧ Seg mem (a.getLast?.or pv) b nx := by
  induction a with
  | nil => intro pv nx; simp [Seg]
  | cons p a ih =>
    intro pv nx
    simp only [List.cons_append, Seg]
    rw [ih]
    have e1 : (a ++ b).head?.or nx = a.head?.or (b.head?.or nx) := by cases a <;> simp
    have e2 : (a.getLast?.or (some p)) = ((p :: a).getLast?.or pv) := by
      rw [List.getLast?_cons]
      cases h : a.getLast? <;> simp
    rw [e1, e2, and_assoc]

/-- Changing the link of the last cell. -/
theorem Seg.setNext {mem mem' : Mem K V} {a : List Nat} {q : Nat} {pv nx nx' : Option Nat} (hs : Seg mem pv (a ++ [q]) nx) (hq : q ∉ a)
    (hsame : ∀ p ∈ a, mem' p = mem p) {n : Node K V} (hn : mem q = some n) (hn' : mem' q = some { n with next := nx' }) : Seg mem' pv (a ++ [q]) nx' := by
  rw [seg_append] at hs ⊢
  refine ⟨hs.1.frame' hsame, ?_⟩
  obtain ⟨⟨n0, h1, h2, h3⟩, _⟩ := hs.2
  rw [hn] at h1; injection h1 with h1; subst h1
  exact ⟨⟨_, hn', h2, by simp⟩, trivial⟩

/-- Changing the link of the first cell. -/
theorem Seg.setPrev {mem mem' : Mem K V} {b : List Nat} {r : Nat} {pv pv' nx : Option Nat} (hs : Seg mem pv (r :: b) nx)
    (hsame : ∀ p ∈ b, mem' p = mem p) {n : Node K V} (hn : mem r = some n) (hn' : mem' r = some { n with prev := pv' }) : Seg mem' pv' (r :: b) nx := by
  obtain ⟨⟨n0, h1, h2, h3⟩, h4⟩ := hs
  rw [hn] at h1; injection h1 with h1; subst h1
  exact ⟨⟨_, hn', rfl, h3⟩, h4.frame' hsame⟩

/-! ### Writing -/

@[simp] theorem write_mem_same (m : Map K V) (p : Nat) (n : Option (Node K V)) : (m.write p n).mem p = n := by simp [Map.write]
theorem write_mem_ne (m : Map K V) {p q : Nat} (n : Option (Node K V)) (h : q ≠ p) : (m.write p n).mem q = m.mem q := by simp [Map.write, h]

/-- What writing links leaves alone. -/
structure Same (m m' : Map K V) : Prop where
  nb : m'.nb = m.nb
  buckets : m'.buckets = m.buckets
  fresh : m'.fresh = m.fresh
  num : m'.num = m.num
  data : ∀ q, (m'.mem q).map (fun n => (n.key, n.value, n.child)) = (m.mem q).map (fun n => (n.key, n.value, n.child))

theorem Same.refl (m : Map K V) : Same m m := ⟨rfl, rfl, rfl, rfl, fun _ => rfl⟩
theorem Same.trans {a b c : Map K V} (h1 : Same a b) (h2 : Same b c) : Same a c :=
  ⟨h2.nb.trans h1.nb, h2.buckets.trans h1.buckets, h2.fresh.trans h1.fresh, h2.num.trans h1.num, fun q => (h2.data q).trans (h1.data q)⟩

theorem Same.fwd {m m' : Map K V} (h : Same m m') {p : Nat} {n : Node K V} (hn : m.mem p = some n) :
    ∃ n', m'.mem p = some n' ∧ n'.key = n.key ∧ n'.value = n.value ∧ n'.child = n.child := by
  have := h.data p
  rw [hn] at this
  cases e : m'.mem p with
  | none => rw [e] at this; simp at this
  | some n' => rw [e] at this; simp only [Option.map_some, Option.some.injEq, Prod.mk.injEq] at this; exact ⟨n', rfl, this⟩

theorem Same.back {m m' : Map K V} (h : Same m m') {p : Nat} {n : Node K V} (hn : m'.mem p = some n) :
    ∃ n', m.mem p = some n' ∧ n'.key = n.key ∧ n'.value = n.value ∧ n'.child = n.child := by
  have := h.data p
  rw [hn] at this
  cases e : m.mem p with
  | none => rw [e] at this; simp at this
  | some n' =>
    rw [e] at this
    simp only [Option.map_some, Option.some.injEq, Prod.mk.injEq] at this
    exact ⟨n', rfl, this.1.symm, this.2.1.symm, this.2.2.symm⟩

theorem modify_same {m m' : Map K V} {p : Nat} {f : Node K V → Node K V} (hf : ∀ n, (f n).key = n.key ∧ (f n).value = n.value ∧ (f n).child = n.child)
    (h : m.modify p f = some m') : Same m m' := by
  unfold Map.modify at h
  cases e : m.mem p with
  | none => rw [e] at h; cases h
  | some n =>
    rw [e] at h; injection h with h; subst h
    refine ⟨rfl, rfl, rfl, rfl, fun q => ?_⟩
    by_cases hq : q = p
    · subst hq; rw [write_mem_same, e]; simp [hf n]
    · rw [write_mem_ne _ _ hq]

/-- The state of the list part. -/
structure Links (m : Map K V) (order : List Nat) : Prop where
  nodup : order.Nodup
  seg : Seg m.mem none order none
  first : m.first = order.head?
  last : m.last = order.getLast?

theorem modifyOpt_none (m : Map K V) (f : Node K V → Node K V) : m.modifyOpt none f = some m := rfl
theorem modifyOpt_some (m : Map K V) {p : Nat} {n : Node K V} (f : Node K V → Node K V) (h : m.mem p = some n) :
    m.modifyOpt (some p) f = some (m.write p (some (f n))) := by simp [Map.modifyOpt, Map.modify, h]
theorem modify_some (m : Map K V) {p : Nat} {n : Node K V} (f : Node K V → Node K V) (h : m.mem p = some n) :
    m.modify p f = some (m.write p (some (f n))) := by simp [Map.modify, h]

theorem write_same {m : Map K V} {p : Nat} {n n' : Node K V} (h : m.mem p = some n) (hk : n'.key = n.key) (hv : n'.value = n.value) (hc : n'.child = n.child) :
    Same m (m.write p (some n')) := by
  refine ⟨rfl, rfl, rfl, rfl, fun q => ?_⟩
  by_cases hq : q = p
  · subst hq; rw [write_mem_same, h]; simp [hk, hv, hc]
  · rw [write_mem_ne _ _ hq]

/-- The two halves around a cell with the outer links changed to each other. -/
theorem relink {m : Map K V} {a b : List Nat} (hn : (a ++ b).Nodup) (x y : Option Nat) (ha : Seg m.mem none a x) (hb : Seg m.mem y b none)
    (na nb : Option Nat) :
    ∃ m1 m2, m.modifyOpt a.getLast? (fun q => { q with next := na }) = some m1 ∧ m1.modifyOpt b.head? (fun q => { q with prev := nb }) = some m2 ∧
      Same m m2 ∧ m2.first = m.first ∧ m2.last = m.last ∧ Seg m2.mem none a na ∧ Seg m2.mem nb b none ∧ (∀ p, p ∉ a ++ b → m2.mem p = m.mem p) := by
  rw [List.nodup_append] at hn
  obtain ⟨na1, nb1, hd⟩ := hn
  -- the first half
  have h1 : ∃ m1, m.modifyOpt a.getLast? (fun q => { q with next := na }) = some m1 ∧ Same m m1 ∧ m1.first = m.first ∧ m1.last = m.last ∧
      Seg m1.mem none a na ∧ ∀ p, p ∉ a → m1.mem p = m.mem p := by
    rcases List.eq_nil_or_concat a with rfl | ⟨a', q, rfl⟩
    · exact ⟨m, rfl, .refl m, rfl, rfl, trivial, fun _ _ => rfl⟩
    · rw [List.concat_eq_append] at *
      obtain ⟨n, hq⟩ := ha.mem q (by simp)
      have hqa : q ∉ a' := by
        intro hm
        rw [List.nodup_append] at na1
        exact na1.2.2 q hm q (by simp) rfl
      rw [List.getLast?_concat, modifyOpt_some m _ hq]
      refine ⟨_, rfl, write_same hq rfl rfl rfl, rfl, rfl, ?_, ?_⟩
      · exact ha.setNext hqa (fun p hp => write_mem_ne _ _ (fun e => hqa (e ▸ hp))) hq (write_mem_same _ _ _)
      · intro p hp; exact write_mem_ne _ _ (fun e => hp (by simp [e]))
  obtain ⟨m1, e1, s1, f1, l1, g1, u1⟩ := h1
  have hb1 : Seg m1.mem y b none := hb.frame' (fun p hp => u1 p (fun h => hd p h p hp rfl))
  have h2 : ∃ m2, m1.modifyOpt b.head? (fun q => { q with prev := nb }) = some m2 ∧ Same m1 m2 ∧ m2.first = m1.first ∧ m2.last = m1.last ∧
      Seg m2.mem nb b none ∧ ∀ p, p ∉ b → m2.mem p = m1.mem p := by
    cases b with
    | nil => exact ⟨m1, rfl, .refl m1, rfl, rfl, trivial, fun _ _ => rfl⟩
    | cons r b =>
      obtain ⟨n, hr⟩ := hb1.mem r (by simp)
      rw [List.head?_cons, modifyOpt_some m1 _ hr]
      refine ⟨_, rfl, write_same hr rfl rfl rfl, rfl, rfl, ?_, ?_⟩
      · refine hb1.setPrev (fun p hp => write_mem_ne _ _ ?_) hr (write_mem_same _ _ _)
        rintro rfl; exact (List.nodup_cons.1 nb1).1 hp
      · intro p hp; exact write_mem_ne _ _ (fun e => hp (by simp [e]))
  obtain ⟨m2, e2, s2, f2, l2, g2, u2⟩ := h2
  refine ⟨m1, m2, e1, e2, s1.trans s2, f2.trans f1, l2.trans l1, g1.frame' (fun p hp => u2 p (fun h => hd p hp p h rfl)), g2, ?_⟩
  intro p hp
  rw [List.mem_append] at hp
  rw [u2 p (fun h => hp (Or.inr h)), u1 p (fun h => hp (Or.inl h))]

theorem unlink_spec {m : Map K V} {a b : List Nat} {p : Nat} (h : Links m (a ++ p :: b)) :
    ∃ m', unlink m p = some m' ∧ Links m' (a ++ b) ∧ Same m m' ∧ (∀ q, q ∉ a ++ b → m'.mem q = m.mem q) := by
  obtain ⟨hnd, hseg, hf, hl⟩ := h
  have hnd' : (a ++ b).Nodup := by
    refine hnd.sublist ?_
    exact List.Sublist.append (List.Sublist.refl a) (List.sublist_cons_self p b)
  have hpa : p ∉ a := fun hm => by
    rw [List.nodup_append] at hnd
    exact hnd.2.2 p hm p (by simp) rfl
  have hpb : p ∉ b := by
    rw [List.nodup_append] at hnd
    exact (List.nodup_cons.1 hnd.2.1).1
  rw [seg_append] at hseg
  obtain ⟨sa, ⟨n, hn, hpv, hnx⟩, sb⟩ := hseg
  rw [Option.or_none] at hpv hnx
  obtain ⟨m1, m2, e1, e2, s, f, l, ga, gb, u⟩ := relink hnd' _ _ sa sb n.next n.prev
  have hu : unlink m p = some (let m3 := if m2.first = some p then { m2 with first := n.next } else m2
      if m3.last = some p then { m3 with last := n.prev } else m3) := by
    unfold unlink
    rw [hn]
    simp only [hpv, hnx] at e1 e2 ⊢
    simp only [e1, Option.bind_eq_bind, Option.bind_some, e2]
  rw [hu]
  refine ⟨_, rfl, ?_, ?_, ?_⟩
  · have hmem : ∀ (m2 : Map K V), (let m3 := if m2.first = some p then { m2 with first := n.next } else m2
      if m3.last = some p then { m3 with last := n.prev } else m3).mem = m2.mem := by
      intro m2; simp only; split <;> split <;> rfl
    have hfirst : ∀ (m2 : Map K V), (let m3 := if m2.first = some p then { m2 with first := n.next } else m2
      if m3.last = some p then { m3 with last := n.prev } else m3).first = if m2.first = some p then n.next else m2.first := by
      intro m2; simp only; split <;> split <;> rfl
    have hlast : ∀ (m2 : Map K V), (let m3 := if m2.first = some p then { m2 with first := n.next } else m2
      if m3.last = some p then { m3 with last := n.prev } else m3).last = if m2.last = some p then n.prev else m2.last := by
      intro m2
      simp only
      by_cases h1 : m2.first = some p
      · rw [if_pos h1]; by_cases h2 : m2.last = some p <;> simp [h2]
      · rw [if_neg h1]; by_cases h2 : m2.last = some p <;> simp [h2]
    refine ⟨hnd', ?_, ?_, ?_⟩
    · rw [hmem, seg_append]
      rw [hnx] at ga; rw [hpv] at gb
      rw [Option.or_none, Option.or_none]
      exact ⟨ga, gb⟩
    · rw [hfirst, f, hf, hnx]
      cases a with
      | nil => simp
      | cons x a =>
        have : x ≠ p := fun e => hpa (by simp [e])
        simp [this]
    · rw [hlast, l, hl, hpv]
      rcases List.eq_nil_or_concat b with rfl | ⟨b', x, rfl⟩
      · simp
      · rw [List.concat_eq_append] at *
        have hx : x ≠ p := fun e => hpb (by simp [e])
        have e1 : (a ++ p :: (b' ++ [x])).getLast? = some x := by
          rw [show a ++ p :: (b' ++ [x]) = (a ++ p :: b') ++ [x] by simp, List.getLast?_concat]
        have e2 : (a ++ (b' ++ [x])).getLast? = some x := by
          rw [← List.append_assoc, List.getLast?_concat]
        rw [e1, e2, if_neg (by simpa using hx)]
  · refine s.trans ?_
    refine ⟨?_, ?_, ?_, ?_, fun q => ?_⟩ <;> (simp only; split <;> split <;> rfl)
  · intro q hq
    rw [← u q hq]
    simp only
    split <;> split <;> rfl

theorem linkLast_spec {m : Map K V} {l : List Nat} {p : Nat} {n : Node K V} (h : Links m l) (hp : p ∉ l) (hn : m.mem p = some n) :
    ∃ m', linkLast m p = some m' ∧ Links m' (l ++ [p]) ∧ Same m m' := by
  obtain ⟨hnd, hseg, hf, hl⟩ := h
  have e0 := modify_some m (fun q => { q with prev := m.last, next := none }) hn
  have s0 : Same m (m.write p (some { n with prev := m.last, next := none })) := write_same hn rfl rfl rfl
  generalize hm0 : m.write p (some { n with prev := m.last, next := none }) = m0 at e0 s0
  have hm0p : m0.mem p = some { n with prev := m.last, next := none } := by rw [← hm0, write_mem_same]
  have hseg0 : Seg m0.mem none l none := hseg.frame' (fun q hq => by rw [← hm0, write_mem_ne _ _ (fun e => hp (by rw [← e]; exact hq))])
  have hf0 : m0.first = l.head? := by rw [← hm0]; exact hf
  have hl0 : m0.last = l.getLast? := by rw [← hm0]; exact hl
  -- the head
  have : ∃ m1, (if m0.first = none then { m0 with first := some p } else m0) = m1 ∧ m1.mem = m0.mem ∧ m1.last = m0.last ∧
      m1.first = (l ++ [p]).head? ∧ Same m0 m1 := by
    by_cases hz : m0.first = none
    · refine ⟨_, rfl, ?_, ?_, ?_, ?_⟩ <;> rw [if_pos hz]
      · rw [hf0] at hz
        have : l = [] := by simpa using hz
        simp [this]
      · exact ⟨rfl, rfl, rfl, rfl, fun _ => rfl⟩
    · refine ⟨_, rfl, ?_, ?_, ?_, ?_⟩ <;> rw [if_neg hz]
      · rw [hf0]
        cases l with
        | nil => exact absurd hf0 hz
        | cons x l => rfl
      · exact .refl _
  obtain ⟨m1, e1, hm1, hl1, hf1, s1⟩ := this
  have hnd2 : (l ++ [p]).Nodup := by
    rw [List.nodup_append]
    refine ⟨hnd, by simp, ?_⟩
    intro x hx y hy e
    rw [List.mem_singleton] at hy
    subst hy; subst e; exact hp hx
  obtain ⟨ma, mb, ea, eb, s, f, g, ga, gb, u⟩ := relink (m := m1) (a := l) (b := []) (by rwa [List.append_nil]) none none
    (by rw [hm1]; exact hseg0) trivial (some p) none
  injection eb with eb; subst eb
  refine ⟨{ ma with last := some p }, ?_, ?_, ?_⟩
  · unfold linkLast
    simp only [e0, Option.bind_eq_bind, Option.bind_some]
    rw [e1, hl1, hl0, ea]
    rfl
  · refine ⟨hnd2, ?_, by rw [← hf1, ← f], by simp⟩
    rw [seg_append]
    refine ⟨by simpa using ga, ?_⟩
    refine ⟨⟨{ n with prev := m.last, next := none }, ?_, ?_, rfl⟩, trivial⟩
    · show ma.mem p = _
      rw [u p (by rwa [List.append_nil]), hm1, hm0p]
    · show m.last = _
      rw [hl, Option.or_none]
  · refine (s0.trans s1).trans (s.trans ⟨rfl, rfl, rfl, rfl, fun _ => rfl⟩)

theorem linkFirst_spec {m : Map K V} {l : List Nat} {p : Nat} {n : Node K V} (h : Links m l) (hp : p ∉ l) (hn : m.mem p = some n) :
    ∃ m', linkFirst m p = some m' ∧ Links m' (p :: l) ∧ Same m m' := by
  obtain ⟨hnd, hseg, hf, hl⟩ := h
  have e0 := modify_some m (fun q => { q with prev := none, next := m.first }) hn
  have s0 : Same m (m.write p (some { n with prev := none, next := m.first })) := write_same hn rfl rfl rfl
  generalize hm0 : m.write p (some { n with prev := none, next := m.first }) = m0 at e0 s0
  have hm0p : m0.mem p = some { n with prev := none, next := m.first } := by rw [← hm0, write_mem_same]
  have hseg0 : Seg m0.mem none l none := hseg.frame' (fun q hq => by rw [← hm0, write_mem_ne _ _ (fun e => hp (by rw [← e]; exact hq))])
  have hf0 : m0.first = l.head? := by rw [← hm0]; exact hf
  have hl0 : m0.last = l.getLast? := by rw [← hm0]; exact hl
  have : ∃ m1, (if m0.last = none then { m0 with last := some p } else m0) = m1 ∧ m1.mem = m0.mem ∧ m1.first = m0.first ∧
      m1.last = (p :: l).getLast? ∧ Same m0 m1 := by
    by_cases hz : m0.last = none
    · refine ⟨_, rfl, ?_, ?_, ?_, ?_⟩ <;> rw [if_pos hz]
      · rw [hl0] at hz
        have : l = [] := by simpa using hz
        simp [this]
      · exact ⟨rfl, rfl, rfl, rfl, fun _ => rfl⟩
    · refine ⟨_, rfl, ?_, ?_, ?_, ?_⟩ <;> rw [if_neg hz]
      · rw [hl0, List.getLast?_cons]
        cases e : l.getLast? with
        | none => rw [hl0, e] at hz; exact absurd rfl hz
        | some x => rfl
      · exact .refl _
  obtain ⟨m1, e1, hm1, hf1, hl1, s1⟩ := this
  obtain ⟨ma, mb, ea, eb, s, f, g, ga, gb, u⟩ := relink (m := m1) (a := []) (b := l) (by simpa using hnd) none none
    trivial (by rw [hm1]; exact hseg0) none (some p)
  injection ea with ea; subst ea
  refine ⟨{ mb with first := some p }, ?_, ?_, ?_⟩
  · unfold linkFirst
    simp only [e0, Option.bind_eq_bind, Option.bind_some]
    rw [e1, hf1, hf0, eb]
    rfl
  · refine ⟨List.nodup_cons.2 ⟨hp, hnd⟩, ?_, rfl, by rw [← hl1, ← g]⟩
    refine ⟨⟨{ n with prev := none, next := m.first }, ?_, rfl, ?_⟩, gb⟩
    · show mb.mem p = _
      rw [u p (by simpa using hp), hm1, hm0p]
    · show m.first = _
      rw [hf, Option.or_none]
  · exact (s0.trans s1).trans (s.trans ⟨rfl, rfl, rfl, rfl, fun _ => rfl⟩)

/-! ### Chains -/

/-- The chain from a pointer. -/
def Path (mem : Mem K V) : Option Nat → List Nat → Prop
  | o, [] => o = none
  | o, p :: c => o = some p ∧ ∃ n, mem p = some n ∧ Path mem n.child c

theorem Path.frame {mem mem' : Mem K V} {c : List Nat} : ∀ {o}, (∀ p ∈ c, ∀ n, mem p = some n → ∃ n', mem' p = some n' ∧ n'.child = n.child) →
    Path mem o c → Path mem' o c := by
  induction c with
  | nil => intro o _ h; exact h
  | cons p c ih =>
    intro o h hp
    obtain ⟨h1, n, h2, h3⟩ := hp
    obtain ⟨n', e1, e2⟩ := h p List.mem_cons_self n h2
    exact ⟨h1, n', e1, by rw [e2]; exact ih (fun q hq => h q (List.mem_cons_of_mem _ hq)) h3⟩

theorem Path.same {m m' : Map K V} (h : Same m m') {o c} (hp : Path m.mem o c) : Path m'.mem o c :=
  hp.frame (fun p _ n hn => by obtain ⟨n', e1, _, _, e2⟩ := h.fwd hn; exact ⟨n', e1, e2⟩)

/-- The keys are in the chains of their buckets. -/
def Chains (m : Map K V) (order : List Nat) : Prop :=
  ∀ i, i < m.nb → ∃ c, Path m.mem (m.buckets i) c ∧ c.Nodup ∧ ∀ p, p ∈ c ↔ p ∈ order ∧ ∃ n, m.mem p = some n ∧ hash n.key % m.nb = i

/-- The invariant. -/
structure WF (m : Map K V) (order : List Nat) : Prop where
  links : Links m order
  chains : Chains hash m order
  uniq : ∀ p q n n', p ∈ order → q ∈ order → m.mem p = some n → m.mem q = some n' → n.key = n'.key → p = q
  num : m.num = order.length
  live : ∀ p, p ∈ order ↔ ∃ n, m.mem p = some n
  bound : ∀ p n, m.mem p = some n → p < m.fresh
  nb : 1 ≤ m.nb

/-- The records in order. -/
def view (m : Map K V) (order : List Nat) : List (K × V) := order.filterMap (fun p => (m.mem p).map (fun n => (n.key, n.value)))

theorem view_same {m m' : Map K V} (h : Same m m') (order : List Nat) : view m' order = view m order := by
  unfold view
  congr 1
  funext p
  have := h.data p
  cases e1 : m.mem p <;> cases e2 : m'.mem p <;> rw [e1, e2] at this <;> simp at this ⊢
  exact ⟨this.1, this.2.1⟩

theorem WF.same {m m' : Map K V} {order order' : List Nat} (h : WF hash m order) (s : Same m m') (hl : Links m' order') (hmem : ∀ p, p ∈ order' ↔ p ∈ order)
    (hlen : order'.length = order.length) : WF hash m' order' where
  links := hl
  chains i hi := by
    rw [s.nb] at hi
    obtain ⟨c, h1, h2, h3⟩ := h.chains i hi
    refine ⟨c, ?_, h2, fun p => ?_⟩
    · rw [s.buckets]; exact h1.same s
    · rw [h3 p, hmem p, s.nb]
      constructor
      · rintro ⟨g1, n, g2, g3⟩
        obtain ⟨n', e1, e2, _⟩ := s.fwd g2
        exact ⟨g1, n', e1, by rw [e2]; exact g3⟩
      · rintro ⟨g1, n, g2, g3⟩
        obtain ⟨n', e1, e2, _⟩ := s.back g2
        exact ⟨g1, n', e1, by rw [e2]; exact g3⟩
  uniq p q n n' hp hq e1 e2 hk := by
    obtain ⟨a, a1, a2, _⟩ := s.back e1
    obtain ⟨b, b1, b2, _⟩ := s.back e2
    exact h.uniq p q a b ((hmem p).1 hp) ((hmem q).1 hq) a1 b1 (by rw [a2, b2, hk])
  num := by rw [s.num, h.num, hlen]
  live p := by
    rw [hmem p, h.live p]
    constructor
    · rintro ⟨n, hn⟩; obtain ⟨n', e, _⟩ := s.fwd hn; exact ⟨n', e⟩
    · rintro ⟨n, hn⟩; obtain ⟨n', e, _⟩ := s.back hn; exact ⟨n', e⟩
  bound p n hn := by
    obtain ⟨n', e, _⟩ := s.back hn
    rw [s.fresh]; exact h.bound p n' e
  nb := by rw [s.nb]; exact h.nb

theorem WF.get {m : Map K V} {order : List Nat} (h : WF hash m order) {p : Nat} (hp : p ∈ order) : ∃ n, m.mem p = some n := (h.live p).1 hp

/-! ### The search -/

theorem nodup_subset_length : ∀ (c l : List Nat), c.Nodup → (∀ x ∈ c, x ∈ l) → c.length ≤ l.length := by
  intro c
  induction c with
  | nil => intro l _ _; simp
  | cons x c ih =>
    intro l hn hs
    rw [List.nodup_cons] at hn
    have hx := hs x List.mem_cons_self
    have := ih (l.erase x) hn.2 (fun y hy => (List.mem_erase_of_ne (fun e => hn.1 (by rw [← e]; exact hy))).2 (hs y (List.mem_cons_of_mem _ hy)))
    rw [List.length_erase_of_mem hx] at this
    have : 0 < l.length := List.length_pos_of_mem hx
    simp only [List.length_cons]; omega

/-- The pointer reached from a pointer over some records. -/
def endSlot (s : Slot) : List Nat → Slot
  | [] => s
  | p :: pre => endSlot (.child p) pre

theorem search_spec {m : Map K V} {k : K} : ∀ (c : List Nat) (s : Slot) (fuel : Nat) (o : Option Nat), m.load s = some o → Path m.mem o c → c.length < fuel →
    ∃ pre r, search m k fuel s = some (endSlot s pre, r) ∧
      match r with
      | none => pre = c ∧ ∀ p ∈ c, ∀ n, m.mem p = some n → n.key ≠ k
      | some p => ∃ post, c = pre ++ p :: post ∧ ∃ n, m.mem p = some n ∧ n.key = k := by
  intro c
  induction c with
  | nil =>
    intro s fuel o h hp hf
    obtain ⟨fuel, rfl⟩ : ∃ f, fuel = f + 1 := ⟨fuel - 1, by omega⟩
    have hp : o = none := hp
    subst hp
    exact ⟨[], none, by rw [search, h]; rfl, rfl, by simp⟩
  | cons p c ih =>
    intro s fuel o h hp hf
    obtain ⟨fuel, rfl⟩ : ∃ f, fuel = f + 1 := ⟨fuel - 1, by omega⟩
    obtain ⟨e2, n, e3, e4⟩ := hp
    subst e2
    by_cases hk : n.key = k
    · exact ⟨[], some p, by simp only [search, h, e3, if_pos hk]; rfl, c, rfl, n, e3, hk⟩
    · simp only [List.length_cons] at hf
      obtain ⟨pre, r, g1, g2⟩ := ih (.child p) fuel n.child (by simp only [Map.load, e3, Option.map_some]) e4 (by omega)
      refine ⟨p :: pre, r, by simp only [search, h, e3, if_neg hk, g1]; rfl, ?_⟩
      cases r with
      | none =>
        refine ⟨by rw [g2.1], ?_⟩
        intro q hq n' hn'
        rcases List.mem_cons.1 hq with rfl | hq
        · rw [e3] at hn'; injection hn' with hn'; subst hn'; exact hk
        · exact g2.2 q hq n' hn'
      | some q =>
        obtain ⟨post, rfl, g4⟩ := g2
        exact ⟨post, rfl, g4⟩

theorem find_spec {m : Map K V} {order : List Nat} (h : WF hash m order) (k : K) :
    ∃ c pre r, m.find hash k = some (endSlot (.bucket (m.bucket hash k)) pre, r) ∧
      Path m.mem (m.buckets (m.bucket hash k)) c ∧ c.Nodup ∧
        (∀ p, p ∈ c ↔ p ∈ order ∧ ∃ n, m.mem p = some n ∧ hash n.key % m.nb = m.bucket hash k) ∧
      match r with
      | none => pre = c ∧ (∀ p ∈ order, ∀ n, m.mem p = some n → n.key ≠ k)
      | some p => p ∈ order ∧ (∃ post, c = pre ++ p :: post) ∧ ∃ n, m.mem p = some n ∧ n.key = k := by
  have hb : m.bucket hash k < m.nb := Nat.mod_lt _ h.nb
  obtain ⟨c, h1, h2, h3⟩ := h.chains _ hb
  have hlen : c.length < m.num + 1 := by
    have := nodup_subset_length c order h2 (fun x hx => ((h3 x).1 hx).1)
    rw [h.num]; omega
  obtain ⟨pre, r, g1, g2⟩ := search_spec (k := k) c (.bucket (m.bucket hash k)) (m.num + 1) _ rfl h1 hlen
  refine ⟨c, pre, r, g1, h1, h2, h3, ?_⟩
  cases r with
  | none =>
    refine ⟨g2.1, ?_⟩
    intro p hp n hn hk
    have : p ∈ c := (h3 p).2 ⟨hp, n, hn, by rw [hk]; rfl⟩
    exact g2.2 p this n hn hk
  | some p =>
    obtain ⟨post, e, g4⟩ := g2
    exact ⟨((h3 p).1 (by rw [e]; simp)).1, ⟨post, e⟩, g4⟩

/-- The record a pointer belongs to. -/
def slotCell : Slot → List Nat
  | .bucket _ => []
  | .child p => [p]

/-- What a store to a chain leaves alone. -/
structure StoreSame (m m' : Map K V) : Prop where
  nb : m'.nb = m.nb
  fresh : m'.fresh = m.fresh
  num : m'.num = m.num
  first : m'.first = m.first
  last : m'.last = m.last
  data : ∀ q, (m'.mem q).map (fun n => (n.key, n.value, n.prev, n.next)) = (m.mem q).map (fun n => (n.key, n.value, n.prev, n.next))

theorem StoreSame.fwd {m m' : Map K V} (h : StoreSame m m') {p : Nat} {n : Node K V} (hn : m.mem p = some n) :
    ∃ n', m'.mem p = some n' ∧ n'.key = n.key ∧ n'.value = n.value ∧ n'.prev = n.prev ∧ n'.next = n.next := by
  have := h.data p
  rw [hn] at this
  cases e : m'.mem p with
  | none => rw [e] at this; simp at this
  | some n' => rw [e] at this; simp only [Option.map_some, Option.some.injEq, Prod.mk.injEq] at this; exact ⟨n', rfl, this⟩

theorem StoreSame.back {m m' : Map K V} (h : StoreSame m m') {p : Nat} {n : Node K V} (hn : m'.mem p = some n) :
    ∃ n', m.mem p = some n' ∧ n'.key = n.key ∧ n'.value = n.value ∧ n'.prev = n.prev ∧ n'.next = n.next := by
  have := h.data p
  rw [hn] at this
  cases e : m.mem p with
  | none => rw [e] at this; simp at this
  | some n' =>
    rw [e] at this
    simp only [Option.map_some, Option.some.injEq, Prod.mk.injEq] at this
    exact ⟨n', rfl, this.1.symm, this.2.1.symm, this.2.2.1.symm, this.2.2.2.symm⟩

theorem StoreSame.links {m m' : Map K V} (h : StoreSame m m') {order : List Nat} (hl : Links m order) : Links m' order :=
  ⟨hl.nodup, hl.seg.frame (fun _ _ _ hn => by obtain ⟨n', e, _, _, e3, e4⟩ := h.fwd hn; exact ⟨n', e, e3, e4⟩), by rw [h.first, hl.first], by rw [h.last, hl.last]⟩

theorem StoreSame.view {m m' : Map K V} (h : StoreSame m m') (order : List Nat) : view m' order = view m order := by
  unfold Linked.view
  congr 1
  funext p
  have := h.data p
  cases e1 : m.mem p <;> cases e2 : m'.mem p <;> rw [e1, e2] at this <;> simp at this ⊢
  exact ⟨this.1, this.2.1⟩

theorem store_spec {m : Map K V} (v : Option Nat) (c' : List Nat) (hv : Path m.mem v c') : ∀ (pre : List Nat) (s : Slot) (o : Option Nat) (c : List Nat),
    m.load s = some o → Path m.mem o (pre ++ c) → (slotCell s ++ pre).Nodup → (∀ x ∈ slotCell s ++ pre, x ∉ c') →
    ∃ m' o', m.store (endSlot s pre) v = some m' ∧ m'.load s = some o' ∧ Path m'.mem o' (pre ++ c') ∧ StoreSame m m' ∧
      (∀ q, q ∉ slotCell s ++ pre → m'.mem q = m.mem q) ∧
      (∀ j, (∀ b, s = .bucket b → j ≠ b) → m'.buckets j = m.buckets j) := by
  intro pre
  induction pre with
  | nil =>
    intro s o c hl hp hn hd
    cases s with
    | bucket b =>
      refine ⟨_, v, rfl, by simp [Map.load], hv, ⟨rfl, rfl, rfl, rfl, rfl, fun _ => rfl⟩, fun _ _ => rfl, ?_⟩
      intro j hj
      simp [hj b rfl]
    | child p =>
      simp only [Map.load] at hl
      obtain ⟨n, hn1, hn2⟩ := Option.map_eq_some_iff.1 hl
      refine ⟨m.write p (some { n with child := v }), v, ?_, ?_, ?_, ?_, ?_, fun _ _ => rfl⟩
      · show m.modify p _ = _
        rw [modify_some m _ hn1]
      · simp [Map.load]
      · refine hv.frame (fun q hq n' hn' => ⟨n', ?_, rfl⟩)
        rw [write_mem_ne _ _ (fun e => hd p (by simp [slotCell]) (by rw [← e]; exact hq)), hn']
      · refine ⟨rfl, rfl, rfl, rfl, rfl, fun q => ?_⟩
        by_cases hq : q = p
        · subst hq; rw [write_mem_same, hn1]; rfl
        · rw [write_mem_ne _ _ hq]
      · intro q hq
        exact write_mem_ne _ _ (by simpa [slotCell] using hq)
  | cons p pre ih =>
    intro s o c hl hp hn hd
    obtain ⟨e1, n, e2, e3⟩ := hp
    subst e1
    have hn' : (p :: pre).Nodup := (List.nodup_append.1 hn).2.1
    obtain ⟨m', o', g1, g2, g3, g4, g5, g6⟩ := ih (.child p) n.child c (by simp only [Map.load, e2, Option.map_some]) e3
      hn' (fun x hx => hd x (List.mem_append_right _ hx))
    have hdis : ∀ x ∈ slotCell s, x ∉ p :: pre := fun x hx hx' => (List.nodup_append.1 hn).2.2 x hx x hx' rfl
    have hb : ∀ j, m'.buckets j = m.buckets j := fun j => g6 j (fun b e => by cases e)
    refine ⟨m', some p, g1, ?_, ?_, g4, ?_, fun j _ => hb j⟩
    · cases s with
      | bucket b => simpa [Map.load, hb] using hl
      | child q =>
        have := hdis q (by simp [slotCell])
        simp only [Map.load] at hl ⊢
        rw [g5 q this]; exact hl
    · obtain ⟨n', e4, _⟩ := g4.fwd e2
      refine ⟨rfl, n', e4, ?_⟩
      simp only [Map.load, e4, Option.map_some, Option.some.injEq] at g2
      rw [g2]; exact g3
    · intro q hq
      rw [List.mem_append] at hq
      exact g5 q (fun h => hq (Or.inr h))

/-- Chains after a change of one bucket. -/
theorem chains_of {m m' : Map K V} {order order' : List Nat} (h : Chains hash m order) (hnb : m'.nb = m.nb) (b : Nat)
    (hnew : ∃ c', Path m'.mem (m'.buckets b) c' ∧ c'.Nodup ∧ ∀ p, p ∈ c' ↔ p ∈ order' ∧ ∃ n, m'.mem p = some n ∧ hash n.key % m.nb = b)
    (hother : ∀ i, i ≠ b → m'.buckets i = m.buckets i)
    (hfwd : ∀ q ∈ order, ∀ n, m.mem q = some n → hash n.key % m.nb ≠ b → q ∈ order' ∧ ∃ n', m'.mem q = some n' ∧ n'.key = n.key ∧ n'.child = n.child)
    (hback : ∀ q ∈ order', ∀ n, m'.mem q = some n → hash n.key % m.nb ≠ b → q ∈ order ∧ ∃ n0, m.mem q = some n0 ∧ n0.key = n.key) :
    Chains hash m' order' := by
  intro i hi
  rw [hnb] at hi ⊢
  by_cases hib : i = b
  · subst hib; exact hnew
  · obtain ⟨c, h1, h2, h3⟩ := h i hi
    refine ⟨c, ?_, h2, fun p => ?_⟩
    · rw [hother i hib]
      refine h1.frame (fun q hq n hn => ?_)
      obtain ⟨g1, n0, g2, g3⟩ := (h3 q).1 hq
      rw [hn] at g2; injection g2 with g2; subst g2
      obtain ⟨_, n', e1, _, e2⟩ := hfwd q g1 n hn (by rw [g3]; exact hib)
      exact ⟨n', e1, e2⟩
    · rw [h3 p]
      constructor
      · rintro ⟨g1, n, g2, g3⟩
        obtain ⟨f1, n', e1, e2, _⟩ := hfwd p g1 n g2 (by rw [g3]; exact hib)
        exact ⟨f1, n', e1, by rw [e2]; exact g3⟩
      · rintro ⟨g1, n, g2, g3⟩
        obtain ⟨f1, n', e1, e2⟩ := hback p g1 n g2 (by rw [g3]; exact hib)
        exact ⟨f1, n', e1, by rw [e2]; exact g3⟩

end Verif.Linked
