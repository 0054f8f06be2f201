import Verif.Dbm.Core
/-
Linearizability of calls of any kind: what is seen from outside, and what it means that an order of the calls explains it.
-/
namespace Verif.Linear

/-- SPECIFICATION: what is seen from outside: a call begins, a call returns. -/
inductive HEv (α β : Type) where
  | inv (id : Nat) (c : α)
  | ret (id : Nat) (r : β)

variable {α β : Type}

/-- SPECIFICATION: call `a` has returned before call `b` begins. -/
def Precedes (h : List (HEv α β)) (a b : Nat) : Prop := ∃ h1 h2 r c, h = h1 ++ h2 ∧ HEv.ret a r ∈ h1 ∧ HEv.inv b c ∈ h2

/-- SPECIFICATION: an order of calls with outcomes that agrees with a history: every call is there at most once and has been made, all that
have returned are there with what they returned, and a call that returned before another began comes before it. -/
structure Explains (ord : List (Nat × α × β)) (h : List (HEv α β)) : Prop where
  once : (ord.map (·.1)).Nodup
  called : ∀ x ∈ ord, HEv.inv x.1 x.2.1 ∈ h
  returned : ∀ id r, HEv.ret id r ∈ h → ∃ c, (id, c, r) ∈ ord
  realTime : ∀ o1 x o2, ord = o1 ++ x :: o2 → ∀ a, Precedes h a x.1 → a ∈ o1.map (·.1)

/-- SPECIFICATION: the calls, one after the other: `does d c d' r` says that the call `c` on `d` leaves `d'` and has the outcome `r`. -/
def Serial {δ : Type} (does : δ → α → δ → β → Prop) (d : δ) : List (Nat × α × β) → δ → Prop
  | [], d' => d' = d
  | (_, c, r) :: rest, d' => ∃ d1, does d c d1 r ∧ Serial does d1 rest d'

theorem Serial.snoc {δ : Type} {does : δ → α → δ → β → Prop} : ∀ {d : δ} {ord : List (Nat × α × β)} {d1 : δ}, Serial does d ord d1 →
    ∀ (id : Nat) {c : α} {d2 : δ} {r : β}, does d1 c d2 r → Serial does d (ord ++ [(id, c, r)]) d2
  | _, [], _, h, id, c, d2, r, hd => by cases h; exact ⟨d2, hd, rfl⟩
  | _, (_, _, _) :: _, _, ⟨d', h1, h2⟩, id, c, d2, r, hd => ⟨d', h1, h2.snoc id hd⟩

theorem precedes_snoc {h : List (HEv α β)} {e : HEv α β} {a b : Nat} (hp : Precedes (h ++ [e]) a b) :
    Precedes h a b ∨ ∃ c r, e = .inv b c ∧ HEv.ret a r ∈ h := by
  obtain ⟨h1, h2, r, c, he, m1, m2⟩ := hp
  rcases List.eq_nil_or_concat h2 with rfl | ⟨h2', e', rfl⟩
  · simp at m2
  · rw [List.concat_eq_append] at he m2
    rw [← List.append_assoc] at he
    obtain ⟨e1, e2⟩ := List.append_inj' he rfl
    rw [List.mem_append] at m2
    rcases m2 with m2 | m2
    · exact .inl ⟨h1, h2', r, c, e1, m1, m2⟩
    · refine .inr ⟨c, r, ?_, by rw [e1]; simp [m1]⟩
      simp at e2 m2
      rw [e2, m2]

theorem Explains.inv {ord : List (Nat × α × β)} {h : List (HEv α β)} (he : Explains ord h) (id : Nat) (c : α)
    (hn : id ∉ ord.map (·.1)) : Explains ord (h ++ [.inv id c]) where
  once := he.once
  called := fun x hx => by simp [he.called x hx]
  returned := fun i r hr => by
    simp at hr
    exact he.returned i r hr
  realTime := fun o1 x o2 e a hp => by
    rcases precedes_snoc hp with h1 | ⟨c', r, h1, _⟩
    · exact he.realTime o1 x o2 e a h1
    · injection h1 with h1 _
      exact absurd (by rw [e, h1]; simp) hn

theorem Explains.ret {ord : List (Nat × α × β)} {h : List (HEv α β)} (he : Explains ord h) (id : Nat) (c : α) (r : β)
    (hn : (id, c, r) ∈ ord) : Explains ord (h ++ [.ret id r]) where
  once := he.once
  called := fun x hx => by simp [he.called x hx]
  returned := fun i r' hr => by
    simp at hr
    rcases hr with hr | ⟨rfl, rfl⟩
    · exact he.returned i r' hr
    · exact ⟨c, hn⟩
  realTime := fun o1 x o2 e a hp => by
    rcases precedes_snoc hp with h1 | ⟨c', r, h1, _⟩
    · exact he.realTime o1 x o2 e a h1
    · cases h1

theorem Explains.commit {ord : List (Nat × α × β)} {h : List (HEv α β)} (he : Explains ord h) (id : Nat) (c : α) (r : β)
    (hn : id ∉ ord.map (·.1)) (hi : HEv.inv id c ∈ h) : Explains (ord ++ [(id, c, r)]) h where
  once := by
    rw [List.map_append, List.nodup_append]
    refine ⟨he.once, by simp, ?_⟩
    intro a ha b hb e
    simp at hb
    exact hn (by rw [← hb, ← e]; exact ha)
  called := fun x hx => by
    simp at hx
    rcases hx with hx | rfl
    · exact he.called x hx
    · exact hi
  returned := fun i r' hr => by
    obtain ⟨c', h1⟩ := he.returned i r' hr
    exact ⟨c', by simp [h1]⟩
  realTime := fun o1 x o2 e a hp => by
    rcases List.eq_nil_or_concat o2 with rfl | ⟨o2', y, rfl⟩
    · obtain ⟨e1, e2⟩ := List.append_inj' e rfl
      obtain ⟨h1, h2, r', c', e3, m1, _⟩ := hp
      obtain ⟨c'', h3⟩ := he.returned a r' (by rw [e3]; simp [m1])
      rw [← e1]
      exact List.mem_map.2 ⟨_, h3, rfl⟩
    · have e' : ord ++ [(id, c, r)] = (o1 ++ x :: o2') ++ [y] := by rw [e]; simp
      obtain ⟨e1, _⟩ := List.append_inj' e' rfl
      exact he.realTime o1 x o2' e1 a hp

end Verif.Linear
