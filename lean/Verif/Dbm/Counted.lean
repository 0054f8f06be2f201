import Verif.Dbm.Each
/-
SPECIFICATION of the record count and of the effective data size, and how they change with one record.
-/
namespace Verif

/-- `num` is the number of records of `d` and `eff` the total size of their keys and values. -/
def Dict.Counted (d : Dict) (num eff : Int) : Prop :=
  ∃ l : List (Bytes × Bytes), d.Lists l ∧ num = l.length ∧ eff = (l.map fun x => ((x.1.length + x.2.length : Nat) : Int)).sum

theorem Dict.counted_empty : Dict.empty.Counted 0 0 :=
  ⟨[], ⟨by simp, by simp [Dict.empty]⟩, by simp, by simp⟩

theorem Dict.Lists.filter {d : Dict} {l : List (Bytes × Bytes)} (h : d.Lists l) (k : Bytes) :
    (d.upd k none).Lists (l.filter fun x => x.1 ≠ k) := by
  refine ⟨(List.Sublist.map _ List.filter_sublist).nodup h.1, ?_⟩
  intro k' v
  simp only [List.mem_filter, h.2, Dict.upd, decide_eq_true_eq]
  by_cases e : k' = k <;> simp [e]

theorem Dict.Lists.absent {d : Dict} {l : List (Bytes × Bytes)} (h : d.Lists l) {k : Bytes} (hk : d k = none) :
    k ∉ l.map (·.1) := by
  rintro hm
  obtain ⟨⟨k', v⟩, hm', rfl⟩ := List.mem_map.1 hm
  rw [h.2] at hm'
  rw [hk] at hm'; cases hm'

theorem Dict.Lists.cons {d : Dict} {l : List (Bytes × Bytes)} (h : d.Lists l) {k : Bytes} (v : Bytes) (hk : d k = none) :
    (d.upd k (some v)).Lists ((k, v) :: l) := by
  refine ⟨by simpa using ⟨by simpa using h.absent hk, h.1⟩, ?_⟩
  intro k' v'
  simp only [List.mem_cons, h.2, Dict.upd, Prod.mk.injEq]
  by_cases e : k' = k
  · subst e
    simp only [true_and, if_true, Option.some.injEq, hk]
    constructor
    · rintro (x | x)
      · exact x.symm
      · cases x
    · exact fun x => Or.inl x.symm
  · simp [e]

/-- Removing the listed record of a key. -/
theorem Dict.Lists.split {d : Dict} {l : List (Bytes × Bytes)} (h : d.Lists l) {k v : Bytes} (hk : d k = some v) :
    (l.filter fun x => x.1 ≠ k).length + 1 = l.length ∧
    ((l.filter fun x => x.1 ≠ k).map fun x => ((x.1.length + x.2.length : Nat) : Int)).sum + (k.length + v.length : Nat) =
      (l.map fun x => ((x.1.length + x.2.length : Nat) : Int)).sum := by
  have hm := (h.2 k v).2 hk
  have hn := h.1
  clear h hk
  induction l with
  | nil => simp at hm
  | cons a l ih =>
    obtain ⟨k1, v1⟩ := a
    simp only [List.map_cons, List.nodup_cons] at hn
    rcases List.mem_cons.1 hm with e | hm
    · cases e
      have : (l.filter fun x => x.1 ≠ k) = l := by
        rw [List.filter_eq_self]
        intro x hx
        have : x.1 ∈ l.map (·.1) := List.mem_map.2 ⟨x, hx, rfl⟩
        simp only [decide_eq_true_eq]; rintro rfl; exact hn.1 this
      rw [List.filter_cons_of_neg (by simp), this]
      simp only [List.length_cons, List.map_cons, List.sum_cons]; exact ⟨trivial, by omega⟩
    · have hne : k1 ≠ k := by
        rintro rfl
        exact hn.1 (List.mem_map.2 ⟨_, hm, rfl⟩)
      have := ih hm hn.2
      rw [List.filter_cons_of_pos (by simpa using hne)]
      simp only [List.length_cons, List.map_cons, List.sum_cons]
      omega

theorem Dict.Counted.add {d : Dict} {n e : Int} (h : d.Counted n e) {k : Bytes} (v : Bytes) (hk : d k = none) :
    (d.upd k (some v)).Counted (n + 1) (e + (k.length + v.length : Nat)) := by
  obtain ⟨l, hl, rfl, rfl⟩ := h
  exact ⟨(k, v) :: l, hl.cons v hk, by simp, by simp only [List.map_cons, List.sum_cons]; omega⟩

theorem Dict.Counted.del {d : Dict} {n e : Int} (h : d.Counted n e) {k v : Bytes} (hk : d k = some v) :
    (d.upd k none).Counted (n - 1) (e - (k.length + v.length : Nat)) := by
  obtain ⟨l, hl, rfl, rfl⟩ := h
  have := hl.split hk
  exact ⟨_, hl.filter k, by omega, by omega⟩

theorem Dict.upd_upd (d : Dict) (k : Bytes) (a b : Option Bytes) : (d.upd k a).upd k b = d.upd k b := by
  funext k'; simp only [Dict.upd]; split <;> rfl

theorem Dict.Counted.put {d : Dict} {n e : Int} (h : d.Counted n e) {k v : Bytes} (v' : Bytes) (hk : d k = some v) :
    (d.upd k (some v')).Counted n (e + ((v'.length : Int) - v.length)) := by
  have h1 := (h.del hk).add (k := k) v' (Dict.upd_self _ _ _)
  rw [Dict.upd_upd] at h1
  have e1 : n - 1 + 1 = n := by omega
  have e2 : e - ((k.length + v.length : Nat) : Int) + ((k.length + v'.length : Nat) : Int) = e + ((v'.length : Int) - v.length) := by
    omega
  rwa [e1, e2] at h1

end Verif
