import Verif.Dbm.Core
/-
Traversal bucket by bucket: what the iterators of the hash databases have in common. Nothing here models code: the iterators of
the classes are shown to be instances.
-/
namespace Verif.BucketIter

/-- An iterator: the next bucket to read (-1: no position) and the keys read and not passed. -/
structure It where
  idx : Int
  keys : List Bytes
deriving Repr, DecidableEq

/-- Read buckets until one has keys; `ks i` are the keys of bucket `i` and `n` is the number of buckets. -/
def readNext (n : Nat) (ks : Nat → List Bytes) : (fuel : Nat) → It → It × Bool
  | 0, it => ({ it with idx := -1 }, false)
  | fuel + 1, it =>
    if it.idx < 0 ∨ it.idx ≥ n then ({ it with idx := -1 }, false)
    else if ks it.idx.toNat = [] then readNext n ks fuel ⟨it.idx + 1, []⟩
    else (⟨it.idx + 1, ks it.idx.toNat⟩, true)

/-- Make sure there is a current key. -/
def readKeys (n : Nat) (ks : Nat → List Bytes) (it : It) : It × Bool :=
  if it.idx < 0 then (it, false)
  else if it.keys = [] then readNext n ks (n + 1) it
  else (it, true)

/-- The keys of the buckets: `present` are the keys of the records. -/
structure KeysOk (n : Nat) (home : Bytes → Nat) (ks : Nat → List Bytes) (present : Bytes → Prop) : Prop where
  home_lt : ∀ k, home k < n
  nodup : ∀ i, i < n → (ks i).Nodup
  mem : ∀ i, i < n → ∀ k, k ∈ ks i ↔ home k = i ∧ present k

/-- The traversal has passed `em` and is not over; `K` are the keys that stay. -/
structure Going (n : Nat) (home : Bytes → Nat) (K : Bytes → Prop) (it : It) (em : List Bytes) : Prop where
  idx : 0 ≤ it.idx ∧ it.idx ≤ n
  nodup : (em ++ it.keys).Nodup
  below : ∀ x ∈ em ++ it.keys, (home x : Int) < it.idx
  all : ∀ k, K k → (home k : Int) < it.idx → k ∈ em ++ it.keys

/-- The traversal is over. -/
structure Over (K : Bytes → Prop) (it : It) (em : List Bytes) : Prop where
  idx : it.idx = -1
  nodup : em.Nodup
  all : ∀ k, K k → k ∈ em

/-- The invariant of a traversal. -/
def Trav (n : Nat) (home : Bytes → Nat) (K : Bytes → Prop) (it : It) (em : List Bytes) : Prop :=
  Going n home K it em ∨ Over K it em

variable {n : Nat} {home : Bytes → Nat} {ks : Nat → List Bytes} {present K : Bytes → Prop}

theorem readNext_spec (ho : KeysOk n home ks present) (hK : ∀ k, K k → present k) {em : List Bytes} (fuel : Nat) :
    ∀ it : It, Going n home K it em → it.keys = [] → (n : Int) < it.idx + fuel →
    ((readNext n ks fuel it).2 = true ∧ Going n home K (readNext n ks fuel it).1 em ∧ (readNext n ks fuel it).1.keys ≠ []) ∨
    ((readNext n ks fuel it).2 = false ∧ Over K (readNext n ks fuel it).1 em) := by
  induction fuel with
  | zero => intro it g _ hn; have := g.idx; omega
  | succ fuel ih =>
    intro it g hk hn
    have gn := g.nodup
    have gb := g.below
    have ga := g.all
    have gi := g.idx
    rw [hk, List.append_nil] at gn gb ga
    simp only [readNext]
    by_cases hb : it.idx < 0 ∨ it.idx ≥ n
    · rw [if_pos hb]
      right
      refine ⟨rfl, rfl, gn, ?_⟩
      intro k hkk
      exact ga k hkk (by have := ho.home_lt k; omega)
    · rw [if_neg hb]
      obtain ⟨B, hB⟩ : ∃ B : Nat, it.idx = B := ⟨it.idx.toNat, by omega⟩
      have hBn : B < n := by omega
      have hm := ho.mem B hBn
      have hBt : it.idx.toNat = B := by omega
      rw [hBt]
      have g' : Going n home K ⟨it.idx + 1, ks B⟩ em := by
        refine ⟨by simp only; omega, ?_, ?_, ?_⟩
        · rw [List.nodup_append]
          refine ⟨gn, ho.nodup B hBn, ?_⟩
          intro a ha b hb' hab
          have h1 := gb a ha
          have h2 := ((hm b).1 hb').1
          rw [hab, h2] at h1; omega
        · intro x hx
          simp only
          rcases List.mem_append.1 hx with h | h
          · have := gb x h; omega
          · rw [((hm x).1 h).1]; omega
        · intro k hkk hlt
          simp only at hlt
          rw [List.mem_append]
          by_cases he : home k = B
          · exact .inr ((hm k).2 ⟨he, hK k hkk⟩)
          · exact .inl (ga k hkk (by omega))
      split
      · rename_i he
        rw [he] at g'
        exact ih _ g' rfl (by simp only; omega)
      · rename_i he
        exact Or.inl ⟨rfl, g', he⟩

theorem readNext_mem (ho : KeysOk n home ks present) (fuel : Nat) : ∀ it : It, it.keys = [] →
    ∀ k ∈ (readNext n ks fuel it).1.keys, present k := by
  induction fuel with
  | zero => intro it h k hk; simp [readNext, h] at hk
  | succ fuel ih =>
    intro it h k
    simp only [readNext]
    split
    · simp [h]
    · split
      · exact ih _ rfl k
      · intro hk; exact ((ho.mem _ (by omega) k).1 hk).2

theorem readKeys_spec (ho : KeysOk n home ks present) (hK : ∀ k, K k → present k) {it : It} {em : List Bytes}
    (h : Trav n home K it em) :
    ((readKeys n ks it).2 = true ∧ Going n home K (readKeys n ks it).1 em ∧ (readKeys n ks it).1.keys ≠ []) ∨
    ((readKeys n ks it).2 = false ∧ Over K (readKeys n ks it).1 em) := by
  simp only [readKeys]
  rcases h with g | o
  · rw [if_neg (by have := g.idx; omega)]
    by_cases hk : it.keys = []
    · rw [if_pos hk]
      exact readNext_spec ho hK (n + 1) it g hk (by have := g.idx; omega)
    · rw [if_neg hk]
      exact Or.inl ⟨rfl, g, hk⟩
  · rw [if_pos (by rw [o.idx]; omega)]
    exact Or.inr ⟨rfl, o⟩

theorem readKeys_mem (ho : KeysOk n home ks present) {it : It} (h : ∀ k ∈ it.keys, present k) :
    ∀ k ∈ (readKeys n ks it).1.keys, present k := by
  unfold readKeys
  split
  · exact h
  · split
    · rename_i hk; exact readNext_mem ho _ _ hk
    · exact h

/-- The current key is passed, or dropped if it is not one that stays. -/
theorem Going.drop {it : It} {em : List Bytes} {k : Bytes} {rest : List Bytes} (g : Going n home K it em)
    (hk : it.keys = k :: rest) (add : List Bytes) (hadd : add = [k] ∨ (add = [] ∧ ¬ K k)) :
    Going n home K { it with keys := rest } (em ++ add) := by
  obtain ⟨g1, g2, g3, g4⟩ := g
  rw [hk] at g2 g3 g4
  rcases hadd with rfl | ⟨rfl, hn⟩
  · have e : em ++ [k] ++ rest = em ++ k :: rest := by simp
    exact ⟨g1, by rw [e]; exact g2, by rw [e]; exact g3, by rw [e]; exact g4⟩
  · refine ⟨g1, ?_, ?_, ?_⟩
    · rw [List.append_nil]
      exact g2.sublist (List.Sublist.append_left (List.sublist_cons_self k rest) em)
    · intro x hx
      apply g3 x
      rw [List.append_nil] at hx
      rcases List.mem_append.1 hx with h | h <;> simp [h]
    · intro k' hk' hl
      have := g4 k' hk' hl
      rw [List.append_nil]
      rcases List.mem_append.1 this with h | h
      · simp [h]
      · rcases List.mem_cons.1 h with h | h
        · subst h; exact absurd hk' hn
        · simp [h]

theorem trav_first : Trav n home K ⟨0, []⟩ [] := by
  left
  refine ⟨by simp, by simp, by simp, ?_⟩
  intro k _ h
  simp only at h; omega

theorem Trav.nodup {it : It} {em : List Bytes} (h : Trav n home K it em) : em.Nodup := by
  rcases h with g | o
  · exact (List.nodup_append.1 g.nodup).1
  · exact o.nodup

/-- Cancelling is sound when no key is to stay. -/
theorem Trav.cancel {it : It} {em : List Bytes} (h : Trav n home K it em) (hK : ∀ k, ¬ K k) :
    Trav n home K { it with idx := -1 } em :=
  .inr ⟨rfl, h.nodup, fun k hk => absurd hk (hK k)⟩

/-- Jumping to a bucket that has the key. -/
theorem readNext_hit (ho : KeysOk n home ks present) {k : Bytes} (hp : present k) (fuel : Nat) :
    readNext n ks (fuel + 1) ⟨home k, []⟩ = (⟨home k + 1, ks (home k)⟩, true) := by
  have hm : k ∈ ks (home k) := (ho.mem _ (ho.home_lt k) k).2 ⟨rfl, hp⟩
  simp only [readNext]
  rw [if_neg (by have := ho.home_lt k; omega), if_neg]
  · simp
  · intro e
    rw [Int.toNat_natCast] at e
    rw [e] at hm; cases hm

theorem dropWhile_ne {k : Bytes} {l : List Bytes} (h : k ∈ l) : ∃ t, l.dropWhile (fun x => decide (x ≠ k)) = k :: t := by
  induction l with
  | nil => cases h
  | cons x l ih =>
    by_cases hx : x = k
    · subst hx; exact ⟨l, by simp⟩
    · rw [List.dropWhile_cons_of_pos (by simp [hx])]
      exact ih ((List.mem_cons.1 h).resolve_left fun e => hx e.symm)

end Verif.BucketIter
