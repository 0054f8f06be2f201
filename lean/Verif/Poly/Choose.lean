import Verif.Poly.Guess
namespace Verif.Poly
open Verif Verif.Codec
open Verif.Text (lowered lowerCase beginsWith)

theorem lookup_filter (q : Bytes → Bool) (key : Bytes) (hq : q key = true) :
    ∀ m : Params, (m.filter fun p => q p.1).lookup key = m.lookup key
  | [] => rfl
  | (k, v) :: m => by
    rw [List.filter_cons]
    by_cases hk : key = k
    · subst hk
      simp [hq, List.lookup]
    · have hb : (key == k) = false := by simpa using hk
      split
      · simp only [List.lookup, hb]; exact lookup_filter q key hq m
      · simp only [List.lookup, hb]; exact lookup_filter q key hq m

theorem lookup_erase (m : Params) (keys : List Bytes) (key : Bytes) (h : key ∉ keys) : (erase m keys).lookup key = m.lookup key := by
  unfold erase
  exact lookup_filter (fun k => !keys.contains k) key (by simpa using h) m

theorem lookup_rest (m : Params) (key : Bytes) (h : beginsWith key (asc "ulog_") = false) :
    (m.filter fun p => !beginsWith p.1 (asc "ulog_")).lookup key = m.lookup key :=
  lookup_filter (fun k => !beginsWith k (asc "ulog_")) key (by simp [h]) m

theorem lookup_ulog (m : Params) (key : Bytes) (h : beginsWith key (asc "ulog_") = true) :
    (m.filter fun p => beginsWith p.1 (asc "ulog_")).lookup key = m.lookup key :=
  lookup_filter (fun k => beginsWith k (asc "ulog_")) key h m

theorem erase_eq_nil (m : Params) (keys : List Bytes) : erase m keys = [] ↔ ∀ p ∈ m, p.1 ∈ keys := by
  simp [erase, List.filter_eq_nil_iff]

theorem mem_erase (m : Params) (keys : List Bytes) (p : Bytes × Bytes) : p ∈ erase m keys ↔ p ∈ m ∧ p.1 ∉ keys := by
  simp [erase, List.mem_filter]

theorem classOf_iff (l : Bytes) (k : Kind) : classOf l = some k ↔ l ∈ (kindNames k).map lowered := by
  constructor
  · intro h
    unfold classOf at h
    repeat' split at h
    all_goals first
      | (cases h; rename_i hl; rcases hl with rfl | rfl <;> decide)
      | (cases h)
  · intro h
    cases k <;> (
      simp only [kindNames, List.map_cons, List.map_nil, List.mem_cons, List.not_mem_nil, or_false] at h
      rcases h with rfl | rfl <;> decide)

theorem fileOf_iff (l : Bytes) (f : FileKind) : fileOf l = some f ↔ l ∈ (fileNames f).map lowered ∨ (l = [] ∧ f = .mmapPara) := by
  constructor
  · intro h
    unfold fileOf at h
    repeat' split at h
    all_goals first
      | (cases h; rename_i hl; rcases hl with rfl | rfl <;> decide)
      | (cases h; rename_i hl; rcases hl with rfl | rfl | rfl <;> decide)
      | (cases h)
  · intro h
    rcases h with h | ⟨rfl, rfl⟩
    · cases f <;> (
        simp only [fileNames, List.map_cons, List.map_nil, List.mem_cons, List.not_mem_nil, or_false] at h
        rcases h with rfl | rfl <;> decide)
    · decide

theorem classOf_nil : classOf [] = none := by decide

theorem extClass_iff (w : Bytes) (k : Kind) : classOf (extClass w) = some k ↔ w ∈ kindExts k := by
  constructor
  · intro h
    unfold extClass at h
    repeat' split at h
    all_goals first
      | (rename_i hl; rcases hl with rfl | rfl <;> (revert h; cases k <;> decide))
      | (rename_i hl; rcases hl with rfl | rfl | rfl <;> (revert h; cases k <;> decide))
      | (rw [classOf_nil] at h; cases h)
  · intro h
    cases k <;> (
      simp only [kindExts, List.mem_cons, List.not_mem_nil, or_false] at h
      first
        | (rcases h with rfl | rfl <;> decide)
        | (rcases h with rfl | rfl | rfl <;> decide))

theorem exts_plain : ∀ k, ∀ e ∈ kindExts k, Plain e ∧ lowered e = e := by
  intro k
  cases k <;> simp only [kindExts, List.mem_cons, List.not_mem_nil, or_false, Plain] <;> rintro e (rfl | rfl | rfl) <;>
    exact ⟨⟨by decide, by decide, by decide, by decide⟩, by decide⟩

theorem guess_iff (path : Bytes) (k : Kind) : classOf (guess path) = some k ↔ ∃ e ∈ kindExts k, HasExt path e := by
  unfold guess
  rw [extClass_iff]
  constructor
  · intro h
    obtain ⟨h1, h2⟩ := exts_plain k _ h
    exact ⟨_, h, (guessExt_iff path _ h1 h2).mp rfl⟩
  · rintro ⟨e, he, hx⟩
    obtain ⟨h1, h2⟩ := exts_plain k _ he
    rw [(guessExt_iff path e h1 h2).mpr hx]; exact he

theorem guess_empty : guess [] = [] := by decide

theorem same_names (v : Bytes) (l : List Bytes) : (∃ n ∈ l, Same v n) ↔ lowered v ∈ l.map lowered := by
  simp only [Same, List.mem_map]
  constructor
  · rintro ⟨n, h1, h2⟩; exact ⟨n, h1, h2.symm⟩
  · rintro ⟨n, h1, h2⟩; exact ⟨n, h1, h2.symm⟩

theorem names_ne : ∀ k, ∀ n ∈ kindNames k, lowered n ≠ [] := by
  intro k
  cases k <;> simp only [kindNames, List.mem_cons, List.not_mem_nil, or_false] <;> rintro n (rfl | rfl) <;> decide

theorem lowered_nil_iff (s : Bytes) : lowered s = [] ↔ s = [] := by simp [lowered]

/-- The class. -/
theorem class_iff (path v : Bytes) (k : Kind) :
    (let name := lowered v
     let name := if name = [] then guess path else name
     let name := if name = [] ∧ path = [] then asc "tiny" else name
     classOf name = some k) ↔
    ((∃ n ∈ kindNames k, Same v n) ∨ (v = [] ∧ ((∃ e ∈ kindExts k, HasExt path e) ∨ (path = [] ∧ k = .tiny)))) := by
  dsimp only
  by_cases hv : v = []
  · subst hv
    have hn : ¬ ∃ n ∈ kindNames k, Same [] n := by
      rintro ⟨n, h1, h2⟩; exact names_ne k n h1 (h2.symm.trans rfl)
    rw [if_pos (show lowered [] = [] from rfl)]
    by_cases hp : path = []
    · subst hp
      have h0 : ¬ ∃ e ∈ kindExts k, HasExt [] e := by
        rw [← guess_iff, guess_empty, classOf_nil]; simp
      rw [guess_empty, if_pos ⟨rfl, rfl⟩]
      simp only [hn, h0, false_or, true_and]
      cases k <;> decide
    · rw [if_neg (fun h => hp h.2), guess_iff]
      simp [hn, hp]
  · have hl : lowered v ≠ [] := by rwa [ne_eq, lowered_nil_iff]
    rw [if_neg hl, if_neg (fun h => hl h.1), classOf_iff, ← same_names]
    simp [hv]

def longCase : List Bytes := [lowered (asc "LexicalCaseKeyComparator"), lowered (asc "PairLexicalCaseKeyComparator")]

theorem lowered_idem (s : Bytes) : lowered (lowered s) = lowered s := by
  simp only [lowered, List.map_map]
  apply List.map_congr_left
  intro c _
  simp only [Function.comp]
  split
  · rename_i h
    rw [if_neg]
    rw [UInt8.toNat_ofNat', Nat.mod_eq_of_lt (by omega)]; omega
  · rfl

theorem ite_some {P : Prop} [Decidable P] {a c : Comp} {r : Option Comp} (h : (if P then some a else r) = some c) :
    (P ∧ a = c) ∨ r = some c := by
  by_cases hp : P
  · rw [if_pos hp] at h; cases h; exact Or.inl ⟨hp, rfl⟩
  · rw [if_neg hp] at h; exact Or.inr h

theorem compOf_iff (v : Bytes) (h : lowered v ∉ longCase) (c : Comp) : compOf v = some c ↔ lowered v ∈ (compNames c).map lowered := by
  unfold compOf
  simp only [lowerCase_eq]
  have hlow := lowered_idem v
  generalize lowered v = l at *
  constructor
  · intro hc
    iterate 14
      rcases ite_some hc with ⟨hl, rfl⟩ | hc
      · rcases hl with rfl | rfl <;> first | decide | exact absurd hlow (by decide)
    cases hc
  · intro hc
    cases c <;> (
      simp only [compNames, List.map_cons, List.map_nil, List.mem_cons, List.not_mem_nil, or_false] at hc
      rcases hc with rfl | rfl <;> first | decide | (exact absurd (by decide) h))

theorem compOf_nil : compOf [] = none := by decide

theorem finish_ok (m : Params) (c c' : Choice) : finish m c = .ok c' ↔ m = [] ∧ c = c' := by
  cases m <;> simp [finish]

end Verif.Poly
