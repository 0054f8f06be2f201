import Verif.Poly.Choose
import Verif.Poly.TuneSpec
namespace Verif.Poly
open Verif Verif.Codec
open Verif.Text (lowered lowerCase)
open Verif.Split (splitChar between splitWith)
open Verif.Edit (strStripSpace)

theorem oneOf_iff (v : Bytes) (l : List Bytes) : OneOf v l ↔ lowered v ∈ l.map lowered := same_names v l

theorem named_of {α : Type} (names : α → List Bytes) (dflt : α) (f : Bytes → α) (h0 : names dflt = [])
    (h1 : ∀ v y, lowered v ∈ (names y).map lowered → f v = y) (h2 : ∀ v, lowered v ∈ (names (f v)).map lowered ∨ f v = dflt) (v : Bytes) :
    Named names dflt v (f v) := by
  rcases h2 v with h | h
  · exact Or.inl ((oneOf_iff _ _).mpr h)
  · right
    refine ⟨h, fun y hy => ?_⟩
    have := h1 v y ((oneOf_iff _ _).mp hy)
    rw [h] at this
    subst this
    obtain ⟨n, hn, -⟩ := hy
    rw [h0] at hn
    cases hn

theorem update_named (v : Bytes) : Named updateNames .default v (updateOf v) := by
  refine named_of _ _ _ rfl ?_ ?_ v
  · intro v y h
    unfold updateOf
    rw [lowerCase_eq]
    generalize lowered v = l at h
    cases y <;> simp only [updateNames, List.map_cons, List.map_nil, List.mem_cons, List.not_mem_nil, or_false] at h
    all_goals rcases h with rfl | rfl <;> decide
  · intro v
    unfold updateOf
    rw [lowerCase_eq]
    generalize lowered v = l
    dsimp only
    repeat' split
    all_goals first
      | exact Or.inr rfl
      | (left; rename_i hl; rcases hl with rfl | rfl <;> decide)

theorem crc_named (v : Bytes) : Named crcNames .default v (crcOf v) := by
  refine named_of _ _ _ rfl ?_ ?_ v
  · intro v y h
    unfold crcOf
    rw [lowerCase_eq]
    generalize lowered v = l at h
    cases y <;> simp only [crcNames, List.map_cons, List.map_nil, List.mem_cons, List.not_mem_nil, or_false] at h
    all_goals first
      | (rcases h with rfl | rfl | rfl | rfl <;> decide)
      | (rcases h with rfl | rfl | rfl <;> decide)
  · intro v
    unfold crcOf
    rw [lowerCase_eq]
    generalize lowered v = l
    dsimp only
    repeat' split
    all_goals first
      | exact Or.inr rfl
      | (left; rename_i hl; rcases hl with rfl | rfl | rfl | rfl <;> decide)
      | (left; rename_i hl; rcases hl with rfl | rfl | rfl <;> decide)

theorem compr_named (v : Bytes) : Named comprNames .default v (comprOf v) := by
  refine named_of _ _ _ rfl ?_ ?_ v
  · intro v y h
    unfold comprOf
    rw [lowerCase_eq]
    generalize lowered v = l at h
    cases y <;> simp only [comprNames, List.map_cons, List.map_nil, List.mem_cons, List.not_mem_nil, or_false] at h
    all_goals first
      | (rcases h with rfl | rfl | rfl | rfl <;> decide)
      | (rcases h with rfl | rfl | rfl <;> decide)
  · intro v
    unfold comprOf
    rw [lowerCase_eq]
    generalize lowered v = l
    dsimp only
    repeat' split
    all_goals first
      | exact Or.inr rfl
      | (left; rename_i hl; rcases hl with rfl | rfl | rfl | rfl <;> decide)
      | (left; rename_i hl; rcases hl with rfl | rfl | rfl <;> decide)

/-- The reducer by a name, unless it is the one name that has to be in lower case. -/
theorem reducer_iff (v : Bytes) (hv : lowered v = asc "remove" → v = asc "remove") (r : Reducer) :
    reducerOf v = some r ↔ OneOf v (reducerNames r) := by
  rw [oneOf_iff]
  have hr : (v = asc "remove") ↔ lowered v = asc "remove" := ⟨fun h => by rw [h]; decide, hv⟩
  unfold reducerOf
  rw [lowerCase_eq]
  simp only [hr]
  clear hr hv
  generalize lowered v = l
  constructor
  · intro h
    repeat' split at h
    all_goals first
      | (cases h; rename_i hl; rcases hl with rfl | rfl <;> decide)
      | (cases h; rename_i hl; rcases hl with rfl | rfl | rfl <;> decide)
      | (cases h)
  · intro h
    cases r <;> simp only [reducerNames, List.map_cons, List.map_nil, List.mem_cons, List.not_mem_nil, or_false] at h
    all_goals first
      | (rcases h with rfl | rfl | rfl <;> decide)
      | (rcases h with rfl | rfl <;> decide)

/-! ### Lists with colons -/

theorem split_ne (s : Bytes) (c : UInt8) : splitChar s c false ≠ [] := by
  simp [splitChar, splitWith]

theorem pieces_of : ∀ l : List Bytes, l ≠ [] → (∀ x ∈ l, ch ':' ∉ x) → Pieces (between [ch ':'] l) l
  | [], h, _ => absurd rfl h
  | [x], _, h => .last x (h x (by simp))
  | x :: y :: l, _, h => by
    have := pieces_of (y :: l) (by simp) (fun z hz => h z (List.mem_cons_of_mem _ hz))
    have hc := Pieces.cons x _ _ (h x (by simp)) this
    rw [between.eq_3 _ _ _ (by simp), List.append_assoc]
    exact hc

theorem pieces_split (s : Bytes) : Pieces s (splitChar s (ch ':') false) := by
  obtain ⟨h1, h2⟩ := Split.C39_split_char s (ch ':')
  have := pieces_of _ (split_ne s (ch ':')) h2
  rwa [h1] at this

theorem elements_of {s : Bytes} {l : List Bytes} (h : Pieces s l) : Elements s (l.map strStripSpace) := by
  induction h with
  | last s h => exact .last s _ h (Edit.C68_strip_space s)
  | cons s t l h ht ih => exact .cons s _ t _ h (Edit.C68_strip_space s) ih

theorem elements_split (s : Bytes) : Elements s ((splitChar s (ch ':') false).map strStripSpace) := elements_of (pieces_split s)

end Verif.Poly
