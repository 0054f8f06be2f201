import Verif.Tiny.Model
import Verif.Dbm.ApiProps
namespace Verif.Tiny
open Verif.Codec

/-- A block holds the record `k`, `v`, possibly followed by left-over bytes. -/
def Holds (b : Blk) (k v : Bytes) : Prop :=
  recFits k v ∧ ∃ junk, b = writeVarNum k.length ++ k ++ writeVarNum v.length ++ v ++ junk

theorem recFits_len {k v : Bytes} (h : recFits k v) : k.length < 2 ^ 64 ∧ v.length < 2 ^ 64 := by
  simp only [recFits, blkSize] at h; omega

theorem deserialize_holds {b : Blk} {k v : Bytes} (h : Holds b k v) : deserialize b = some (k, v) := by
  obtain ⟨hf, junk, rfl⟩ := h
  obtain ⟨hk, hv⟩ := recFits_len hf
  have e1 : writeVarNum k.length ++ k ++ writeVarNum v.length ++ v ++ junk =
      writeVarNum k.length ++ (k ++ (writeVarNum v.length ++ (v ++ junk))) := by simp
  rw [deserialize, e1, readVarNum_write hk]
  simp only
  rw [List.drop_left' (writeVarNum_length _)]
  rw [if_neg (by simp)]
  rw [List.drop_left' rfl, readVarNum_write hv]
  simp only
  rw [List.drop_left' (writeVarNum_length _)]
  rw [if_neg (by simp), List.take_left' rfl, List.take_left' rfl]

theorem holds_unique {b : Blk} {k v k' v' : Bytes} (h : Holds b k v) (h' : Holds b k' v') : k = k' ∧ v = v' := by
  have := deserialize_holds h
  rw [deserialize_holds h'] at this
  simp at this; exact ⟨this.1.symm, this.2.symm⟩

theorem serialize_holds {k v : Bytes} (h : recFits k v) : ∃ b, serialize k v = some b ∧ Holds b k v := by
  refine ⟨_, by rw [serialize, if_pos h], h, [], by simp⟩

theorem writeAt_split (x y z w : Bytes) (hl : y.length = w.length) :
    writeAt (x ++ y ++ z) x.length w = some (x ++ w ++ z) := by
  rw [writeAt, if_pos (by simp [hl])]
  congr 1
  have h1 : (x ++ y ++ z).take x.length = x := by rw [List.append_assoc, List.take_left' rfl]
  have h2 : (x ++ y ++ z).drop (x.length + w.length) = z := by
    rw [List.drop_left' (by simp [hl])]
  rw [h1, h2]

theorem writeAt_at (b : Bytes) (x w : Bytes) (off : Nat) (ho : off = x.length) (hx : x <+: b)
    (hl : x.length + w.length ≤ b.length) :
    ∃ z, writeAt b off w = some (x ++ w ++ z) := by
  obtain ⟨t, rfl⟩ := hx
  subst ho
  simp at hl
  refine ⟨t.drop w.length, ?_⟩
  have : x ++ t = x ++ t.take w.length ++ t.drop w.length := by rw [List.append_assoc, List.take_append_drop]
  rw [this]
  exact writeAt_split _ _ _ _ (by simp; omega)

theorem ite_mono (c x : Nat) (g : Nat → Nat) (hg : (∀ a b, a ≤ b → g a ≤ g b) ∧ ∀ n, x + 1 ≤ g n) :
    (∀ a b, a ≤ b → (if a < c then x else g a) ≤ (if b < c then x else g b)) ∧
      ∀ n, x - 1 + 1 ≤ (if n < c then x else g n) ∨ x = 0 := by
  refine ⟨?_, ?_⟩
  · intro a b h
    have := hg.1 a b h
    have := hg.2 b
    by_cases h1 : a < c <;> by_cases h2 : b < c <;> simp only [h1, h2, if_true, if_false] <;> omega
  · intro n; have := hg.2 n; split <;> omega

theorem ite_mono' (c x : Nat) (g : Nat → Nat) (hg : (∀ a b, a ≤ b → g a ≤ g b) ∧ ∀ n, x + 2 ≤ g n) :
    (∀ a b, a ≤ b → (if a < c then x + 1 else g a) ≤ (if b < c then x + 1 else g b)) ∧
      ∀ n, x + 1 ≤ (if n < c then x + 1 else g n) := by
  refine ⟨(ite_mono c (x + 1) g hg).1, ?_⟩
  intro n; have := hg.2 n; split <;> omega

theorem sizeVarNum_mono {a b : Nat} (h : a ≤ b) : sizeVarNum a ≤ sizeVarNum b := by
  unfold sizeVarNum
  refine (ite_mono' _ 0 _ (ite_mono' _ 1 _ (ite_mono' _ 2 _ (ite_mono' _ 3 _ (ite_mono' _ 4 _ (ite_mono' _ 5 _
    (ite_mono' _ 6 _ (ite_mono' _ 7 _ (ite_mono' _ 8 (fun _ => 10) ?_))))))))).1 a b h
  exact ⟨fun _ _ _ => Nat.le_refl _, fun _ => Nat.le_refl _⟩

theorem realloc_prefix (b x : Bytes) (size : Nat) (hx : x <+: b) (hs : x.length + 8 ≤ size) :
    x <+: realloc b size ∧ (realloc b size).length = size - 8 := by
  refine ⟨?_, by simp [realloc]; omega⟩
  obtain ⟨t, rfl⟩ := hx
  rw [realloc, List.take_append, List.take_of_length_le (by omega), List.append_assoc]
  exact List.prefix_append _ _

theorem reserialize_holds {b : Blk} {k v v' : Bytes} (h : Holds b k v) (hf : recFits k v') :
    ∃ b', reserialize b k v' v.length = some b' ∧ Holds b' k v' := by
  rw [reserialize, if_neg (by simp [hf])]
  by_cases hs : sizeVarNum v'.length > sizeVarNum v.length
  · rw [if_pos hs]; exact serialize_holds hf
  · rw [if_neg hs]
    obtain ⟨hf0, junk, rfl⟩ := h
    generalize hb : writeVarNum k.length ++ k ++ writeVarNum v.length ++ v ++ junk = b
    have hpre : writeVarNum k.length ++ k <+: b := ⟨writeVarNum v.length ++ v ++ junk, by rw [← hb]; simp⟩
    have hlen : b.length = sizeVarNum k.length + k.length + sizeVarNum v.length + v.length + junk.length := by
      rw [← hb]; simp [writeVarNum_length]; omega
    simp only
    generalize hb2 : (if v'.length > v.length then realloc b (blkSize k v') else b) = b2
    have h2 : writeVarNum k.length ++ k <+: b2 ∧
        sizeVarNum k.length + k.length + sizeVarNum v'.length + v'.length ≤ b2.length := by
      rw [← hb2]
      by_cases hc : v'.length > v.length
      · rw [if_pos hc]
        have := realloc_prefix b _ (blkSize k v') hpre (by simp [blkSize, writeVarNum_length]; omega)
        refine ⟨this.1, ?_⟩
        rw [this.2]; simp only [blkSize]; omega
      · rw [if_neg hc]
        exact ⟨hpre, by omega⟩
    have hx : (writeVarNum k.length ++ k).length = sizeVarNum k.length + k.length := by simp [writeVarNum_length]
    obtain ⟨z, hz⟩ := writeAt_at b2 (writeVarNum k.length ++ k) (writeVarNum v'.length)
      (sizeVarNum k.length + k.length) hx.symm h2.1 (by rw [hx, writeVarNum_length]; omega)
    have hz2 : ((writeVarNum k.length ++ k) ++ writeVarNum v'.length ++ z).length = b2.length := by
      have := hz
      rw [writeAt] at this
      split at this
      · simp only [Option.some.injEq] at this
        rw [← this]; simp; omega
      · simp at this
    rw [hz]
    obtain ⟨z', hz'⟩ := writeAt_at ((writeVarNum k.length ++ k) ++ writeVarNum v'.length ++ z)
      ((writeVarNum k.length ++ k) ++ writeVarNum v'.length) v'
      (sizeVarNum k.length + k.length + sizeVarNum v'.length)
      (by simp [writeVarNum_length]; omega) (List.prefix_append _ _) (by
        rw [hz2]; simp [writeVarNum_length]; omega)
    refine ⟨_, hz', hf, z', by simp⟩

theorem writeAt_len {b b' : Blk} {off : Nat} {w : Bytes} (h : writeAt b off w = some b') : b'.length = b.length := by
  rw [writeAt] at h
  split at h
  · simp only [Option.some.injEq] at h; rw [← h]; simp; omega
  · simp at h

theorem reserializeAppend_holds {b : Blk} {k v cat delim : Bytes} (h : Holds b k v)
    (hf : recFits k (v ++ delim ++ cat)) :
    ∃ b', reserializeAppend b k v cat delim = some b' ∧ Holds b' k (v ++ delim ++ cat) := by
  have hn : v.length + delim.length + cat.length = (v ++ delim ++ cat).length := by simp; omega
  rw [reserializeAppend]
  simp only [hn]
  rw [if_neg (by simpa [recFits, blkSize] using hf)]
  by_cases hs : sizeVarNum (v ++ delim ++ cat).length > sizeVarNum v.length
  · rw [if_pos hs]
    exact ⟨_, rfl, hf, [], by simp⟩
  · rw [if_neg hs]
    have heq : sizeVarNum (v ++ delim ++ cat).length = sizeVarNum v.length := by
      have := sizeVarNum_mono (a := v.length) (b := (v ++ delim ++ cat).length) (by simp)
      omega
    obtain ⟨hf0, junk, rfl⟩ := h
    generalize hV : v ++ delim ++ cat = V at *
    have hVl : V.length = v.length + delim.length + cat.length := by rw [← hV]; simp; omega
    generalize hsz : 8 + sizeVarNum k.length + k.length + sizeVarNum V.length + V.length = size
    have hpre : writeVarNum k.length ++ k ++ writeVarNum v.length ++ v <+:
        writeVarNum k.length ++ k ++ writeVarNum v.length ++ v ++ junk := List.prefix_append _ _
    obtain ⟨hp, hl⟩ := realloc_prefix _ _ size hpre (by simp [writeVarNum_length]; omega)
    generalize hb2 : realloc (writeVarNum k.length ++ k ++ writeVarNum v.length ++ v ++ junk) size = b2 at hp hl
    obtain ⟨t, ht⟩ := hp
    have ht0 : b2 = (writeVarNum k.length ++ k) ++ writeVarNum v.length ++ (v ++ t) := by rw [← ht]; simp
    have w1 : writeAt b2 (sizeVarNum k.length + k.length) (writeVarNum V.length) =
        some ((writeVarNum k.length ++ k) ++ writeVarNum V.length ++ (v ++ t)) := by
      rw [ht0, show sizeVarNum k.length + k.length = (writeVarNum k.length ++ k).length by simp [writeVarNum_length]]
      exact writeAt_split _ _ _ _ (by rw [writeVarNum_length, writeVarNum_length, heq])
    rw [w1]
    simp only [Option.bind_some]
    have tl : delim.length + cat.length = t.length := by
      have := congrArg List.length ht
      simp [writeVarNum_length] at this
      omega
    obtain ⟨z, hz⟩ := writeAt_at ((writeVarNum k.length ++ k) ++ writeVarNum V.length ++ (v ++ t))
      (writeVarNum k.length ++ k ++ writeVarNum V.length ++ v) delim
      (sizeVarNum k.length + k.length + sizeVarNum V.length + v.length) (by simp [writeVarNum_length]; omega)
      ⟨t, by simp⟩ (by simp [writeVarNum_length]; omega)
    have hzl := writeAt_len hz
    rw [hz]
    simp only [Option.bind_some]
    obtain ⟨z', hz'⟩ := writeAt_at (writeVarNum k.length ++ k ++ writeVarNum V.length ++ v ++ delim ++ z)
      (writeVarNum k.length ++ k ++ writeVarNum V.length ++ v ++ delim) cat
      (sizeVarNum k.length + k.length + sizeVarNum V.length + v.length + delim.length) (by simp [writeVarNum_length]; omega)
      (List.prefix_append _ _) (by rw [hzl]; simp [writeVarNum_length]; omega)
    refine ⟨_, hz', hf, z', ?_⟩
    rw [← hV]; simp

/-! ### Chains -/

/-- The records of a chain, newest first. -/
inductive Chain : List Blk → List (Bytes × Bytes) → Prop
  | nil : Chain [] []
  | cons {b k v bs rs} : Holds b k v → Chain bs rs → Chain (b :: bs) ((k, v) :: rs)

theorem Chain.append {a b : List Blk} {x y : List (Bytes × Bytes)} (h : Chain a x) (h' : Chain b y) :
    Chain (a ++ b) (x ++ y) := by
  induction h with
  | nil => exact h'
  | cons h1 _ ih => exact .cons h1 ih

theorem Chain.split {bs : List Blk} {x y : List (Bytes × Bytes)} (h : Chain bs (x ++ y)) :
    ∃ a b, bs = a ++ b ∧ Chain a x ∧ Chain b y := by
  induction x generalizing bs with
  | nil => exact ⟨[], bs, rfl, .nil, h⟩
  | cons r x ih =>
    cases h with
    | cons h1 h2 =>
      obtain ⟨a, b, rfl, ha, hb⟩ := ih h2
      exact ⟨_ :: a, b, rfl, .cons h1 ha, hb⟩

theorem Chain.length {bs rs} (h : Chain bs rs) : bs.length = rs.length := by
  induction h with
  | nil => rfl
  | cons _ _ ih => simp [ih]

/-- Association list lookup. -/
def assoc (k : Bytes) : List (Bytes × Bytes) → Option Bytes
  | [] => none
  | (k', v) :: rest => if k = k' then some v else assoc k rest

theorem assoc_append (k) (x y : List (Bytes × Bytes)) :
    assoc k (x ++ y) = (assoc k x).or (assoc k y) := by
  induction x with
  | nil => simp [assoc]
  | cons r x ih =>
    obtain ⟨a, b⟩ := r
    simp only [List.cons_append, assoc]
    split <;> simp [ih]

theorem assoc_none {k : Bytes} {x : List (Bytes × Bytes)} : assoc k x = none ↔ k ∉ x.map (·.1) := by
  induction x with
  | nil => simp [assoc]
  | cons r x ih =>
    obtain ⟨a, b⟩ := r
    simp only [assoc]
    split <;> simp_all

theorem assoc_mem {k v : Bytes} {x : List (Bytes × Bytes)} (h : assoc k x = some v) : (k, v) ∈ x := by
  induction x with
  | nil => simp [assoc] at h
  | cons r x ih =>
    obtain ⟨a, b⟩ := r
    simp only [assoc] at h
    split at h <;> simp_all

theorem assoc_of_mem {k v : Bytes} {x : List (Bytes × Bytes)} (hn : (x.map (·.1)).Nodup) (h : (k, v) ∈ x) :
    assoc k x = some v := by
  induction x with
  | nil => simp at h
  | cons r x ih =>
    obtain ⟨a, b⟩ := r
    simp only [List.map_cons, List.nodup_cons] at hn
    simp only [assoc]
    rcases List.mem_cons.1 h with h | h
    · simp at h; simp [h]
    · have : k ≠ a := fun e => hn.1 (e ▸ List.mem_map_of_mem (f := (·.1)) h)
      simp [this, ih hn.2 h]

/-- What the walk over a chain finds. -/
theorem walk_absent {bs rs} (h : Chain bs rs) {k : Bytes} (hk : assoc k rs = none) : walk k bs = .absent := by
  induction h with
  | nil => rfl
  | cons h1 _ ih =>
    simp only [assoc] at hk
    split at hk
    · simp at hk
    · rename_i hne
      simp only [walk, deserialize_holds h1, if_neg hne, ih hk]

theorem walk_hit {bs rs} (h : Chain bs rs) {k v : Bytes} (hk : assoc k rs = some v) :
    ∃ pre blk post rpre rpost, walk k bs = .hit pre blk v post ∧ bs = pre ++ blk :: post ∧ Holds blk k v ∧
      rs = rpre ++ (k, v) :: rpost ∧ Chain pre rpre ∧ Chain post rpost ∧ assoc k rpre = none := by
  induction h with
  | nil => simp [assoc] at hk
  | @cons b k' v' bs rs h1 h2 ih =>
    simp only [assoc] at hk
    split at hk
    · rename_i he
      simp at hk
      subst he; subst hk
      exact ⟨[], b, bs, [], rs, by simp [walk, deserialize_holds h1], rfl, h1, rfl, .nil, h2, rfl⟩
    · rename_i hne
      obtain ⟨pre, blk, post, rpre, rpost, e, e2, hb, e3, c1, c2, hn⟩ := ih hk
      refine ⟨b :: pre, blk, post, (k', v') :: rpre, rpost, ?_, by rw [e2]; rfl, hb, by rw [e3]; rfl,
        .cons h1 c1, c2, by simp [assoc, hne, hn]⟩
      simp [walk, deserialize_holds h1, hne, e]

end Verif.Tiny
