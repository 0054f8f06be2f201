import Verif.BTree.Page
/-
Reading back the pages and the metadata.
-/
namespace Verif.BTree
open Verif

theorem fix_read {n w : Nat} (hw : w ≤ 8) (hn : n < 2 ^ (8 * w)) (rest : Bytes) : Codec.readFixNum (Codec.writeFixNum n w ++ rest) w = n :=
  (Codec.C33_fixnum_roundtrip n w hw hn rest).1

theorem fix_length (n : Nat) {w : Nat} (hw : w ≤ 8) : (Codec.writeFixNum n w).length = w := Codec.writeFixNum_length n hw

theorem toInt32_of_lt {n : Nat} (h : n < 2 ^ 31) : Codec.toInt32 n = n := by
  unfold Codec.toInt32
  have : n % 2 ^ 32 = n := Nat.mod_eq_of_lt (by omega)
  rw [this]
  simp only [h, if_true]

theorem readSized_write {a : Bytes} (h : a.length < 2 ^ 31) (rest : Bytes) : readSized (Codec.writeVarNum a.length ++ a ++ rest) = .ok (a, rest) := by
  unfold readSized
  rw [List.append_assoc, Codec.readVarNum_write (by omega)]
  simp only
  rw [← Codec.writeVarNum_length, List.drop_left]
  unfold takeSized
  rw [toInt32_of_lt h, if_neg (by simp only [List.length_append]; omega), if_neg (by simp)]
  simp

theorem recBytes_length (r : Rec) : (recBytes r).length = Codec.sizeVarNum r.1.length + r.1.length + Codec.sizeVarNum r.2.length + r.2.length := by
  simp only [recBytes, List.length_append, Codec.writeVarNum_length]

theorem recBytes_ne (r : Rec) (rest : Bytes) : recBytes r ++ rest ≠ [] := by
  intro h
  have := congrArg List.length h
  rw [List.length_append, recBytes_length] at this
  have := Codec.sizeVarNum_pos r.1.length
  simp at *
  omega

theorem loadRecs_write : ∀ (recs : List Rec), (∀ r ∈ recs, r.1.length < 2 ^ 31 ∧ r.2.length < 2 ^ 31) → loadRecs (recs.flatMap recBytes) = .ok recs
  | [], _ => by rw [loadRecs]; simp
  | r :: recs, h => by
    have h1 : readSized ((r :: recs).flatMap recBytes) = .ok (r.1, Codec.writeVarNum r.2.length ++ r.2 ++ recs.flatMap recBytes) := by
      rw [List.flatMap_cons, recBytes]
      simpa [List.append_assoc] using readSized_write (h r (by simp)).1 (Codec.writeVarNum r.2.length ++ r.2 ++ recs.flatMap recBytes)
    have h2 : readSized (Codec.writeVarNum r.2.length ++ r.2 ++ recs.flatMap recBytes) = .ok (r.2, recs.flatMap recBytes) :=
      readSized_write (h r (by simp)).2 _
    rw [loadRecs, if_neg (by rw [List.flatMap_cons]; exact recBytes_ne _ _)]
    split
    · rename_i k s1 hk
      rw [h1] at hk
      cases hk
      split
      · rename_i v s2 hv
        rw [h2] at hv
        cases hv
        rw [loadRecs_write recs fun x hx => h x (by simp [hx])]
        rfl
      · rename_i hv; rw [h2] at hv; cases hv
      · rename_i hv; rw [h2] at hv; cases hv
    · rename_i hk; rw [h1] at hk; cases hk
    · rename_i hk; rw [h1] at hk; cases hk

theorem ofId_idOf {n : Option Nat} (h : n ≠ some 0) : ofId (idOf n) = n := by
  cases n with
  | none => rfl
  | some n =>
    have : n ≠ 0 := fun e => h (by rw [e])
    simp [ofId, idOf, this]

/-- The sizes of the records add up. -/
theorem leafBytes_length (l : Leaf) : (leafBytes l).length = 12 + (l.recs.map fun r => (recBytes r).length).sum := by
  rw [leafBytes, List.length_append, List.length_append, fix_length _ (by omega), fix_length _ (by omega), List.length_flatMap]

theorem length_le_sum {α : Type} (f : α → Nat) : ∀ {l : List α} {a : α}, a ∈ l → f a ≤ (l.map f).sum
  | b :: l, a, h => by
    rcases List.mem_cons.1 h with rfl | h
    · simp
    · have := length_le_sum f h
      simp only [List.map_cons, List.sum_cons]
      omega

/-- A leaf whose `page_size` is right is saved and read back. -/
theorem leaf_roundtrip {l : Leaf} (hp : l.page = (leafBytes l).length) (hlt : l.page < 2 ^ 31) (h1 : idOf l.prev < 2 ^ 48) (h2 : idOf l.next < 2 ^ 48)
    (h3 : l.prev ≠ some 0) (h4 : l.next ≠ some 0) : saveLeaf l = some (leafBytes l) ∧ loadLeaf (leafBytes l) = .ok { l with dirty := false } := by
  have hs : ∀ r ∈ l.recs, r.1.length < 2 ^ 31 ∧ r.2.length < 2 ^ 31 := fun r hr => by
    have := length_le_sum (fun r : Rec => (recBytes r).length) hr
    have h5 := leafBytes_length l
    have h6 := recBytes_length r
    omega
  have hlen := leafBytes_length l
  constructor
  · unfold saveLeaf
    rw [if_pos (by omega), hp]
    simp
  · unfold loadLeaf
    rw [if_neg (by omega)]
    have d12 : (leafBytes l).drop 12 = l.recs.flatMap recBytes := by
      rw [leafBytes]
      exact List.drop_left' (by rw [List.length_append, fix_length _ (by omega), fix_length _ (by omega)])
    have d6 : (leafBytes l).drop 6 = Codec.writeFixNum (idOf l.next) 6 ++ l.recs.flatMap recBytes := by
      rw [leafBytes, List.append_assoc]
      exact List.drop_left' (fix_length _ (by omega))
    rw [d12, d6, loadRecs_write _ hs, fix_read (by omega) h2]
    have d0 : Codec.readFixNum (leafBytes l) 6 = idOf l.prev := by
      rw [leafBytes, List.append_assoc]
      exact fix_read (by omega) h1 _
    rw [d0, Parse.map, ofId_idOf h3, ofId_idOf h4, hp]

theorem linkBytes_length (k : Bytes × Nat) : (linkBytes k).length = linkSize k := by
  simp only [linkBytes, linkSize, List.length_append, Codec.writeVarNum_length, fix_length k.2 (w := 6) (by omega)]

theorem loadLinks_write : ∀ (links : List (Bytes × Nat)), (∀ k ∈ links, k.1.length < 2 ^ 31 ∧ k.2 < 2 ^ 48) → loadLinks (links.flatMap linkBytes) = .ok links
  | [], _ => by rw [loadLinks]; simp
  | r :: links, h => by
    have h1 : readSized ((r :: links).flatMap linkBytes) = .ok (r.1, Codec.writeFixNum r.2 6 ++ links.flatMap linkBytes) := by
      rw [List.flatMap_cons, linkBytes]
      simpa [List.append_assoc] using readSized_write (h r (by simp)).1 (Codec.writeFixNum r.2 6 ++ links.flatMap linkBytes)
    rw [loadLinks, if_neg (by
      intro h
      have := congrArg List.length h
      rw [List.flatMap_cons, List.length_append, linkBytes_length, linkSize] at this
      simp at this)]
    split
    · rename_i k s1 hk
      rw [h1] at hk
      cases hk
      rw [if_neg (by rw [List.length_append, fix_length _ (by omega)]; omega), List.drop_left' (fix_length _ (by omega)),
        loadLinks_write links fun x hx => h x (by simp [hx]), fix_read (by omega) (h r (by simp)).2]
      rfl
    · rename_i hk; rw [h1] at hk; cases hk
    · rename_i hk; rw [h1] at hk; cases hk

theorem innerBytes_length (n : Inner) : (innerBytes n).length = innerSize n := by
  rw [innerBytes, innerSize, List.length_append, fix_length _ (by omega), List.length_flatMap]
  congr 2
  exact List.map_congr_left fun k _ => linkBytes_length k

/-- An inner node is saved and read back. -/
theorem inner_roundtrip {n : Inner} (hlt : innerSize n < 2 ^ 31) (h1 : n.heir < 2 ^ 48) (h2 : ∀ k ∈ n.links, k.2 < 2 ^ 48) :
    saveInner n = some (innerBytes n) ∧ loadInner (innerBytes n) = .ok { n with dirty := false } := by
  have hlen := innerBytes_length n
  have hs : ∀ k ∈ n.links, k.1.length < 2 ^ 31 ∧ k.2 < 2 ^ 48 := fun k hk => by
    have := length_le_sum linkSize hk
    refine ⟨?_, h2 k hk⟩
    unfold innerSize at hlt
    have h5 : linkSize k = Codec.sizeVarNum k.1.length + k.1.length + 6 := rfl
    omega
  constructor
  · unfold saveInner
    rw [if_pos (by omega), ← hlen]
    simp
  · unfold loadInner
    rw [if_neg (by rw [hlen, innerSize]; omega)]
    have d6 : (innerBytes n).drop 6 = n.links.flatMap linkBytes := by
      rw [innerBytes]
      exact List.drop_left' (fix_length _ (by omega))
    have d0 : Codec.readFixNum (innerBytes n) 6 = n.heir := by
      rw [innerBytes]
      exact fix_read (by omega) h1 _
    rw [d6, d0, loadLinks_write _ hs]
    rfl

theorem pageKey_inj {a b : Nat} (ha : a < 2 ^ 48) (hb : b < 2 ^ 48) (h : pageKey a = pageKey b) : a = b := by
  have h1 := fix_read (n := a) (w := 6) (by omega) ha []
  have h2 := fix_read (n := b) (w := 6) (by omega) hb []
  unfold pageKey at h
  rw [h, h2] at h1
  exact h1.symm

/-- What comes back from the metadata: everything, except that the last leaf is the first one, and that the opaque data has ten bytes. -/
theorem meta_roundtrip {m : Meta} (h1 : m.numRecords < 2 ^ 48) (h2 : m.effDataSize < 2 ^ 48) (h3 : m.root < 2 ^ 48) (h4 : m.first < 2 ^ 48)
    (h6 : m.numLeaf < 2 ^ 48) (h7 : m.numInner < 2 ^ 48) (h8 : m.maxPage < 2 ^ 24) (h9 : m.branch < 2 ^ 24) (h10 : m.level < 2 ^ 8) (h11 : m.comp < 2 ^ 8) :
    parseMeta (saveMeta m) = some { m with last := m.first, opaqueData := m.opaqueData.take 10 ++ List.replicate (10 - (m.opaqueData.take 10).length) 0 } := by
  have ho : (m.opaqueData.take 10 ++ List.replicate (10 - (m.opaqueData.take 10).length) 0).length = 10 := by
    simp only [List.length_append, List.length_replicate, List.length_take]
    omega
  unfold parseMeta saveMeta
  generalize m.opaqueData.take 10 ++ List.replicate (10 - (m.opaqueData.take 10).length) 0 = o at ho ⊢
  have l6 : ∀ n, (Codec.writeFixNum n 6).length = 6 := fun n => fix_length n (by omega)
  have l3 : ∀ n, (Codec.writeFixNum n 3).length = 3 := fun n => fix_length n (by omega)
  have l1 : ∀ n, (Codec.writeFixNum n 1).length = 1 := fun n => fix_length n (by omega)
  have lm : metaMagic.length = 4 := rfl
  have key : ∀ (a b : Bytes) (k j : Nat), a.length = j → (a ++ b).drop (j + k) = b.drop k := fun a b k j h => by
    rw [← List.drop_drop, List.drop_left' h]
  simp only [List.append_assoc]
  rw [if_neg (by simp only [List.length_append, l6, l3, l1, lm, ho]; omega), if_neg (by rw [List.take_left' lm]; simp)]
  simp only [Option.some.injEq, Meta.mk.injEq]
  refine ⟨?_, ?_, ?_, ?_, ?_, ?_, ?_, ?_, ?_, ?_, ?_, ?_⟩
  · rw [key _ _ 0 4 lm]; exact fix_read (by omega) h1 _
  · rw [key _ _ 6 4 lm, key _ _ 0 6 (l6 _)]; exact fix_read (by omega) h2 _
  · rw [key _ _ 12 4 lm, key _ _ 6 6 (l6 _), key _ _ 0 6 (l6 _)]; exact fix_read (by omega) h3 _
  · rw [key _ _ 18 4 lm, key _ _ 12 6 (l6 _), key _ _ 6 6 (l6 _), key _ _ 0 6 (l6 _)]; exact fix_read (by omega) h4 _
  · rw [key _ _ 18 4 lm, key _ _ 12 6 (l6 _), key _ _ 6 6 (l6 _), key _ _ 0 6 (l6 _)]; exact fix_read (by omega) h4 _
  · rw [key _ _ 30 4 lm, key _ _ 24 6 (l6 _), key _ _ 18 6 (l6 _), key _ _ 12 6 (l6 _), key _ _ 6 6 (l6 _), key _ _ 0 6 (l6 _)]; exact fix_read (by omega) h6 _
  · rw [key _ _ 36 4 lm, key _ _ 30 6 (l6 _), key _ _ 24 6 (l6 _), key _ _ 18 6 (l6 _), key _ _ 12 6 (l6 _), key _ _ 6 6 (l6 _), key _ _ 0 6 (l6 _)]
    exact fix_read (by omega) h7 _
  · rw [key _ _ 42 4 lm, key _ _ 36 6 (l6 _), key _ _ 30 6 (l6 _), key _ _ 24 6 (l6 _), key _ _ 18 6 (l6 _), key _ _ 12 6 (l6 _), key _ _ 6 6 (l6 _),
      key _ _ 0 6 (l6 _)]
    exact fix_read (by omega) h8 _
  · rw [key _ _ 45 4 lm, key _ _ 39 6 (l6 _), key _ _ 33 6 (l6 _), key _ _ 27 6 (l6 _), key _ _ 21 6 (l6 _), key _ _ 15 6 (l6 _), key _ _ 9 6 (l6 _),
      key _ _ 3 6 (l6 _), key _ _ 0 3 (l3 _)]
    exact fix_read (by omega) h9 _
  · rw [key _ _ 48 4 lm, key _ _ 42 6 (l6 _), key _ _ 36 6 (l6 _), key _ _ 30 6 (l6 _), key _ _ 24 6 (l6 _), key _ _ 18 6 (l6 _), key _ _ 12 6 (l6 _),
      key _ _ 6 6 (l6 _), key _ _ 3 3 (l3 _), key _ _ 0 3 (l3 _)]
    exact fix_read (by omega) h10 _
  · rw [key _ _ 49 4 lm, key _ _ 43 6 (l6 _), key _ _ 37 6 (l6 _), key _ _ 31 6 (l6 _), key _ _ 25 6 (l6 _), key _ _ 19 6 (l6 _), key _ _ 13 6 (l6 _),
      key _ _ 7 6 (l6 _), key _ _ 4 3 (l3 _), key _ _ 1 3 (l3 _), key _ _ 0 1 (l1 _)]
    exact fix_read (by omega) h11 _
  · rw [key _ _ 50 4 lm, key _ _ 44 6 (l6 _), key _ _ 38 6 (l6 _), key _ _ 32 6 (l6 _), key _ _ 26 6 (l6 _), key _ _ 20 6 (l6 _), key _ _ 14 6 (l6 _),
      key _ _ 8 6 (l6 _), key _ _ 5 3 (l3 _), key _ _ 2 3 (l3 _), key _ _ 1 1 (l1 _), key _ _ 0 1 (l1 _)]
    simp

end Verif.BTree
