import Verif.Skip.Model
import Verif.Codec.NumProps
/-
The layout of a record file: where each record is and what its skip links hold; appending records produces it.
-/
namespace Verif.Skip
open Verif

/-- SPECIFICATION: the records of a file, in order. -/
abbrev Recs := List (Bytes × Bytes)

/-- The size of the record at an index (0 if there is none). -/
def sizeAt (c : Cfg) (recs : Recs) (i : Nat) : Nat :=
  match recs[i]? with
  | some r => wholeSize c i r.1 r.2
  | none => 0

/-- SPECIFICATION: the offset of the record at an index: after the metadata and the records before it. -/
def offs (c : Cfg) (recs : Recs) : Nat → Nat
  | 0 => metadataSize
  | i + 1 => offs c recs i + sizeAt c recs i

/-- SPECIFICATION: the link of a record at a level (counted from 0) leads to the record `step ^ (level + 1)` places
further on; it is 0 if there is no such record. -/
def link (c : Cfg) (recs : Recs) (i j : Nat) : Nat :=
  if i + c.step ^ (j + 1) < recs.length then offs c recs (i + c.step ^ (j + 1)) else 0

/-- The bytes of each record when the links are given by a function. -/
def blocks (c : Cfg) (f : Nat → Nat → Nat) (recs : Recs) : List Bytes :=
  recs.mapIdx fun i r => recBytes c.w ((List.range (c.level i)).map (f i)) r.1 r.2

/-- SPECIFICATION: the file which holds the given records. -/
def image (c : Cfg) (md : Bytes) (recs : Recs) : Bytes := md ++ (blocks c (link c recs) recs).flatten

/-! Levels -/

theorem lt_levelOf {step : Nat} (hs : 0 < step) : ∀ (m j i : Nat), j < levelOf step m i ↔ j < m ∧ step ^ (j + 1) ∣ i
  | 0, j, i => by simp [levelOf]
  | m + 1, j, i => by
    rw [levelOf]
    split
    · rename_i h
      obtain ⟨q, rfl⟩ := Nat.dvd_of_mod_eq_zero h
      rw [Nat.mul_div_cancel_left _ hs]
      cases j with
      | zero => simp [Nat.dvd_mul_right]
      | succ j =>
        rw [Nat.succ_lt_succ_iff, lt_levelOf hs m j q, Nat.succ_lt_succ_iff, Nat.pow_succ step (j + 1), Nat.mul_comm _ step,
          Nat.mul_dvd_mul_iff_left hs]
    · rename_i h
      constructor
      · intro h'; omega
      · rintro ⟨_, h'⟩
        exact absurd (Nat.mod_eq_zero_of_dvd (Nat.dvd_trans ⟨step ^ j, by rw [Nat.pow_succ, Nat.mul_comm]⟩ h')) h

theorem lt_level {c : Cfg} (hs : 0 < c.step) (j i : Nat) : j < c.level i ↔ j < c.maxLevel ∧ c.step ^ (j + 1) ∣ i :=
  lt_levelOf hs _ _ _

theorem level_le {c : Cfg} (hs : 0 < c.step) (i : Nat) : c.level i ≤ c.maxLevel := by
  by_cases h : c.level i = 0
  · omega
  · have := ((lt_level hs (c.level i - 1) i).1 (by omega)).1
    omega

/-! Sizes -/

theorem fixes_length (w : Nat) (hw : w ≤ 8) : ∀ (l : List Nat), (l.flatMap (fun o => Codec.writeFixNum o w)).length = w * l.length
  | [] => by simp
  | a :: l => by
    rw [List.flatMap_cons, List.length_append, fixes_length w hw l, Codec.writeFixNum_length a hw, List.length_cons, Nat.mul_succ]
    omega

theorem recBytes_length {w : Nat} (hw : w ≤ 8) (skips : List Nat) (k v : Bytes) :
    (recBytes w skips k v).length = 1 + w * skips.length + Codec.sizeVarNum k.length + Codec.sizeVarNum v.length + k.length + v.length := by
  simp only [recBytes, List.length_cons, List.length_append, fixes_length w hw, Codec.writeVarNum_length]
  omega

theorem blocks_length (c : Cfg) (f) (recs : Recs) : (blocks c f recs).length = recs.length := by simp [blocks]

theorem blocks_get (c : Cfg) (f) (recs : Recs) (i : Nat) (h : i < recs.length) :
    (blocks c f recs)[i]? = some (recBytes c.w ((List.range (c.level i)).map (f i)) recs[i].1 recs[i].2) := by
  simp [blocks, List.getElem?_mapIdx, List.getElem?_eq_getElem h]

theorem sizeAt_lt {c : Cfg} {recs : Recs} {i : Nat} (h : i < recs.length) : sizeAt c recs i = wholeSize c i recs[i].1 recs[i].2 := by
  simp [sizeAt, List.getElem?_eq_getElem h]

theorem block_length {c : Cfg} (hw : c.w ≤ 8) (f : Nat → Nat → Nat) (recs : Recs) (i : Nat) (h : i < recs.length) :
    (recBytes c.w ((List.range (c.level i)).map (f i)) recs[i].1 recs[i].2).length = sizeAt c recs i := by
  rw [recBytes_length hw, sizeAt_lt h, wholeSize]
  simp

theorem take_blocks_length {c : Cfg} (hw : c.w ≤ 8) (f) (md : Bytes) (hm : md.length = metadataSize) (recs : Recs) :
    ∀ (i : Nat), i ≤ recs.length → (md ++ ((blocks c f recs).take i).flatten).length = offs c recs i
  | 0, _ => by simp [offs, hm]
  | i + 1, h => by
    rw [List.take_add_one, blocks_get c f recs i (by omega), List.flatten_append, ← List.append_assoc, List.length_append,
      take_blocks_length hw f md hm recs i (by omega)]
    simp only [Option.toList_some, List.flatten_cons, List.flatten_nil, List.append_nil]
    rw [block_length hw f recs i (by omega), offs]

theorem image_length {c : Cfg} (hw : c.w ≤ 8) {md : Bytes} (hm : md.length = metadataSize) (recs : Recs) :
    (image c md recs).length = offs c recs recs.length := by
  rw [← take_blocks_length hw (link c recs) md hm recs recs.length (Nat.le_refl _), image, List.take_of_length_le (by rw [blocks_length]; omega)]

theorem offs_mono (c : Cfg) (recs : Recs) {i j : Nat} (h : i ≤ j) : offs c recs i ≤ offs c recs j := by
  induction h with
  | refl => omega
  | step h ih => rw [offs]; omega

theorem sizeAt_pos {c : Cfg} {recs : Recs} {i : Nat} (h : i < recs.length) : 3 ≤ sizeAt c recs i := by
  rw [sizeAt_lt h, wholeSize]
  have := Codec.sizeVarNum_pos recs[i].1.length
  have := Codec.sizeVarNum_pos recs[i].2.length
  omega

theorem offs_lt {c : Cfg} {recs : Recs} {i j : Nat} (h : i < j) (hj : i < recs.length) : offs c recs i < offs c recs j := by
  have h1 := offs_mono c recs (show i + 1 ≤ j from h)
  have h2 := sizeAt_pos (c := c) hj
  rw [offs] at h1
  omega

theorem offs_pos (c : Cfg) (recs : Recs) (i : Nat) : 128 ≤ offs c recs i := by
  have := offs_mono c recs (Nat.zero_le i)
  simpa [offs, metadataSize] using this

theorem offs_append (c : Cfg) (recs more : Recs) : ∀ (i : Nat), i ≤ recs.length → offs c (recs ++ more) i = offs c recs i
  | 0, _ => rfl
  | i + 1, h => by
    rw [offs, offs, offs_append c recs more i (by omega)]
    simp only [sizeAt, List.getElem?_append_left (show i < recs.length by omega)]

/-! Overwriting -/

theorem overwrite_mid (A X C b : Bytes) (q : Nat) (h : q + b.length ≤ X.length) :
    overwrite (A ++ X ++ C) (A.length + q) b = A ++ overwrite X q b ++ C := by
  unfold overwrite
  rw [List.append_assoc A X C, List.take_length_add_append, Nat.add_assoc, List.drop_length_add_append,
    List.take_append_of_le_length (by omega), List.drop_append_of_le_length h]
  simp [List.append_assoc]

theorem overwrite_flatten (A C : Bytes) (B : List Bytes) (p q : Nat) (b X : Bytes) (hp : B[p]? = some X) (h : q + b.length ≤ X.length) :
    overwrite (A ++ B.flatten ++ C) ((A ++ (B.take p).flatten).length + q) b = A ++ (B.set p (overwrite X q b)).flatten ++ C := by
  have hlt : p < B.length := by
    rcases Nat.lt_or_ge p B.length with h | h
    · exact h
    · rw [List.getElem?_eq_none h] at hp; cases hp
  have hX : B[p] = X := by rw [List.getElem?_eq_getElem hlt] at hp; exact Option.some.inj hp
  have e1 : B = B.take p ++ X :: B.drop (p + 1) := by
    rw [← hX, List.getElem_cons_drop, List.take_append_drop]
  have e2 : B.set p (overwrite X q b) = B.take p ++ overwrite X q b :: B.drop (p + 1) := List.set_eq_take_append_cons_drop .. |>.trans (by rw [if_pos hlt])
  rw [e2]
  conv => lhs; rw [e1]
  simp only [List.flatten_append, List.flatten_cons]
  have hl : (A ++ (List.take p (B.take p ++ X :: B.drop (p + 1))).flatten).length = (A ++ (B.take p).flatten).length := by rw [← e1]
  rw [hl]
  have := overwrite_mid (A ++ (B.take p).flatten) X ((B.drop (p + 1)).flatten ++ C) b q h
  simpa [List.append_assoc] using this

theorem take_fixes_length {w : Nat} (hw : w ≤ 8) (l : List Nat) (j : Nat) (hj : j ≤ l.length) :
    (((l.map (fun o => Codec.writeFixNum o w)).take j).flatten).length = j * w := by
  rw [← List.map_take, ← List.flatMap_def, fixes_length w hw, List.length_take, Nat.min_eq_left hj, Nat.mul_comm]

/-- Writing one link of a record. -/
theorem overwrite_rec {w : Nat} (hw : w ≤ 8) (skips : List Nat) (k v : Bytes) (j x : Nat) (hj : j < skips.length) :
    overwrite (recBytes w skips k v) (1 + j * w) (Codec.writeFixNum x w) = recBytes w (skips.set j x) k v := by
  have h := overwrite_flatten [recordMagic] (Codec.writeVarNum k.length ++ Codec.writeVarNum v.length ++ k ++ v)
    (skips.map (fun o => Codec.writeFixNum o w)) j 0 (Codec.writeFixNum x w) (Codec.writeFixNum skips[j] w)
    (by rw [List.getElem?_map, List.getElem?_eq_getElem hj]; rfl) (by rw [Codec.writeFixNum_length _ hw, Codec.writeFixNum_length _ hw]; omega)
  rw [List.length_append, take_fixes_length hw _ _ (by omega)] at h
  have e : overwrite (Codec.writeFixNum skips[j] w) 0 (Codec.writeFixNum x w) = Codec.writeFixNum x w := by
    unfold overwrite
    rw [List.drop_of_length_le (by rw [Codec.writeFixNum_length _ hw, Codec.writeFixNum_length _ hw]; omega)]
    simp
  rw [e, ← List.map_set] at h
  simpa [recBytes, List.flatMap_def, List.append_assoc] using h

theorem blocks_set {c : Cfg} (f : Nat → Nat → Nat) (recs : Recs) (p j x : Nat) (hp : p < recs.length) (hj : j < c.level p) :
    (blocks c f recs).set p (recBytes c.w (((List.range (c.level p)).map (f p)).set j x) recs[p].1 recs[p].2) =
      blocks c (fun a b => if a = p ∧ b = j then x else f a b) recs := by
  apply List.ext_getElem?
  intro i
  rw [List.getElem?_set, blocks_length]
  by_cases hi : p = i
  · subst hi
    rw [if_pos rfl, if_pos hp, blocks_get c _ recs p hp]
    congr 2
    apply List.ext_getElem?
    intro b
    rw [List.getElem?_set]
    by_cases hb : j = b
    · subst hb
      simp [hj]
    · rw [if_neg hb]
      simp only [List.getElem?_map]
      rcases Nat.lt_or_ge b (c.level p) with h | h
      · simp [List.getElem?_range h, Ne.symm hb]
      · simp [List.getElem?_eq_none (l := List.range (c.level p)) (by simpa using h)]
  · rw [if_neg hi]
    rcases Nat.lt_or_ge i recs.length with h | h
    · rw [blocks_get c _ recs i h, blocks_get c _ recs i h]
      simp [Ne.symm hi]
    · rw [List.getElem?_eq_none (by rw [blocks_length]; exact h), List.getElem?_eq_none (by rw [blocks_length]; exact h)]

/-- Writing one link in the file. -/
theorem overwrite_link {c : Cfg} (hw : c.w ≤ 8) {md : Bytes} (hm : md.length = metadataSize) (f : Nat → Nat → Nat) (recs : Recs)
    (p j x : Nat) (hp : p < recs.length) (hj : j < c.level p) :
    overwrite (md ++ (blocks c f recs).flatten) (offs c recs p + 1 + j * c.w) (Codec.writeFixNum x c.w) =
      md ++ (blocks c (fun a b => if a = p ∧ b = j then x else f a b) recs).flatten := by
  have hb := overwrite_flatten md [] (blocks c f recs) p (1 + j * c.w) (Codec.writeFixNum x c.w) _ (blocks_get c f recs p hp)
    (by
      rw [Codec.writeFixNum_length _ hw, recBytes_length hw]
      simp only [List.length_map, List.length_range]
      have : j * c.w + c.w ≤ c.w * c.level p := by
        calc j * c.w + c.w = (j + 1) * c.w := by rw [Nat.succ_mul]
          _ ≤ c.level p * c.w := Nat.mul_le_mul_right _ hj
          _ = _ := Nat.mul_comm _ _
      omega)
  rw [take_blocks_length hw f md hm recs p (by omega), overwrite_rec hw _ _ _ _ _ (by simpa using hj), blocks_set f recs p j x hp hj] at hb
  simpa [Nat.add_assoc] using hb

/-! Appending -/

/-- What `past_offsets_` holds: for each level the last record which has a link of this level. -/
def PastOk (c : Cfg) (recs : Recs) (past : List Nat) : Prop :=
  past.length = c.maxLevel ∧ ∀ j, j < c.maxLevel →
    past.getD j 0 = if recs.length = 0 then 0 else offs c recs ((recs.length - 1) / c.step ^ (j + 1) * c.step ^ (j + 1))

/-- What a writer holds after the given records. -/
def WriterOk (c : Cfg) (md : Bytes) (recs : Recs) (W : Writer) : Prop :=
  W.file = image c md recs ∧ W.index = recs.length ∧ PastOk c recs W.past

/-- The links while the levels below `lim` of a new last record are done. -/
def linkTo (c : Cfg) (recs : Recs) (n lim p j : Nat) : Nat :=
  if p + c.step ^ (j + 1) < n ∨ (p + c.step ^ (j + 1) = n ∧ j < lim) then offs c recs (p + c.step ^ (j + 1)) else 0

theorem blocks_congr {c : Cfg} {f g : Nat → Nat → Nat} (recs : Recs) (h : ∀ i j, i < recs.length → j < c.level i → f i j = g i j) :
    blocks c f recs = blocks c g recs := by
  apply List.ext_getElem?
  intro i
  rcases Nat.lt_or_ge i recs.length with hi | hi
  · rw [blocks_get c _ recs i hi, blocks_get c _ recs i hi]
    congr 2
    apply List.map_congr_left
    intro j hj
    exact h i j hi (List.mem_range.1 hj)
  · rw [List.getElem?_eq_none (by rw [blocks_length]; exact hi), List.getElem?_eq_none (by rw [blocks_length]; exact hi)]

theorem patchPast_spec {c : Cfg} (hw : c.w ≤ 8) (hs : 0 < c.step) {md : Bytes} (hm : md.length = metadataSize) (recs : Recs) (r : Bytes × Bytes)
    {past : List Nat} (hp : PastOk c recs past) : ∀ (k i : Nat), i + k = c.level recs.length →
    patchPast c recs.length (offs c (recs ++ [r]) recs.length) past k i (c.step ^ i)
      (md ++ (blocks c (linkTo c (recs ++ [r]) recs.length i) (recs ++ [r])).flatten) =
      md ++ (blocks c (linkTo c (recs ++ [r]) recs.length (c.level recs.length)) (recs ++ [r])).flatten
  | 0, i, h => by rw [patchPast, ← h]; rfl
  | k + 1, i, h => by
    have hi := (lt_level hs i recs.length).1 (by omega)
    have hpi := hp.2 i hi.1
    have ih := patchPast_spec hw hs hm recs r hp k (i + 1) (by omega)
    rw [patchPast, show c.step ^ i * c.step = c.step ^ (i + 1) from rfl]
    have hspos : 0 < c.step ^ (i + 1) := Nat.pow_pos hs
    by_cases hn : recs.length = 0
    · rw [if_pos (by rw [hpi, if_pos hn])]
      rw [← ih]
      congr 3
      apply blocks_congr
      intro p j _ _
      have : 0 < c.step ^ (j + 1) := Nat.pow_pos hs
      simp only [linkTo]
      rw [if_neg (by omega), if_neg (by omega)]
    · rw [if_neg hn] at hpi
      obtain ⟨q, hq⟩ := hi.2
      have hle : c.step ^ (i + 1) ≤ recs.length := Nat.le_of_dvd (by omega) hi.2
      have hq0 : q ≠ 0 := by rintro rfl; omega
      have hdiv : (recs.length - 1) / c.step ^ (i + 1) * c.step ^ (i + 1) = recs.length - c.step ^ (i + 1) := by
        obtain ⟨q', rfl⟩ := Nat.exists_eq_succ_of_ne_zero hq0
        rw [hq, Nat.mul_succ, show c.step ^ (i + 1) * q' + c.step ^ (i + 1) - 1 = (c.step ^ (i + 1) - 1) + c.step ^ (i + 1) * q' by omega,
          Nat.add_mul_div_left _ _ hspos, Nat.div_eq_of_lt (by omega), Nat.zero_add, Nat.mul_comm]
        omega
      rw [hdiv] at hpi
      have hpos := offs_pos c recs (recs.length - c.step ^ (i + 1))
      have hlvl : i < c.level (recs.length - c.step ^ (i + 1)) :=
        (lt_level hs _ _).2 ⟨hi.1, Nat.dvd_sub hi.2 (Nat.dvd_refl _)⟩
      rw [if_neg (by omega), if_neg (by omega), hpi, ← offs_append c recs [r] _ (by omega),
        overwrite_link hw hm _ _ _ _ _ (by rw [List.length_append]; simp; omega) hlvl, ← ih]
      congr 3
      apply blocks_congr
      intro p j hp' _
      simp only [linkTo]
      by_cases hpj : p = recs.length - c.step ^ (i + 1) ∧ j = i
      · obtain ⟨rfl, rfl⟩ := hpj
        rw [if_pos ⟨rfl, rfl⟩, if_pos (Or.inr ⟨by omega, by omega⟩)]
        congr 1; omega
      · rw [if_neg hpj]
        congr 1
        apply propext
        constructor
        · rintro (h | h)
          · exact Or.inl h
          · exact Or.inr ⟨h.1, by omega⟩
        · rintro (h | h)
          · exact Or.inl h
          · refine Or.inr ⟨h.1, ?_⟩
            rcases Nat.lt_or_ge j i with h' | h'
            · exact h'
            · have : j = i := by omega
              subst this
              exact absurd ⟨by omega, rfl⟩ hpj

theorem fixes_zero (w : Nat) (n : Nat) : List.replicate n 0 = (List.range n).map (fun _ => 0) := by
  apply List.ext_getElem <;> simp

theorem write_spec {c : Cfg} (hw : c.w ≤ 8) (hs : 0 < c.step) {md : Bytes} (hm : md.length = metadataSize) {recs : Recs} {W : Writer}
    (h : WriterOk c md recs W) (k v : Bytes) : WriterOk c md (recs ++ [(k, v)]) (W.write c k v) := by
  obtain ⟨hf, hi, hp⟩ := h
  have hlen : W.file.length = offs c recs recs.length := by rw [hf, image_length hw hm]
  have hoff : offs c (recs ++ [(k, v)]) recs.length = offs c recs recs.length := offs_append c recs _ _ (Nat.le_refl _)
  have hlt : ∀ i, i < (recs ++ [(k, v)]).length ↔ i < recs.length + 1 := by intro i; simp
  have e0 : W.file ++ recBytes c.w (List.replicate (c.level W.index) 0) k v =
      md ++ (blocks c (linkTo c (recs ++ [(k, v)]) recs.length 0) (recs ++ [(k, v)])).flatten := by
    rw [hf, image, hi]
    have : blocks c (linkTo c (recs ++ [(k, v)]) recs.length 0) (recs ++ [(k, v)]) =
        blocks c (link c recs) recs ++ [recBytes c.w (List.replicate (c.level recs.length) 0) k v] := by
      have e1 : blocks c (link c recs) recs = blocks c (linkTo c (recs ++ [(k, v)]) recs.length 0) recs := by
        apply blocks_congr
        intro p j _ _
        simp only [link, linkTo]
        by_cases hlt' : p + c.step ^ (j + 1) < recs.length
        · rw [if_pos hlt', if_pos (Or.inl hlt'), offs_append c recs _ _ (by omega)]
        · rw [if_neg hlt', if_neg (by omega)]
      have e2 : recBytes c.w (List.replicate (c.level recs.length) 0) k v =
          recBytes c.w ((List.range (c.level recs.length)).map (linkTo c (recs ++ [(k, v)]) recs.length 0 recs.length)) k v := by
        rw [fixes_zero c.w]
        congr 1
        apply List.map_congr_left
        intro j _
        simp only [linkTo]
        have : 0 < c.step ^ (j + 1) := Nat.pow_pos hs
        rw [if_neg (by omega)]
      rw [e1, e2]
      simp [blocks, List.mapIdx_append]
    rw [this, List.flatten_append]
    simp [List.append_assoc]
  refine ⟨?_, by simp [Writer.write, hi], ?_, ?_⟩
  · simp only [Writer.write]
    rw [e0, hi, hlen, ← hoff]
    have := patchPast_spec hw hs hm recs (k, v) hp (c.level recs.length) 0 (by omega)
    rw [Nat.pow_zero] at this
    rw [this, image]
    congr 2
    apply blocks_congr
    intro p j hp' hj
    simp only [linkTo, link, hlt]
    congr 1
    apply propext
    constructor
    · rintro (h | h)
      · omega
      · omega
    · intro h'
      by_cases he : p + c.step ^ (j + 1) = recs.length
      · refine Or.inr ⟨he, ?_⟩
        rw [lt_level hs] at hj ⊢
        exact ⟨hj.1, by rw [← he]; exact Nat.dvd_add hj.2 (Nat.dvd_refl _)⟩
      · exact Or.inl (by omega)
  · simp only [Writer.write, List.length_append, List.length_replicate, List.length_drop, hp.1, hi]
    have := level_le hs (c := c) recs.length
    omega
  · intro j hj
    rw [if_neg (by simp)]
    simp only [Writer.write, hi, List.length_append, List.length_cons, List.length_nil, Nat.add_sub_cancel]
    by_cases hjl : j < c.level recs.length
    · rw [List.getD_eq_getElem?_getD, List.getElem?_append_left (by simpa using hjl), List.getElem?_replicate, if_pos hjl, Option.getD_some,
        Nat.div_mul_cancel ((lt_level hs _ _).1 hjl).2, hlen, hoff]
    · have hnd : ¬ c.step ^ (j + 1) ∣ recs.length := fun hd => hjl ((lt_level hs _ _).2 ⟨hj, hd⟩)
      have hn : recs.length ≠ 0 := fun h0 => hnd (by rw [h0]; exact Nat.dvd_zero _)
      have := hp.2 j hj
      rw [if_neg hn] at this
      rw [List.getD_eq_getElem?_getD, List.getElem?_append_right (by simpa using hjl), List.length_replicate, List.getElem?_drop,
        show c.level recs.length + (j - c.level recs.length) = j by omega, ← List.getD_eq_getElem?_getD, this]
      have hdiv : recs.length / c.step ^ (j + 1) = (recs.length - 1) / c.step ^ (j + 1) := by
        obtain ⟨m, hm'⟩ := Nat.exists_eq_succ_of_ne_zero hn
        rw [hm', Nat.succ_sub_one, Nat.succ_eq_add_one, Nat.succ_div, if_neg (by have h2 := hnd; rw [hm'] at h2; exact h2)]
        rfl
      have hle : (recs.length - 1) / c.step ^ (j + 1) * c.step ^ (j + 1) ≤ recs.length := by
        have := Nat.div_mul_le_self (recs.length - 1) (c.step ^ (j + 1))
        omega
      rw [hdiv, offs_append c recs _ _ hle]

theorem new_spec (c : Cfg) (md : Bytes) : WriterOk c md [] (Writer.new c md) := by
  refine ⟨by simp [Writer.new, image, blocks], rfl, by simp [Writer.new], ?_⟩
  intro j hj
  simp [Writer.new, List.getD_eq_getElem?_getD, List.getElem?_replicate, hj]

/-- Appending a list of records. -/
def Writer.writeAll (c : Cfg) (W : Writer) (recs : Recs) : Writer := recs.foldl (fun W r => W.write c r.1 r.2) W

theorem writeAll_spec {c : Cfg} (hw : c.w ≤ 8) (hs : 0 < c.step) {md : Bytes} (hm : md.length = metadataSize) :
    ∀ (more : Recs) {recs : Recs} {W : Writer}, WriterOk c md recs W → WriterOk c md (recs ++ more) (W.writeAll c more)
  | [], recs, W, h => by simpa [Writer.writeAll] using h
  | r :: more, recs, W, h => by
    have := writeAll_spec hw hs hm more (write_spec hw hs hm h r.1 r.2)
    simpa [Writer.writeAll] using this

end Verif.Skip
