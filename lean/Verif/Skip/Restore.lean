import Verif.Skip.Life
/-
Reading the records out of a file which was not closed.
-/
namespace Verif.Skip
open Verif

/-- The value of a record which is somewhere in a file. -/
theorem loadValue_at {c : Cfg} (hc : c.Ok) {recs : Recs} (i : Nat) (h : i < recs.length) {F rest : Bytes} {o : Option Bytes}
    (ho : o = none ∨ o = some recs[i].2)
    (hr : F.drop (offs c recs i) = recBytes c.w ((List.range (c.level i)).map (link c recs i)) recs[i].1 recs[i].2 ++ rest)
    (hlen : offs c recs i + sizeAt c recs i ≤ F.length) :
    loadValue F (recAt c recs i recs[i].1 recs[i].2.length o) = .ok recs[i].2 := by
  rw [loadValue]
  rcases ho with rfl | rfl
  · simp only [recAt]
    have hb := body_of_split hc.w hr
    have hsz := sizeAt_lt (c := c) h
    rw [wholeSize] at hsz
    rw [readBody_spec (rest := rest) hb (by simp only; omega) rfl rfl]
    rfl
  · simp [recAt]

/-- Records which are in place in a file up to some number, after which the file ends or something else follows, are
read until there. -/
theorem salvage_part {c : Cfg} (hc : c.Ok) {recs : Recs} (hfit : Fits c recs) {F : Bytes} {j : Nat} (hj : j ≤ recs.length)
    (hrec : ∀ i (h : i < recs.length), i < j → ∃ rest, F.drop (offs c recs i) =
      recBytes c.w ((List.range (c.level i)).map (link c recs i)) recs[i].1 recs[i].2 ++ rest)
    (hle : offs c recs j ≤ F.length) (hend : F.length = offs c recs j ∨ F[offs c recs j]? ≠ some recordMagic) :
    ∀ n i, i ≤ j → j < i + n → salvageFrom c F n (offs c recs i) i = .ok ((recs.take j).drop i)
  | 0, i, h1, h2 => by omega
  | n + 1, i, h1, h2 => by
    rw [salvageFrom]
    by_cases hi : i = j
    · subst hi
      have e : (recs.take i).drop i = [] := List.drop_eq_nil_of_le (by simp; omega)
      rw [e]
      split
      · rfl
      · rename_i hlt
        rcases hend with h | h
        · omega
        · have : readMetadataKey c F (offs c recs i) i = .broken := by
            unfold readMetadataKey
            simp only
            split
            · rfl
            · rename_i hm
              rw [if_pos]
              rw [List.head?_take, if_neg (by unfold readDataSize; omega), List.head?_drop]
              exact h
          rw [this]
    · have hin : i < recs.length := by omega
      have hmono : offs c recs (i + 1) ≤ offs c recs j := offs_mono c recs (show i + 1 ≤ j by omega)
      have hoff : offs c recs (i + 1) = offs c recs i + sizeAt c recs i := rfl
      have hpos := sizeAt_pos (c := c) hin
      obtain ⟨rest, hr⟩ := hrec i hin (by omega)
      obtain ⟨o, ho, he⟩ := readMetadataKey_at hc hfit i hin hr (by omega)
      rw [if_neg (by omega), he]
      simp only
      rw [loadValue_at hc i hin ho hr (by omega)]
      simp only
      rw [show (recAt c recs i recs[i].1 recs[i].2.length o).whole = sizeAt c recs i from rfl, ← hoff,
        salvage_part hc hfit hj hrec hle hend n (i + 1) (by omega) (by omega), Rd.bind_ok, Rd.pure_eq]
      have : (recs.take j).drop i = recs[i] :: (recs.take j).drop (i + 1) := by
        rw [List.drop_eq_getElem_cons (by simp; omega), List.getElem_take]
      rw [this]
      rfl

theorem getElem?_zeros {a b : Bytes} (n z : Nat) (h : a.length = n) (hb : b = List.replicate z 0) : (a ++ b).length = n ∨ (a ++ b)[n]? ≠ some recordMagic := by
  subst hb
  cases z with
  | zero => exact Or.inl (by simp [h])
  | succ z =>
    right
    rw [List.getElem?_append_right (by omega), h, Nat.sub_self]
    simp [List.replicate_succ, recordMagic]

/-- All the records of a file, zeros following. -/
theorem salvage_image {c : Cfg} (hc : c.Ok) {md : Bytes} (hm : md.length = metadataSize) {recs : Recs} (hfit : Fits c recs) (z : Nat) :
    salvageFrom c (image c md recs ++ List.replicate z 0) ((image c md recs ++ List.replicate z 0).length + 1) metadataSize 0 = .ok recs := by
  have hlen := image_length hc.w hm recs
  have hn := length_le_offs c recs recs.length (Nat.le_refl _)
  have := salvage_part hc hfit (F := image c md recs ++ List.replicate z 0) (j := recs.length) (Nat.le_refl _) (fun i h _ => by
    obtain ⟨rest, hr⟩ := image_split hc.w hm recs i h
    have hle : offs c recs i + sizeAt c recs i ≤ offs c recs recs.length := offs_mono c recs (show i + 1 ≤ recs.length from h)
    exact ⟨rest ++ List.replicate z 0, by rw [List.drop_append_of_le_length (by omega), hr, List.append_assoc]⟩)
    (by rw [List.length_append]; omega) (getElem?_zeros _ z hlen rfl) ((image c md recs ++ List.replicate z 0).length + 1) 0 (by omega)
    (by rw [List.length_append]; omega)
  simpa [offs] using this

theorem fold_lt : ∀ (l : Bytes) (a : Nat), l.foldl (fun a b => a * 256 + b.toNat) a < (a + 1) * 256 ^ l.length
  | [], a => by simp
  | b :: l, a => by
    have h := fold_lt l (a * 256 + b.toNat)
    have hb : b.toNat < 256 := b.toNat_lt
    rw [List.foldl_cons, List.length_cons, Nat.pow_succ, Nat.mul_comm (256 ^ l.length), ← Nat.mul_assoc]
    exact Nat.lt_of_lt_of_le h (Nat.mul_le_mul_right _ (by omega))

theorem readFixNum_lt (b : Bytes) {w : Nat} (hw : w ≤ 8) : Codec.readFixNum b w < 256 ^ w := by
  rw [Codec.readFixNum_eq _ hw, Codec.fromBe64]
  have h := fold_lt (b.take w) 0
  rw [Nat.zero_add, Nat.one_mul] at h
  exact Nat.lt_of_lt_of_le h (Nat.pow_le_pow_right (by omega) (by simp; omega))

/-- RestoreDatabase of a file from which the records can be read. -/
theorem restore_ok {F : Bytes} {c : Cfg} {m : Meta} {good : Bool} {recs : Recs} (hlen : metadataSize ≤ F.length)
    (hr : readMetadata F = some (c, m, good)) (hl : salvageFrom c F (F.length + 1) metadataSize 0 = .ok recs) (hs : SortedRecs recs)
    (hcl : ∀ r ∈ recs, r.2 ≠ removingValue)
    (hfit : Fits (if good then clampCfg c.w c.step c.maxLevel else clampCfg (-1) (-1) (-1)) recs) (now : Nat) :
    ∃ F' m', restore F now = .ok F' ∧ Closed (if good then clampCfg c.w c.step c.maxLevel else clampCfg (-1) (-1) (-1)) m' recs F' ∧
      m'.closure = 1 ∧ m'.dbType = m.dbType ∧ m'.extra = m.extra := by
  have hclamp : ∀ lo hi d (n : Int), lo ≤ hi → lo ≤ d → d ≤ hi → lo ≤ clamp lo hi d n ∧ clamp lo hi d n ≤ hi := by
    intro lo hi d n h1 h2 h3
    unfold clamp
    split <;> omega
  have hv : ∀ a b e : Int, (clampCfg a b e).Valid := fun a b e =>
    ⟨hclamp 3 6 4 a (by omega) (by omega) (by omega), hclamp 2 64 4 b (by omega) (by omega) (by omega),
      hclamp 1 32 14 e (by omega) (by omega) (by omega)⟩
  have hv' : (if good then clampCfg c.w c.step c.maxLevel else clampCfg (-1) (-1) (-1)).Valid := by split <;> exact hv _ _ _
  have hty : m.dbType < 2 ^ 32 := by
    unfold readMetadata at hr
    split at hr
    · cases hr
    · split at hr
      · cases hr
      · simp only [Option.some.injEq, Prod.mk.injEq] at hr
        rw [← hr.2.1]
        have := readFixNum_lt (List.drop 56 F) (w := 4) (by omega)
        simpa using this
  unfold restore
  rw [if_neg (by omega), hr]
  simp only
  generalize hcc : (if good then clampCfg c.w c.step c.maxLevel else clampCfg (-1) (-1) (-1)) = cc at *
  obtain ⟨d, e1, hi, hcfg, hc1, _, _⟩ := create_ok (p := ⟨cc, 2 ^ 28, true, 2 ^ 16⟩) hv' now
  rw [e1, Rd.bind_ok, hl, Rd.bind_ok]
  have hi2 : Inv { d with md := { d.md with dbType := m.dbType, extra := m.extra } } ⟨cc, true, [], [], [], none⟩ :=
    { hi with good := ⟨hi.good.major, hi.good.minor, hty⟩ }
  obtain ⟨d', F', m', e2, e3, hclosed, hmc, hmt, hme⟩ := write_all_ok hv' hs hcl hfit hi2 hc1 now
  rw [e2, Rd.bind_ok]
  exact ⟨F', m', e3, hclosed, hmc, hmt, hme⟩

end Verif.Skip
