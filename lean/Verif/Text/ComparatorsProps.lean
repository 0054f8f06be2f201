import Verif.Text.Comparators
/-
More of C41: what the conversions in front of the comparisons mean.
-/
namespace Verif.Cmp
open Verif.Codec

/-! ### Letters -/

/-- SPECIFICATION: one byte is the same as the other, or the small letter of the other (A to Z are 65 to 90, a to z are
97 to 122). -/
def SameLetter (x y : UInt8) : Prop := x = y ∨ (65 ≤ x.toNat ∧ x.toNat ≤ 90 ∧ y.toNat = x.toNat + 32) ∨ (65 ≤ y.toNat ∧ y.toNat ≤ 90 ∧ x.toNat = y.toNat + 32)

/-- SPECIFICATION: the strings differ only in the case of ASCII letters. -/
inductive SameText : Bytes → Bytes → Prop
  | nil : SameText [] []
  | cons {x y a b} : SameLetter x y → SameText a b → SameText (x :: a) (y :: b)

theorem lower_toNat (x : UInt8) : (lower x).toNat = if 65 ≤ x.toNat ∧ x.toNat ≤ 90 then x.toNat + 32 else x.toNat := by
  unfold lower
  have h1 : (65 ≤ x) = (65 ≤ x.toNat) := by simp [UInt8.le_iff_toNat_le]
  have h2 : (x ≤ 90) = (x.toNat ≤ 90) := by simp [UInt8.le_iff_toNat_le]
  simp only [h1, h2]
  split
  · rename_i h; rw [UInt8.toNat_add]; simp; omega
  · rfl

theorem lower_same (x y : UInt8) : lower x = lower y ↔ SameLetter x y := by
  rw [← UInt8.toNat_inj, lower_toNat, lower_toNat]
  unfold SameLetter
  rw [← UInt8.toNat_inj]
  split <;> split <;> omega

theorem map_lower_same (a b : Bytes) : a.map lower = b.map lower ↔ SameText a b := by
  induction a generalizing b with
  | nil =>
    cases b with
    | nil => simp [SameText.nil]
    | cons y b => simp; intro h; cases h
  | cons x a ih =>
    cases b with
    | nil => simp; intro h; cases h
    | cons y b =>
      simp only [List.map_cons, List.cons.injEq, lower_same, ih]
      constructor
      · rintro ⟨h1, h2⟩; exact .cons h1 h2
      · intro h; cases h with | cons h1 h2 => exact ⟨h1, h2⟩

/-- C41: for keys below 2 GiB the comparator that ignores case takes two keys for equal exactly when they differ only in
the case of ASCII letters; and on keys without capital letters it is the lexical order. -/
theorem C41_case_equal_partial (a b : Bytes) (ha : a.length < 2 ^ 31) :
    (strCaseCompare a b = 0 ↔ SameText a b) ∧
    ((∀ x ∈ a ++ b, ¬ (65 ≤ x.toNat ∧ x.toNat ≤ 90)) → strCaseCompare a b = lexCompare a b) := by
  rw [strCaseCompare_eq (Or.inl ha), lexCompare_zero, map_lower_same]
  refine ⟨Iff.rfl, fun h => ?_⟩
  have key : ∀ l : Bytes, (∀ x ∈ l, ¬ (65 ≤ x.toNat ∧ x.toNat ≤ 90)) → l.map lower = l := by
    intro l hl
    rw [List.map_congr_left (g := id), List.map_id]
    intro x hx
    apply UInt8.toNat_inj.1
    rw [lower_toNat, if_neg (hl x hx)]; rfl
  rw [key a (fun x hx => h x (by simp [hx])), key b (fun x hx => h x (by simp [hx]))]

example : SameText (asc "Key") (asc "kEY") ∧ strCaseCompare (asc "Key") (asc "kEY") = 0 ∧ strCaseCompare (asc "Z") (asc "[") = 1 := by
  refine ⟨(map_lower_same _ _).1 ?_, ?_, ?_⟩ <;> decide +kernel

/-! ### Hexadecimal expressions -/

/-- SPECIFICATION: the characters of the sixteen digits; `up` chooses the capital letters. -/
def hexChar (up : Bool) (d : Nat) : UInt8 := (asc (if up then "0123456789ABCDEF" else "0123456789abcdef"))[d]?.getD 0

/-- SPECIFICATION: the number expressed by digits, the most significant first. -/
def hexNumber (ds : List (Bool × Nat)) : Nat := ds.foldl (fun n x => n * 16 + x.2) 0

/-- SPECIFICATION: the character is no hexadecimal digit. -/
def NoHex (c : UInt8) : Prop := ∀ up d, d < 16 → c ≠ hexChar up d

theorem hexVal_char (up : Bool) {d : Nat} (h : d < 16) : hexVal (hexChar up d) = some d := by
  have : ∀ (up : Bool) (d : Fin 16), hexVal (hexChar up d) = some d.val := by decide +kernel
  exact this up ⟨d, h⟩

theorem hexVal_none {c : UInt8} (h : NoHex c) : hexVal c = none := by
  cases e : hexVal c with
  | none => rfl
  | some v =>
    exfalso
    have : ∀ c : Fin 256, ∀ v, hexVal (UInt8.ofNat c) = some v → v < 16 ∧ ∃ up, UInt8.ofNat c = hexChar up v := by
      have : ∀ c : Fin 256, (hexVal (UInt8.ofNat c)).all (fun v => decide (v < 16 ∧ ∃ up, UInt8.ofNat c = hexChar up v)) = true := by
        decide +kernel
      intro c v hv
      have := this c
      rw [hv] at this
      simpa using this
    have hc : UInt8.ofNat c.toNat = c := by simp
    obtain ⟨h1, up, h2⟩ := this ⟨c.toNat, c.toNat_lt⟩ v (by simp only [hc]; exact e)
    simp only [hc] at h2
    exact h up v h1 h2

theorem hexDigits_chars (ds : List (Bool × Nat)) (h : ∀ x ∈ ds, x.2 < 16) (rest : Bytes) (hr : ∀ c, rest.head? = some c → NoHex c) (n : Nat) :
    hexDigits (ds.map (fun x => hexChar x.1 x.2) ++ rest) (n % 2 ^ 64) = ds.foldl (fun n x => n * 16 + x.2) n % 2 ^ 64 := by
  induction ds generalizing n with
  | nil =>
    simp only [List.map_nil, List.nil_append, List.foldl_nil]
    cases rest with
    | nil => rfl
    | cons c rest => simp only [hexDigits, hexVal_none (hr c rfl)]
  | cons x ds ih =>
    simp only [List.map_cons, List.cons_append, hexDigits, hexVal_char x.1 (h x (by simp)), List.foldl_cons]
    rw [← ih (fun y hy => h y (by simp [hy])) (n * 16 + x.2)]
    congr 1
    omega

/-- C41: the number that the hexadecimal comparator takes from a key: after spaces and control characters, and a prefix `0x` or
`0X` if there is one, it is the number of the digits, in small or capital letters, up to the first other character, in 64
bits. -/
theorem C41_hexadecimal_value (space pre : Bytes) (ds : List (Bool × Nat)) (rest : Bytes) (hs : ∀ c ∈ space, c.toNat ≤ 32)
    (hp : pre = asc "0x" ∨ pre = asc "0X" ∨ pre = []) (hd : ∀ x ∈ ds, x.2 < 16)
    (hr : ∀ c, rest.head? = some c → NoHex c) (hn : pre = [] → ds ≠ [] ∧ ∀ c, rest.head? = some c → c ≠ 120 ∧ c ≠ 88) :
    strToIntHex (space ++ pre ++ ds.map (fun x => hexChar x.1 x.2) ++ rest) = hexNumber ds % 2 ^ 64 := by
  have dg : ∀ (up : Bool) (d : Nat), d < 16 → ¬ hexChar up d ≤ 32 ∧ hexChar up d ≠ 120 ∧ hexChar up d ≠ 88 := by
    intro up d h
    have : ∀ (up : Bool) (d : Fin 16), ¬ hexChar up d ≤ 32 ∧ hexChar up d ≠ 120 ∧ hexChar up d ≠ 88 := by decide +kernel
    exact this up ⟨d, h⟩
  have hsk : ∀ (c : UInt8) (t : Bytes), ¬ c ≤ 32 → skipSpace (space ++ c :: t) = c :: t := by
    intro c t hc
    unfold skipSpace
    rw [List.dropWhile_append_of_pos]
    · rw [List.dropWhile_cons_of_neg (by simpa using hc)]
    · intro x hx; have := hs x hx; simp [UInt8.le_iff_toNat_le, this]
  have main : skipHexPrefix (skipSpace (space ++ pre ++ ds.map (fun x => hexChar x.1 x.2) ++ rest)) =
      ds.map (fun x => hexChar x.1 x.2) ++ rest := by
    rcases hp with rfl | rfl | rfl
    · show skipHexPrefix (skipSpace (space ++ [48, 120] ++ _ ++ _)) = _
      simp only [List.append_assoc, List.cons_append, List.nil_append]
      rw [hsk 48 _ (by decide)]; simp [skipHexPrefix]
    · show skipHexPrefix (skipSpace (space ++ [48, 88] ++ _ ++ _)) = _
      simp only [List.append_assoc, List.cons_append, List.nil_append]
      rw [hsk 48 _ (by decide)]; simp [skipHexPrefix]
    · obtain ⟨hne, hrest⟩ := hn rfl
      cases ds with
      | nil => exact absurd rfl hne
      | cons x ds =>
        simp only [List.append_nil, List.map_cons, List.append_assoc, List.cons_append]
        rw [hsk _ _ (dg x.1 x.2 (hd x (by simp))).1]
        cases ds with
        | nil =>
          cases rest with
          | nil => rfl
          | cons c rest =>
            have := hrest c rfl
            simp [skipHexPrefix, this.1, this.2]
        | cons y ds =>
          have := dg y.1 y.2 (hd y (by simp))
          simp [skipHexPrefix, this.2.1, this.2.2]
  rw [strToIntHex, main]
  exact hexDigits_chars ds hd rest hr 0

example : strToIntHex (asc " 0xfF-") = 255 ∧ strToIntHex (asc "1A") = 26 ∧ strToIntHex (asc "10000000000000002") = 2 ∧
    hexCompare (asc "0X10") (asc "f") = 1 := by decide +kernel

/-! ### Keys that are no pairs -/

/-- C41 fails for the comparators of pairs on keys that were not made by SerializeStrPair: already the key `abc`, on either
side, is read outside its data. -/
theorem C41_pair_violated : pairCompare (fun x y => some (lexCompare x y)) (asc "abc") (serializeStrPair [1] [2]) = none ∧
    pairCompare (fun x y => some (lexCompare x y)) (serializeStrPair [1] [2]) (asc "abc") = none := by decide +kernel

end Verif.Cmp
