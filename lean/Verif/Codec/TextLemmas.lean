import Verif.Codec.Text
import Verif.Codec.NumLemmas
/- Lemmas for the text encodings. -/
namespace Verif.Codec
open Verif

theorem shl_or {a b k : Nat} (h : b < 2 ^ k) : (a <<< k) ||| b = a * 2 ^ k + b := by
  rw [← Nat.shiftLeft_add_eq_or_of_lt h, Nat.shiftLeft_eq]

theorem and_mask (x k : Nat) : x &&& (2 ^ k - 1) = x % 2 ^ k := Nat.and_two_pow_sub_one_eq_mod x k

theorem b64_all : ∀ i < 64, b64Val (b64At i) = some i ∧ b64At i ≠ ch '=' := by decide +kernel

theorem b64Val_eq : b64Val (ch '=') = none := by decide

theorem b64Group_at {i : Nat} (hi : i < 64) (rest bits step eqs) (hs : step < 4) :
    b64Group (b64At i :: rest) bits step eqs = b64Group rest (bits * 64 + i) (step + 1) eqs := by
  rw [b64Group, if_pos hs, (b64_all i hi).1]
  simp only []
  rw [shl_or (k := 6) (by omega)]

theorem b64Group_equals (rest bits step eqs) (hs : step < 4) :
    b64Group (ch '=' :: rest) bits step eqs = b64Group rest (bits * 64) (step + 1) (eqs + 1) := by
  rw [b64Group, if_pos hs, b64Val_eq]
  simp only [if_pos]
  rw [Nat.shiftLeft_eq]

theorem b64Group_full (rest bits eqs) : b64Group rest bits 4 eqs = (bits, 4, eqs, rest) := by
  cases rest <;> simp [b64Group]

theorem byte_of {b : UInt8} {n : Nat} (h : n = b.toNat) : byte n = b := by
  subst h; simp [byte]

theorem u8_lt (b : UInt8) : b.toNat < 256 := b.toNat_lt

theorem and3 (x : Nat) : x &&& 3 = x % 4 := and_mask x 2
theorem andf (x : Nat) : x &&& 0xf = x % 16 := and_mask x 4
theorem and3f (x : Nat) : x &&& 0x3f = x % 64 := and_mask x 6
theorem andff (x : Nat) : x &&& 0xff = x % 256 := and_mask x 8

theorem decodeBase64_cons_eq (s : Bytes) (bits eqs : Nat) (rest : Bytes) (hs : s ≠ [])
    (h : b64Group s 0 0 0 = (bits, 4, eqs, rest)) :
    decodeBase64 s = if eqs = 0 then
      byte ((bits >>> 16) &&& 0xff) :: byte ((bits >>> 8) &&& 0xff) :: byte (bits &&& 0xff) :: decodeBase64 rest
    else if eqs = 1 then [byte ((bits >>> 16) &&& 0xff), byte ((bits >>> 8) &&& 0xff)]
    else if eqs = 2 then [byte ((bits >>> 16) &&& 0xff)]
    else [] := by
  cases s with
  | nil => exact absurd rfl hs
  | cons c s => rw [decodeBase64]; simp [h]

theorem decode_encode_base64 : ∀ s : Bytes, decodeBase64 (encodeBase64 s) = s
  | [] => by simp [encodeBase64, decodeBase64]
  | [a] => by
    have ha := u8_lt a
    rw [encodeBase64, decodeBase64_cons_eq _ _ _ _ (by simp)
      (by rw [and3, Nat.shiftRight_eq_div_pow, Nat.shiftLeft_eq,
            b64Group_at (by omega) _ _ _ _ (by omega), b64Group_at (by omega) _ _ _ _ (by omega),
            b64Group_equals _ _ _ _ (by omega), b64Group_equals _ _ _ _ (by omega), b64Group_full])]
    simp only [andff, Nat.shiftRight_eq_div_pow]
    simp only [if_neg (show ¬(0 + 1 + 1 = 0) by decide), if_neg (show ¬(0 + 1 + 1 = 1) by decide), if_pos]
    rw [byte_of (b := a) (by omega)]
  | [a, b] => by
    have ha := u8_lt a
    have hb := u8_lt b
    rw [encodeBase64, decodeBase64_cons_eq _ _ _ _ (by simp)
      (by rw [and3, andf, Nat.shiftRight_eq_div_pow, Nat.shiftRight_eq_div_pow, Nat.shiftLeft_eq, Nat.shiftLeft_eq,
            b64Group_at (by omega) _ _ _ _ (by omega), b64Group_at (by omega) _ _ _ _ (by omega),
            b64Group_at (by omega) _ _ _ _ (by omega), b64Group_equals _ _ _ _ (by omega), b64Group_full])]
    simp only [andff, Nat.shiftRight_eq_div_pow]
    simp only [if_neg (show ¬(0 + 1 = 0) by decide), if_pos]
    rw [byte_of (b := a) (by omega), byte_of (b := b) (by omega)]
  | a :: b :: c :: rest => by
    have ha := u8_lt a
    have hb := u8_lt b
    have hc := u8_lt c
    rw [encodeBase64, decodeBase64_cons_eq _ _ _ _ (by simp)
      (by rw [and3, andf, and3f, Nat.shiftRight_eq_div_pow, Nat.shiftRight_eq_div_pow, Nat.shiftRight_eq_div_pow,
            Nat.shiftLeft_eq, Nat.shiftLeft_eq,
            b64Group_at (by omega) _ _ _ _ (by omega), b64Group_at (by omega) _ _ _ _ (by omega),
            b64Group_at (by omega) _ _ _ _ (by omega), b64Group_at (by omega) _ _ _ _ (by omega), b64Group_full])]
    simp only [andff, Nat.shiftRight_eq_div_pow, if_pos]
    rw [byte_of (b := a) (by omega), byte_of (b := b) (by omega), byte_of (b := c) (by omega),
      decode_encode_base64 rest]

/-! URL -/

theorem hexDigit_facts : ∀ i < 16, hexDigit i ≠ ch '%' ∧ urlDigit (hexDigit i) 0 0 = i := by decide

theorem urlDigit_hex : ∀ i < 16, ∀ num keep, urlDigit (hexDigit i) (num * 0x10) keep = num * 16 + i := by
  intro i hi num keep
  have h : (i < 10 ∧ (hexDigit i).toNat = 48 + i) ∨ (10 ≤ i ∧ (hexDigit i).toNat = 97 + i - 10) := by
    revert i; decide
  unfold urlDigit
  rcases h with ⟨h, e⟩ | ⟨h, e⟩ <;> simp only [e]
  · rw [if_pos (by omega)]; omega
  · rw [if_neg (by omega), if_pos (by omega)]; omega

theorem byte_all {P : UInt8 → Prop} (h : ∀ i < 256, P (byte i)) (c : UInt8) : P c := by
  have := h c.toNat (u8_lt c)
  rwa [byte_of rfl] at this

theorem urlPlain_facts : ∀ c : UInt8, urlPlain c = true →
    c ≠ ch '%' ∧ c ≠ ch '+' ∧ ¬(c.toNat ≤ 32 ∨ c.toNat ≥ 128 ∨ c.toNat = 0x7f) := by
  apply byte_all; decide +kernel

theorem decode_encode_url : ∀ s : Bytes, decodeURL (encodeURL s) = s
  | [] => by simp [encodeURL, decodeURL]
  | c :: rest => by
    by_cases h : urlPlain c = true
    · obtain ⟨h1, h2, h3⟩ := urlPlain_facts c h
      rw [encodeURL, if_pos h, decodeURL.eq_def]
      simp only [if_neg h1, if_neg h2, if_neg h3, decode_encode_url rest]
    · have hc := u8_lt c
      rw [encodeURL, if_neg h, decodeURL.eq_def]
      simp only [if_pos]
      rw [andf, Nat.shiftRight_eq_div_pow, (hexDigit_facts _ (by omega)).2, urlDigit_hex _ (by omega),
        decode_encode_url rest, byte_of (b := c) (by omega)]

/-! C-style escaping -/

theorem hexDigit_val : ∀ i < 16, (i < 10 ∧ (hexDigit i).toNat = 48 + i) ∨ (10 ≤ i ∧ (hexDigit i).toNat = 87 + i) := by
  decide

theorem unescHex_digit {i : Nat} (hi : i < 16) (k rest num) :
    unescHex (k + 1) (hexDigit i :: rest) num = unescHex k rest (num * 16 + i) := by
  rw [unescHex]
  rcases hexDigit_val i hi with ⟨h, e⟩ | ⟨h, e⟩ <;> simp only [e]
  · rw [if_pos (by omega)]; congr 1; omega
  · rw [if_neg (by omega), if_neg (by omega), if_pos (by omega)]; congr 1; omega

theorem unescHex_zero (s num) : unescHex 0 s num = (num, s) := by cases s <;> rfl

theorem unescape_hex (c : UInt8) (rest : Bytes) : unescapeC (hexEscape c ++ rest) = c :: unescapeC rest := by
  have hc := u8_lt c
  rw [hexEscape, andf, Nat.shiftRight_eq_div_pow]
  simp only [List.cons_append, List.nil_append]
  rw [unescapeC.eq_def]
  simp only [if_pos, if_neg (show ch 'x' ≠ ch 'a' by decide), if_neg (show ch 'x' ≠ ch 'b' by decide),
    if_neg (show ch 'x' ≠ ch 't' by decide), if_neg (show ch 'x' ≠ ch 'n' by decide),
    if_neg (show ch 'x' ≠ ch 'v' by decide), if_neg (show ch 'x' ≠ ch 'f' by decide),
    if_neg (show ch 'x' ≠ ch 'r' by decide), true_or]
  rw [unescHex_digit (by omega), unescHex_digit (by omega), unescHex_zero]
  simp only []
  rw [byte_of (b := c) (by omega)]

/-- The two-character escapes. -/
theorem unescape_pair {d v : UInt8} (h : (d = ch 'a' ∧ v = 7) ∨ (d = ch 'b' ∧ v = 8) ∨ (d = ch 't' ∧ v = 9) ∨
    (d = ch 'n' ∧ v = 10) ∨ (d = ch 'v' ∧ v = 11) ∨ (d = ch 'f' ∧ v = 12) ∨ (d = ch 'r' ∧ v = 13) ∨
    (d = ch '\\' ∧ v = ch '\\')) (rest : Bytes) :
    unescapeC (ch '\\' :: d :: rest) = v :: unescapeC rest := by
  rcases h with h | h | h | h | h | h | h | h <;> obtain ⟨rfl, rfl⟩ := h <;> rw [unescapeC.eq_def] <;>
    simp (decide := true) only [if_pos, if_neg, if_true, if_false]

theorem unescape_plain {c : UInt8} (h : c ≠ ch '\\') (rest : Bytes) :
    unescapeC (c :: rest) = c :: unescapeC rest := by
  rw [unescapeC.eq_def]; simp only [if_neg h]

theorem unescape_nul_end : unescapeC [ch '\\', ch '0'] = [0] := by
  rw [unescapeC.eq_def]
  simp (decide := true) only [if_pos, if_neg, if_true, if_false, unescOct, unescapeC]

theorem unescape_nul {d : UInt8} (hd : ¬(d.toNat ≥ 48 ∧ d.toNat ≤ 55)) (rest : Bytes) :
    unescapeC (ch '\\' :: ch '0' :: d :: rest) = 0 :: unescapeC (d :: rest) := by
  have e : unescOct 2 (d :: rest) (UInt8.toNat (ch '0') - 48) = (0, d :: rest) := by
    rw [unescOct]; simp only [if_neg hd]; rfl
  rw [unescapeC.eq_def]
  simp (decide := true) only [if_pos, if_neg, if_true, if_false, e]
  rfl

theorem escapeC_head {b : Bool} {d : UInt8} {rest : Bytes} (hd : ¬(d.toNat ≥ 48 ∧ d.toNat ≤ 55)) :
    ∃ e t, escapeC b (d :: rest) = e :: t ∧ ¬(e.toNat ≥ 48 ∧ e.toNat ≤ 55) := by
  have hb : ¬((ch '\\').toNat ≥ 48 ∧ (ch '\\').toNat ≤ 55) := by decide
  suffices h : ∃ e t, escapeOne b d rest = e :: t ∧ ¬(e.toNat ≥ 48 ∧ e.toNat ≤ 55) by
    obtain ⟨e, t, h, he⟩ := h
    exact ⟨e, t ++ escapeC b rest, by rw [escapeC, h]; rfl, he⟩
  have h0 : (escapeOne b d rest).head? = some (ch '\\') ∨ (escapeOne b d rest).head? = some d := by
    unfold escapeOne hexEscape
    cases rest <;> grind (splits := 30)
  cases hx : escapeOne b d rest with
  | nil => rw [hx] at h0; simp at h0
  | cons e t =>
    rw [hx] at h0
    refine ⟨e, t, rfl, ?_⟩
    rcases h0 with h0 | h0 <;> simp only [List.head?_cons, Option.some.injEq] at h0 <;> subst h0 <;> assumption

theorem u8_eq_of_toNat {c : UInt8} {n : Nat} (h : c.toNat = n) : c = byte n := (byte_of h.symm).symm

theorem unescape_escape (b : Bool) : ∀ s : Bytes, unescapeC (escapeC b s) = s
  | [] => by simp [escapeC, unescapeC]
  | c :: rest => by
    have ih := unescape_escape b rest
    rw [escapeC, escapeOne.eq_def]
    simp only []
    split
    · rename_i h0
      have h0 : c = 0 := u8_eq_of_toNat h0
      subst h0
      cases rest with
      | nil => simp only [escapeC, List.append_nil]; exact unescape_nul_end
      | cons d r =>
        simp only []
        split
        · have := unescape_hex 0 (escapeC b (d :: r))
          rw [ih] at this
          exact this
        · rename_i hd
          obtain ⟨e, t, h, he⟩ := escapeC_head (b := b) (rest := r) hd
          rw [h] at ih ⊢
          rw [List.cons_append, List.cons_append, List.nil_append, unescape_nul he, ih]
    · split
      · rw [u8_eq_of_toNat ‹c.toNat = 7›]; exact (unescape_pair (v := byte 7) (by decide) (escapeC b rest)).trans (by rw [ih])
      split
      · rw [u8_eq_of_toNat ‹c.toNat = 8›]; exact (unescape_pair (v := byte 8) (by decide) (escapeC b rest)).trans (by rw [ih])
      split
      · rw [u8_eq_of_toNat ‹c.toNat = 9›]; exact (unescape_pair (v := byte 9) (by decide) (escapeC b rest)).trans (by rw [ih])
      split
      · rw [u8_eq_of_toNat ‹c.toNat = 10›]; exact (unescape_pair (v := byte 10) (by decide) (escapeC b rest)).trans (by rw [ih])
      split
      · rw [u8_eq_of_toNat ‹c.toNat = 11›]; exact (unescape_pair (v := byte 11) (by decide) (escapeC b rest)).trans (by rw [ih])
      split
      · rw [u8_eq_of_toNat ‹c.toNat = 12›]; exact (unescape_pair (v := byte 12) (by decide) (escapeC b rest)).trans (by rw [ih])
      split
      · rw [u8_eq_of_toNat ‹c.toNat = 13›]; exact (unescape_pair (v := byte 13) (by decide) (escapeC b rest)).trans (by rw [ih])
      split
      · rw [u8_eq_of_toNat ‹c.toNat = 92›]; exact (unescape_pair (v := byte 92) (by decide) (escapeC b rest)).trans (by rw [ih])
      rename_i h92
      split
      · rw [unescape_hex, ih]
      split
      · rw [unescape_hex, ih]
      · rw [List.cons_append, List.nil_append, unescape_plain, ih]
        intro h; subst h; exact h92 (by decide)

end Verif.Codec
