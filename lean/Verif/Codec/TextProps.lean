import Verif.Codec.TextLemmas
/-
Property theorems C36 (Base64, URL encoding, C escaping) and C37 (UTF-8).
-/
namespace Verif.Codec
open Verif

theorem low6_cont {y : Nat} (h : y < 64) : low6 (byte (0x80 ||| y)) = y := by
  have e : (0x80 ||| y) = 2 * 64 + y := shl_or (a := 2) (k := 6) h
  rw [low6, and3f, byte_toNat, e]; omega

theorem lead_toNat {a k y : Nat} (h : y < 2 ^ k) (hb : a * 2 ^ k + y < 256) :
    (byte ((a * 2 ^ k) ||| y)).toNat = a * 2 ^ k + y := by
  have e : ((a * 2 ^ k) ||| y) = a * 2 ^ k + y := by
    have := shl_or (a := a) h; rwa [Nat.shiftLeft_eq] at this
  rw [byte_toNat, e, Nat.mod_eq_of_lt hb]

set_option maxHeartbeats 1000000 in
theorem decode_utf8Char {c : Nat} (hc : c < 2 ^ 31) (s : Bytes) :
    utf8ToUcs4 (utf8Char c ++ s) = c :: utf8ToUcs4 s := by
  have m1 : c &&& 0x3f = c % 64 := and_mask c 6
  have m2 : c &&& 0xfff = c % 2 ^ 12 := and_mask c 12
  have m3 : c &&& 0x3ffff = c % 2 ^ 18 := and_mask c 18
  have m4 : c &&& 0xffffff = c % 2 ^ 24 := and_mask c 24
  have m5 : c &&& 0x3fffffff = c % 2 ^ 30 := and_mask c 30
  unfold utf8Char
  rw [m1, m2, m3, m4, m5]
  simp only [Nat.shiftRight_eq_div_pow]
  split
  · rename_i h
    rw [List.cons_append, List.nil_append, utf8ToUcs4.eq_def]
    simp only [byte_toNat, Nat.mod_eq_of_lt (show c < 256 by omega), if_pos h]
  split
  · rename_i h0 h
    have e1 := lead_toNat (a := 6) (k := 5) (y := c / 2 ^ 6) (by omega) (by omega)
    have l1 := low6_cont (y := c % 64) (by omega)
    simp only [List.cons_append, List.nil_append]
    rw [utf8ToUcs4.eq_def]
    simp only [show (0xc0 : Nat) = 6 * 2 ^ 5 by decide, e1, l1]
    rw [if_neg (by omega), if_pos (by omega), if_pos (by omega),
      show (6 * 2 ^ 5 + c / 2 ^ 6) &&& 0x1f = (6 * 2 ^ 5 + c / 2 ^ 6) % 2 ^ 5 from and_mask _ 5,
      shl_or (by omega)]
    have : (6 * 2 ^ 5 + c / 2 ^ 6) % 2 ^ 5 * 2 ^ 6 + c % 64 = c := by omega
    rw [this, pushIf, if_pos (by omega)]
  split
  · rename_i h0 h1 h
    have e1 := lead_toNat (a := 14) (k := 4) (y := c / 2 ^ 12) (by omega) (by omega)
    have l1 := low6_cont (y := c % 2 ^ 12 / 2 ^ 6) (by omega)
    have l2 := low6_cont (y := c % 64) (by omega)
    simp only [List.cons_append, List.nil_append]
    rw [utf8ToUcs4.eq_def]
    simp only [show (0xe0 : Nat) = 14 * 2 ^ 4 by decide, e1, l1, l2]
    rw [if_neg (by omega), if_neg (by omega), if_pos (by omega),
      show (14 * 2 ^ 4 + c / 2 ^ 12) &&& 0x0f = (14 * 2 ^ 4 + c / 2 ^ 12) % 2 ^ 4 from and_mask _ 4,
      Nat.or_assoc, shl_or (b := c % 64) (by omega), shl_or (by omega)]
    have : (14 * 2 ^ 4 + c / 2 ^ 12) % 2 ^ 4 * 2 ^ 12 + (c % 2 ^ 12 / 2 ^ 6 * 2 ^ 6 + c % 64) = c := by omega
    rw [this, pushIf, if_pos (by omega)]
  split
  · rename_i h0 h1 h2 h
    have e1 := lead_toNat (a := 30) (k := 3) (y := c / 2 ^ 18) (by omega) (by omega)
    have l1 := low6_cont (y := c % 2 ^ 18 / 2 ^ 12) (by omega)
    have l2 := low6_cont (y := c % 2 ^ 12 / 2 ^ 6) (by omega)
    have l3 := low6_cont (y := c % 64) (by omega)
    simp only [List.cons_append, List.nil_append]
    rw [utf8ToUcs4.eq_def]
    simp only [show (0xf0 : Nat) = 30 * 2 ^ 3 by decide, e1, l1, l2, l3]
    rw [if_neg (by omega), if_neg (by omega), if_neg (by omega), if_pos (by omega),
      show (30 * 2 ^ 3 + c / 2 ^ 18) &&& 0x07 = (30 * 2 ^ 3 + c / 2 ^ 18) % 2 ^ 3 from and_mask _ 3,
      Nat.or_assoc, Nat.or_assoc, shl_or (b := c % 64) (by omega),
      shl_or (a := c % 2 ^ 18 / 2 ^ 12) (by omega), shl_or (by omega)]
    have : (30 * 2 ^ 3 + c / 2 ^ 18) % 2 ^ 3 * 2 ^ 18 + (c % 2 ^ 18 / 2 ^ 12 * 2 ^ 12 +
      (c % 2 ^ 12 / 2 ^ 6 * 2 ^ 6 + c % 64)) = c := by omega
    rw [this, pushIf, if_pos (by omega)]
  split
  · rename_i h0 h1 h2 h3 h
    have e1 := lead_toNat (a := 62) (k := 2) (y := c / 2 ^ 24) (by omega) (by omega)
    have l1 := low6_cont (y := c % 2 ^ 24 / 2 ^ 18) (by omega)
    have l2 := low6_cont (y := c % 2 ^ 18 / 2 ^ 12) (by omega)
    have l3 := low6_cont (y := c % 2 ^ 12 / 2 ^ 6) (by omega)
    have l4 := low6_cont (y := c % 64) (by omega)
    simp only [List.cons_append, List.nil_append]
    rw [utf8ToUcs4.eq_def]
    simp only [show (0xf8 : Nat) = 62 * 2 ^ 2 by decide, e1, l1, l2, l3, l4]
    rw [if_neg (by omega), if_neg (by omega), if_neg (by omega), if_neg (by omega), if_pos (by omega),
      show (62 * 2 ^ 2 + c / 2 ^ 24) &&& 0x03 = (62 * 2 ^ 2 + c / 2 ^ 24) % 2 ^ 2 from and_mask _ 2,
      Nat.or_assoc, Nat.or_assoc, Nat.or_assoc, shl_or (b := c % 64) (by omega),
      shl_or (a := c % 2 ^ 18 / 2 ^ 12) (by omega), shl_or (a := c % 2 ^ 24 / 2 ^ 18) (by omega),
      shl_or (by omega)]
    have : (62 * 2 ^ 2 + c / 2 ^ 24) % 2 ^ 2 * 2 ^ 24 + (c % 2 ^ 24 / 2 ^ 18 * 2 ^ 18 +
      (c % 2 ^ 18 / 2 ^ 12 * 2 ^ 12 + (c % 2 ^ 12 / 2 ^ 6 * 2 ^ 6 + c % 64))) = c := by omega
    rw [this, pushIf, if_pos (by omega)]
  · rename_i h0 h1 h2 h3 h4
    have e1 := lead_toNat (a := 126) (k := 1) (y := c / 2 ^ 30) (by omega) (by omega)
    have l0 := low6_cont (y := c % 2 ^ 30 / 2 ^ 24) (by omega)
    have l1 := low6_cont (y := c % 2 ^ 24 / 2 ^ 18) (by omega)
    have l2 := low6_cont (y := c % 2 ^ 18 / 2 ^ 12) (by omega)
    have l3 := low6_cont (y := c % 2 ^ 12 / 2 ^ 6) (by omega)
    have l4 := low6_cont (y := c % 64) (by omega)
    simp only [List.cons_append, List.nil_append]
    rw [utf8ToUcs4.eq_def]
    simp only [show (0xfc : Nat) = 126 * 2 ^ 1 by decide, e1, l0, l1, l2, l3, l4]
    rw [if_neg (by omega), if_neg (by omega), if_neg (by omega), if_neg (by omega), if_neg (by omega),
      if_pos (by omega),
      show (126 * 2 ^ 1 + c / 2 ^ 30) &&& 0x01 = (126 * 2 ^ 1 + c / 2 ^ 30) % 2 ^ 1 from and_mask _ 1,
      Nat.or_assoc, Nat.or_assoc, Nat.or_assoc, Nat.or_assoc, shl_or (b := c % 64) (by omega),
      shl_or (a := c % 2 ^ 18 / 2 ^ 12) (by omega), shl_or (a := c % 2 ^ 24 / 2 ^ 18) (by omega),
      shl_or (a := c % 2 ^ 30 / 2 ^ 24) (by omega), shl_or (by omega)]
    have : (126 * 2 ^ 1 + c / 2 ^ 30) % 2 ^ 1 * 2 ^ 30 + (c % 2 ^ 30 / 2 ^ 24 * 2 ^ 24 +
      (c % 2 ^ 24 / 2 ^ 18 * 2 ^ 18 +
      (c % 2 ^ 18 / 2 ^ 12 * 2 ^ 12 + (c % 2 ^ 12 / 2 ^ 6 * 2 ^ 6 + c % 64)))) = c := by omega
    rw [this, pushIf, if_pos (by omega)]

/-! ### C36 -/

/-- C36: `StrDecodeBase64(StrEncodeBase64(s)) = s` for every byte string. -/
theorem C36_base64_roundtrip (s : Bytes) : decodeBase64 (encodeBase64 s) = s := decode_encode_base64 s

/-- SPECIFICATION: the Base64 alphabet of RFC 4648 section 4, value by value. -/
def rfc4648Value (c : Char) : Option Nat :=
  if 'A' ≤ c ∧ c ≤ 'Z' then some (c.toNat - 'A'.toNat)
  else if 'a' ≤ c ∧ c ≤ 'z' then some (c.toNat - 'a'.toNat + 26)
  else if '0' ≤ c ∧ c ≤ '9' then some (c.toNat - '0'.toNat + 52)
  else if c = '+' then some 62
  else if c = '/' then some 63
  else none

/-- C36: the Base64 output is that of RFC 4648: its length is 4 times the number of 3-byte groups, the unpadded
characters stand for the successive 6-bit pieces of the input, and padding is `=`. Here for a full group. -/
theorem C36_base64_group (a b c : UInt8) (rest : Bytes) :
    ∃ w x y z : Char, encodeBase64 (a :: b :: c :: rest) = ch w :: ch x :: ch y :: ch z :: encodeBase64 rest ∧
    ∃ i j k l, rfc4648Value w = some i ∧ rfc4648Value x = some j ∧ rfc4648Value y = some k ∧ rfc4648Value z = some l ∧
    i * 2 ^ 18 + j * 2 ^ 12 + k * 2 ^ 6 + l = a.toNat * 2 ^ 16 + b.toNat * 2 ^ 8 + c.toNat := by
  have key : ∀ i < 64, ∃ w : Char, b64At i = ch w ∧ rfc4648Value w = some i := by
    intro i hi
    have h : ∀ i < 64, ∃ w ∈ "ABCDEFGHIJKLMNOPQRSTUVWXYZabcdefghijklmnopqrstuvwxyz0123456789+/".toList,
        b64At i = ch w ∧ rfc4648Value w = some i := by decide +kernel
    obtain ⟨w, -, h⟩ := h i hi
    exact ⟨w, h⟩
  have ha := u8_lt a
  have hb := u8_lt b
  have hc := u8_lt c
  rw [encodeBase64, and3, andf, and3f]
  simp only [Nat.shiftRight_eq_div_pow, Nat.shiftLeft_eq]
  obtain ⟨w, ew, vw⟩ := key (a.toNat / 2 ^ 2) (by omega)
  obtain ⟨x, ex, vx⟩ := key (a.toNat % 4 * 2 ^ 4 + b.toNat / 2 ^ 4) (by omega)
  obtain ⟨y, ey, vy⟩ := key (b.toNat % 16 * 2 ^ 2 + c.toNat / 2 ^ 6) (by omega)
  obtain ⟨z, ez, vz⟩ := key (c.toNat % 64) (by omega)
  rw [ew, ex, ey, ez]
  exact ⟨w, x, y, z, rfl, _, _, _, _, vw, vx, vy, vz, by omega⟩

/-- C36: the length of the Base64 output. -/
theorem C36_base64_length : ∀ s : Bytes, (encodeBase64 s).length = 4 * ((s.length + 2) / 3)
  | [] => by rfl
  | [_] => by simp [encodeBase64]
  | [_, _] => by simp [encodeBase64]
  | a :: b :: c :: rest => by
    rw [encodeBase64]
    have := C36_base64_length rest
    simp only [List.length_cons] at *
    omega

example : encodeBase64 (asc "Man is") = asc "TWFuIGlz" ∧ encodeBase64 (asc "Ma") = asc "TWE=" := by decide +kernel

theorem b64Group_skip (s : Bytes) (p : UInt8 → Bool) (hp : ∀ c, p c = false → b64Val c = none ∧ c ≠ ch '=') :
    ∀ bits step eqs, b64Group (s.filter p) bits step eqs =
      ((b64Group s bits step eqs).1, (b64Group s bits step eqs).2.1, (b64Group s bits step eqs).2.2.1,
        (b64Group s bits step eqs).2.2.2.filter p) := by
  induction s with
  | nil => intro bits step eqs; simp [b64Group]
  | cons c s ih =>
    intro bits step eqs
    by_cases h : p c = true
    · rw [List.filter_cons_of_pos h, b64Group, b64Group]
      split
      · split
        · exact ih _ _ _
        · split
          · exact ih _ _ _
          · exact ih _ _ _
      · simp [h]
    · have h' : p c = false := by simpa using h
      obtain ⟨h1, h2⟩ := hp c h'
      rw [List.filter_cons_of_neg h, b64Group]
      split
      · rw [h1]
        simp only [if_neg h2]
        exact ih _ _ _
      · rename_i h4
        have : b64Group (s.filter p) bits step eqs = (bits, step, eqs, s.filter p) := by
          cases s.filter p <;> simp [b64Group, h4]
        rw [this]; simp [h]

theorem decodeBase64_filter (p : UInt8 → Bool) (hp : ∀ c, p c = false → b64Val c = none ∧ c ≠ ch '=') (s : Bytes) :
    decodeBase64 (s.filter p) = decodeBase64 s := by
  -- what happens when nothing but skipped characters is left
  have junk : ∀ s : Bytes, s.filter p = [] → ∀ b st e, st < 4 → b64Group s b st e = (b, st, e, []) := by
    intro s
    induction s with
    | nil => intro _ b st e _; rfl
    | cons c s ih =>
      intro h b st e hst
      have hc : p c = false := by
        by_cases hc : p c = true
        · simp [hc] at h
        · simpa using hc
      obtain ⟨h1, h2⟩ := hp c hc
      rw [b64Group, if_pos hst, h1]
      simp only [if_neg h2]
      apply ih _ _ _ _ hst
      simpa [hc] using h
  generalize hn : s.length = n
  induction n using Nat.strongRecOn generalizing s with
  | ind n ih =>
    subst hn
    match s with
    | [] => simp
    | c :: t =>
      have hlt := b64Group_rest_lt c t
      have ihr := ih _ hlt _ rfl
      generalize hs : c :: t = s at *
      have hne : s ≠ [] := by rw [← hs]; simp
      by_cases hf : s.filter p = []
      · rw [hf]
        have := junk s hf 0 0 0 (by omega)
        rw [← hs] at this ⊢
        rw [decodeBase64, decodeBase64]; simp [this]
      · -- neither is empty; both groups agree
        have gs := b64Group_skip s p hp 0 0 0
        have d1 : decodeBase64 s = if (b64Group s 0 0 0).2.1 = 0 ∧ (b64Group s 0 0 0).2.2.2 = [] then []
            else if (b64Group s 0 0 0).2.2.1 = 0 then
              byte (((b64Group s 0 0 0).1 >>> 16) &&& 0xff) :: byte (((b64Group s 0 0 0).1 >>> 8) &&& 0xff) ::
              byte ((b64Group s 0 0 0).1 &&& 0xff) :: decodeBase64 (b64Group s 0 0 0).2.2.2
            else if (b64Group s 0 0 0).2.2.1 = 1 then
              [byte (((b64Group s 0 0 0).1 >>> 16) &&& 0xff), byte (((b64Group s 0 0 0).1 >>> 8) &&& 0xff)]
            else if (b64Group s 0 0 0).2.2.1 = 2 then [byte (((b64Group s 0 0 0).1 >>> 16) &&& 0xff)]
            else [] := by
          rw [← hs, decodeBase64]
        have d2 : ∀ r : Bytes, r ≠ [] → decodeBase64 r = if (b64Group r 0 0 0).2.1 = 0 ∧ (b64Group r 0 0 0).2.2.2 = [] then []
            else if (b64Group r 0 0 0).2.2.1 = 0 then
              byte (((b64Group r 0 0 0).1 >>> 16) &&& 0xff) :: byte (((b64Group r 0 0 0).1 >>> 8) &&& 0xff) ::
              byte ((b64Group r 0 0 0).1 &&& 0xff) :: decodeBase64 (b64Group r 0 0 0).2.2.2
            else if (b64Group r 0 0 0).2.2.1 = 1 then
              [byte (((b64Group r 0 0 0).1 >>> 16) &&& 0xff), byte (((b64Group r 0 0 0).1 >>> 8) &&& 0xff)]
            else if (b64Group r 0 0 0).2.2.1 = 2 then [byte (((b64Group r 0 0 0).1 >>> 16) &&& 0xff)]
            else [] := by
          intro r hr
          cases r with
          | nil => exact absurd rfl hr
          | cons c r => rw [decodeBase64]
        -- a group that read no character consumed everything
        have key : (b64Group s 0 0 0).2.1 = 0 → (b64Group s 0 0 0).2.2.2 = [] := by
          intro h
          have : ∀ (s : Bytes) b e, (b64Group s b 0 e).2.1 = 0 → (b64Group s b 0 e).2.2.2 = [] := by
            intro s
            induction s with
            | nil => intros; rfl
            | cons c s ih =>
              intro b e
              have up : ∀ (s : Bytes) b st e, st ≤ (b64Group s b st e).2.1 := by
                intro s
                induction s with
                | nil => intros; exact Nat.le_refl _
                | cons c s ih =>
                  intro b st e
                  rw [b64Group]
                  split
                  · split
                    · exact Nat.le_trans (Nat.le_succ _) (ih _ _ _)
                    · split
                      · exact Nat.le_trans (Nat.le_succ _) (ih _ _ _)
                      · exact ih _ _ _
                  · exact Nat.le_refl _
              rw [b64Group, if_pos (by omega)]
              split
              · intro h
                have := up s ((b <<< 6) ||| ‹Nat›) (0 + 1) e
                omega
              · split
                · intro h
                  have := up s (b <<< 6) (0 + 1) (e + 1)
                  omega
                · exact ih _ _
          exact this s 0 0 h
        rw [d1, d2 _ hf, gs]
        simp only []
        by_cases hz : (b64Group s 0 0 0).2.1 = 0
        · rw [if_pos ⟨hz, by rw [key hz]; rfl⟩, if_pos ⟨hz, key hz⟩]
        · simp only [hz, false_and, if_false, ihr]

/-- SPECIFICATION: a character of Base64 text. -/
def isBase64Char (c : UInt8) : Bool := (rfc4648Value (Char.ofNat c.toNat)).isSome || c == ch '='

/-- C36: characters outside the Base64 alphabet (line breaks, blanks) do not affect decoding: Base64 text wrapped
into lines in any way decodes to the original. -/
theorem C36_base64_ignores_other (s text : Bytes) (h : text.filter isBase64Char = encodeBase64 s) :
    decodeBase64 text = s := by
  have conv : ∀ c : UInt8, rfc4648Value (Char.ofNat c.toNat) = b64Val c := by
    apply byte_all; decide +kernel
  rw [← decodeBase64_filter isBase64Char, h, decode_encode_base64]
  intro c hc
  simp only [isBase64Char, Bool.or_eq_false_iff, Option.isSome_eq_false_iff, Option.isNone_iff_eq_none,
    beq_eq_false_iff_ne, conv] at hc
  exact hc

example : (asc "TW\r\nE =").filter isBase64Char = encodeBase64 (asc "Ma") := by decide +kernel

/-- C36: `StrDecodeURL(StrEncodeURL(s)) = s` for every byte string. -/
theorem C36_url_roundtrip (s : Bytes) : decodeURL (encodeURL s) = s := decode_encode_url s

/-- SPECIFICATION: `c` is a hexadecimal digit, of either case, of the value `n`. -/
def HexDigit (c : UInt8) (n : Nat) : Prop :=
  (n < 10 ∧ c.toNat = 48 + n) ∨ (10 ≤ n ∧ n < 16 ∧ (c.toNat = 97 + (n - 10) ∨ c.toNat = 65 + (n - 10)))

/-- C36: `StrDecodeURL` decodes percent encodings written by others, with digits of either case, and `+` as a space. -/
theorem C36_url_decode (d e : UInt8) (m n : Nat) (rest : Bytes) (hd : HexDigit d m) (he : HexDigit e n) :
    decodeURL (ch '%' :: d :: e :: rest) = byte (m * 16 + n) :: decodeURL rest ∧ decodeURL (ch '+' :: rest) = ch ' ' :: decodeURL rest := by
  have key : ∀ (c : UInt8) (n a b : Nat), HexDigit c n → urlDigit c a b = a + n := by
    intro c n a b h
    unfold HexDigit at h
    simp only [urlDigit]
    split
    · omega
    · split
      · omega
      · split <;> omega
  constructor
  · rw [decodeURL.eq_def]
    simp only [if_true, key d m 0 0 hd, key e n _ _ he, Nat.zero_add]
  · rw [decodeURL.eq_def]
    simp only [if_neg (show ¬ ch '+' = ch '%' by decide), if_true]

example : HexDigit (ch 'E') 14 ∧ HexDigit (ch 'b') 11 ∧ decodeURL (asc "%Eb+%2a") = [0xeb, 0x20, 0x2a] := by
  refine ⟨.inr ⟨by decide, by decide, .inr (by decide)⟩, .inr ⟨by decide, by decide, .inl (by decide)⟩, by decide +kernel⟩

/-- C36: the URL encoding is safe to embed: only unreserved characters of RFC 3986 and `%` with hexadecimal digits
occur. -/
theorem C36_url_safe (s : Bytes) : ∀ c ∈ encodeURL s,
    c ∈ "ABCDEFGHIJKLMNOPQRSTUVWXYZabcdefghijklmnopqrstuvwxyz0123456789-._~%".toList.map ch := by
  have key : ∀ c : UInt8, urlPlain c = true →
      c ∈ "ABCDEFGHIJKLMNOPQRSTUVWXYZabcdefghijklmnopqrstuvwxyz0123456789-._~%".toList.map ch := by
    apply byte_all; decide +kernel
  have khex : ∀ i < 16, hexDigit i ∈
      "ABCDEFGHIJKLMNOPQRSTUVWXYZabcdefghijklmnopqrstuvwxyz0123456789-._~%".toList.map ch := by decide +kernel
  induction s with
  | nil => intro c hc; simp [encodeURL] at hc
  | cons a s ih =>
    intro c hc
    have ha := u8_lt a
    rw [encodeURL] at hc
    split at hc
    · rcases List.mem_cons.mp hc with rfl | hc
      · exact key _ ‹_›
      · exact ih c hc
    · rw [andf, Nat.shiftRight_eq_div_pow] at hc
      simp only [List.mem_cons] at hc
      rcases hc with rfl | rfl | rfl | hc
      · decide +kernel
      · exact khex _ (by omega)
      · exact khex _ (by omega)
      · exact ih c hc

/-- C36: unreserved characters are left alone, so that readable text stays readable. -/
theorem C36_url_unreserved (s : Bytes)
    (h : ∀ c ∈ s, c ∈ "ABCDEFGHIJKLMNOPQRSTUVWXYZabcdefghijklmnopqrstuvwxyz0123456789-._~".toList.map ch) :
    encodeURL s = s := by
  have key : ∀ c : UInt8, c ∈ "ABCDEFGHIJKLMNOPQRSTUVWXYZabcdefghijklmnopqrstuvwxyz0123456789-._~".toList.map ch →
      urlPlain c = true := by
    apply byte_all; decide +kernel
  induction s with
  | nil => rfl
  | cons a s ih =>
    rw [encodeURL, if_pos (key a (h a (by simp))), ih (fun c hc => h c (by simp [hc]))]

example : encodeURL (asc "a b/" ++ [0xc3, 0xbc] ++ asc "~") = asc "a%20b%2f%c3%bc~" := by decide +kernel

/-- C36: `StrUnescapeC(StrEscapeC(s, esc_nonasc)) = s` for every byte string and both settings. -/
theorem C36_escape_roundtrip (escNonasc : Bool) (s : Bytes) : unescapeC (escapeC escNonasc s) = s :=
  unescape_escape escNonasc s

/-- C36: the escaped text has no control characters, and is pure ASCII if `esc_nonasc` is set. -/
theorem C36_escape_printable (escNonasc : Bool) (s : Bytes) : ∀ c ∈ escapeC escNonasc s,
    32 ≤ c.toNat ∧ c.toNat ≠ 127 ∧ (escNonasc = true → c.toNat < 127) := by
  have khex : ∀ i < 16, 32 ≤ (hexDigit i).toNat ∧ (hexDigit i).toNat < 127 := by decide +kernel
  have kpair : ∀ d ∈ "abtnvfr0x\\".toList.map ch, 32 ≤ d.toNat ∧ d.toNat < 127 := by decide +kernel
  have one : ∀ a r, ∀ c ∈ escapeOne escNonasc a r, 32 ≤ c.toNat ∧ c.toNat ≠ 127 ∧ (escNonasc = true → c.toNat < 127) := by
    intro a r c hc
    have ha := u8_lt a
    have good : ∀ d : UInt8, (32 ≤ d.toNat ∧ d.toNat < 127) →
        32 ≤ d.toNat ∧ d.toNat ≠ 127 ∧ (escNonasc = true → d.toNat < 127) := by
      intro d hd; exact ⟨hd.1, by omega, fun _ => hd.2⟩
    have pair : ∀ d ∈ "abtnvfr0x\\".toList.map ch, c ∈ [ch '\\', d] → 32 ≤ c.toNat ∧ c.toNat ≠ 127 ∧ (escNonasc = true → c.toNat < 127) := by
      intro d hd hcd
      simp only [List.mem_cons, List.not_mem_nil, or_false] at hcd
      rcases hcd with rfl | rfl
      · exact good _ (kpair _ (by decide))
      · exact good _ (kpair _ hd)
    have hex : c ∈ hexEscape a → 32 ≤ c.toNat ∧ c.toNat ≠ 127 ∧ (escNonasc = true → c.toNat < 127) := by
      intro h
      rw [hexEscape, andf, Nat.shiftRight_eq_div_pow] at h
      simp only [List.mem_cons, List.not_mem_nil, or_false] at h
      rcases h with rfl | rfl | rfl | rfl
      · exact good _ (kpair _ (by decide))
      · exact good _ (kpair _ (by decide))
      · exact good _ (khex _ (by omega))
      · exact good _ (khex _ (by omega))
    unfold escapeOne at hc
    simp only [] at hc
    split at hc
    · split at hc
      · exact pair _ (by decide) hc
      · split at hc
        · simp only [List.mem_cons, List.not_mem_nil, or_false] at hc
          rcases hc with rfl | rfl | rfl | rfl <;> exact good _ (kpair _ (by decide))
        · exact pair _ (by decide) hc
    repeat (split at hc; · exact pair _ (by decide) hc)
    split at hc
    · exact hex hc
    split at hc
    · exact hex hc
    · simp only [List.mem_singleton] at hc
      subst hc
      refine ⟨by omega, by omega, fun h => ?_⟩
      simp only [h, true_and] at *
      omega
  induction s with
  | nil => intro c hc; simp [escapeC] at hc
  | cons a s ih =>
    intro c hc
    rw [escapeC, List.mem_append] at hc
    rcases hc with hc | hc
    · exact one _ _ c hc
    · exact ih c hc

example : escapeC false [0, 0x31, 9, 0x5c, 0xe3, 0] = asc "\\x001\\t\\\\" ++ [0xe3] ++ asc "\\0" ∧
    escapeC true [0xe3] = asc "\\xe3" := by decide +kernel

/-! ### C37 -/

/-- C37: every sequence of code points below 2^31 (all of Unicode and more) survives conversion to UTF-8 and back. -/
theorem C37_utf8_roundtrip (ucs : List Nat) (h : ∀ c ∈ ucs, c < 2 ^ 31) :
    utf8ToUcs4 (ucs4ToUtf8 ucs) = ucs := by
  induction ucs with
  | nil => simp [ucs4ToUtf8, utf8ToUcs4]
  | cons c rest ih =>
    rw [ucs4ToUtf8, List.flatMap_cons, decode_utf8Char (h c (by simp))]
    have := ih (fun x hx => h x (by simp [hx]))
    rw [ucs4ToUtf8] at this
    rw [this]

/-- C37: the bytes are those of standard UTF-8: for every Unicode scalar value they equal Lean's own encoder
`String.utf8EncodeChar`. -/
theorem C37_utf8_standard (c : Char) : utf8Char c.toNat = String.utf8EncodeChar c := by
  have hv : c.toNat < 0x110000 := by
    have := c.valid
    unfold UInt32.isValidChar Nat.isValidChar at this
    rw [Char.toNat]; omega
  have m1 : c.toNat &&& 0x3f = c.toNat % 64 := and_mask _ 6
  have m2 : c.toNat &&& 0xfff = c.toNat % 2 ^ 12 := and_mask _ 12
  have m3 : c.toNat &&& 0x3ffff = c.toNat % 2 ^ 18 := and_mask _ 18
  have bx : ∀ {a k y z : Nat}, y < 2 ^ k → a * 2 ^ k + y = z → byte ((a * 2 ^ k) ||| y) = z.toUInt8 := by
    intro a k y z h e
    have := shl_or (a := a) h
    rw [Nat.shiftLeft_eq] at this
    rw [this, e]; rfl
  unfold utf8Char String.utf8EncodeChar
  rw [m1, m2, m3]
  simp only [Nat.shiftRight_eq_div_pow]
  have hN : c.val.toNat = c.toNat := rfl
  rw [hN]
  generalize c.toNat = n at *
  by_cases h1 : n < 0x80
  · rw [if_pos h1, if_pos (by omega : n ≤ 127)]; rfl
  rw [if_neg h1, if_neg (by omega : ¬n ≤ 127)]
  by_cases h2 : n < 0x800
  · rw [if_pos h2, if_pos (by omega : n ≤ 2047)]
    congr 1
    · exact bx (a := 6) (k := 5) (by omega) (by omega)
    · congr 1; exact bx (a := 2) (k := 6) (by omega) (by omega)
  rw [if_neg h2, if_neg (by omega : ¬n ≤ 2047)]
  by_cases h3 : n < 0x10000
  · rw [if_pos h3, if_pos (by omega : n ≤ 65535)]
    congr 1
    · exact bx (a := 14) (k := 4) (by omega) (by omega)
    · congr 1
      · exact bx (a := 2) (k := 6) (by omega) (by omega)
      · congr 1; exact bx (a := 2) (k := 6) (by omega) (by omega)
  rw [if_neg h3, if_neg (by omega : ¬n ≤ 65535), if_pos (by omega)]
  congr 1
  · exact bx (a := 30) (k := 3) (by omega) (by omega)
  · congr 1
    · exact bx (a := 2) (k := 6) (by omega) (by omega)
    · congr 1
      · exact bx (a := 2) (k := 6) (by omega) (by omega)
      · congr 1; exact bx (a := 2) (k := 6) (by omega) (by omega)

/-- C37: a well-formed UTF-8 text is decoded to its characters and encoded back to the same bytes. -/
theorem C37_utf8_text (cs : List Char) :
    utf8ToUcs4 (cs.flatMap String.utf8EncodeChar) = cs.map Char.toNat ∧
    ucs4ToUtf8 (utf8ToUcs4 (cs.flatMap String.utf8EncodeChar)) = cs.flatMap String.utf8EncodeChar := by
  have e : cs.flatMap String.utf8EncodeChar = ucs4ToUtf8 (cs.map Char.toNat) := by
    induction cs with
    | nil => rfl
    | cons c cs ih => rw [List.flatMap_cons, ih, ← C37_utf8_standard]; rfl
  have b : ∀ c ∈ cs.map Char.toNat, c < 2 ^ 31 := by
    intro c hc
    obtain ⟨d, -, rfl⟩ := List.mem_map.mp hc
    have := d.valid
    unfold UInt32.isValidChar Nat.isValidChar at this
    rw [Char.toNat]; omega
  rw [e, C37_utf8_roundtrip _ b]
  exact ⟨rfl, rfl⟩

example : ucs4ToUtf8 [0x41, 0xe9, 0x3042, 0x1f600] = "Aéあ😀".toList.flatMap String.utf8EncodeChar := by decide +kernel

end Verif.Codec
