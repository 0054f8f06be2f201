import Verif.Compress.AesTableLemmas
/-
C61: the block cipher is the one of the standard (FIPS 197), and decryption undoes encryption.
-/
namespace Verif.Aes
open Verif

/-! ### Multiplication is linear -/

theorem xtime_add (x y : UInt8) : Fips.xtime (x ^^^ y) = Fips.xtime x ^^^ Fips.xtime y := by
  apply UInt8.toBitVec_inj.1
  simp only [Fips.xtime, UInt8.toBitVec_xor, BitVec.shiftLeft_xor_distrib, BitVec.msb_xor]
  cases hx : x.toBitVec.msb <;> cases hy : y.toBitVec.msb <;> simp only [bne_self_eq_false, Bool.true_bne, Bool.false_bne, Bool.not_true, Bool.not_false, if_true, if_false, Bool.false_eq_true, BitVec.xor_zero]
  · rw [BitVec.xor_assoc]
  · rw [BitVec.xor_assoc, BitVec.xor_assoc, BitVec.xor_comm (y.toBitVec <<< 1)]
  · rw [BitVec.xor_assoc, BitVec.xor_comm 0x1b#8, BitVec.xor_assoc, BitVec.xor_self, BitVec.xor_zero]

theorem mulBits_add : ∀ (n a : Nat) (x y : UInt8), Fips.mulBits n a (x ^^^ y) = Fips.mulBits n a x ^^^ Fips.mulBits n a y
  | 0, _, _, _ => by simp [Fips.mulBits]
  | n + 1, a, x, y => by
    simp only [Fips.mulBits, xtime_add, mulBits_add n]
    split
    · ac_rfl
    · simp

theorem mul_add (a x y : UInt8) : Fips.mul a (x ^^^ y) = Fips.mul a x ^^^ Fips.mul a y := mulBits_add _ _ _ _

theorem un0_add (x y : UInt8) : un0 (x ^^^ y) = un0 x + un0 y := by simp only [un0, mul_add]; rfl
theorem un1_add (x y : UInt8) : un1 (x ^^^ y) = un1 x + un1 y := by simp only [un1, mul_add]; rfl
theorem un2_add (x y : UInt8) : un2 (x ^^^ y) = un2 x + un2 y := by simp only [un2, mul_add]; rfl
theorem un3_add (x y : UInt8) : un3 (x ^^^ y) = un3 x + un3 y := by simp only [un3, mul_add]; rfl

theorem U_add (x y : W) : U (x + y) = U x + U y := by
  simp only [U, add_b3, add_b2, add_b1, add_b0, un0_add, un1_add, un2_add, un3_add]
  ac_rfl

theorem unmix_eq (w : W) : unmix w = U w := by
  unfold unmix U
  show look td0Table (S w.b3) + look td1Table (S w.b2) + look td2Table (S w.b1) + look td3Table (S w.b0) = _
  rw [td0_spec, td1_spec, td2_spec, td3_spec, R_S, R_S, R_S, R_S]

theorem join (a b c d : UInt8) : (⟨a, 0, 0, 0⟩ : W) + ⟨0, b, 0, 0⟩ + ⟨0, 0, c, 0⟩ + ⟨0, 0, 0, d⟩ = ⟨a, b, c, d⟩ := by
  apply W.ext' <;> simp

theorem masked_te4 (x3 x2 x1 x0 : UInt8) : masked te4Table x3 x2 x1 x0 = ⟨S x3, S x2, S x1, S x0⟩ := by
  unfold masked
  rw [te4_all, te4_all, te4_all, te4_all]
  exact join _ _ _ _

theorem masked_td4 (x3 x2 x1 x0 : UInt8) : masked td4Table x3 x2 x1 x0 = ⟨R x3, R x2, R x1, R x0⟩ := by
  unfold masked
  rw [td4_all, td4_all, td4_all, td4_all]
  exact join _ _ _ _

theorem encWord_eq (x3 x2 x1 x0 : W) : encWord x3 x2 x1 x0 = mix0 (S x3.b3) + mix1 (S x2.b2) + mix2 (S x1.b1) + mix3 (S x0.b0) := by
  unfold encWord
  rw [te0_spec, te1_spec, te2_spec, te3_spec]
  rfl

theorem decWord_eq (x3 x2 x1 x0 : W) : decWord x3 x2 x1 x0 = U ⟨R x3.b3, R x2.b2, R x1.b1, R x0.b0⟩ := by
  unfold decWord U
  rw [td0_spec, td1_spec, td2_spec, td3_spec]

theorem U_encWord (x3 x2 x1 x0 : W) : U (encWord x3 x2 x1 x0) = ⟨S x3.b3, S x2.b2, S x1.b1, S x0.b0⟩ := by
  rw [encWord_eq, U_add, U_add, U_add, U_mix0, U_mix1, U_mix2, U_mix3]
  exact join _ _ _ _

/-! ### Decryption undoes encryption -/

/-- A block after the S-box and the shifting of rows. -/
def subShift (s : Block) : Block :=
  ⟨⟨S s.w0.b3, S s.w1.b2, S s.w2.b1, S s.w3.b0⟩, ⟨S s.w1.b3, S s.w2.b2, S s.w3.b1, S s.w0.b0⟩,
   ⟨S s.w2.b3, S s.w3.b2, S s.w0.b1, S s.w1.b0⟩, ⟨S s.w3.b3, S s.w0.b2, S s.w1.b1, S s.w2.b0⟩⟩

def UB (s : Block) : Block := ⟨U s.w0, U s.w1, U s.w2, U s.w3⟩

theorem encLast_eq (t k : Block) : encLast t k = subShift t + k := by
  unfold encLast
  simp only [masked_te4]
  rfl

theorem decLast_subShift (s k : Block) : decLast (subShift s) k = s + k := by
  unfold decLast subShift
  simp only [masked_td4, R_S]
  rfl

theorem decRound_subShift (s k : Block) : decRound (subShift s) k = UB s + k := by
  unfold decRound subShift
  simp only [decWord_eq, R_S]
  rfl

theorem UB_encRound (s k : Block) : UB (encRound s k) = subShift s + UB k := by
  unfold UB encRound
  simp only [U_add, U_encWord]
  rfl

/-- The round keys for decryption that belong to some for encryption. -/
structure Dual (e d : List W) (n : Nat) : Prop where
  first : keys d 0 = keys e n
  last : keys d n = keys e 0
  mid : ∀ r, 0 < r → r < n → keys d r = UB (keys e (n - r))

theorem foldl_range_succ {α : Type} (f : α → Nat → α) (n : Nat) (a : α) : (List.range (n + 1)).foldl f a = f ((List.range n).foldl f a) n := by
  rw [List.range_succ, List.foldl_append]
  rfl

theorem rounds_inverse {e d : List W} {n : Nat} (h : Dual e d n) (s : Block) : ∀ m, m ≤ n - 1 →
    (List.range m).foldl (fun s r => decRound s (keys d (r + 1))) (subShift (encRounds e n s)) =
      subShift ((List.range (n - 1 - m)).foldl (fun s r => encRound s (keys e (r + 1))) s)
  | 0, _ => rfl
  | m + 1, hm => by
    rw [foldl_range_succ, rounds_inverse h s m (by omega), decRound_subShift, h.mid (m + 1) (by omega) (by omega)]
    rw [show n - 1 - m = (n - 1 - (m + 1)) + 1 by omega, foldl_range_succ, UB_encRound]
    rw [show n - 1 - (m + 1) + 1 = n - (m + 1) by omega, badd_cancel]

theorem decrypt_encrypt {e d : List W} {n : Nat} (h : Dual e d n) {pt : Bytes} (hl : pt.length = 16) : decrypt (d, n) (encrypt (e, n) pt) = pt := by
  unfold decrypt encrypt
  simp only
  rw [of_bytes, encLast_eq, h.first, badd_cancel]
  have := rounds_inverse h (Block.of pt + keys e 0) (n - 1) (Nat.le_refl _)
  rw [Nat.sub_self] at this
  unfold decRounds
  rw [this, decLast_subShift, h.last]
  show (Block.of pt + keys e 0 + keys e 0).bytes = pt
  rw [badd_cancel, bytes_of hl]

/-! ### The round keys -/

theorem loop128_length : ∀ (n i : Nat) (rk : List W), (loop128 n i rk).length = rk.length + 4 * n
  | 0, _, _ => rfl
  | n + 1, i, rk => by
    rw [loop128, loop128_length n, List.length_append]
    show rk.length + 4 + 4 * n = _
    omega

theorem turn256_length (last : Bool) (i : Nat) (a b c d e f g h : W) : (turn256 last i a b c d e f g h).length = if last then 4 else 8 := by
  unfold turn256
  cases last <;> rfl

theorem loop256_length : ∀ (n i : Nat) (rk : List W), (loop256 (n + 1) i rk).length = rk.length + 8 * n + 4
  | 0, i, rk => by
    rw [loop256, loop256, List.length_append, turn256_length]
    rfl
  | n + 1, i, rk => by
    rw [loop256, loop256_length n, List.length_append, turn256_length]
    simp
    omega

theorem setupEnc_spec (key : Bytes) (size : Nat) : (setupEnc key size).1.length = 4 * ((setupEnc key size).2 + 1) ∧ 0 < (setupEnc key size).2 := by
  unfold setupEnc
  simp only
  split
  · exact ⟨loop128_length _ _ _, Nat.succ_pos _⟩
  · exact ⟨loop256_length _ _ _, Nat.succ_pos _⟩

theorem flatMap_four {α : Type} (f : Nat → List α) (hf : ∀ r, (f r).length = 4) : ∀ (n r j : Nat), r < n → j < 4 →
    ((List.range n).flatMap f)[4 * r + j]? = (f r)[j]?
  | 0, r, j, hr, _ => by omega
  | n + 1, r, j, hr, hj => by
    have hlen : ∀ n, ((List.range n).flatMap f).length = 4 * n := by
      intro n
      induction n with
      | zero => rfl
      | succ n ih => rw [List.range_succ, List.flatMap_append, List.length_append, ih, List.flatMap_singleton, hf]; omega
    rw [List.range_succ, List.flatMap_append, List.flatMap_singleton]
    by_cases h : r < n
    · rw [List.getElem?_append_left (by rw [hlen]; omega)]
      exact flatMap_four f hf n r j h hj
    · have : r = n := by omega
      subst this
      rw [List.getElem?_append_right (by rw [hlen]; omega), hlen]
      congr 1
      omega

theorem swapKeys_at (n : Nat) (rk : List W) {r j : Nat} (hr : r ≤ n) (hj : j < 4) : keyAt (swapKeys n rk) (4 * r + j) = keyAt rk (4 * (n - r) + j) := by
  unfold keyAt swapKeys
  rw [List.getD_eq_getElem?_getD, flatMap_four _ (fun _ => rfl) (n + 1) r j (by omega) hj]
  match j, hj with
  | 0, _ => rfl
  | 1, _ => rfl
  | 2, _ => rfl
  | 3, _ => rfl

theorem swapKeys_length (n : Nat) (rk : List W) : (swapKeys n rk).length = 4 * (n + 1) := by
  unfold swapKeys
  rw [List.length_flatMap]
  generalize n + 1 = m
  have : ∀ m, (List.map (fun _ : Nat => 4) (List.range m)).sum = 4 * m := by
    intro m
    induction m with
    | zero => rfl
    | succ m ih => rw [List.range_succ, List.map_append, List.sum_append, ih]; simp; omega
  exact this m

theorem unmixKeys_at (n : Nat) (rk : List W) {i : Nat} (hi : i < rk.length) :
    keyAt (unmixKeys n rk) i = if 4 ≤ i ∧ i < 4 * n then unmix (keyAt rk i) else keyAt rk i := by
  unfold unmixKeys
  conv => lhs; unfold keyAt
  rw [List.getD_eq_getElem?_getD, List.getElem?_map, List.getElem?_range hi]
  rfl

theorem setup_dual (key : Bytes) (size : Nat) : Dual (setupEnc key size).1 (setupDec key size).1 (setupEnc key size).2 := by
  obtain ⟨hl, hn⟩ := setupEnc_spec key size
  generalize hE : setupEnc key size = E at *
  have hD : (setupDec key size).1 = unmixKeys E.2 (swapKeys E.2 E.1) := by
    unfold setupDec
    rw [hE]
  rw [hD]
  have hat : ∀ r j, r ≤ E.2 → j < 4 → keyAt (unmixKeys E.2 (swapKeys E.2 E.1)) (4 * r + j) =
      if 0 < r ∧ r < E.2 then U (keyAt E.1 (4 * (E.2 - r) + j)) else keyAt E.1 (4 * (E.2 - r) + j) := by
    intro r j hr hj
    rw [unmixKeys_at _ _ (by rw [swapKeys_length]; omega), swapKeys_at _ _ hr hj, unmix_eq]
    by_cases h : 0 < r ∧ r < E.2
    · rw [if_pos h, if_pos (by omega)]
    · rw [if_neg h, if_neg (by omega)]
  have hk : ∀ r, r ≤ E.2 → keys (unmixKeys E.2 (swapKeys E.2 E.1)) r = if 0 < r ∧ r < E.2 then UB (keys E.1 (E.2 - r)) else keys E.1 (E.2 - r) := by
    intro r hr
    have h0 := hat r 0 hr (by decide)
    rw [Nat.add_zero, Nat.add_zero] at h0
    unfold keys
    rw [h0, hat r 1 hr (by decide), hat r 2 hr (by decide), hat r 3 hr (by decide)]
    split <;> rfl
  refine ⟨?_, ?_, fun r h0 hn => ?_⟩
  · rw [hk 0 (by omega), if_neg (by omega), Nat.sub_zero]
  · rw [hk E.2 (Nat.le_refl _), if_neg (by omega), Nat.sub_self]
  · rw [hk r (by omega), if_pos ⟨h0, hn⟩]

/-! ### The standard -/

theorem S_eq (x : UInt8) : S x = Fips.sbox x := by
  unfold S
  rw [te4_spec]

theorem subShift_bytes (s : Block) : (subShift s).bytes = Fips.shiftRows (Fips.subBytes s.bytes) := by
  obtain ⟨⟨_, _, _, _⟩, ⟨_, _, _, _⟩, ⟨_, _, _, _⟩, ⟨_, _, _, _⟩⟩ := s
  simp only [subShift, S_eq]
  rfl

theorem add_bytes (x y : Block) : (x + y).bytes = Fips.xors x.bytes y.bytes := rfl

theorem encRound_bytes (s k : Block) : (encRound s k).bytes = Fips.xors (Fips.mixColumns (Fips.shiftRows (Fips.subBytes s.bytes))) k.bytes := by
  rw [← subShift_bytes]
  have : ∀ a b c d : UInt8, mix0 a + mix1 b + mix2 c + mix3 d = ⟨Fips.mul 2 a ^^^ Fips.mul 3 b ^^^ c ^^^ d, a ^^^ Fips.mul 2 b ^^^ Fips.mul 3 c ^^^ d,
      a ^^^ b ^^^ Fips.mul 2 c ^^^ Fips.mul 3 d, Fips.mul 3 a ^^^ b ^^^ c ^^^ Fips.mul 2 d⟩ := fun _ _ _ _ => rfl
  unfold encRound
  simp only [encWord_eq, this]
  rfl

/-- A word of the key expansion as the code has it. -/
def expanded (key : Bytes) (nk : Nat) (i : Nat) : W := getW (Fips.word key nk i) 0

theorem word_length (key : Bytes) (nk : Nat) : ∀ i, (Fips.word key nk i).length = 4 := by
  intro i
  induction i using Nat.strongRecOn with
  | _ i ih =>
    rw [Fips.word]
    split
    · rfl
    · rename_i h
      simp only [Fips.xors, List.length_zipWith]
      rw [ih (i - nk) (by omega)]
      have h1 := ih (i - 1) (by omega)
      split
      · simp only [List.length_zipWith, Fips.subBytes, List.length_map, List.length_append, List.length_drop, List.length_take, h1]
        rfl
      · split
        · simp only [Fips.subBytes, List.length_map, h1]
          rfl
        · rw [h1]
          rfl

theorem word_bytes (key : Bytes) (nk i : Nat) : (expanded key nk i).bytes = Fips.word key nk i := by
  unfold expanded
  have := word_length key nk i
  generalize Fips.word key nk i = w at *
  match w, this with
  | [_, _, _, _], _ => rfl

theorem getW_xors {a b : Bytes} (ha : a.length = 4) (hb : b.length = 4) : getW (Fips.xors a b) 0 = getW a 0 + getW b 0 := by
  match a, b, ha, hb with
  | [_, _, _, _], [_, _, _, _], _, _ => rfl

theorem expanded_low (key : Bytes) {nk i : Nat} (h : i < nk) : expanded key nk i = getW key (4 * i) := by
  unfold expanded
  rw [Fips.word, dif_pos (.inr h)]
  rfl

def subW (w : W) : W := ⟨S w.b3, S w.b2, S w.b1, S w.b0⟩

theorem expanded_high (key : Bytes) {nk i : Nat} (h0 : 0 < nk) (h : nk ≤ i) : expanded key nk i = expanded key nk (i - nk) +
    (if i % nk = 0 then masked te4Table (expanded key nk (i - 1)).b2 (expanded key nk (i - 1)).b1 (expanded key nk (i - 1)).b0 (expanded key nk (i - 1)).b3 +
        ⟨Fips.rcon (i / nk - 1), 0, 0, 0⟩
     else if nk > 6 ∧ i % nk = 4 then masked te4Table (expanded key nk (i - 1)).b3 (expanded key nk (i - 1)).b2 (expanded key nk (i - 1)).b1 (expanded key nk (i - 1)).b0
     else expanded key nk (i - 1)) := by
  unfold expanded
  conv => lhs; rw [Fips.word]
  rw [dif_neg (by omega)]
  have h1 := word_length key nk (i - 1)
  have h2 := word_length key nk (i - nk)
  simp only [masked_te4, S_eq]
  generalize Fips.word key nk (i - 1) = w at *
  generalize Fips.word key nk (i - nk) = v at *
  match w, v, h1, h2 with
  | [_, _, _, _], [_, _, _, _], _, _ =>
    split
    · rfl
    · split
      · rfl
      · rfl

theorem rcon_table : ∀ i, i < 10 → W.ofNat (rconTable.getD i 0) = ⟨Fips.rcon i, 0, 0, 0⟩ := by decide +kernel

/-- The first words of the expansion. -/
def expansion (key : Bytes) (nk n : Nat) : List W := (List.range n).map (expanded key nk)

theorem keyAt_expansion (key : Bytes) (nk : Nat) {n i : Nat} (h : i < n) : keyAt (expansion key nk n) i = expanded key nk i := by
  unfold keyAt expansion
  rw [List.getD_eq_getElem?_getD, List.getElem?_map, List.getElem?_range h]
  rfl

theorem expansion_add (key : Bytes) (nk n m : Nat) : expansion key nk (n + m) = expansion key nk n ++ (List.range m).map fun j => expanded key nk (n + j) := by
  unfold expansion
  rw [List.range_add, List.map_append, List.map_map]
  rfl

theorem loop128_spec (key : Bytes) : ∀ (n i : Nat), i + n ≤ 10 → loop128 n i (expansion key 4 (4 * i + 4)) = expansion key 4 (4 * (i + n) + 4)
  | 0, i, _ => rfl
  | n + 1, i, h => by
    rw [loop128, keyAt_expansion _ _ (by omega), keyAt_expansion _ _ (by omega), keyAt_expansion _ _ (by omega), keyAt_expansion _ _ (by omega)]
    have e0 := expanded_high key (nk := 4) (i := 4 * i + 4) (by decide) (by omega)
    have e1 := expanded_high key (nk := 4) (i := 4 * i + 5) (by decide) (by omega)
    have e2 := expanded_high key (nk := 4) (i := 4 * i + 6) (by decide) (by omega)
    have e3 := expanded_high key (nk := 4) (i := 4 * i + 7) (by decide) (by omega)
    rw [if_pos (by omega), show (4 * i + 4) / 4 - 1 = i by omega, show 4 * i + 4 - 4 = 4 * i by omega, show 4 * i + 4 - 1 = 4 * i + 3 by omega] at e0
    rw [if_neg (by omega), if_neg (by omega), show 4 * i + 5 - 4 = 4 * i + 1 by omega, show 4 * i + 5 - 1 = 4 * i + 4 by omega] at e1
    rw [if_neg (by omega), if_neg (by omega), show 4 * i + 6 - 4 = 4 * i + 2 by omega, show 4 * i + 6 - 1 = 4 * i + 5 by omega] at e2
    rw [if_neg (by omega), if_neg (by omega), show 4 * i + 7 - 4 = 4 * i + 3 by omega, show 4 * i + 7 - 1 = 4 * i + 6 by omega] at e3
    have ht : turn128 i (expanded key 4 (4 * i)) (expanded key 4 (4 * i + 1)) (expanded key 4 (4 * i + 2)) (expanded key 4 (4 * i + 3)) =
        [expanded key 4 (4 * i + 4), expanded key 4 (4 * i + 5), expanded key 4 (4 * i + 6), expanded key 4 (4 * i + 7)] := by
      unfold turn128
      simp only [rcon_table i (by omega)]
      rw [e3, e2, e1, e0, add_assoc]
    have hx : expansion key 4 (4 * i + 4) ++ turn128 i (expanded key 4 (4 * i)) (expanded key 4 (4 * i + 1)) (expanded key 4 (4 * i + 2)) (expanded key 4 (4 * i + 3)) =
        expansion key 4 (4 * (i + 1) + 4) := by
      rw [ht, show 4 * (i + 1) + 4 = (4 * i + 4) + 4 by omega, expansion_add key 4 (4 * i + 4) 4]
      rfl
    rw [hx, loop128_spec key n (i + 1) (by omega), show i + 1 + n = i + (n + 1) by omega]

theorem loop256_spec (key : Bytes) : ∀ (n i : Nat), i + (n + 1) ≤ 7 → loop256 (n + 1) i (expansion key 8 (8 * i + 8)) = expansion key 8 (8 * (i + n) + 12)
  | n, i, h => by
    rw [loop256, keyAt_expansion _ _ (by omega), keyAt_expansion _ _ (by omega), keyAt_expansion _ _ (by omega), keyAt_expansion _ _ (by omega),
      keyAt_expansion _ _ (by omega), keyAt_expansion _ _ (by omega), keyAt_expansion _ _ (by omega), keyAt_expansion _ _ (by omega)]
    have e0 := expanded_high key (nk := 8) (i := 8 * i + 8) (by decide) (by omega)
    have e1 := expanded_high key (nk := 8) (i := 8 * i + 9) (by decide) (by omega)
    have e2 := expanded_high key (nk := 8) (i := 8 * i + 10) (by decide) (by omega)
    have e3 := expanded_high key (nk := 8) (i := 8 * i + 11) (by decide) (by omega)
    have e4 := expanded_high key (nk := 8) (i := 8 * i + 12) (by decide) (by omega)
    have e5 := expanded_high key (nk := 8) (i := 8 * i + 13) (by decide) (by omega)
    have e6 := expanded_high key (nk := 8) (i := 8 * i + 14) (by decide) (by omega)
    have e7 := expanded_high key (nk := 8) (i := 8 * i + 15) (by decide) (by omega)
    rw [if_pos (by omega), show (8 * i + 8) / 8 - 1 = i by omega, show 8 * i + 8 - 8 = 8 * i by omega, show 8 * i + 8 - 1 = 8 * i + 7 by omega] at e0
    rw [if_neg (by omega), if_neg (by omega), show 8 * i + 9 - 8 = 8 * i + 1 by omega, show 8 * i + 9 - 1 = 8 * i + 8 by omega] at e1
    rw [if_neg (by omega), if_neg (by omega), show 8 * i + 10 - 8 = 8 * i + 2 by omega, show 8 * i + 10 - 1 = 8 * i + 9 by omega] at e2
    rw [if_neg (by omega), if_neg (by omega), show 8 * i + 11 - 8 = 8 * i + 3 by omega, show 8 * i + 11 - 1 = 8 * i + 10 by omega] at e3
    rw [if_neg (by omega), if_pos (by omega), show 8 * i + 12 - 8 = 8 * i + 4 by omega, show 8 * i + 12 - 1 = 8 * i + 11 by omega] at e4
    rw [if_neg (by omega), if_neg (by omega), show 8 * i + 13 - 8 = 8 * i + 5 by omega, show 8 * i + 13 - 1 = 8 * i + 12 by omega] at e5
    rw [if_neg (by omega), if_neg (by omega), show 8 * i + 14 - 8 = 8 * i + 6 by omega, show 8 * i + 14 - 1 = 8 * i + 13 by omega] at e6
    rw [if_neg (by omega), if_neg (by omega), show 8 * i + 15 - 8 = 8 * i + 7 by omega, show 8 * i + 15 - 1 = 8 * i + 14 by omega] at e7
    rw [← add_assoc] at e0
    have ht : ∀ last, turn256 last i (expanded key 8 (8 * i)) (expanded key 8 (8 * i + 1)) (expanded key 8 (8 * i + 2)) (expanded key 8 (8 * i + 3))
        (expanded key 8 (8 * i + 4)) (expanded key 8 (8 * i + 5)) (expanded key 8 (8 * i + 6)) (expanded key 8 (8 * i + 7)) =
        (List.range (if last then 4 else 8)).map fun j => expanded key 8 (8 * i + 8 + j) := by
      intro last
      unfold turn256
      simp only [rcon_table i (by omega)]
      rw [← e0, ← e1, ← e2, ← e3, ← e4, ← e5, ← e6, ← e7]
      cases last <;> rfl
    rw [ht]
    rw [← expansion_add]
    cases n with
    | zero => rfl
    | succ n =>
      have := loop256_spec key n (i + 1) (by omega)
      rw [show (n + 1 == 0) = false by rfl]
      simp only [Bool.false_eq_true, if_false]
      rw [show 8 * i + 8 + 8 = 8 * (i + 1) + 8 by omega, this, show i + 1 + n = i + (n + 1) by omega]

theorem setupEnc_expansion (key : Bytes) (nk : Nat) (h : nk = 4 ∨ nk = 8) : setupEnc key (4 * nk) = (expansion key nk (4 * (nk + 7)), nk + 6) := by
  rcases h with rfl | rfl
  · have hh : [getW key 0, getW key 4, getW key 8, getW key 12] = expansion key 4 (4 * 0 + 4) := by
      show _ = [expanded key 4 0, expanded key 4 1, expanded key 4 2, expanded key 4 3]
      rw [expanded_low _ (by decide), expanded_low _ (by decide), expanded_low _ (by decide), expanded_low _ (by decide)]
    unfold setupEnc
    dsimp only
    rw [if_pos rfl, hh, loop128_spec key 10 0 (by decide)]
  · have hh : [getW key 0, getW key 4, getW key 8, getW key 12] ++ [getW key 16, getW key 20, getW key 24, getW key 28] = expansion key 8 (8 * 0 + 8) := by
      show _ = [expanded key 8 0, expanded key 8 1, expanded key 8 2, expanded key 8 3, expanded key 8 4, expanded key 8 5, expanded key 8 6, expanded key 8 7]
      rw [expanded_low _ (by decide), expanded_low _ (by decide), expanded_low _ (by decide), expanded_low _ (by decide),
        expanded_low _ (by decide), expanded_low _ (by decide), expanded_low _ (by decide), expanded_low _ (by decide)]
      rfl
    unfold setupEnc
    dsimp only
    rw [if_neg (by decide), hh, loop256_spec key 6 0 (by decide)]

theorem keys_bytes (key : Bytes) (nk : Nat) {n r : Nat} (h : 4 * r + 3 < n) : (keys (expansion key nk n) r).bytes = Fips.roundKey key nk r := by
  unfold keys
  rw [keyAt_expansion _ _ (by omega), keyAt_expansion _ _ (by omega), keyAt_expansion _ _ (by omega), keyAt_expansion _ _ (by omega)]
  unfold Block.bytes
  simp only [word_bytes]
  unfold Fips.roundKey
  show _ = Fips.word key nk (4 * r + 0) ++ (Fips.word key nk (4 * r + 1) ++ (Fips.word key nk (4 * r + 2) ++ (Fips.word key nk (4 * r + 3) ++ [])))
  simp only [List.append_nil, List.append_assoc, Nat.add_zero]

theorem encrypt_fips (key : Bytes) (nk : Nat) {n : Nat} (hn : 4 * (nk + 7) ≤ n) {pt : Bytes} (hl : pt.length = 16) :
    encrypt (expansion key nk n, nk + 6) pt = Fips.cipher key nk pt := by
  unfold encrypt Fips.cipher
  simp only
  rw [encLast_eq, add_bytes, subShift_bytes, keys_bytes _ _ (by omega)]
  have h0 : (Block.of pt + keys (expansion key nk n) 0).bytes = Fips.xors pt (Fips.roundKey key nk 0) := by
    rw [add_bytes, keys_bytes _ _ (by omega), bytes_of hl]
  have hr : ∀ m, m ≤ nk + 5 → ((List.range m).foldl (fun s r => encRound s (keys (expansion key nk n) (r + 1))) (Block.of pt + keys (expansion key nk n) 0)).bytes =
      (List.range m).foldl (fun s r => Fips.xors (Fips.mixColumns (Fips.shiftRows (Fips.subBytes s))) (Fips.roundKey key nk (r + 1))) (Fips.xors pt (Fips.roundKey key nk 0)) := by
    intro m
    induction m with
    | zero => intro _; exact h0
    | succ m ih =>
      intro hm
      rw [foldl_range_succ, foldl_range_succ, encRound_bytes, ih (by omega), keys_bytes _ _ (by omega)]
  unfold encRounds
  rw [show nk + 6 - 1 = nk + 5 by omega, hr (nk + 5) (Nat.le_refl _)]

/-! ### C61 -/

/-- C61: the encryption of a block with a key of 16 or 32 bytes is the one of the standard. -/
theorem C61_standard (key pt : Bytes) (nk : Nat) (h : nk = 4 ∨ nk = 8) (hl : pt.length = 16) :
    encrypt (setupEnc key (4 * nk)) pt = Fips.cipher key nk pt := by
  rw [setupEnc_expansion key nk h]
  exact encrypt_fips key nk (Nat.le_refl _) hl

/-- C61: decryption of a block undoes its encryption, whatever the key. -/
theorem C61_decrypt (key : Bytes) (size : Nat) (pt : Bytes) (hl : pt.length = 16) :
    decrypt (setupDec key size) (encrypt (setupEnc key size) pt) = pt := by
  have := decrypt_encrypt (setup_dual key size) hl
  exact this

theorem encrypt_length (k : List W × Nat) (pt : Bytes) : (encrypt k pt).length = 16 := bytes_length _

theorem decrypt_length (k : List W × Nat) (pt : Bytes) : (decrypt k pt).length = 16 := bytes_length _

/-- The specification gives the known answer of the standard (appendix B). -/
example : Fips.cipher [0x2b, 0x7e, 0x15, 0x16, 0x28, 0xae, 0xd2, 0xa6, 0xab, 0xf7, 0x15, 0x88, 0x09, 0xcf, 0x4f, 0x3c] 4
    [0x32, 0x43, 0xf6, 0xa8, 0x88, 0x5a, 0x30, 0x8d, 0x31, 0x31, 0x98, 0xa2, 0xe0, 0x37, 0x07, 0x34] =
    [0x39, 0x25, 0x84, 0x1d, 0x02, 0xdc, 0x09, 0xfb, 0xdc, 0x11, 0x85, 0x97, 0x19, 0x6a, 0x0b, 0x32] := by
  rw [← C61_standard _ _ 4 (.inl rfl) rfl]
  decide +kernel

end Verif.Aes
