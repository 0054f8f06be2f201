import Verif.Prelude.Bytes

/-
The CRC functions of tkrzw_hash_util.cc 186-443 in their little-endian variants (without zlib): C47.

Tables are modelled as the functions that fill them. `std::call_once` is taken to fill them before their use.
-/
namespace Verif.Crc

/-! ### The model -/

/-- One turn of the loop that fills the table of CRC-4 and CRC-32 (tkrzw_hash_util.cc 206-210, 391-395). -/
def turnRight (poly c : BitVec 32) : BitVec 32 := if c &&& 1#32 ≠ 0 then poly ^^^ (c >>> 1) else c >>> 1

/-- One turn of the loop that fills the table of CRC-8 (tkrzw_hash_util.cc 281-285); `c` is a `uint8_t`. -/
def turnLeft8 (c : BitVec 8) : BitVec 8 := (c <<< 1) ^^^ (if c &&& 0x80#8 ≠ 0 then 0x07#8 else 0)

/-- One turn of the loop that fills the table of CRC-16 (tkrzw_hash_util.cc 345-349); `c` is a `uint16_t`. -/
def turnLeft16 (c : BitVec 16) : BitVec 16 := if c &&& 0x8000#16 ≠ 0 then 0x1021#16 ^^^ (c <<< 1) else c <<< 1

/-- A loop of eight turns. -/
def eight {α : Type} (f : α → α) (c : α) : α := f (f (f (f (f (f (f (f c)))))))

/-- `table0` of CRC-4 (tkrzw_hash_util.cc 206-211). -/
def table4 (i : BitVec 32) : BitVec 32 := eight (turnRight 0x0C#32) i

/-- `table0` of CRC-8 (tkrzw_hash_util.cc 281-287). -/
def table8 (i : BitVec 32) : BitVec 32 := (eight turnLeft8 (i.setWidth 8)).setWidth 32

/-- `table` of CRC-16 (tkrzw_hash_util.cc 345-351). -/
def table16 (i : BitVec 32) : BitVec 32 := (eight turnLeft16 ((i <<< 8).setWidth 16)).setWidth 32

/-- `table0` of CRC-32 (tkrzw_hash_util.cc 391-397). -/
def table32 (i : BitVec 32) : BitVec 32 := eight (turnRight 0xEDB88320#32) i

/-- The next table from a table (tkrzw_hash_util.cc 213-217, 289-293, 398-402). -/
def next (t0 t : BitVec 32 → BitVec 32) (i : BitVec 32) : BitVec 32 := (t i >>> 8) ^^^ t0 (t i &&& 0xFF#32)

/-- A byte as `uint32_t`. -/
def wide (b : UInt8) : BitVec 32 := b.toBitVec.setWidth 32

/-- The loops over single bytes (tkrzw_hash_util.cc 221-224, 233-235, 297-300, 309-311, 406-409, 418-420). -/
def bytewise (t0 : BitVec 32 → BitVec 32) (crc : BitVec 32) : Bytes → BitVec 32
  | [] => crc
  | b :: bs => bytewise t0 ((crc >>> 8) ^^^ t0 ((crc &&& 0xFF#32) ^^^ wide b)) bs

/-- A little-endian `uint32_t` in memory. -/
def word (b0 b1 b2 b3 : UInt8) : BitVec 32 := wide b0 ^^^ (wide b1 <<< 8) ^^^ (wide b2 <<< 16) ^^^ (wide b3 <<< 24)

/-- The loop over words and the loop over what remains (tkrzw_hash_util.cc 225-235, 301-311, 410-420). -/
def words (t0 : BitVec 32 → BitVec 32) (crc : BitVec 32) : Bytes → BitVec 32
  | b0 :: b1 :: b2 :: b3 :: rest =>
    let t1 := next t0 t0
    let t2 := next t0 t1
    let t3 := next t0 t2
    let crc := crc ^^^ word b0 b1 b2 b3
    words t0 (t3 (crc &&& 0xFF#32) ^^^ t2 ((crc >>> 8) &&& 0xFF#32) ^^^ t1 ((crc >>> 16) &&& 0xFF#32) ^^^ t0 (crc >>> 24)) rest
  | rest => bytewise t0 crc rest

/-- The whole computation of CRC-4, CRC-8 and CRC-32 (tkrzw_hash_util.cc 219-236, 295-312, 404-424): `lead` bytes come before the first address
divisible by four. -/
def sliced (t0 : BitVec 32 → BitVec 32) (lead : Nat) (seed : BitVec 32) (data : Bytes) : BitVec 32 :=
  words t0 (bytewise t0 seed (data.take lead)) (data.drop lead)

/-- `HashCRC4Continuous` (tkrzw_hash_util.cc 186-237). -/
def crc4 (lead : Nat) (data : Bytes) (_finish : Bool) (seed : BitVec 32) : BitVec 32 := sliced table4 lead seed data

/-- `HashCRC8Continuous` (tkrzw_hash_util.cc 262-313). -/
def crc8 (lead : Nat) (data : Bytes) (_finish : Bool) (seed : BitVec 32) : BitVec 32 := sliced table8 lead seed data

/-- The loop of CRC-16 (tkrzw_hash_util.cc 355-357). -/
def loop16 (crc : BitVec 32) : Bytes → BitVec 32
  | [] => crc
  | b :: bs => loop16 (table16 (((crc >>> 8) ^^^ wide b) &&& 0xFF#32) ^^^ (crc <<< 8)) bs

/-- `HashCRC16Continuous` (tkrzw_hash_util.cc 338-359). -/
def crc16 (data : Bytes) (_finish : Bool) (seed : BitVec 32) : BitVec 32 := loop16 seed data &&& 0xFFFF#32

/-- `HashCRC32Continuous` (tkrzw_hash_util.cc 361-425). -/
def crc32 (lead : Nat) (data : Bytes) (finish : Bool) (seed : BitVec 32) : BitVec 32 :=
  let crc := sliced table32 lead seed data
  if finish then crc ^^^ 0xFFFFFFFF#32 else crc

/-! ### SPECIFICATION: division of polynomials over the field of two elements

A polynomial is the sequence of its coefficients from the highest power on, continued by zeros. -/

abbrev Poly := Nat → Bool

/-- Addition. -/
def add (a b : Poly) : Poly := fun i => a i ^^ b i

/-- One step of the long division by `x^w + p`: the first coefficient is cancelled by subtracting a multiple of the divisor, and left out. -/
def step (p d : Poly) : Poly := fun i => d (i + 1) ^^ (d 0 && p i)

/-- `n` steps of the long division. -/
def steps (p : Poly) : Nat → Poly → Poly
  | 0, d => d
  | n + 1, d => steps p n (step p d)

/-- The bits of a message: in each byte from the least significant bit if `reflected`, else from the most significant one. -/
def bitsOf (reflected : Bool) (data : Bytes) : Poly := fun i =>
  match data[i / 8]? with
  | none => false
  | some b => b.toBitVec.getLsbD (if reflected then i % 8 else 7 - i % 8)

/-- The remainder of the division of the message, multiplied by `x^w`, with the seed added to its first coefficients. -/
def remainder (reflected : Bool) (p seed : Poly) (data : Bytes) : Poly := steps p (8 * data.length) (add seed (bitsOf reflected data))

/-- The register read from its least significant bit. -/
def low (c : BitVec 32) : Poly := fun i => c.getLsbD i

/-- The register of `w` bits read from its most significant bit. -/
def high (w : Nat) (c : BitVec 32) : Poly := fun i => if i < w then c.getLsbD (w - 1 - i) else false

/-- A polynomial of given coefficients. -/
def coeffs (l : List Nat) : Poly := fun i => (l[i]?.getD 0) == 1

/-- `x^4 + x + 1`, without the first term. -/
def poly4 : Poly := coeffs [0, 0, 1, 1]
/-- `x^8 + x^2 + x + 1`, without the first term. -/
def poly8 : Poly := coeffs [0, 0, 0, 0, 0, 1, 1, 1]
/-- `x^16 + x^12 + x^5 + 1`, without the first term. -/
def poly16 : Poly := coeffs [0, 0, 0, 1, 0, 0, 0, 0, 0, 0, 1, 0, 0, 0, 0, 1]
/-- `x^32 + x^26 + x^23 + x^22 + x^16 + x^12 + x^11 + x^10 + x^8 + x^7 + x^5 + x^4 + x^2 + x + 1`, without the first term. -/
def poly32 : Poly := coeffs [0, 0, 0, 0, 0, 1, 0, 0, 1, 1, 0, 0, 0, 0, 0, 1, 0, 0, 0, 1, 1, 1, 0, 1, 1, 0, 1, 1, 0, 1, 1, 1]

/-! ### Algebra of the division -/

def shift (k : Nat) (d : Poly) : Poly := fun i => if i < k then false else d (i - k)

theorem step_add (p a b : Poly) : step p (add a b) = add (step p a) (step p b) := by
  funext i
  simp only [step, add]
  cases a 0 <;> cases b 0 <;> cases a (i + 1) <;> cases b (i + 1) <;> cases p i <;> rfl

theorem steps_add (p : Poly) (n : Nat) : ∀ a b, steps p n (add a b) = add (steps p n a) (steps p n b) := by
  induction n with
  | zero => intro a b; rfl
  | succ n ih => intro a b; simp only [steps, step_add, ih]

theorem steps_steps (p : Poly) (m : Nat) : ∀ n d, steps p m (steps p n d) = steps p (n + m) d := by
  intro n
  induction n with
  | zero => intro d; rw [Nat.zero_add]; rfl
  | succ n ih => intro d; rw [Nat.succ_add]; simp only [steps]; exact ih _

theorem step_shift (p d : Poly) (k : Nat) : step p (shift (k + 1) d) = shift k d := by
  funext i
  simp [step, shift]

theorem steps_shift (p d : Poly) : ∀ k, steps p k (shift k d) = d := by
  intro k
  induction k with
  | zero => funext i; simp [steps, shift]
  | succ k ih => simp only [steps, step_shift, ih]

theorem add_assoc (a b c : Poly) : add (add a b) c = add a (add b c) := by
  funext i; simp [add]

theorem bitsOf_cons (r : Bool) (b : UInt8) (bs : Bytes) : bitsOf r (b :: bs) = add (bitsOf r [b]) (shift 8 (bitsOf r bs)) := by
  funext i
  simp only [bitsOf, add, shift]
  by_cases h : i < 8
  · have : i / 8 = 0 := by omega
    simp [this, h]
  · have h1 : i / 8 = (i - 8) / 8 + 1 := by omega
    have h2 : i % 8 = (i - 8) % 8 := by omega
    rw [if_neg h, h1, h2, List.getElem?_cons_succ, List.getElem?_cons_succ]
    simp only [List.getElem?_nil]
    cases (match bs[(i - 8) / 8]? with | none => false | some b => b.toBitVec.getLsbD (if r = true then (i - 8) % 8 else 7 - (i - 8) % 8)) <;> rfl

/-- The division of a message goes byte by byte. -/
theorem remainder_cons (r : Bool) (p seed : Poly) (b : UInt8) (bs : Bytes) :
    remainder r p seed (b :: bs) = remainder r p (steps p 8 (add seed (bitsOf r [b]))) bs := by
  unfold remainder
  rw [bitsOf_cons, ← add_assoc, List.length_cons, show 8 * (bs.length + 1) = 8 + 8 * bs.length by omega, ← steps_steps, steps_add, steps_shift]

theorem remainder_nil (r : Bool) (p seed : Poly) : remainder r p seed [] = seed := by
  funext i; simp [remainder, steps, bitsOf, add]

theorem remainder_append (r : Bool) (p : Poly) (a b : Bytes) : ∀ seed, remainder r p seed (a ++ b) = remainder r p (remainder r p seed a) b := by
  induction a with
  | nil => intro seed; rw [remainder_nil]; rfl
  | cons x a ih => intro seed; rw [List.cons_append, remainder_cons, remainder_cons, ih]

/-! ### Tables by division -/

/-- What the proofs need of a table and of a way to read registers. -/
structure Reads (r : Bool) (p : Poly) (t0 : BitVec 32 → BitVec 32) (rd : BitVec 32 → Poly) : Prop where
  xor : ∀ a b : BitVec 32, rd (a ^^^ b) = add (rd a) (rd b)
  inj : ∀ a b, rd a = rd b → a = b
  shr : ∀ (a : BitVec 32) i, rd (a >>> 8) i = rd a (i + 8)
  mask : ∀ (a : BitVec 32) i, rd (a &&& 0xFF#32) i = if i < 8 then rd a i else false
  byte : ∀ b, rd (wide b) = bitsOf r [b]
  table : ∀ a, (∀ i, 8 ≤ i → rd a i = false) → rd (t0 a) = steps p 8 (rd a)

variable {r : Bool} {p : Poly} {t0 : BitVec 32 → BitVec 32} {rd : BitVec 32 → Poly}

theorem Reads.split (h : Reads r p t0 rd) (a : BitVec 32) : rd a = add (rd (a &&& 0xFF#32)) (shift 8 (rd (a >>> 8))) := by
  funext i
  simp only [add, shift, h.mask]
  by_cases hi : i < 8
  · simp [hi]
  · have := h.shr a (i - 8)
    rw [show i - 8 + 8 = i by omega] at this
    simp [hi, this]

theorem Reads.fold (h : Reads r p t0 rd) (a : BitVec 32) : rd ((a >>> 8) ^^^ t0 (a &&& 0xFF#32)) = steps p 8 (rd a) := by
  rw [h.xor, h.table _ (fun i hi => by rw [h.mask, if_neg (by omega)]), h.split a, steps_add, steps_shift]
  funext i
  simp only [add]
  rw [Bool.xor_comm]

theorem wide_shr (b : UInt8) : wide b >>> 8 = 0#32 := by
  apply BitVec.eq_of_getLsbD_eq
  intro i hi
  simp [wide, BitVec.getLsbD_ushiftRight]

theorem wide_and (b : UInt8) : wide b &&& 0xFF#32 = wide b := by
  unfold wide
  apply BitVec.eq_of_toNat_eq
  have : b.toBitVec.toNat < 256 := b.toBitVec.isLt
  rw [BitVec.toNat_and, BitVec.toNat_setWidth, Nat.mod_eq_of_lt (by omega)]
  show b.toBitVec.toNat &&& (2 ^ 8 - 1) = _
  rw [Nat.and_two_pow_sub_one_eq_mod, Nat.mod_eq_of_lt (by omega)]

/-- One turn of the bytewise loop. -/
theorem Reads.turn (h : Reads r p t0 rd) (c : BitVec 32) (b : UInt8) :
    rd ((c >>> 8) ^^^ t0 ((c &&& 0xFF#32) ^^^ wide b)) = steps p 8 (add (rd c) (bitsOf r [b])) := by
  have e1 : c >>> 8 = (c ^^^ wide b) >>> 8 := by rw [BitVec.ushiftRight_xor_distrib, wide_shr]; simp
  have e2 : (c &&& 0xFF#32) ^^^ wide b = (c ^^^ wide b) &&& 0xFF#32 := by
    conv => lhs; rw [← wide_and b]
    apply BitVec.eq_of_getLsbD_eq
    intro i hi
    simp only [BitVec.getLsbD_xor, BitVec.getLsbD_and]
    cases c.getLsbD i <;> cases (wide b).getLsbD i <;> simp
  rw [e1, e2, h.fold, h.xor, h.byte]

theorem Reads.bytewise (h : Reads r p t0 rd) : ∀ (data : Bytes) (c : BitVec 32), rd (bytewise t0 c data) = remainder r p (rd c) data
  | [], c => by rw [remainder_nil]; rfl
  | b :: bs, c => by rw [Crc.bytewise, Reads.bytewise h bs, h.turn, remainder_cons]

/-- A table reads as further division. -/
theorem Reads.next (h : Reads r p t0 rd) {t : BitVec 32 → BitVec 32} {n : Nat} (ht : ∀ a, (∀ i, 8 ≤ i → rd a i = false) → rd (t a) = steps p n (rd a)) :
    ∀ a, (∀ i, 8 ≤ i → rd a i = false) → rd (next t0 t a) = steps p (n + 8) (rd a) := by
  intro a ha
  rw [Crc.next, h.fold, ht a ha, steps_steps]

theorem Reads.masked (h : Reads r p t0 rd) (a : BitVec 32) : ∀ i, 8 ≤ i → rd (a &&& 0xFF#32) i = false := fun i hi => by rw [h.mask, if_neg (by omega)]

theorem shr_shr (a : BitVec 32) (m n : Nat) : a >>> (m + n) = (a >>> m) >>> n := by
  apply BitVec.eq_of_getLsbD_eq
  intro i hi
  simp [BitVec.getLsbD_ushiftRight, Nat.add_assoc]

theorem top_mask (a : BitVec 32) : a >>> 24 = (a >>> 24) &&& 0xFF#32 := by
  apply BitVec.eq_of_toNat_eq
  have := a.isLt
  rw [BitVec.toNat_and, BitVec.toNat_ushiftRight, Nat.shiftRight_eq_div_pow]
  show _ = _ &&& (2 ^ 8 - 1)
  rw [Nat.and_two_pow_sub_one_eq_mod]
  omega

theorem shift_steps (p d : Poly) (n k : Nat) : steps p (k + n) (shift k d) = steps p n d := by rw [← steps_steps, steps_shift]

/-- The lookup of four tables is the division by 32 steps. -/
theorem Reads.four (h : Reads r p t0 rd) (c : BitVec 32) :
    rd (Crc.next t0 (Crc.next t0 (Crc.next t0 t0)) (c &&& 0xFF#32) ^^^ Crc.next t0 (Crc.next t0 t0) ((c >>> 8) &&& 0xFF#32) ^^^ Crc.next t0 t0 ((c >>> 16) &&& 0xFF#32) ^^^ t0 (c >>> 24)) =
      steps p 32 (rd c) := by
  have t1 := h.next h.table
  have t2 := h.next t1
  have t3 := h.next t2
  rw [top_mask, h.xor, h.xor, h.xor, t3 _ (h.masked c), t2 _ (h.masked _), t1 _ (h.masked _), h.table _ (h.masked _)]
  have e3 : rd (c >>> 24) = rd ((c >>> 24) &&& 0xFF#32) := by rw [← top_mask]
  have e2 : rd (c >>> 16) = add (rd ((c >>> 16) &&& 0xFF#32)) (shift 8 (rd (c >>> 24))) := by rw [h.split (c >>> 16), ← shr_shr]
  have e1 : rd (c >>> 8) = add (rd ((c >>> 8) &&& 0xFF#32)) (shift 8 (rd (c >>> 16))) := by rw [h.split (c >>> 8), ← shr_shr]
  have s3 := shift_steps p (rd (c >>> 8)) 24 8
  have s2 := shift_steps p (rd (c >>> 16)) 16 8
  have s1 := shift_steps p (rd (c >>> 24)) 8 8
  rw [h.split c, steps_add, s3, e1, steps_add, s2, e2, steps_add, s1, e3]
  simp only [add_assoc]

theorem word_bits (h : Reads r p t0 rd) (b0 b1 b2 b3 : UInt8) : rd (word b0 b1 b2 b3) = bitsOf r [b0, b1, b2, b3] := by
  have hsl : ∀ (x : BitVec 32) , (x <<< 8) &&& 0xFF#32 = 0#32 := by
    intro x
    apply BitVec.eq_of_getLsbD_eq
    intro i hi
    rw [BitVec.getLsbD_and, BitVec.getLsbD_shiftLeft]
    by_cases h8 : i < 8
    · simp [h8]
    · have : (0xFF#32).getLsbD i = false := by
        have : ∀ j : Fin 32, ¬ j.val < 8 → (0xFF#32).getLsbD j.val = false := by decide
        exact this ⟨i, hi⟩ h8
      rw [this]; simp
  have zero : rd 0#32 = fun _ => false := by
    funext i
    have h1 : rd (0#32 >>> 8) = rd 0#32 := rfl
    have h2 : rd (0#32 &&& 0xFF#32) = rd 0#32 := rfl
    have h3 := h.xor 0#32 0#32
    have h4 : (0#32 ^^^ 0#32 : BitVec 32) = 0#32 := rfl
    rw [h4] at h3
    have := congrFun h3 i
    rw [this]; simp [add]
  have low8 : ∀ (b : UInt8) (x : BitVec 32), (x <<< 8 >>> 8 = x) → rd (wide b ^^^ (x <<< 8)) = add (bitsOf r [b]) (shift 8 (rd x)) := by
    intro b x hx
    rw [h.split]
    have e1 : (wide b ^^^ x <<< 8) &&& 0xFF#32 = wide b := by
      have : (wide b ^^^ x <<< 8) &&& 0xFF#32 = (wide b &&& 0xFF#32) ^^^ ((x <<< 8) &&& 0xFF#32) := by
        apply BitVec.eq_of_getLsbD_eq
        intro i hi
        simp only [BitVec.getLsbD_xor, BitVec.getLsbD_and]
        cases (wide b).getLsbD i <;> cases (x <<< 8).getLsbD i <;> simp
      rw [this, hsl, wide_and]; simp
    have e2 : (wide b ^^^ x <<< 8) >>> 8 = x := by rw [BitVec.ushiftRight_xor_distrib, wide_shr, hx]; simp
    rw [e1, e2, h.byte]
  have exp : word b0 b1 b2 b3 = wide b0 ^^^ ((wide b1 ^^^ ((wide b2 ^^^ (wide b3 <<< 8)) <<< 8)) <<< 8) := by
    unfold word
    rw [BitVec.shiftLeft_xor_distrib, BitVec.shiftLeft_xor_distrib, BitVec.shiftLeft_xor_distrib, ← BitVec.shiftLeft_add, ← BitVec.shiftLeft_add, ← BitVec.shiftLeft_add]
    simp only [BitVec.xor_assoc]
  have back : ∀ x : BitVec 32, x.toNat < 2 ^ 24 → x <<< 8 >>> 8 = x := by
    intro x hx
    apply BitVec.eq_of_toNat_eq
    rw [BitVec.toNat_ushiftRight, BitVec.toNat_shiftLeft, Nat.shiftLeft_eq, Nat.shiftRight_eq_div_pow, Nat.mod_eq_of_lt (by omega)]
    omega
  have wlt : ∀ b : UInt8, (wide b).toNat < 256 := by
    intro b
    have : b.toBitVec.toNat < 256 := b.toBitVec.isLt
    rw [wide, BitVec.toNat_setWidth, Nat.mod_eq_of_lt (by omega)]; exact this
  have sl : ∀ x : BitVec 32, x.toNat < 2 ^ 16 → (x <<< 8).toNat < 2 ^ 24 := by
    intro x hx
    rw [BitVec.toNat_shiftLeft, Nat.shiftLeft_eq, Nat.mod_eq_of_lt (by omega)]; omega
  have sl' : ∀ x : BitVec 32, x.toNat < 2 ^ 8 → (x <<< 8).toNat < 2 ^ 16 := by
    intro x hx
    rw [BitVec.toNat_shiftLeft, Nat.shiftLeft_eq, Nat.mod_eq_of_lt (by omega)]; omega
  have xl : ∀ (x y : BitVec 32) (n : Nat), x.toNat < 2 ^ n → y.toNat < 2 ^ n → (x ^^^ y).toNat < 2 ^ n := by
    intro x y n hx hy; rw [BitVec.toNat_xor]; exact Nat.xor_lt_two_pow hx hy
  have l3 := wlt b3
  have l2 := wlt b2
  have l1 := wlt b1
  have hx2 : (wide b2 ^^^ (wide b3 <<< 8)).toNat < 2 ^ 16 := xl _ _ 16 (by omega) (sl' _ (by omega))
  have hx1 : (wide b1 ^^^ ((wide b2 ^^^ (wide b3 <<< 8)) <<< 8)).toNat < 2 ^ 24 := xl _ _ 24 (by omega) (sl _ hx2)
  rw [exp, low8 b0 _ (back _ hx1), low8 b1 _ (back _ (by omega)), low8 b2 _ (back _ (by omega)), h.byte]
  rw [bitsOf_cons r b0 [b1, b2, b3], bitsOf_cons r b1 [b2, b3], bitsOf_cons r b2 [b3]]

theorem remainder_four (r : Bool) (p seed : Poly) (b0 b1 b2 b3 : UInt8) : remainder r p seed [b0, b1, b2, b3] = steps p 32 (add seed (bitsOf r [b0, b1, b2, b3])) := rfl

theorem Reads.words (h : Reads r p t0 rd) : ∀ (data : Bytes) (c : BitVec 32), rd (Crc.words t0 c data) = remainder r p (rd c) data := by
  have key : ∀ (n : Nat) (data : Bytes) (c : BitVec 32), data.length ≤ n → rd (Crc.words t0 c data) = remainder r p (rd c) data := by
    intro n
    induction n with
    | zero =>
      intro data c hn
      have : data = [] := List.length_eq_zero_iff.1 (by omega)
      subst this
      rw [Crc.words, h.bytewise]
      intro b0 b1 b2 b3 rest e; cases e
    | succ n ih =>
      intro data c hn
      match data with
      | b0 :: b1 :: b2 :: b3 :: rest =>
        simp only [List.length_cons] at hn
        rw [Crc.words, ih rest _ (by omega), h.four, h.xor, word_bits h, ← remainder_four,
          show b0 :: b1 :: b2 :: b3 :: rest = [b0, b1, b2, b3] ++ rest from rfl, remainder_append]
      | [] => rw [Crc.words, h.bytewise]; intro b0 b1 b2 b3 rest e; cases e
      | [_] => rw [Crc.words, h.bytewise]; intro b0 b1 b2 b3 rest e; cases e
      | [_, _] => rw [Crc.words, h.bytewise]; intro b0 b1 b2 b3 rest e; cases e
      | [_, _, _] => rw [Crc.words, h.bytewise]; intro b0 b1 b2 b3 rest e; cases e
  exact fun data c => key data.length data c (Nat.le_refl _)

theorem Reads.sliced (h : Reads r p t0 rd) (lead : Nat) (seed : BitVec 32) (data : Bytes) : rd (Crc.sliced t0 lead seed data) = remainder r p (rd seed) data := by
  rw [Crc.sliced, h.words, h.bytewise, ← remainder_append, List.take_append_drop]

end Verif.Crc
