import Verif.Compress.AesSpec
/-
The tables against the arithmetic of the standard.
-/
namespace Verif.Aes
open Verif

/-! ### Adding -/

theorem W.ext' {x y : W} (h3 : x.b3 = y.b3) (h2 : x.b2 = y.b2) (h1 : x.b1 = y.b1) (h0 : x.b0 = y.b0) : x = y := by
  cases x; cases y; simp only at h3 h2 h1 h0; subst h3 h2 h1 h0; rfl

@[simp] theorem add_b3 (x y : W) : (x + y).b3 = x.b3 ^^^ y.b3 := rfl
@[simp] theorem add_b2 (x y : W) : (x + y).b2 = x.b2 ^^^ y.b2 := rfl
@[simp] theorem add_b1 (x y : W) : (x + y).b1 = x.b1 ^^^ y.b1 := rfl
@[simp] theorem add_b0 (x y : W) : (x + y).b0 = x.b0 ^^^ y.b0 := rfl

def zero : W := ⟨0, 0, 0, 0⟩

theorem add_comm (x y : W) : x + y = y + x := by
  apply W.ext' <;> simp only [add_b3, add_b2, add_b1, add_b0] <;> exact UInt8.xor_comm _ _

theorem add_assoc (x y z : W) : x + y + z = x + (y + z) := by
  apply W.ext' <;> simp only [add_b3, add_b2, add_b1, add_b0] <;> exact UInt8.xor_assoc _ _ _

theorem add_self (x : W) : x + x = zero := by
  apply W.ext' <;> simp [zero]

theorem add_zero (x : W) : x + zero = x := by
  apply W.ext' <;> simp [zero]

theorem add_cancel (x y : W) : x + y + y = x := by
  rw [add_assoc, add_self, add_zero]

instance : Std.Associative (α := W) (· + ·) := ⟨add_assoc⟩
instance : Std.Commutative (α := W) (· + ·) := ⟨add_comm⟩
instance : Std.Associative (α := UInt8) (· ^^^ ·) := ⟨UInt8.xor_assoc⟩
instance : Std.Commutative (α := UInt8) (· ^^^ ·) := ⟨UInt8.xor_comm⟩

theorem Block.ext' {x y : Block} (h0 : x.w0 = y.w0) (h1 : x.w1 = y.w1) (h2 : x.w2 = y.w2) (h3 : x.w3 = y.w3) : x = y := by
  cases x; cases y; simp only at h3 h2 h1 h0; subst h3 h2 h1 h0; rfl

@[simp] theorem badd_w0 (x y : Block) : (x + y).w0 = x.w0 + y.w0 := rfl
@[simp] theorem badd_w1 (x y : Block) : (x + y).w1 = x.w1 + y.w1 := rfl
@[simp] theorem badd_w2 (x y : Block) : (x + y).w2 = x.w2 + y.w2 := rfl
@[simp] theorem badd_w3 (x y : Block) : (x + y).w3 = x.w3 + y.w3 := rfl

theorem badd_cancel (x y : Block) : x + y + y = x := by
  apply Block.ext' <;> simp only [badd_w0, badd_w1, badd_w2, badd_w3, add_cancel]

theorem of_bytes (x : Block) : Block.of x.bytes = x := by
  obtain ⟨⟨_, _, _, _⟩, ⟨_, _, _, _⟩, ⟨_, _, _, _⟩, ⟨_, _, _, _⟩⟩ := x
  rfl

theorem bytes_of {b : Bytes} (h : b.length = 16) : (Block.of b).bytes = b := by
  match b, h with
  | [a0, a1, a2, a3, a4, a5, a6, a7, a8, a9, a10, a11, a12, a13, a14, a15], _ => rfl

theorem bytes_length (x : Block) : x.bytes.length = 16 := rfl

/-! ### The tables -/

theorem forall_byte {P : UInt8 → Prop} (h : ∀ n, n < 256 → P (UInt8.ofNat n)) (x : UInt8) : P x := by
  have := h x.toNat x.toNat_lt
  rwa [UInt8.ofNat_toNat] at this

/-- Elements of tables by comparing whole tables. -/
theorem look_of {t u : List Nat} {g : W → W} (h : t.map W.ofNat = u.map (fun n => g (W.ofNat n))) (hu : u.length = 256) (x : UInt8) : look t x = g (look u x) := by
  have hl := congrArg List.length h
  rw [List.length_map, List.length_map] at hl
  have hx := x.toNat_lt
  have h1 := congrArg (fun l => l[x.toNat]?) h
  simp only [List.getElem?_map] at h1
  unfold look
  rw [List.getD_eq_getElem?_getD, List.getD_eq_getElem?_getD]
  rw [List.getElem?_eq_getElem (show x.toNat < t.length by omega), List.getElem?_eq_getElem (show x.toNat < u.length by omega)] at h1 ⊢
  simpa using h1

theorem te4_spec : ∀ x, look te4Table x = ⟨Fips.sbox x, Fips.sbox x, Fips.sbox x, Fips.sbox x⟩ := forall_byte (by decide +kernel)

/-- The parts of `MixColumns` of one byte. -/
def mix0 (x : UInt8) : W := ⟨Fips.mul 2 x, x, x, Fips.mul 3 x⟩
def mix1 (x : UInt8) : W := ⟨Fips.mul 3 x, Fips.mul 2 x, x, x⟩
def mix2 (x : UInt8) : W := ⟨x, Fips.mul 3 x, Fips.mul 2 x, x⟩
def mix3 (x : UInt8) : W := ⟨x, x, Fips.mul 3 x, Fips.mul 2 x⟩

theorem te0_spec (x : UInt8) : look te0Table x = mix0 (look te4Table x).b0 := look_of (g := fun w => mix0 w.b0) (by decide +kernel) (by decide +kernel) x
theorem te1_spec (x : UInt8) : look te1Table x = mix1 (look te4Table x).b0 := look_of (g := fun w => mix1 w.b0) (by decide +kernel) (by decide +kernel) x
theorem te2_spec (x : UInt8) : look te2Table x = mix2 (look te4Table x).b0 := look_of (g := fun w => mix2 w.b0) (by decide +kernel) (by decide +kernel) x
theorem te3_spec (x : UInt8) : look te3Table x = mix3 (look te4Table x).b0 := look_of (g := fun w => mix3 w.b0) (by decide +kernel) (by decide +kernel) x

/-- The parts of the inverse of `MixColumns`. -/
def un0 (x : UInt8) : W := ⟨Fips.mul 14 x, Fips.mul 9 x, Fips.mul 13 x, Fips.mul 11 x⟩
def un1 (x : UInt8) : W := ⟨Fips.mul 11 x, Fips.mul 14 x, Fips.mul 9 x, Fips.mul 13 x⟩
def un2 (x : UInt8) : W := ⟨Fips.mul 13 x, Fips.mul 11 x, Fips.mul 14 x, Fips.mul 9 x⟩
def un3 (x : UInt8) : W := ⟨Fips.mul 9 x, Fips.mul 13 x, Fips.mul 11 x, Fips.mul 14 x⟩

/-- The S-box and its inverse as the code has them. -/
def S (x : UInt8) : UInt8 := (look te4Table x).b0
def R (x : UInt8) : UInt8 := (look td4Table x).b0

theorem te4_all (x : UInt8) : look te4Table x = ⟨S x, S x, S x, S x⟩ := look_of (g := fun w => ⟨w.b0, w.b0, w.b0, w.b0⟩) (by decide +kernel) (by decide +kernel) x
theorem td4_all (x : UInt8) : look td4Table x = ⟨R x, R x, R x, R x⟩ := look_of (g := fun w => ⟨w.b0, w.b0, w.b0, w.b0⟩) (by decide +kernel) (by decide +kernel) x
theorem R_S : ∀ x, R (S x) = x := forall_byte (by decide +kernel)
theorem td0_spec (x : UInt8) : look td0Table x = un0 (R x) := look_of (g := fun w => un0 w.b0) (by decide +kernel) (by decide +kernel) x
theorem td1_spec (x : UInt8) : look td1Table x = un1 (R x) := look_of (g := fun w => un1 w.b0) (by decide +kernel) (by decide +kernel) x
theorem td2_spec (x : UInt8) : look td2Table x = un2 (R x) := look_of (g := fun w => un2 w.b0) (by decide +kernel) (by decide +kernel) x
theorem td3_spec (x : UInt8) : look td3Table x = un3 (R x) := look_of (g := fun w => un3 w.b0) (by decide +kernel) (by decide +kernel) x

/-- The inverse of `MixColumns` for one column. -/
def U (w : W) : W := un0 w.b3 + un1 w.b2 + un2 w.b1 + un3 w.b0

theorem U_mix0 : ∀ x, U (mix0 x) = ⟨x, 0, 0, 0⟩ := forall_byte (by decide +kernel)
theorem U_mix1 : ∀ x, U (mix1 x) = ⟨0, x, 0, 0⟩ := forall_byte (by decide +kernel)
theorem U_mix2 : ∀ x, U (mix2 x) = ⟨0, 0, x, 0⟩ := forall_byte (by decide +kernel)
theorem U_mix3 : ∀ x, U (mix3 x) = ⟨0, 0, 0, x⟩ := forall_byte (by decide +kernel)

end Verif.Aes
