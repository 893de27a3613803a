import Verif.Spec.Exact
/-!
# Simplification lemmas for exact arithmetic
-/

namespace Renplex
variable {w : Width}

section scalar
@[simp] theorem sadd (a b : ℝ) : Scalar.add a b = a + b := rfl
@[simp] theorem ssub (a b : ℝ) : Scalar.sub a b = a - b := rfl
@[simp] theorem smul' (a b : ℝ) : Scalar.mul a b = a * b := rfl
@[simp] theorem sdiv (a b : ℝ) : Scalar.div a b = a / b := rfl
@[simp] theorem sneg (a : ℝ) : Scalar.neg a = -a := rfl
@[simp] theorem slit (n : Int) (d : Nat) : (Scalar.lit n d : ℝ) = n / d := rfl
@[simp] theorem sofNat (n : Nat) : (Scalar.ofNat n : ℝ) = n := rfl
@[simp] theorem ssq (a : ℝ) : Scalar.sq a = a ^ 2 := rfl
@[simp] theorem ssqrt (a : ℝ) : Scalar.sqrt a = Real.sqrt a := rfl
@[simp] theorem sexp (a : ℝ) : Scalar.exp a = Real.exp a := rfl
@[simp] theorem sln (a : ℝ) : Scalar.ln a = Real.log a := rfl
@[simp] theorem scos (a : ℝ) : Scalar.cos a = Real.cos a := rfl
@[simp] theorem ssin (a : ℝ) : Scalar.sin a = Real.sin a := rfl
@[simp] theorem stanh (a : ℝ) : Scalar.tanh a = Real.tanh a := rfl
@[simp] theorem scosh (a : ℝ) : Scalar.cosh a = Real.cosh a := rfl
@[simp] theorem satan (a : ℝ) : Scalar.atan a = Real.arctan a := rfl
@[simp] theorem satan2 (y x : ℝ) : Scalar.atan2 y x = Complex.arg ⟨x, y⟩ := rfl
@[simp] theorem spi : (Scalar.pi : ℝ) = Real.pi := rfl
@[simp] theorem slt (a b : ℝ) : (Scalar.lt a b = true) ↔ a < b := by
  simp [Scalar.lt]
@[simp] theorem sle (a b : ℝ) : (Scalar.le a b = true) ↔ a ≤ b := by
  simp [Scalar.le]
@[simp] theorem sbeq (a b : ℝ) : (Scalar.beq a b = true) ↔ a = b := by
  simp [Scalar.beq]
@[simp] theorem ssignNeg (a : ℝ) : (Scalar.signNeg a = true) ↔ a < 0 := by
  simp [Scalar.signNeg]
@[simp] theorem szero : (Scalar.zero : ℝ) = 0 := by simp [Scalar.zero]
@[simp] theorem sone : (Scalar.one : ℝ) = 1 := by simp [Scalar.one]
@[simp] theorem stwo : (Scalar.two : ℝ) = 2 := by simp [Scalar.two]
end scalar

instance : LawfulOps ℝ where
  zero_eq := szero
  add_eq _ _ := rfl
  sub_eq _ _ := rfl
  mul_eq _ _ := rfl
  addAssign_eq _ _ := rfl
  subAssign_eq _ _ := rfl

namespace Cf

@[ext] theorem ext {R : Type} {a b : Cf w R} (h1 : a.x = b.x) (h2 : a.y = b.y) : a = b := by
  cases a; cases b; simp_all

@[simp] theorem toC_re (z : Cf w ℝ) : z.toC.re = z.x := rfl
@[simp] theorem toC_im (z : Cf w ℝ) : z.toC.im = z.y := rfl
@[simp] theorem ofC_x (z : ℂ) : (ofC z : Cf w ℝ).x = z.re := rfl
@[simp] theorem ofC_y (z : ℂ) : (ofC z : Cf w ℝ).y = z.im := rfl
@[simp] theorem toC_ofC (z : ℂ) : (ofC z : Cf w ℝ).toC = z := rfl
@[simp] theorem ofC_toC (z : Cf w ℝ) : ofC z.toC = z := rfl

theorem toC_inj {a b : Cf w ℝ} : a.toC = b.toC ↔ a = b :=
  ⟨fun h => by rw [← ofC_toC a, h, ofC_toC], fun h => by rw [h]⟩

@[simp] theorem toC_default : (default : Cf w ℝ).toC = 0 := by
  apply Complex.ext <;> simp [default]
@[simp] theorem toC_unit : (unit : Cf w ℝ).toC = 1 := by
  apply Complex.ext <;> simp [unit]
@[simp] theorem toC_iunit : (iunit : Cf w ℝ).toC = Complex.I := by
  apply Complex.ext <;> simp [iunit]
@[simp] theorem toC_ofUsize (n : Nat) : (ofUsize n : Cf w ℝ).toC = n := by
  apply Complex.ext <;> simp [ofUsize]
@[simp] theorem toC_add (a b : Cf w ℝ) : (a.add b).toC = a.toC + b.toC := by
  apply Complex.ext <;> simp [add]
@[simp] theorem toC_sub (a b : Cf w ℝ) : (a.sub b).toC = a.toC - b.toC := by
  apply Complex.ext <;> simp [sub]
@[simp] theorem toC_mul (a b : Cf w ℝ) : (a.mul b).toC = a.toC * b.toC := by
  apply Complex.ext <;> simp [mul]
@[simp] theorem toC_addAssign (a b : Cf w ℝ) : (a.addAssign b).toC = a.toC + b.toC := by
  apply Complex.ext <;> simp [addAssign]
@[simp] theorem toC_subAssign (a b : Cf w ℝ) : (a.subAssign b).toC = a.toC - b.toC := by
  apply Complex.ext <;> simp [subAssign]
@[simp] theorem toC_conj (a : Cf w ℝ) : a.conj.toC = starRingEnd ℂ a.toC := by
  apply Complex.ext <;> simp [conj]

theorem normSq_eq (a : Cf w ℝ) : a.normSq = Complex.normSq a.toC := by
  simp [normSq, Complex.normSq_apply]; ring
theorem norm_eq (a : Cf w ℝ) : a.norm = ‖a.toC‖ := by
  simp only [norm, ssqrt, sadd, ssq, Complex.norm_def, Complex.normSq_apply, toC_re, toC_im]
  congr 1; ring
theorem den_eq (a : Cf w ℝ) : a.den = Complex.normSq a.toC := by
  simp [den, Complex.normSq_apply]; ring

/-- The correspondence with `ℂ`. -/
def equivC : Cf w ℝ ≃ ℂ := ⟨toC, ofC, fun _ => rfl, fun _ => rfl⟩

end Cf

noncomputable instance : Field (Cf w ℝ) := Cf.equivC.field

namespace Cf
theorem toC_hom_add (a b : Cf w ℝ) : (a + b).toC = a.toC + b.toC := rfl
theorem toC_hom_mul (a b : Cf w ℝ) : (a * b).toC = a.toC * b.toC := rfl
theorem toC_hom_sub (a b : Cf w ℝ) : (a - b).toC = a.toC - b.toC := rfl
theorem toC_hom_zero : (0 : Cf w ℝ).toC = 0 := rfl
theorem toC_hom_one : (1 : Cf w ℝ).toC = 1 := rfl
theorem toC_hom_neg (a : Cf w ℝ) : (-a).toC = -a.toC := rfl

/-- `toC` as a ring homomorphism. -/
def toCHom : Cf w ℝ →+* ℂ where
  toFun := toC
  map_one' := rfl
  map_mul' _ _ := rfl
  map_zero' := rfl
  map_add' _ _ := rfl

@[simp] theorem toCHom_apply (z : Cf w ℝ) : toCHom z = z.toC := rfl
end Cf

instance : LawfulOps (Cf w ℝ) where
  zero_eq := Cf.toC_inj.mp (by rw [Cf.toC_hom_zero]; exact Cf.toC_default)
  add_eq a b := Cf.toC_inj.mp (Cf.toC_add a b)
  sub_eq a b := Cf.toC_inj.mp (Cf.toC_sub a b)
  mul_eq a b := Cf.toC_inj.mp (Cf.toC_mul a b)
  addAssign_eq a b := Cf.toC_inj.mp (Cf.toC_addAssign a b)
  subAssign_eq a b := Cf.toC_inj.mp (Cf.toC_subAssign a b)

end Renplex
