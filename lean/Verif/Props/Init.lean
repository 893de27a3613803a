import Verif.Props.Random
import Verif.Spec.Init
/-!
# C65: the weight each initialiser draws
-/

namespace Renplex
open Rng
variable {w : Width}

theorem direction_re (u : ℝ) : (direction u).re = Real.cos (2 * Real.pi * u) := by
  unfold direction; exact Complex.exp_ofReal_mul_I_re _

theorem direction_im (u : ℝ) : (direction u).im = Real.sin (2 * Real.pi * u) := by
  unfold direction; exact Complex.exp_ofReal_mul_I_im _

theorem direction_norm (u : ℝ) : ‖direction u‖ = 1 := by
  unfold direction; exact Complex.norm_exp_ofReal_mul_I _

theorem polar_toC (r u : ℝ) :
    (Gen.polar r (Gen.angle u) : Cf w ℝ).toC = (r : ℂ) * direction u := by
  have e : Gen.angle u = 2 * Real.pi * u := by
    simp only [Gen.angle, smul', stwo, spi]; ring
  apply Complex.ext
  · simp [Gen.polar, e, direction_re, direction_im]
  · simp [Gen.polar, e, direction_re, direction_im]

/-- C65. Every method returns exactly the weight it stands for, computed from the next draws of the
generator: `initValue` of the first, second and third draw. Exact arithmetic. -/
theorem C65_value (method : InitMethod) (seed : Nat) (h : 1103515245 * seed + 12345 < 2 ^ 128) :
    ∃ (z : Cf w ℝ) (s : Nat), GenOps.gen method seed = some (z, s)
      ∧ z.toC = initValue w method (draw seed 0) (draw seed 1) (draw seed 2) := by
  have h2 := fits_of_lt (lcgNext_lt seed)
  have h3 := fits_of_lt (lcgNext_lt (lcgNext seed))
  have d0 : draw seed 0 = (lcgNext seed : ℝ) / 2 ^ 31 := rfl
  have d1 : draw seed 1 = (lcgNext (lcgNext seed) : ℝ) / 2 ^ 31 := rfl
  have d2 : draw seed 2 = (lcgNext (lcgNext (lcgNext seed)) : ℝ) / 2 ^ 31 := rfl
  have normal : ∀ n : Nat, ∃ (z : Cf w ℝ) (s : Nat), Gen.genNormal seed n = some (z, s)
      ∧ z.toC = boxMuller (Real.sqrt (2 / n)) (draw seed 0) (draw seed 1)
          * direction (draw seed 2) := by
    intro n
    unfold Gen.genNormal
    rw [lcgf_real seed h]
    simp only [Option.bind_eq_bind, Option.bind_some]
    rw [lcgf_real _ h2]
    simp only [Option.bind_some]
    rw [lcgf_real _ h3]
    refine ⟨_, _, rfl, ?_⟩
    rw [polar_toC, ← d2]
    congr 2
    simp only [boxMuller, smul', ssqrt, slit, sln, scos, sdiv, stwo, sofNat, ← d0, ← d1, Gen.angle,
      spi]
    push_cast
    rw [show (2 : ℝ) * draw seed 1 * Real.pi = 2 * Real.pi * draw seed 1 by ring]
    norm_num
    ring
  have scaled : ∀ ρ : ℝ, ∃ (z : Cf w ℝ) (s : Nat), Gen.genScaled seed ρ = some (z, s)
      ∧ z.toC = uniformModulus w ρ (draw seed 0) * direction (draw seed 1) := by
    intro ρ
    unfold Gen.genScaled
    rw [lcgf_real seed h]
    simp only [Option.bind_eq_bind, Option.bind_some]
    rw [lcgf_real _ h2]
    refine ⟨_, _, rfl, ?_⟩
    rw [polar_toC, ← d1]
    congr 2
    cases w <;> simp only [uniformModulus, smul', ssub, stwo, ← d0] <;> ring
  cases method with
  | uniform scale =>
    simp only [GenOps.gen, Gen.gen]
    rw [lcgf_real seed h]
    simp only [Option.bind_eq_bind, Option.bind_some]
    rw [lcgf_real _ h2]
    refine ⟨_, _, rfl, ?_⟩
    rw [polar_toC, ← d1]
    simp only [initValue]
    congr 2
    cases w <;> simp only [uniformModulus, smul', ssub, stwo, sofNat, ← d0] <;> ring
  | xavierGlorotU n =>
    have := scaled (Real.sqrt (6 / n))
    simpa [GenOps.gen, Gen.genXagu, initValue] using this
  | xavierGlorotN n => exact normal n
  | xavier n =>
    have := scaled (Real.sqrt (12 / n))
    have e : (n : ℝ)⁻¹ * 12 = 12 / n := by ring
    simpa [GenOps.gen, Gen.genXa, initValue, e] using this
  | heInit n => exact normal n

/-- C65. The normal methods are bounded after all: unless the first draw is 0 (where the logarithm
is infinite in floating point), the modulus is at most `√(2/n)·√(62·ln 2)`, about 6.56 standard
deviations. -/
theorem C65_normal_bound (n seed : Nat) (h : 1103515245 * seed + 12345 < 2 ^ 128)
    (h0 : lcgNext seed ≠ 0) :
    ∃ (z : Cf w ℝ) (s : Nat), GenOps.gen (.heInit n) seed = some (z, s)
      ∧ ‖z.toC‖ ≤ Real.sqrt (2 / n) * Real.sqrt (62 * Real.log 2) := by
  obtain ⟨z, s, h1, h2⟩ := C65_value (w := w) (.heInit n) seed h
  refine ⟨z, s, h1, ?_⟩
  have d0 : draw seed 0 = (lcgNext seed : ℝ) / 2 ^ 31 := rfl
  have hlog : -2 * Real.log (draw seed 0) ≤ 62 * Real.log 2 := by
    rw [d0, Real.log_div (by exact_mod_cast h0) (by positivity), Real.log_pow]
    have : 0 ≤ Real.log (lcgNext seed : ℝ) :=
      Real.log_nonneg (by exact_mod_cast Nat.one_le_iff_ne_zero.mpr h0)
    push_cast
    linarith
  rw [h2]
  simp only [initValue, norm_mul, direction_norm, mul_one, Complex.norm_real, boxMuller,
    Real.norm_eq_abs, abs_mul]
  rw [abs_of_nonneg (Real.sqrt_nonneg _), abs_of_nonneg (Real.sqrt_nonneg _)]
  refine mul_le_mul_of_nonneg_left ?_ (Real.sqrt_nonneg _)
  calc Real.sqrt (-2 * Real.log (draw seed 0)) * |Real.cos (2 * Real.pi * draw seed 1)|
      ≤ Real.sqrt (-2 * Real.log (draw seed 0)) * 1 :=
        mul_le_mul_of_nonneg_left (Real.abs_cos_le_one _) (Real.sqrt_nonneg _)
    _ ≤ Real.sqrt (62 * Real.log 2) := by rw [mul_one]; exact Real.sqrt_le_sqrt hlog

/-- C65: the excluded draw exists. From this seed the first draw is exactly 0, and `(0.0).ln()` in
`gen_he` and `gen_xagn` is minus infinity. -/
theorem C65_zero_draw : lcgNext 1871412062 = 0 ∧ draw 1871412062 0 = 0 := by
  have : lcgNext 1871412062 = 0 := by decide
  exact ⟨this, by simp [draw, this]⟩

/-- The seed of the examples satisfies the hypotheses. -/
example : 1103515245 * 224783561 + 12345 < 2 ^ 128 ∧ lcgNext 224783561 ≠ 0 := by
  constructor <;> decide

end Renplex
