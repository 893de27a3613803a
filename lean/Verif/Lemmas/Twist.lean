import Verif.Spec.ComplexRun
import Mathlib.Analysis.SpecificLimits.Basic
/-!
# The step with a complex learning rate as a real-linear map
-/

namespace Renplex
open ComplexConjugate

/-- What a training call with the learning rate `a + b·i` subtracts from a parameter, for the summed
conjugate derivative `z`. -/
noncomputable def bump (a b : ℝ) (z : ℂ) : ℂ :=
  ⟨a * z.re + b * z.im, -(a * b * z.re) + (a - b ^ 2) * z.im⟩

noncomputable def bumpA (a b : ℝ) : ℂ := ⟨(2 * a - b ^ 2) / 2, -(b * (1 + a)) / 2⟩
noncomputable def bumpB (a b : ℝ) : ℂ := ⟨b ^ 2 / 2, b * (1 - a) / 2⟩

theorem bump_eq (a b : ℝ) (z : ℂ) : bump a b z = bumpA a b * z + bumpB a b * conj z := by
  apply Complex.ext
  · simp [bump, bumpA, bumpB]
    ring
  · simp [bump, bumpA, bumpB]
    ring

/-- The deviation after a training call, for an input of size `c` and square `s`. -/
noncomputable def twistNext (c : ℝ) (s : ℂ) (a b : ℝ) (v : ℂ) : ℂ :=
  v - (c * bumpA a b * v + s * bumpB a b * conj v)

theorem twist_next (c : ℝ) (s : ℂ) (a b : ℝ) (v : ℂ) :
    twist c s a b (twistNext c s a b v) = twistFactor c s a b * twist c s a b v := by
  obtain ⟨p, q⟩ := s
  obtain ⟨x, y⟩ := v
  unfold twist twistFactor
  simp only [← Complex.normSq_eq_norm_sq, Complex.normSq_apply]
  simp [twistNext, bumpA, bumpB, pow_two]
  ring

variable {c : ℝ} {s : ℂ} {a b : ℝ}

theorem twist_low (v : ℂ) :
    (c * (1 + a) - ‖s * (⟨b, 1 - a⟩ : ℂ)‖) * ‖v‖ ^ 2 ≤ twist c s a b v := by
  have h := (Complex.abs_im_le_norm (s * (⟨b, 1 - a⟩ : ℂ) * conj v ^ 2))
  rw [norm_mul, norm_pow, Complex.norm_conj] at h
  have := (abs_le.mp h).2
  unfold twist
  linarith

theorem twist_high (v : ℂ) :
    |twist c s a b v| ≤ (|c * (1 + a)| + ‖s * (⟨b, 1 - a⟩ : ℂ)‖) * ‖v‖ ^ 2 := by
  have h := (Complex.abs_im_le_norm (s * (⟨b, 1 - a⟩ : ℂ) * conj v ^ 2))
  rw [norm_mul, norm_pow, Complex.norm_conj] at h
  unfold twist
  refine (abs_sub _ _).trans ?_
  rw [abs_mul, abs_of_nonneg (sq_nonneg ‖v‖)]
  linarith

theorem normSq_pair (b t : ℝ) : ‖(⟨b, t⟩ : ℂ)‖ ^ 2 = b ^ 2 + t ^ 2 := by
  rw [← Complex.normSq_eq_norm_sq, Complex.normSq_apply]
  ring

/-- The intended range lies in the range in which the deviations vanish. -/
theorem twist_wider (hc : 1 ≤ c) (hs : ‖s‖ ≤ c) (hs' : 2 - c ≤ ‖s‖) (h : c * (a ^ 2 + b ^ 2) < 2 * a) :
    ‖s * (⟨b, 1 - a⟩ : ℂ)‖ < c * (1 + a) ∧ twistFactor c s a b < 1 := by
  have ha : 0 < a := by nlinarith [sq_nonneg a, sq_nonneg b]
  have h1 : b ^ 2 + (1 - a) ^ 2 < 1 := by nlinarith [sq_nonneg a, sq_nonneg b]
  have h2 : ‖(⟨b, 1 - a⟩ : ℂ)‖ < 1 := by
    have := normSq_pair b (1 - a)
    nlinarith [norm_nonneg (⟨b, 1 - a⟩ : ℂ)]
  constructor
  · rw [norm_mul]
    have : ‖s‖ * ‖(⟨b, 1 - a⟩ : ℂ)‖ ≤ c * 1 := by
      gcongr
    nlinarith
  · unfold twistFactor
    have hD : 0 ≤ c ^ 2 - ‖s‖ ^ 2 := by nlinarith [norm_nonneg s]
    have hE : (c ^ 2 - ‖s‖ ^ 2) ≤ 4 * (c * (c - 1)) := by
      have : c ^ 2 - ‖s‖ ^ 2 ≤ c ^ 2 := by nlinarith [norm_nonneg s]
      by_cases h4 : 2 ≤ c
      · nlinarith
      · have : (2 - c) ^ 2 ≤ ‖s‖ ^ 2 := by
          have : 0 ≤ 2 - c := by linarith
          gcongr
        nlinarith
    have hF : (c ^ 2 - ‖s‖ ^ 2) * (b ^ 2 * (b ^ 2 + (1 - a) ^ 2)) ≤ 4 * (c * (c - 1)) * (b ^ 2 * 1) := by
      gcongr
    nlinarith

/-- Real inputs: the exact range. -/
theorem twist_real (hc : 1 ≤ c) (hs : s = c) :
    (‖s * (⟨b, 1 - a⟩ : ℂ)‖ < c * (1 + a) ∧ twistFactor c s a b < 1) ↔ c * a ^ 2 < 2 * a - b ^ 2 := by
  have hc0 : 0 < c := by linarith
  have hn : ‖s‖ = c := by rw [hs, Complex.norm_real, Real.norm_eq_abs, abs_of_pos hc0]
  have hf : twistFactor c s a b = 1 - c * ((2 * a - b ^ 2) - c * a ^ 2) := by
    unfold twistFactor
    rw [hn]
    ring
  rw [hf, norm_mul, hn]
  constructor
  · rintro ⟨-, h⟩
    nlinarith
  · intro h
    refine ⟨?_, by nlinarith⟩
    have ha : 0 < a := by nlinarith [sq_nonneg a, sq_nonneg b]
    refine mul_lt_mul_of_pos_left ?_ hc0
    refine lt_of_pow_lt_pow_left₀ 2 (by linarith) ?_
    rw [normSq_pair]
    nlinarith

end Renplex
