import Verif.Spec.Cardioid
import Verif.Props.ActExact
import Verif.Props.Complex
import Verif.Props.IeeeAct
/-!
# What the activation Cardioid computes
-/

namespace Renplex
variable {w : Width}

theorem card_phase (z : Cf w ℝ) :
    Act.activate .cardioid z = some ⟨2 * (1 + Real.cos z.phase) * Real.cos z.phase,
      2 * (1 + Real.cos z.phase) * Real.sin z.phase⟩ := by
  simp only [Act.activate, Act.card, smul', sadd, sone, stwo, scos, ssin]

theorem cos_arg_mul (ζ : ℂ) : (Real.cos ζ.arg : ℝ) * ‖ζ‖ = ζ.re := by
  rw [mul_comm]; exact Complex.norm_mul_cos_arg ζ

/-- C108. The value depends on the phase alone: it is the point of the curve `r = 2(1 + cos φ)` in the
direction of the phase. Its modulus is at most 4. -/
theorem C108_curve (z : Cf w ℝ) :
    ∃ y : Cf w ℝ, Act.activate .cardioid z = some y
      ∧ y = Cf.newe (2 * (1 + Real.cos z.phase)) z.phase
      ∧ y.norm = 2 * (1 + Real.cos z.phase) ∧ 0 ≤ y.norm ∧ y.norm ≤ 4 := by
  have h1 := Real.neg_one_le_cos z.phase
  have h2 := Real.cos_le_one z.phase
  have hn : (⟨2 * (1 + Real.cos z.phase) * Real.cos z.phase,
      2 * (1 + Real.cos z.phase) * Real.sin z.phase⟩ : Cf w ℝ).norm = 2 * (1 + Real.cos z.phase) := by
    simp only [Cf.norm, ssqrt, sadd, ssq]
    rw [show (2 * (1 + Real.cos z.phase) * Real.cos z.phase) ^ 2
        + (2 * (1 + Real.cos z.phase) * Real.sin z.phase) ^ 2 = (2 * (1 + Real.cos z.phase)) ^ 2 by
      have := Real.sin_sq_add_cos_sq z.phase
      linear_combination (2 * (1 + Real.cos z.phase)) ^ 2 * this]
    exact Real.sqrt_sq (by linarith)
  refine ⟨_, card_phase z, ?_, hn, ?_, ?_⟩
  · simp only [Cf.newe, smul', scos, ssin]
  · rw [hn]; linarith
  · rw [hn]; linarith

/-- C108. Scaling the argument by a positive number changes nothing. -/
theorem C108_scale (z : Cf w ℝ) {t : ℝ} (ht : 0 < t) :
    Act.activate .cardioid (⟨t * z.x, t * z.y⟩ : Cf w ℝ) = Act.activate .cardioid z := by
  have : Cf.phase (⟨t * z.x, t * z.y⟩ : Cf w ℝ) = z.phase := by
    cases w with
    | w32 =>
      have e : ∀ z : Cf .w32 ℝ, z.phase = Complex.arg z.toC := fun _ => rfl
      rw [e, e]
      have : (⟨t * z.x, t * z.y⟩ : Cf .w32 ℝ).toC = (t : ℂ) * z.toC := by
        apply Complex.ext <;> simp [Cf.toC]
      rw [this, Complex.arg_real_mul _ ht]
    | w64 =>
      simp only [Cf.phase, satan, sdiv]
      rw [mul_div_mul_left _ _ ht.ne']
  rw [card_phase, card_phase, this]

/-- C108. The phase is kept: by `Cf32` everywhere off the negative real axis, where the value is zero. -/
theorem C108_phase_partial (z : Cf .w32 ℝ) :
    ∃ y : Cf .w32 ℝ, Act.activate .cardioid z = some y
      ∧ (z.toC.arg ≠ Real.pi → y.toC.arg = z.toC.arg) ∧ (z.toC.arg = Real.pi → y = ⟨0, 0⟩) := by
  refine ⟨_, card_phase z, ?_, ?_⟩
  · intro h
    have e : z.phase = Complex.arg z.toC := rfl
    have hpos : 0 < 2 * (1 + Real.cos z.phase) := by
      have h1 := Real.neg_one_le_cos z.phase
      rcases lt_or_eq_of_le h1 with h2 | h2
      · linarith
      · exfalso
        have hm := Complex.arg_mem_Ioc z.toC
        rw [← e] at h hm
        have h3 : |z.phase| < Real.pi := by
          rw [abs_lt]; exact ⟨hm.1, lt_of_le_of_ne hm.2 h⟩
        have : Real.cos Real.pi < Real.cos |z.phase| :=
          Real.cos_lt_cos_of_nonneg_of_le_pi (abs_nonneg _) le_rfl h3
        rw [Real.cos_pi, Real.cos_abs] at this
        linarith
    have : (⟨2 * (1 + Real.cos z.phase) * Real.cos z.phase,
        2 * (1 + Real.cos z.phase) * Real.sin z.phase⟩ : Cf .w32 ℝ).toC
        = ((2 * (1 + Real.cos z.phase) : ℝ) : ℂ) * (Complex.cos (z.phase : ℝ) + Complex.sin (z.phase : ℝ) * Complex.I) := by
      rw [← Complex.ofReal_cos, ← Complex.ofReal_sin]
      apply Complex.ext
      · rw [Complex.re_ofReal_mul]
        simp only [Complex.add_re, Complex.ofReal_re, Complex.mul_re, Complex.I_re, Complex.ofReal_im,
          Complex.I_im, Cf.toC]
        ring
      · rw [Complex.im_ofReal_mul]
        simp only [Complex.add_im, Complex.ofReal_re, Complex.mul_im, Complex.I_re, Complex.ofReal_im,
          Complex.I_im, Cf.toC]
        ring
    rw [this, Complex.arg_mul_cos_add_sin_mul_I hpos (by rw [e]; exact Complex.arg_mem_Ioc _), e]
  · intro h
    have e : z.phase = Real.pi := h
    simp [e]

theorem ref_parts (ζ : ℂ) :
    (cardioidRef ζ).re = (1 + Real.cos ζ.arg) / 2 * (‖ζ‖ * Real.cos ζ.arg)
      ∧ (cardioidRef ζ).im = (1 + Real.cos ζ.arg) / 2 * (‖ζ‖ * Real.sin ζ.arg) := by
  unfold cardioidRef
  rw [Complex.re_ofReal_mul, Complex.im_ofReal_mul, Complex.norm_mul_cos_arg, Complex.norm_mul_sin_arg]
  exact ⟨rfl, rfl⟩

theorem card_ref_iff {z : Cf w ℝ} (h : z.phase = z.toC.arg) :
    Act.activate .cardioid z = some (Cf.ofC (cardioidRef z.toC))
      ↔ z.norm = 4 ∨ Real.cos z.toC.arg = -1 := by
  obtain ⟨h1, h2⟩ := ref_parts z.toC
  have e : (Cf.ofC (cardioidRef z.toC) : Cf w ℝ) = ⟨(cardioidRef z.toC).re, (cardioidRef z.toC).im⟩ := rfl
  rw [card_phase, Option.some.injEq, e, h1, h2, Cf.mk.injEq, h, Cf.norm_eq]
  have hsc := Real.sin_sq_add_cos_sq z.toC.arg
  generalize Real.cos z.toC.arg = c at *
  generalize Real.sin z.toC.arg = s at *
  constructor
  · rintro ⟨k1, k2⟩
    have : (1 + c) * (4 - ‖z.toC‖) = 0 := by
      linear_combination 2 * c * k1 + 2 * s * k2 - (1 + c) * (4 - ‖z.toC‖) * hsc
    rcases mul_eq_zero.mp this with k | k
    · right; linarith
    · left; linarith
  · rintro (k | k)
    · rw [k]; constructor <;> ring
    · rw [k]; constructor <;> ring

/-- C108 is false of the code: in `Cf32` the value is that of the cardioid exactly at the numbers of
modulus 4, and on the negative real axis, where both are zero. -/
theorem C108_refuted (z : Cf .w32 ℝ) :
    Act.activate .cardioid z = some (Cf.ofC (cardioidRef z.toC))
      ↔ z.norm = 4 ∨ (z.x < 0 ∧ z.y = 0) := by
  rw [card_ref_iff rfl]
  have key : Real.cos z.toC.arg = -1 ↔ (z.x < 0 ∧ z.y = 0) := by
    rw [show (z.x < 0 ∧ z.y = 0) ↔ z.toC.arg = Real.pi from (Complex.arg_eq_pi_iff (z := z.toC)).symm]
    constructor
    · intro h
      by_contra hne
      have hm := Complex.arg_mem_Ioc z.toC
      have h3 : |z.toC.arg| < Real.pi := by
        rw [abs_lt]; exact ⟨hm.1, lt_of_le_of_ne hm.2 hne⟩
      have : Real.cos Real.pi < Real.cos |z.toC.arg| :=
        Real.cos_lt_cos_of_nonneg_of_le_pi (abs_nonneg _) le_rfl h3
      rw [Real.cos_pi, Real.cos_abs] at this
      linarith
    · intro h; rw [h, Real.cos_pi]
  rw [key]

/-- C108 is false of the code: in `Cf64`, off the imaginary axis, the value is that of the cardioid
exactly at the numbers of modulus 4 and positive real part. -/
theorem C108_refuted_f64 (z : Cf .w64 ℝ) (hx : z.x ≠ 0) :
    Act.activate .cardioid z = some (Cf.ofC (cardioidRef z.toC)) ↔ z.norm = 4 ∧ 0 < z.x := by
  rcases lt_or_gt_of_ne hx with hx | hx
  · have hc0 : Real.cos z.toC.arg < 0 := by
      have := Complex.norm_mul_cos_arg z.toC
      have h2 : z.toC.re < 0 := hx
      rw [← this] at h2
      by_contra hcon
      exact absurd (mul_nonneg (norm_nonneg _) (not_lt.mp hcon)) (not_le.mpr h2)
    refine ⟨fun h => absurd h ?_, fun h => absurd h.2 (not_lt.mpr hx.le)⟩
    obtain ⟨h1, -⟩ := ref_parts z.toC
    have e : (Cf.ofC (cardioidRef z.toC) : Cf .w64 ℝ) = ⟨(cardioidRef z.toC).re, (cardioidRef z.toC).im⟩ := rfl
    rw [card_phase, Option.some.injEq, e, h1, Cf.mk.injEq]
    rintro ⟨k, -⟩
    have hp : 0 < Real.cos z.phase := Real.cos_arctan_pos (z.y / z.x)
    have h3 : 0 < 2 * (1 + Real.cos z.phase) * Real.cos z.phase := by positivity
    have h4 : (1 + Real.cos z.toC.arg) / 2 * (‖z.toC‖ * Real.cos z.toC.arg) ≤ 0 := by
      refine mul_nonpos_of_nonneg_of_nonpos ?_ (mul_nonpos_of_nonneg_of_nonpos (norm_nonneg _) hc0.le)
      have := Real.neg_one_le_cos z.toC.arg
      linarith
    linarith
  · have hp : z.phase = z.toC.arg := by
      have := phase_eq_arg z (phaseOk_pos (w := .w64) (show 0 < z.toC.re from hx))
      rwa [phaseSign_pos (show 0 < z.toC.re from hx), Complex.ofReal_one, one_mul] at this
    rw [card_ref_iff hp]
    have hc : 0 < Real.cos z.toC.arg := by rw [← hp]; exact Real.cos_arctan_pos (z.y / z.x)
    constructor
    · rintro (h | h)
      · exact ⟨h, hx⟩
      · linarith
    · exact fun h => .inl h.1

/-! ## The phase of `Cf64` -/

theorem phase_turned (z : Cf .w64 ℝ) : Cf.phase (⟨-z.x, -z.y⟩ : Cf .w64 ℝ) = z.phase := by
  simp only [Cf.phase, satan, sdiv, neg_div_neg_eq]

/-- C108. In `Cf64` a number and its negative have the same value, and its real part is never
negative. -/
theorem C108_refuted_even (z : Cf .w64 ℝ) :
    Act.activate .cardioid (⟨-z.x, -z.y⟩ : Cf .w64 ℝ) = Act.activate .cardioid z
      ∧ ∀ y, Act.activate .cardioid z = some y → 0 ≤ y.x := by
  constructor
  · rw [card_phase, card_phase, phase_turned]
  · intro y hy
    rw [card_phase] at hy
    cases hy
    have h1 := Real.cos_arctan_pos (z.y / z.x)
    have e : z.phase = Real.arctan (z.y / z.x) := rfl
    rw [← e] at h1
    positivity

theorem Fp.val_neg {B : Binary} (a : Fp B) : a.neg.val = -a.val := by
  cases a with
  | nan => simp [Fp.neg, Fp.val]
  | inf s => simp [Fp.neg, Fp.val]
  | num s m k h => exact (Fp.neg_spec (a := .num s m k h) trivial).2

theorem Fp.neg_div_neg {B : Binary} (a b : Fp B) : a.neg.div b.neg = a.div b := by
  have hv := congrArg₂ (· / ·) (Fp.val_neg a) (Fp.val_neg b)
  simp only [neg_div_neg_eq] at hv
  cases a <;> cases b <;> simp [Fp.neg, Fp.div]
  simp only [Fp.neg] at hv
  simp only [hv]

theorem Fp.neg_mul_neg {B : Binary} (a b : Fp B) : a.neg.mul b.neg = a.mul b := by
  have hv := congrArg₂ (· * ·) (Fp.val_neg a) (Fp.val_neg b)
  rw [_root_.neg_mul_neg] at hv
  cases a <;> cases b <;> simp [Fp.neg, Fp.mul]
  rw [← abs_mul, ← abs_mul]
  exact congrArg (fun t => Fp.ofAbs _ |t|) hv

/-- C108. So it is with the numbers of `f64` themselves, on every platform: a number and its negative
have the same value, bit for bit. -/
theorem C108_refuted_even_f64 {L : Libm binary64} (z : Cf .w64 (Fl L)) :
    Act.activate .cardioid (⟨Scalar.neg z.x, Scalar.neg z.y⟩ : Cf .w64 (Fl L))
      = Act.activate .cardioid z := by
  have : Cf.phase (⟨Scalar.neg z.x, Scalar.neg z.y⟩ : Cf .w64 (Fl L)) = z.phase := by
    change (⟨L.atan (z.y.fp.neg.div z.x.fp.neg)⟩ : Fl L) = ⟨L.atan (z.y.fp.div z.x.fp)⟩
    rw [Fp.neg_div_neg]
  simp only [Act.activate, Act.card, this]

/-- C23. In `f64` a number and its negative have the same modulus and the same phase, bit for bit, so
they come back from polar form as the same number: at least one of them is off by its modulus. This
includes the imaginary axis. -/
theorem C23_refuted_f64 {L : Libm binary64} (z : Cf .w64 (Fl L)) :
    Cf.newe (Cf.norm (⟨Scalar.neg z.x, Scalar.neg z.y⟩ : Cf .w64 (Fl L)))
        (Cf.phase (⟨Scalar.neg z.x, Scalar.neg z.y⟩ : Cf .w64 (Fl L)))
      = (Cf.newe z.norm z.phase : Cf .w64 (Fl L))
    ∧ ∀ t : ℂ, ‖(⟨z.x.fp.val, z.y.fp.val⟩ : ℂ)‖ ≤ ‖t - ⟨z.x.fp.val, z.y.fp.val⟩‖
      ∨ ‖(⟨z.x.fp.val, z.y.fp.val⟩ : ℂ)‖ ≤ ‖t - ⟨z.x.fp.neg.val, z.y.fp.neg.val⟩‖ := by
  have h1 : Cf.phase (⟨Scalar.neg z.x, Scalar.neg z.y⟩ : Cf .w64 (Fl L)) = z.phase := by
    change (⟨L.atan (z.y.fp.neg.div z.x.fp.neg)⟩ : Fl L) = ⟨L.atan (z.y.fp.div z.x.fp)⟩
    rw [Fp.neg_div_neg]
  have h2 : Cf.norm (⟨Scalar.neg z.x, Scalar.neg z.y⟩ : Cf .w64 (Fl L)) = z.norm := by
    change (⟨(Fp.add (z.x.fp.neg.mul z.x.fp.neg) (z.y.fp.neg.mul z.y.fp.neg)).sqrt⟩ : Fl L)
      = ⟨(Fp.add (z.x.fp.mul z.x.fp) (z.y.fp.mul z.y.fp)).sqrt⟩
    rw [Fp.neg_mul_neg, Fp.neg_mul_neg]
  refine ⟨by rw [h1, h2], fun t => ?_⟩
  rw [Fp.val_neg, Fp.val_neg]
  have e : (⟨-z.x.fp.val, -z.y.fp.val⟩ : ℂ) = -⟨z.x.fp.val, z.y.fp.val⟩ := by
    apply Complex.ext <;> simp
  rw [e, sub_neg_eq_add]
  generalize (⟨z.x.fp.val, z.y.fp.val⟩ : ℂ) = a
  by_contra h
  push Not at h
  have h3 : ‖(t + a) - (t - a)‖ ≤ ‖t + a‖ + ‖t - a‖ := norm_sub_le _ _
  rw [show (t + a) - (t - a) = (2 : ℝ) * a by push_cast; ring, norm_mul, Complex.norm_real,
    Real.norm_of_nonneg zero_le_two] at h3
  linarith [h.1, h.2]

/-! ## Non-vacuity -/

/-- The claim fails at 1, in both precisions: the value there is 4. -/
example : ¬ Act.activate .cardioid (⟨1, 0⟩ : Cf .w32 ℝ) = some (Cf.ofC (cardioidRef (⟨1, 0⟩ : Cf .w32 ℝ).toC)) := by
  rw [C108_refuted]
  simp [Cf.norm]
example : ¬ Act.activate .cardioid (⟨1, 0⟩ : Cf .w64 ℝ) = some (Cf.ofC (cardioidRef (⟨1, 0⟩ : Cf .w64 ℝ).toC)) := by
  rw [C108_refuted_f64 _ (by simp)]
  simp [Cf.norm]
/-- And it holds at 4. -/
example : Act.activate .cardioid (⟨4, 0⟩ : Cf .w64 ℝ) = some (Cf.ofC (cardioidRef (⟨4, 0⟩ : Cf .w64 ℝ).toC)) := by
  rw [C108_refuted_f64 _ (by simp)]
  simp [Cf.norm]

end Renplex
