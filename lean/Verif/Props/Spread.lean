import Verif.Spec.Spread
import Verif.Props.Init
/-!
# The distribution of initial weights over all seeds (C100)
-/

namespace Renplex
namespace Spread

open Finset

theorem image_next : (range (2 ^ 31 - 1)).image lcgNext = range (2 ^ 31 - 1) := by
  apply eq_of_subset_of_card_le
  · intro t ht
    obtain ⟨s, -, rfl⟩ := mem_image.mp ht
    exact mem_range.mpr (lcgNext_lt s)
  · rw [card_image_of_injOn]
    intro s hs t ht h
    exact lcgNext_inj (mem_range.mp hs) (mem_range.mp ht) h

theorem sum_next (g : Nat → ℝ) :
    ∑ s ∈ range (2 ^ 31 - 1), g (lcgNext s) = ∑ s ∈ range (2 ^ 31 - 1), g s := by
  conv_rhs => rw [← image_next]
  rw [sum_image]
  intro s hs t ht h
  exact lcgNext_inj (mem_range.mp hs) (mem_range.mp ht) h

theorem count_eq (P : Nat → Prop) [h : DecidablePred P] :
    seedCount P = ((range (2 ^ 31 - 1)).filter P).card := by
  unfold seedCount
  rw [Subsingleton.elim h fun a => Classical.propDecidable (P a)]

theorem count_next (P : Nat → Prop) : seedCount (fun s => P (lcgNext s)) = seedCount P := by
  classical
  rw [count_eq, count_eq]
  conv_rhs => rw [← image_next]
  rw [filter_image, card_image_of_injOn]
  intro s hs t ht h
  exact lcgNext_inj (mem_range.mp (mem_filter.mp hs).1) (mem_range.mp (mem_filter.mp ht).1) h

theorem count_congr {P Q : Nat → Prop} (h : ∀ s, s < 2 ^ 31 - 1 → (P s ↔ Q s)) :
    seedCount P = seedCount Q := by
  classical
  rw [count_eq, count_eq, filter_congr fun s hs => h s (mem_range.mp hs)]

theorem mean_congr {f g : Nat → ℝ} (h : ∀ s, s < 2 ^ 31 - 1 → f s = g s) :
    seedMean f = seedMean g := by
  unfold seedMean
  rw [sum_congr rfl fun s hs => h s (mem_range.mp hs)]

theorem count_between (a b : Nat) (hb : b ≤ 2 ^ 31 - 1) :
    seedCount (fun s => a ≤ s ∧ s < b) = b - a := by
  have : (range (2 ^ 31 - 1)).filter (fun s => a ≤ s ∧ s < b) = Ico a b := by
    ext s
    simp only [mem_filter, mem_range, mem_Ico]
    exact ⟨fun h => h.2, fun h => ⟨Nat.lt_of_lt_of_le h.2 hb, h⟩⟩
  rw [count_eq, this, Nat.card_Ico]

theorem count_lt (T : Nat) (hT : T ≤ 2 ^ 31 - 1) : seedCount (fun s => s < T) = T := by
  have h := count_between 0 T hT
  rw [Nat.sub_zero] at h
  exact (count_congr fun s _ => by simp).trans h

variable {w : Width}

theorem draw_zero (s : Nat) : draw s 0 = (lcgNext s : ℝ) / 2 ^ 31 := rfl
theorem draw_one (s : Nat) : draw s 1 = (lcgNext (lcgNext s) : ℝ) / 2 ^ 31 := rfl
theorem draw_two (s : Nat) : draw s 2 = (lcgNext (lcgNext (lcgNext s)) : ℝ) / 2 ^ 31 := rfl

theorem weight_eq {method : InitMethod} {W : Nat → ℂ} (h : Weights w method W) (s : Nat)
    (hs : s < 2 ^ 31 - 1) :
    W s = initValue w method (draw s 0) (draw s 1) (draw s 2) := by
  obtain ⟨z, s', e, hz⟩ := h s hs
  obtain ⟨z', s'', e', hz'⟩ := C65_value (w := w) method s (fits_of_lt hs)
  rw [e'] at e
  simp only [Option.some.injEq, Prod.mk.injEq] at e
  rw [← hz, ← e.1, hz']

theorem direction_norm' (u : ℝ) : ‖direction u‖ = 1 := Complex.norm_exp_ofReal_mul_I _

/-- The modulus, for the bounded methods. -/
theorem norm_eq {method : InitMethod} (hr : 0 < circleRadius method) {W : Nat → ℂ}
    (h : Weights w method W) (s : Nat) (hs : s < 2 ^ 31 - 1) :
    ‖W s‖ = circleRadius method * |uniformModulus w 1 (draw s 0)| := by
  rw [weight_eq h s hs]
  have key : ∀ ρ : ℝ, 0 ≤ ρ → ∀ u v, ‖(uniformModulus w ρ u : ℂ) * direction v‖
      = ρ * |uniformModulus w 1 u| := by
    intro ρ hρ u v
    rw [norm_mul, direction_norm', mul_one, Complex.norm_real, Real.norm_eq_abs]
    cases w <;> simp only [uniformModulus, abs_mul, one_mul, abs_of_nonneg hρ]
  cases method with
  | uniform scale => exact key _ hr.le _ _
  | xavierGlorotU n => exact key _ hr.le _ _
  | xavier n => exact key _ hr.le _ _
  | xavierGlorotN n => exact absurd hr (lt_irrefl _)
  | heInit n => exact absurd hr (lt_irrefl _)

theorem sum_sq (M : Nat) (c : ℝ) : ∑ k ∈ range M, ((k : ℝ) / c) ^ 2
    = (M : ℝ) * (M - 1) * (2 * M - 1) / 6 / c ^ 2 := by
  have : ∑ k ∈ range M, (k : ℝ) ^ 2 = (M : ℝ) * (M - 1) * (2 * M - 1) / 6 := by
    induction M with
    | zero => simp
    | succ M ih => rw [sum_range_succ, ih]; push_cast; ring
  rw [← this, sum_div]
  exact sum_congr rfl fun k _ => by rw [div_pow]

theorem sum_lin (M : Nat) (c : ℝ) : ∑ k ∈ range M, ((k : ℝ) / c) = (M : ℝ) * (M - 1) / 2 / c := by
  have : ∑ k ∈ range M, (k : ℝ) = (M : ℝ) * (M - 1) / 2 := by
    induction M with
    | zero => simp
    | succ M ih => rw [sum_range_succ, ih]; push_cast; ring
  rw [← this, sum_div]

/-- The mean square of the uniform modulus is a third, to nine digits. -/
theorem mean_sq : |seedMean (fun s => uniformModulus w 1 (draw s 0) ^ 2) - 1 / 3| ≤ 1 / 10 ^ 9 := by
  have hM : ((2 ^ 31 - 1 : Nat) : ℝ) = 2147483647 := by norm_num
  have h1 := sum_next fun t => uniformModulus w 1 ((t : ℝ) / 2 ^ 31) ^ 2
  unfold seedMean
  simp only [draw_zero]
  rw [h1]
  cases w with
  | w32 =>
    simp only [uniformModulus, one_mul]
    rw [sum_sq, hM, abs_le]
    constructor <;> norm_num
  | w64 =>
    simp only [uniformModulus, one_mul]
    have : ∑ x ∈ range (2 ^ 31 - 1), (2 * ((x : ℝ) / 2 ^ 31) - 1) ^ 2
        = 4 * ∑ x ∈ range (2 ^ 31 - 1), ((x : ℝ) / 2 ^ 31) ^ 2
          - 4 * ∑ x ∈ range (2 ^ 31 - 1), ((x : ℝ) / 2 ^ 31) + ((2 ^ 31 - 1 : Nat) : ℝ) := by
      rw [mul_sum, mul_sum, ← sum_sub_distrib]
      have hc : ((2 ^ 31 - 1 : Nat) : ℝ) = ∑ _x ∈ range (2 ^ 31 - 1), (1 : ℝ) := by
        rw [sum_const, card_range, nsmul_eq_mul, mul_one]
      rw [hc, ← sum_add_distrib]
      exact sum_congr rfl fun x _ => by ring
    rw [this, sum_sq, sum_lin, hM, abs_le]
    constructor <;> norm_num

theorem mean_mul (c : ℝ) (g : Nat → ℝ) : seedMean (fun s => c * g s) = c * seedMean g := by
  unfold seedMean
  rw [← mul_sum, mul_div_assoc]

theorem mean_norm_sq {method : InitMethod} (hr : 0 < circleRadius method) {W : Nat → ℂ}
    (h : Weights w method W) :
    |seedMean (fun s => ‖W s‖ ^ 2) - circleRadius method ^ 2 / 3|
      ≤ circleRadius method ^ 2 / 10 ^ 9 := by
  rw [mean_congr fun s hs => by rw [norm_eq hr h s hs, mul_pow, sq_abs], mean_mul]
  have := mean_sq (w := w)
  rw [show circleRadius method ^ 2 * seedMean (fun s => uniformModulus w 1 (draw s 0) ^ 2)
    - circleRadius method ^ 2 / 3 = circleRadius method ^ 2
      * (seedMean (fun s => uniformModulus w 1 (draw s 0) ^ 2) - 1 / 3) by ring, abs_mul,
    abs_of_nonneg (sq_nonneg _), div_eq_mul_one_div _ ((10 : ℝ) ^ 9)]
  exact mul_le_mul_of_nonneg_left this (sq_nonneg _)

theorem radius_pos {n : Nat} (hn : 0 < n) : 0 < circleRadius (.xavierGlorotU n)
    ∧ 0 < circleRadius (.xavier n) := by
  have : (0 : ℝ) < n := by exact_mod_cast hn
  exact ⟨Real.sqrt_pos.mpr (by positivity), Real.sqrt_pos.mpr (by positivity)⟩

/-- `Σ -2 ln (k / c)` for `k` up to `m ≤ c`. -/
theorem sum_log (m : Nat) (c : ℝ) (hc : (m : ℝ) + 1 ≤ c) (hm : 0 < m) :
    ∑ k ∈ range (m + 1), -2 * Real.log ((k : ℝ) / c) ≤ 2 * m * (1 + Real.log (c / m)) := by
  have hm' : (0 : ℝ) < m := by exact_mod_cast hm
  have hc' : 0 < c := by linarith
  have hfac : ∑ k ∈ range (m + 1), -2 * Real.log ((k : ℝ) / c)
      = 2 * (m * Real.log c - Real.log (m.factorial : ℝ)) := by
    clear hm hc hm'
    induction m with
    | zero => simp
    | succ m ih =>
      rw [sum_range_succ, ih, Nat.factorial_succ]
      push_cast
      rw [Real.log_div (by positivity) (by positivity), Real.log_mul (by positivity) (by positivity)]
      ring
  have hle : (m : ℝ) * Real.log m - m ≤ Real.log (m.factorial : ℝ) := by
    have h := Real.pow_div_factorial_le_exp (x := (m : ℝ)) hm'.le m
    have h2 := Real.log_le_log (by positivity) h
    rw [Real.log_exp, Real.log_div (by positivity) (by positivity), Real.log_pow] at h2
    linarith
  rw [hfac, Real.log_div (by positivity) (by positivity)]
  nlinarith

theorem mean_log : seedMean (fun s => -2 * Real.log (draw s 0)) ≤ 2 * (1 + 1 / 10 ^ 8) := by
  have h1 := sum_next fun t => -2 * Real.log ((t : ℝ) / 2 ^ 31)
  unfold seedMean
  simp only [draw_zero]
  rw [h1]
  have h2 := sum_log 2147483646 (2 ^ 31) (by norm_num) (by norm_num)
  rw [show (2 ^ 31 - 1 : Nat) = 2147483646 + 1 by norm_num]
  have h3 : Real.log (2 ^ 31 / (2147483646 : Nat)) ≤ 1 / 10 ^ 9 := by
    refine (Real.log_le_sub_one_of_pos (by positivity)).trans ?_
    norm_num
  rw [div_le_iff₀ (by norm_num)]
  refine h2.trans ?_
  push_cast at h3 ⊢
  nlinarith

theorem mean_mono {f g : Nat → ℝ} (h : ∀ s, s < 2 ^ 31 - 1 → f s ≤ g s) :
    seedMean f ≤ seedMean g := by
  unfold seedMean
  exact div_le_div_of_nonneg_right (sum_le_sum fun s hs => h s (mem_range.mp hs)) (by norm_num)

end Spread

open Spread

variable {w : Width}

/-- C100, the part that holds. Weights from a circle have uniformly distributed moduli: of all seeds,
exactly the expected number gives a modulus below any given part of the radius (missing: the area, see
`C100_refuted_disc`). -/
theorem C100_partial_modulus {method : InitMethod} (hr : 0 < circleRadius method) :
    (∀ W, Weights .w32 method W → ∀ T : Nat, T ≤ 2 ^ 31 - 1 →
      seedCount (fun s => ‖W s‖ < circleRadius method * (T / 2 ^ 31)) = T)
    ∧ ∀ W, Weights .w64 method W → ∀ T : Nat, 1 ≤ T → T ≤ 2 ^ 30 - 1 →
      seedCount (fun s => ‖W s‖ < circleRadius method * (T / 2 ^ 30)) = 2 * T - 1 := by
  refine ⟨fun W h T hT => ?_, fun W h T hT1 hT => ?_⟩
  · have e : seedCount (fun s => ‖W s‖ < circleRadius method * (T / 2 ^ 31))
        = seedCount (fun s => lcgNext s < T) := by
      refine count_congr fun s hs => ?_
      rw [norm_eq hr h s hs, mul_lt_mul_iff_right₀ hr, draw_zero]
      simp only [uniformModulus, one_mul]
      rw [abs_of_nonneg (div_nonneg (Nat.cast_nonneg _) (by positivity)), div_lt_div_iff_of_pos_right (by positivity), Nat.cast_lt]
    rw [e, count_next fun t => t < T, count_lt T hT]
  · have e : seedCount (fun s => ‖W s‖ < circleRadius method * (T / 2 ^ 30))
        = seedCount (fun s => 2 ^ 30 - T + 1 ≤ lcgNext s ∧ lcgNext s < 2 ^ 30 + T) := by
      refine count_congr fun s hs => ?_
      rw [norm_eq hr h s hs, mul_lt_mul_iff_right₀ hr, draw_zero]
      simp only [uniformModulus, one_mul]
      generalize lcgNext s = t
      rw [abs_lt, show (2 ^ 30 - T + 1 ≤ t ∧ t < 2 ^ 30 + T) ↔ (2 ^ 30 < t + T ∧ t < 2 ^ 30 + T) by
        omega]
      have h1 : ((2 : ℝ) ^ 30 < t + T) ↔ 2 ^ 30 < t + T := by exact_mod_cast Iff.rfl
      have h2 : ((t : ℝ) < 2 ^ 30 + T) ↔ t < 2 ^ 30 + T := by exact_mod_cast Iff.rfl
      rw [← h1, ← h2]
      constructor
      · rintro ⟨a, b⟩; constructor <;> linarith
      · rintro ⟨a, b⟩; constructor <;> linarith
    rw [e, count_next fun t => 2 ^ 30 - T + 1 ≤ t ∧ t < 2 ^ 30 + T,
      count_between _ _ (by omega)]
    omega

/-- C100 is false of the code: weights said to be uniform in a circle are not, half of all seeds give a
weight in the inner circle of half the radius, which has a quarter of the area. -/
theorem C100_refuted_disc {method : InitMethod} (hr : 0 < circleRadius method) {W : Nat → ℂ}
    (h : Weights w method W) :
    49 / 100 * (2 ^ 31 - 1) ≤ (seedCount fun s => ‖W s‖ < circleRadius method / 2 : ℝ)
      ∧ (seedCount fun s => ‖W s‖ < circleRadius method / 2 : ℝ) ≤ 51 / 100 * (2 ^ 31 - 1) := by
  cases w with
  | w32 =>
    have := (C100_partial_modulus hr).1 W h (2 ^ 30) (by norm_num)
    have e : circleRadius method * (((2 ^ 30 : Nat) : ℝ) / 2 ^ 31) = circleRadius method / 2 := by
      push_cast; ring
    rw [e] at this
    rw [this]
    norm_num
  | w64 =>
    have := (C100_partial_modulus hr).2 W h (2 ^ 29) (by norm_num) (by norm_num)
    have e : circleRadius method * (((2 ^ 29 : Nat) : ℝ) / 2 ^ 30) = circleRadius method / 2 := by
      push_cast; ring
    rw [e] at this
    rw [this]
    norm_num

/-- C100. The directions are uniformly distributed, for all methods. -/
theorem C100_direction {method : InitMethod} {W : Nat → ℂ} (h : Weights w method W) :
    ∃ r u : Nat → ℝ, (∀ s, s < 2 ^ 31 - 1 → W s = r s * direction (u s) ∧ 0 ≤ u s ∧ u s < 1)
      ∧ ∀ T : Nat, T ≤ 2 ^ 31 - 1 → seedCount (fun s => u s < T / 2 ^ 31) = T := by
  have cnt1 : ∀ T : Nat, T ≤ 2 ^ 31 - 1 → seedCount (fun s => draw s 1 < T / 2 ^ 31) = T := by
    intro T hT
    have e : seedCount (fun s => draw s 1 < T / 2 ^ 31)
        = seedCount (fun s => lcgNext (lcgNext s) < T) := count_congr fun s _ => by
      rw [draw_one, div_lt_div_iff_of_pos_right (by positivity), Nat.cast_lt]
    rw [e, count_next fun t => lcgNext t < T, count_next fun t => t < T, count_lt T hT]
  have cnt2 : ∀ T : Nat, T ≤ 2 ^ 31 - 1 → seedCount (fun s => draw s 2 < T / 2 ^ 31) = T := by
    intro T hT
    have e : seedCount (fun s => draw s 2 < T / 2 ^ 31)
        = seedCount (fun s => lcgNext (lcgNext (lcgNext s)) < T) := count_congr fun s _ => by
      rw [draw_two, div_lt_div_iff_of_pos_right (by positivity), Nat.cast_lt]
    rw [e, count_next fun t => lcgNext (lcgNext t) < T, count_next fun t => lcgNext t < T,
      count_next fun t => t < T, count_lt T hT]
  have range : ∀ s k, 0 ≤ draw s k ∧ draw s k < 1 := fun s k => by
    have hlt : lcgNext^[k + 1] s < 2 ^ 31 := by
      rw [Function.iterate_succ_apply']
      exact (lcgNext_lt _).trans (by norm_num)
    unfold draw
    refine ⟨by positivity, ?_⟩
    rw [div_lt_one (by positivity)]
    exact_mod_cast hlt
  have e := fun s hs => weight_eq h s hs
  cases method with
  | uniform scale => exact ⟨_, _, fun s hs => ⟨e s hs, range s 1⟩, cnt1⟩
  | xavierGlorotU n => exact ⟨_, _, fun s hs => ⟨e s hs, range s 1⟩, cnt1⟩
  | xavier n => exact ⟨_, _, fun s hs => ⟨e s hs, range s 1⟩, cnt1⟩
  | xavierGlorotN n => exact ⟨_, _, fun s hs => ⟨e s hs, range s 2⟩, cnt2⟩
  | heInit n => exact ⟨_, _, fun s hs => ⟨e s hs, range s 2⟩, cnt2⟩

/-- C100. The mean square of a weight over all seeds, up to a relative error of 3·10⁻⁹: a third of the
square of the scale, and `2 / n` for `XavierGlorotU`, as it should be. -/
theorem C100_mean_square {W : Nat → ℂ} :
    (∀ scale : Nat, 0 < scale → Weights w (.uniform scale) W →
      |seedMean (fun s => ‖W s‖ ^ 2) - (scale : ℝ) ^ 2 / 3| ≤ (scale : ℝ) ^ 2 / 3 * (3 / 10 ^ 9))
    ∧ ∀ n : Nat, 0 < n → Weights w (.xavierGlorotU n) W →
      |seedMean (fun s => ‖W s‖ ^ 2) - 2 / n| ≤ 2 / n * (3 / 10 ^ 9) := by
  refine ⟨fun scale hs h => ?_, fun n hn h => ?_⟩
  · have := mean_norm_sq (method := .uniform scale)
      (show (0 : ℝ) < (scale : ℝ) by exact_mod_cast hs) h
    simp only [circleRadius] at this
    exact this.trans (le_of_eq (by ring))
  · have := mean_norm_sq (radius_pos hn).1 h
    simp only [circleRadius] at this
    rw [Real.sq_sqrt (by positivity), show (6 : ℝ) / n / 3 = 2 / n by ring] at this
    exact this.trans (le_of_eq (by ring))

/-- C100 is false for `Xavier`: the mean square of a weight should be `1 / n`, it is `4 / n`. -/
theorem C100_refuted_xavier {W : Nat → ℂ} {n : Nat} (hn : 0 < n) (h : Weights w (.xavier n) W) :
    |seedMean (fun s => ‖W s‖ ^ 2) - 4 / n| ≤ 4 / n * (3 / 10 ^ 9)
      ∧ seedMean (fun s => ‖W s‖ ^ 2) ≠ 1 / n := by
  have := mean_norm_sq (radius_pos hn).2 h
  simp only [circleRadius] at this
  rw [Real.sq_sqrt (by positivity), show (12 : ℝ) / n / 3 = 4 / n by ring] at this
  have h1 := this.trans (le_of_eq (show (12 : ℝ) / n / 10 ^ 9 = 4 / n * (3 / 10 ^ 9) by ring))
  refine ⟨h1, fun h2 => ?_⟩
  rw [h2, abs_le] at h1
  have hn' : (0 : ℝ) < 1 / n := by positivity
  have e : (4 : ℝ) / n = 4 * (1 / n) := by ring
  rw [e] at h1
  linarith [h1.1]

/-- Non-vacuity: every method has its weights. -/
theorem weights_exist (method : InitMethod) : ∃ W, Weights w method W :=
  ⟨fun s => initValue w method (draw s 0) (draw s 1) (draw s 2), fun s hs => by
    obtain ⟨z, s', e, hz⟩ := C65_value (w := w) method s (fits_of_lt hs)
    exact ⟨z, s', e, hz⟩⟩

example : ∃ W, Weights .w32 (.xavierGlorotU 26) W ∧ 0 < circleRadius (.xavierGlorotU 26) := by
  obtain ⟨W, h⟩ := weights_exist (w := .w32) (.xavierGlorotU 26)
  exact ⟨W, h, (radius_pos (by norm_num)).1⟩

end Renplex
