import Verif.Props.Spread
import Mathlib.Algebra.BigOperators.Module
import Mathlib.Analysis.SpecialFunctions.Trigonometric.Bounds
import Mathlib.Analysis.Real.Pi.Bounds
import Mathlib.Analysis.Complex.ExponentialBounds
/-!
# Means of the initial weights over all seeds (C100)

Consecutive draws are points of waves `exp (2πi (d + q t / p))`, whose sums stay bounded.
-/

namespace Renplex
namespace Spread

open Finset

theorem direction_add (u v : ℝ) : direction (u + v) = direction u * direction v := by
  unfold direction
  rw [← Complex.exp_add]
  congr 1
  push_cast
  ring

theorem direction_nat (n : Nat) : direction n = 1 := by
  unfold direction
  rw [Complex.exp_eq_one_iff]
  exact ⟨n, by push_cast; ring⟩

theorem direction_zero : direction 0 = 1 := by simpa using direction_nat 0

theorem direction_mul (u : ℝ) (n : Nat) : direction (n * u) = direction u ^ n := by
  induction n with
  | zero => simp [direction_zero]
  | succ n ih => rw [pow_succ, ← ih, ← direction_add]; congr 1; push_cast; ring

theorem direction_sub_one (u : ℝ) : ‖direction u - 1‖ = 2 * |Real.sin (Real.pi * u)| := by
  unfold direction
  rw [mul_comm, Complex.norm_exp_I_mul_ofReal_sub_one, Real.norm_eq_abs, abs_mul, abs_two]
  congr 3
  ring

theorem direction_lip (u v : ℝ) : ‖direction u - direction v‖ ≤ 2 * Real.pi * |u - v| := by
  have e : direction u - direction v = direction v * (direction (u - v) - 1) := by
    rw [mul_sub, ← direction_add, mul_one]
    congr 2
    ring
  rw [e, norm_mul, direction_norm', one_mul]
  unfold direction
  rw [mul_comm]
  refine (Real.norm_exp_I_mul_ofReal_sub_one_le).trans ?_
  rw [Real.norm_eq_abs, abs_mul, abs_of_pos Real.two_pi_pos]

/-- Congruent numerators give the same direction. -/
theorem direction_mod {p : Nat} (hp : 0 < p) {x y : Nat} (h : x ≡ y [MOD p]) :
    direction ((x : ℝ) / p) = direction ((y : ℝ) / p) := by
  have key : ∀ x : Nat, direction ((x : ℝ) / p) = direction (((x % p : Nat) : ℝ) / p) := fun x => by
    have hp' : (p : ℝ) ≠ 0 := by exact_mod_cast hp.ne'
    have e : (x : ℝ) / p = ((x % p : Nat) : ℝ) / p + ((x / p : Nat) : ℝ) := by
      rw [div_add' _ _ _ hp']
      congr 1
      exact_mod_cast (Nat.mod_add_div' x p).symm
    rw [e, direction_add, direction_nat, mul_one]
  rw [key x, key y, h]

/-- A wave whose frequency is not close to a whole number. -/
def Wave (E : Nat → ℂ) : Prop :=
  ∃ (d : ℝ) (f : ℝ), 1 / 40 ≤ f ∧ f ≤ 39 / 40 ∧ ∀ t : Nat, E t = direction (d + t * f)

theorem wave_step {f : ℝ} (h1 : 1 / 40 ≤ f) (h2 : f ≤ 39 / 40) : 1 / 10 ≤ ‖direction f - 1‖ := by
  rw [direction_sub_one]
  have hpi := Real.pi_pos
  have key : ∀ x : ℝ, 1 / 40 ≤ x → x ≤ 1 / 2 → 1 / 20 ≤ Real.sin (Real.pi * x) := fun x a b => by
    have := Real.mul_le_sin (x := Real.pi * x) (by positivity) (by nlinarith)
    rw [show 2 / Real.pi * (Real.pi * x) = 2 * x by field_simp] at this
    linarith
  have : 1 / 20 ≤ Real.sin (Real.pi * f) := by
    rcases le_total f (1 / 2) with h | h
    · exact key f h1 h
    · have := key (1 - f) (by linarith) (by linarith)
      rwa [show Real.pi * (1 - f) = Real.pi - Real.pi * f by ring, Real.sin_pi_sub] at this
  have := this.trans (le_abs_self _)
  linarith

theorem wave_sum {E : Nat → ℂ} (h : Wave E) (T : Nat) : ‖∑ t ∈ range T, E t‖ ≤ 20 := by
  obtain ⟨d, f, h1, h2, e⟩ := h
  have hs := wave_step h1 h2
  have e2 : ∑ t ∈ range T, E t = direction d * ∑ t ∈ range T, direction f ^ t := by
    rw [mul_sum]
    exact sum_congr rfl fun t _ => by rw [e, direction_add, direction_mul]
  rw [e2, norm_mul, direction_norm', one_mul]
  have hg := congrArg norm (geom_sum_mul (direction f) T)
  rw [norm_mul] at hg
  have h3 : ‖direction f ^ T - 1‖ ≤ 2 := by
    refine (norm_sub_le _ _).trans ?_
    rw [norm_pow, direction_norm', one_pow, norm_one]
    norm_num
  rw [← hg] at h3
  have := norm_nonneg (∑ t ∈ range T, direction f ^ t)
  nlinarith

theorem abel_mono {E : Nat → ℂ} {B : ℝ} (h : ∀ T, ‖∑ t ∈ range T, E t‖ ≤ B) {g : Nat → ℝ} {M : ℝ}
    (n : Nat) (hn : 0 < n) (hM : ∀ t, t < n → |g t| ≤ M) (hg : ∀ t, t + 1 < n → g t ≤ g (t + 1)) :
    ‖∑ t ∈ range n, (g t : ℂ) * E t‖ ≤ 3 * M * B := by
  have hB : 0 ≤ B := by simpa using h 0
  have e := sum_range_by_parts (fun t => (g t : ℂ)) E n
  simp only [smul_eq_mul] at e
  rw [e]
  have hM0 : 0 ≤ M := (abs_nonneg _).trans (hM 0 hn)
  have t1 : ‖(g (n - 1) : ℂ) * ∑ i ∈ range n, E i‖ ≤ M * B := by
    rw [norm_mul, Complex.norm_real, Real.norm_eq_abs]
    exact mul_le_mul (hM _ (by omega)) (h n) (norm_nonneg _) hM0
  have t2 : ‖∑ i ∈ range (n - 1), ((g (i + 1) : ℂ) - g i) * ∑ j ∈ range (i + 1), E j‖
      ≤ 2 * M * B := by
    refine (norm_sum_le _ _).trans ?_
    calc ∑ i ∈ range (n - 1), ‖((g (i + 1) : ℂ) - g i) * ∑ j ∈ range (i + 1), E j‖
        ≤ ∑ i ∈ range (n - 1), (g (i + 1) - g i) * B := by
          refine sum_le_sum fun i hi => ?_
          have hi := mem_range.mp hi
          have := hg i (by omega)
          rw [norm_mul, ← Complex.ofReal_sub, Complex.norm_real, Real.norm_eq_abs,
            abs_of_nonneg (by linarith)]
          exact mul_le_mul_of_nonneg_left (h _) (by linarith)
      _ = (g (n - 1) - g 0) * B := by rw [← sum_mul, sum_range_sub]
      _ ≤ 2 * M * B := by
          refine mul_le_mul_of_nonneg_right ?_ hB
          have a1 := abs_le.mp (hM (n - 1) (by omega))
          have a2 := abs_le.mp (hM 0 hn)
          linarith [a1.2, a2.1]
  calc _ ≤ M * B + 2 * M * B := (norm_sub_le _ _).trans (add_le_add t1 t2)
    _ = 3 * M * B := by ring

/-- A bounded function that is monotone from 1 on, summed along something close to a wave. -/
theorem sum_small {E E' : Nat → ℂ} (hE' : Wave E') {p : Nat} (hp : 1 < p)
    (hE : ∀ t, t < p → ‖E t - E' t‖ ≤ 13 / p) {g : Nat → ℝ} {M : ℝ}
    (hM : ∀ t, t < p → |g t| ≤ M)
    (hg : (∀ t, 0 < t → t + 1 < p → g t ≤ g (t + 1)) ∨ ∀ t, 0 < t → t + 1 < p → g (t + 1) ≤ g t) :
    ‖∑ t ∈ range p, (g t : ℂ) * E t‖ ≤ 100 * M := by
  have hp' : (0 : ℝ) < p := by exact_mod_cast (by omega : 0 < p)
  have hM0 : 0 ≤ M := (abs_nonneg _).trans (hM 0 (by omega))
  -- the function with its value at zero repaired
  let g' : Nat → ℝ := fun t => if t = 0 then g 1 else g t
  have hM' : ∀ t, t < p → |g' t| ≤ M := fun t ht => by
    simp only [g']
    split
    · exact hM 1 hp
    · exact hM t ht
  have main : ‖∑ t ∈ range p, (g' t : ℂ) * E' t‖ ≤ 3 * M * 20 := by
    rcases hg with hg | hg
    · refine abel_mono (wave_sum hE') p (by omega) hM' fun t ht => ?_
      rcases Nat.eq_zero_or_pos t with rfl | h
      · simp [g']
      · simp only [g', h.ne', if_false, Nat.succ_ne_zero]
        exact hg t h ht
    · have := abel_mono (wave_sum hE') (g := fun t => - g' t) (M := M) p (by omega)
        (fun t ht => by rw [abs_neg]; exact hM' t ht) fun t ht => by
          rcases Nat.eq_zero_or_pos t with rfl | h
          · simp [g']
          · simp only [g', h.ne', if_false, Nat.succ_ne_zero]
            exact neg_le_neg (hg t h ht)
      have e : ∑ t ∈ range p, (((- g' t : ℝ)) : ℂ) * E' t = - ∑ t ∈ range p, (g' t : ℂ) * E' t := by
        rw [← sum_neg_distrib]
        exact sum_congr rfl fun t _ => by push_cast; ring
      rwa [e, norm_neg] at this
  have hE1 : ‖E' 0‖ ≤ 1 := by
    obtain ⟨d, f, -, -, e⟩ := hE'
    rw [e, direction_norm']
  have first : ‖∑ t ∈ range p, ((g t : ℂ) - g' t) * E' t‖ ≤ 2 * M := by
    rw [sum_eq_single 0]
    · rw [norm_mul, ← Complex.ofReal_sub, Complex.norm_real, Real.norm_eq_abs]
      have a1 := hM 0 (by omega)
      have a2 := hM' 0 (by omega)
      have a3 := abs_sub (g 0) (g' 0)
      have := mul_le_mul (a3.trans (add_le_add a1 a2)) hE1 (norm_nonneg _) (by linarith)
      linarith
    · intro t _ ht
      simp [g', ht]
    · intro h
      exact absurd (mem_range.mpr (by omega)) h
  have close : ‖∑ t ∈ range p, (g t : ℂ) * (E t - E' t)‖ ≤ 13 * M := by
    refine (norm_sum_le _ _).trans ?_
    calc _ ≤ ∑ _t ∈ range p, M * (13 / p) := sum_le_sum fun t ht => by
          have ht := mem_range.mp ht
          rw [norm_mul, Complex.norm_real, Real.norm_eq_abs]
          exact mul_le_mul (hM t ht) (hE t ht) (norm_nonneg _) hM0
      _ = 13 * M := by
          rw [sum_const, card_range, nsmul_eq_mul]
          field_simp
  have e : ∑ t ∈ range p, (g t : ℂ) * E t = ∑ t ∈ range p, (g' t : ℂ) * E' t
      + ∑ t ∈ range p, ((g t : ℂ) - g' t) * E' t + ∑ t ∈ range p, (g t : ℂ) * (E t - E' t) := by
    rw [← sum_add_distrib, ← sum_add_distrib]
    exact sum_congr rfl fun t _ => by ring
  rw [e]
  refine (norm_add_le _ _).trans ?_
  have := norm_add_le (∑ t ∈ range p, (g' t : ℂ) * E' t)
    (∑ t ∈ range p, ((g t : ℂ) - g' t) * E' t)
  linarith

/-- The modulus of the generator. -/
abbrev P : Nat := 2 ^ 31 - 1

theorem wave_of {X : Nat → Nat} (q d : Nat) (h1 : P ≤ 40 * q) (h2 : 40 * q ≤ 39 * P)
    (h : ∀ t, X t ≡ q * t + d [MOD P]) : Wave fun t => direction ((X t : ℝ) / ((P : Nat) : ℝ)) := by
  have hP : (0 : ℝ) < (P : Nat) := by norm_num
  have h1' : ((P : Nat) : ℝ) ≤ 40 * q := by exact_mod_cast h1
  have h2' : 40 * (q : ℝ) ≤ 39 * (P : Nat) := by exact_mod_cast h2
  refine ⟨(d : ℝ) / ((P : Nat) : ℝ), (q : ℝ) / ((P : Nat) : ℝ), ?_, ?_, fun t => ?_⟩
  · rw [div_le_div_iff₀ (by norm_num) hP]; linarith
  · rw [div_le_div_iff₀ hP (by norm_num)]; linarith
  · show direction ((X t : ℝ) / ((P : Nat) : ℝ)) = _
    rw [direction_mod (by norm_num) (h t)]
    congr 1
    push_cast
    ring

theorem next_mod (t : Nat) : lcgNext t ≡ 1103515245 * t + 12345 [MOD P] := Nat.mod_modEq _ _

theorem near (t : Nat) : |(lcgNext t : ℝ) / 2 ^ 31 - (lcgNext t : ℝ) / ((P : Nat) : ℝ)| ≤ 1 / ((P : Nat) : ℝ) := by
  have h : (lcgNext t : ℝ) ≤ (P : Nat) := by exact_mod_cast (lcgNext_lt t).le
  have h0 : (0 : ℝ) ≤ lcgNext t := Nat.cast_nonneg _
  generalize (lcgNext t : ℝ) = x at h h0
  have hP : ((P : Nat) : ℝ) = 2147483647 := by norm_num
  rw [hP] at h ⊢
  rw [abs_le]
  constructor <;> linarith

/-- The direction of the second draw is a wave in the first. -/
theorem wave_one : ∃ E', Wave E' ∧ ∀ t, ‖direction ((lcgNext t : ℝ) / 2 ^ 31) - E' t‖ ≤ 13 / ((P : Nat) : ℝ) := by
  refine ⟨_, wave_of (X := lcgNext) 1103515245 12345 (by norm_num) (by norm_num) next_mod, fun t => ?_⟩
  refine (direction_lip _ _).trans ?_
  have := near t
  have := Real.pi_lt_d2
  have := Real.pi_pos
  rw [div_eq_mul_one_div (13 : ℝ)]
  exact mul_le_mul (by linarith) (near t) (abs_nonneg _) (by norm_num)

theorem wave_two : ∃ E', Wave E'
    ∧ ∀ t, ‖direction (2 * ((lcgNext t : ℝ) / 2 ^ 31)) - E' t‖ ≤ 13 / ((P : Nat) : ℝ) := by
  refine ⟨_, wave_of (X := fun t => 2 * lcgNext t) 59546843 24690 (by norm_num) (by norm_num)
    fun t => ?_, fun t => ?_⟩
  · refine ((next_mod t).mul_left 2).trans ?_
    rw [show 2 * (1103515245 * t + 12345) = (59546843 * t + 24690) + P * t by
      simp only [P]; omega]
    simp [Nat.ModEq]
  · refine (direction_lip _ _).trans ?_
    have e : 2 * ((lcgNext t : ℝ) / 2 ^ 31) - ((2 * lcgNext t : Nat) : ℝ) / ((P : Nat) : ℝ)
        = 2 * ((lcgNext t : ℝ) / 2 ^ 31 - (lcgNext t : ℝ) / ((P : Nat) : ℝ)) := by push_cast; ring
    rw [e, abs_mul, abs_two]
    have := near t
    have := Real.pi_lt_d2
    have := Real.pi_pos
    rw [div_eq_mul_one_div (13 : ℝ), ← mul_assoc]
    exact mul_le_mul (by linarith) (near t) (abs_nonneg _) (by norm_num)

theorem next_next_mod (t : Nat) :
    lcgNext (lcgNext t) ≡ 1103515245 * (1103515245 * t + 12345) + 12345 [MOD P] :=
  (next_mod _).trans (((next_mod t).mul_left _).add_right _)

theorem wave_sum_draws : ∃ E', Wave E' ∧ ∀ t, ‖direction ((lcgNext (lcgNext t) : ℝ) / 2 ^ 31
    + (lcgNext t : ℝ) / 2 ^ 31) - E' t‖ ≤ 13 / ((P : Nat) : ℝ) := by
  refine ⟨_, wave_of (X := fun t => lcgNext (lcgNext t) + lcgNext t) 641041336
    (1103515245 * 12345 + 12345 + 12345) (by norm_num) (by norm_num) fun t => ?_, fun t => ?_⟩
  · refine ((next_next_mod t).add (next_mod t)).trans ?_
    rw [show 1103515245 * (1103515245 * t + 12345) + 12345 + (1103515245 * t + 12345)
        = (641041336 * t + (1103515245 * 12345 + 12345 + 12345)) + P * (567057122 * t) by
      simp only [P]; omega]
    simp [Nat.ModEq]
  · refine (direction_lip _ _).trans ?_
    have e : (lcgNext (lcgNext t) : ℝ) / 2 ^ 31 + (lcgNext t : ℝ) / 2 ^ 31
        - ((lcgNext (lcgNext t) + lcgNext t : Nat) : ℝ) / ((P : Nat) : ℝ)
        = ((lcgNext (lcgNext t) : ℝ) / 2 ^ 31 - (lcgNext (lcgNext t) : ℝ) / ((P : Nat) : ℝ))
          + ((lcgNext t : ℝ) / 2 ^ 31 - (lcgNext t : ℝ) / ((P : Nat) : ℝ)) := by push_cast; ring
    rw [e]
    have h := (abs_add_le _ _).trans (add_le_add (near (lcgNext t)) (near t))
    have := Real.pi_lt_d2
    have := Real.pi_pos
    refine (mul_le_mul_of_nonneg_left h (by positivity)).trans ?_
    rw [← add_div, ← mul_div_assoc]
    exact div_le_div_of_nonneg_right (by linarith) (Nat.cast_nonneg _)

theorem wave_diff_draws : ∃ E', Wave E' ∧ ∀ t, ‖direction ((lcgNext (lcgNext t) : ℝ) / 2 ^ 31
    - (lcgNext t : ℝ) / 2 ^ 31) - E' t‖ ≤ 13 / ((P : Nat) : ℝ) := by
  have hw : Wave fun t => direction ((lcgNext (lcgNext t) : ℝ) / ((P : Nat) : ℝ)
      - (lcgNext t : ℝ) / ((P : Nat) : ℝ)) := by
    have := wave_of (X := fun t => 581494493 * t + 1103515245 * 12345) 581494493
      (1103515245 * 12345) (by norm_num) (by norm_num) fun t => rfl
    refine (congrArg Wave (funext fun t => ?_)).mp this
    have e : direction ((lcgNext (lcgNext t) : ℝ) / ((P : Nat) : ℝ))
        = direction (((581494493 * t + 1103515245 * 12345 + lcgNext t : Nat) : ℝ) / ((P : Nat) : ℝ)) := by
      refine direction_mod (by norm_num) ((next_next_mod t).trans
        (Nat.ModEq.trans ?_ ((next_mod t).symm.add_left _)))
      rw [show 1103515245 * (1103515245 * t + 12345) + 12345
          = 581494493 * t + 1103515245 * 12345 + (1103515245 * t + 12345) + P * (567057121 * t) by
        simp only [P]; omega]
      simp [Nat.ModEq]
    rw [sub_eq_add_neg, direction_add, e, ← direction_add]
    congr 1
    push_cast
    ring
  refine ⟨_, hw, fun t => ?_⟩
  refine (direction_lip _ _).trans ?_
  have e : (lcgNext (lcgNext t) : ℝ) / 2 ^ 31 - (lcgNext t : ℝ) / 2 ^ 31
      - ((lcgNext (lcgNext t) : ℝ) / ((P : Nat) : ℝ) - (lcgNext t : ℝ) / ((P : Nat) : ℝ))
      = ((lcgNext (lcgNext t) : ℝ) / 2 ^ 31 - (lcgNext (lcgNext t) : ℝ) / ((P : Nat) : ℝ))
        - ((lcgNext t : ℝ) / 2 ^ 31 - (lcgNext t : ℝ) / ((P : Nat) : ℝ)) := by ring
  rw [e]
  have h := (abs_sub _ _).trans (add_le_add (near (lcgNext t)) (near t))
  have := Real.pi_lt_d2
  have := Real.pi_pos
  refine (mul_le_mul_of_nonneg_left h (by positivity)).trans ?_
  rw [← add_div, ← mul_div_assoc]
  exact div_le_div_of_nonneg_right (by linarith) (Nat.cast_nonneg _)

theorem sum_nextC (g : Nat → ℂ) :
    ∑ s ∈ range (2 ^ 31 - 1), g (lcgNext s) = ∑ s ∈ range (2 ^ 31 - 1), g s := by
  conv_rhs => rw [← image_next]
  rw [sum_image]
  intro s hs t ht h
  exact lcgNext_inj (mem_range.mp hs) (mem_range.mp ht) h

/-- The mean of a monotone function of the first draw times something close to a wave. -/
theorem mean_small {W : Nat → ℂ} {g : Nat → ℝ} {E : Nat → ℂ} {M : ℝ}
    (hW : ∀ s, s < 2 ^ 31 - 1 → W s = g (lcgNext s) * E (lcgNext s))
    (hE : ∃ E', Wave E' ∧ ∀ t, ‖E t - E' t‖ ≤ 13 / ((P : Nat) : ℝ))
    (hM : ∀ t, t < P → |g t| ≤ M)
    (hg : (∀ t, 0 < t → t + 1 < P → g t ≤ g (t + 1)) ∨ ∀ t, 0 < t → t + 1 < P → g (t + 1) ≤ g t) :
    |seedMean fun s => (W s).re| ≤ M / 10 ^ 7 ∧ |seedMean fun s => (W s).im| ≤ M / 10 ^ 7 := by
  obtain ⟨E', hE', h⟩ := hE
  have key : ‖∑ s ∈ range (2 ^ 31 - 1), W s‖ ≤ 100 * M := by
    rw [sum_congr rfl fun s hs => hW s (mem_range.mp hs), sum_nextC fun t => (g t : ℂ) * E t]
    exact sum_small hE' (by norm_num) (fun t _ => h t) hM hg
  have hM0 : 0 ≤ M := (abs_nonneg _).trans (hM 0 (by norm_num))
  have fin : ∀ x : ℝ, |x| ≤ 100 * M → |x / (2 ^ 31 - 1)| ≤ M / 10 ^ 7 := fun x hx => by
    rw [abs_div, abs_of_pos (by norm_num : (0 : ℝ) < 2 ^ 31 - 1), div_le_div_iff₀ (by norm_num)
      (by norm_num)]
    nlinarith
  unfold seedMean
  rw [← Complex.re_sum, ← Complex.im_sum]
  exact ⟨fin _ ((Complex.abs_re_le_norm _).trans key), fin _ ((Complex.abs_im_le_norm _).trans key)⟩

theorem mean_add (f g : Nat → ℝ) : seedMean (fun s => f s + g s) = seedMean f + seedMean g := by
  unfold seedMean
  rw [sum_add_distrib, add_div]

theorem direction_re (u : ℝ) : (direction u).re = Real.cos (2 * Real.pi * u) :=
  Complex.exp_ofReal_mul_I_re _

/-- `-2 ln u` for the `t`-th draw. -/
noncomputable def logDraw (t : Nat) : ℝ := -2 * Real.log ((t : ℝ) / 2 ^ 31)

theorem logDraw_nonneg {t : Nat} (ht : t < P) : 0 ≤ logDraw t := by
  have h1 : (t : ℝ) ≤ 2 ^ 31 := by exact_mod_cast (ht.trans (by norm_num)).le
  have := Real.log_nonpos (x := (t : ℝ) / 2 ^ 31) (div_nonneg (Nat.cast_nonneg _) (by norm_num))
    ((div_le_one (by norm_num)).mpr h1)
  unfold logDraw
  linarith

theorem logDraw_le (t : Nat) : logDraw t ≤ 43 := by
  unfold logDraw
  rcases Nat.eq_zero_or_pos t with rfl | ht
  · norm_num
  · have h0 : (0 : ℝ) < t := by exact_mod_cast ht
    have h1 : (1 : ℝ) ≤ t := by exact_mod_cast ht
    rw [Real.log_div h0.ne' (by norm_num), Real.log_pow]
    have h2 := Real.log_nonneg h1
    have h3 := Real.log_two_lt_d9
    push_cast
    linarith

theorem logDraw_anti {t : Nat} (ht : 0 < t) : logDraw (t + 1) ≤ logDraw t := by
  have h0 : (0 : ℝ) < t := by exact_mod_cast ht
  unfold logDraw
  have := Real.log_le_log (x := (t : ℝ) / 2 ^ 31) (y := ((t + 1 : Nat) : ℝ) / 2 ^ 31)
    (div_pos h0 (by norm_num)) (div_le_div_of_nonneg_right (by push_cast; linarith) (by norm_num))
  linarith

theorem sum_log_lower (m : Nat) (c : ℝ) (hc : (m : ℝ) + 1 ≤ c) :
    2 * m - 2 * Real.log (m + 1) ≤ ∑ k ∈ range (m + 1), -2 * Real.log ((k : ℝ) / c) := by
  have hc' : 0 < c := lt_of_lt_of_le (by positivity) hc
  have key : ∀ m : Nat, 2 * m * Real.log c - 2 * ((m + 1) * Real.log (m + 1) - m)
      ≤ ∑ k ∈ range (m + 1), -2 * Real.log ((k : ℝ) / c) := by
    intro m
    induction m with
    | zero => simp
    | succ m ih =>
      rw [sum_range_succ]
      have h1 : (0 : ℝ) < m + 1 := by positivity
      have h2 : (0 : ℝ) < m + 1 + 1 := by positivity
      have h3 := Real.one_sub_inv_le_log_of_pos (x := ((m : ℝ) + 1 + 1) / (m + 1)) (by positivity)
      rw [Real.log_div h2.ne' h1.ne', inv_div] at h3
      have h4 : (1 : ℝ) ≤ (m + 1 + 1) * (Real.log (m + 1 + 1) - Real.log (m + 1)) := by
        have := mul_le_mul_of_nonneg_left h3 h2.le
        have e : ((m : ℝ) + 1 + 1) * (1 - (m + 1) / (m + 1 + 1)) = 1 := by field_simp; ring
        linarith
      push_cast
      rw [Real.log_div h1.ne' hc'.ne']
      nlinarith
  refine le_trans ?_ (key m)
  have h1 : (0 : ℝ) < m + 1 := by positivity
  have := Real.log_le_log h1 hc
  have hm : (0 : ℝ) ≤ m := Nat.cast_nonneg m
  nlinarith

theorem mean_log_lower : 2 * (1 - 1 / 10 ^ 7) ≤ seedMean (fun s => -2 * Real.log (draw s 0)) := by
  have h1 := sum_next fun t => -2 * Real.log ((t : ℝ) / 2 ^ 31)
  unfold seedMean
  simp only [draw_zero]
  rw [h1]
  have h2 := sum_log_lower 2147483646 (2 ^ 31) (by norm_num)
  rw [show (2 ^ 31 - 1 : Nat) = 2147483646 + 1 by norm_num]
  rw [le_div_iff₀ (by norm_num)]
  refine le_trans ?_ h2
  have h3 : Real.log (((2147483646 : Nat) : ℝ) + 1) ≤ 31 * Real.log 2 := by
    rw [← Nat.cast_ofNat (n := 31), ← Real.log_pow]
    exact Real.log_le_log (by norm_num) (by norm_num)
  have h4 := Real.log_two_lt_d9
  push_cast at h3 ⊢
  clear h1 h2
  generalize Real.log (2147483646 + 1) = y at *
  norm_num at h4 ⊢
  linarith

end Spread

open Spread

variable {w : Width}

/-- C100. The mean square of a weight of the normal methods is `2 / n`, as it should be, up to a
relative error of 10⁻⁵. -/
theorem C100_normal {W : Nat → ℂ} (n : Nat)
    (h : Weights w (.heInit n) W ∨ Weights w (.xavierGlorotN n) W) :
    |seedMean (fun s => ‖W s‖ ^ 2) - 2 / n| ≤ 2 / n * (1 / 10 ^ 5) := by
  have hn : (0 : ℝ) ≤ 2 / n := by positivity
  have hW : ∀ s, s < 2 ^ 31 - 1 →
      W s = boxMuller (√(2 / n)) (draw s 0) (draw s 1) * direction (draw s 2) := fun s hs => by
    rcases h with h | h
    · exact weight_eq h s hs
    · exact weight_eq h s hs
  let V : Nat → ℂ := fun s => (logDraw (lcgNext s) : ℂ)
    * direction (2 * ((lcgNext (lcgNext s) : ℝ) / 2 ^ 31))
  have e : ∀ s, s < 2 ^ 31 - 1 →
      ‖W s‖ ^ 2 = 2 / n * (1 / 2 * (-2 * Real.log (draw s 0)) + 1 / 2 * (V s).re) := fun s hs => by
    have hl := logDraw_nonneg (lcgNext_lt s)
    have hV : (V s).re = logDraw (lcgNext s) * Real.cos (2 * (2 * Real.pi * draw s 1)) := by
      rw [draw_one]
      simp only [V]
      rw [Complex.re_ofReal_mul, direction_re]
      congr 2
      ring
    rw [hW s hs, norm_mul, direction_norm', mul_one, Complex.norm_real, Real.norm_eq_abs, sq_abs,
      boxMuller, mul_pow, mul_pow, Real.sq_sqrt hn, hV, Real.cos_two_mul]
    have e2 : -2 * Real.log (draw s 0) = logDraw (lcgNext s) := rfl
    rw [e2, Real.sq_sqrt hl]
    ring
  rw [mean_congr e, mean_mul, mean_add, mean_mul (1 / 2) fun s => -2 * Real.log (draw s 0),
    mean_mul (1 / 2) fun s => (V s).re]
  have hV := (mean_small (W := V) (g := logDraw)
    (E := fun t => direction (2 * ((lcgNext t : ℝ) / 2 ^ 31))) (M := 43) (fun s _ => rfl) wave_two
    (fun t ht => by rw [abs_of_nonneg (logDraw_nonneg ht)]; exact logDraw_le t)
    (Or.inr fun t ht _ => logDraw_anti ht)).1
  have h1 := mean_log
  have h2 := mean_log_lower
  generalize seedMean (fun s => -2 * Real.log (draw s 0)) = x at *
  generalize seedMean (fun s => (V s).re) = y at *
  rw [show 2 / (n : ℝ) * (1 / 2 * x + 1 / 2 * y) - 2 / n = 2 / n * (1 / 2 * x + 1 / 2 * y - 1) by ring,
    abs_mul, abs_of_nonneg hn]
  refine mul_le_mul_of_nonneg_left ?_ hn
  rw [abs_le] at hV ⊢
  constructor <;> linarith [hV.1, hV.2]

/-- C100. The mean weight is zero: up to 10⁻⁷ of the radius, or 10⁻⁶ of the standard deviation. -/
theorem C100_mean {W : Nat → ℂ} :
    (∀ method, 0 < circleRadius method → Weights w method W →
      |seedMean fun s => (W s).re| ≤ circleRadius method / 10 ^ 7
      ∧ |seedMean fun s => (W s).im| ≤ circleRadius method / 10 ^ 7)
    ∧ ∀ n : Nat, (Weights w (.heInit n) W ∨ Weights w (.xavierGlorotN n) W) →
      |seedMean fun s => (W s).re| ≤ √(2 / n) / 10 ^ 6
      ∧ |seedMean fun s => (W s).im| ≤ √(2 / n) / 10 ^ 6 := by
  constructor
  · intro method hr h
    have key : ∀ ρ : ℝ, 0 < ρ → (∀ s, s < 2 ^ 31 - 1 →
        W s = uniformModulus w ρ (draw s 0) * direction (draw s 1)) →
        |seedMean fun s => (W s).re| ≤ ρ / 10 ^ 7 ∧ |seedMean fun s => (W s).im| ≤ ρ / 10 ^ 7 := by
      intro ρ hρ hW
      refine mean_small (g := fun t => uniformModulus w ρ ((t : ℝ) / 2 ^ 31))
        (E := fun t => direction ((lcgNext t : ℝ) / 2 ^ 31)) hW wave_one (fun t ht => ?_)
        (Or.inl fun t _ _ => ?_)
      · have h1 : (t : ℝ) / 2 ^ 31 ≤ 1 := (div_le_one (by norm_num)).mpr
          (by exact_mod_cast (ht.trans (by norm_num)).le)
        have h0 : 0 ≤ (t : ℝ) / 2 ^ 31 := div_nonneg (Nat.cast_nonneg _) (by norm_num)
        cases w <;> simp only [uniformModulus] <;> rw [abs_le] <;> constructor <;> nlinarith
      · have h1 : (t : ℝ) / 2 ^ 31 ≤ ((t + 1 : Nat) : ℝ) / 2 ^ 31 :=
          div_le_div_of_nonneg_right (by push_cast; linarith) (by norm_num)
        cases w <;> simp only [uniformModulus] <;> nlinarith
    have e := fun s hs => weight_eq h s hs
    cases method with
    | uniform scale => exact key _ hr e
    | xavierGlorotU n => exact key _ hr e
    | xavier n => exact key _ hr e
    | xavierGlorotN n => exact absurd hr (lt_irrefl _)
    | heInit n => exact absurd hr (lt_irrefl _)
  · intro n h
    have hW : ∀ s, s < 2 ^ 31 - 1 →
        W s = boxMuller (√(2 / n)) (draw s 0) (draw s 1) * direction (draw s 2) := fun s hs => by
      rcases h with h | h
      · exact weight_eq h s hs
      · exact weight_eq h s hs
    let Vp : Nat → ℂ := fun s => (√(logDraw (lcgNext s)) : ℂ) * direction
      ((lcgNext (lcgNext (lcgNext s)) : ℝ) / 2 ^ 31 + (lcgNext (lcgNext s) : ℝ) / 2 ^ 31)
    let Vm : Nat → ℂ := fun s => (√(logDraw (lcgNext s)) : ℂ) * direction
      ((lcgNext (lcgNext (lcgNext s)) : ℝ) / 2 ^ 31 - (lcgNext (lcgNext s) : ℝ) / 2 ^ 31)
    have hM : ∀ t, t < P → |√(logDraw t)| ≤ 7 := fun t _ => by
      rw [abs_of_nonneg (Real.sqrt_nonneg _), Real.sqrt_le_left (by norm_num)]
      linarith [logDraw_le t]
    have ha : ∀ t, 0 < t → t + 1 < P → √(logDraw (t + 1)) ≤ √(logDraw t) := fun t ht _ =>
      Real.sqrt_le_sqrt (logDraw_anti ht)
    have hp := mean_small (W := Vp) (g := fun t => √(logDraw t)) (E := fun t => direction
      ((lcgNext (lcgNext t) : ℝ) / 2 ^ 31 + (lcgNext t : ℝ) / 2 ^ 31)) (M := 7) (fun s _ => rfl)
      wave_sum_draws hM (Or.inr ha)
    have hm := mean_small (W := Vm) (g := fun t => √(logDraw t)) (E := fun t => direction
      ((lcgNext (lcgNext t) : ℝ) / 2 ^ 31 - (lcgNext t : ℝ) / 2 ^ 31)) (M := 7) (fun s _ => rfl)
      wave_diff_draws hM (Or.inr ha)
    have e : ∀ s, s < 2 ^ 31 - 1 → W s = ((√(2 / n) / 2 : ℝ) : ℂ) * (Vp s + Vm s) := fun s hs => by
      have hc : ((Real.cos (2 * Real.pi * draw s 1) : ℝ) : ℂ)
          = (direction (draw s 1) + direction (-draw s 1)) / 2 := by
        rw [Complex.ofReal_cos, Complex.cos]
        unfold direction
        congr 3
        push_cast
        ring
      have e1 : Vp s + Vm s = (√(logDraw (lcgNext s)) : ℂ)
          * (direction (draw s 2) * (direction (draw s 1) + direction (-draw s 1))) := by
        rw [mul_add, ← direction_add, ← direction_add, ← sub_eq_add_neg, mul_add]
        rfl
      have e2 : -2 * Real.log (draw s 0) = logDraw (lcgNext s) := rfl
      rw [hW s hs, e1, boxMuller, e2, Complex.ofReal_mul, Complex.ofReal_mul, hc]
      push_cast
      ring
    have hs0 : 0 ≤ √(2 / (n : ℝ)) := Real.sqrt_nonneg _
    have fin : ∀ x y : ℝ, |x| ≤ 7 / 10 ^ 7 → |y| ≤ 7 / 10 ^ 7 →
        |√(2 / (n : ℝ)) / 2 * (x + y)| ≤ √(2 / n) / 10 ^ 6 := fun x y hx hy => by
      rw [abs_mul, abs_of_nonneg (by linarith)]
      have := (abs_add_le x y).trans (add_le_add hx hy)
      nlinarith
    constructor
    · rw [mean_congr fun s hs => by rw [e s hs, Complex.re_ofReal_mul, Complex.add_re], mean_mul, mean_add]
      exact fin _ _ hp.1 hm.1
    · rw [mean_congr fun s hs => by rw [e s hs, Complex.im_ofReal_mul, Complex.add_im], mean_mul, mean_add]
      exact fin _ _ hp.2 hm.2

example : ∃ W, Weights .w32 (.heInit 784) W := weights_exist _

end Renplex
