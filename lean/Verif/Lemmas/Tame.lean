import Verif.Props.DescentLaw
import Verif.Props.Lipschitz
import Mathlib.Analysis.Calculus.MeanValue
import Mathlib.Analysis.Calculus.Deriv.Star
/-!
# Curves with bounded first and second derivatives
-/

namespace Renplex
open Filter Topology ComplexConjugate

/-- A curve of complex numbers with two derivatives that, as long as `|s|·δ ≤ 1`, is bounded by `K`
with first derivative bounded by `K·δ` and second derivative bounded by `K·δ²`. -/
def Tame (K δ : ℝ) (f : ℝ → ℂ) : Prop :=
  ∃ f' f'' : ℝ → ℂ, (∀ s, HasDerivAt f (f' s) s) ∧ (∀ s, HasDerivAt f' (f'' s) s)
    ∧ ∀ s, |s| * δ ≤ 1 → ‖f s‖ ≤ K ∧ ‖f' s‖ ≤ K * δ ∧ ‖f'' s‖ ≤ K * δ ^ 2

namespace Tame
variable {K L δ : ℝ} {f g : ℝ → ℂ}

theorem mono (h : Tame K δ f) (hδ : 0 ≤ δ) (hKL : K ≤ L) : Tame L δ f := by
  obtain ⟨f', f'', h1, h2, h3⟩ := h
  refine ⟨f', f'', h1, h2, fun s hs => ?_⟩
  obtain ⟨a, b, c⟩ := h3 s hs
  exact ⟨a.trans hKL, b.trans (mul_le_mul_of_nonneg_right hKL hδ),
    c.trans (mul_le_mul_of_nonneg_right hKL (sq_nonneg δ))⟩

theorem nonneg (h : Tame K δ f) : 0 ≤ K := by
  obtain ⟨f', f'', h1, h2, h3⟩ := h
  exact (norm_nonneg _).trans (h3 0 (by simp)).1

theorem const {c : ℂ} (hδ : 0 ≤ δ) (hc : ‖c‖ ≤ K) : Tame K δ fun _ => c := by
  have hK := (norm_nonneg c).trans hc
  refine ⟨fun _ => 0, fun _ => 0, fun s => hasDerivAt_const _ _, fun s => hasDerivAt_const _ _,
    fun s _ => ⟨hc, ?_, ?_⟩⟩ <;> simp <;> positivity

/-- A parameter moved along a direction. -/
theorem line {a d : ℂ} {R : ℝ} (hδ : 0 ≤ δ) (ha : ‖a‖ ≤ R) (hd : ‖d‖ ≤ δ) :
    Tame (R + 1) δ fun s : ℝ => a + s * d := by
  have hR := (norm_nonneg a).trans ha
  refine ⟨fun _ => d, fun _ => 0, fun s => ?_, fun s => hasDerivAt_const _ _, fun s hs => ⟨?_, ?_, ?_⟩⟩
  · have h := ((Complex.ofRealCLM.hasDerivAt (x := s)).mul_const d).const_add a
    refine h.congr_deriv ?_
    simp
  · refine (norm_add_le _ _).trans (add_le_add ha ?_)
    rw [norm_mul, Complex.norm_real, Real.norm_eq_abs]
    exact (mul_le_mul_of_nonneg_left hd (abs_nonneg s)).trans hs
  · nlinarith
  · rw [norm_zero]; positivity

theorem add (hf : Tame K δ f) (hg : Tame L δ g) : Tame (K + L) δ fun s => f s + g s := by
  obtain ⟨f', f'', h1, h2, h3⟩ := hf
  obtain ⟨g', g'', k1, k2, k3⟩ := hg
  refine ⟨fun s => f' s + g' s, fun s => f'' s + g'' s, fun s => (h1 s).add (k1 s),
    fun s => (h2 s).add (k2 s), fun s hs => ?_⟩
  obtain ⟨a, b, c⟩ := h3 s hs
  obtain ⟨a', b', c'⟩ := k3 s hs
  refine ⟨(norm_add_le _ _).trans (by linarith), (norm_add_le _ _).trans (by linarith),
    (norm_add_le _ _).trans (by linarith)⟩

theorem neg (hf : Tame K δ f) : Tame K δ fun s => - f s := by
  obtain ⟨f', f'', h1, h2, h3⟩ := hf
  refine ⟨fun s => - f' s, fun s => - f'' s, fun s => (h1 s).neg, fun s => (h2 s).neg, fun s hs => ?_⟩
  simpa using h3 s hs

theorem star (hf : Tame K δ f) : Tame K δ fun s => conj (f s) := by
  obtain ⟨f', f'', h1, h2, h3⟩ := hf
  have key : ∀ {g g' : ℝ → ℂ}, (∀ s, HasDerivAt g (g' s) s) →
      ∀ s, HasDerivAt (fun s => starRingEnd ℂ (g s)) (starRingEnd ℂ (g' s)) s := by
    intro g g' h s
    exact Complex.conjCLE.toContinuousLinearMap.hasFDerivAt.comp_hasDerivAt s (h s)
  refine ⟨_, _, key h1, key h2, fun s hs => ?_⟩
  simpa using h3 s hs

theorem mul (hf : Tame K δ f) (hg : Tame L δ g) (hδ : 0 ≤ δ) :
    Tame (4 * (K * L)) δ fun s => f s * g s := by
  have hK := hf.nonneg
  have hL := hg.nonneg
  obtain ⟨f', f'', h1, h2, h3⟩ := hf
  obtain ⟨g', g'', k1, k2, k3⟩ := hg
  refine ⟨fun s => f' s * g s + f s * g' s, fun s => (f'' s * g s + f' s * g' s)
    + (f' s * g' s + f s * g'' s), fun s => (h1 s).mul (k1 s),
    fun s => ((h2 s).mul (k1 s)).add ((h1 s).mul (k2 s)), fun s hs => ?_⟩
  obtain ⟨a, b, c⟩ := h3 s hs
  obtain ⟨a', b', c'⟩ := k3 s hs
  have hKδ : 0 ≤ K * δ := by positivity
  have hKδ2 : 0 ≤ K * δ ^ 2 := by positivity
  have m1 : ‖f s * g s‖ ≤ K * L := by
    rw [norm_mul]; exact mul_le_mul a a' (norm_nonneg _) hK
  have m2 : ‖f' s * g s‖ ≤ K * δ * L := by
    rw [norm_mul]; exact mul_le_mul b a' (norm_nonneg _) hKδ
  have m3 : ‖f s * g' s‖ ≤ K * (L * δ) := by
    rw [norm_mul]; exact mul_le_mul a b' (norm_nonneg _) hK
  have m4 : ‖f'' s * g s‖ ≤ K * δ ^ 2 * L := by
    rw [norm_mul]; exact mul_le_mul c a' (norm_nonneg _) hKδ2
  have m5 : ‖f' s * g' s‖ ≤ K * δ * (L * δ) := by
    rw [norm_mul]; exact mul_le_mul b b' (norm_nonneg _) hKδ
  have m6 : ‖f s * g'' s‖ ≤ K * (L * δ ^ 2) := by
    rw [norm_mul]; exact mul_le_mul a c' (norm_nonneg _) hK
  have hKL : 0 ≤ K * L := by positivity
  refine ⟨by linarith, ?_, ?_⟩
  · refine (norm_add_le _ _).trans ?_
    have : 0 ≤ K * L * δ := by positivity
    nlinarith
  · refine (norm_add_le _ _).trans ((add_le_add (norm_add_le _ _) (norm_add_le _ _)).trans ?_)
    nlinarith

theorem sum {n : Nat} {F : Nat → ℝ → ℂ} (hδ : 0 ≤ δ) (h : ∀ i < n, Tame K δ (F i)) :
    Tame (n * K) δ fun s => ∑ i ∈ Finset.range n, F i s := by
  induction n with
  | zero => simpa using Tame.const (K := 0) (c := 0) hδ (by simp)
  | succ n ih =>
    simp only [Finset.sum_range_succ]
    refine ((ih fun i hi => h i (by omega)).add (h n (by omega))).mono hδ ?_
    push_cast
    linarith

end Tame

/-! ### The hyperbolic tangent -/

theorem sech2_eq (v : ℝ) : Act.sech2 v = 1 - Real.tanh v ^ 2 := by
  have hc : Real.cosh v ≠ 0 := (Real.cosh_pos v).ne'
  have : Act.sech2 v = 1 / Real.cosh v ^ 2 := by
    simp only [Act.sech2, sdiv, sone, ssq, scosh]
  rw [this, Real.tanh_eq_sinh_div_cosh, div_pow]
  have h := Real.cosh_sq v
  field_simp
  linarith

theorem tanh_sq_le (v : ℝ) : Real.tanh v ^ 2 ≤ 1 := by
  have : 0 ≤ Act.sech2 v := by
    have e : Act.sech2 v = 1 / Real.cosh v ^ 2 := by
      simp only [Act.sech2, sdiv, sone, ssq, scosh]
    rw [e]; positivity
  rw [sech2_eq] at this
  linarith

theorem abs_tanh_le (v : ℝ) : |Real.tanh v| ≤ 1 := by
  rw [← sq_le_one_iff_abs_le_one]; exact tanh_sq_le v

/-- The tangent of a real curve, with bounds. -/
theorem tanh_curve {g g' g'' : ℝ → ℝ} (h1 : ∀ s, HasDerivAt g (g' s) s)
    (h2 : ∀ s, HasDerivAt g' (g'' s) s) :
    ∃ F' F'' : ℝ → ℝ, (∀ s, HasDerivAt (fun s => Real.tanh (g s)) (F' s) s)
      ∧ (∀ s, HasDerivAt F' (F'' s) s)
      ∧ ∀ s, |Real.tanh (g s)| ≤ 1 ∧ |F' s| ≤ |g' s| ∧ |F'' s| ≤ |g'' s| + 2 * |g' s| ^ 2 := by
  have ht : ∀ s, HasDerivAt (fun s => Real.tanh (g s)) ((1 - Real.tanh (g s) ^ 2) * g' s) s := by
    intro s
    have := (hasDerivAt_tanh (g s)).comp s (h1 s)
    rw [sech2_eq] at this
    exact this
  refine ⟨fun s => (1 - Real.tanh (g s) ^ 2) * g' s,
    fun s => -(2 * Real.tanh (g s) * ((1 - Real.tanh (g s) ^ 2) * g' s)) * g' s
      + (1 - Real.tanh (g s) ^ 2) * g'' s, ht, fun s => ?_, fun s => ⟨abs_tanh_le _, ?_, ?_⟩⟩
  · have h3 := (((ht s).pow 2).const_sub 1).mul (h2 s)
    refine h3.congr_deriv ?_
    simp only [Nat.cast_ofNat, Nat.add_one_sub_one, pow_one, Pi.pow_apply]
  · rw [abs_mul]
    have := tanh_sq_le (g s)
    have h0 : |1 - Real.tanh (g s) ^ 2| ≤ 1 := by
      rw [abs_le]; constructor <;> nlinarith [sq_nonneg (Real.tanh (g s))]
    calc _ ≤ 1 * |g' s| := mul_le_mul_of_nonneg_right h0 (abs_nonneg _)
      _ = _ := one_mul _
  · have := tanh_sq_le (g s)
    have h0 : |1 - Real.tanh (g s) ^ 2| ≤ 1 := by
      rw [abs_le]; constructor <;> nlinarith [sq_nonneg (Real.tanh (g s))]
    have ht1 := abs_tanh_le (g s)
    refine (abs_add_le _ _).trans ?_
    rw [add_comm]
    refine add_le_add ?_ ?_
    · rw [abs_mul]
      calc _ ≤ 1 * |g'' s| := mul_le_mul_of_nonneg_right h0 (abs_nonneg _)
        _ = _ := one_mul _
    · rw [abs_mul, abs_neg, abs_mul, abs_mul, abs_mul, abs_two]
      have : |Real.tanh (g s)| * |1 - Real.tanh (g s) ^ 2| ≤ 1 := by
        calc _ ≤ 1 * 1 := mul_le_mul ht1 h0 (abs_nonneg _) zero_le_one
          _ = 1 := one_mul 1
      have h3 : 0 ≤ |g' s| ^ 2 := by positivity
      calc 2 * |Real.tanh (g s)| * (|1 - Real.tanh (g s) ^ 2| * |g' s|) * |g' s|
          = 2 * ((|Real.tanh (g s)| * |1 - Real.tanh (g s) ^ 2|) * |g' s| ^ 2) := by ring
        _ ≤ 2 * (1 * |g' s| ^ 2) := by
            refine mul_le_mul_of_nonneg_left (mul_le_mul_of_nonneg_right this h3) zero_le_two
        _ = _ := by ring

/-- The bound after an activation. -/
noncomputable def actBound (K : ℝ) : ℝ := 2 * (1 + K + 2 * K ^ 2)

theorem le_actBound {K : ℝ} (h : 0 ≤ K) : K ≤ actBound K := by
  unfold actBound; nlinarith

theorem Tame.tanh {K δ : ℝ} {f : ℝ → ℂ} (h : Tame K δ f) (hδ : 0 ≤ δ) :
    Tame (actBound K) δ fun s => ⟨Real.tanh (f s).re, Real.tanh (f s).im⟩ := by
  have hK := h.nonneg
  obtain ⟨f', f'', h1, h2, h3⟩ := h
  have re : ∀ {g g' : ℝ → ℂ}, (∀ s, HasDerivAt g (g' s) s) →
      ∀ s, HasDerivAt (fun s => (g s).re) (g' s).re s := fun h s =>
    Complex.reCLM.hasFDerivAt.comp_hasDerivAt s (h s)
  have im : ∀ {g g' : ℝ → ℂ}, (∀ s, HasDerivAt g (g' s) s) →
      ∀ s, HasDerivAt (fun s => (g s).im) (g' s).im s := fun h s =>
    Complex.imCLM.hasFDerivAt.comp_hasDerivAt s (h s)
  have join : ∀ {a b a' b' : ℝ → ℝ}, (∀ s, HasDerivAt a (a' s) s) → (∀ s, HasDerivAt b (b' s) s) →
      ∀ s, HasDerivAt (fun s => (⟨a s, b s⟩ : ℂ)) ⟨a' s, b' s⟩ s := by
    intro a b a' b' ha hb s
    have := (ha s).ofReal_comp.add ((hb s).ofReal_comp.mul_const Complex.I)
    refine (this.congr_deriv ?_).congr_of_eventuallyEq (Eventually.of_forall fun s => ?_)
    · exact (Complex.mk_eq_add_mul_I _ _).symm
    · exact Complex.mk_eq_add_mul_I _ _
  obtain ⟨F', F'', a1, a2, a3⟩ := tanh_curve (re h1) (re h2)
  obtain ⟨G', G'', b1, b2, b3⟩ := tanh_curve (im h1) (im h2)
  refine ⟨fun s => ⟨F' s, G' s⟩, fun s => ⟨F'' s, G'' s⟩, join a1 b1, join a2 b2, fun s hs => ?_⟩
  obtain ⟨c1, c2, c3⟩ := h3 s hs
  obtain ⟨p1, p2, p3⟩ := a3 s
  obtain ⟨q1, q2, q3⟩ := b3 s
  have r1 := (Complex.abs_re_le_norm (f' s)).trans c2
  have r2 := (Complex.abs_im_le_norm (f' s)).trans c2
  have s1 := (Complex.abs_re_le_norm (f'' s)).trans c3
  have s2 := (Complex.abs_im_le_norm (f'' s)).trans c3
  have t1 : |(f' s).re| ^ 2 ≤ (K * δ) ^ 2 := pow_le_pow_left₀ (abs_nonneg _) r1 2
  have t2 : |(f' s).im| ^ 2 ≤ (K * δ) ^ 2 := pow_le_pow_left₀ (abs_nonneg _) r2 2
  have n1 : ∀ z : ℂ, ‖z‖ ≤ |z.re| + |z.im| := Complex.norm_le_abs_re_add_abs_im
  have e0 : 0 ≤ K * δ := by positivity
  have e1 : 0 ≤ K * δ ^ 2 := by positivity
  have e2 : 0 ≤ K ^ 2 * δ := by positivity
  have e3 : 0 ≤ K ^ 2 * δ ^ 2 := by positivity
  have e4 : 0 ≤ δ ^ 2 := by positivity
  unfold actBound
  refine ⟨(n1 _).trans ?_, (n1 _).trans ?_, (n1 _).trans ?_⟩
  · simp only
    nlinarith
  · simp only
    nlinarith
  · simp only
    nlinarith

/-- The second-order bound for a curve whose second derivative is bounded. -/
theorem taylor_le {E E' E'' : ℝ → ℝ} (h1 : ∀ s, HasDerivAt E (E' s) s)
    (h2 : ∀ s, HasDerivAt E' (E'' s) s) {r M : ℝ} (hr : 0 ≤ r)
    (hM : ∀ s, 0 ≤ s → s ≤ r → E'' s ≤ M) : E r ≤ E 0 + E' 0 * r + M * r ^ 2 / 2 := by
  have anti : ∀ {g g' : ℝ → ℝ}, (∀ s, HasDerivAt g (g' s) s) → (∀ s, 0 ≤ s → s ≤ r → g' s ≤ 0) →
      ∀ s, 0 ≤ s → s ≤ r → g s ≤ g 0 := by
    intro g g' hg h0 s hs hsr
    have := antitoneOn_of_deriv_nonpos (convex_Icc 0 r)
      (fun s _ => (hg s).continuousAt.continuousWithinAt)
      (fun s _ => (hg s).differentiableAt.differentiableWithinAt)
      (fun s hs => by
        rw [interior_Icc] at hs
        rw [(hg s).deriv]
        exact h0 s hs.1.le hs.2.le)
    exact this ⟨le_rfl, hr⟩ ⟨hs, hsr⟩ hs
  have k1 := anti (g := fun s => E' s - M * s) (g' := fun s => E'' s - M)
    (fun s => by
      refine ((h2 s).sub ((hasDerivAt_id s).const_mul M)).congr_deriv ?_
      simp) (fun s h0 h1 => by linarith [hM s h0 h1])
  have k2 := anti (g := fun s => E s - E' 0 * s - M * s ^ 2 / 2)
    (g' := fun s => E' s - E' 0 - M * s)
    (fun s => by
      have a := (hasDerivAt_id s).const_mul (E' 0)
      have b := (((hasDerivAt_id s).pow 2).const_mul M).div_const 2
      refine (((h1 s).sub a).sub b).congr_deriv ?_
      simp
      ring) (fun s h0 h1 => by
        have := k1 s h0 h1
        simp only [mul_zero, sub_zero] at this
        linarith) r hr le_rfl
  simp only [mul_zero, sub_zero] at k2
  norm_num at k2
  linarith

end Renplex
