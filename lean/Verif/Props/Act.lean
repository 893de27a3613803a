import Verif.Props.Complex
import Verif.Lemmas.Wirtinger
import Verif.Lemmas.List
import Mathlib.Analysis.SpecialFunctions.ExpDeriv
import Mathlib.Analysis.SpecialFunctions.Trigonometric.DerivHyp
import Mathlib.Analysis.Calculus.Deriv.Abs
import Mathlib.Analysis.Complex.ExponentialBounds
/-!
# C29–C32: activation functions
-/

namespace Renplex
open Filter Topology ComplexConjugate Act
variable {w : Width}

/-! ## Real building blocks -/

/-- The threshold beyond which the sigmoid is constant: 15 (`Cf32`), 30 (`Cf64`). -/
def threshold : Width → ℝ
  | .w32 => 15
  | .w64 => 30

theorem sigThreshold_eq : (sigThreshold w : ℝ) = threshold w := by
  cases w <;> simp [sigThreshold, threshold]

theorem threshold_pos : 0 < threshold w := by cases w <;> norm_num [threshold]

theorem sigmoid_hi {v : ℝ} (h : threshold w ≤ v) : sigmoid w v = sigHi w := by
  unfold sigmoid
  rw [if_pos (by rw [sle, sigThreshold_eq]; exact h)]

theorem sigmoid_lo {v : ℝ} (h : v ≤ -threshold w) : sigmoid w v = sigLo w := by
  unfold sigmoid
  have := threshold_pos (w := w)
  rw [if_neg (by rw [sle, sigThreshold_eq]; linarith),
    if_pos (by rw [sle, sneg, sigThreshold_eq]; exact h)]

theorem sigmoid_mid {v : ℝ} (h1 : -threshold w < v) (h2 : v < threshold w) :
    sigmoid w v = Real.exp v / (1 + Real.exp v) := by
  unfold sigmoid
  rw [if_neg (by rw [sle, sigThreshold_eq]; linarith),
    if_neg (by rw [sle, sneg, sigThreshold_eq]; linarith)]
  simp

theorem hasDerivAt_sigmoid {v : ℝ} (h1 : -threshold w < v) (h2 : v < threshold w) :
    HasDerivAt (sigmoid w : ℝ → ℝ) (dSigmoid w v) v := by
  have hpos : 0 < 1 + Real.exp v := by positivity
  have h : HasDerivAt (fun v => Real.exp v / (1 + Real.exp v))
      ((Real.exp v * (1 + Real.exp v) - Real.exp v * Real.exp v) / (1 + Real.exp v) ^ 2) v :=
    (Real.hasDerivAt_exp v).div ((Real.hasDerivAt_exp v).const_add 1) hpos.ne'
  have e : dSigmoid w v
      = (Real.exp v * (1 + Real.exp v) - Real.exp v * Real.exp v) / (1 + Real.exp v) ^ 2 := by
    simp only [dSigmoid, sigmoid_mid h1 h2, smul', ssub, sone]
    field_simp
  rw [e]
  refine h.congr_of_eventuallyEq ?_
  filter_upwards [Ioo_mem_nhds h1 h2] with u hu
  exact sigmoid_mid hu.1 hu.2

theorem hasDerivAt_sigmoid_plateau {v : ℝ} (h : threshold w < |v|) :
    HasDerivAt (sigmoid w : ℝ → ℝ) 0 v := by
  rcases lt_abs.mp h with h | h
  · refine (hasDerivAt_const v (sigHi w : ℝ)).congr_of_eventuallyEq ?_
    filter_upwards [Ioi_mem_nhds h] with u hu
    exact sigmoid_hi (le_of_lt hu)
  · have h' : v < -threshold w := by linarith
    refine (hasDerivAt_const v (sigLo w : ℝ)).congr_of_eventuallyEq ?_
    filter_upwards [Iio_mem_nhds h'] with u hu
    exact sigmoid_lo (le_of_lt hu)

theorem sigmoid_bounds (v : ℝ) : 0 < sigmoid w v ∧ sigmoid w v < 1 := by
  by_cases h1 : threshold w ≤ v
  · rw [sigmoid_hi h1]; cases w <;> norm_num [sigHi]
  · by_cases h2 : v ≤ -threshold w
    · rw [sigmoid_lo h2]; cases w <;> norm_num [sigLo]
    · rw [sigmoid_mid (by linarith) (by linarith)]
      have := Real.exp_pos v
      refine ⟨by positivity, ?_⟩
      rw [div_lt_one (by positivity)]
      linarith

theorem dSigmoid_pos (v : ℝ) : 0 < dSigmoid w v := by
  have := sigmoid_bounds (w := w) v
  simp only [dSigmoid, smul', ssub, sone]
  exact mul_pos this.1 (by linarith)

theorem relu_eq (v : ℝ) : relu v = max 0 v := by
  unfold relu
  by_cases h : v < 0
  · have : Scalar.signNeg v = true := (ssignNeg v).mpr h
    simp [this, max_eq_left h.le]
  · have : Scalar.signNeg v = false := by
      rw [Bool.eq_false_iff, ne_eq, ssignNeg]; exact h
    simp [this, max_eq_right (not_lt.mp h)]

theorem dRelu_eq (v : ℝ) : dRelu v = if v < 0 then 0 else 1 := by
  unfold dRelu
  by_cases h : v < 0
  · have : Scalar.signNeg v = true := (ssignNeg v).mpr h
    simp [this, h]
  · have : Scalar.signNeg v = false := by
      rw [Bool.eq_false_iff, ne_eq, ssignNeg]; exact h
    simp [this, h]

theorem hasDerivAt_relu {v : ℝ} (h : v ≠ 0) : HasDerivAt (relu : ℝ → ℝ) (dRelu v) v := by
  rcases lt_or_gt_of_ne h with h | h
  · rw [dRelu_eq, if_pos h]
    refine (hasDerivAt_const v (0 : ℝ)).congr_of_eventuallyEq ?_
    filter_upwards [Iio_mem_nhds h] with u hu
    rw [relu_eq, max_eq_left (le_of_lt hu)]
  · rw [dRelu_eq, if_neg (by linarith)]
    refine (hasDerivAt_id v).congr_of_eventuallyEq ?_
    filter_upwards [Ioi_mem_nhds h] with u hu
    rw [relu_eq, max_eq_right (le_of_lt hu)]; rfl

theorem not_differentiableAt_max_zero : ¬ DifferentiableAt ℝ (fun s : ℝ => max 0 s) 0 := by
  intro h
  apply not_differentiableAt_abs_zero
  have h2 : DifferentiableAt ℝ (fun s : ℝ => 2 * max 0 s - s) 0 :=
    (h.const_mul 2).sub differentiableAt_id
  refine h2.congr_of_eventuallyEq (Eventually.of_forall fun s => ?_)
  simp only
  rcases le_total 0 s with hs | hs
  · rw [abs_of_nonneg hs, max_eq_right hs]; ring
  · rw [abs_of_nonpos hs, max_eq_left hs]; ring

theorem hasDerivAt_tanh (v : ℝ) : HasDerivAt Real.tanh (sech2 v) v := by
  have hc : Real.cosh v ≠ 0 := (Real.cosh_pos v).ne'
  have h := (Real.hasDerivAt_sinh v).div (Real.hasDerivAt_cosh v) hc
  have e : sech2 v
      = (Real.cosh v * Real.cosh v - Real.sinh v * Real.sinh v) / Real.cosh v ^ 2 := by
    simp only [sech2, sdiv, sone, ssq, scosh]
    congr 1
    have := Real.cosh_sq v
    nlinarith
  rw [e]
  refine h.congr_of_eventuallyEq (Eventually.of_forall fun u => ?_)
  exact Real.tanh_eq_sinh_div_cosh u

/-! ## C29 derivatives -/

/-- What C29 asks for at one point: both derivative functions return, and what they return are the
Wirtinger derivatives of the activation. -/
def DerivsRight (f : ActFunc) (z : Cf w ℝ) : Prop :=
  ∃ d dc, dActivate f z = some d ∧ dConjActivate f z = some dc ∧ RunDerivAt (activate f) z d dc

theorem runDeriv_split {u v : ℝ → ℝ} {a b : ℝ} {f : ActFunc} (z : Cf w ℝ)
    (hf : ∀ ζ : Cf w ℝ, activate f ζ = some ⟨u ζ.x, v ζ.y⟩) (hu : HasDerivAt u a z.x)
    (hv : HasDerivAt v b z.y) :
    RunDerivAt (activate f) z ⟨(a + b) / 2, 0⟩ ⟨(a - b) / 2, 0⟩ := by
  refine ⟨fun ζ => ⟨u ζ.re, v ζ.im⟩, Eventually.of_forall fun ζ => hf _, ?_⟩
  have h := HasWirtinger.split (z := z.toC) hu hv
  exact h

theorem modZ_eq (z : Cf w ℝ) (hz : z.toC ≠ 0) :
    modZ z = some (Cf.ofC (z.toC * ((‖z.toC‖⁻¹ : ℝ) : ℂ))) := by
  have hn : (Cf.new z.norm Scalar.zero : Cf w ℝ).toC = (‖z.toC‖ : ℂ) := by
    rw [Cf.norm_eq]; apply Complex.ext <;> simp [Cf.new]
  obtain ⟨q, h1, h2⟩ := div_toC z (Cf.new z.norm Scalar.zero) (by
    rw [hn]; exact_mod_cast norm_ne_zero_iff.mpr hz)
  rw [modZ, h1, ← Cf.ofC_toC q, h2, hn]
  push_cast
  rw [div_eq_mul_inv]

theorem modZ_right (z : Cf w ℝ) (hz : z.toC ≠ 0) : DerivsRight .modZ z := by
  have hn : (‖z.toC‖ : ℂ) ≠ 0 := by exact_mod_cast norm_ne_zero_iff.mpr hz
  have hc : z.conj.toC ≠ 0 := by rw [Cf.toC_conj]; simpa using hz
  obtain ⟨q, h1, h2⟩ := div_toC z z.conj hc
  have hm : (Cf.new (Scalar.neg (Scalar.mul Scalar.two z.norm)) Scalar.zero : Cf w ℝ).toC
      = -(2 * (‖z.toC‖ : ℂ)) := by
    rw [Cf.norm_eq]; apply Complex.ext <;> simp [Cf.new]
  obtain ⟨q', h3, h4⟩ := div_toC q _ (by rw [hm]; simpa using norm_ne_zero_iff.mpr hz)
  refine ⟨dModZ z, q', rfl, ?_, ?_⟩
  · simp only [dConjActivate, dConjModZ, h1, Option.bind_eq_bind, Option.bind_some]
    exact h3
  · refine ⟨fun ζ => ζ * ((‖ζ‖⁻¹ : ℝ) : ℂ), ?_, ?_⟩
    · filter_upwards [isOpen_ne.mem_nhds hz] with ζ hζ
      exact modZ_eq (Cf.ofC ζ) hζ
    · have h := HasWirtinger.id.mul (hasWirtinger_inv_norm hz)
      have hzz : z.toC * conj z.toC = (‖z.toC‖ : ℂ) ^ 2 := by
        rw [Complex.mul_conj, Complex.normSq_eq_norm_sq]; push_cast; rfl
      have hcc : conj z.toC ≠ 0 := by simpa using hz
      have e1 : (dModZ z).toC = z.toC * (-conj z.toC / (2 * (‖z.toC‖ : ℂ) ^ 3))
          + 1 * ((‖z.toC‖⁻¹ : ℝ) : ℂ) := by
        have : (dModZ z).toC = 1 / (2 * (‖z.toC‖ : ℂ)) := by
          rw [dModZ, Cf.norm_eq]
          have : (1 : ℂ) / (2 * (‖z.toC‖ : ℂ)) = ((1 / (2 * ‖z.toC‖) : ℝ) : ℂ) := by push_cast; rfl
          rw [this]
          apply Complex.ext <;> simp [Cf.new]
        rw [this]
        push_cast
        field_simp
        linear_combination hzz
      have e2 : q'.toC = z.toC * (-z.toC / (2 * (‖z.toC‖ : ℂ) ^ 3))
          + 0 * ((‖z.toC‖⁻¹ : ℝ) : ℂ) := by
        rw [h4, h2, hm, Cf.toC_conj]
        field_simp
        linear_combination z.toC * hzz
      rw [e1, e2]
      exact h

theorem zRelu_pos (z : Cf w ℝ) (hx : 0 ≤ z.x) (hy : 0 ≤ z.y) : zRelu z = z := by
  unfold zRelu
  rw [if_neg]
  simp only [Cf.re, Cf.im, Bool.or_eq_true, ssignNeg]
  rintro (h | h) <;> linarith

theorem zRelu_neg (z : Cf w ℝ) (h : z.x < 0 ∨ z.y < 0) : zRelu z = Cf.default := by
  unfold zRelu
  rw [if_pos]
  · rfl
  · simpa only [Cf.re, Cf.im, Bool.or_eq_true, ssignNeg] using h

theorem zRelu_right (z : Cf w ℝ) (h : (z.x < 0 ∨ z.y < 0) ∨ (0 < z.x ∧ 0 < z.y)) :
    DerivsRight .zReLU z := by
  rcases h with h | ⟨hx, hy⟩
  · refine ⟨Cf.default, Cf.default, ?_, rfl, ?_⟩
    · simp only [dActivate, dZRelu]
      rw [if_pos (by simpa only [Cf.re, Cf.im, Bool.or_eq_true, ssignNeg] using h)]
      rfl
    · refine ⟨fun _ => 0, ?_, ?_⟩
      · have ho : IsOpen {ζ : ℂ | ζ.re < 0 ∨ ζ.im < 0} :=
          (isOpen_lt Complex.continuous_re continuous_const).union
            (isOpen_lt Complex.continuous_im continuous_const)
        filter_upwards [ho.mem_nhds (show z.toC ∈ _ from h)] with ζ hζ
        simp only [activate]
        rw [zRelu_neg (Cf.ofC ζ) hζ]
        congr 1
        apply Cf.toC_inj.mp
        exact Cf.toC_default
      · rw [show (Cf.default : Cf w ℝ).toC = 0 from Cf.toC_default]
        exact HasWirtinger.const 0
  · refine ⟨Cf.unit, Cf.default, ?_, rfl, ?_⟩
    · simp only [dActivate, dZRelu]
      rw [if_neg]
      · rfl
      · simp only [Cf.re, Cf.im, Bool.or_eq_true, ssignNeg]
        rintro (h | h) <;> linarith
    · refine ⟨fun ζ => ζ, ?_, ?_⟩
      · have ho : IsOpen {ζ : ℂ | 0 < ζ.re ∧ 0 < ζ.im} :=
          (isOpen_lt continuous_const Complex.continuous_re).inter
            (isOpen_lt continuous_const Complex.continuous_im)
        filter_upwards [ho.mem_nhds (show z.toC ∈ _ from ⟨hx, hy⟩)] with ζ hζ
        simp only [activate]
        rw [zRelu_pos (Cf.ofC ζ) (le_of_lt hζ.1) (le_of_lt hζ.2)]
      · rw [Cf.toC_unit, show (Cf.default : Cf w ℝ).toC = 0 from Cf.toC_default]
        exact HasWirtinger.id

/-- A differentiable activation is differentiable along every line. -/
theorem RunDifferentiableAt.line {f : Cf w ℝ → Run (Cf w ℝ)} {z : Cf w ℝ}
    (h : RunDifferentiableAt f z) (c : ℂ) :
    ∃ G : ℝ → ℂ, DifferentiableAt ℝ G 0
      ∧ ∀ᶠ s : ℝ in 𝓝 (0 : ℝ), f (Cf.ofC (z.toC + s * c)) = some (Cf.ofC (G s)) := by
  obtain ⟨F, h1, h2⟩ := h
  have hl : DifferentiableAt ℝ (fun s : ℝ => z.toC + s * c) 0 :=
    ((Complex.ofRealCLM.differentiableAt).mul_const c).const_add _
  have h0 : z.toC + ((0 : ℝ) : ℂ) * c = z.toC := by simp
  refine ⟨fun s => F (z.toC + s * c), ?_, ?_⟩
  · exact DifferentiableAt.comp (0 : ℝ) (by rw [h0]; exact h2) hl
  · have : Tendsto (fun s : ℝ => z.toC + s * c) (𝓝 0) (𝓝 z.toC) := by
      have := hl.continuousAt.tendsto
      rwa [h0] at this
    exact this.eventually h1

theorem not_relu_re {G : ℝ → ℂ} (h : DifferentiableAt ℝ G 0)
    (he : ∀ᶠ s : ℝ in 𝓝 (0 : ℝ), (G s).re = max 0 s) : False :=
  not_differentiableAt_max_zero
    ((Complex.reCLM.differentiableAt.comp (0 : ℝ) h).congr_of_eventuallyEq
      (he.mono fun _ hs => hs.symm))

theorem not_relu_im {G : ℝ → ℂ} (h : DifferentiableAt ℝ G 0)
    (he : ∀ᶠ s : ℝ in 𝓝 (0 : ℝ), (G s).im = max 0 s) : False :=
  not_differentiableAt_max_zero
    ((Complex.imCLM.differentiableAt.comp (0 : ℝ) h).congr_of_eventuallyEq
      (he.mono fun _ hs => hs.symm))

/-- C29, the part that holds, for five of the seven options: at every point where the activation
is differentiable, `d_activate` and `d_conj_activate` return its Wirtinger derivatives (missing:
sigmoid beyond the threshold and cardioid, where this is false; see `C29_partial_sigmoid`,
`C29_refuted_sigmoid`, `C29_refuted_cardioid`). -/
theorem C29_partial (f : ActFunc) (hs : f ≠ .ritSigmoid) (hc : f ≠ .cardioid) (z : Cf w ℝ)
    (hd : RunDifferentiableAt (activate f) z) : DerivsRight f z := by
  cases f with
  | none =>
    refine ⟨_, _, rfl, rfl, fun ζ => ζ, Eventually.of_forall fun ζ => rfl, ?_⟩
    rw [Cf.toC_unit, show (Cf.default : Cf w ℝ).toC = 0 from Cf.toC_default]
    exact HasWirtinger.id
  | ritSigmoid => exact absurd rfl hs
  | cardioid => exact absurd rfl hc
  | modZ =>
    apply modZ_right
    intro hz
    obtain ⟨F, h1, -⟩ := hd
    have h2 := h1.self_of_nhds
    have : modZ z = Option.none := by
      apply ((C19_div z _).2).mpr
      rw [Cf.norm_eq, hz]
      apply Complex.ext <;> simp [Cf.new]
    rw [Cf.ofC_toC] at h2
    simp only [activate, this] at h2
    cases h2
  | ritTanh =>
    refine ⟨_, _, rfl, rfl, ?_⟩
    have h := runDeriv_split (f := .ritTanh) z (fun ζ => rfl) (hasDerivAt_tanh z.x)
      (hasDerivAt_tanh z.y)
    convert h using 1
    · simp [dRitTanh, half, div_eq_mul_inv]
    · simp [dConjRitTanh, half, div_eq_mul_inv]
  | ritReLU =>
    refine ⟨_, _, rfl, rfl, ?_⟩
    have hx : z.x ≠ 0 := by
      intro hx
      obtain ⟨G, hG, he⟩ := hd.line 1
      refine not_relu_re hG (he.mono fun s hs => ?_)
      have := congrArg Cf.x (Option.some.inj hs)
      simp [ritRelu, relu_eq, hx] at this
      exact this.symm
    have hy : z.y ≠ 0 := by
      intro hy
      obtain ⟨G, hG, he⟩ := hd.line Complex.I
      refine not_relu_im hG (he.mono fun s hs => ?_)
      have := congrArg Cf.y (Option.some.inj hs)
      simp [ritRelu, relu_eq, hy] at this
      exact this.symm
    have h := runDeriv_split (f := .ritReLU) z (fun ζ => rfl) (hasDerivAt_relu hx)
      (hasDerivAt_relu hy)
    convert h using 1
    · simp [dRitRelu, half, div_eq_mul_inv]
    · simp [dConjRitRelu, half, div_eq_mul_inv]
  | zReLU =>
    apply zRelu_right
    by_contra hcon
    push Not at hcon
    obtain ⟨⟨h1, h2⟩, h3⟩ := hcon
    rcases h1.eq_or_lt with hx | hx
    · obtain ⟨G, hG, he⟩ := hd.line 1
      refine not_relu_re hG (he.mono fun s hs => ?_)
      have h4 := Option.some.inj hs
      rcases lt_or_ge s 0 with h0 | h0
      · rw [zRelu_neg _ (Or.inl (by simp [← hx, h0]))] at h4
        have := congrArg Cf.x h4
        simp [Cf.default] at this
        rw [← this, max_eq_left h0.le]
      · rw [zRelu_pos _ (by simp [← hx, h0]) (by simp [h2])] at h4
        have := congrArg Cf.x h4
        simp [← hx] at this
        rw [← this, max_eq_right h0]
    · have hy : z.y = 0 := le_antisymm (h3 hx) h2
      obtain ⟨G, hG, he⟩ := hd.line Complex.I
      refine not_relu_im hG (he.mono fun s hs => ?_)
      have h4 := Option.some.inj hs
      rcases lt_or_ge s 0 with h0 | h0
      · rw [zRelu_neg _ (Or.inr (by simp [hy, h0]))] at h4
        have := congrArg Cf.y h4
        simp [Cf.default] at this
        rw [← this, max_eq_left h0.le]
      · rw [zRelu_pos _ (by simp [h1]) (by simp [hy, h0])] at h4
        have := congrArg Cf.y h4
        simp [hy] at this
        rw [← this, max_eq_right h0]

/-- C29 for the sigmoid: right when both components are inside the threshold. -/
theorem C29_partial_sigmoid (z : Cf w ℝ) (hx : |z.x| < threshold w) (hy : |z.y| < threshold w) :
    DerivsRight .ritSigmoid z := by
  refine ⟨_, _, rfl, rfl, ?_⟩
  have h := runDeriv_split (f := .ritSigmoid) z (fun ζ => rfl)
    (hasDerivAt_sigmoid (w := w) (abs_lt.mp hx).1 (abs_lt.mp hx).2)
    (hasDerivAt_sigmoid (w := w) (abs_lt.mp hy).1 (abs_lt.mp hy).2)
  convert h using 1
  · simp [dRitSigmoid, half, div_eq_mul_inv]
  · simp [dConjRitSigmoid, half, div_eq_mul_inv]

theorem RunDerivAt.unique {f : Cf w ℝ → Run (Cf w ℝ)} {z d dc e ec : Cf w ℝ}
    (h : RunDerivAt f z d dc) (h' : RunDerivAt f z e ec) : d = e ∧ dc = ec := by
  obtain ⟨F, h1, h2⟩ := h
  obtain ⟨F', h3, h4⟩ := h'
  have : F' =ᶠ[𝓝 z.toC] F := by
    filter_upwards [h1, h3] with ζ a b
    rw [a] at b
    have := congrArg Cf.toC (Option.some.inj b)
    simpa using this.symm
  obtain ⟨r1, r2⟩ := (h2.congr this).unique h4
  exact ⟨Cf.toC_inj.mp r1, Cf.toC_inj.mp r2⟩

/-- C29 is false of the code for the sigmoid: at every point with a component beyond the threshold
(and none exactly at it) the activation is differentiable, but the returned derivatives are not its
derivatives. -/
theorem C29_refuted_sigmoid (z : Cf w ℝ) (hx : |z.x| ≠ threshold w) (hy : |z.y| ≠ threshold w)
    (h : threshold w < |z.x| ∨ threshold w < |z.y|) :
    (∃ d dc, RunDerivAt (activate .ritSigmoid) z d dc) ∧ ¬ DerivsRight .ritSigmoid z := by
  have key : ∀ v : ℝ, |v| ≠ threshold w → ∃ a, HasDerivAt (sigmoid w : ℝ → ℝ) a v
      ∧ (threshold w < |v| → a = 0) := by
    intro v hv
    rcases lt_or_gt_of_ne hv with h | h
    · exact ⟨_, hasDerivAt_sigmoid (abs_lt.mp h).1 (abs_lt.mp h).2, fun h' => by linarith⟩
    · exact ⟨0, hasDerivAt_sigmoid_plateau h, fun _ => rfl⟩
  obtain ⟨a, ha, ha0⟩ := key z.x hx
  obtain ⟨b, hb, hb0⟩ := key z.y hy
  have hr := runDeriv_split (f := .ritSigmoid) z (fun ζ => rfl) ha hb
  refine ⟨⟨_, _, hr⟩, ?_⟩
  rintro ⟨d, dc, h1, h2, h3⟩
  obtain ⟨e1, e2⟩ := h3.unique hr
  have f1 := congrArg Cf.x (Option.some.inj h1)
  have f2 := congrArg Cf.x (Option.some.inj h2)
  rw [e1] at f1
  rw [e2] at f2
  simp only [dRitSigmoid, dConjRitSigmoid, half, smul', sadd, ssub, slit] at f1 f2
  push_cast at f1 f2
  have p1 := dSigmoid_pos (w := w) z.x
  have p2 := dSigmoid_pos (w := w) z.y
  rcases h with h | h
  · rw [ha0 h] at f1 f2; linarith
  · rw [hb0 h] at f1 f2; linarith

/-- `Cf32` at 20 + 0i. -/
example : ¬ DerivsRight .ritSigmoid (⟨20, 0⟩ : Cf .w32 ℝ) :=
  (C29_refuted_sigmoid _ (by norm_num [threshold]) (by norm_num [threshold])
    (Or.inl (by norm_num [threshold]))).2

/-! ### Cardioid -/

/-- `phase` is the argument of `z` or, for `Cf64` numbers with negative real part, of `-z`. -/
noncomputable def phaseSign : (w : Width) → ℂ → ℝ
  | .w32, _ => 1
  | .w64, z => if 0 < z.re then 1 else -1

/-- Where the code's phase is defined without a division by zero: away from 0 (`Cf32`), away from
the imaginary axis (`Cf64`). -/
def PhaseOk : (w : Width) → ℂ → Prop
  | .w32, z => z ≠ 0
  | .w64, z => z.re ≠ 0

theorem PhaseOk.ne {z : ℂ} (h : PhaseOk w z) : z ≠ 0 := by
  cases w with
  | w32 => exact h
  | w64 => intro h0; apply h; rw [h0]; rfl

theorem phase_eq_arg (z : Cf w ℝ) (h : PhaseOk w z.toC) :
    z.phase = Complex.arg ((phaseSign w z.toC : ℂ) * z.toC) := by
  cases w with
  | w32 => simp [phaseSign]; rfl
  | w64 =>
    have e : ∀ ζ : ℂ, 0 < ζ.re → Real.arctan (ζ.im / ζ.re) = Complex.arg ζ := by
      intro ζ hζ
      have hm : |Complex.arg ζ| < Real.pi / 2 := Complex.abs_arg_lt_pi_div_two_iff.mpr (Or.inl hζ)
      rw [← Complex.tan_arg, Real.arctan_tan (abs_lt.mp hm).1 (abs_lt.mp hm).2]
    have h1 : z.phase = Real.arctan (z.toC.im / z.toC.re) := rfl
    rw [h1]
    by_cases hp : 0 < z.toC.re
    · simp only [phaseSign, if_pos hp, Complex.ofReal_one, one_mul]
      exact e _ hp
    · have hn : 0 < (-z.toC).re := by
        have : z.toC.re ≠ 0 := h
        rcases lt_or_gt_of_ne this with h' | h'
        · simpa using h'
        · exact absurd h' hp
      simp only [phaseSign, if_neg hp, Complex.ofReal_neg, Complex.ofReal_one, neg_mul, one_mul]
      rw [← e _ hn]
      simp

theorem phaseSign_sq (z : ℂ) : phaseSign w z ^ 2 = 1 := by
  cases w with
  | w32 => simp [phaseSign]
  | w64 => unfold phaseSign; split <;> norm_num

theorem cos_sin_phase (z : Cf w ℝ) (h : PhaseOk w z.toC) :
    Real.cos z.phase = phaseSign w z.toC * (z.x / ‖z.toC‖)
      ∧ Real.sin z.phase = phaseSign w z.toC * (z.y / ‖z.toC‖) := by
  have hz := h.ne
  have hs : phaseSign w z.toC ≠ 0 := by
    have := phaseSign_sq (w := w) z.toC
    intro h0; rw [h0] at this; norm_num at this
  have hsz : (phaseSign w z.toC : ℂ) * z.toC ≠ 0 :=
    mul_ne_zero (by exact_mod_cast hs) hz
  have hn : ‖(phaseSign w z.toC : ℂ) * z.toC‖ = ‖z.toC‖ := by
    rw [norm_mul, Complex.norm_real, Real.norm_eq_abs]
    have : |phaseSign w z.toC| = 1 := by
      rw [← sq_eq_sq₀ (abs_nonneg _) (by norm_num), sq_abs, phaseSign_sq]; norm_num
    rw [this, one_mul]
  rw [phase_eq_arg z h, Complex.cos_arg hsz, Complex.sin_arg, hn]
  constructor
  · simp [mul_div_assoc]
  · simp [mul_div_assoc]

theorem phaseOk_nhds {z : ℂ} (h : PhaseOk w z) :
    ∀ᶠ ζ in 𝓝 z, PhaseOk w ζ ∧ phaseSign w ζ = phaseSign w z := by
  cases w with
  | w32 =>
    filter_upwards [isOpen_ne.mem_nhds h] with ζ hζ
    exact ⟨hζ, rfl⟩
  | w64 =>
    rcases lt_or_gt_of_ne (show z.re ≠ 0 from h) with h' | h'
    · filter_upwards [(isOpen_lt Complex.continuous_re continuous_const).mem_nhds h'] with ζ hζ
      have hζ' : ζ.re < 0 := hζ
      exact ⟨hζ'.ne, by simp [phaseSign, not_lt.mpr hζ'.le, not_lt.mpr h'.le]⟩
    · filter_upwards [(isOpen_lt continuous_const Complex.continuous_re).mem_nhds h'] with ζ hζ
      have hζ' : 0 < ζ.re := hζ
      exact ⟨hζ'.ne', by simp [phaseSign, hζ', h']⟩

theorem hasWirtinger_re (z : ℂ) : HasWirtinger (fun z => (z.re : ℂ)) z (1 / 2) (1 / 2) := by
  have h := HasWirtinger.split (z := z) (hasDerivAt_id z.re) (hasDerivAt_const z.im (0 : ℝ))
  have e : (fun z : ℂ => (⟨id z.re, 0⟩ : ℂ)) = fun z => (z.re : ℂ) := by
    funext z; apply Complex.ext <;> simp
  rw [e] at h
  convert h using 1 <;> norm_num

theorem two_half (z : Cf w ℝ) : (2 : ℂ) * (⟨z.x / 2, z.y / 2⟩ : Cf w ℝ).toC = z.toC := by
  apply Complex.ext <;> simp <;> ring

/-- The true derivatives of the code's cardioid: they are *half* the values returned by the code, in
the *opposite* roles (up to the sign of the phase). -/
theorem C29_cardioid (z : Cf w ℝ) (h : PhaseOk w z.toC) :
    RunDerivAt (activate .cardioid) z
      ⟨phaseSign w z.toC * (dConjCard z).x / 2, phaseSign w z.toC * (dConjCard z).y / 2⟩
      ⟨phaseSign w z.toC * (dCard z).x / 2, phaseSign w z.toC * (dCard z).y / 2⟩ := by
  have hz := h.ne
  obtain ⟨hcos, hsin⟩ := cos_sin_phase z h
  have hsig := phaseSign_sq (w := w) z.toC
  generalize hσ : phaseSign w z.toC = σ at *
  refine ⟨fun ζ => (2 * (1 + σ * ((ζ.re : ℂ) * ((‖ζ‖⁻¹ : ℝ) : ℂ))))
    * (σ * (ζ * ((‖ζ‖⁻¹ : ℝ) : ℂ))), ?_, ?_⟩
  · filter_upwards [phaseOk_nhds h] with ζ hζ
    obtain ⟨c1, c2⟩ := cos_sin_phase (Cf.ofC ζ : Cf w ℝ) (by simpa using hζ.1)
    simp only [Cf.toC_ofC, Cf.ofC_x, Cf.ofC_y, hζ.2, hσ] at c1 c2
    simp only [activate, card, smul', sadd, sone, stwo, scos, ssin, c1, c2]
    congr 1
    apply Cf.toC_inj.mp
    rw [Cf.toC_ofC]
    apply Complex.ext
    · simp; ring
    · simp; ring
  · have hN := hasWirtinger_inv_norm hz
    have h1 := (HasWirtinger.const (z := z.toC) (2 : ℂ)).mul
      ((HasWirtinger.const (z := z.toC) (1 : ℂ)).add
        ((HasWirtinger.const (z := z.toC) (σ : ℂ)).mul ((hasWirtinger_re z.toC).mul hN)))
    have h2 := (HasWirtinger.const (z := z.toC) (σ : ℂ)).mul
      ((HasWirtinger.id (z := z.toC)).mul hN)
    have h3 := h1.mul h2
    have hq : z.x ^ 2 + z.y ^ 2 = ‖z.toC‖ ^ 2 := by
      rw [← Complex.normSq_eq_norm_sq, Complex.normSq_apply]; simp; ring
    have hn0 : ‖z.toC‖ ≠ 0 := norm_ne_zero_iff.mpr hz
    have hnorm : z.norm = ‖z.toC‖ := Cf.norm_eq z
    generalize hn : ‖z.toC‖ = n at *
    have ec : -conj z.toC / (2 * (n : ℂ) ^ 3)
        = (⟨-z.x / (2 * n ^ 3), z.y / (2 * n ^ 3)⟩ : ℂ) := by
      rw [show (2 : ℂ) * (n : ℂ) ^ 3 = ((2 * n ^ 3 : ℝ) : ℂ) by push_cast; rfl]
      apply Complex.ext
      · rw [Complex.div_ofReal_re]; simp
      · rw [Complex.div_ofReal_im]; simp
    have ez : -z.toC / (2 * (n : ℂ) ^ 3)
        = (⟨-z.x / (2 * n ^ 3), -z.y / (2 * n ^ 3)⟩ : ℂ) := by
      rw [show (2 : ℂ) * (n : ℂ) ^ 3 = ((2 * n ^ 3 : ℝ) : ℂ) by push_cast; rfl]
      apply Complex.ext
      · rw [Complex.div_ofReal_re]; simp
      · rw [Complex.div_ofReal_im]; simp
    have eh : (1 / 2 : ℂ) = ((1 / 2 : ℝ) : ℂ) := by push_cast; rfl
    have e2 : (2 : ℂ) = ((2 : ℝ) : ℂ) := by push_cast; rfl
    have hsin2 : Real.sin (2 * z.phase) = 2 * (σ * (z.y / n)) * (σ * (z.x / n)) := by
      rw [Real.sin_two_mul, hcos, hsin]
    have hs4 : σ ^ 3 = σ := by rw [pow_succ, hsig, one_mul]
    rw [ec, ez, eh, e2] at h3
    rw [e2]
    convert h3 using 1
    · apply Complex.ext
      · simp [dConjCard, cardDfdx, cardDfdy, Cf.add, Cf.mul, Cf.iunit, hcos, hsin, hsin2, hnorm]
        field_simp
        grind
      · simp [dConjCard, cardDfdx, cardDfdy, Cf.add, Cf.mul, Cf.iunit, hcos, hsin, hsin2, hnorm]
        field_simp
        grind
    · apply Complex.ext
      · simp [dCard, cardDfdx, cardDfdy, Cf.sub, Cf.mul, Cf.iunit, hcos, hsin, hsin2, hnorm]
        field_simp
        grind
      · simp [dCard, cardDfdx, cardDfdy, Cf.sub, Cf.mul, Cf.iunit, hcos, hsin, hsin2, hnorm]
        field_simp
        grind

/-- C29 is false of the code for the cardioid: at every point where the phase is defined, except on
the negative real axis for `Cf32`, the activation is differentiable but the returned derivatives
are not its derivatives. -/
theorem C29_refuted_cardioid (z : Cf w ℝ) (h : PhaseOk w z.toC)
    (hneg : ¬ (w = .w32 ∧ z.x < 0 ∧ z.y = 0)) :
    (∃ d dc, RunDerivAt (activate .cardioid) z d dc) ∧ ¬ DerivsRight .cardioid z := by
  refine ⟨⟨_, _, C29_cardioid z h⟩, ?_⟩
  rintro ⟨d, dc, h1, h2, h3⟩
  obtain ⟨e1, e2⟩ := h3.unique (C29_cardioid z h)
  rw [← Option.some.inj h1] at e1
  rw [← Option.some.inj h2] at e2
  obtain ⟨hcos, hsin⟩ := cos_sin_phase z h
  have hsig := phaseSign_sq (w := w) z.toC
  have hn0 : ‖z.toC‖ ≠ 0 := norm_ne_zero_iff.mpr h.ne
  have hq : z.x ^ 2 + z.y ^ 2 = ‖z.toC‖ ^ 2 := by
    rw [← Complex.normSq_eq_norm_sq, Complex.normSq_apply]; simp; ring
  have hpos : 0 < ‖z.toC‖ := norm_pos_iff.mpr h.ne
  have hc1 : Real.cos z.phase ≠ -1 := by
    intro hc
    rw [hcos] at hc
    have hxn : phaseSign w z.toC * z.x = -‖z.toC‖ := by
      field_simp at hc; linarith
    cases w with
    | w32 =>
      simp only [phaseSign, one_mul] at hxn
      apply hneg
      refine ⟨rfl, by rw [hxn]; linarith, ?_⟩
      rw [hxn] at hq
      nlinarith
    | w64 =>
      simp only [phaseSign] at hxn
      have h0 : z.x ≠ 0 := h
      split at hxn
      · rename_i hp; have : 0 < z.x := hp; linarith
      · rename_i hp
        have : ¬ 0 < z.x := hp
        have : z.x < 0 := lt_of_le_of_ne (not_lt.mp this) h0
        linarith
  have a1 := congrArg Cf.x e1
  have a2 := congrArg Cf.y e1
  have b1 := congrArg Cf.x e2
  have b2 := congrArg Cf.y e2
  simp only at a1 a2 b1 b2
  generalize phaseSign w z.toC = σ at *
  have hz1 : (dCard z).x = 0 := by grind
  have hz2 : (dCard z).y = 0 := by grind
  have hz3 : (dConjCard z).x = 0 := by grind
  have hz4 : (dConjCard z).y = 0 := by grind
  have hsin2 := Real.sin_two_mul z.phase
  have hsc := Real.sin_sq_add_cos_sq z.phase
  have hnorm : z.norm = ‖z.toC‖ := Cf.norm_eq z
  simp only [dCard, dConjCard, cardDfdx, cardDfdy, Cf.add, Cf.sub, Cf.mul, Cf.iunit, hnorm, smul',
    sadd, ssub, sdiv, scos, ssin, ssq, slit, stwo, szero, sone, hsin2] at hz1 hz2 hz3 hz4
  push_cast at hz1 hz2 hz3 hz4
  generalize Real.cos z.phase = c at *
  generalize Real.sin z.phase = s at *
  generalize ‖z.toC‖ = n at *
  field_simp at hz1 hz2 hz3 hz4
  have k1 : s + 2 * s * c = 0 := by grind
  have k2 : 2 * c ^ 2 + c - 1 = 0 := by grind
  have k3 : (2 * c - 1) * (c + 1) = 0 := by linear_combination k2
  rcases mul_eq_zero.mp k3 with k | k
  · have : c = 1 / 2 := by linarith
    subst this
    have : s = 0 := by linarith
    subst this
    norm_num at hsc
  · exact hc1 (by linarith)

/-- The code's cardioid at 1. -/
example : ¬ DerivsRight .cardioid (⟨1, 0⟩ : Cf .w32 ℝ) :=
  (C29_refuted_cardioid _ (by intro h; simpa using congrArg Complex.re h) (by norm_num)).2

/-- Every option of `C29_partial` has differentiability points: 1 + i for all of them. -/
example (f : ActFunc) (hs : f ≠ .ritSigmoid) (hc : f ≠ .cardioid) :
    RunDifferentiableAt (activate f) (⟨1, 1⟩ : Cf w ℝ) := by
  have key : ∀ g : ActFunc, DerivsRight g (⟨1, 1⟩ : Cf w ℝ) →
      RunDifferentiableAt (activate g) (⟨1, 1⟩ : Cf w ℝ) := by
    rintro g ⟨d, dc, -, -, F, h1, h2⟩
    exact ⟨F, h1, HasFDerivAt.differentiableAt h2⟩
  cases f with
  | none => exact ⟨fun ζ => ζ, Eventually.of_forall fun ζ => rfl, differentiableAt_id⟩
  | ritSigmoid => exact absurd rfl hs
  | cardioid => exact absurd rfl hc
  | modZ => exact key _ (modZ_right _ (by intro h; simpa using congrArg Complex.re h))
  | ritTanh =>
    obtain ⟨F, h1, h2⟩ := runDeriv_split (f := .ritTanh) (⟨1, 1⟩ : Cf w ℝ) (fun ζ => rfl)
      (hasDerivAt_tanh 1) (hasDerivAt_tanh 1)
    exact ⟨F, h1, HasFDerivAt.differentiableAt h2⟩
  | ritReLU =>
    obtain ⟨F, h1, h2⟩ := runDeriv_split (f := .ritReLU) (⟨1, 1⟩ : Cf w ℝ) (fun ζ => rfl)
      (hasDerivAt_relu one_ne_zero) (hasDerivAt_relu one_ne_zero)
    exact ⟨F, h1, HasFDerivAt.differentiableAt h2⟩
  | zReLU => exact key _ (zRelu_right _ (by norm_num))

/-! ## C30 sigmoid -/

theorem sigmoid_symm (v : ℝ) : sigmoid w (-v) = 1 - sigmoid w v := by
  have ht := threshold_pos (w := w)
  by_cases h1 : threshold w ≤ v
  · rw [sigmoid_hi h1, sigmoid_lo (by linarith)]
    cases w <;> norm_num [sigHi, sigLo]
  · by_cases h2 : v ≤ -threshold w
    · rw [sigmoid_lo h2, sigmoid_hi (by linarith)]
      cases w <;> norm_num [sigHi, sigLo]
    · rw [sigmoid_mid (by linarith) (by linarith), sigmoid_mid (by linarith) (by linarith),
        Real.exp_neg]
      have := Real.exp_pos v
      field_simp
      ring

theorem exp30_lt : Real.exp 30 < 99999999999999 := by
  have h : Real.exp 30 = Real.exp 1 ^ 30 := by rw [← Real.exp_nat_mul]; norm_num
  rw [h]
  calc Real.exp 1 ^ 30 < 2.7182818286 ^ 30 :=
        pow_lt_pow_left₀ Real.exp_one_lt_d9 (Real.exp_pos 1).le (by norm_num)
    _ < 99999999999999 := by norm_num

theorem exp14_gt : 999999 < Real.exp 14 := by
  have h : Real.exp 14 = Real.exp 1 ^ 14 := by rw [← Real.exp_nat_mul]; norm_num
  rw [h]
  calc (999999 : ℝ) < 2.7182818283 ^ 14 := by norm_num
    _ < Real.exp 1 ^ 14 := pow_lt_pow_left₀ Real.exp_one_gt_d9 (by norm_num) (by norm_num)

theorem sigmoid_mono64 : Monotone (sigmoid .w64 : ℝ → ℝ) := by
  have hmid : ∀ a b : ℝ, a ≤ b →
      Real.exp a / (1 + Real.exp a) ≤ Real.exp b / (1 + Real.exp b) := by
    intro a b h
    have := Real.exp_le_exp.mpr h
    have h1 := Real.exp_pos a
    have h2 := Real.exp_pos b
    rw [div_le_div_iff₀ (by positivity) (by positivity)]
    nlinarith
  have hup : ∀ a : ℝ, a < 30 → Real.exp a / (1 + Real.exp a) ≤ sigHi .w64 := by
    intro a ha
    have h1 := Real.exp_pos a
    have h2 : Real.exp a < 99999999999999 := lt_trans (Real.exp_lt_exp.mpr ha) exp30_lt
    rw [div_le_iff₀ (by positivity)]
    norm_num [sigHi]
    nlinarith
  have hle : ∀ v : ℝ, sigmoid .w64 v ≤ sigHi .w64 := by
    intro v
    by_cases h1 : threshold .w64 ≤ v
    · rw [sigmoid_hi h1]
    · by_cases h2 : v ≤ -threshold .w64
      · rw [sigmoid_lo h2]; norm_num [sigHi, sigLo]
      · rw [sigmoid_mid (by linarith) (by linarith)]
        exact hup v (by simpa [threshold] using h1)
  have hge : ∀ v : ℝ, sigLo .w64 ≤ sigmoid .w64 v := by
    intro v
    have h1 := hle (-v)
    rw [sigmoid_symm] at h1
    norm_num [sigHi] at h1
    norm_num [sigLo]
    linarith
  intro a b hab
  by_cases h1 : threshold .w64 ≤ b
  · rw [sigmoid_hi h1]; exact hle a
  · by_cases h2 : a ≤ -threshold .w64
    · rw [sigmoid_lo h2]; exact hge b
    · rw [sigmoid_mid (v := a) (by linarith) (by linarith),
        sigmoid_mid (v := b) (by linarith) (by linarith)]
      exact hmid a b hab

/-- C30, the part that holds: both components of `RITSigmoid` lie strictly between 0 and 1 and are
symmetric for both precisions; for `Cf64` they are non-decreasing (missing: monotonicity for
`Cf32`, which is false). -/
theorem C30_partial (z : Cf w ℝ) :
    ∃ s s' : Cf w ℝ, activate .ritSigmoid z = some s
      ∧ activate .ritSigmoid (⟨-z.x, -z.y⟩ : Cf w ℝ) = some s'
      ∧ (0 < s.x ∧ s.x < 1) ∧ (0 < s.y ∧ s.y < 1) ∧ s'.x = 1 - s.x ∧ s'.y = 1 - s.y
      ∧ (w = .w64 → ∀ ζ : Cf w ℝ, ∃ t : Cf w ℝ, activate .ritSigmoid ζ = some t
          ∧ (z.x ≤ ζ.x → s.x ≤ t.x) ∧ (z.y ≤ ζ.y → s.y ≤ t.y)) := by
  refine ⟨_, _, rfl, rfl, sigmoid_bounds z.x, sigmoid_bounds z.y, sigmoid_symm z.x,
    sigmoid_symm z.y, ?_⟩
  rintro rfl ζ
  exact ⟨_, rfl, fun h => sigmoid_mono64 h, fun h => sigmoid_mono64 h⟩

/-- C30 is false of the code for `Cf32`: the component drops from above 0.999999 at 14 to 0.999999
at 15 and beyond. -/
theorem C30_refuted : ∃ z ζ s t : Cf .w32 ℝ, z.x ≤ ζ.x ∧ activate .ritSigmoid z = some s
    ∧ activate .ritSigmoid ζ = some t ∧ t.x < s.x := by
  refine ⟨⟨14, 0⟩, ⟨15, 0⟩, _, _, by norm_num, rfl, rfl, ?_⟩
  show sigmoid .w32 15 < sigmoid .w32 14
  rw [sigmoid_hi (by norm_num [threshold]), sigmoid_mid (by norm_num [threshold])
    (by norm_num [threshold])]
  have h := exp14_gt
  rw [lt_div_iff₀ (by positivity)]
  norm_num [sigHi]
  linarith

/-- The logistic function. -/
noncomputable def logistic (v : ℝ) : ℝ := Real.exp v / (1 + Real.exp v)

/-- The largest error of the plateaus: `10⁻⁶` (`Cf32`), `10⁻¹³` (`Cf64`). -/
noncomputable def plateauError : Width → ℝ
  | .w32 => 1 / 10 ^ 6
  | .w64 => 1 / 10 ^ 13

theorem logistic_neg (v : ℝ) : logistic (-v) = 1 - logistic v := by
  have := Real.exp_pos v
  unfold logistic
  rw [Real.exp_neg]
  field_simp
  ring

theorem logistic_lt {a b : ℝ} (h : a < b) : logistic a < logistic b := by
  have := Real.exp_lt_exp.mpr h
  have h1 := Real.exp_pos a
  have h2 := Real.exp_pos b
  unfold logistic
  rw [div_lt_div_iff₀ (by positivity) (by positivity)]
  nlinarith

theorem exp30_gt : 10 ^ 13 < Real.exp 30 := by
  have h : Real.exp 30 = Real.exp 1 ^ 30 := by rw [← Real.exp_nat_mul]; norm_num
  rw [h]
  calc (10 ^ 13 : ℝ) < 2.7182818283 ^ 30 := by norm_num
    _ < Real.exp 1 ^ 30 := pow_lt_pow_left₀ Real.exp_one_gt_d9 (by norm_num) (by norm_num)

theorem plateau_error {v : ℝ} (h : threshold w ≤ v) : |sigHi w - logistic v| < plateauError w := by
  have h1 : logistic v < 1 := by
    have := Real.exp_pos v
    rw [logistic, div_lt_one (by positivity)]
    linarith
  have key : ∀ e : ℝ, 0 < e → e < Real.exp v → 1 - 1 / e < logistic v := by
    intro e he hv
    have := Real.exp_pos v
    rw [logistic, lt_div_iff₀ (by positivity)]
    have : 1 / e * e = 1 := by field_simp
    nlinarith [mul_pos (one_div_pos.mpr he) (sub_pos.mpr hv)]
  cases w with
  | w32 =>
    have := key 999999 (by norm_num) (exp14_gt.trans (Real.exp_lt_exp.mpr (by
      norm_num [threshold] at h; linarith)))
    have h2 : 999999 / 1000000 < logistic v := by
      have hv : 999999 < Real.exp v := exp14_gt.trans (Real.exp_lt_exp.mpr (by
        norm_num [threshold] at h; linarith))
      rw [logistic, lt_div_iff₀ (by positivity)]
      linarith
    rw [abs_lt]
    norm_num [sigHi, plateauError]
    constructor <;> linarith
  | w64 =>
    have hv : (10 : ℝ) ^ 13 < Real.exp v := lt_of_lt_of_le exp30_gt (Real.exp_le_exp.mpr (by
      norm_num [threshold] at h; linarith))
    have := key (10 ^ 13) (by norm_num) hv
    rw [abs_lt]
    norm_num [sigHi, plateauError] at this ⊢
    constructor <;> linarith

theorem sigmoid_error (v : ℝ) : |sigmoid w v - logistic v| < plateauError w := by
  have hp : 0 < plateauError w := by cases w <;> norm_num [plateauError]
  by_cases h1 : threshold w ≤ v
  · rw [sigmoid_hi h1]; exact plateau_error h1
  · by_cases h2 : v ≤ -threshold w
    · have h3 := plateau_error (w := w) (v := -v) (by linarith)
      rw [logistic_neg] at h3
      rw [sigmoid_lo h2, show (sigLo w : ℝ) = 1 - sigHi w by cases w <;> norm_num [sigLo, sigHi]]
      rw [abs_sub_comm] at h3
      rw [show 1 - sigHi w - logistic v = 1 - logistic v - sigHi w by ring]
      exact h3
    · rw [sigmoid_mid (by linarith) (by linarith)]
      simpa [logistic] using hp

/-- C30. Both components of `RITSigmoid` are the logistic function inside the threshold (15 or 30)
and differ from it by less than 10⁻⁶ (`Cf32`) or 10⁻¹³ (`Cf64`) everywhere. -/
theorem C30_value (z : Cf w ℝ) :
    ∃ s : Cf w ℝ, activate .ritSigmoid z = some s
      ∧ (|z.x| < threshold w → s.x = logistic z.x) ∧ (|z.y| < threshold w → s.y = logistic z.y)
      ∧ |s.x - logistic z.x| < plateauError w ∧ |s.y - logistic z.y| < plateauError w := by
  refine ⟨_, rfl, fun h => ?_, fun h => ?_, sigmoid_error z.x, sigmoid_error z.y⟩
  · exact sigmoid_mid (abs_lt.mp h).1 (abs_lt.mp h).2
  · exact sigmoid_mid (abs_lt.mp h).1 (abs_lt.mp h).2

theorem log_bounds : 0 < Real.log 999999 ∧ Real.log 999999 < 14 := by
  constructor
  · exact Real.log_pos (by norm_num)
  · rw [Real.log_lt_iff_lt_exp (by norm_num)]; exact exp14_gt

theorem logistic_log : logistic (Real.log 999999) = sigHi .w32 := by
  rw [logistic, Real.exp_log (by norm_num)]
  norm_num [sigHi]

/-- C30 for `Cf32`, exactly where it holds: no larger argument gives a smaller value if and only if
the argument is above the lower threshold and at most ln 999999 ≈ 13.8, or at least 15. -/
theorem C30_partial_w32_iff (x : ℝ) :
    (∀ x' y, x ≤ x' → ∃ s t : Cf .w32 ℝ, activate .ritSigmoid (⟨x, y⟩ : Cf .w32 ℝ) = some s
      ∧ activate .ritSigmoid (⟨x', y⟩ : Cf .w32 ℝ) = some t ∧ s.x ≤ t.x)
      ↔ -15 < x ∧ (x ≤ Real.log 999999 ∨ 15 ≤ x) := by
  obtain ⟨l1, l2⟩ := log_bounds
  have ht : threshold .w32 = 15 := rfl
  have hs : sigLo .w32 = (1 : ℝ) - sigHi .w32 := by norm_num [sigLo, sigHi]
  have hhl : (sigLo .w32 : ℝ) < sigHi .w32 := by norm_num [sigLo, sigHi]
  constructor
  · intro h
    have h' : ∀ x', x ≤ x' → sigmoid .w32 x ≤ sigmoid .w32 x' := by
      intro x' hx
      obtain ⟨s, t, e1, e2, e3⟩ := h x' 0 hx
      cases e1
      cases e2
      exact e3
    constructor
    · by_contra hx
      have := h' (-14) (by linarith)
      rw [sigmoid_lo (by rw [ht]; linarith), sigmoid_mid (by rw [ht]; norm_num)
        (by rw [ht]; norm_num)] at this
      change sigLo .w32 ≤ logistic (-14) at this
      rw [logistic_neg, hs, ← logistic_log] at this
      have := logistic_lt l2
      linarith
    · by_contra hx
      push Not at hx
      by_cases hlow : x ≤ -15
      · linarith
      have := h' 15 (by linarith)
      rw [sigmoid_hi (v := 15) (by rw [ht]), sigmoid_mid (v := x) (by rw [ht]; linarith)
        (by rw [ht]; linarith)] at this
      change logistic x ≤ _ at this
      rw [← logistic_log] at this
      have := logistic_lt hx.1
      linarith
  · rintro ⟨h1, h2⟩ x' y hx
    refine ⟨_, _, rfl, rfl, ?_⟩
    show sigmoid .w32 x ≤ sigmoid .w32 x'
    by_cases hx15 : 15 ≤ x
    · rw [sigmoid_hi (by rw [ht]; linarith), sigmoid_hi (by rw [ht]; linarith)]
    · have h2 := h2.resolve_right hx15
      rw [sigmoid_mid (v := x) (by rw [ht]; linarith) (by rw [ht]; linarith)]
      change logistic x ≤ _
      by_cases h15 : 15 ≤ x'
      · rw [sigmoid_hi (by rw [ht]; linarith), ← logistic_log]
        rcases h2.eq_or_lt with h | h
        · rw [h]
        · exact (logistic_lt h).le
      · rw [sigmoid_mid (v := x') (by rw [ht]; linarith) (by rw [ht]; linarith)]
        change _ ≤ logistic x'
        rcases hx.eq_or_lt with h | h
        · rw [h]
        · exact (logistic_lt h).le

/-! ## C31 ReLU family, ModZ -/

/-- C31. `RITReLU` is `max(0,·)` of each component, and applying it twice changes nothing. -/
theorem C31_ritReLU (z : Cf w ℝ) :
    ∃ r : Cf w ℝ, activate .ritReLU z = some r ∧ r.x = max 0 z.x ∧ r.y = max 0 z.y
      ∧ activate .ritReLU r = some r := by
  refine ⟨_, rfl, relu_eq z.x, relu_eq z.y, ?_⟩
  simp only [activate, ritRelu, relu_eq, Option.some.injEq]
  congr 1 <;> exact max_eq_right (le_max_left _ _)

/-- C31. `zReLU` keeps its argument in the closed first quadrant and returns 0 elsewhere. -/
theorem C31_zReLU (z : Cf w ℝ) :
    ∃ r : Cf w ℝ, activate .zReLU z = some r
      ∧ (0 ≤ z.x → 0 ≤ z.y → r = z) ∧ (z.x < 0 ∨ z.y < 0 → r.toC = 0) :=
  ⟨_, rfl, fun h1 h2 => zRelu_pos z h1 h2, fun h => by rw [zRelu_neg z h]; exact Cf.toC_default⟩

/-- C31. `ModZ` returns `z/|z|`, of modulus one, for non-zero input and panics exactly at 0. -/
theorem C31_modZ (z : Cf w ℝ) :
    (z.toC ≠ 0 → ∃ r : Cf w ℝ, activate .modZ z = some r ∧ ‖r.toC‖ = 1
        ∧ r.toC = z.toC / ‖z.toC‖)
      ∧ (activate .modZ z = none ↔ z.toC = 0) := by
  constructor
  · intro hz
    have hn : ‖z.toC‖ ≠ 0 := norm_ne_zero_iff.mpr hz
    refine ⟨_, modZ_eq z hz, ?_, ?_⟩
    · rw [Cf.toC_ofC, norm_mul, Complex.norm_real, norm_inv, norm_norm, mul_inv_cancel₀ hn]
    · rw [Cf.toC_ofC, div_eq_mul_inv]; push_cast; rfl
  · refine ((C19_div z _).2).trans ?_
    have : (Cf.new z.norm Scalar.zero : Cf w ℝ).toC = (‖z.toC‖ : ℂ) := by
      rw [Cf.norm_eq]; apply Complex.ext <;> simp [Cf.new]
    rw [this]
    simp

example : ∃ r : Cf .w32 ℝ, activate .ritReLU (⟨-1, 2⟩ : Cf .w32 ℝ) = some r ∧ r.x = 0 ∧ r.y = 2 := by
  obtain ⟨r, h1, h2, h3, -⟩ := C31_ritReLU (⟨-1, 2⟩ : Cf .w32 ℝ)
  exact ⟨r, h1, by rw [h2]; norm_num, by rw [h3]; norm_num⟩

/-! ## C32 slices -/

/-- What C32 asks of a slice function `F` that should apply `f` to each element: whenever it
returns, the result has the same length and the `i`-th element is `f` of the `i`-th element before,
and it panics exactly if `f` panics on some element. -/
def ElementWise {α : Type} (F : List α → Run (List α)) (f : α → Run α) : Prop :=
  ∀ l, (∀ l', F l = some l' ↔ l'.length = l.length
        ∧ ∀ (i : Nat) (h : i < l.length) (h' : i < l'.length), f l[i] = some l'[i])
      ∧ (F l = none ↔ ∃ x ∈ l, f x = none)

/-- C32. The activation and both derivatives act on a slice element by element. -/
theorem C32_slice {α P : Type} [CplxOps α P] (f : ActFunc) :
    ElementWise (activateMut (α := α) f) (CplxOps.activate f)
      ∧ ElementWise (dActivateMut (α := α) f) (CplxOps.dActivate f)
      ∧ ElementWise (dConjActivateMut (α := α) f) (CplxOps.dConjActivate f) :=
  ⟨fun l => ⟨mapM_eq_some_iff _ l, mapM_eq_none_iff _ l⟩,
   fun l => ⟨mapM_eq_some_iff _ l, mapM_eq_none_iff _ l⟩,
   fun l => ⟨mapM_eq_some_iff _ l, mapM_eq_none_iff _ l⟩⟩

/-- A slice containing 0 makes `ModZ` panic. -/
example (z : Cf w ℝ) : activateMut .modZ [z, ⟨0, 0⟩] = none :=
  ((C32_slice .modZ).1 _).2.mpr ⟨⟨0, 0⟩, by simp, (C31_modZ _).2.mpr rfl⟩

end Renplex
