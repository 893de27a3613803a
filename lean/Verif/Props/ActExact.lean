import Verif.Props.Act
/-!
# C29: where the derivatives of the activations are right, exactly

`Props/Act` proves the derivatives right or wrong at the points where the functions are smooth. Here the
remaining points are shown to be no points of differentiability, which gives the exact set of points at
which the derivatives are right.
-/

namespace Renplex
open Filter Topology Act
variable {w : Width}

/-- A differentiable activation has one limit along any two directions. -/
theorem RunDifferentiableAt.limit {f : Cf w ℝ → Run (Cf w ℝ)} {z : Cf w ℝ}
    (h : RunDifferentiableAt f z) {c d a b : ℂ} {g k : ℝ → ℂ}
    (hg : ∀ s : ℝ, 0 < s → f (Cf.ofC (z.toC + s * c)) = some (Cf.ofC (g s)))
    (hk : ∀ s : ℝ, 0 < s → f (Cf.ofC (z.toC + s * d)) = some (Cf.ofC (k s)))
    (ha : Tendsto g (𝓝[>] 0) (𝓝 a)) (hb : Tendsto k (𝓝[>] 0) (𝓝 b)) : a = b := by
  obtain ⟨F, h1, h2⟩ := h
  have key : ∀ (e l : ℂ) (m : ℝ → ℂ),
      (∀ s : ℝ, 0 < s → f (Cf.ofC (z.toC + s * e)) = some (Cf.ofC (m s))) →
      Tendsto m (𝓝[>] 0) (𝓝 l) → l = F z.toC := by
    intro e l m hm hl
    have hc : Tendsto (fun s : ℝ => z.toC + s * e) (𝓝[>] 0) (𝓝 z.toC) := by
      have : ContinuousAt (fun s : ℝ => z.toC + s * e) 0 := by fun_prop
      have := this.tendsto
      simp only [Complex.ofReal_zero, zero_mul, add_zero] at this
      exact this.mono_left nhdsWithin_le_nhds
    have h3 : Tendsto (fun s : ℝ => F (z.toC + s * e)) (𝓝[>] 0) (𝓝 (F z.toC)) :=
      h2.continuousAt.tendsto.comp hc
    have h4 : ∀ᶠ s : ℝ in 𝓝[>] (0 : ℝ), F (z.toC + s * e) = m s := by
      filter_upwards [hc.eventually h1, self_mem_nhdsWithin] with s hs hs0
      have := hm s hs0
      rw [hs] at this
      simpa using congrArg Cf.toC (Option.some.inj this)
    exact tendsto_nhds_unique hl (h3.congr' h4)
  rw [key c a g hg ha, key d b k hk hb]

/-- The sigmoid jumps at both thresholds. -/
theorem sigmoid_jump {v : ℝ} (h : |v| = threshold w) : ¬ ContinuousAt (sigmoid w : ℝ → ℝ) v := by
  have hi : ¬ ContinuousAt (sigmoid w : ℝ → ℝ) (threshold w) := by
    intro hc
    have hpos := threshold_pos (w := w)
    have h1 : Tendsto (sigmoid w : ℝ → ℝ) (𝓝[<] threshold w) (𝓝 (sigHi w)) := by
      have := hc.tendsto
      rw [sigmoid_hi le_rfl] at this
      exact this.mono_left nhdsWithin_le_nhds
    have h2 : Tendsto (fun v => Real.exp v / (1 + Real.exp v)) (𝓝[<] threshold w)
        (𝓝 (Real.exp (threshold w) / (1 + Real.exp (threshold w)))) := by
      have : ContinuousAt (fun v => Real.exp v / (1 + Real.exp v)) (threshold w) := by
        have : ∀ v : ℝ, 1 + Real.exp v ≠ 0 := fun v => by positivity
        fun_prop (disch := exact this _)
      exact this.tendsto.mono_left nhdsWithin_le_nhds
    have h3 : (sigmoid w : ℝ → ℝ) =ᶠ[𝓝[<] threshold w] fun v => Real.exp v / (1 + Real.exp v) := by
      filter_upwards [Ioo_mem_nhdsLT (show -threshold w < threshold w by linarith)] with u hu
      exact sigmoid_mid hu.1 hu.2
    have h4 := tendsto_nhds_unique (h1.congr' h3) h2
    have h5 : 0 < 1 + Real.exp (threshold w) := by positivity
    rw [eq_div_iff h5.ne'] at h4
    cases w with
    | w32 =>
      simp only [sigHi, slit, threshold] at h4
      have := exp14_gt
      have h6 : Real.exp 14 < Real.exp 15 := Real.exp_lt_exp.mpr (by norm_num)
      push_cast at h4
      linarith
    | w64 =>
      simp only [sigHi, slit, threshold] at h4
      have := exp30_lt
      push_cast at h4
      linarith
  rcases abs_eq (threshold_pos (w := w)).le |>.mp h with rfl | rfl
  · exact hi
  · intro hc
    apply hi
    have h1 : (sigmoid w : ℝ → ℝ) = fun v => 1 - sigmoid w (-v) := by
      funext v
      have := sigmoid_symm (w := w) v
      linarith
    rw [h1]
    exact (ContinuousAt.comp (f := fun v : ℝ => -v) (g := (sigmoid w : ℝ → ℝ)) hc
      continuous_neg.continuousAt).const_sub 1

theorem sigmoid_not_threshold (z : Cf w ℝ) (hd : RunDifferentiableAt (activate .ritSigmoid) z) :
    |z.x| ≠ threshold w ∧ |z.y| ≠ threshold w := by
  constructor
  · intro h
    obtain ⟨G, hG, he⟩ := hd.line 1
    apply sigmoid_jump h
    have h1 : ContinuousAt (fun v : ℝ => (G (v - z.x)).re) z.x := by
      have h0 : ContinuousAt G (z.x - z.x) := by rw [sub_self]; exact hG.continuousAt
      exact Complex.continuous_re.continuousAt.comp (ContinuousAt.comp (f := fun v : ℝ => v - z.x) h0
        (by fun_prop))
    refine h1.congr ?_
    have h2 : Tendsto (fun v : ℝ => v - z.x) (𝓝 z.x) (𝓝 0) := by
      have : ContinuousAt (fun v : ℝ => v - z.x) z.x := by fun_prop
      simpa [ContinuousAt] using this
    filter_upwards [h2.eventually he] with v hv
    have := congrArg Cf.x (Option.some.inj hv)
    simp [ritSigmoid] at this
    exact this.symm
  · intro h
    obtain ⟨G, hG, he⟩ := hd.line Complex.I
    apply sigmoid_jump h
    have h1 : ContinuousAt (fun v : ℝ => (G (v - z.y)).im) z.y := by
      have h0 : ContinuousAt G (z.y - z.y) := by rw [sub_self]; exact hG.continuousAt
      exact Complex.continuous_im.continuousAt.comp (ContinuousAt.comp (f := fun v : ℝ => v - z.y) h0
        (by fun_prop))
    refine h1.congr ?_
    have h2 : Tendsto (fun v : ℝ => v - z.y) (𝓝 z.y) (𝓝 0) := by
      have : ContinuousAt (fun v : ℝ => v - z.y) z.y := by fun_prop
      simpa [ContinuousAt] using this
    filter_upwards [h2.eventually he] with v hv
    have := congrArg Cf.y (Option.some.inj hv)
    simp [ritSigmoid] at this
    exact this.symm

/-- The code's cardioid where its phase is defined. -/
noncomputable def cardValue (w : Width) (ζ : ℂ) : ℂ :=
  (2 * (1 + phaseSign w ζ * (ζ.re / ‖ζ‖) : ℝ) : ℂ) * ((phaseSign w ζ / ‖ζ‖ : ℝ) * ζ)

theorem card_value (ζ : ℂ) (h : PhaseOk w ζ) :
    activate .cardioid (Cf.ofC ζ : Cf w ℝ) = some (Cf.ofC (cardValue w ζ)) := by
  obtain ⟨h1, h2⟩ := cos_sin_phase (Cf.ofC ζ : Cf w ℝ) (by simpa using h)
  simp only [Cf.toC_ofC, Cf.ofC_x, Cf.ofC_y] at h1 h2
  simp only [activate, card, smul', sadd, sone, stwo, scos, ssin, h1, h2]
  congr 1
  refine Cf.toC_inj.mp (Complex.ext ?_ ?_)
  · simp [cardValue]; left; ring
  · simp [cardValue]; left; ring

theorem phaseSign_pos {z : ℂ} (h : 0 < z.re) : phaseSign w z = 1 := by
  cases w
  · rfl
  · simp [phaseSign, h]

theorem phaseOk_pos {z : ℂ} (h : 0 < z.re) : PhaseOk w z := by
  cases w
  · intro h0; rw [h0] at h; exact lt_irrefl _ h
  · exact h.ne'

/-- The cardioid is differentiable only where the code's phase is defined. -/
theorem cardioid_phaseOk (z : Cf w ℝ) (hd : RunDifferentiableAt (activate .cardioid) z) :
    PhaseOk w z.toC := by
  by_contra hz
  by_cases h0 : z.toC = 0
  · -- two directions in the right half-plane
    have key : ∀ c : ℂ, 0 < c.re → ∀ s : ℝ, 0 < s →
        activate .cardioid (Cf.ofC (z.toC + s * c) : Cf w ℝ)
          = some (Cf.ofC ((2 * (1 + c.re / ‖c‖ : ℝ) : ℂ) * ((1 / ‖c‖ : ℝ) * c))) := by
      intro c hc s hs
      have hre : (0 : ℝ) < (z.toC + s * c).re := by
        rw [h0]; simp [hs, hc]
      rw [card_value _ (phaseOk_pos hre), cardValue, phaseSign_pos hre, h0, zero_add, norm_mul,
        Complex.norm_real, Real.norm_eq_abs, abs_of_pos hs]
      have hn : ‖c‖ ≠ 0 := by
        intro h; rw [norm_eq_zero] at h; rw [h] at hc; exact lt_irrefl _ hc
      have e1 : ((s : ℂ) * c).re / (s * ‖c‖) = c.re / ‖c‖ := by
        simp; field_simp
      rw [one_mul, e1]
      congr 3
      push_cast
      have : (s : ℂ) ≠ 0 := by exact_mod_cast hs.ne'
      have : (‖c‖ : ℂ) ≠ 0 := by exact_mod_cast hn
      field_simp
    have h1 := hd.limit (key 1 (by norm_num)) (key ⟨3, 4⟩ (by norm_num)) tendsto_const_nhds
      tendsto_const_nhds
    have h2 := congrArg Complex.im h1
    have h3 : (‖(⟨3, 4⟩ : ℂ)‖) = 5 := by
      rw [Complex.norm_def, Complex.normSq_mk, show (3 * 3 + 4 * 4 : ℝ) = 5 ^ 2 by norm_num]
      exact Real.sqrt_sq (by norm_num)
    rw [h3] at h2
    norm_num at h2
  · cases w with
    | w32 => exact hz h0
    | w64 =>
      -- from the right and from the left
      have hre : z.toC.re = 0 := not_not.mp hz
      have hx : z.x = 0 := hre
      have hlim : ∀ d : ℝ, Tendsto (fun s : ℝ => z.toC + s * (d : ℂ)) (𝓝[>] 0) (𝓝 z.toC) := by
        intro d
        have : ContinuousAt (fun s : ℝ => z.toC + s * (d : ℂ)) 0 := by fun_prop
        have := this.tendsto
        simp only [Complex.ofReal_zero, zero_mul, add_zero] at this
        exact this.mono_left nhdsWithin_le_nhds
      have hval : ∀ σ : ℝ, ContinuousAt (fun ζ : ℂ =>
          (2 * (1 + σ * (ζ.re / ‖ζ‖) : ℝ) : ℂ) * ((σ / ‖ζ‖ : ℝ) * ζ)) z.toC := by
        intro σ
        have hn : ‖z.toC‖ ≠ 0 := norm_ne_zero_iff.mpr h0
        have hr : ContinuousAt (fun ζ : ℂ => ζ.re) z.toC := Complex.continuous_re.continuousAt
        have h1 : ContinuousAt (fun ζ : ℂ => (1 + σ * (ζ.re / ‖ζ‖) : ℝ)) z.toC :=
          continuousAt_const.add (continuousAt_const.mul (hr.div continuous_norm.continuousAt hn))
        have h2 : ContinuousAt (fun ζ : ℂ => (σ / ‖ζ‖ : ℝ)) z.toC :=
          continuousAt_const.div continuous_norm.continuousAt hn
        exact (continuousAt_const.mul (Complex.continuous_ofReal.continuousAt.comp h1)).mul
          ((Complex.continuous_ofReal.continuousAt.comp h2).mul continuousAt_id)
      have h1 := hd.limit (c := (1 : ℝ)) (d := ((-1 : ℝ) : ℂ))
        (g := fun s => cardValue .w64 (z.toC + s * ((1 : ℝ) : ℂ)))
        (k := fun s => cardValue .w64 (z.toC + s * ((-1 : ℝ) : ℂ)))
        (fun s hs => card_value (w := .w64) _ (by
          show (z.toC + s * ((1 : ℝ) : ℂ)).re ≠ 0
          simp [hx, hs.ne']))
        (fun s hs => card_value (w := .w64) _ (by
          show (z.toC + s * ((-1 : ℝ) : ℂ)).re ≠ 0
          simp [hx, hs.ne']))
        (((hval 1).tendsto.comp (hlim 1)).congr' (by
          filter_upwards [self_mem_nhdsWithin] with s hs
          have : 0 < (z.toC + s * ((1 : ℝ) : ℂ)).re := by simpa [hx] using hs
          simp only [Function.comp, cardValue, phaseSign, if_pos this]))
        (((hval (-1)).tendsto.comp (hlim (-1))).congr' (by
          filter_upwards [self_mem_nhdsWithin] with s hs
          have : ¬ 0 < (z.toC + s * ((-1 : ℝ) : ℂ)).re := by
            have : (0 : ℝ) < s := hs
            simp [hx, this.le]
          simp only [Function.comp, cardValue, phaseSign, if_neg this]))
      simp only [hre, zero_div, mul_zero, add_zero, Complex.ofReal_one, mul_one] at h1
      have h2 : ((2 : ℂ) * ((1 / ‖z.toC‖ : ℝ) * z.toC)) = 0 := by
        have e : ((-1 / ‖z.toC‖ : ℝ) : ℂ) = -((1 / ‖z.toC‖ : ℝ) : ℂ) := by
          rw [neg_div, Complex.ofReal_neg]
        rw [e] at h1
        linear_combination h1 / 2
      have h3 : ((1 / ‖z.toC‖ : ℝ) : ℂ) ≠ 0 := by
        have : ‖z.toC‖ ≠ 0 := norm_ne_zero_iff.mpr h0
        exact_mod_cast one_div_ne_zero this
      exact mul_ne_zero two_ne_zero (mul_ne_zero h3 h0) h2

/-- On the negative real axis of `Cf32` the derivatives of the cardioid are both zero. -/
theorem cardioid_negative (z : Cf .w32 ℝ) (hx : z.x < 0) (hy : z.y = 0) :
    DerivsRight .cardioid z := by
  have hz : z.toC ≠ 0 := by
    intro h
    have := congrArg Complex.re h
    simp at this
    linarith
  have hok : PhaseOk .w32 z.toC := hz
  have hn : ‖z.toC‖ = -z.x := by
    have : z.toC = ((z.x : ℝ) : ℂ) := Complex.ext (by simp) (by simp [hy])
    rw [this, Complex.norm_real, Real.norm_eq_abs, abs_of_neg hx]
  obtain ⟨h1, h2⟩ := cos_sin_phase z hok
  have hc : Real.cos z.phase = -1 := by
    rw [h1, hn]
    simp only [phaseSign, one_mul]
    rw [div_neg, div_self hx.ne]
  have hs : Real.sin z.phase = 0 := by rw [h2, hy]; simp
  have e1 : cardDfdx z = ⟨0, 0⟩ := by
    simp only [cardDfdx, scos, ssin, sdiv, smul', sadd, ssub, ssq, stwo, slit, sone, hs]
    simp
  have e2 : cardDfdy z = ⟨0, 0⟩ := by
    simp only [cardDfdy, scos, ssin, sdiv, smul', sadd, ssub, ssq, stwo, slit, sone, hs, hc,
      Real.sin_two_mul]
    simp
    right
    norm_num
  have e3 : dCard z = ⟨0, 0⟩ := by
    rw [dCard, e1, e2]
    exact Cf.toC_inj.mp (Complex.ext (by simp) (by simp))
  have e4 : dConjCard z = ⟨0, 0⟩ := by
    rw [dConjCard, e1, e2]
    exact Cf.toC_inj.mp (Complex.ext (by simp) (by simp))
  have h := C29_cardioid z hok
  refine ⟨_, _, rfl, rfl, ?_⟩
  rw [e3, e4] at h ⊢
  simpa using h

/-- C29, exactly. At a point where the activation is differentiable, `d_activate` and
`d_conj_activate` return its Wirtinger derivatives if and only if: the activation is none of sigmoid
and cardioid; or it is the sigmoid and both components lie inside the threshold; or it is the
cardioid of `Cf32` on the negative real axis. -/
theorem C29_partial_iff (f : ActFunc) (z : Cf w ℝ) (hd : RunDifferentiableAt (activate f) z) :
    DerivsRight f z ↔ (f ≠ .ritSigmoid ∧ f ≠ .cardioid)
      ∨ (f = .ritSigmoid ∧ |z.x| < threshold w ∧ |z.y| < threshold w)
      ∨ (f = .cardioid ∧ w = .w32 ∧ z.x < 0 ∧ z.y = 0) := by
  by_cases hs : f = .ritSigmoid
  · subst hs
    obtain ⟨h1, h2⟩ := sigmoid_not_threshold z hd
    constructor
    · intro h
      refine Or.inr (Or.inl ⟨rfl, ?_⟩)
      by_contra hcon
      refine (C29_refuted_sigmoid z h1 h2 ?_).2 h
      rcases lt_or_gt_of_ne h1 with a | a
      · rcases lt_or_gt_of_ne h2 with b | b
        · exact absurd ⟨a, b⟩ hcon
        · exact Or.inr b
      · exact Or.inl a
    · rintro (⟨h, -⟩ | ⟨-, h3, h4⟩ | ⟨h, -⟩)
      · exact absurd rfl h
      · exact C29_partial_sigmoid z h3 h4
      · cases h
  by_cases hc : f = .cardioid
  · subst hc
    have hok := cardioid_phaseOk z hd
    constructor
    · intro h
      refine Or.inr (Or.inr ⟨rfl, ?_⟩)
      by_contra hcon
      exact (C29_refuted_cardioid z hok hcon).2 h
    · rintro (⟨-, h⟩ | ⟨h, -⟩ | ⟨-, rfl, h3, h4⟩)
      · exact absurd rfl h
      · cases h
      · exact cardioid_negative z h3 h4
  · exact ⟨fun _ => Or.inl ⟨hs, hc⟩, fun _ => C29_partial f hs hc z hd⟩

/-- C29: where the sigmoid and the cardioid are differentiable at all. -/
theorem C29_partial_where (z : Cf w ℝ) :
    (RunDifferentiableAt (activate .ritSigmoid) z ↔ |z.x| ≠ threshold w ∧ |z.y| ≠ threshold w)
    ∧ (RunDifferentiableAt (activate .cardioid) z ↔ PhaseOk w z.toC) := by
  have key : ∀ f : ActFunc, (∃ d dc, RunDerivAt (activate f) z d dc) →
      RunDifferentiableAt (activate f) z := by
    rintro f ⟨d, dc, F, h1, h2⟩
    exact ⟨F, h1, HasFDerivAt.differentiableAt h2⟩
  refine ⟨⟨sigmoid_not_threshold z, ?_⟩, ⟨cardioid_phaseOk z, fun h => key _ ⟨_, _, C29_cardioid z h⟩⟩⟩
  rintro ⟨hx, hy⟩
  by_cases h : threshold w < |z.x| ∨ threshold w < |z.y|
  · exact key _ (C29_refuted_sigmoid z hx hy h).1
  · push Not at h
    obtain ⟨d, dc, -, -, h3⟩ := C29_partial_sigmoid z (lt_of_le_of_ne h.1 hx) (lt_of_le_of_ne h.2 hy)
    exact key _ ⟨d, dc, h3⟩

/-- All three cases of `C29_partial_iff` occur, and so does the failure. -/
example : DerivsRight .zReLU (⟨1, 1⟩ : Cf w ℝ) ∧ DerivsRight .ritSigmoid (⟨0, 1⟩ : Cf w ℝ)
    ∧ DerivsRight .cardioid (⟨-1, 0⟩ : Cf .w32 ℝ) ∧ ¬ DerivsRight .ritSigmoid (⟨20, 1⟩ : Cf .w32 ℝ)
    ∧ ¬ DerivsRight .cardioid (⟨-1, 0⟩ : Cf .w64 ℝ) := by
  have ht : (1 : ℝ) < threshold w := by cases w <;> norm_num [threshold]
  refine ⟨zRelu_right _ (Or.inr ⟨by norm_num, by norm_num⟩), ?_, cardioid_negative _ (by norm_num) rfl,
    ?_, ?_⟩
  · exact C29_partial_sigmoid _ (by simpa using threshold_pos) (by simpa using ht)
  · refine (C29_partial_iff _ _ ((C29_partial_where _).1.mpr ?_)).not.mpr ?_
    · norm_num [threshold]
    · norm_num [threshold]
  · refine (C29_partial_iff _ _ ((C29_partial_where _).2.mpr ?_)).not.mpr ?_
    · show ((⟨-1, 0⟩ : Cf .w64 ℝ).toC).re ≠ 0
      simp
    · rintro (⟨-, h⟩ | ⟨h, -⟩ | ⟨-, h, -⟩)
      · exact h rfl
      · cases h
      · cases h

end Renplex
