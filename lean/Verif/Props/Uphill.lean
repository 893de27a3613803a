import Verif.Props.Descent
import Verif.Props.DescentLaw
/-!
# C53 where the activation derivative is wrong
-/

namespace Renplex
open Filter Topology ComplexConjugate
variable {w : Width}

/-- A dense layer with one input, one unit, weight `a`, bias `b` and activation `f`. -/
noncomputable def exUnitOf (a b : Cf w ℝ) (f : ActFunc) : Layer (Cf w ℝ) :=
  .dense ⟨Mat.fromBody [a] (1, 1), [b], f⟩

theorem exUnitOf_forward {f : ActFunc} {a b x y : Cf w ℝ} (h : Act.activate f (a * x + b) = some y) :
    (exUnitOf a b f).forward (.scalar [x]) = some (.ok (.scalar [y])) := by
  simp [exUnitOf, Layer.forward, Dense.forward, Dense.computeQ, Mat.mulSlice, Mat.rowsAsIter, chunks,
    chunksPos, chunksAux, Mat.fromBody, unwrap, addSliceMut, zipUpd, activateMut, CplxOps.activate, h]

theorem toC_conj' (a : Cf w ℝ) : (CplxOps.conj a).toC = conj a.toC := Cf.toC_conj a

theorem phaseOk_one (w : Width) : PhaseOk w 1 := by
  cases w
  · exact one_ne_zero
  · show _ ≠ _; simp

theorem phase_one : Real.cos (⟨1, 0⟩ : Cf w ℝ).phase = 1 ∧ Real.sin (⟨1, 0⟩ : Cf w ℝ).phase = 0 := by
  have h1 : (⟨1, 0⟩ : Cf w ℝ).toC = 1 := rfl
  have h := cos_sin_phase (⟨1, 0⟩ : Cf w ℝ) (by rw [h1]; exact phaseOk_one w)
  have hs : phaseSign w 1 = 1 := by cases w <;> simp [phaseSign]
  rw [h1, hs] at h
  simpa using h

theorem card_one : Act.activate .cardioid (⟨1, 0⟩ : Cf w ℝ) = some ⟨4, 0⟩ := by
  obtain ⟨h1, h2⟩ := phase_one (w := w)
  simp [Act.activate, Act.card, h1, h2]
  norm_num

theorem norm_one' : (⟨1, 0⟩ : Cf w ℝ).norm = 1 := by simp [Cf.norm]

theorem dCard_one : Act.dCard (⟨1, 0⟩ : Cf w ℝ) = ⟨-4, 0⟩ := by
  obtain ⟨h1, h2⟩ := phase_one (w := w)
  have h3 : Real.sin (2 * (⟨1, 0⟩ : Cf w ℝ).phase) = 0 := by rw [Real.sin_two_mul, h2]; ring
  ext <;> simp [Act.dCard, Act.cardDfdx, Act.cardDfdy, Cf.sub, Cf.mul, Cf.iunit, h1, h2, h3, norm_one']
  norm_num

theorem dConjCard_one : Act.dConjCard (⟨1, 0⟩ : Cf w ℝ) = ⟨4, 0⟩ := by
  obtain ⟨h1, h2⟩ := phase_one (w := w)
  have h3 : Real.sin (2 * (⟨1, 0⟩ : Cf w ℝ).phase) = 0 := by rw [Real.sin_two_mul, h2]; ring
  ext <;> simp [Act.dConjCard, Act.cardDfdx, Act.cardDfdy, Cf.add, Cf.mul, Cf.iunit, h1, h2, h3,
    norm_one']
  norm_num

theorem card_deriv_one : RunDerivAt (Act.activate .cardioid) (⟨1, 0⟩ : Cf w ℝ) ⟨2, 0⟩ ⟨-2, 0⟩ := by
  have h1 : (⟨1, 0⟩ : Cf w ℝ).toC = 1 := rfl
  have hs : phaseSign w 1 = 1 := by cases w <;> simp [phaseSign]
  have h := C29_cardioid (⟨1, 0⟩ : Cf w ℝ) (by rw [h1]; exact phaseOk_one w)
  rw [h1, hs, dCard_one, dConjCard_one] at h
  norm_num at h
  exact h

/-- C53 is false of the code. A network of two dense layers, a cardioid unit of weight 1 and bias 0
and a unit without activation, predicts 4 for the input 1. Trained on that input and a target `t`
with rate `r`, its squared error changes at the rate `94·(Im t)² - 34·(4 - Re t)²`, which is positive
for the targets that lie in a wide angle above and below 4: then every sufficiently small step
*increases* the error. -/
theorem C53_refuted (lf : LossFunc) : ∃ n : Net (Cf w ℝ), n.layers.length = 2
    ∧ (∀ l ∈ n.layers, l.WF) ∧ (∀ l ∈ n.layers, l.DenseOrFlatten)
    ∧ ∀ t : Cf w ℝ, ∃ (n' : ℝ → Net (Cf w ℝ)) (E : ℝ → ℝ),
      (∀ r, n.gradientOpt ⟨[.scalar [⟨1, 0⟩]], [.scalar [t]]⟩ lf ⟨r, 0⟩ = some (.ok (), n' r))
      ∧ (∀ᶠ r in 𝓝 (0 : ℝ), BatchError (n' r) [(.scalar [⟨1, 0⟩], [t])] (E r))
      ∧ BatchError n [(.scalar [⟨1, 0⟩], [t])] (E 0)
      ∧ HasDerivAt E (94 * t.y ^ 2 - 34 * (4 - t.x) ^ 2) 0
      ∧ (17 * (4 - t.x) ^ 2 < 47 * t.y ^ 2 → ∀ᶠ r in 𝓝[>] (0 : ℝ), E 0 < E r) := by
  refine ⟨exActNet .cardioid, rfl, exActNet_wf _, ?_, fun t => ?_⟩
  · intro l hl
    simp only [exActNet, List.mem_cons, List.not_mem_nil, or_false] at hl
    rcases hl with rfl | rfl <;> exact trivial
  have hs := exActNet_sample lf (t := t) (card_one (w := w)) (d := ⟨-4, 0⟩) (dc := ⟨4, 0⟩)
    (by rw [← dCard_one]; rfl) (by rw [← dConjCard_one]; rfl)
  -- the derivatives back-propagation returns
  have g1 : (⟨1, 0⟩ : Cf w ℝ) * (⟨-4, 0⟩ * CplxOps.conj (⟨4, 0⟩ - t)
      + CplxOps.conj ⟨4, 0⟩ * CplxOps.conj (CplxOps.conj (⟨4, 0⟩ - t))) = ⟨0, -(8 * t.y)⟩ := by
    apply Cf.toC_inj.mp
    simp only [Cf.toC_hom_mul, Cf.toC_hom_add, Cf.toC_hom_sub, toC_conj']
    apply Complex.ext <;> simp
    all_goals ring
  have g2 : (⟨-4, 0⟩ : Cf w ℝ) * CplxOps.conj (⟨4, 0⟩ - t)
      + CplxOps.conj ⟨4, 0⟩ * CplxOps.conj (CplxOps.conj (⟨4, 0⟩ - t)) = ⟨0, -(8 * t.y)⟩ := by
    apply Cf.toC_inj.mp
    simp only [Cf.toC_hom_mul, Cf.toC_hom_add, Cf.toC_hom_sub, toC_conj']
    apply Complex.ext <;> simp
    all_goals ring
  have g3 : (⟨4, 0⟩ : Cf w ℝ) * CplxOps.conj (⟨4, 0⟩ - t) = ⟨4 * (4 - t.x), 4 * t.y⟩ := by
    apply Cf.toC_inj.mp
    simp only [Cf.toC_hom_mul, Cf.toC_hom_add, Cf.toC_hom_sub, toC_conj']
    apply Complex.ext <;> simp
    all_goals ring
  have g4 : CplxOps.conj ((⟨4, 0⟩ : Cf w ℝ) - t) = ⟨4 - t.x, t.y⟩ := by
    apply Cf.toC_inj.mp
    simp only [Cf.toC_hom_mul, Cf.toC_hom_add, Cf.toC_hom_sub, toC_conj']
    apply Complex.ext <;> simp
    all_goals ring
  rw [g1, g2, g3, g4] at hs
  have hfit : List.Forall₂ LayerVec.Fits [([⟨0, -(8 * t.y)⟩], [⟨0, -(8 * t.y)⟩]),
      ([⟨4 * (4 - t.x), 4 * t.y⟩], [⟨4 - t.x, t.y⟩])] (exActNet .cardioid : Net (Cf w ℝ)).layers :=
    .cons ⟨rfl, rfl⟩ (.cons ⟨rfl, rfl⟩ .nil)
  have hgo : ∀ r : ℝ, (exActNet .cardioid : Net (Cf w ℝ)).gradientOpt
      ⟨[.scalar [⟨1, 0⟩]], [.scalar [t]]⟩ lf ⟨r, 0⟩ = some (.ok (),
        ⟨[exUnitOf ⟨1, -(8 * t.y * r)⟩ ⟨0, -(8 * t.y * r)⟩ .cardioid,
          exUnitOf ⟨1 - 4 * (4 - t.x) * r, 4 * t.y * r⟩ ⟨-((4 - t.x) * r), t.y * r⟩ .none]⟩) := by
    intro r
    refine (C50_partial _ _ le_rfl (exActNet_wf _) _ (by simp) lf _ rfl _).mpr
      ⟨rfl, _, .cons ⟨hs, hfit⟩ .nil, ?_⟩
    have hsum : sumGrads (exActNet .cardioid : Net (Cf w ℝ))
        [[([⟨0, -(8 * t.y)⟩], [⟨0, -(8 * t.y)⟩]),
          ([⟨4 * (4 - t.x), 4 * t.y⟩], [⟨4 - t.x, t.y⟩])]]
        = [([⟨0, -(8 * t.y)⟩], [⟨0, -(8 * t.y)⟩]),
          ([⟨4 * (4 - t.x), 4 * t.y⟩], [⟨4 - t.x, t.y⟩])] := by
      have hp : (exUnit : Layer (Cf w ℝ)).propagates = true := rfl
      have hl : (exUnit : Layer (Cf w ℝ)).paramsLen = (1, 1) := rfl
      have hp' : (exAct .cardioid 0 : Layer (Cf w ℝ)).propagates = true := rfl
      have hl' : (exAct .cardioid 0 : Layer (Cf w ℝ)).paramsLen = (1, 1) := rfl
      simp [sumGrads, exActNet, LayerVec.zero, hp, hl, hp', hl', LayerVec.add]
    rw [hsum]
    simp only [Net.zipParams, exActNet, exAct, exUnit, exUnitOf, Layer.zipParams, Mat.fromBody,
      List.zipWith_cons_cons, List.zipWith_nil_left, Net.mk.injEq, List.cons.injEq, Layer.dense.injEq,
      Dense.mk.injEq, Mat.mk.injEq, and_true, true_and]
    refine ⟨⟨?_, ?_⟩, ?_, ?_⟩
    all_goals
      apply Cf.toC_inj.mp
      simp only [Cf.toC_ofC, Cf.toC_hom_one, Cf.toC_hom_zero]
      apply Complex.ext <;> simp
      all_goals ring
  -- the pre-activation of the cardioid unit after a step
  have hq : HasDerivAt (fun r : ℝ => ((⟨1, -(16 * t.y * r)⟩ : ℂ))) ⟨0, -(16 * t.y)⟩ 0 := by
    have e : (fun r : ℝ => (⟨1, -(16 * t.y * r)⟩ : ℂ)) = fun r : ℝ => 1 + (r : ℂ) * ⟨0, -(16 * t.y)⟩ := by
      funext r
      apply Complex.ext <;> simp
      ring
    rw [e]
    refine (((Complex.ofRealCLM.hasDerivAt (x := (0 : ℝ))).mul_const _).const_add 1).congr_deriv ?_
    simp
  obtain ⟨F, hF1, hF2, hF3⟩ := act_curve hq (z := (⟨1, 0⟩ : Cf w ℝ)) (by simp [Cf.toC])
    card_deriv_one
  rw [card_one] at hF2
  have hF0 : F 0 = 4 := by
    have := congrArg Cf.toC (Option.some.inj hF2)
    rw [Cf.toC_ofC] at this
    rw [← this]
    apply Complex.ext <;> simp [Cf.toC]
  set c : ℝ → ℂ := fun r => (⟨1 - 4 * (4 - t.x) * r, 4 * t.y * r⟩ : ℂ) * F r
    + ⟨-((4 - t.x) * r), t.y * r⟩ with hc
  have hfw : ∀ᶠ r in 𝓝 (0 : ℝ), BatchError
      (⟨[exUnitOf ⟨1, -(8 * t.y * r)⟩ ⟨0, -(8 * t.y * r)⟩ .cardioid,
          exUnitOf ⟨1 - 4 * (4 - t.x) * r, 4 * t.y * r⟩ ⟨-((4 - t.x) * r), t.y * r⟩ .none]⟩ :
        Net (Cf w ℝ)) [(.scalar [⟨1, 0⟩], [t])] (‖t.toC - c r‖ ^ 2) := by
    filter_upwards [hF3] with r hr
    refine ⟨[[Cf.ofC (c r)]], .cons ?_ .nil, by simp [sqSum]⟩
    have e1 := exUnitOf_forward (a := (⟨1, -(8 * t.y * r)⟩ : Cf w ℝ)) (b := ⟨0, -(8 * t.y * r)⟩)
      (x := ⟨1, 0⟩) (f := .cardioid) (y := Cf.ofC (F r)) (by
        rw [← hr]
        congr 1
        apply Cf.toC_inj.mp
        rw [Cf.toC_hom_add, Cf.toC_hom_mul, Cf.toC_ofC]
        apply Complex.ext <;> simp [Cf.toC]
        ring)
    have e2 := exUnitOf_forward (a := (⟨1 - 4 * (4 - t.x) * r, 4 * t.y * r⟩ : Cf w ℝ))
      (b := ⟨-((4 - t.x) * r), t.y * r⟩)
      (x := Cf.ofC (F r)) (f := .none) (y := Cf.ofC (c r)) (by
        show some _ = some _
        congr 1)
    simp [Net.forward, Net.fwd, unwrap, e1, e2]
  have hcd : HasDerivAt c ⟨-(17 * (4 - t.x)), -(47 * t.y)⟩ 0 := by
    have h1 : HasDerivAt (fun r : ℝ => (⟨1 - 4 * (4 - t.x) * r, 4 * t.y * r⟩ : ℂ))
        ⟨-(4 * (4 - t.x)), 4 * t.y⟩ 0 := by
      have e : (fun r : ℝ => (⟨1 - 4 * (4 - t.x) * r, 4 * t.y * r⟩ : ℂ))
          = fun r : ℝ => 1 + (r : ℂ) * ⟨-(4 * (4 - t.x)), 4 * t.y⟩ := by
        funext r
        apply Complex.ext <;> simp
        all_goals ring
      rw [e]
      refine (((Complex.ofRealCLM.hasDerivAt (x := (0 : ℝ))).mul_const _).const_add 1).congr_deriv ?_
      simp
    have h2 : HasDerivAt (fun r : ℝ => (⟨-((4 - t.x) * r), t.y * r⟩ : ℂ)) ⟨-(4 - t.x), t.y⟩ 0 := by
      have e : (fun r : ℝ => (⟨-((4 - t.x) * r), t.y * r⟩ : ℂ))
          = fun r : ℝ => (r : ℂ) * ⟨-(4 - t.x), t.y⟩ := by
        funext r
        apply Complex.ext <;> simp
        all_goals ring
      rw [e]
      refine ((Complex.ofRealCLM.hasDerivAt (x := (0 : ℝ))).mul_const _).congr_deriv ?_
      simp
    refine ((h1.mul hF1).add h2).congr_deriv ?_
    rw [hF0]
    apply Complex.ext <;> simp
    all_goals ring
  have hc0 : c 0 = 4 := by
    rw [hc]; simp only [mul_zero, sub_zero, neg_zero, hF0]
    apply Complex.ext <;> simp
  have hE : HasDerivAt (fun r => ‖t.toC - c r‖ ^ 2) (94 * t.y ^ 2 - 34 * (4 - t.x) ^ 2) 0 := by
    have := hasDerivAt_sq_curve (t := t.toC) hcd
    rw [hc0] at this
    refine this.congr_deriv ?_
    simp [Cf.toC]
    ring
  refine ⟨_, fun r => ‖t.toC - c r‖ ^ 2, hgo, hfw, ?_, hE, ?_⟩
  · have h0 := hfw.self_of_nhds
    have e0 : (⟨[exUnitOf ⟨1, -(8 * t.y * 0)⟩ ⟨0, -(8 * t.y * 0)⟩ .cardioid,
          exUnitOf ⟨1 - 4 * (4 - t.x) * 0, 4 * t.y * 0⟩ ⟨-((4 - t.x) * 0), t.y * 0⟩ .none]⟩ :
        Net (Cf w ℝ)) = exActNet .cardioid := by
      simp only [mul_zero, neg_zero, sub_zero]
      rfl
    rw [e0] at h0
    exact h0
  · intro h
    have hpos : 0 < 94 * t.y ^ 2 - 34 * (4 - t.x) ^ 2 := by linarith
    have ht := (hasDerivAt_iff_tendsto_slope.mp hE).eventually (lt_mem_nhds hpos)
    have ht' := ht.filter_mono (nhdsWithin_mono _ fun x (hx : x ∈ Set.Ioi (0 : ℝ)) => ne_of_gt hx)
    filter_upwards [ht', self_mem_nhdsWithin] with r hr hr0
    rw [slope_def_field, sub_zero] at hr
    have hr1 : (0 : ℝ) < r := hr0
    rw [div_pos_iff] at hr
    rcases hr with hr | hr <;> linarith

/-- Such targets exist: with the target `4 + i` every small step increases the error. -/
example : 17 * (4 - (⟨4, 1⟩ : Cf .w32 ℝ).x) ^ 2 < 47 * (⟨4, 1⟩ : Cf .w32 ℝ).y ^ 2 := by norm_num

end Renplex
