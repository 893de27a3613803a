import Verif.Lemmas.Exact
import Verif.Spec.Wirtinger
import Mathlib.Analysis.Calculus.FDeriv.Mul
import Mathlib.Analysis.Calculus.FDeriv.Comp
import Mathlib.Analysis.Calculus.Deriv.Comp
import Mathlib.Analysis.Calculus.Deriv.Inv
import Mathlib.Analysis.SpecialFunctions.Sqrt
/-!
# Calculus with Wirtinger derivatives
-/

namespace Renplex
open Filter Topology ComplexConjugate

@[simp] theorem wirtMap_apply (d dc h : ℂ) : wirtMap d dc h = d * h + dc * conj h := by
  simp [wirtMap]

theorem wirtMap_inj {d dc d' dc' : ℂ} (h : wirtMap d dc = wirtMap d' dc') : d = d' ∧ dc = dc' := by
  have h1 := congrArg (fun L => L 1) h
  have h2 := congrArg (fun L => L Complex.I) h
  simp only [wirtMap_apply, map_one, mul_one, Complex.conj_I] at h1 h2
  have h3 : d - dc = d' - dc' := by
    have : (d - dc) * Complex.I = (d' - dc') * Complex.I := by linear_combination h2
    exact mul_right_cancel₀ Complex.I_ne_zero this
  exact ⟨by linear_combination (h1 + h3) / 2, by linear_combination (h1 - h3) / 2⟩

namespace HasWirtinger
variable {f g : ℂ → ℂ} {z d dc e ec : ℂ}

theorem unique (h : HasWirtinger f z d dc) (h' : HasWirtinger f z e ec) : d = e ∧ dc = ec :=
  wirtMap_inj (HasFDerivAt.unique h h')

theorem congr (h : HasWirtinger f z d dc) (hf : g =ᶠ[𝓝 z] f) : HasWirtinger g z d dc :=
  HasFDerivAt.congr_of_eventuallyEq h hf

theorem id : HasWirtinger (fun z => z) z 1 0 := by
  unfold HasWirtinger
  have : wirtMap 1 0 = ContinuousLinearMap.id ℝ ℂ := by ext; simp
  rw [this]
  exact hasFDerivAt_id z

theorem const (c : ℂ) : HasWirtinger (fun _ => c) z 0 0 := by
  unfold HasWirtinger
  have : wirtMap 0 0 = 0 := by ext; simp
  rw [this]
  exact hasFDerivAt_const c z

theorem mul (hf : HasWirtinger f z d dc) (hg : HasWirtinger g z e ec) :
    HasWirtinger (fun z => f z * g z) z (f z * e + d * g z) (f z * ec + dc * g z) := by
  refine (HasFDerivAt.mul hf hg).congr_fderiv (ContinuousLinearMap.ext fun h => ?_)
  simp; ring

theorem add (hf : HasWirtinger f z d dc) (hg : HasWirtinger g z e ec) :
    HasWirtinger (fun z => f z + g z) z (d + e) (dc + ec) := by
  refine (HasFDerivAt.add hf hg).congr_fderiv (ContinuousLinearMap.ext fun h => ?_)
  simp; ring

/-- Functions of the real part and of the imaginary part separately. -/
theorem split {u v : ℝ → ℝ} {a b : ℝ} (hu : HasDerivAt u a z.re) (hv : HasDerivAt v b z.im) :
    HasWirtinger (fun z => (⟨u z.re, v z.im⟩ : ℂ)) z (((a + b) / 2 : ℝ) : ℂ)
      (((a - b) / 2 : ℝ) : ℂ) := by
  have h1 : HasFDerivAt (fun z : ℂ => u z.re) (a • Complex.reCLM) z :=
    HasDerivAt.comp_hasFDerivAt z hu Complex.reCLM.hasFDerivAt
  have h2 : HasFDerivAt (fun z : ℂ => v z.im) (b • Complex.imCLM) z :=
    HasDerivAt.comp_hasFDerivAt z hv Complex.imCLM.hasFDerivAt
  have h3 : HasFDerivAt (fun z : ℂ => ((u z.re : ℝ) : ℂ) + Complex.I * ((v z.im : ℝ) : ℂ))
      (Complex.ofRealCLM.comp (a • Complex.reCLM)
        + Complex.I • (Complex.ofRealCLM.comp (b • Complex.imCLM))) z :=
    (Complex.ofRealCLM.hasFDerivAt.comp z h1).add
      ((Complex.ofRealCLM.hasFDerivAt.comp z h2).const_mul Complex.I)
  have e1 : (fun z : ℂ => (⟨u z.re, v z.im⟩ : ℂ))
      = fun z : ℂ => ((u z.re : ℝ) : ℂ) + Complex.I * ((v z.im : ℝ) : ℂ) := by
    funext z; apply Complex.ext <;> simp
  unfold HasWirtinger
  rw [e1]
  refine h3.congr_fderiv (ContinuousLinearMap.ext fun h => ?_)
  apply Complex.ext <;> simp <;> ring

/-- The chain rule along a curve. -/
theorem comp_curve {γ : ℝ → ℂ} {s : ℝ} {γ' : ℂ} (hf : HasWirtinger f (γ s) d dc)
    (hγ : HasDerivAt γ γ' s) :
    HasDerivAt (fun s => f (γ s)) (d * γ' + dc * conj γ') s := by
  have := HasFDerivAt.comp_hasDerivAt s hf hγ
  rw [wirtMap_apply] at this
  exact this

end HasWirtinger

/-- The inverse modulus. -/
theorem hasWirtinger_inv_norm {z : ℂ} (hz : z ≠ 0) :
    HasWirtinger (fun z => ((‖z‖⁻¹ : ℝ) : ℂ)) z (-conj z / (2 * (‖z‖ : ℂ) ^ 3))
      (-z / (2 * (‖z‖ : ℂ) ^ 3)) := by
  have hn : ‖z‖ ≠ 0 := norm_ne_zero_iff.mpr hz
  have hq : z.re ^ 2 + z.im ^ 2 = ‖z‖ ^ 2 := by
    rw [← Complex.normSq_eq_norm_sq, Complex.normSq_apply]; ring
  have h0 : z.re ^ 2 + z.im ^ 2 ≠ 0 := by rw [hq]; positivity
  have h1 : HasFDerivAt (fun z : ℂ => z.re ^ 2 + z.im ^ 2)
      ((2 * z.re) • Complex.reCLM + (2 * z.im) • Complex.imCLM) z := by
    have hr := (Complex.reCLM.hasFDerivAt (x := z)).pow 2
    have hi := (Complex.imCLM.hasFDerivAt (x := z)).pow 2
    refine (hr.add hi).congr_fderiv (ContinuousLinearMap.ext fun h => ?_)
    simp
  have hsq : Real.sqrt (z.re ^ 2 + z.im ^ 2) = ‖z‖ := by rw [hq]; exact Real.sqrt_sq (norm_nonneg z)
  have h2 : HasDerivAt (fun t : ℝ => (Real.sqrt t)⁻¹)
      (-(1 / (2 * ‖z‖)) / ‖z‖ ^ 2) (z.re ^ 2 + z.im ^ 2) := by
    have := (Real.hasDerivAt_sqrt h0).inv (by rw [hsq]; exact hn)
    rw [hsq] at this
    exact this
  have h3 := Complex.ofRealCLM.hasFDerivAt.comp z (HasDerivAt.comp_hasFDerivAt z h2 h1)
  have e1 : (fun z : ℂ => ((‖z‖⁻¹ : ℝ) : ℂ))
      = Complex.ofRealCLM ∘ ((fun t : ℝ => (Real.sqrt t)⁻¹) ∘ fun z : ℂ => z.re ^ 2 + z.im ^ 2) := by
    funext ζ
    have : Real.sqrt (ζ.re ^ 2 + ζ.im ^ 2) = ‖ζ‖ := by
      rw [Complex.norm_def, Complex.normSq_apply]; congr 1; ring
    simp [this]
  unfold HasWirtinger
  rw [e1]
  refine h3.congr_fderiv (ContinuousLinearMap.ext fun h => ?_)
  have hnc : (‖z‖ : ℂ) ≠ 0 := by exact_mod_cast hn
  have key : conj z * h + z * conj h = 2 * ((z.re * h.re + z.im * h.im : ℝ) : ℂ) := by
    apply Complex.ext <;> simp <;> ring
  have e2 : (Complex.ofRealCLM.comp ((-(1 / (2 * ‖z‖)) / ‖z‖ ^ 2) •
      ((2 * z.re) • Complex.reCLM + (2 * z.im) • Complex.imCLM))) h
      = -((z.re * h.re + z.im * h.im : ℝ) : ℂ) / (‖z‖ : ℂ) ^ 3 := by
    simp
    field_simp
    ring
  rw [e2, wirtMap_apply]
  rw [show -conj z / (2 * (‖z‖ : ℂ) ^ 3) * h + -z / (2 * (‖z‖ : ℂ) ^ 3) * conj h
    = -(conj z * h + z * conj h) / (2 * (‖z‖ : ℂ) ^ 3) by ring, key]
  field_simp

end Renplex
