import Verif.Spec.Exact
import Mathlib.Analysis.Calculus.FDeriv.Basic
/-!
# Wirtinger derivatives
-/

namespace Renplex
open Filter Topology

/-- The real-linear map `h ↦ d·h + d'·conj h`. -/
noncomputable def wirtMap (d dc : ℂ) : ℂ →L[ℝ] ℂ :=
  d • (ContinuousLinearMap.id ℝ ℂ) + dc • (Complex.conjCLE : ℂ →L[ℝ] ℂ)

/-- `f` is (real-)differentiable at `z`, with derivative `d` with respect to `z` and `dc` with
respect to `conj z`: `f (z + h) = f z + d·h + dc·conj h + o(h)`. -/
def HasWirtinger (f : ℂ → ℂ) (z d dc : ℂ) : Prop := HasFDerivAt f (wirtMap d dc) z

/-- Near `z` the (possibly panicking) function `f` returns, and its values are differentiable at
`z` with Wirtinger derivatives `d` and `dc`. -/
def RunDerivAt {w : Width} (f : Cf w ℝ → Run (Cf w ℝ)) (z d dc : Cf w ℝ) : Prop :=
  ∃ F : ℂ → ℂ, (∀ᶠ ζ in 𝓝 z.toC, f (Cf.ofC ζ) = some (Cf.ofC (F ζ)))
    ∧ HasWirtinger F z.toC d.toC dc.toC

/-- `f` is differentiable (in the real sense) at `z`. -/
def RunDifferentiableAt {w : Width} (f : Cf w ℝ → Run (Cf w ℝ)) (z : Cf w ℝ) : Prop :=
  ∃ F : ℂ → ℂ, (∀ᶠ ζ in 𝓝 z.toC, f (Cf.ofC ζ) = some (Cf.ofC (F ζ)))
    ∧ DifferentiableAt ℝ F z.toC

end Renplex
