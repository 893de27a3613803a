import Verif.Spec.Exact
import Mathlib.Analysis.Calculus.Deriv.Basic
import Mathlib.Algebra.BigOperators.Group.List.Basic
/-!
# Losses and gradients
-/

namespace Renplex
variable {w : Width}

/-- `Σ |tᵢ - pᵢ|²` over the common positions. -/
noncomputable def sqSum (t p : List (Cf w ℝ)) : ℝ :=
  ((t.zip p).map fun q => ‖q.1.toC - q.2.toC‖ ^ 2).sum

/-- `p + s·δ`, component by component. -/
noncomputable def move (p δ : List (Cf w ℝ)) (s : ℝ) : List (Cf w ℝ) :=
  List.zipWith (fun a d => Cf.ofC (a.toC + s * d.toC)) p δ

/-- `Σ gᵢ·δᵢ`. -/
noncomputable def pairing (g δ : List (Cf w ℝ)) : ℂ :=
  (List.zipWith (fun a d : Cf w ℝ => a.toC * d.toC) g δ).sum

/-- `g` is the vector of Wirtinger derivatives `∂L/∂pᵢ` of the real-valued function `L` at `p`: the
derivative of `L` in every direction `δ` is `2·Re Σ gᵢ·δᵢ`. -/
def IsGradient (L : List (Cf w ℝ) → ℝ) (p g : List (Cf w ℝ)) : Prop :=
  g.length = p.length ∧ ∀ δ : List (Cf w ℝ), δ.length = p.length →
    HasDerivAt (fun s : ℝ => L (move p δ s)) (2 * (pairing g δ).re) 0

/-- The vector of length `n` with a one at `k` and zeros elsewhere. -/
def oneHot (n k : Nat) : List (Cf w ℝ) :=
  (List.range n).map fun i => if i = k then ⟨1, 0⟩ else ⟨0, 0⟩

/-- The soft-max probability of class `k`, over the squared moduli. -/
noncomputable def softmax (p : List (Cf w ℝ)) (k : Nat) : ℝ :=
  Real.exp (‖(p.getD k ⟨0, 0⟩).toC‖ ^ 2) / (p.map fun z => Real.exp (‖z.toC‖ ^ 2)).sum

end Renplex
