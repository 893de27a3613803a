import Verif.Spec.LeastSquares
/-!
# Specification vocabulary for training with a complex learning rate
-/

namespace Renplex
open ComplexConjugate
variable {w : Width}

/-- A training run as in `TrainingRun`, for a learning rate that need not be real. -/
structure ComplexRun (pre : List (Layer (Cf w ℝ))) (u m : Nat)
    (pts : List (IOType (Cf w ℝ) × List (Cf w ℝ))) (f : LossFunc) (lr : Cf w ℝ)
    (L : Nat → Dense (Cf w ℝ)) (e : Nat → ℝ) : Prop where
  linear : ∀ T : Nat, (L T).Linear u m
  train : ∀ T : Nat, (withHead pre (L 0)).train (List.replicate T (batchOf pts, f, lr))
    = some (withHead pre (L T))
  error : ∀ T : Nat, BatchError (withHead pre (L T)) pts (e T)

/-- `1 + Σ‖x_i‖²` over the features of an input. -/
noncomputable def magnitude (pre : List (Layer (Cf w ℝ))) (x : IOType (Cf w ℝ)) : ℝ :=
  1 + ((features pre x).map fun z => ‖z.toC‖ ^ 2).sum

/-- `1 + Σ x_i²` over the features of an input, without absolute values. -/
noncomputable def squareOf (pre : List (Layer (Cf w ℝ))) (x : IOType (Cf w ℝ)) : ℂ :=
  1 + ((features pre x).map fun z => z.toC ^ 2).sum

/-- A quadratic form in the deviation `v` of an output from its target, for an input of size `c` and
square `s` and the learning rate `a + b·i`. -/
noncomputable def twist (c : ℝ) (s : ℂ) (a b : ℝ) (v : ℂ) : ℝ :=
  c * (1 + a) * ‖v‖ ^ 2 - (s * (⟨b, 1 - a⟩ : ℂ) * conj v ^ 2).im

/-- The factor by which a training call multiplies `twist`. -/
noncomputable def twistFactor (c : ℝ) (s : ℂ) (a b : ℝ) : ℝ :=
  1 - c * (2 * a - b ^ 2) + c ^ 2 * a ^ 2 + (c ^ 2 - ‖s‖ ^ 2) * (b ^ 2 * (b ^ 2 + (1 - a) ^ 2)) / 4

/-- `e` is the sum of `twist` over the outputs of the network on the input `q.1`, for the learning rate
`lr`. -/
def TwistedError (pre : List (Layer (Cf w ℝ))) (l : Dense (Cf w ℝ)) (q : IOType (Cf w ℝ) × List (Cf w ℝ))
    (lr : Cf w ℝ) (e : ℝ) : Prop :=
  ∃ p, (withHead pre l).forward q.1 = some (.ok (.scalar p))
    ∧ e = ((p.zip q.2).map fun z =>
        twist (magnitude pre q.1) (squareOf pre q.1) lr.x lr.y (z.1.toC - z.2.toC)).sum

end Renplex
