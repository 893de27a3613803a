import Verif.Spec.Patches
/-!
# Specification vocabulary for the largest usable learning rate
-/

namespace Renplex
variable {w : Width}

/-- The squared Euclidean length of the parameters of a dense layer. -/
noncomputable def Dense.lengthSq (l : Dense (Cf w ℝ)) : ℝ :=
  (l.weights.body.map fun a => ‖a.toC‖ ^ 2).sum + (l.biases.map fun a => ‖a.toC‖ ^ 2).sum

/-- The same inputs with zeros as targets. -/
noncomputable def zeroTargets (u : Nat) (pts : List (IOType (Cf w ℝ) × List (Cf w ℝ))) :
    List (IOType (Cf w ℝ) × List (Cf w ℝ)) :=
  pts.map fun q => (q.1, List.replicate u 0)

/-- `K` is the largest value of the summed squared outputs on the inputs, over all dense layers with
parameters of length 1. -/
structure Steepness (pre : List (Layer (Cf w ℝ))) (u m : Nat)
    (pts : List (IOType (Cf w ℝ) × List (Cf w ℝ))) (K : ℝ) : Prop where
  upper : ∀ (l : Dense (Cf w ℝ)) (e : ℝ), l.Linear u m → l.lengthSq = 1 →
    BatchError (withHead pre l) (zeroTargets u pts) e → e ≤ K
  attained : ∃ l : Dense (Cf w ℝ), l.Linear u m ∧ l.lengthSq = 1 ∧ BatchError (withHead pre l) (zeroTargets u pts) K

end Renplex
