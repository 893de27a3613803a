import Verif.Spec.Epochs
/-!
# Specification vocabulary for training with batches that cannot be reproduced together
-/

namespace Renplex
variable {w : Width}

/-- An epoch leaves all weights and biases as they are. -/
def Dense.Settled (pre : List (Layer (Cf w ℝ))) (u m : Nat) (bs : List (Part w)) (l : Dense (Cf w ℝ)) : Prop :=
  l.Linear u m ∧ ∃ l', (withHead pre l).train (bs.map Part.call) = some (withHead pre l') ∧ l'.Linear u m
    ∧ l'.distSq l = 0

/-- An epoch leaves all kernels and biases as they are. -/
def Conv.Settled (nf n p q r c : Nat) (bs : List (Part w)) (l : Conv (Cf w ℝ)) : Prop :=
  l.Linear nf n p q ∧ ∃ l', (imageNet nf (r - p + 1) (c - q + 1) l).train (bs.map Part.call)
    = some (imageNet nf (r - p + 1) (c - q + 1) l') ∧ l'.Linear nf n p q ∧ l'.distSq l = 0

/-- The batch with its learning rate multiplied by `η`. -/
noncomputable def Part.slow (η : ℝ) (b : Part w) : Part w := ⟨b.pts, b.loss, η * b.rate⟩

/-- The sum of the mean squared errors on the batches, each multiplied by the learning rate of its batch. With equal
learning rates and batches of equal size it is a multiple of the squared error on all points. -/
def WeightedError (pre : List (Layer (Cf w ℝ))) (bs : List (Part w)) (l : Dense (Cf w ℝ)) (e : ℝ) : Prop :=
  ∃ es : List ℝ, List.Forall₂ (fun b e => BatchError (withHead pre l) b.pts e) bs es
    ∧ e = (List.zipWith (fun b e => b.rate / (b.pts.length : ℝ) * e) bs es).sum

end Renplex
