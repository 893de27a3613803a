import Verif.Spec.Threshold
/-!
# Specification vocabulary for training with several batches in turn
-/

namespace Renplex
variable {w : Width}

/-- A batch with the loss function and the learning rate it is trained with. -/
structure Part (w : Width) where
  pts : List (IOType (Cf w ℝ) × List (Cf w ℝ))
  loss : LossFunc
  rate : ℝ

/-- The training call of a batch. -/
noncomputable def Part.call (b : Part w) : Dataset (Cf w ℝ) × LossFunc × Cf w ℝ := (batchOf b.pts, b.loss, ⟨b.rate, 0⟩)

/-- Points with inputs of the right extent and target vectors of the right length, at least one, and a positive
learning rate below the threshold of this batch (C120). -/
structure Part.Fine (pre : List (Layer (Cf w ℝ))) (s : Size) (u m : Nat) (b : Part w) : Prop where
  ne : b.pts ≠ []
  sized : ∀ q ∈ b.pts, q.1.HasSize s ∧ q.2.length = u
  pos : 0 < b.rate
  small : ∀ K, Steepness pre u m b.pts K → b.rate * K < 2 * b.pts.length

/-- The layer reproduces all targets of all batches. -/
def Dense.Fits (pre : List (Layer (Cf w ℝ))) (u m : Nat) (bs : List (Part w)) (l : Dense (Cf w ℝ)) : Prop :=
  l.Linear u m ∧ ∀ b ∈ bs, BatchError (withHead pre l) b.pts 0

/-- A training run in epochs: `L T` is the dense layer after `T` epochs, each of which trains with all batches in
turn, starting with `L 0`. -/
structure EpochRun (pre : List (Layer (Cf w ℝ))) (u m : Nat) (bs : List (Part w)) (L : Nat → Dense (Cf w ℝ)) :
    Prop where
  linear : ∀ T : Nat, (L T).Linear u m
  train : ∀ T : Nat, (withHead pre (L 0)).train ((List.replicate T bs).flatten.map Part.call)
    = some (withHead pre (L T))

/-- A training run with batches in any order: `L T` is the dense layer after the calls with the batches
`σ 0`, …, `σ (T - 1)`, starting with `L 0`. -/
structure CallRun (pre : List (Layer (Cf w ℝ))) (u m : Nat) (σ : Nat → Part w) (L : Nat → Dense (Cf w ℝ)) : Prop where
  linear : ∀ T : Nat, (L T).Linear u m
  train : ∀ T : Nat, (withHead pre (L 0)).train ((List.range T).map fun k => (σ k).call) = some (withHead pre (L T))

/-- The patches of the images of a batch, with the learning rate multiplied by the number of places. -/
noncomputable def Part.patches (nf p q r c : Nat) (b : Part w) : Part w :=
  ⟨allPatches nf p q r c b.pts, b.loss, b.rate * (((r - p + 1) * (c - q + 1) : Nat) : ℝ)⟩

/-- The same for the kernels and biases of a convolutional layer. -/
structure ImageEpochs (nf n p q r c : Nat) (bs : List (Part w)) (L : Nat → Conv (Cf w ℝ)) : Prop where
  linear : ∀ T : Nat, (L T).Linear nf n p q
  train : ∀ T : Nat, (imageNet nf (r - p + 1) (c - q + 1) (L 0)).train ((List.replicate T bs).flatten.map Part.call)
    = some (imageNet nf (r - p + 1) (c - q + 1) (L T))

/-- The same with batches in any order. -/
structure ImageCalls (nf n p q r c : Nat) (σ : Nat → Part w) (L : Nat → Conv (Cf w ℝ)) : Prop where
  linear : ∀ T : Nat, (L T).Linear nf n p q
  train : ∀ T : Nat, (imageNet nf (r - p + 1) (c - q + 1) (L 0)).train ((List.range T).map fun k => (σ k).call)
    = some (imageNet nf (r - p + 1) (c - q + 1) (L T))

/-- The convolutional layer reproduces all targets of all batches. -/
def Conv.Fits (nf n p q r c : Nat) (bs : List (Part w)) (l : Conv (Cf w ℝ)) : Prop :=
  l.Linear nf n p q ∧ ∀ b ∈ bs, BatchError (imageNet nf (r - p + 1) (c - q + 1) l) b.pts 0

/-- Images of the right size, at least one, and a positive learning rate below the threshold of the batch. -/
structure Part.FineImages (nf n p q r c : Nat) (b : Part w) : Prop where
  ne : b.pts ≠ []
  sized : Images nf n p q r c b.pts
  pos : 0 < b.rate
  small : ∀ K, Steepness (patchFront n p q) nf (n * (p * q)) (allPatches nf p q r c b.pts) K →
    b.rate * K < 2 * b.pts.length

end Renplex
