import Verif.Spec.Training
import Verif.Spec.Dead
import Verif.Lemmas.Exact
/-!
# Specification vocabulary for networks with one trained layer
-/

namespace Renplex
variable {w : Width}

/-- One or more layers without parameters that turn inputs of extent `s` into vectors of length `m`,
and whose own functions never panic. -/
structure FixedFront (pre : List (Layer (Cf w ℝ))) (s : Size) (m : Nat) : Prop where
  ne : pre ≠ []
  fixed : ∀ l ∈ pre, l.Fixed
  total : ∀ l ∈ pre, l.Total
  totalBack : ∀ l ∈ pre, l.TotalBack
  fits : FitsChain pre s (.vec m)
  pos : 0 < m

/-- The vector the layers turn an input into. -/
noncomputable def features (pre : List (Layer (Cf w ℝ))) (x : IOType (Cf w ℝ)) : List (Cf w ℝ) :=
  match (⟨pre⟩ : Net (Cf w ℝ)).forward x with
  | some (.ok (.scalar v)) => v
  | _ => []

/-- A dense layer of `u` units on `m` inputs without activation function. -/
def Dense.Linear (l : Dense (Cf w ℝ)) (u m : Nat) : Prop :=
  ∃ (W : Nat → Nat → Cf w ℝ) (b : Nat → Cf w ℝ), l.Is u m W b .none

/-- The fixed layers followed by a dense layer. -/
def withHead (pre : List (Layer (Cf w ℝ))) (l : Dense (Cf w ℝ)) : Net (Cf w ℝ) :=
  ⟨pre ++ [.dense l]⟩

/-- The squared Euclidean distance of the parameters of two dense layers of the same shape. -/
noncomputable def Dense.distSq (l l' : Dense (Cf w ℝ)) : ℝ :=
  (List.zipWith (fun a b => ‖a.toC - b.toC‖ ^ 2) l.weights.body l'.weights.body).sum
    + (List.zipWith (fun a b => ‖a.toC - b.toC‖ ^ 2) l.biases l'.biases).sum

/-- Inputs and target vectors as a batch. -/
def batchOf (pts : List (IOType (Cf w ℝ) × List (Cf w ℝ))) : Dataset (Cf w ℝ) :=
  ⟨pts.map (·.1), pts.map fun q => .scalar q.2⟩

/-- `r·Σ_q (1 + ‖x_q‖²)` over the points, `x_q` the features of point `q`. -/
noncomputable def rateSum (pre : List (Layer (Cf w ℝ))) (pts : List (IOType (Cf w ℝ) × List (Cf w ℝ)))
    (r : ℝ) : ℝ :=
  r * (pts.map fun q => 1 + ((features pre q.1).map fun z => ‖z.toC‖ ^ 2).sum).sum

/-- A training run: `L T` is the dense layer after `T` training calls with the batch and the learning
rate `r`, starting with `L 0`, and `e T` is the summed squared error on the batch at that time. -/
structure TrainingRun (pre : List (Layer (Cf w ℝ))) (u m : Nat)
    (pts : List (IOType (Cf w ℝ) × List (Cf w ℝ))) (f : LossFunc) (r : ℝ)
    (L : Nat → Dense (Cf w ℝ)) (e : Nat → ℝ) : Prop where
  linear : ∀ T : Nat, (L T).Linear u m
  train : ∀ T : Nat, (withHead pre (L 0)).train (List.replicate T (batchOf pts, f, ⟨r, 0⟩))
    = some (withHead pre (L T))
  error : ∀ T : Nat, BatchError (withHead pre (L T)) pts (e T)

/-- No choice of the parameters of the dense layer has a smaller error than `e`. -/
def LeastError (pre : List (Layer (Cf w ℝ))) (u m : Nat)
    (pts : List (IOType (Cf w ℝ) × List (Cf w ℝ))) (e : ℝ) : Prop :=
  ∀ (l : Dense (Cf w ℝ)) (e' : ℝ), l.Linear u m → BatchError (withHead pre l) pts e' → e ≤ e'

end Renplex
