import Verif.Spec.Batch
import Verif.Lemmas.Exact
/-!
# Specification vocabulary for the convergence of training
-/

namespace Renplex
variable {α : Type} {w : Width}

/-- The activations that are smooth everywhere and whose derivatives the code computes correctly
everywhere. -/
def ActFunc.Regular (f : ActFunc) : Prop := f = .none ∨ f = .ritTanh

/-- Dense and convolutional layers with such an activation, and flatten layers. -/
def Layer.Regular : Layer α → Prop
  | .dense l => l.func.Regular
  | .conv l => l.func.Regular
  | .flatten _ => True
  | .reduce _ => False

/-- A network of such layers for which back-propagation is right: only the first layer may be
convolutional, unless all convolutional layers are without activation. -/
structure Net.Regular (n : Net α) : Prop where
  layers : ∀ l ∈ n.layers, l.Regular
  conv : (∀ d, Layer.conv d ∉ n.layers.tail) ∨ ∀ d, Layer.conv d ∈ n.layers → d.func = .none

/-- Layers of the same kind, shape and activation. -/
def Layer.Alike : Layer α → Layer α → Prop
  | .dense l, .dense l' => l'.weights.shape = l.weights.shape ∧ l'.func = l.func
  | .conv l, .conv l' => l'.kernels.shape = l.kernels.shape ∧ l'.func = l.func
      ∧ l'.kernels.body.map Mat.shape = l.kernels.body.map Mat.shape
  | .reduce l, .reduce l' => l' = l
  | .flatten l, .flatten l' => l' = l
  | _, _ => False

/-- Networks of the same architecture: they differ at most in their parameters. -/
def Net.Alike (n n' : Net α) : Prop := List.Forall₂ Layer.Alike n.layers n'.layers

/-- All parameters have absolute value at most `R`. -/
def Net.InBall (n : Net (Cf w ℝ)) (R : ℝ) : Prop :=
  ∀ g ∈ n.params, ∀ z ∈ g.1 ++ g.2, ‖z.toC‖ ≤ R

/-- `G` are the derivatives the code computes for the batch, and they are the gradient: the sum of
what back-propagation returns for the points of the batch, each of which is the gradient of that
point's squared error. -/
def BatchGradient (n : Net (Cf w ℝ)) (pts : List (IOType (Cf w ℝ) × List (Cf w ℝ))) (f : LossFunc)
    (G : List (LayerVec (Cf w ℝ))) : Prop :=
  ∃ gss, List.Forall₂ (fun q gs => sampleGrads n f (q.1, .scalar q.2) = some gs
    ∧ IsNetGradient n q.1 q.2 gs) pts gss ∧ G = sumGrads n gss

end Renplex
