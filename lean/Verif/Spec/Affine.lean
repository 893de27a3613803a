import Verif.Spec.Pooling
import Verif.Lemmas.Exact
/-!
# Layers without activation function
-/

namespace Renplex
variable {w : Width}

/-- A layer as the constructors build it whose outputs depend on the inputs in an affine way: dense
and convolutional layers without activation function, pooling by a weighted sum, flatten layers. -/
def Layer.Affine (l : Layer (Cf w ℝ)) : Prop :=
  l.WF ∧ match l with
    | .dense d => d.func = .none
    | .conv d => d.func = .none
    | .reduce d => ∃ W, d.Weighted W
    | .flatten _ => True

/-- A dense layer with weights `W` and biases `b`. -/
def Dense.of (u m : Nat) (W : Nat → Nat → Cf w ℝ) (b : Nat → Cf w ℝ) (f : ActFunc) : Dense (Cf w ℝ) :=
  ⟨Mat.fromBody (table u m W) (u, m), (List.range u).map b, f⟩

/-- The four points of the exclusive or, with the truth values 0 and 1. -/
noncomputable def xorPoints (w : Width) : List (IOType (Cf w ℝ) × List (Cf w ℝ)) :=
  [(.scalar [0, 0], [0]), (.scalar [0, 1], [1]), (.scalar [1, 0], [1]), (.scalar [1, 1], [0])]

end Renplex
