import Verif.Lemmas.Exact
import Verif.Spec.Training
import Verif.Spec.Layer
/-!
# Units that no longer learn
-/

namespace Renplex
variable {w : Width}

/-- Both derivatives the code uses for the activation are zero at this point. -/
def ActFunc.Flat (f : ActFunc) (z : Cf w ℝ) : Prop :=
  CplxOps.dActivate f z = some 0 ∧ CplxOps.dConjActivate f z = some 0

/-- Unit `j` of a dense layer (weights `W`, biases `b`, `m` inputs, activation `f`) that follows the
layers `pre` is dead on the input `x`: whenever `x` passes through `pre`, the outcome is a vector of
`m` numbers at which the weighted sum of the unit falls on a flat point of the activation. -/
def DeadOn (pre : List (Layer (Cf w ℝ))) (m : Nat) (W : Nat → Nat → Cf w ℝ) (b : Nat → Cf w ℝ)
    (f : ActFunc) (j : Nat) (x : IOType (Cf w ℝ)) : Prop :=
  ∀ ys, Chain pre x ys → ∃ v : Nat → Cf w ℝ,
    (x :: ys).getLast? = some (.scalar ((List.range m).map v))
      ∧ f.Flat ((∑ i ∈ Finset.range m, W j i * v i) + b j)

/-- A layer without parameters. -/
def Layer.Fixed {α : Type} : Layer α → Prop
  | .reduce _ => True
  | .flatten _ => True
  | _ => False

end Renplex
