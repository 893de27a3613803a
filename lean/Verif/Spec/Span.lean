import Verif.Spec.Dead
/-!
# What the first layer with parameters gets to see
-/

namespace Renplex
variable {w : Width}

/-- The layers `pre` turn the input into the vector of the numbers `v i`, `i < m`. -/
def Sees (pre : List (Layer (Cf w ℝ))) (m : Nat) (x : IOType (Cf w ℝ)) (v : Nat → Cf w ℝ) : Prop :=
  ∃ ys, Chain pre x ys ∧ (x :: ys).getLast? = some (.scalar ((List.range m).map v))

/-- The vectors of the training history, as the layers `pre` present them. -/
def SeenIn (pre : List (Layer (Cf w ℝ))) (m : Nat) (steps : List (TrainStep (Cf w ℝ)))
    (v : Nat → Cf w ℝ) : Prop :=
  ∃ s ∈ steps, ∃ p ∈ s.1.points, Sees pre m p.1 v

/-- The network starts with the layers `pre`, which have no parameters, followed by a dense layer of
`u` units on `m` inputs with weights `W`, biases `c` and activation `f`. -/
def StartsWith (n : Net (Cf w ℝ)) (pre : List (Layer (Cf w ℝ))) (u m : Nat) (W : Nat → Nat → Cf w ℝ)
    (c : Nat → Cf w ℝ) (f : ActFunc) : Prop :=
  0 < m ∧ (∀ l ∈ pre, l.Fixed) ∧ ∃ a post, n.layers = pre ++ .dense a :: post ∧ a.Is u m W c f

end Renplex
