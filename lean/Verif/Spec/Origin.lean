import Verif.Spec.Outputs
/-!
# Moving the origin of the targets or of the inputs
-/

namespace Renplex
variable {w : Width}

/-- The vector `t` added to a vector of `u` numbers; everything else as it is. -/
noncomputable def shift (u : Nat) (t : Nat → Cf w ℝ) : IOType (Cf w ℝ) → IOType (Cf w ℝ)
  | .scalar v => if v.length = u then .scalar ((List.range u).map fun k => v.getD k 0 + t k) else .scalar v
  | .matrix ms => .matrix ms

/-- The data with `t` added to all targets. -/
noncomputable def Dataset.shiftTargets (u : Nat) (t : Nat → Cf w ℝ) (d : Dataset (Cf w ℝ)) : Dataset (Cf w ℝ) :=
  ⟨d.inputs, d.target.map (Renplex.shift u t)⟩

/-- The data with `t` added to all inputs. -/
noncomputable def Dataset.shiftInputs (m : Nat) (t : Nat → Cf w ℝ) (d : Dataset (Cf w ℝ)) : Dataset (Cf w ℝ) :=
  ⟨d.inputs.map (Renplex.shift m t), d.target⟩

/-- The training history with `t` added to all targets. -/
noncomputable def shiftTargetSteps (u : Nat) (t : Nat → Cf w ℝ) (s : List (TrainStep (Cf w ℝ))) :
    List (TrainStep (Cf w ℝ)) :=
  s.map fun q => (q.1.shiftTargets u t, q.2)

/-- Both networks end with a dense layer of `u` units without activation. They differ in the biases of this
layer, to which `t` is added in the second. -/
def OutShifted (u : Nat) (t : Nat → Cf w ℝ) (n n' : Net (Cf w ℝ)) : Prop :=
  ∃ (pre : List (Layer (Cf w ℝ))) (a a' : Dense (Cf w ℝ)) (m : Nat) (W : Nat → Nat → Cf w ℝ)
    (c : Nat → Cf w ℝ), 0 < m
    ∧ n.layers = pre ++ [.dense a] ∧ n'.layers = pre ++ [.dense a'] ∧ a.Is u m W c .none
    ∧ a'.Is u m W (fun k => c k + t k) .none

/-- Both networks start with a dense layer of `m` inputs. They differ in the biases of this layer, from which
the weighted sum of `t` is subtracted in the second. -/
def InShifted (m : Nat) (t : Nat → Cf w ℝ) (n n' : Net (Cf w ℝ)) : Prop :=
  0 < m ∧ ∃ (a a' : Dense (Cf w ℝ)) (post : List (Layer (Cf w ℝ))) (u : Nat)
    (W : Nat → Nat → Cf w ℝ) (c : Nat → Cf w ℝ) (f : ActFunc),
    n.layers = .dense a :: post ∧ n'.layers = .dense a' :: post ∧ a.Is u m W c f
    ∧ a'.Is u m W (fun j => c j - ∑ i ∈ Finset.range m, W j i * t i) f

end Renplex
