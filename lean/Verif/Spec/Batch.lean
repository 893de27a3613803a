import Verif.Spec.Training
/-!
# Specification vocabulary for the laws of batches
-/

namespace Renplex
variable {α : Type} {w : Width}

/-- Two data sets one after the other. -/
def Dataset.append (d e : Dataset α) : Dataset α := ⟨d.inputs ++ e.inputs, d.target ++ e.target⟩

/-- `k` copies of a data set one after the other. -/
def Dataset.copies (d : Dataset α) : Nat → Dataset α
  | 0 => ⟨[], []⟩
  | k + 1 => d.append (d.copies k)

/-- The parameters of a layer: weights (kernel by kernel, row by row) and biases. -/
def Layer.params : Layer α → LayerVec α
  | .dense l => (l.weights.body, l.biases)
  | .conv l => (l.kernels.body.flatMap Mat.getBody, l.biases)
  | .reduce _ => ([], [])
  | .flatten _ => ([], [])

/-- The parameters of a network, layer by layer. -/
def Net.params (n : Net α) : List (LayerVec α) := n.layers.map Layer.params

/-- The network `n` with every parameter `p` moved by the fraction `t` of the way to the parameter
`q` in the same place of `m`: `p + t·(q - p)`. -/
noncomputable def Net.blend (n m : Net (Cf w ℝ)) (t : ℝ) : Net (Cf w ℝ) :=
  n.zipParams (fun p q => Cf.ofC (p.toC + t * (q.toC - p.toC))) m.params

end Renplex
