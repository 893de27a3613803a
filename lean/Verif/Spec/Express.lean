import Verif.Spec.Affine
/-!
# What dense networks can express
-/

namespace Renplex
variable {w : Width}

/-- A vector of complex numbers as the value that a network takes or returns. -/
def vec {m : Nat} (x : Fin m → ℂ) : IOType (Cf w ℝ) := .scalar (List.ofFn fun i => Cf.ofC (x i))

/-- Dense layers as the constructors build them: any number of them with `RITReLU`, and at the end one
without activation function. They take vectors of `m` numbers to vectors of `u` numbers. -/
def ReluNet (m u : Nat) (n : Net (Cf w ℝ)) : Prop :=
  FitsChain n.layers (.vec m) (.vec u) ∧ (∀ l ∈ n.layers, l.WF) ∧ ∃ (hidden : List (Dense (Cf w ℝ))) (out : Dense (Cf w ℝ)),
    n.layers = hidden.map .dense ++ [.dense out] ∧ (∀ d ∈ hidden, d.func = .ritReLU) ∧ out.func = .none

end Renplex
