import Verif.Spec.Network
import Verif.Spec.Layer
import Verif.Lemmas.Exact
/-!
# Turning the inputs of a network
-/

namespace Renplex
variable {w : Width}

/-- The first `m` columns of `U`, of length `m`, are orthogonal to each other and of length 1. -/
def Unitary (m : Nat) (U : Nat → Nat → Cf w ℝ) : Prop :=
  ∀ i, i < m → ∀ i', i' < m →
    ∑ k ∈ Finset.range m, CplxOps.conj (U k i) * U k i' = if i = i' then 1 else 0

/-- The input with the vector of `m` numbers multiplied by `U`. Inputs that are not vectors of `m`
numbers stay as they are. -/
noncomputable def turn (m : Nat) (U : Nat → Nat → Cf w ℝ) : IOType (Cf w ℝ) → IOType (Cf w ℝ)
  | .scalar v => if v.length = m then
      .scalar ((List.range m).map fun k => ∑ i ∈ Finset.range m, U k i * v.getD i 0) else .scalar v
  | .matrix ms => .matrix ms

/-- The data with all inputs turned. -/
noncomputable def Dataset.turn (m : Nat) (U : Nat → Nat → Cf w ℝ) (d : Dataset (Cf w ℝ)) : Dataset (Cf w ℝ) :=
  ⟨d.inputs.map (Renplex.turn m U), d.target⟩

/-- The training history with all inputs turned. -/
noncomputable def turnSteps (m : Nat) (U : Nat → Nat → Cf w ℝ) (s : List (TrainStep (Cf w ℝ))) :
    List (TrainStep (Cf w ℝ)) :=
  s.map fun t => (t.1.turn m U, t.2)

/-- Both networks start with a dense layer on `m` inputs. They differ in the weights of this layer,
which are `W` and `W` times the conjugate transpose of the unitary matrix `U`. -/
def Turned (m : Nat) (U : Nat → Nat → Cf w ℝ) (n n' : Net (Cf w ℝ)) : Prop :=
  0 < m ∧ Unitary m U ∧ ∃ (a a' : Dense (Cf w ℝ)) (post : List (Layer (Cf w ℝ))) (u : Nat)
    (W : Nat → Nat → Cf w ℝ) (c : Nat → Cf w ℝ) (f : ActFunc),
    n.layers = .dense a :: post ∧ n'.layers = .dense a' :: post ∧ a.Is u m W c f
    ∧ a'.Is u m (fun j k => ∑ i ∈ Finset.range m, W j i * CplxOps.conj (U k i)) c f

/-- The matrix of the discrete Fourier transform of length `m`, scaled to be unitary. -/
noncomputable def fourier (m : Nat) (k i : Nat) : Cf w ℝ :=
  Cf.ofC (Complex.exp (-2 * Real.pi * Complex.I * (k * i) / m) / Real.sqrt m)

end Renplex
