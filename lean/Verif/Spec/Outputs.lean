import Verif.Spec.Unitary
import Verif.Spec.Rescale
/-!
# Turning the outputs of a network
-/

namespace Renplex
variable {w : Width}

/-- The matrix that renumbers by `σ`: row `k` reads number `σ k`. -/
noncomputable def renumber (σ : Equiv.Perm Nat) (k j : Nat) : Cf w ℝ := if j = σ k then 1 else 0

/-- The matrix `U` renumbers. -/
def Renumbers (u : Nat) (U : Nat → Nat → Cf w ℝ) : Prop :=
  ∃ σ : Equiv.Perm Nat, (∀ j, σ j < u ↔ j < u) ∧ ∀ k, k < u → ∀ j, j < u → U k j = renumber σ k j

/-- The `u × u` matrix `U` is unitary and passes through the activation `f`: there is no activation, or
`U` renumbers and multiplies by factors of absolute value one that pass through `f`. -/
def ActFunc.LetsThrough (f : ActFunc) (u : Nat) (U : Nat → Nat → Cf w ℝ) : Prop :=
  Unitary u U ∧ (f = .none ∨ ∃ (σ : Equiv.Perm Nat) (s : Nat → Cf w ℝ), (∀ j, σ j < u ↔ j < u)
    ∧ (∀ k, k < u → f.Passes (s k).toC (s k).toC ∧ ‖(s k).toC‖ = 1)
    ∧ ∀ k, k < u → ∀ j, j < u → U k j = if j = σ k then s k else 0)

/-- The data with all targets multiplied by `U`. -/
noncomputable def Dataset.turnTargets (u : Nat) (U : Nat → Nat → Cf w ℝ) (d : Dataset (Cf w ℝ)) :
    Dataset (Cf w ℝ) :=
  ⟨d.inputs, d.target.map (Renplex.turn u U)⟩

/-- Every point has a vector of `u` numbers as its target. -/
def Dataset.TargetsOf {α : Type} (u : Nat) (d : Dataset α) : Prop :=
  ∀ p ∈ d.points, ∃ v : List α, p.2 = .scalar v ∧ v.length = u

/-- The training history with all targets multiplied by `U`. -/
noncomputable def turnTargetSteps (u : Nat) (U : Nat → Nat → Cf w ℝ) (s : List (TrainStep (Cf w ℝ))) :
    List (TrainStep (Cf w ℝ)) :=
  s.map fun t => (t.1.turnTargets u U, t.2)

/-- Both networks end with a dense layer of `u` units. They differ in the weights and biases of this
layer, which in the second are those of the first multiplied by `U`. -/
def OutTurned (u : Nat) (U : Nat → Nat → Cf w ℝ) (n n' : Net (Cf w ℝ)) : Prop :=
  ∃ (pre : List (Layer (Cf w ℝ))) (a a' : Dense (Cf w ℝ)) (m : Nat) (W : Nat → Nat → Cf w ℝ)
    (c : Nat → Cf w ℝ) (f : ActFunc), 0 < m ∧ f.LetsThrough u U
    ∧ n.layers = pre ++ [.dense a] ∧ n'.layers = pre ++ [.dense a'] ∧ a.Is u m W c f
    ∧ a'.Is u m (fun k i => ∑ j ∈ Finset.range u, U k j * W j i) (fun k => ∑ j ∈ Finset.range u, U k j * c j) f

/-- Number `k` of a vector is larger in modulus than all others. -/
def Leads (k : Nat) (v : List (Cf w ℝ)) : Prop :=
  ∃ z, v[k]? = some z ∧ ∀ j y, j ≠ k → v[j]? = some y → ‖y.toC‖ < ‖z.toC‖

end Renplex
