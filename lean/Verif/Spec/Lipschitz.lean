import Verif.Spec.Exact
import Verif.Spec.Network
import Mathlib.Algebra.BigOperators.Group.Finset.Basic
import Mathlib.Analysis.Complex.Basic
/-!
# How much a network can stretch distances

Distances of inputs and outputs are the largest distance of two corresponding entries.
-/

namespace Renplex

variable {w : Width}

/-- Corresponding entries are at most `δ` apart. -/
def Near2 (δ : ℝ) (u v : List (Cf w ℝ)) : Prop := List.Forall₂ (fun a b => ‖a.toC - b.toC‖ ≤ δ) u v

/-- The same for inputs and outputs of layers of the same shape. -/
def IOType.Apart (δ : ℝ) : IOType (Cf w ℝ) → IOType (Cf w ℝ) → Prop
  | .scalar u, .scalar v => Near2 δ u v
  | .matrix u, .matrix v => List.Forall₂ (fun m m' => m.shape = m'.shape ∧ Near2 δ m.body m'.body) u v
  | _, _ => False

/-- The activations that never increase distances. -/
def ActFunc.Short (f : ActFunc) : Prop := f = .none ∨ f = .ritTanh ∨ f = .ritReLU

/-- The layer stretches distances at most by `L`: for a dense layer the weights of every unit have
absolute values with sum at most `L`, for a convolutional layer the entries of all kernels of every
filter; the activation is one of those above. A block function must do so itself. -/
def Layer.Gain : Layer (Cf w ℝ) → ℝ → Prop
  | .dense l, L => l.func.Short ∧ ∃ u n W b, l.Is u n W b l.func
      ∧ ∀ j < u, ∑ i ∈ Finset.range n, ‖(W j i).toC‖ ≤ L
  | .conv l, L => l.func.Short ∧ ∃ nf n p q K b, l.Is nf n p q K b l.func
      ∧ ∀ o < nf, ∑ ch ∈ Finset.range n, ∑ a ∈ Finset.range p, ∑ b ∈ Finset.range q,
        ‖(K o ch a b).toC‖ ≤ L
  | .reduce l, L => ∀ u v δ, 0 ≤ δ → u.length = l.blockSize.1 * l.blockSize.2 → Near2 δ u v →
      ∃ y y', l.blockFunc u = some y ∧ l.blockFunc v = some y' ∧ ‖y.toC - y'.toC‖ ≤ L * δ
  | .flatten _, L => 1 ≤ L

end Renplex
