import Verif.Spec.Layer
import Mathlib.Algebra.BigOperators.Group.Finset.Basic
/-!
# Convolutions as dense layers with shared weights
-/

namespace Renplex

/-- A dense layer on the flattened maps with the weights of a convolution: the output of filter `o` at
row `i` and column `j` weighs the input of channel `ch` at row `y` and column `x` by the kernel entry
that lies over it, and by 0 outside the window. All positions have the bias of the filter. -/
def Dense.Shares {α : Type} [Zero α] (d : Dense α) (nf n p q r c : Nat) (K : Nat → Nat → Nat → Nat → α)
    (b : Nat → α) (f : ActFunc) : Prop :=
  ∃ (W : Nat → Nat → α) (B : Nat → α),
    d.Is (nf * ((r - p + 1) * (c - q + 1))) (n * (r * c)) W B f
    ∧ ∀ o, o < nf → ∀ i, i < r - p + 1 → ∀ j, j < c - q + 1 →
      B (o * ((r - p + 1) * (c - q + 1)) + (i * (c - q + 1) + j)) = b o
      ∧ ∀ ch, ch < n → ∀ y, y < r → ∀ x, x < c →
        W (o * ((r - p + 1) * (c - q + 1)) + (i * (c - q + 1) + j)) (ch * (r * c) + (y * c + x))
          = if i ≤ y ∧ y < i + p then (if j ≤ x ∧ x < j + q then K o ch (y - i) (x - j) else 0) else 0

/-- The derivatives `γ` of a convolution are those of the dense layer, `γ'`, summed over the weights that
share a kernel entry and over the biases that share a bias. -/
def SumsShared {α : Type} [AddCommMonoid α] (nf n p q r c : Nat) (γ' γ : List α × List α) : Prop :=
  ∃ (F : Nat → Nat → α) (s : Nat → α),
    γ' = (table (nf * ((r - p + 1) * (c - q + 1))) (n * (r * c)) F,
      (List.range (nf * ((r - p + 1) * (c - q + 1)))).map s)
    ∧ γ = ((List.range nf).flatMap fun o => (List.range n).flatMap fun ch => table p q fun a e =>
          ∑ i ∈ Finset.range (r - p + 1), ∑ j ∈ Finset.range (c - q + 1),
            F (o * ((r - p + 1) * (c - q + 1)) + (i * (c - q + 1) + j))
              (ch * (r * c) + ((i + a) * c + (j + e))),
        (List.range nf).map fun o => ∑ i ∈ Finset.range (r - p + 1), ∑ j ∈ Finset.range (c - q + 1),
          s (o * ((r - p + 1) * (c - q + 1)) + (i * (c - q + 1) + j)))

end Renplex
