import Verif.Spec.Training
import Verif.Spec.Conv
/-!
# Specification of linear pooling
-/

namespace Renplex

/-- The block function of the layer is the weighted sum of the block, with weight `W a b` for the
entry in row `a` and column `b`. -/
def Reduce.Weighted {α : Type} [CommRing α] (l : Reduce α) (W : Nat → Nat → α) : Prop :=
  0 < l.blockSize.1 ∧ 0 < l.blockSize.2 ∧ ∀ x : Nat → Nat → α,
    l.blockFunc ((List.range l.blockSize.1).flatMap fun a => (List.range l.blockSize.2).map (x a))
      = some (∑ a ∈ Finset.range l.blockSize.1, ∑ b ∈ Finset.range l.blockSize.2, W a b * x a b)

/-- The transpose of weighted pooling: entry `(i, j)` of a map influences the block `(i/p, j/q)`
only, with the weight of its place in the block. -/
def poolBack {α : Type} [CommRing α] (p q : Nat) (W g : Nat → Nat → α) (i j : Nat) : α :=
  g (i / p) (j / q) * W (i % p) (j % q)

/-- The `3 × 3` kernel `k` holds the weights, turned by 180° about the entry at offset `(u, v)` of the
block, and zero where that leaves the block; and the weights it does not reach are zero. -/
def Transposed {α : Type} [CommRing α] (p q u v : Nat) (W k : Nat → Nat → α) : Prop :=
  (∀ a, a < 3 → ∀ b, b < 3 → k a b =
    if a ≤ u + 1 ∧ u + 1 - a < p ∧ b ≤ v + 1 ∧ v + 1 - b < q then W (u + 1 - a) (v + 1 - b) else 0)
  ∧ ∀ a, a < p → ∀ b, b < q → (a + 1 < u ∨ u + 1 < a ∨ b + 1 < v ∨ v + 1 < b) → W a b = 0

end Renplex
