import Verif.Spec.Dead
/-!
# Filters that no longer learn
-/

namespace Renplex
variable {w : Width}

/-- Filter `o` of a convolutional layer (`m` channels of `r` rows and `c` columns, `p × q` kernels `K`,
biases `b`, activation `f`) that follows the layers `pre` is dead on the input `x`: whenever `x` passes
through `pre`, the outcome are maps on which the weighted sums of the filter fall on flat points of the
activation at all places. -/
def FilterDeadOn (pre : List (Layer (Cf w ℝ))) (m p q r c : Nat) (K : Nat → Nat → Nat → Nat → Cf w ℝ)
    (b : Nat → Cf w ℝ) (f : ActFunc) (o : Nat) (x : IOType (Cf w ℝ)) : Prop :=
  ∀ ys, Chain pre x ys → ∃ ms X, (x :: ys).getLast? = some (.matrix ms) ∧ MapsAre ms m r c X
    ∧ ∀ i, i < r - p + 1 → ∀ j, j < c - q + 1 → f.Flat ((∑ ch ∈ Finset.range m, ∑ x ∈ Finset.range p,
      ∑ y ∈ Finset.range q, X ch (i + x) (j + y) * K o ch x y) + b o)

end Renplex
