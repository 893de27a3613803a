import Verif.Lemmas.Exact
/-!
# Vocabulary for the balance of filters
-/

namespace Renplex
variable {w : Width}

/-- The squared norm of the kernels and the bias of filter `o`. -/
noncomputable def filterSq (m p q : Nat) (K : Nat → Nat → Nat → Nat → Cf w ℝ) (c : Nat → Cf w ℝ) (o : Nat) : ℝ :=
  (∑ ch ∈ Finset.range m, ∑ x ∈ Finset.range p, ∑ y ∈ Finset.range q, ‖(K o ch x y).toC‖ ^ 2) + ‖(c o).toC‖ ^ 2

/-- The squared norm of the weights with which `v` units behind a `Flatten` layer receive the `r × c` map of filter
`o`. -/
noncomputable def readSq (v r c : Nat) (V : Nat → Nat → Cf w ℝ) (o : Nat) : ℝ :=
  ∑ k ∈ Finset.range v, ∑ i ∈ Finset.range r, ∑ j ∈ Finset.range c, ‖(V k (o * (r * c) + (i * c + j))).toC‖ ^ 2

end Renplex
