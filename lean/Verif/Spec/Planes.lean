import Verif.Spec.Signal
/-!
# Combinations of successive random numbers
-/

namespace Renplex

/-- A combination of `d` successive draws from a seed, the first being the `k`-th. -/
noncomputable def mixture (d : Nat) (c : Nat → ℤ) (seed k : Nat) : ℝ :=
  ∑ i ∈ Finset.range d, (c i : ℝ) * draw seed (k + i)

end Renplex
