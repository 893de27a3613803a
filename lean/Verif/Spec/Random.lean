import Mathlib.Data.Real.Basic
/-!
# The random numbers
-/

namespace Renplex

/-- The mathematical state update `s ↦ (1103515245·s + 12345) mod (2^31 - 1)`. -/
def lcgNext (s : Nat) : Nat := (1103515245 * s + 12345) % (2 ^ 31 - 1)

/-- The `k`-th draw after `seed`, as a real number in [0,1). -/
noncomputable def draw (seed k : Nat) : ℝ := (lcgNext^[k + 1] seed : ℝ) / 2 ^ 31

end Renplex
