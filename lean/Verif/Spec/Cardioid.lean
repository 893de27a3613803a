import Mathlib.Analysis.SpecialFunctions.Complex.Arg
/-!
# The cardioid activation as it is known
-/

namespace Renplex

/-- The complex cardioid: a number is weakened according to its phase, from no change on the positive
real axis to zero on the negative one. -/
noncomputable def cardioidRef (z : ℂ) : ℂ := ((1 + Real.cos z.arg) / 2 : ℝ) * z

end Renplex
