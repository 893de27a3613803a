import Verif.Spec.Init
/-!
# The distribution of initial weights over all seeds

A seed is taken from the states below 2^31 - 1 of the generator, all of them equally likely.
-/

namespace Renplex
open scoped Classical in
/-- How many of the seeds below 2^31 - 1 have the property. -/
noncomputable def seedCount (P : Nat → Prop) : Nat := ((Finset.range (2 ^ 31 - 1)).filter P).card

/-- The mean over the seeds below 2^31 - 1. -/
noncomputable def seedMean (g : Nat → ℝ) : ℝ := (∑ s ∈ Finset.range (2 ^ 31 - 1), g s) / (2 ^ 31 - 1)

/-- `W s` is the weight which the method draws from seed `s`. -/
def Weights (w : Width) (method : InitMethod) (W : Nat → ℂ) : Prop :=
  ∀ s, s < 2 ^ 31 - 1 → ∃ (z : Cf w ℝ) (s' : Nat), GenOps.gen method s = some (z, s') ∧ z.toC = W s

/-- The radius of the circle of the methods that draw from a bounded circle. -/
noncomputable def circleRadius : InitMethod → ℝ
  | .uniform scale => scale
  | .xavierGlorotU n => √(6 / n)
  | .xavier n => √(12 / n)
  | .xavierGlorotN _ => 0
  | .heInit _ => 0

end Renplex
