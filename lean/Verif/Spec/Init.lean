import Verif.Spec.Exact
import Verif.Model.Gen
/-!
# What the initialisers are meant to draw

Given three uniform numbers `u₁ u₂ u₃` in [0,1), the weight each method stands for: a modulus times
a uniformly distributed direction. The normal methods draw the modulus with the Box–Muller
transform, scaled to the standard deviation `√(2/n)`.
-/

namespace Renplex

/-- The modulus with sign: uniform on `[0, ρ)` for `Cf32`, on `[-ρ, ρ)` for `Cf64`. -/
noncomputable def uniformModulus (w : Width) (ρ u : ℝ) : ℝ :=
  match w with
  | .w32 => ρ * u
  | .w64 => ρ * (2 * u - 1)

/-- Box–Muller: a normal number of the given standard deviation from two uniform ones. -/
noncomputable def boxMuller (std u v : ℝ) : ℝ :=
  std * (Real.sqrt (-2 * Real.log u) * Real.cos (2 * Real.pi * v))

/-- The direction `exp (2πi u)`. -/
noncomputable def direction (u : ℝ) : ℂ := Complex.exp (((2 * Real.pi * u : ℝ) : ℂ) * Complex.I)

/-- The weight of each method. -/
noncomputable def initValue (w : Width) (method : InitMethod) (u₁ u₂ u₃ : ℝ) : ℂ :=
  match method with
  | .uniform scale => uniformModulus w scale u₁ * direction u₂
  | .xavierGlorotU n => uniformModulus w (Real.sqrt (6 / n)) u₁ * direction u₂
  | .xavier n => uniformModulus w (Real.sqrt (12 / n)) u₁ * direction u₂
  | .xavierGlorotN n => boxMuller (Real.sqrt (2 / n)) u₁ u₂ * direction u₃
  | .heInit n => boxMuller (Real.sqrt (2 / n)) u₁ u₂ * direction u₃

end Renplex
