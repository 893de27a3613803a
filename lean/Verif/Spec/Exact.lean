import Verif.Model.Loss
import Verif.Spec.Lawful
import Mathlib.Algebra.Field.TransferInstance
import Mathlib.Analysis.Complex.Basic
import Mathlib.Analysis.Complex.Trigonometric
import Mathlib.Analysis.SpecialFunctions.Complex.Arg
import Mathlib.Analysis.SpecialFunctions.Trigonometric.Arctan
import Mathlib.Analysis.SpecialFunctions.Log.Basic
/-!
# Exact arithmetic: the floats read as real numbers

`Scalar ℝ` interprets every float operation as the exact real operation. Rounding, infinities,
NaN and the sign of zero are not represented: `x / 0 = 0`, `sqrt` of a negative number is 0, and
`is_sign_negative x` is `x < 0`. Theorems that would be about a division by zero or an overflow
exclude it in their hypotheses.

`Cf.toC` reads a `Cf32`/`Cf64` value as the complex number it stands for.
-/

namespace Renplex

open Classical in
/-- Exact real arithmetic. -/
noncomputable instance : Scalar ℝ where
  add := (· + ·)
  sub := (· - ·)
  mul := (· * ·)
  div := (· / ·)
  neg := (- ·)
  lit n d := n / d
  ofNat n := n
  sq x := x ^ 2
  sqrt := Real.sqrt
  exp := Real.exp
  ln := Real.log
  cos := Real.cos
  sin := Real.sin
  tanh := Real.tanh
  cosh := Real.cosh
  atan := Real.arctan
  atan2 y x := Complex.arg ⟨x, y⟩
  pi := Real.pi
  lt a b := decide (a < b)
  le a b := decide (a ≤ b)
  beq a b := decide (a = b)
  signNeg a := decide (a < 0)

/-- The complex number a `Cf32`/`Cf64` value stands for. -/
def Cf.toC {w : Width} (z : Cf w ℝ) : ℂ := ⟨z.x, z.y⟩

/-- The `Cf32`/`Cf64` value of a complex number. -/
def Cf.ofC {w : Width} (z : ℂ) : Cf w ℝ := ⟨z.re, z.im⟩

end Renplex
