import Verif.Spec.Mnist
import Verif.Spec.Exact
/-!
# What the crate's test programs compute
-/

namespace Renplex
namespace Tests

/-- Pixel `(i, j)` of a record, `conv` being the conversion of a byte. -/
def pixelOf {R : Type} (conv : Nat → R) (r : Mnist.Record) (i j : Nat) : R :=
  conv (r.image.getD (28 * i + j) 0).toNat

/-- Left minus right of a 3 × 3 neighbourhood, the middle row counted twice. -/
def gradX (f : Nat → Nat → ℝ) (i j : Nat) : ℝ :=
  (f i j - f i (j + 2)) + 2 * (f (i + 1) j - f (i + 1) (j + 2)) + (f (i + 2) j - f (i + 2) (j + 2))

/-- Top minus bottom, the middle column counted twice. -/
def gradY (f : Nat → Nat → ℝ) (i j : Nat) : ℝ :=
  (f i j - f (i + 2) j) + 2 * (f i (j + 1) - f (i + 2) (j + 1)) + (f i (j + 2) - f (i + 2) (j + 2))

/-- The mean of a 2 × 2 block. -/
noncomputable def mean2 (f : Nat → Nat → ℝ) (i j : Nat) : ℝ :=
  (f (2 * i) (2 * j) + f (2 * i) (2 * j + 1) + f (2 * i + 1) (2 * j) + f (2 * i + 1) (2 * j + 1)) / 4

/-- `p` inside `n × n`, zero outside. -/
def inside (n : Nat) (p : Nat → Nat → ℝ) (i j : Nat) : ℝ := if i < n ∧ j < n then p i j else 0

/-- Doubling the resolution by linear interpolation in both directions: old points stay, the points
between them are the means of their two or four neighbours. -/
noncomputable def bilinear (p : Nat → Nat → ℝ) (i j : Nat) : ℝ :=
  (p (i / 2) (j / 2) + p ((i + 1) / 2) (j / 2) + p (i / 2) ((j + 1) / 2)
    + p ((i + 1) / 2) ((j + 1) / 2)) / 4

end Tests
end Renplex
