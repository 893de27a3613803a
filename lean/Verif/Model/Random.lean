import Verif.Model.Cfloat
/-!
# Random numbers: `/repo/src/math/random/mod.rs`
-/

namespace Renplex
namespace Rng

/-- random/mod.rs:21 -/
def a : Nat := 1103515245
/-- random/mod.rs:22 -/
def b : Nat := 12345
/-- random/mod.rs:23 -/
def m : Nat := 2 ^ 31
/-- `u128::MAX + 1` -/
def u128 : Nat := 2 ^ 128

/-- `*seed = (a * *seed + b) % (m - 1)`, random/mod.rs:25, 55, 89, with the overflow check of the
debug profile. -/
def step (seed : Nat) : Run Nat :=
  if a * seed + b < u128 then some ((a * seed + b) % (m - 1)) else none

/-- `lcgf32` and `lcgf64`, random/mod.rs:19-29, 49-59: the draw and the new seed. -/
def lcgf {R : Type} [Scalar R] (seed : Nat) : Run (R × Nat) := do
  let s ← step seed
  some (Scalar.div (Scalar.ofNat s) (Scalar.ofNat m), s)

/-- `lcgi`, random/mod.rs:83-92: the index and the new seed. Both divisions panic on a zero
divisor. The cast to `usize` is the identity (the value is below `2^31`). -/
def lcgi (seed limit : Nat) : Run (Nat × Nat) := do
  let s ← step seed
  if limit = 0 then none
  else if (m - 1) / limit = 0 then none
  else some (s / ((m - 1) / limit), s)

/-! ### `lcgf32` with IEEE rounding -/

/-- `n as f32` for an unsigned integer, as the integer value of the float: rounding to 24
significant bits, ties to even (`*seed as f32`, random/mod.rs:27). -/
def f32OfNat (n : Nat) : Nat :=
  if n < 2 ^ 24 then n
  else
    let e := Nat.log2 n - 23
    let q := n / 2 ^ e
    let r := n % 2 ^ e
    let half := 2 ^ (e - 1)
    (if r < half ∨ (r = half ∧ q % 2 = 0) then q else q + 1) * 2 ^ e

/-- `lcgf32`, random/mod.rs:19-29, in `f32` arithmetic: the draw as a multiple of `2^-31`, and the
new seed. `m as f32` is exactly `2^31`, and dividing a float of this size by a power of two is
exact. -/
def lcgf32 (seed : Nat) : Run (Nat × Nat) := do
  let s ← step seed
  some (f32OfNat s, s)

/-! ### `lcgf64` with IEEE rounding -/

/-- `n as f64` for an unsigned integer, as the integer value of the float: rounding to 53
significant bits, ties to even (`*seed as f64`, random/mod.rs:57). -/
def f64OfNat (n : Nat) : Nat :=
  if n < 2 ^ 53 then n
  else
    let e := Nat.log2 n - 52
    let q := n / 2 ^ e
    let r := n % 2 ^ e
    let half := 2 ^ (e - 1)
    (if r < half ∨ (r = half ∧ q % 2 = 0) then q else q + 1) * 2 ^ e

/-- `lcgf64`, random/mod.rs:49-59, in `f64` arithmetic: the draw as a multiple of `2^-31`, and the
new seed. `m as f64` is exactly `2^31`, and dividing a float of this size by a power of two is
exact. -/
def lcgf64 (seed : Nat) : Run (Nat × Nat) := do
  let s ← step seed
  some (f64OfNat s, s)

end Rng
end Renplex
