import Verif.Model.Random
import Verif.Model.Loss
/-!
# Random initial values: `/repo/src/init/mod.rs`, `gen*` of `/repo/src/math/mod.rs`
-/

namespace Renplex

/-- `enum InitMethod`, `/repo/src/init/mod.rs:6-17`. -/
inductive InitMethod
  | uniform (scale : Nat)
  | xavierGlorotU (ioUnits : Nat)
  | xavierGlorotN (ioUnits : Nat)
  | xavier (iUnits : Nat)
  | heInit (iUnits : Nat)
  deriving DecidableEq, Repr

namespace Gen
variable {w : Width} {R : Type} [Scalar R]
open Scalar (zero one two lit)

/-- `Real::gen`, math/mod.rs:52-56, 81-85. -/
def genReal (seed scale : Nat) : Run (R × Nat) := do
  let fs : R := Scalar.ofNat scale
  let (u, seed) ← Rng.lcgf (R := R) seed
  some (Scalar.sub (Scalar.mul (Scalar.mul two fs) u) fs, seed)

/-- `2.0 * lcgf(seed) * PI`, e.g. math/mod.rs:237. -/
def angle (u : R) : R := Scalar.mul (Scalar.mul two u) Scalar.pi
/-- `Self { x: r * phi.cos(), y: r * phi.sin() }`, e.g. math/mod.rs:239. -/
def polar (r phi : R) : Cf w R := ⟨Scalar.mul r (Scalar.cos phi), Scalar.mul r (Scalar.sin phi)⟩

/-- `Complex::gen`: math/mod.rs:233-240 (`Cf32`), 392-399 (`Cf64`). -/
def gen (seed scale : Nat) : Run (Cf w R × Nat) := do
  let fs : R := Scalar.ofNat scale
  let (u1, seed) ← Rng.lcgf (R := R) seed
  let r := match w with
    | .w32 => Scalar.mul fs u1
    | .w64 => Scalar.sub (Scalar.mul (Scalar.mul two fs) u1) fs
  let (u2, seed) ← Rng.lcgf (R := R) seed
  some (polar r (angle u2), seed)

/-- The Box–Muller body shared by `gen_he` (math/mod.rs:242-259, 401-418) and `gen_xagn`
(282-294, 441-454), which are the same computation. -/
def genNormal (seed units : Nat) : Run (Cf w R × Nat) := do
  let fu : R := Scalar.ofNat units
  let newStd := Scalar.sqrt (Scalar.div two fu)
  let (r1, seed) ← Rng.lcgf (R := R) seed
  let (u2, seed) ← Rng.lcgf (R := R) seed
  let phi1 := angle u2
  let r := Scalar.mul
    (Scalar.mul (Scalar.sqrt (Scalar.mul (lit (-2) 1) (Scalar.ln r1))) (Scalar.cos phi1)) newStd
  let (u3, seed) ← Rng.lcgf (R := R) seed
  some (polar r (angle u3), seed)

/-- `gen_he`, math/mod.rs:242-259, 401-418. -/
def genHe (seed iUnits : Nat) : Run (Cf w R × Nat) := genNormal seed iUnits
/-- `gen_xagn`, math/mod.rs:282-294, 441-454. -/
def genXagn (seed ioUnits : Nat) : Run (Cf w R × Nat) := genNormal seed ioUnits

/-- The uniform draw on a scale shared by `gen_xa` and `gen_xagu`: `Cf32` uses `u * scale`
(math/mod.rs:266, 276), `Cf64` uses `2.0 * u * scale - scale` (425, 435). -/
def genScaled (seed : Nat) (scale : R) : Run (Cf w R × Nat) := do
  let (u1, seed) ← Rng.lcgf (R := R) seed
  let r := match w with
    | .w32 => Scalar.mul u1 scale
    | .w64 => Scalar.sub (Scalar.mul (Scalar.mul two u1) scale) scale
  let (u2, seed) ← Rng.lcgf (R := R) seed
  some (polar r (angle u2), seed)

/-- `gen_xa`, math/mod.rs:261-270, 420-429. -/
def genXa (seed iUnits : Nat) : Run (Cf w R × Nat) :=
  genScaled seed (Scalar.sqrt (Scalar.mul (Scalar.div one (Scalar.ofNat iUnits)) (lit 12 1)))
/-- `gen_xagu`, math/mod.rs:272-280, 431-439. -/
def genXagu (seed ioUnits : Nat) : Run (Cf w R × Nat) :=
  genScaled seed (Scalar.sqrt (Scalar.div (lit 6 1) (Scalar.ofNat ioUnits)))

end Gen

/-- The random part of `trait Complex`, `/repo/src/math/mod.rs:143-156`, as dispatched by
`InitMethod::gen` (`/repo/src/init/mod.rs:21-39`). -/
class GenOps (α : Type) where
  /-- `method.gen(seed)`: the value and the new seed -/
  gen : InitMethod → Nat → Run (α × Nat)

/-- `InitMethod::gen`, `/repo/src/init/mod.rs:21-39`, for `Cf32`, `Cf64`. -/
instance {w : Width} {R : Type} [Scalar R] : GenOps (Cf w R) where
  gen
    | .uniform scale, seed => Gen.gen seed scale
    | .xavierGlorotU n, seed => Gen.genXagu seed n
    | .xavierGlorotN n, seed => Gen.genXagn seed n
    | .xavier n, seed => Gen.genXa seed n
    | .heInit n, seed => Gen.genHe seed n

/-- `for _ in 0..n { v.push(method.gen(seed)) }`, e.g. `/repo/src/cvnn/layer/dense.rs:81-83`. -/
def genMany {α : Type} [GenOps α] (method : InitMethod) : Nat → Nat → Run (List α × Nat)
  | 0, seed => some ([], seed)
  | n + 1, seed => do
    let (v, seed) ← GenOps.gen method seed
    let (vs, seed) ← genMany method n seed
    some (v :: vs, seed)

end Renplex
