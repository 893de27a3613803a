import Verif.Model.Basic
/-!
# Operation dictionaries

Rust trait bounds become type classes with *uninterpreted* operations and no laws. Theorems that
only use these classes hold for every implementation, in particular for the rounding f32/f64 ones.
-/

namespace Renplex

/-- `trait BasicOperations<T>`, `/repo/src/math/mod.rs:23-25`. `a + b` and `a += b` are separate
operations since the crate implements them separately; division may panic
(`/repo/src/math/cfloat/mod.rs:189`). Of `PartialOrd` only `>` is used generically
(`/repo/src/cvnn/network/mod.rs:219`). -/
class BasicOps (α : Type) where
  /-- `Default::default()` -/
  zero : α
  add : α → α → α
  sub : α → α → α
  mul : α → α → α
  div : α → α → Run α
  addAssign : α → α → α
  subAssign : α → α → α
  mulAssign : α → α → α
  divAssign : α → α → Run α
  /-- `PartialOrd::gt` -/
  gt : α → α → Bool

/-- The operations of the primitive floats `f32`/`f64` used by the crate
(`/repo/src/math/mod.rs`, `/repo/src/act/mod.rs`, `/repo/src/opt/mod.rs`). Division by zero does
not panic for floats. -/
class Scalar (R : Type) where
  add : R → R → R
  sub : R → R → R
  mul : R → R → R
  div : R → R → R
  neg : R → R
  /-- a decimal literal `n / d` -/
  lit : Int → Nat → R
  /-- `n as f32` / `n as f64` for an unsigned integer -/
  ofNat : Nat → R
  /-- `powi(2)` -/
  sq : R → R
  sqrt : R → R
  exp : R → R
  ln : R → R
  cos : R → R
  sin : R → R
  tanh : R → R
  cosh : R → R
  atan : R → R
  /-- `y.atan2(x)` -/
  atan2 : R → R → R
  /-- the constant `PI` -/
  pi : R
  lt : R → R → Bool
  le : R → R → Bool
  /-- `==` -/
  beq : R → R → Bool
  /-- `is_sign_negative` (`is_sign_positive` is its complement) -/
  signNeg : R → Bool

namespace Scalar
variable {R : Type} [Scalar R]

/-- literal `0.0`, also `f32::default()` -/
def zero : R := lit 0 1
/-- literal `1.0` -/
def one : R := lit 1 1
/-- literal `2.0` -/
def two : R := lit 2 1

end Scalar

/-- The float primitives as `BasicOperations` (`/repo/src/math/mod.rs:25`, blanket impl): the
compound assignments of the primitive types are operate-then-assign. -/
instance {R : Type} [Scalar R] : BasicOps R where
  zero := Scalar.zero
  add := Scalar.add
  sub := Scalar.sub
  mul := Scalar.mul
  div a b := some (Scalar.div a b)
  addAssign := Scalar.add
  subAssign := Scalar.sub
  mulAssign := Scalar.mul
  divAssign a b := some (Scalar.div a b)
  gt a b := Scalar.lt b a

/-- `enum ComplexActFunc`, `/repo/src/act/mod.rs:421-429`. -/
inductive ActFunc
  | none | modZ | ritSigmoid | ritTanh | ritReLU | zReLU | cardioid
  deriving DecidableEq, Repr

/-- `enum ComplexLossFunc`, `/repo/src/opt/mod.rs:154-157`. -/
inductive LossFunc
  | meanSquare | normCrossEntropy
  deriving DecidableEq, Repr

end Renplex
