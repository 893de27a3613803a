import Verif.Model.Act
/-!
# Losses: `/repo/src/opt/mod.rs`, and the `Complex` instance of `Cf32`/`Cf64`
-/

namespace Renplex
namespace Loss
variable {w : Width} {R : Type} [Scalar R]
open Scalar (zero one)

/-- `sq_error_cf*`, opt/mod.rs:22-24, 31-33. -/
def sqError (targ pred : Cf w R) : R := (Cf.sub targ pred).normSq
/-- `d_sq_error_cf*`, opt/mod.rs:26-29, 35-38. -/
def dSqError (targ pred : Cf w R) : Cf w R := (Cf.sub pred targ).conj

/-- `mean_sq_loss_cf*`, opt/mod.rs:43-54, 69-80: `len` ends up being the *last index* (0 when
there is no pair). -/
def meanSq (targ pred : List (Cf w R)) : R :=
  let (len, sum) := (targ.zip pred).zipIdx.foldl
    (fun (acc : Nat × R) (p : (Cf w R × Cf w R) × Nat) =>
      (p.2, Scalar.add acc.2 (sqError p.1.1 p.1.2))) (0, zero)
  Scalar.div sum (Scalar.ofNat len)
/-- `d_mean_sq_loss_cf*`, opt/mod.rs:56-64, 82-90. -/
def dMeanSq (targ pred : List (Cf w R)) : List (Cf w R) :=
  (targ.zip pred).map fun p => dSqError p.1 p.2

/-- `norm_ce_loss_cf*`, opt/mod.rs:94-114, 124-144. -/
def normCe (targ pred : List (Cf w R)) : R :=
  let realTarg := targ.map Cf.re
  let expMap := pred.map fun z => Scalar.exp z.normSq
  let expSum := expMap.foldl Scalar.add zero
  (realTarg.zip expMap).foldl (fun acc p =>
    let s := Scalar.div p.2 expSum
    Scalar.sub acc (Scalar.mul p.1 (Scalar.ln s))) zero
/-- `d_norm_ce_loss_cf*`, opt/mod.rs:117-120, 147-150: "for now until I figure out what is wrong"
the mean-square derivative. -/
def dNormCe (targ pred : List (Cf w R)) : List (Cf w R) := dMeanSq targ pred

/-- `release_func_cf*`, opt/mod.rs:165-170, 183-188. -/
def func : LossFunc → List (Cf w R) → List (Cf w R) → R
  | .meanSquare => meanSq
  | .normCrossEntropy => normCe
/-- `release_dfunc_cf*`, opt/mod.rs:174-179, 192-197. -/
def dFunc : LossFunc → List (Cf w R) → List (Cf w R) → List (Cf w R)
  | .meanSquare => dMeanSq
  | .normCrossEntropy => dNormCe

/-- `compute_cf32`/`compute_cf64`, opt/mod.rs:207-233, 241-267. -/
def compute (f : LossFunc) : (target prediction : IOType (Cf w R)) → Except LossErr R
  | .scalar targ, .scalar pred => .ok (func f targ pred)
  | .matrix targ, .matrix pred =>
    .ok (func f (targ.flatMap Mat.getBody) (pred.flatMap Mat.getBody))
  | _, _ => .error .inconsistentIO
/-- `compute_d_cf32`/`compute_d_cf64`, opt/mod.rs:275-301, 309-335. -/
def computeD (f : LossFunc) : (target prediction : IOType (Cf w R)) → Except LossErr (List (Cf w R))
  | .scalar targ, .scalar pred => .ok (dFunc f targ pred)
  | .matrix targ, .matrix pred =>
    .ok (dFunc f (targ.flatMap Mat.getBody) (pred.flatMap Mat.getBody))
  | _, _ => .error .inconsistentIO

end Loss

/-- `impl Complex for Cf32` and `Cf64`, `/repo/src/math/mod.rs:186-500`. -/
instance {w : Width} {R : Type} [Scalar R] : CplxOps (Cf w R) R where
  unit := Cf.unit
  conj := Cf.conj
  ofUsize := Cf.ofUsize
  activate := Act.activate
  dActivate := Act.dActivate
  dConjActivate := Act.dConjActivate
  loss := Loss.compute
  dLoss := Loss.computeD

end Renplex
