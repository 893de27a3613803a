import Verif.Model.Matrix
/-!
# Layer inputs and outputs, and the traits `Real` and `Complex`
`/repo/src/input/mod.rs`, `/repo/src/err/mod.rs`, trait declarations of `/repo/src/math/mod.rs`.
-/

namespace Renplex

/-- `enum ReleaseError`, `/repo/src/input/mod.rs:6-8`. -/
inductive ReleaseErr | invalidType
  deriving DecidableEq, Repr
/-- `enum LayerForwardError`, `/repo/src/err/mod.rs:4-6`. -/
inductive LayerForwardErr | invalidInput
  deriving DecidableEq, Repr
/-- `enum LayerInitError`, `/repo/src/err/mod.rs:9-12` (`AlreadyInitialized` is never built). -/
inductive LayerInitErr | invalidInputShape
  deriving DecidableEq, Repr
/-- `enum ForwardError`, `/repo/src/err/mod.rs:15-18`. -/
inductive ForwardErr | missingLayers | invalidLayerIndex
  deriving DecidableEq, Repr
/-- `enum LayerAdditionError`, `/repo/src/err/mod.rs:25-30`. -/
inductive LayerAdditionErr | missingInput | existentInput | missingInitialization | incompatibleIO
  deriving DecidableEq, Repr
/-- `enum LossCalcError`, `/repo/src/err/mod.rs:33-36` (`IncompatibleDataset` is never built). -/
inductive LossErr | inconsistentIO
  deriving DecidableEq, Repr
/-- `enum PredicionError`, `/repo/src/err/mod.rs:39-41`. -/
inductive PredErr | criticalIndexOverflow
  deriving DecidableEq, Repr
/-- `enum GradientError`, `/repo/src/err/mod.rs:44-49` (only the variant that is built). -/
inductive GradErr | inconsistentShape
  deriving DecidableEq, Repr

/-- `enum IOType<T>`, `/repo/src/input/mod.rs:12-15`. -/
inductive IOType (α : Type)
  | scalar (v : List α)
  | matrix (maps : List (Mat α))

/-- `enum IOShape`, `/repo/src/input/mod.rs:73-77`: a `Matrix` shape records only how many feature
maps there are. -/
inductive IOShape
  | scalar (n : Nat)
  | matrix (n : Nat)
  deriving DecidableEq, Repr

namespace IOType
variable {α : Type}

/-- `IOType::release_vec`, `/repo/src/input/mod.rs:19-24`. -/
def releaseVec : IOType α → Except ReleaseErr (List α)
  | scalar v => .ok v
  | matrix _ => .error .invalidType

/-- `IOType::release_maps`, `/repo/src/input/mod.rs:27-32`. -/
def releaseMaps : IOType α → Except ReleaseErr (List (Mat α))
  | matrix m => .ok m
  | scalar _ => .error .invalidType

/-- `IOType::as_slice`, `/repo/src/input/mod.rs:35-40`: panics on feature maps. -/
def asSlice : IOType α → Run (List α)
  | scalar v => some v
  | matrix _ => none

/-- `IOType::to_vec`, `/repo/src/input/mod.rs:53-58`: panics on feature maps. -/
def copyVec : IOType α → Run (List α)
  | scalar v => some v
  | matrix _ => none

/-- Storing a value through `IOType::as_mut` (`/repo/src/input/mod.rs:43-48`), `x.as_mut()[i] = a`:
panics on feature maps and on an index out of range. -/
def asMutSet (i : Nat) (a : α) : IOType α → Run (IOType α)
  | scalar v => if i < v.length then some (scalar (v.set i a)) else none
  | matrix _ => none

end IOType

/-- `trait Real` (`/repo/src/math/mod.rs:28-41`) together with `BasicOperations`, restricted to
what generic code uses; `gen` and `gen_pred` are separate functions (`Verif.Model.Gen`). -/
class RealOps (P : Type) extends BasicOps P where
  /-- `Real::unit` -/
  runit : P
  /-- `Real::usize_to_real` -/
  ofUsize : Nat → P

/-- `trait Complex` (`/repo/src/math/mod.rs:102-184`) together with `BasicOperations`. Activation
functions may panic (`ModZ` divides, `/repo/src/act/mod.rs:362`), losses may not. Random
generation is in `gen`-style functions threading the seed (`Verif.Model.Gen`). -/
class CplxOps (α : Type) (P : outParam Type) extends BasicOps α where
  /-- `Complex::unit` -/
  unit : α
  conj : α → α
  /-- `usize_to_complex` -/
  ofUsize : Nat → α
  activate : ActFunc → α → Run α
  dActivate : ActFunc → α → Run α
  dConjActivate : ActFunc → α → Run α
  /-- `Complex::loss(target, prediction, func)` -/
  loss : LossFunc → IOType α → IOType α → Except LossErr P
  /-- `Complex::d_loss(target, prediction, func)` -/
  dLoss : LossFunc → IOType α → IOType α → Except LossErr (List α)

/-- `T::activate_mut` on a slice, `/repo/src/act/mod.rs:528-531` and `539-542`. -/
def activateMut {α P : Type} [CplxOps α P] (f : ActFunc) (vals : List α) : Run (List α) :=
  vals.mapM (CplxOps.activate f)
/-- `T::d_activate_mut` on a slice, `/repo/src/act/mod.rs:550-553` and `561-564`. -/
def dActivateMut {α P : Type} [CplxOps α P] (f : ActFunc) (vals : List α) : Run (List α) :=
  vals.mapM (CplxOps.dActivate f)
/-- `T::d_conj_activate_mut` on a slice, `/repo/src/act/mod.rs:572-575` and `583-586`. -/
def dConjActivateMut {α P : Type} [CplxOps α P] (f : ActFunc) (vals : List α) : Run (List α) :=
  vals.mapM (CplxOps.dConjActivate f)

/-- `gen_pred` with `PredictModel::Sparse`: `/repo/src/math/mod.rs:58-69, 87-98` (with
`one = 1.0`) and `296-307, 456-467` (with `one = Self::unit()`): indexing past the end panics. -/
def genPred {α : Type} [BasicOps α] (one : α) (size criticalIndex : Nat) :
    Run (Except PredErr (List α)) :=
  if size < criticalIndex then some (.error .criticalIndexOverflow)
  else
    let v := List.replicate size (BasicOps.zero : α)
    match v[criticalIndex]? with
    | some x => some (.ok (v.set criticalIndex (BasicOps.addAssign x one)))
    | none => none

/-- `Matrix::cconvolution`, `/repo/src/math/matrix/mod.rs:634-677` ("experimental"): like
`convolution` with a conjugated kernel and without the size check. -/
def Mat.cconvolution {α P : Type} [CplxOps α P] (m kernel : Mat α) : Run (Except OpErr (Mat α)) := do
  let k0 ← usub kernel.shape.1 1
  let f0 ← usub m.shape.1 k0
  let k1 ← usub kernel.shape.2 1
  let f1 ← usub m.shape.2 k1
  let conjKernel ← unwrap (Mat.toMatrix (kernel.body.map CplxOps.conj) kernel.shape)
  let rows ← (List.range f0).mapM fun i => Mat.convRow m conjKernel f1 i
  let r ← unwrap (Mat.toMatrix rows.flatten (f0, f1))
  some (.ok r)

end Renplex
