import Verif.Model.Examples
import Verif.Spec.Mnist
import Verif.Spec.Network
import Verif.Spec.Loss
import Verif.Spec.Signal
import Mathlib.Algebra.BigOperators.Group.Finset.Basic
/-!
# Specification vocabulary for the example programs
-/

namespace Renplex
namespace Examples
open Mnist
variable {R : Type} [Scalar R]

/-- A dense layer as its constructor is meant to build it: `u` rows of `n` weights drawn one after the
other with `method` from `seed` (`next` is the seed left), biases zero, activation `func`. -/
def BuiltDense (l : Layer (Cf .w32 R)) (n u : Nat) (func : ActFunc) (method : InitMethod)
    (seed next : Nat) : Prop :=
  ∃ d, l = .dense d ∧ Draws method seed d.weights.body next ∧ d.weights.body.length = u * n
    ∧ d.weights.shape = (u, n) ∧ d.biases = List.replicate u BasicOps.zero ∧ d.func = func

/-- A convolutional layer as its constructor is meant to build it: `nf × n` kernels of `p × q` weights
drawn one after the other, kernel by kernel and row by row. -/
def BuiltConv (l : Layer (Cf .w32 R)) (n nf p q : Nat) (func : ActFunc) (method : InitMethod)
    (seed next : Nat) : Prop :=
  ∃ c, l = .conv c ∧ Draws method seed (c.kernels.body.flatMap Mat.getBody) next
    ∧ c.kernels.body.length = nf * n ∧ c.kernels.shape = (nf, n)
    ∧ (∀ k ∈ c.kernels.body, k.Rect ∧ k.shape = (p, q))
    ∧ c.biases = List.replicate nf BasicOps.zero ∧ c.func = func ∧ c.inputFeaturesLen = n

/-- The network after `k` training calls, call `i` on `batch i`. (A call that panicked would leave
the network as it is; the theorems that use this show that none does.) -/
def netAfter (f : LossFunc) (lr : Cf .w32 R) (batch : Nat → Dataset (Cf .w32 R))
    (n : Net (Cf .w32 R)) : Nat → Net (Cf .w32 R)
  | 0 => n
  | k + 1 => ((netAfter f lr batch n k).gradientOpt (batch k) f lr).elim (netAfter f lr batch n k)
      (·.2)

/-- The loss on a batch, zero if evaluating it panicked. -/
def lossOn (f : LossFunc) (n : Net (Cf .w32 R)) (d : Dataset (Cf .w32 R)) : R :=
  (n.loss d f).getD Scalar.zero

/-- The accuracy on a batch, zero if evaluating it panicked. -/
def accOn (n : Net (Cf .w32 R)) (d : Dataset (Cf .w32 R)) : R :=
  (n.maxPredTest d).getD Scalar.zero

/-- The point a record stands for in any arithmetic: pixels `byte / 255`, the label one-hot. -/
def recordPoint (r : Record) : IOType (Cf .w32 R) × IOType (Cf .w32 R) :=
  r.point (fun b => (Cf.div (Cf.ofUsize b) (Cf.ofUsize 255)).getD Cf.default) Cf.default
    (Cf.addAssign Cf.default Cf.unit)

/-- Batch `k` of `size` records: records `k * size` to `(k + 1) * size`. -/
def batchRecords (recs : List Record) (size k : Nat) : List Record := (recs.drop (k * size)).take size

/-- Their points as a data set. -/
def recordBatch (recs : List Record) (size k : Nat) : Dataset (Cf .w32 R) :=
  Dataset.ofPoints ((batchRecords recs size k).map recordPoint)

/-- The sum from left to right divided by the number. -/
def average (l : List R) : R :=
  Scalar.div (l.foldl Scalar.add Scalar.zero) (Scalar.ofNat l.length)

/-- The network after `k` calls that go through the first `T` batches of the records in order, over
and over. -/
def netAt (f : LossFunc) (lr : Cf .w32 R) (recs : List Record) (size T : Nat)
    (n : Net (Cf .w32 R)) : Nat → Net (Cf .w32 R) :=
  netAfter f lr (fun i => recordBatch recs size (i % T)) n

/-- The mean over epoch `e` of `T` batches, each evaluated by the network that has been trained on
the batches before it. -/
def trainMean (val : Net (Cf .w32 R) → Dataset (Cf .w32 R) → R) (net : Nat → Net (Cf .w32 R))
    (recs : List Record) (size T e : Nat) : R :=
  average ((List.range T).map fun b => val (net (e * T + b)) (recordBatch recs size b))

/-- The mean over `V` batches, all evaluated by the same network. -/
def testMean (val : Net (Cf .w32 R) → Dataset (Cf .w32 R) → R) (net : Net (Cf .w32 R))
    (recs : List Record) (size V : Nat) : R :=
  average ((List.range V).map fun b => val net (recordBatch recs size b))

/-- The result of `E` epochs of `T` batches of `size` training records, each followed by a test on
`V` batches of test records: the network and the four curves. -/
def curvesOf (f : LossFunc) (lr : Cf .w32 R) (train test : List Record) (size T V E : Nat)
    (n : Net (Cf .w32 R)) : Curves R :=
  let net := netAt f lr train size T n
  ⟨net (E * T),
    (List.range E).map (trainMean (lossOn f) net train size T),
    (List.range E).map (trainMean accOn net train size T),
    (List.range E).map fun e => testMean (lossOn f) (net ((e + 1) * T)) test size V,
    (List.range E).map fun e => testMean accOn (net ((e + 1) * T)) test size V⟩

/-- The learning rate of classification.rs. -/
def classRate : Cf .w32 R := learningRate (Scalar.lit 25000 10000)

/-- The text of a curve: one line per value. -/
def curveText (disp : R → String) (v : List R) : String :=
  String.join (v.map fun x => disp x ++ "," ++ "\n")

/-- The texts of the four curves. -/
def curveTexts (disp : R → String) (c : Curves R) : List String :=
  [c.trainLoss, c.trainAcc, c.testLoss, c.testAcc].map (curveText disp)

/-- The four files: headers of 16 and 8 bytes and the records. -/
def MnistFiles.Holds (files : MnistFiles) (train test : List Record) : Prop :=
  ∃ h₁ h₂ h₃ h₄ : List UInt8, h₁.length = 16 ∧ h₂.length = 8 ∧ h₃.length = 16 ∧ h₄.length = 8
    ∧ files = ⟨h₁ ++ train.flatMap (·.image), h₂ ++ train.map (·.label),
        h₃ ++ test.flatMap (·.image), h₄ ++ test.map (·.label)⟩
    ∧ (∀ r ∈ train, r.WF) ∧ ∀ r ∈ test, r.WF

/-- The maps `ms` enter layer `i > 0` of the network when it is given `x`: they come out of the first
`i` layers. -/
def Entering (n : Net (Cf .w32 R)) (x : IOType (Cf .w32 R)) (i : Nat) (ms : List (Mat (Cf .w32 R))) :
    Prop :=
  ∃ ys, Chain (n.layers.take i) x ys ∧ ys.getLast? = some (.matrix ms)

/-- The matrices whose texts the classification program writes for the convolutional network: image
18 and image 58 of the training records, then for each the 8 maps entering layer 1 and the 16 entering
layer 3. -/
def FeatureMaps (n : Net (Cf .w32 R)) (recs : List Record) (ms : List (Mat (Cf .w32 R))) : Prop :=
  ∃ r₁ r₂ m₁ m₂ f₁ f₂ f₃ f₄, recs[18]? = some r₁ ∧ recs[58]? = some r₂
    ∧ (recordPoint r₁).1 = .matrix [m₁] ∧ (recordPoint r₂).1 = .matrix [m₂]
    ∧ Entering n (recordPoint r₁).1 1 f₁ ∧ Entering n (recordPoint r₁).1 3 f₂
    ∧ Entering n (recordPoint r₂).1 1 f₃ ∧ Entering n (recordPoint r₂).1 3 f₄
    ∧ f₁.length = 8 ∧ f₂.length = 16 ∧ f₃.length = 8 ∧ f₄.length = 16
    ∧ ms = m₁ :: m₂ :: (f₁ ++ f₂ ++ f₃ ++ f₄)

/-- The network classifies the image correctly: the largest modulus of its output comes first at the
label. -/
def Correct (n : Net (Cf .w32 ℝ)) (r : Record) : Prop :=
  ∃ v, n.forward (recordPoint r).1 = some (.ok (.scalar v)) ∧ FirstLargest v r.label.toNat

/-- The squared distance of the network's output to the one-hot label, divided by 9. -/
noncomputable def recordLoss (n : Net (Cf .w32 ℝ)) (r : Record) : ℝ :=
  match n.forward (recordPoint r).1 with
  | some (.ok (.scalar v)) => sqSum (oneHot 10 r.label.toNat) v / 9
  | _ => 0

/-! ## regression.rs, exact arithmetic -/

/-- Training batch `k` of `size` points: the signals from the seeds after `k * size + m` points. -/
noncomputable def signalTrain (samples : Nat) (thr : ℝ) (size train test k : Nat) :
    Dataset (Cf .w32 ℝ) :=
  Dataset.ofPoints ((List.range size).map fun m =>
    let s := (nextTrain samples)^[k * size + m] train
    let st := (nextTest samples)^[k * size + m] test
    (samplesOf samples (trainAt samples thr s st), samplesOf samples (cleanAt samples s)))

/-- Test batch `k`. -/
noncomputable def signalTest (samples : Nat) (thr : ℝ) (size test k : Nat) : Dataset (Cf .w32 ℝ) :=
  Dataset.ofPoints ((List.range size).map fun m =>
    let st := (nextTest samples)^[k * size + m] test
    (samplesOf samples (testAt samples thr st), samplesOf samples (cleanAt samples st)))

/-- What the program records for an epoch of `B` batches with losses `l 0, l 1, …`. -/
noncomputable def recorded (l : Nat → ℝ) (B : Nat) : ℝ :=
  (List.range B).foldl (fun m k => (m + l k) / (k + 1 : ℕ)) 0

/-- The mean of the losses. -/
noncomputable def meanLoss (l : Nat → ℝ) (B : Nat) : ℝ := (∑ k ∈ Finset.range B, l k) / B

/-- The network after `k` training calls of the regression program: `B` batches, over and over. -/
noncomputable def signalNet (f : LossFunc) (lr : Cf .w32 ℝ) (samples : Nat) (thr : ℝ)
    (B size train test : Nat) (n : Net (Cf .w32 ℝ)) : Nat → Net (Cf .w32 ℝ) :=
  netAfter f lr (fun i => signalTrain samples thr size train test (i % B)) n

/-- The losses recorded for the training batches: epoch `e` evaluates batch `b` before training on
it, and each value is merged by `recorded`. -/
noncomputable def signalCurve (f : LossFunc) (net : Nat → Net (Cf .w32 ℝ)) (samples : Nat) (thr : ℝ)
    (B size train test E : Nat) : List ℝ :=
  (List.range E).map fun e =>
    recorded (fun b => lossOn f (net (e * B + b)) (signalTrain samples thr size train test b)) B

/-- Those for the test batches, evaluated after training on training batch `b`. -/
noncomputable def signalTestCurve (f : LossFunc) (net : Nat → Net (Cf .w32 ℝ)) (samples : Nat) (thr : ℝ)
    (B size test E : Nat) : List ℝ :=
  (List.range E).map fun e =>
    recorded (fun b => lossOn f (net (e * B + b + 1)) (signalTest samples thr size test b)) B

/-- The output of the network on a vector. -/
noncomputable def vecOutput (n : Net (Cf .w32 ℝ)) (x : IOType (Cf .w32 ℝ)) : List (Cf .w32 ℝ) :=
  match n.forward x with
  | some (.ok (.scalar v)) => v
  | _ => []

/-- The squared distance of the network's output on the signal `x` to the signal `y`, divided by
`samples - 1`. -/
noncomputable def signalLoss (n : Net (Cf .w32 ℝ)) (samples : Nat) (x y : Nat → ℂ) : ℝ :=
  sqSum ((List.range samples).map fun i => Cf.ofC (y i)) (vecOutput n (samplesOf samples x))
    / (samples - 1)

/-- The three columns written for a point: the corrupted signal, the clean one, the prediction. -/
noncomputable def exploreTexts (disp : ℝ → String) (n : Net (Cf .w32 ℝ)) (samples : Nat) (thr : ℝ)
    (train test : Nat) : List String :=
  (List.range 10).flatMap fun m =>
    let s := (nextTrain samples)^[m] train
    let st := (nextTest samples)^[m] test
    [curveText (R := Cf .w32 ℝ) (Cf.display disp)
        ((List.range samples).map fun i => Cf.ofC (trainAt samples thr s st i)),
      curveText (R := Cf .w32 ℝ) (Cf.display disp)
        ((List.range samples).map fun i => Cf.ofC (cleanAt samples s i)),
      curveText (Cf.display disp) (vecOutput n (samplesOf samples (trainAt samples thr s st)))]

end Examples
end Renplex
