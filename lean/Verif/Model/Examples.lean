import Verif.Model.Network
import Verif.Model.Data
/-!
# The example programs `/repo/examples/classification.rs` and `/repo/examples/regression.rs`

The networks they build and the training and test loops. Printing, timing and the names of the files
written are left out; opening and writing files is taken to succeed, and a file to read is the list
of its bytes.
-/

namespace Renplex
namespace Examples
variable {R : Type} [Scalar R]

/-- The block function of the pooling layer, classification.rs:36-41: the mean of the block. -/
def avgBlock (block : List (Cf .w32 R)) : Run (Cf .w32 R) :=
  Cf.div (block.foldl Cf.add Cf.default) (Cf.new (Scalar.ofNat block.length) Scalar.zero)

/-- The interpolation kernel, classification.rs:42-47. -/
def bilinear : Mat (Cf .w32 R) :=
  let c (n : Int) : Cf .w32 R := Cf.new (Scalar.lit n 100) (Scalar.lit 0 1)
  Mat.fromBody [c 25, c 50, c 25, c 50, c 100, c 50, c 25, c 50, c 25] (3, 3)

/-- `avg_pooling_layer`, classification.rs:33-48. -/
def avgPool (inputUnits : Nat) : Reduce (Cf .w32 R) :=
  Reduce.init inputUnits (2, 2) avgBlock bilinear

/-- `network.add_input(layer).unwrap()`, classification.rs:82; `CNetwork::new()`, 81. -/
def withInput {α : Type} (l : Layer α) : Run (Net α) :=
  let r := Net.new.addInput l
  unwrap r.1 >>= fun _ => some r.2

/-- `network.add(layer).unwrap()`, e.g. classification.rs:83. -/
def withLayer {α : Type} (n : Net α) (l : Layer α) : Run (Net α) := do
  let r ← n.add l
  let _ ← unwrap r.1
  some r.2

/-- `DenseCLayer::init(IOShape::Scalar(n), u, func, method, seed).unwrap().wrap()`, e.g.
classification.rs:63-69. -/
def dense (n u : Nat) (func : ActFunc) (method : InitMethod) (seed : Nat) :
    Run (Layer (Cf .w32 R) × Nat) := do
  let r ← Dense.init (.scalar n) u func method seed
  let l ← unwrap r.1
  some (.dense l, r.2)

/-- `ConvCLayer::init(IOShape::Matrix(n), nf, size, func, method, seed).unwrap().wrap()`, e.g.
classification.rs:24-31. -/
def conv (n nf : Nat) (size : Nat × Nat) (func : ActFunc) (method : InitMethod) (seed : Nat) :
    Run (Layer (Cf .w32 R) × Nat) := do
  let r ← Conv.init (.matrix n) nf size func method seed
  let l ← unwrap r.1
  some (.conv l, r.2)

/-- `_get_2conv_layer_cvcnn`, classification.rs:20-92: the id, the network and the seed. -/
def twoConv (seed : Nat) : Run ((Nat × Net (Cf .w32 R)) × Nat) := do
  let (l1, seed) ← conv 1 8 (3, 3) .ritReLU (.heInit (8 * 3 * 3)) seed
  let l2 : Layer (Cf .w32 R) := .reduce (avgPool 8)
  let (l3, seed) ← conv 8 16 (3, 3) .ritReLU (.heInit (16 * 3 * 3)) seed
  let l4 : Layer (Cf .w32 R) := .flatten (Flatten.init (11, 11) 16)
  let (l5, seed) ← dense (11 * 11 * 16) 16 .ritSigmoid (.xavierGlorotU (11 * 11 * 16 + 16)) seed
  let (l6, seed) ← dense 16 10 .ritSigmoid (.xavierGlorotU (16 + 10)) seed
  let n ← withInput l1
  let n ← withLayer n l2
  let n ← withLayer n l3
  let n ← withLayer n l4
  let n ← withLayer n l5
  let n ← withLayer n l6
  some ((2, n), seed)

/-- `_get_fully_connected_cvnn`, classification.rs:94-143. -/
def fullyConnected (seed : Nat) : Run ((Nat × Net (Cf .w32 R)) × Nat) := do
  let l1 : Layer (Cf .w32 R) := .flatten (Flatten.init (28, 28) 1)
  let (l2, seed) ← dense (28 * 28) 28 .ritSigmoid (.xavierGlorotU (28 * 28 + 28)) seed
  let (l3, seed) ← dense 28 16 .ritSigmoid (.xavierGlorotU (28 + 16)) seed
  let (l4, seed) ← dense 16 16 .ritSigmoid (.xavierGlorotU (16 + 16)) seed
  let (l5, seed) ← dense 16 10 .ritSigmoid (.xavierGlorotU (16 + 10)) seed
  let n ← withInput l1
  let n ← withLayer n l2
  let n ← withLayer n l3
  let n ← withLayer n l4
  let n ← withLayer n l5
  some ((0, n), seed)

/-- `_get_auto_encoder`, regression.rs:16-76. -/
def autoEncoder (seed samples : Nat) : Run ((Nat × Net (Cf .w32 R)) × Nat) := do
  let (l1, seed) ← dense samples 128 .ritTanh (.xavierGlorotU (samples + 128)) seed
  let (l2, seed) ← dense 128 32 .ritTanh (.xavierGlorotU (128 + 32)) seed
  let (l3, seed) ← dense 32 16 .ritTanh (.xavierGlorotU (32 + 16)) seed
  let (l4, seed) ← dense 16 32 .ritTanh (.xavierGlorotU (16 + 32)) seed
  let (l5, seed) ← dense 32 samples .none (.xavierGlorotU (32 + samples)) seed
  let n ← withInput l1
  let n ← withLayer n l2
  let n ← withLayer n l3
  let n ← withLayer n l4
  let n ← withLayer n l5
  some ((3, n), seed)

/-- `let lr = Cf32::new(r * phase.cos(), r * phase.sin())` with `phase = 0.0 * PI / 100.0`,
classification.rs:356-360, regression.rs:166-170. -/
def learningRate (r : R) : Cf .w32 R :=
  let phase := Scalar.div (Scalar.mul (Scalar.lit 0 1) Scalar.pi) (Scalar.lit 100 1)
  Cf.new (Scalar.mul r (Scalar.cos phase)) (Scalar.mul r (Scalar.sin phase))

/-! ## classification.rs -/

/-- The loop of `_train_pipeline`, classification.rs:302-324: the network and the sums of the losses
and accuracies, each evaluated before the update. -/
def trainLoop (f : LossFunc) (lr : Cf .w32 R) (batchSize : Nat) :
    Nat → Mnist.St → Net (Cf .w32 R) → R → R → Run (Net (Cf .w32 R) × R × R)
  | 0, _, n, sumLoss, sumAcc => some (n, sumLoss, sumAcc)
  | b + 1, st, n, sumLoss, sumAcc => do
    let (d, st) ← Mnist.asComplexBatch batchSize st
    let l ← n.loss d f
    let a ← n.maxPredTest d
    let (r, n) ← n.gradientOpt d f lr
    let _ ← unwrap r
    trainLoop f lr batchSize b st n (BasicOps.addAssign sumLoss l) (BasicOps.addAssign sumAcc a)

/-- `_train_pipeline`, classification.rs:286-331: opens the files, runs the loop, and appends the
means to the two vectors. -/
def trainPipeline (n : Net (Cf .w32 R)) (f : LossFunc) (lr : Cf .w32 R) (batches batchSize : Nat)
    (images labels : List UInt8) (lossVec accVec : List R) :
    Run (Net (Cf .w32 R) × List R × List R) := do
  let (n, l, a) ← trainLoop f lr batchSize batches ⟨images, labels, 0⟩ n Scalar.zero Scalar.zero
  let l ← BasicOps.divAssign l (Scalar.ofNat batches)
  let a ← BasicOps.divAssign a (Scalar.ofNat batches)
  some (n, lossVec ++ [l], accVec ++ [a])

/-- The loop of `_test_pipeline`, classification.rs:260-277. -/
def testLoop (n : Net (Cf .w32 R)) (f : LossFunc) (batchSize : Nat) :
    Nat → Mnist.St → R → R → Run (R × R)
  | 0, _, sumLoss, sumAcc => some (sumLoss, sumAcc)
  | b + 1, st, sumLoss, sumAcc => do
    let (d, st) ← Mnist.asComplexBatch batchSize st
    let l ← n.loss d f
    let a ← n.maxPredTest d
    testLoop n f batchSize b st (BasicOps.addAssign sumLoss l) (BasicOps.addAssign sumAcc a)

/-- `_test_pipeline`, classification.rs:246-284. -/
def testPipeline (n : Net (Cf .w32 R)) (f : LossFunc) (batches batchSize : Nat)
    (images labels : List UInt8) (lossVec accVec : List R) : Run (List R × List R) := do
  let (l, a) ← testLoop n f batchSize batches ⟨images, labels, 0⟩ Scalar.zero Scalar.zero
  let l ← BasicOps.divAssign l (Scalar.ofNat batches)
  let a ← BasicOps.divAssign a (Scalar.ofNat batches)
  some (lossVec ++ [l], accVec ++ [a])

/-- What an experiment has recorded: the network and the learning curves. -/
structure Curves (R : Type) where
  net : Net (Cf .w32 R)
  trainLoss : List R
  trainAcc : List R
  testLoss : List R
  testAcc : List R

/-- The four files of the MNIST data: training images and labels, test images and labels. -/
structure MnistFiles where
  trainImages : List UInt8
  trainLabels : List UInt8
  testImages : List UInt8
  testLabels : List UInt8

/-- The epochs of `class_pipeline`, classification.rs:369-392, with `batch_size`, `train_batches`,
`test_batches` of 345-350. -/
def classEpochs (f : LossFunc) (lr : Cf .w32 R) (batchSize trainBatches testBatches : Nat)
    (files : MnistFiles) : Nat → Curves R → Run (Curves R)
  | 0, c => some c
  | e + 1, c => do
    let (n, tl, ta) ← trainPipeline c.net f lr trainBatches batchSize files.trainImages
      files.trainLabels c.trainLoss c.trainAcc
    let (vl, va) ← testPipeline n f testBatches batchSize files.testImages files.testLabels
      c.testLoss c.testAcc
    classEpochs f lr batchSize trainBatches testBatches files e ⟨n, tl, ta, vl, va⟩

/-- `IOType::Matrix(maps) => maps…, _ => panic!`, e.g. classification.rs:189-199. -/
def mapsOf {α : Type} : IOType α → Run (List (Mat α))
  | .matrix ms => some ms
  | .scalar _ => none

/-- `_extract_features`, classification.rs:145-244: the matrices written, in order: two images, then
for each image the maps entering layer 1 and layer 3. -/
def extractFeatures (n : Net (Cf .w32 R)) (convNetworkId : Nat) (images labels : List UInt8) :
    Run (List (Mat (Cf .w32 R))) := do
  let (data, _) ← Mnist.asComplexBatch 60 ⟨images, labels, 0⟩
  let (image1, _) ← data.getPoint 18
  let (image2, _) ← data.getPoint 58
  let m1 ← mapsOf image1 >>= (·[0]?)
  let m2 ← mapsOf image2 >>= (·[0]?)
  if convNetworkId = 1 then none
  else if convNetworkId = 2 then do
    let feature (x : IOType (Cf .w32 R)) (order : Nat) : Run (List (Mat (Cf .w32 R))) := do
      let r ← n.intercept x order
      let (v, _) ← unwrap r
      mapsOf v
    let f1 ← feature image1 1
    let f2 ← feature image1 3
    let f3 ← feature image2 1
    let f4 ← feature image2 3
    some ([m1, m2] ++ f1 ++ f2 ++ f3 ++ f4)
  else some [m1, m2]

/-- `class_pipeline` after the network has been created, classification.rs:345-419: the curves, the
matrices of features and the four curve matrices, in the order they are written. Writing a matrix
can panic (`chunks` of zero columns), hence the use of `toCsv`. -/
def classRun (disp : R → String) (networkId : Nat) (n : Net (Cf .w32 R)) (files : MnistFiles) :
    Run (Curves R × List String) := do
  let batchSize := 100
  let epochs := 16
  let c ← classEpochs .meanSquare (learningRate (Scalar.lit 25000 10000)) batchSize
    (60000 / batchSize) (10000 / batchSize) files epochs ⟨n, [], [], [], []⟩
  let features ← if networkId = 1 ∨ networkId = 2
    then extractFeatures c.net networkId files.trainImages files.trainLabels else some []
  let t1 ← features.mapM (Mat.toCsv (Cf.display disp))
  let t2 ← [c.trainLoss, c.trainAcc, c.testLoss, c.testAcc].mapM fun v =>
    Mat.toCsv disp (Mat.fromBody v (epochs, 1))
  some (c, t1 ++ t2)

/-- `class_pipeline`, classification.rs:333-422. -/
def classPipeline (disp : R → String) (seed : Nat) (files : MnistFiles) :
    Run (Curves R × List String) := do
  let ((id, n), _) ← fullyConnected seed
  classRun disp id n files

/-- The seeds of both `main` functions, classification.rs:425-432, regression.rs:242-249, and the
one used, `seeds[4]`. -/
def mainSeed : Run Nat := [891298565, 918232853, 328557473, 348769349, 224783561, 981347827][4]?

/-- `main`, classification.rs:424-439. -/
def classMain (disp : R → String) (files : MnistFiles) : Run (Curves R × List String) :=
  mainSeed >>= fun seed => classPipeline disp seed files

/-! ## regression.rs -/

/-- The loop of `signal_rec_train_test`, regression.rs:98-128; `b` counts the batches done, so
`accu` is `b + 1`. -/
def signalLoop (f : LossFunc) (lr : Cf .w32 R) (samples : Nat) (thr : R) (batchSize : Nat) :
    Nat → (b train test : Nat) → Net (Cf .w32 R) → R → R → Run (Net (Cf .w32 R) × R × R)
  | 0, _, _, _, n, meanTrain, meanTest => some (n, meanTrain, meanTest)
  | k + 1, b, train, test, n, meanTrain, meanTest => do
    let ((dTrain, dTest), train, test) ←
      Signal.reconstruction samples thr batchSize train test Dataset.new Dataset.new
    let accu := Scalar.ofNat (b + 1)
    let l ← n.loss dTrain f
    let meanTrain := Scalar.div (Scalar.add meanTrain l) accu
    let (r, n) ← n.gradientOpt dTrain f lr
    let _ ← unwrap r
    let v ← n.loss dTest f
    let meanTest := Scalar.div (Scalar.add meanTest v) accu
    signalLoop f lr samples thr batchSize k (b + 1) train test n meanTrain meanTest

/-- `signal_rec_train_test`, regression.rs:78-134: one epoch. The seeds are passed by value. -/
def signalEpoch (n : Net (Cf .w32 R)) (f : LossFunc) (lr : Cf .w32 R) (samples : Nat) (thr : R)
    (batches batchSize train test : Nat) (lossVec testVec : List R) :
    Run (Net (Cf .w32 R) × List R × List R) := do
  let (n, l, v) ←
    signalLoop f lr samples thr batchSize batches 0 train test n Scalar.zero Scalar.zero
  some (n, lossVec ++ [l], testVec ++ [v])

/-- The epochs of `reg_pipeline`, regression.rs:178-196. -/
def regEpochs (f : LossFunc) (lr : Cf .w32 R) (samples : Nat) (thr : R)
    (batches batchSize train test : Nat) :
    Nat → Net (Cf .w32 R) → List R → List R → Run (Net (Cf .w32 R) × List R × List R)
  | 0, n, lossVec, testVec => some (n, lossVec, testVec)
  | e + 1, n, lossVec, testVec => do
    let (n, lossVec, testVec) ←
      signalEpoch n f lr samples thr batches batchSize train test lossVec testVec
    regEpochs f lr samples thr batches batchSize train test e n lossVec testVec

/-- The exploration of `reg_pipeline`, regression.rs:202-223: for each of ten training points the
corrupted signal, the clean one and the prediction, as columns. -/
def explore (n : Net (Cf .w32 R)) (samples : Nat) (thr : R) (train test : Nat) :
    Run (List (Mat (Cf .w32 R))) := do
  let ((d, _), _, _) ← Signal.reconstruction samples thr 10 train test Dataset.new Dataset.new
  let ms ← (List.range 10).mapM fun b => do
    let (corrupted, clean) ← d.getPoint b
    let prediction ← n.forward corrupted >>= unwrap
    let x ← corrupted.asSlice >>= fun v => unwrap (Mat.toMatrix v (samples, 1))
    let y ← clean.asSlice >>= fun v => unwrap (Mat.toMatrix v (samples, 1))
    let yp ← prediction.asSlice >>= fun v => unwrap (Mat.toMatrix v (samples, 1))
    some [x, y, yp]
  some ms.flatten

/-- `reg_pipeline`, regression.rs:136-237: the network, the two learning curves and the text of the
files written, in order. -/
def regPipeline (disp : R → String) (seed : Nat) :
    Run ((Net (Cf .w32 R) × List R × List R) × List String) := do
  let train := 223895746827
  let test := 4346877248692
  let samples := 512
  let thr : R := Scalar.lit 25 1000
  let ((id, n), _) ← autoEncoder seed samples
  let epochs := 16
  let (n, lossVec, testVec) ← regEpochs .meanSquare (learningRate (Scalar.lit 50 10000)) samples thr
    200 100 train test epochs n [] []
  let shown ← if id = 3 then explore n samples thr train test else some []
  let t1 ← shown.mapM (Mat.toCsv (Cf.display disp))
  let t2 ← [lossVec, testVec].mapM fun v => Mat.toCsv disp (Mat.fromBody v (epochs, 1))
  some ((n, lossVec, testVec), t1 ++ t2)

/-- `main`, regression.rs:241-256. -/
def regMain (disp : R → String) : Run ((Net (Cf .w32 R) × List R × List R) × List String) :=
  mainSeed >>= fun seed => regPipeline disp seed

end Examples
end Renplex
