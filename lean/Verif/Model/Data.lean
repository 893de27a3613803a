import Verif.Model.Network
/-!
# MNIST batches, synthetic signals and CSV: `/repo/src/dataset/mod.rs`,
`/repo/src/math/matrix/mod.rs:793-821`
-/

namespace Renplex

/-! ## MNIST, dataset/mod.rs:92-172 -/
namespace Mnist

/-- `MINIST_DEGREE`, dataset/mod.rs:92. -/
def degree : Nat := 10
/-- `MINIST_TRAIN_LABEL_SIZE`, dataset/mod.rs:93-95. -/
def trainLabelSize : Nat := 60000 + 8

/-- `file.read(buf)` (dataset/mod.rs:111): the bytes left in the file and the new buffer content,
and the count. A regular file delivers `min(buf.len(), remaining)` bytes; the rest of the buffer
keeps its old content. I/O errors (panic by `unwrap`) are not modelled. -/
def read (file buf : List UInt8) : List UInt8 × List UInt8 × Nat :=
  let n := min buf.length file.length
  (file.drop n, file.take n ++ buf.drop n, n)

/-- The open files and the caller's tracker. -/
structure St where
  data : List UInt8
  label : List UInt8
  tracker : Nat
  deriving DecidableEq, Repr

/-- The header skip, dataset/mod.rs:109-114, 144-149. -/
def skipHeader (s : St) : St :=
  if s.tracker = 0 then
    let d := read s.data (List.replicate 16 0)
    let l := read s.label (List.replicate 8 0)
    ⟨d.1, l.1, s.tracker + l.2.2⟩
  else s

/-- The batch loop, dataset/mod.rs:121-133, 156-168. `pixel` is the conversion of one byte (it
divides, which may panic), `label` the one-hot generator. -/
def loop {α : Type} (pixel : Nat → Run α) (oneHot : Nat → Run (List α)) :
    Nat → St → List UInt8 → List UInt8 → Dataset α → Run (Dataset α × St)
  | 0, s, _, _, d => some (d, s)
  | n + 1, s, imgBuf, labBuf, d => do
    let (data, imgBuf, _) := read s.data imgBuf
    let (label, labBuf, k) := read s.label labBuf
    let s : St := ⟨data, label, s.tracker + k⟩
    let image ← imgBuf.mapM fun b => pixel b.toNat
    let lab ← labBuf.head?
    let target ← oneHot lab.toNat
    let d := d.addPoint (.matrix [Mat.fromBody image (28, 28)], .scalar target)
    if s.tracker = trainLabelSize then some (d, s)
    else loop pixel oneHot n s imgBuf labBuf d

/-- `minist_as_batch`, dataset/mod.rs:101-136, for a real type `P`. -/
def asBatch {P : Type} [RealOps P] (batch : Nat) (s : St) : Run (Dataset P × St) :=
  loop (fun b => BasicOps.div (RealOps.ofUsize b) (RealOps.ofUsize 255))
    (fun l => genPred RealOps.runit degree l >>= unwrap)
    batch (skipHeader s) (List.replicate (28 * 28) 0) [0] Dataset.new

/-- `minist_as_complex_batch`, dataset/mod.rs:141-171, for a complex type. -/
def asComplexBatch {α P : Type} [CplxOps α P] (batch : Nat) (s : St) : Run (Dataset α × St) :=
  loop (fun b => BasicOps.div (CplxOps.ofUsize b) (CplxOps.ofUsize 255))
    (fun l => genPred CplxOps.unit degree l >>= unwrap)
    batch (skipHeader s) (List.replicate (28 * 28) 0) [0] Dataset.new

end Mnist

/-! ## Synthetic signals, dataset/mod.rs:175-331 -/
namespace Signal
variable {R : Type} [Scalar R]
open Scalar (zero one two lit)

/-- One wave: amplitude, frequency, phase (dataset/mod.rs:202-213, 227-236). -/
def wave (seed : Nat) : Run ((R × R × R) × Nat) := do
  let (u1, seed) ← Rng.lcgf (R := R) seed
  let a := Scalar.add (Scalar.mul u1 (lit 9 10)) (lit 1 10)
  let (u2, seed) ← Rng.lcgf (R := R) seed
  let f := Scalar.add (Scalar.mul u2 (lit 9 10)) (lit 1 10)
  let (u3, seed) ← Rng.lcgf (R := R) seed
  let phi := Scalar.mul (Scalar.mul two Scalar.pi) u3
  some ((a, f, phi), seed)

/-- The wave list, dataset/mod.rs:202-213. -/
def waves : Nat → Nat → Run (List (R × R × R) × Nat)
  | 0, seed => some ([], seed)
  | n + 1, seed => do
    let (x, seed) ← wave seed
    let (xs, seed) ← waves n seed
    some (x :: xs, seed)

/-- `train_func`/`test_func`, dataset/mod.rs:215-223, 238-246. -/
def sample (ws : List (R × R × R)) (t : R) : Cf .w32 R :=
  ws.foldl (fun acc p => Cf.add acc (Cf.newe p.1 (Scalar.add (Scalar.mul p.2.1 t) p.2.2)))
    (Cf.new zero zero)

/-- The running maximum, dataset/mod.rs:254-257, 268-271. -/
def maxNorm (s : List (Cf .w32 R)) : R :=
  s.foldl (fun acc z => if Scalar.lt acc z.norm then z.norm else acc) zero

/-- Normalisation, dataset/mod.rs:258-260, 272-274. -/
def normalise (s : List (Cf .w32 R)) : Run (List (Cf .w32 R)) :=
  let mx := maxNorm s
  if !Scalar.beq mx zero then s.mapM fun z => Cf.divAssign z (Cf.new mx zero) else some s

/-- Noise on a pair of samples, dataset/mod.rs:279-300, 301-322. Amplitude noise is drawn from
`ampSeed`, phases from `phSeed`; the crate passes (test, train) for the training signal and
(test, test) for the test signal, hence the two versions of the seed threading below. -/
def noisyPair (thr : R) (e1 e2 : Cf .w32 R) (u1 u2 v1 v2 : R) : List (Cf .w32 R) :=
  let intp := Scalar.div thr (lit 20 1)
  let noise1 := Scalar.add thr (Scalar.mul intp e1.norm)
  let noise2 := Scalar.add thr (Scalar.mul intp e2.norm)
  let rad := Scalar.sqrt (Scalar.mul (lit (-2) 1) (Scalar.ln u1))
  let ang := Scalar.mul (Scalar.mul two Scalar.pi) u2
  let z1 := Scalar.mul (Scalar.mul rad (Scalar.cos ang)) noise1
  let z2 := Scalar.mul (Scalar.mul rad (Scalar.sin ang)) noise2
  let p1 := Scalar.mul (Scalar.mul two Scalar.pi) v1
  let p2 := Scalar.mul (Scalar.mul two Scalar.pi) v2
  [Cf.add e1 (Cf.newe z1 p1), Cf.add e2 (Cf.newe z2 p2)]

/-- The corrupted training signal, dataset/mod.rs:279-300: `chunks(2)`, `elm[1]` panics on a
single leftover; amplitude noise from the *test* seed, phases from the train seed. -/
def corruptTrain (thr : R) : List (List (Cf .w32 R)) → (train test : Nat) →
    Run (List (Cf .w32 R) × Nat × Nat)
  | [], train, test => some ([], train, test)
  | c :: cs, train, test => do
    let e1 ← c[0]?
    let e2 ← c[1]?
    let (u1, test) ← Rng.lcgf (R := R) test
    let (u2, test) ← Rng.lcgf (R := R) test
    let (v1, train) ← Rng.lcgf (R := R) train
    let (v2, train) ← Rng.lcgf (R := R) train
    let (rest, train, test) ← corruptTrain thr cs train test
    some (noisyPair thr e1 e2 u1 u2 v1 v2 ++ rest, train, test)

/-- The corrupted test signal, dataset/mod.rs:301-322: all draws from the test seed. -/
def corruptTest (thr : R) : List (List (Cf .w32 R)) → (test : Nat) →
    Run (List (Cf .w32 R) × Nat)
  | [], test => some ([], test)
  | c :: cs, test => do
    let e1 ← c[0]?
    let e2 ← c[1]?
    let (u1, test) ← Rng.lcgf (R := R) test
    let (u2, test) ← Rng.lcgf (R := R) test
    let (v1, test) ← Rng.lcgf (R := R) test
    let (v2, test) ← Rng.lcgf (R := R) test
    let (rest, test) ← corruptTest thr cs test
    some (noisyPair thr e1 e2 u1 u2 v1 v2 ++ rest, test)

/-- The time grid, dataset/mod.rs:191-197. -/
def times (samples : Nat) : List R :=
  let period := Scalar.div (Scalar.mul (lit 4 1) Scalar.pi) (Scalar.ofNat samples)
  (List.range samples).map fun i => Scalar.mul period (Scalar.ofNat i)

/-- One iteration of the batch loop, dataset/mod.rs:199-327: train point, test point, seeds. -/
def point (samples : Nat) (thr : R) (train test : Nat) :
    Run ((List (Cf .w32 R) × List (Cf .w32 R)) × (List (Cf .w32 R) × List (Cf .w32 R))
      × Nat × Nat) := do
  let (k, train) ← Rng.lcgi train 8
  let (ws, train) ← waves (R := R) (k + 1) train
  let (kt, test) ← Rng.lcgi test 8
  let (wst, test) ← waves (R := R) (kt + 1) test
  let clean ← normalise ((times samples).map (sample ws))
  let cleanT ← normalise ((times samples).map (sample wst))
  let ch ← chunks 2 clean
  let (corr, train, test) ← corruptTrain thr ch train test
  let chT ← chunks 2 cleanT
  let (corrT, test) ← corruptTest thr chT test
  some ((corr, clean), (corrT, cleanT), train, test)

/-- `signal_reconstruction`, dataset/mod.rs:179-330. -/
def reconstruction (samples : Nat) (thr : R) : Nat → (train test : Nat) →
    Dataset (Cf .w32 R) → Dataset (Cf .w32 R) →
    Run ((Dataset (Cf .w32 R) × Dataset (Cf .w32 R)) × Nat × Nat)
  | 0, train, test, dTrain, dTest => some ((dTrain, dTest), train, test)
  | b + 1, train, test, dTrain, dTest => do
    let (p, pt, train, test) ← point samples thr train test
    reconstruction samples thr b train test
      (dTrain.addPoint (.scalar p.1, .scalar p.2)) (dTest.addPoint (.scalar pt.1, .scalar pt.2))

end Signal

/-! ## CSV. The text written to the file; `disp` is `Display::fmt`. I/O errors not modelled. -/

/-- `Matrix::to_csv`, matrix/mod.rs:805-820. -/
def Mat.toCsv {α : Type} (disp : α → String) (m : Mat α) : Run String := do
  let rows ← chunks m.shape.2 m.body
  some (String.join (rows.map fun r => String.join (r.map fun v => disp v ++ ",") ++ "\n"))

/-- `Dataset::to_csv`, dataset/mod.rs:25-48. -/
def Dataset.toCsv {α : Type} (disp : α → String) (d : Dataset α) : Run String := do
  let rows ← d.points.mapM fun p => do
    let input ← p.1.asSlice
    let first ← input.head?
    let target ← p.2.asSlice
    some (disp first ++ String.join (input.tail.map fun v => "," ++ disp v)
      ++ String.join (target.map fun v => "," ++ disp v) ++ "\n")
  some (String.join rows)

/-- `Display for Cf32/Cf64`, cfloat/mod.rs:25-53. -/
def Cf.display {w : Width} {R : Type} (disp : R → String) (z : Cf w R) : String :=
  "[" ++ disp z.x ++ " " ++ disp z.y ++ "]"

/-- `Display for Matrix`, matrix/mod.rs:793-802: `rowFmt` is `{:?}` of a slice, `arrFmt` of a
`[usize; 2]`. -/
def Mat.display {α : Type} (rowFmt : List α → String) (arrFmt : Nat × Nat → String) (m : Mat α) :
    Run String := do
  let rows ← chunks m.shape.2 m.body
  some (String.join (rows.map fun r => rowFmt r ++ "\n")
    ++ "shape: " ++ arrFmt m.shape ++ ", capacity: " ++ arrFmt m.capacity)

end Renplex
