import Verif.Model.Data
/-!
# The crate's own test programs: `/repo/src/lib.rs:10-316`

Unannotated float literals are `f64`, in the image tests `f32`; `R` stands for either. A test returns
what it prints or the files it writes (name and text). Left out: `paralelize`, `par_test`, `unsigned`,
`string_test` and `fancy_prints` (204-286), which call nothing of the crate.
-/

namespace Renplex
namespace Tests
variable {R : Type} [Scalar R]
open Scalar (zero lit)

/-- The matrix `matrix1` = `matrix2`, lib.rs:26-40. -/
def fours : Mat R :=
  Mat.fromBody [lit 1 1, lit 1 1, lit 1 1, lit 1 1, lit 2 1, lit 2 1, lit 2 1, lit 2 1,
    lit 3 1, lit 3 1, lit 3 1, lit 3 1, lit 4 1, lit 4 1, lit 4 1, lit 4 1] (4, 4)

/-- `matrix_add`, lib.rs:24-46: the two matrices as printed. -/
def matrixAdd (rowFmt : List R → String) (arrFmt : Nat × Nat → String) : Run (List String) := do
  let m ← unwrap ((fours : Mat R).addMut fours)
  let s1 ← m.display rowFmt arrFmt
  let m := m.addMutScalar (lit 2 1)
  let s2 ← m.display rowFmt arrFmt
  some [s1, s2]

/-- The matrix of `matrix_mul`, lib.rs:50-55. -/
def threes : Mat R :=
  Mat.fromBody [lit 2 1, lit 1 1, lit 12 10, lit 15 10, lit 5 1, lit 1 1,
    lit 93 10, lit 1 1, zero] (3, 3)

/-- `matrix_mul`, lib.rs:48-67: the matrices and the two products as printed (`rowFmt` is `{:?}` of a
vector or slice). -/
def matrixMul (rowFmt : List R → String) (arrFmt : Nat × Nat → String) : Run (List String) := do
  let m := (threes : Mat R).mulScalar (lit 2 1)
  let s1 ← m.display rowFmt arrFmt
  let m ← m.divScalar (lit 2 1)
  let s2 ← m.display rowFmt arrFmt
  let res ← m.mulSlice [lit 1 1, lit 2 1, zero] >>= unwrap
  let res1 ← m.mulSlice [lit 1 1, lit 2 1, zero] >>= unwrap
  some [s1, s2, rowFmt res, rowFmt res1]

/-- `vec_add`, lib.rs:69-86: the five vectors and the scalar product. -/
def vecAdd : Run (List (List R) × R) := do
  let vec1 ← unwrap (addSliceMut [lit 2 1, lit 1 1, lit 2 1] [lit 1 1, lit 2 1, lit 3 1])
  let a ← unwrap (addSlice vec1 [lit 1 1, lit 2 1, lit 3 1])
  let a2 := mulMutScalar a (lit 2 1)
  let a3 ← unwrap (mulSliceMut a2 [lit 2 1, lit 5 10, lit 3 1])
  let b ← unwrap (mulSliceElt a3 [lit 5 10, lit 2 1, lit 333 1000])
  let c := scalarProd [lit 2 1, lit 3 1, lit 1 1] [lit 1 1, lit 2 1, lit 2 1]
  some ([vec1, a, a2, a3, b], c)

/-- Reading 100 images and picking the map of number 58, lib.rs:90-105 and 158-173. -/
def image (s : Mnist.St) : Run (Mat R) := do
  let (data, _) ← Mnist.asBatch (P := R) 100 s
  let p ← data.getPoint 58
  match p.1 with
  | .matrix map => map[0]?
  | .scalar _ => none

/-- The horizontal Sobel kernel, lib.rs:110-116. -/
def kernelX : Mat R :=
  Mat.fromBody [lit 1 1, zero, lit (-1) 1, lit 2 1, zero, lit (-2) 1, lit 1 1, zero, lit (-1) 1]
    (3, 3)
/-- The vertical Sobel kernel, lib.rs:120-126. -/
def kernelY : Mat R :=
  Mat.fromBody [lit 1 1, lit 2 1, lit 1 1, zero, zero, zero, lit (-1) 1, lit (-2) 1, lit (-1) 1]
    (3, 3)

/-- The modulus of one pair, lib.rs:133 and 141. -/
def modulus (x y : R) : R := Scalar.sqrt (Scalar.add (Scalar.sq x) (Scalar.sq y))
/-- The phase of one pair, lib.rs:142-144. -/
def phase (x y : R) : R := if Scalar.beq x zero then Scalar.pi else Scalar.atan2 y x

/-- The two filtered images, lib.rs:109-150. -/
def sobel (image : Mat R) : Run (Mat R × Mat (Cf .w32 R)) := do
  let cx ← image.convolution kernelX >>= unwrap
  let cy ← image.convolution kernelY >>= unwrap
  let conv := (cx.getBody.zip cy.getBody).map fun p => modulus p.1 p.2
  let cconv := (cx.getBody.zip cy.getBody).map fun p =>
    (Cf.new (modulus p.1 p.2) (phase p.1 p.2) : Cf .w32 R)
  some (Mat.fromBody conv (26, 26), Mat.fromBody cconv (26, 26))

/-- `image_conv_test`, lib.rs:88-154: the three files. -/
def imageConv (disp : R → String) (s : Mnist.St) : Run (List (String × String)) := do
  let img ← image (R := R) s
  let t0 ← img.toCsv disp
  let (conv, cconv) ← sobel img
  let t1 ← conv.toCsv disp
  let t2 ← cconv.toCsv (Cf.display disp)
  some [("./out/conv_tests/original.csv", t0), ("./out/conv_tests/conv_sobel.csv", t1),
    ("./out/conv_tests/conv_csobel.csv", t2)]

/-- The block function, lib.rs:179-184: the sum over the number of elements. -/
def average (block : List R) : Run R :=
  some (Scalar.div (block.foldl Scalar.add zero) (Scalar.ofNat block.length))

/-- The interpolation kernel, lib.rs:191-197. -/
def kernelUp : Mat R :=
  Mat.fromBody [lit 25 100, lit 5 10, lit 25 100, lit 5 10, lit 1 1, lit 5 10,
    lit 25 100, lit 5 10, lit 25 100] (3, 3)

/-- The pooled image and the up-sampled one, lib.rs:177-198. -/
def poolUp (image : Mat R) : Run (Mat R × Mat R) := do
  let pooled ← image.blockReduce (2, 2) average >>= unwrap
  let up ← pooled.fractionalUpsampling (2, 2) kernelUp >>= unwrap
  some (pooled, up)

/-- `image_pool_test`, lib.rs:156-201: the three files. -/
def imagePool (disp : R → String) (s : Mnist.St) : Run (List (String × String)) := do
  let img ← image (R := R) s
  let t0 ← img.toCsv disp
  let (pooled, up) ← poolUp img
  let t1 ← pooled.toCsv disp
  let t2 ← up.toCsv disp
  some [("./out/conv_tests/original.csv", t0), ("./out/conv_tests/avg_pool.csv", t1),
    ("./out/conv_tests/avg_pool_upsampled.csv", t2)]

/-- The two batches of `signal_data`, lib.rs:291-300. -/
def signals : Run (Dataset (Cf .w32 R) × Dataset (Cf .w32 R)) := do
  let (d, _) ← Signal.reconstruction (R := R) 512 (lit 25 1000) (200 * 100) 223895746827
    4346877248692 Dataset.new Dataset.new
  some d

/-- `signal_data`, lib.rs:289-304: the two files. -/
def signalData (disp : R → String) : Run (List (String × String)) := do
  let (train, test) ← signals (R := R)
  let t1 ← train.toCsv (Cf.display disp)
  let t2 ← test.toCsv (Cf.display disp)
  some [("train.csv", t1), ("test.csv", t2)]

/-- `atan_test`, lib.rs:249-255. -/
def atanTest : R × R :=
  (Scalar.atan (Scalar.div (lit (-1) 1) (lit 1 1)), Scalar.atan2 (lit (-1) 1) (lit (-1) 1))

/-- `hyper_tan`, lib.rs:306-316. -/
def hyperTan : R × Cf .w32 R :=
  (Scalar.tanh (lit 1000000000 1), Cf.newe (lit 100 1) (Scalar.div Scalar.pi (lit 3 1)))

end Tests
end Renplex
