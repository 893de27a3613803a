import Verif.Spec.Data
/-!
# Specification of the MNIST files

An image file is a header of 16 bytes followed by the images, 784 bytes each; a label file is a
header of 8 bytes followed by one byte per image.
-/

namespace Renplex
namespace Mnist

/-- One labelled image. -/
structure Record where
  image : List UInt8
  label : UInt8

/-- An image of 28 × 28 bytes labelled with a digit. -/
def Record.WF (r : Record) : Prop := r.image.length = 784 ∧ r.label.toNat < 10

/-- Two freshly opened files, nothing read. -/
def files (hdrImg hdrLab : List UInt8) (recs : List Record) : St :=
  ⟨hdrImg ++ recs.flatMap (·.image), hdrLab ++ recs.map (·.label), 0⟩

/-- The point a record stands for: bytes through `pixel`, the label one-hot. -/
def Record.point {α : Type} (pixel : Nat → α) (zero one : α) (r : Record) : IOType α × IOType α :=
  (.matrix [⟨r.image.map fun b => pixel b.toNat, (28, 28), (28, 28)⟩],
    .scalar (oneHotVec zero one 10 r.label.toNat))

/-- Successive calls with the given batch sizes on one pair of files. -/
def calls {α : Type} (call : Nat → St → Run (Dataset α × St)) :
    List Nat → St → Run (List (Dataset α) × St)
  | [], s => some ([], s)
  | b :: bs, s => do
    let (d, s) ← call b s
    let (ds, s) ← calls call bs s
    some (d :: ds, s)

/-- How many records were delivered after `r` records and a call for `b` more: a call stops at
record 60000 and otherwise delivers all `b`. -/
def advance (r b : Nat) : Nat := if r < 60000 ∧ 60000 ≤ r + b then 60000 else r + b

end Mnist
end Renplex
