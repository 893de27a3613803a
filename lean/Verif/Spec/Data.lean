import Verif.Model.Data
/-!
# Specification of data sets, one-hot vectors and CSV text
-/

namespace Renplex

/-- The data set built by adding the points one after the other. -/
def Dataset.ofPoints {α : Type} (pts : List (IOType α × IOType α)) : Dataset α :=
  pts.foldl Dataset.addPoint Dataset.new

/-- The vector of length `n` with `a` at position `k` and `z` elsewhere. -/
def oneHotVec {α : Type} (z a : α) (n k : Nat) : List α :=
  (List.range n).map fun i => if i = k then a else z

/-- How a reader splits CSV text: at newlines into lines, lines at commas into cells. -/
def csvCells (s : String) : List (List String) :=
  (s.toList.splitOn '\n').map fun l => (l.splitOn ',').map String.ofList

/-- A text fits into one cell. -/
def CellText (s : String) : Prop := ',' ∉ s.toList ∧ '\n' ∉ s.toList

end Renplex
