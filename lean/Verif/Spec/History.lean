import Verif.Spec.Matrix
/-!
# Histories of public mutator calls on a matrix

One `MatOp` is one call of a public mutating method of `Matrix<T>`; a rejected call leaves the
matrix as the method leaves it.
-/

namespace Renplex

inductive MatOp (α : Type)
  | addRow (row : List α)
  | addMutRow (row : List α)
  | delRow (i : Nat)
  | addCol (col : List α)
  | dealloc
  | elmSet (i j : Nat) (v : α)
  | rowSet (i : Nat) (g : Nat → α)
  | addMut (rhs : Mat α)
  | addScalar (s : α)
  | mulScalar (s : α)
  | divScalar (s : α)

/-- The matrix after the call; `none` if the call panics. -/
def MatOp.apply {α : Type} [BasicOps α] (m : Mat α) : MatOp α → Run (Mat α)
  | .addRow row => some (m.addRow row).2
  | .addMutRow row => some (m.addMutRow row).2.1
  | .delRow i => (m.delRow i).map (·.2)
  | .addCol col => (m.addCol col).map (·.2.1)
  | .dealloc => some m.dealloc
  | .elmSet i j v => (m.elmSet i j v).map fun | .ok m' => m' | .error _ => m
  | .rowSet i g => (m.rowSet i ((List.range m.shape.2).map g)).map fun
    | .ok m' => m' | .error _ => m
  | .addMut rhs => match m.addMut rhs with | .ok m' => some m' | .error _ => some m
  | .addScalar s => some (m.addMutScalar s)
  | .mulScalar s => some (m.mulScalar s)
  | .divScalar s => m.divScalar s

/-- The matrix after a whole history of calls. -/
def Mat.history {α : Type} [BasicOps α] (m : Mat α) (ops : List (MatOp α)) : Run (Mat α) :=
  ops.foldlM MatOp.apply m

/-- Calls whose arguments are themselves sane: an added matrix stores rows × columns elements and
does not consist of zero-width rows, and a divisor does not make the division panic. -/
def MatOp.Sane {α : Type} [BasicOps α] : MatOp α → Prop
  | .addMut rhs => rhs.Rect ∧ (rhs.shape.2 = 0 → rhs.shape.1 = 0)
  | .divScalar s => ∀ a : α, ∃ b, BasicOps.divAssign a s = some b
  | _ => True

/-- Not `add_col`, and added rows are not empty. -/
def MatOp.NonemptyRows {α : Type} : MatOp α → Prop
  | .addCol _ => False
  | .addRow row => row ≠ []
  | .addMutRow row => row ≠ []
  | _ => True

/-- Neither `add_col` nor `add_mut_row`. -/
def MatOp.Plain {α : Type} : MatOp α → Prop
  | .addCol _ => False
  | .addMutRow _ => False
  | _ => True

end Renplex
