import Verif.Model.Matrix
/-!
# Specification vocabulary for matrices

Independent of the model's functions: what it means for a matrix value to *be* the `r × c` table
with entries `f`.
-/

namespace Renplex

/-- The row-major listing of an `r × c` table. -/
def table {α : Type} (r c : Nat) (f : Nat → Nat → α) : List α :=
  (List.range r).flatMap fun i => (List.range c).map fun j => f i j

/-- `m` reports shape `[r, c]` and stores exactly the entries `f i j`, `i < r`, `j < c`, row by
row. -/
def Mat.Is {α : Type} (m : Mat α) (r c : Nat) (f : Nat → Nat → α) : Prop :=
  m.shape = (r, c) ∧ m.body = table r c f

/-- The matrix stores exactly rows × columns elements. -/
def Mat.Rect {α : Type} (m : Mat α) : Prop := m.body.length = m.shape.1 * m.shape.2

end Renplex
