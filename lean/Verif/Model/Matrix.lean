import Verif.Model.Ops
/-!
# `Matrix<T>`: `/repo/src/math/matrix/mod.rs`, `/repo/src/math/matrix/err.rs`
-/

namespace Renplex

/-- `enum AccessError`, `/repo/src/math/matrix/err.rs:2-4`. -/
inductive AccessErr | outOfBounds
  deriving DecidableEq, Repr
/-- `enum UpdateError`, `/repo/src/math/matrix/err.rs:7-10`. -/
inductive UpdateErr | inconsistentLength | overflow
  deriving DecidableEq, Repr
/-- `enum DeletionError`, `/repo/src/math/matrix/err.rs:13-16`. -/
inductive DeletionErr | outOfBounds | empty
  deriving DecidableEq, Repr
/-- `enum OperationError`, `/repo/src/math/matrix/err.rs:19-23`. -/
inductive OpErr | outOfBounds | inconsistentShape | invalidRHS
  deriving DecidableEq, Repr

/-- `struct Matrix<T>`, `/repo/src/math/matrix/mod.rs:21-33`. The `Vec`'s own allocation is not
modelled, only the `capacity` field. -/
structure Mat (α : Type) where
  body : List α
  /-- `shape[0]` rows, `shape[1]` columns -/
  shape : Nat × Nat
  capacity : Nat × Nat
  deriving DecidableEq, Repr

namespace Mat
variable {α : Type}

/-- `Matrix::new`, mod.rs:37-43. -/
def new : Mat α := ⟨[], (0, 0), (0, 0)⟩

/-- `Matrix::with_capacity`, mod.rs:56-61 (the product `capacity[0]*capacity[1]` only sizes the
allocation; its overflow is not modelled). -/
def withCapacity (cap : Nat × Nat) : Mat α := ⟨[], (0, 0), cap⟩

/-- `Matrix::is_empty`, mod.rs:64-70. -/
def isEmpty (m : Mat α) : Bool :=
  m.body.length == 0 && m.shape == (0, 0) && m.capacity == (0, 0)

/-- `Matrix::from_body`, mod.rs:73-77: no check of the length against the shape. -/
def fromBody (body : List α) (shape : Nat × Nat) : Mat α := ⟨body, shape, shape⟩

/-- `Matrix::export_body` (mod.rs:80-82), `get_body` (85-87), `body_into_iter` (306-308). -/
def getBody (m : Mat α) : List α := m.body

/-- `Matrix::dealloc`, mod.rs:105-108. -/
def dealloc (m : Mat α) : Mat α := { m with capacity := m.shape }

/-- `Matrix::elm`, mod.rs:116-123. -/
def elm (m : Mat α) (i j : Nat) : Run (Except AccessErr α) :=
  if i ≥ m.shape.1 ∨ j ≥ m.shape.2 then some (.error .outOfBounds)
  else m.body[i * m.shape.2 + j]? >>= fun a => some (.ok a)

/-- `*matrix.elm_mut(i, j)? = v`, mod.rs:131-138: the matrix after a write through the returned
reference. -/
def elmSet (m : Mat α) (i j : Nat) (v : α) : Run (Except AccessErr (Mat α)) :=
  if i ≥ m.shape.1 ∨ j ≥ m.shape.2 then some (.error .outOfBounds)
  else if i * m.shape.2 + j < m.body.length then
    some (.ok { m with body := m.body.set (i * m.shape.2 + j) v })
  else none

/-- `Matrix::row`, mod.rs:145-154. -/
def row (m : Mat α) (i : Nat) : Run (Except AccessErr (List α)) :=
  if i ≥ m.shape.1 then some (.error .outOfBounds)
  else do
    let s ← slice m.body (i * m.shape.2) (i * m.shape.2 + m.shape.2)
    some (.ok s)

/-- `matrix.row_as_mut(i)?.copy_from_slice(vs)`, mod.rs:161-170: the matrix after a write of the
whole slice (`copy_from_slice` panics on a length mismatch). -/
def rowSet (m : Mat α) (i : Nat) (vs : List α) : Run (Except AccessErr (Mat α)) :=
  if i ≥ m.shape.1 then some (.error .outOfBounds)
  else do
    let init := i * m.shape.2
    let fin := i * m.shape.2 + m.shape.2
    let s ← slice m.body init fin
    if s.length ≠ vs.length then none
    else some (.ok { m with body := m.body.take init ++ vs ++ m.body.drop fin })

/-- `Matrix::add_row`, mod.rs:178-195. Returns the result and the matrix left behind; line 187
undoes the increment of line 184. -/
def addRow (m : Mat α) (row : List α) : Except UpdateErr Unit × Mat α :=
  if !(row.length == m.shape.2 || m.shape == (0, 0)) then
    (.error .inconsistentLength, m)
  else
    let m1 : Mat α := { m with shape := (m.shape.1 + 1, m.shape.2) }
    if m1.shape.1 > m1.capacity.1 ∨ (m1.shape.2 > m1.capacity.2 ∨ row.length > m1.capacity.2) then
      (.error .overflow, { m1 with shape := (m1.shape.1 - 1, m1.shape.2) })
    else
      (.ok (), { m1 with shape := (m1.shape.1, row.length), body := m1.body ++ row })

/-- `Matrix::add_mut_row`, mod.rs:204-218. Returns the result, the matrix and what is left in the
caller's vector (`Vec::append` empties it). -/
def addMutRow (m : Mat α) (row : List α) : Except UpdateErr Unit × Mat α × List α :=
  if !(row.length == m.shape.2 || m.shape.2 == 0) then
    (.error .inconsistentLength, m, row)
  else if m.shape.1 ≥ m.capacity.1 ∨ m.shape.2 > m.capacity.2 then
    (.error .overflow, m, row)
  else
    (.ok (), { m with shape := (m.shape.1 + 1, row.length), body := m.body ++ row }, [])

/-- `Matrix::del_row`, mod.rs:221-246. Returns the result and the matrix left behind. The bounds
of `drain` are checked by Rust (panic). -/
def delRow (m : Mat α) (i : Nat) : Run (Except DeletionErr (List α) × Mat α) :=
  if i ≥ m.shape.1 then some (.error .outOfBounds, m)
  else if m.shape.1 = 0 then some (.error .empty, m)
  else do
    let shape0 := m.shape.1 - 1
    let init := i * m.shape.2
    let fin := i * m.shape.2 + m.shape.2
    let row ← slice m.body init fin
    let body := m.body.take init ++ m.body.drop fin
    let shape := if shape0 = 0 then (shape0, 0) else (shape0, m.shape.2)
    some (.ok row, dealloc { m with body := body, shape := shape })

/-- The splice loop of `Matrix::add_col`, mod.rs:272-280: `col` is reversed and popped, i.e. its
elements are inserted front to back; inserting past the end of the body panics. -/
def addColLoop (cols : Nat) : Nat → List α → List α → Run (List α)
  | _, [], body => some body
  | i, c :: cs, body =>
    let pos := i * cols + cols - 1
    if pos ≤ body.length then addColLoop cols (i + 1) cs (body.take pos ++ c :: body.drop pos)
    else none

/-- `Matrix::add_col`, mod.rs:259-283. Returns the result, the matrix left behind and what is
left in the caller's vector (popped empty on success). -/
def addCol (m : Mat α) (col : List α) : Run (Except UpdateErr Unit × Mat α × List α) :=
  if col.length = m.shape.1 then some (.error .inconsistentLength, m, col)
  else if m.shape.2 < m.capacity.2 then some (.error .overflow, m, col)
  else do
    let shape := (col.length, m.shape.2 + 1)
    let body ← addColLoop shape.2 0 col m.body
    some (.ok (), { m with body := body, shape := shape }, [])

/-- `Matrix::rows_as_iter`, mod.rs:286-288 (and `rows_as_par_chunks`, 313-315, read in order). -/
def rowsAsIter (m : Mat α) : Run (List (List α)) := chunks m.shape.2 m.body

/-- `Matrix::get_slider`, mod.rs:297-303. -/
def getSlider (m : Mat α) (i rows : Nat) : Run (List (List α)) := do
  let cols := m.shape.2
  let s ← slice m.body (i * cols) (i * cols + rows * cols)
  chunks cols s

/-- `Matrix::flip`, mod.rs:320-331. -/
def flip (m : Mat α) : Run (Except AccessErr (Mat α)) := do
  let flipped ← (List.range m.shape.1).reverse.mapM fun i =>
    (List.range m.shape.2).reverse.mapM fun j => m.elm i j >>= unwrap
  some (.ok (fromBody flipped.flatten m.shape))

/-- `Matrix::row_into_slice`, mod.rs:334-345: the new content of `result` (of which only the
length matters before). -/
def rowIntoSlice (m : Mat α) (i : Nat) (result : List α) : Run (Except OpErr (List α)) :=
  if i ≥ m.shape.1 then some (.error .outOfBounds)
  else if result.length ≠ m.shape.2 then some (.error .inconsistentShape)
  else do
    let s ← slice m.body (i * m.shape.2) (i * m.shape.2 + m.shape.2)
    some (.ok s)

/-- `Matrix::col_into_slice`, mod.rs:357-367: the loop assigns `result[i]` for every row index;
since `result.len() == shape[0]` the new content is the list of assigned values. -/
def colIntoSlice (m : Mat α) (j : Nat) (result : List α) : Run (Except OpErr (List α)) :=
  if j ≥ m.shape.2 then some (.error .outOfBounds)
  else if result.length ≠ m.shape.1 then some (.error .inconsistentShape)
  else do
    let r ← (List.range m.shape.1).mapM fun i => m.body[i * m.shape.2 + j]?
    some (.ok r)

/-- `Matrix::copy_col_into_vec`, mod.rs:370-379. -/
def copyCol (m : Mat α) (j : Nat) : Run (Except OpErr (List α)) :=
  if j ≥ m.shape.2 then some (.error .outOfBounds)
  else do
    let r ← (List.range m.shape.1).mapM fun i => m.body[i * m.shape.2 + j]?
    some (.ok r)

/-- `SliceToMatrix::to_matrix`, mod.rs:782-791. -/
def toMatrix (l : List α) (shape : Nat × Nat) : Except OpErr (Mat α) :=
  if l.length ≠ shape.1 * shape.2 then .error .inconsistentShape else .ok (fromBody l shape)

end Mat

/-! ## `trait SliceOps<T>` for `[T]`, mod.rs:680-776 -/

section SliceOps
variable {α : Type} [BasicOps α]

/-- `add_slice_mut`, mod.rs:698-707: the new content of `self`; on error `self` is unchanged. -/
def addSliceMut (l r : List α) : Except OpErr (List α) :=
  if l.length ≠ r.length then .error .inconsistentShape else .ok (zipUpd BasicOps.addAssign l r)

/-- `add_slice`, mod.rs:710-724. -/
def addSlice (l r : List α) : Except OpErr (List α) :=
  if l.length = 0 then .ok r
  else if l.length ≠ r.length then .error .inconsistentShape
  else .ok (List.zipWith BasicOps.add l r)

/-- `mul_slice_mut`, mod.rs:727-736. -/
def mulSliceMut (l r : List α) : Except OpErr (List α) :=
  if l.length ≠ r.length then .error .inconsistentShape else .ok (zipUpd BasicOps.mulAssign l r)

/-- `SliceOps::mul_slice`, mod.rs:739-749. -/
def mulSliceElt (l r : List α) : Except OpErr (List α) :=
  if l.length ≠ r.length then .error .inconsistentShape
  else .ok (List.zipWith BasicOps.mul l r)

/-- `SliceOps::mul_mut_scalar`, mod.rs:752-758 (also `Matrix::mul_mut_scalar` on a body). -/
def mulMutScalar (l : List α) (s : α) : List α := l.map fun a => BasicOps.mulAssign a s

/-- `SliceOps::div_mut_scalar`, mod.rs:761-767: panics if some division panics. -/
def divMutScalar (l : List α) (s : α) : Run (List α) := l.mapM fun a => BasicOps.divAssign a s

/-- `scalar_prod`, mod.rs:770-775. -/
def scalarProd (l r : List α) : α :=
  (l.zip r).foldl (fun acc p => BasicOps.add acc (BasicOps.mul p.1 p.2)) BasicOps.zero

end SliceOps

namespace Mat
variable {α : Type} [BasicOps α]

/-- The row generator of `Matrix::pad`, mod.rs:392-408, for row ids `rowId .. rowId + n - 1`, with
the not yet drained part of the body. -/
def padLoop (shape : Nat × Nat) (pad : Nat × Nat) : Nat → Nat → List α → Run (List α)
  | 0, _, _ => some []
  | n + 1, rowId, body =>
    let paddedRows := shape.1 + 2 * pad.1
    let paddedCols := shape.2 + 2 * pad.2
    if rowId < pad.1 then do
      let rest ← padLoop shape pad n (rowId + 1) body
      some (List.replicate paddedCols BasicOps.zero ++ rest)
    else if rowId ≥ paddedRows - pad.1 then do
      let rest ← padLoop shape pad n (rowId + 1) body
      some (List.replicate paddedCols BasicOps.zero ++ rest)
    else do
      let (r, body') ← drainFront shape.2 body
      let rest ← padLoop shape pad n (rowId + 1) body'
      some ((List.replicate pad.2 BasicOps.zero ++ r ++ List.replicate pad.2 BasicOps.zero) ++ rest)

/-- `Matrix::pad`, mod.rs:384-411. -/
def pad (m : Mat α) (p : Nat × Nat) : Run (Mat α) := do
  let body ← padLoop m.shape p (m.shape.1 + 2 * p.1) 0 m.body
  some (fromBody body (m.shape.1 + 2 * p.1, m.shape.2 + 2 * p.2))

/-- `Matrix::add_mut`, mod.rs:414-436: the new value of `self`; on error `self` is unchanged. -/
def addMut (m rhs : Mat α) : Except OpErr (Mat α) :=
  if m.shape ≠ rhs.shape ∧ (!m.isEmpty && !rhs.isEmpty) then .error .inconsistentShape
  else if m.isEmpty then .ok ⟨rhs.body, rhs.shape, rhs.capacity⟩
  else if rhs.isEmpty then .ok m
  else .ok { m with body := zipUpd BasicOps.addAssign m.body rhs.body }

/-- `Matrix::add_mut_scalar`, mod.rs:439-443 (never errs). -/
def addMutScalar (m : Mat α) (s : α) : Mat α :=
  { m with body := m.body.map fun a => BasicOps.addAssign a s }

/-- `Matrix::mul_vec` (mod.rs:446-459) and `Matrix::mul_slice` (462-475), which have the same
body. -/
def mulSlice (m : Mat α) (rhs : List α) : Run (Except OpErr (List α)) :=
  if m.shape.2 ≠ rhs.length then some (.error .invalidRHS)
  else do
    let rows ← m.rowsAsIter
    some (.ok (rows.map fun r =>
      (r.zip rhs).foldl (fun acc p => BasicOps.add acc (BasicOps.mul p.1 p.2)) BasicOps.zero))

/-- `Matrix::mul_mut_scalar`, mod.rs:478-482. -/
def mulScalar (m : Mat α) (s : α) : Mat α := { m with body := mulMutScalar m.body s }

/-- `Matrix::div_mut_scalar`, mod.rs:485-489. -/
def divScalar (m : Mat α) (s : α) : Run (Mat α) := do
  let b ← divMutScalar m.body s
  some { m with body := b }

/-- One output row of the convolution, mod.rs:511-531. -/
def convRow (m : Mat α) (kernel : Mat α) (finalCols i : Nat) : Run (List α) := do
  let slider ← m.getSlider i kernel.shape.1
  let krows ← kernel.rowsAsIter
  (slider.zip krows).foldlM (fun acc p => do
    let ws ← windows kernel.shape.2 p.1
    unwrap (addSliceMut acc (ws.map fun section_ => scalarProd section_ p.2)))
    (List.replicate finalCols BasicOps.zero)

/-- `Matrix::convolution`, mod.rs:492-535. -/
def convolution (m : Mat α) (kernel : Mat α) : Run (Except OpErr (Mat α)) :=
  if kernel.shape.1 > m.shape.1 ∨ kernel.shape.2 > m.shape.2 then some (.error .invalidRHS)
  else do
    let k0 ← usub kernel.shape.1 1
    let f0 ← usub m.shape.1 k0
    let k1 ← usub kernel.shape.2 1
    let f1 ← usub m.shape.2 k1
    let rows ← (List.range f0).mapM fun i => convRow m kernel f1 i
    let r ← unwrap (toMatrix rows.flatten (f0, f1))
    some (.ok r)

/-- The inner column loop of `Matrix::block_reduce`, mod.rs:563-571: `its` are the remaining
chunks of the rows of the current slider. -/
def blockCols (f : List α → Run α) : Nat → List (List (List α)) → Run (List α)
  | 0, _ => some []
  | n + 1, its => do
    let heads ← its.mapM List.head?
    let v ← f heads.flatten
    let rest ← blockCols f n (its.map List.tail)
    some (v :: rest)

/-- The outer row loop of `Matrix::block_reduce`, mod.rs:555-572: `rows` are the rows not yet
consumed. -/
def blockRows (f : List α → Run α) (block : Nat × Nat) (nCols : Nat) :
    Nat → List (List α) → Run (List α)
  | 0, _ => some []
  | n + 1, rows => do
    let (sl, rows') ← drainFront block.1 rows
    let its ← sl.mapM (chunks block.2)
    let r ← blockCols f nCols its
    let rest ← blockRows f block nCols n rows'
    some (r ++ rest)

/-- `Matrix::block_reduce`, mod.rs:538-577. The block size is a pair (the only caller passes an
array of two). The user closure may itself panic. `x % 0` panics; `||` short-circuits. -/
def blockReduce (m : Mat α) (block : Nat × Nat) (f : List α → Run α) :
    Run (Except OpErr (Mat α)) :=
  if block.1 = 0 then none
  else if m.shape.1 % block.1 ≠ 0 then some (.error .inconsistentShape)
  else if block.2 = 0 then none
  else if m.shape.2 % block.2 ≠ 0 then some (.error .inconsistentShape)
  else if m.shape.1 < block.1 ∨ m.shape.2 < block.2 then some (.error .inconsistentShape)
  else do
    let rows ← m.rowsAsIter
    let nRows := m.shape.1 / block.1
    let nCols := m.shape.2 / block.2
    let body ← blockRows f block nCols nRows rows
    some (.ok (fromBody body (nRows, nCols)))

/-- The zero-stuffing loop of `Matrix::fractional_upsampling`, mod.rs:594-612. -/
def stuffLoop (finalCols upper bottom left right : Nat) : Nat → List (List α) → Run (List α)
  | 0, _ => some []
  | n + 1, rows => do
    let r ← rows.head?
    let rest ← stuffLoop finalCols upper bottom left right n rows.tail
    some ((List.replicate upper (List.replicate finalCols BasicOps.zero)).flatten
      ++ r.flatMap (fun e => List.replicate left BasicOps.zero ++ [e]
            ++ List.replicate right BasicOps.zero)
      ++ (List.replicate bottom (List.replicate finalCols BasicOps.zero)).flatten
      ++ rest)

/-- Where an element sits in its block, mod.rs:586-589: `dim/2 - 1` for an even block dimension,
`(odd - 1)/2` otherwise. -/
def halfOffset (dim odd : Nat) : Run Nat :=
  if dim % 2 = 0 then usub (dim / 2) 1 else (usub odd 1).map (· / 2)

/-- `Matrix::fractional_upsampling`, mod.rs:581-629. Line 589 uses `block_size[0]` in the odd
case of the column split, line 624 uses `kernel_shape[0]` for both paddings. -/
def fractionalUpsampling (m : Mat α) (block : Nat × Nat) (kernel : Mat α) :
    Run (Except OpErr (Mat α)) := do
  let rows ← m.rowsAsIter
  let upper ← halfOffset block.1 block.1
  let bottom ← (usub block.1 upper) >>= (usub · 1)
  let left ← halfOffset block.2 block.1
  let right ← (usub block.2 left) >>= (usub · 1)
  let fs := (m.shape.1 * block.1, m.shape.2 * block.2)
  let res ← stuffLoop fs.2 upper bottom left right m.shape.1 rows
  if res.length ≠ fs.1 * fs.2 then none
  else
    let matrixRes := fromBody res fs
    if kernel.shape.1 % 2 = 0 ∨ kernel.shape.2 % 2 = 0 then some (.error .invalidRHS)
    else do
      let p ← usub kernel.shape.1 2
      let padded ← matrixRes.pad (p, p)
      let out ← padded.convolution kernel
      let out ← unwrap out
      some (.ok out)

end Mat
end Renplex
