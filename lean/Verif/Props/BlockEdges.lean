import Verif.Props.MatrixOps
/-!
# C15, C16: blocks without rows or columns
-/

namespace Renplex
variable {α : Type}

/-- C15. Blocks without columns: `block_reduce` panics (remainder by zero), unless the height of the blocks does
not divide the matrix, which is found out first. -/
theorem C15_zero_cols (m : Mat α) (p : Nat) (hp : 0 < p) (bf : List α → Run α) :
    (p ∣ m.shape.1 → m.blockReduce (p, 0) bf = none)
      ∧ (¬ p ∣ m.shape.1 → m.blockReduce (p, 0) bf = some (.error .inconsistentShape)) := by
  unfold Mat.blockReduce
  simp only
  rw [if_neg (by omega)]
  constructor
  · intro h
    rw [if_neg (by simp [Nat.mod_eq_zero_of_dvd h]), if_pos trivial]
  · intro h
    rw [if_pos (fun h' => h (Nat.dvd_of_mod_eq_zero h'))]

example : (Mat.fromBody [1, 2, 3, 4] (2, 2) : Mat Int).blockReduce (2, 0) (fun _ => some 0) = none := rfl
example : (Mat.fromBody [1, 2, 3, 4] (2, 2) : Mat Int).blockReduce (3, 0) (fun _ => some 0)
    = some (.error .inconsistentShape) := rfl

/-- C16. Blocks without rows or columns make the call panic. -/
theorem C16_zero_block [BasicOps α] (m k : Mat α) (p q : Nat) (h : p = 0 ∨ q = 0) :
    m.fractionalUpsampling (p, q) k = none := by
  have h0 : ∀ o, Mat.halfOffset 0 o = none := fun o => rfl
  unfold Mat.fractionalUpsampling
  rcases h with rfl | rfl
  · simp [h0]
  · simp [h0]

/-- C16. So does a matrix without columns. -/
theorem C16_no_columns [BasicOps α] (m k : Mat α) (block : Nat × Nat) (h : m.shape.2 = 0) :
    m.fractionalUpsampling block k = none := by
  unfold Mat.fractionalUpsampling Mat.rowsAsIter
  rw [h]
  rfl

example : (Mat.fromBody [1, 2] (1, 2) : Mat Int).fractionalUpsampling (2, 0)
    (Mat.fromBody [0, 0, 0, 0, 1, 0, 0, 0, 0] (3, 3)) = none := rfl

end Renplex
