import Verif.Model.Ops
import Mathlib.Algebra.BigOperators.Group.Finset.Basic
import Mathlib.Algebra.BigOperators.Ring.Finset
/-!
# Exact arithmetic

`LawfulOps α`: the operations the code uses on the element type `α` are those of a commutative
ring. Machine floats do not satisfy it; exact reals and complex numbers do (see `Lemmas/Real`).
-/

namespace Renplex

class LawfulOps (α : Type) [BasicOps α] [CommRing α] : Prop where
  zero_eq : (BasicOps.zero : α) = 0
  add_eq : ∀ a b : α, BasicOps.add a b = a + b
  sub_eq : ∀ a b : α, BasicOps.sub a b = a - b
  mul_eq : ∀ a b : α, BasicOps.mul a b = a * b
  addAssign_eq : ∀ a b : α, BasicOps.addAssign a b = a + b
  subAssign_eq : ∀ a b : α, BasicOps.subAssign a b = a - b

attribute [simp] LawfulOps.zero_eq LawfulOps.add_eq LawfulOps.sub_eq LawfulOps.mul_eq
  LawfulOps.addAssign_eq LawfulOps.subAssign_eq

/-- The integers as an executable instance, used in the examples. Division truncates and panics on
zero, like Rust's integers. -/
instance : BasicOps Int where
  zero := 0
  add := (· + ·)
  sub := (· - ·)
  mul := (· * ·)
  div a b := if b = 0 then none else some (Int.tdiv a b)
  addAssign := (· + ·)
  subAssign := (· - ·)
  mulAssign := (· * ·)
  divAssign a b := if b = 0 then none else some (Int.tdiv a b)
  gt a b := decide (a > b)

instance : LawfulOps Int := ⟨rfl, fun _ _ => rfl, fun _ _ => rfl, fun _ _ => rfl, fun _ _ => rfl,
  fun _ _ => rfl⟩

end Renplex
