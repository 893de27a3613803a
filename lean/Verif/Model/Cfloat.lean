import Verif.Model.Input
/-!
# `Cf32`, `Cf64`: `/repo/src/math/cfloat/mod.rs` and the impls in `/repo/src/math/mod.rs`
-/

namespace Renplex

/-- Which of the two complex types: `Cf32` (`f32` parts) or `Cf64` (`f64` parts). -/
inductive Width | w32 | w64
  deriving DecidableEq, Repr

/-- `struct Cf32` / `struct Cf64`, `/repo/src/math/cfloat/mod.rs:13-23`. `R` stands for the float
type; the index `w` selects the impls that differ. -/
structure Cf (w : Width) (R : Type) where
  x : R
  y : R
  deriving DecidableEq, Repr

namespace Cf
variable {w : Width} {R : Type} [Scalar R]
open Scalar (zero one two lit)

/-- `Default`, cfloat/mod.rs:55-71. -/
def default : Cf w R := ⟨zero, zero⟩
/-- `Complex::new`, math/mod.rs:189-191, 345-347. -/
def new (re im : R) : Cf w R := ⟨re, im⟩
/-- `Complex::newe`, math/mod.rs:193-195, 349-351. -/
def newe (a p : R) : Cf w R := ⟨Scalar.mul a (Scalar.cos p), Scalar.mul a (Scalar.sin p)⟩
/-- `usize_to_complex`, math/mod.rs:197-199, 353-355. -/
def ofUsize (n : Nat) : Cf w R := ⟨Scalar.ofNat n, zero⟩
/-- `unit`, math/mod.rs:201-203, 357-359. -/
def unit : Cf w R := ⟨one, zero⟩
/-- `iunit`, math/mod.rs:205-207, 361-363. -/
def iunit : Cf w R := ⟨zero, one⟩
/-- `re`, math/mod.rs:209-211, 365-367. -/
def re (z : Cf w R) : R := z.x
/-- `im`, math/mod.rs:213-215, 369-371. -/
def im (z : Cf w R) : R := z.y
/-- `norm_sq`, math/mod.rs:221-223, 377-379. -/
def normSq (z : Cf w R) : R := Scalar.add (Scalar.sq z.x) (Scalar.sq z.y)
/-- `norm`, math/mod.rs:217-219, 373-375. -/
def norm (z : Cf w R) : R := Scalar.sqrt (Scalar.add (Scalar.sq z.x) (Scalar.sq z.y))
/-- `phase`: math/mod.rs:225-227 (`Cf32`, `atan2`) and 381-383 (`Cf64`, `(y / x).atan()`). -/
def phase (z : Cf w R) : R :=
  match w with
  | .w32 => Scalar.atan2 z.y z.x
  | .w64 => Scalar.atan (Scalar.div z.y z.x)
/-- `conj`, math/mod.rs:229-231, 385-390. -/
def conj (z : Cf w R) : Cf w R := ⟨z.x, Scalar.neg z.y⟩

/-- `Add`, cfloat/mod.rs:150-159, 284-293 and by reference 232-241, 367-376. -/
def add (a b : Cf w R) : Cf w R := ⟨Scalar.add a.x b.x, Scalar.add a.y b.y⟩
/-- `Sub`, cfloat/mod.rs:161-170, 295-304 and by reference 243-252, 378-387. -/
def sub (a b : Cf w R) : Cf w R := ⟨Scalar.sub a.x b.x, Scalar.sub a.y b.y⟩
/-- `Mul`, cfloat/mod.rs:172-181, 306-315 and by reference 254-263, 389-398. -/
def mul (a b : Cf w R) : Cf w R :=
  ⟨Scalar.sub (Scalar.mul a.x b.x) (Scalar.mul a.y b.y),
   Scalar.add (Scalar.mul a.x b.y) (Scalar.mul a.y b.x)⟩
/-- The denominator `rhs.x.powi(2) + rhs.y.powi(2)`, cfloat/mod.rs:187. -/
def den (b : Cf w R) : R := Scalar.add (Scalar.sq b.x) (Scalar.sq b.y)
/-- `Div`, cfloat/mod.rs:183-196, 317-330 and by reference 265-278, 400-413. -/
def div (a b : Cf w R) : Run (Cf w R) :=
  if Scalar.beq b.den zero then none
  else some
    ⟨Scalar.div (Scalar.add (Scalar.mul a.x b.x) (Scalar.mul a.y b.y)) b.den,
     Scalar.div (Scalar.sub (Scalar.mul a.y b.x) (Scalar.mul a.x b.y)) b.den⟩
/-- `AddAssign`, cfloat/mod.rs:199-204, 333-338. -/
def addAssign (a b : Cf w R) : Cf w R := ⟨Scalar.add a.x b.x, Scalar.add a.y b.y⟩
/-- `SubAssign`, cfloat/mod.rs:206-211, 341-346. -/
def subAssign (a b : Cf w R) : Cf w R := ⟨Scalar.sub a.x b.x, Scalar.sub a.y b.y⟩
/-- `MulAssign`, cfloat/mod.rs:213-218, 348-353: the second line reads the already overwritten
`self.x`. -/
def mulAssign (a b : Cf w R) : Cf w R :=
  let x := Scalar.sub (Scalar.mul a.x b.x) (Scalar.mul a.y b.y)
  let y := Scalar.add (Scalar.mul x b.y) (Scalar.mul a.y b.x)
  ⟨x, y⟩
/-- `DivAssign`, cfloat/mod.rs:220-229, 355-364: same. -/
def divAssign (a b : Cf w R) : Run (Cf w R) :=
  if Scalar.beq b.den zero then none
  else
    let x := Scalar.div (Scalar.add (Scalar.mul a.x b.x) (Scalar.mul a.y b.y)) b.den
    let y := Scalar.div (Scalar.sub (Scalar.mul a.y b.x) (Scalar.mul x b.y)) b.den
    some ⟨x, y⟩

/-- `PartialOrd::ge`, cfloat/mod.rs:74-79, 111-116. -/
def ge (a b : Cf w R) : Bool := Scalar.le b.normSq a.normSq
/-- `PartialOrd::gt`, cfloat/mod.rs:81-86, 118-123. -/
def gt (a b : Cf w R) : Bool := Scalar.lt b.normSq a.normSq
/-- `PartialOrd::le`, cfloat/mod.rs:88-93, 125-130. -/
def le (a b : Cf w R) : Bool := Scalar.le a.normSq b.normSq
/-- `PartialOrd::lt`, cfloat/mod.rs:95-100, 132-137. -/
def lt (a b : Cf w R) : Bool := Scalar.lt a.normSq b.normSq
/-- `PartialEq` (derived), cfloat/mod.rs:13, 19. -/
def eq (a b : Cf w R) : Bool := Scalar.beq a.x b.x && Scalar.beq a.y b.y
/-- `PartialOrd::partial_cmp`, cfloat/mod.rs:102-107, 139-144, with the standard definition of
`partial_cmp` on floats. -/
def partialCmp (a b : Cf w R) : Option Ordering :=
  match Scalar.le a.normSq b.normSq, Scalar.le b.normSq a.normSq with
  | false, false => none
  | false, true => some .gt
  | true, false => some .lt
  | true, true => some .eq

end Cf

/-- `BasicOperations` for `Cf32`, `Cf64`. -/
instance {w : Width} {R : Type} [Scalar R] : BasicOps (Cf w R) where
  zero := Cf.default
  add := Cf.add
  sub := Cf.sub
  mul := Cf.mul
  div := Cf.div
  addAssign := Cf.addAssign
  subAssign := Cf.subAssign
  mulAssign := Cf.mulAssign
  divAssign := Cf.divAssign
  gt := Cf.gt

/-- `impl Real for f32/f64`, math/mod.rs:43-99. -/
instance {R : Type} [Scalar R] : RealOps R where
  runit := Scalar.one
  ofUsize := Scalar.ofNat

end Renplex
