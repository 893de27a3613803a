import Verif.Spec.Rounding
import Mathlib.Data.Int.Log
/-!
# IEEE 754 numbers

The primitive types `f32` and `f64`: signed zeros, subnormal numbers, infinities and NaN, with results
rounded to the nearest number, ties to the one with an even last digit. The basic operations and the
square root are fully specified; the library functions (`exp`, `ln`, `cos`, …) are a parameter `Libm`,
since Rust leaves their precision to the platform, and so is the sign of NaN.
-/

namespace Renplex

/-- A binary format: `p` digits, last places `2 ^ kmin` to `2 ^ kmax`. -/
structure Binary where
  p : Nat
  kmin : Int
  kmax : Int
  digits : 2 ≤ p
  small : kmin ≤ -2 * p
  large : 1 ≤ kmax

/-- `f32` -/
def binary32 : Binary := ⟨24, -149, 104, by decide, by decide, by decide⟩
/-- `f64` -/
def binary64 : Binary := ⟨53, -1074, 971, by decide, by decide, by decide⟩

/-- The format of the parts of `Cf32`, `Cf64`. -/
def Width.binary : Width → Binary
  | .w32 => binary32
  | .w64 => binary64

namespace Binary

/-- `m * 2 ^ k` is the way a number is stored: the leading digit is not zero, except for the numbers
with the smallest exponent. -/
def Stored (B : Binary) (m : Nat) (k : Int) : Prop :=
  m < 2 ^ B.p ∧ B.kmin ≤ k ∧ k ≤ B.kmax ∧ (2 ^ (B.p - 1) ≤ m ∨ k = B.kmin)

instance (B : Binary) (m : Nat) (k : Int) : Decidable (B.Stored m k) := by
  unfold Stored; infer_instance

open Classical in
/-- The last place of numbers of the size of `x`. -/
noncomputable def place (B : Binary) (x : ℝ) : Int :=
  if x = 0 then B.kmin else max B.kmin (Int.log 2 x - (B.p - 1))

end Binary

open Classical in
/-- The nearest natural number, the even one of two. -/
noncomputable def roundEven (y : ℝ) : Nat :=
  if y - ⌊y⌋₊ < 1 / 2 then ⌊y⌋₊
  else if 1 / 2 < y - ⌊y⌋₊ then ⌊y⌋₊ + 1
  else if Even ⌊y⌋₊ then ⌊y⌋₊ else ⌊y⌋₊ + 1

/-- The numbers of a format. -/
inductive Fp (B : Binary)
  | nan
  | inf (neg : Bool)
  | num (neg : Bool) (m : Nat) (k : Int) (h : B.Stored m k)
  deriving DecidableEq

namespace Fp
variable {B : Binary}

/-- The real number a finite number stands for; 0 for the others. -/
noncomputable def val : Fp B → ℝ
  | num neg m k _ => (if neg then -1 else 1) * (m * (2 : ℝ) ^ k)
  | _ => 0

/-- Neither infinite nor NaN. -/
def Finite : Fp B → Prop
  | num .. => True
  | _ => False

/-- The sign bit (of NaN: not specified). -/
def negative : Fp B → Bool
  | nan => false
  | inf s => s
  | num s .. => s

/-- Plus or minus zero. -/
def zero (neg : Bool) : Fp B :=
  num neg 0 B.kmin ⟨by positivity, le_rfl, by have := B.small; have := B.large; omega, .inr rfl⟩

/-- The number nearest to `x ≥ 0`, with a sign. A carry out of the highest digit moves to the next
exponent; beyond the largest exponent the result is infinite. -/
noncomputable def ofAbs (neg : Bool) (x : ℝ) : Fp B :=
  let k := B.place x
  let m := roundEven (x / 2 ^ k)
  if h : B.Stored m k then num neg m k h
  else if h : B.Stored (2 ^ (B.p - 1)) (k + 1) then num neg (2 ^ (B.p - 1)) (k + 1) h
  else inf neg

open Classical in
/-- The number nearest to a real number; zero is positive. -/
noncomputable def ofReal (x : ℝ) : Fp B := ofAbs (decide (x < 0)) |x|

/-- Change of sign. -/
def neg : Fp B → Fp B
  | nan => nan
  | inf s => inf (!s)
  | num s m k h => num (!s) m k h

open Classical in
/-- Sum. -/
noncomputable def add : Fp B → Fp B → Fp B
  | nan, _ => nan
  | _, nan => nan
  | inf s, inf t => if s = t then inf s else nan
  | inf s, num .. => inf s
  | num .., inf t => inf t
  | num s m k h, num t m' k' h' =>
    let x := val (num s m k h) + val (num t m' k' h')
    if x = 0 then zero (s && t) else ofReal x

/-- Difference. -/
noncomputable def sub (a b : Fp B) : Fp B := add a (neg b)

open Classical in
/-- Product. -/
noncomputable def mul : Fp B → Fp B → Fp B
  | nan, _ => nan
  | _, nan => nan
  | inf s, inf t => inf (s ^^ t)
  | inf s, num t m _ _ => if m = 0 then nan else inf (s ^^ t)
  | num s m _ _, inf t => if m = 0 then nan else inf (s ^^ t)
  | num s m k h, num t m' k' h' => ofAbs (s ^^ t) |val (num s m k h) * val (num t m' k' h')|

open Classical in
/-- Quotient. -/
noncomputable def div : Fp B → Fp B → Fp B
  | nan, _ => nan
  | _, nan => nan
  | inf _, inf _ => nan
  | inf s, num t .. => inf (s ^^ t)
  | num s .., inf t => zero (s ^^ t)
  | num s m k h, num t m' k' h' =>
    if m' = 0 then if m = 0 then nan else inf (s ^^ t)
    else ofAbs (s ^^ t) |val (num s m k h) / val (num t m' k' h')|

open Classical in
/-- Square root. -/
noncomputable def sqrt : Fp B → Fp B
  | nan => nan
  | inf s => if s then nan else inf s
  | num s m k h => if m = 0 then num s m k h else if s then nan else ofAbs false (Real.sqrt (val (num s m k h)))

open Classical in
/-- `<` -/
noncomputable def lt : Fp B → Fp B → Bool
  | nan, _ => false
  | _, nan => false
  | inf s, inf t => s && !t
  | inf s, num .. => s
  | num .., inf t => !t
  | num s m k h, num t m' k' h' => decide (val (num s m k h) < val (num t m' k' h'))

open Classical in
/-- `==` -/
noncomputable def beq : Fp B → Fp B → Bool
  | nan, _ => false
  | _, nan => false
  | inf s, inf t => s == t
  | inf _, num .. => false
  | num .., inf _ => false
  | num s m k h, num t m' k' h' => decide (val (num s m k h) = val (num t m' k' h'))

/-- `<=` -/
noncomputable def le (a b : Fp B) : Bool := lt a b || beq a b

end Fp

/-- What the platform decides: the library functions and the sign of NaN. -/
structure Libm (B : Binary) where
  exp : Fp B → Fp B
  ln : Fp B → Fp B
  cos : Fp B → Fp B
  sin : Fp B → Fp B
  tanh : Fp B → Fp B
  cosh : Fp B → Fp B
  atan : Fp B → Fp B
  atan2 : Fp B → Fp B → Fp B
  nanNeg : Bool
  /-- how accurate the functions are -/
  u : ℝ

/-- The number type of the format on a platform. -/
structure Fl {B : Binary} (L : Libm B) where
  fp : Fp B

noncomputable section
variable {B : Binary} {L : Libm B}

instance : Scalar (Fl L) where
  add a b := ⟨a.fp.add b.fp⟩
  sub a b := ⟨a.fp.sub b.fp⟩
  mul a b := ⟨a.fp.mul b.fp⟩
  div a b := ⟨a.fp.div b.fp⟩
  neg a := ⟨a.fp.neg⟩
  lit n d := ⟨.ofReal (n / d)⟩
  ofNat n := ⟨.ofReal n⟩
  sq a := ⟨a.fp.mul a.fp⟩
  sqrt a := ⟨a.fp.sqrt⟩
  exp a := ⟨L.exp a.fp⟩
  ln a := ⟨L.ln a.fp⟩
  cos a := ⟨L.cos a.fp⟩
  sin a := ⟨L.sin a.fp⟩
  tanh a := ⟨L.tanh a.fp⟩
  cosh a := ⟨L.cosh a.fp⟩
  atan a := ⟨L.atan a.fp⟩
  atan2 a b := ⟨L.atan2 a.fp b.fp⟩
  pi := ⟨.ofReal Real.pi⟩
  lt a b := a.fp.lt b.fp
  le a b := a.fp.le b.fp
  beq a b := a.fp.beq b.fp
  signNeg a := match a.fp with
    | .nan => L.nanNeg
    | x => x.negative

/-- The number type as a format in the sense of `Spec/Rounding`. -/
def Libm.format (L : Libm B) : Format where
  T := Fl L
  ops := inferInstance
  val a := a.fp.val
  fin a := a.fp.Finite
  u := L.u

/-- A result of a library function that is accurate if it is of moderate size. -/
def Libm.Acc (L : Libm B) (c : Fp B) (x : ℝ) : Prop :=
  L.u * |x| ≤ 1 → c.Finite ∧ |c.val - x| ≤ L.u * (1 + |x|)

/-- The library functions are accurate. -/
structure Libm.Accurate (L : Libm B) : Prop where
  /-- not better than the basic operations -/
  u_ge : (2 : ℝ) ^ (-(B.p : ℤ)) ≤ L.u
  exp {a : Fp B} : a.Finite → L.Acc (L.exp a) (Real.exp a.val)
  ln {a : Fp B} : a.Finite → 0 < a.val → L.Acc (L.ln a) (Real.log a.val)
  cos {a : Fp B} : a.Finite → L.u * |a.val| ≤ 1 → L.Acc (L.cos a) (Real.cos a.val)
  sin {a : Fp B} : a.Finite → L.u * |a.val| ≤ 1 → L.Acc (L.sin a) (Real.sin a.val)
  tanh {a : Fp B} : a.Finite → L.Acc (L.tanh a) (Real.tanh a.val)
  cosh {a : Fp B} : a.Finite → L.Acc (L.cosh a) (Real.cosh a.val)
  atan {a : Fp B} : a.Finite → L.Acc (L.atan a) (Real.arctan a.val)
  atan2 {a b : Fp B} : a.Finite → b.Finite → 0 < b.val ∨ a.val ≠ 0 →
    L.Acc (L.atan2 a b) (Complex.arg ⟨b.val, a.val⟩)

/-- Plus one. -/
def Fp.one : Fp B := .ofReal 1

/-- The values of the library functions at zero, infinity and NaN, and their ranges. -/
structure Libm.Standard (L : Libm B) : Prop where
  exp_nonneg {a : Fp B} : a.Finite → (L.exp a).Finite → 0 ≤ (L.exp a).val
  ln_zero (s : Bool) : L.ln (.zero s) = .inf true
  ln_nonpos {a : Fp B} : a.Finite → a.val ≤ 1 → (L.ln a).val ≤ 0
  cos_zero (s : Bool) : L.cos (.zero s) = .one
  sin_zero (s : Bool) : L.sin (.zero s) = .zero s
  cos_nan : L.cos .nan = .nan
  sin_nan : L.sin .nan = .nan
  atan_nan : L.atan .nan = .nan
  tanh_nan : L.tanh .nan = .nan
  exp_nan : L.exp .nan = .nan
  atan2_zero (s : Bool) : L.atan2 (.zero s) (.zero false) = .zero s
  atan2_nan (a : Fp B) : L.atan2 .nan a = .nan

/-- A correctly rounded function, given its values at the infinities. -/
def Fp.lib (f : ℝ → ℝ) (pos neg : Fp B) : Fp B → Fp B
  | nan => nan
  | inf s => if s then neg else pos
  | num s m k h => ofReal (f (val (num s m k h)))

/-- Plus or minus zero. -/
def Fp.isZero : Fp B → Bool
  | num _ m _ _ => m == 0
  | _ => false

/-- Not a number. -/
def Fp.isNan : Fp B → Bool
  | nan => true
  | _ => false

/-- An example of a platform: correctly rounded library functions (`atan2` of infinities and the signs
of zeros returned by `tanh` and `atan` are not those of the standard). -/
def Libm.rounded (B : Binary) : Libm B where
  exp := Fp.lib Real.exp (.inf false) (.zero false)
  ln a := if a.isZero then .inf true else if a.negative then .nan else Fp.lib Real.log (.inf false) .nan a
  cos := Fp.lib Real.cos .nan .nan
  sin a := if a.isZero then a else Fp.lib Real.sin .nan .nan a
  tanh := Fp.lib Real.tanh .one (.neg .one)
  cosh := Fp.lib Real.cosh (.inf false) (.inf false)
  atan := Fp.lib Real.arctan (.ofReal (Real.pi / 2)) (.ofReal (-(Real.pi / 2)))
  atan2 a b := if a.isNan || b.isNan then .nan else if a.isZero && b.isZero && !b.negative then a else .ofReal (Complex.arg ⟨b.val, a.val⟩)
  nanNeg := false
  u := 2 ^ (-(B.p : ℤ))

end

end Renplex
