import Verif.Spec.Exact
import Verif.Spec.Relate
import Verif.Spec.Network
import Mathlib.Topology.Instances.Real.Lemmas
/-!
# Floating-point arithmetic

`Format` is a number format: a type with the operations of `Scalar`, some of whose elements (the finite
ones) stand for real numbers, and a precision `u`. `Format.Sound` says how far its operations may be
from the exact ones. Every operation may err by `u` absolutely and by `u` relatively, which allows for
rounding, gradual underflow and inexact library functions; nothing is required of results larger than
`1 / u`, of operations on infinities or NaN, of divisions by zero or of the sign of zero. `f32` and
`f64` are of this kind, `u` being a few units in the last place.

`Near l a x` says that the numbers `a k` of the formats are finite and tend to the real number `x`.
`IOType.Within δ`, `Net.Within δ` say that all entries are finite and at most `δ` away.
-/

namespace Renplex

/-- A number format. -/
structure Format where
  /-- the numbers, including infinities and the like -/
  T : Type
  /-- the operations -/
  ops : Scalar T
  /-- the real number a finite number stands for -/
  val : T → ℝ
  fin : T → Prop
  /-- the precision -/
  u : ℝ

instance (F : Format) : Scalar F.T := F.ops

namespace Format

/-- A result that may stand for `x`. -/
def Close (F : Format) (c : F.T) (x : ℝ) : Prop := F.fin c ∧ |F.val c - x| ≤ F.u * (1 + |x|)

/-- A result of moderate size must be close. -/
def Acc (F : Format) (c : F.T) (x : ℝ) : Prop := F.u * |x| ≤ 1 → F.Close c x

/-- The operations on finite numbers are accurate. -/
structure Sound (F : Format) : Prop where
  u_nonneg : 0 ≤ F.u
  add {a b} : F.fin a → F.fin b → F.Acc (Scalar.add a b) (F.val a + F.val b)
  sub {a b} : F.fin a → F.fin b → F.Acc (Scalar.sub a b) (F.val a - F.val b)
  mul {a b} : F.fin a → F.fin b → F.Acc (Scalar.mul a b) (F.val a * F.val b)
  div {a b} : F.fin a → F.fin b → F.val b ≠ 0 → F.Acc (Scalar.div a b) (F.val a / F.val b)
  neg {a} : F.fin a → F.Acc (Scalar.neg a) (-F.val a)
  lit (n : Int) (d : Nat) : d ≠ 0 → F.Acc (Scalar.lit n d) (n / d)
  ofNat (n : Nat) : F.Acc (Scalar.ofNat n) n
  sq {a} : F.fin a → F.Acc (Scalar.sq a) (F.val a ^ 2)
  sqrt {a} : F.fin a → 0 ≤ F.val a → F.Acc (Scalar.sqrt a) (Real.sqrt (F.val a))
  exp {a} : F.fin a → F.Acc (Scalar.exp a) (Real.exp (F.val a))
  ln {a} : F.fin a → F.u ≤ F.val a → 0 < F.val a → F.Acc (Scalar.ln a) (Real.log (F.val a))
  cos {a} : F.fin a → F.u * |F.val a| ≤ 1 → F.Acc (Scalar.cos a) (Real.cos (F.val a))
  sin {a} : F.fin a → F.u * |F.val a| ≤ 1 → F.Acc (Scalar.sin a) (Real.sin (F.val a))
  tanh {a} : F.fin a → F.Acc (Scalar.tanh a) (Real.tanh (F.val a))
  cosh {a} : F.fin a → F.Acc (Scalar.cosh a) (Real.cosh (F.val a))
  atan {a} : F.fin a → F.Acc (Scalar.atan a) (Real.arctan (F.val a))
  atan2 {a b} : F.fin a → F.fin b → 0 < F.val b ∨ F.val a ≠ 0 →
    F.Acc (Scalar.atan2 a b) (Complex.arg ⟨F.val b, F.val a⟩)
  pi : F.Acc Scalar.pi Real.pi
  lt {a b} : F.fin a → F.fin b → (Scalar.lt a b = true ↔ F.val a < F.val b)
  le {a b} : F.fin a → F.fin b → (Scalar.le a b = true ↔ F.val a ≤ F.val b)
  beq {a b} : F.fin a → F.fin b → (Scalar.beq a b = true ↔ F.val a = F.val b)
  signNeg {a} : F.fin a → F.val a ≠ 0 → (Scalar.signNeg a = true ↔ F.val a < 0)

open Classical in
/-- The format that computes exactly and then rounds. -/
noncomputable def ofRound {T : Type} (val : T → ℝ) (rnd : ℝ → T) (u : ℝ) : Format where
  T := T
  val := val
  fin _ := True
  u := u
  ops :=
    { add := fun a b => rnd (val a + val b)
      sub := fun a b => rnd (val a - val b)
      mul := fun a b => rnd (val a * val b)
      div := fun a b => rnd (val a / val b)
      neg := fun a => rnd (-val a)
      lit := fun n d => rnd (n / d)
      ofNat := fun n => rnd n
      sq := fun a => rnd (val a ^ 2)
      sqrt := fun a => rnd (Real.sqrt (val a))
      exp := fun a => rnd (Real.exp (val a))
      ln := fun a => rnd (Real.log (val a))
      cos := fun a => rnd (Real.cos (val a))
      sin := fun a => rnd (Real.sin (val a))
      tanh := fun a => rnd (Real.tanh (val a))
      cosh := fun a => rnd (Real.cosh (val a))
      atan := fun a => rnd (Real.arctan (val a))
      atan2 := fun a b => rnd (Complex.arg ⟨val b, val a⟩)
      pi := rnd Real.pi
      lt := fun a b => decide (val a < val b)
      le := fun a b => decide (val a ≤ val b)
      beq := fun a b => decide (val a = val b)
      signNeg := fun a => decide (val a < 0) }

/-- Fixed-point numbers with step `1 / N`. -/
noncomputable def fixed (N : Nat) : Format :=
  ofRound (fun n : Int => (n : ℝ) / N) (fun x => round (x * N)) (1 / N)

end Format

namespace Rounding

open Filter Topology Relate

variable {ι : Type} (l : Filter ι) {F : ι → Format}

/-- Finite numbers that tend to `x`. -/
def Near (a : ∀ k, (F k).T) (x : ℝ) : Prop :=
  (∀ᶠ k in l, (F k).fin (a k)) ∧ Tendsto (fun k => (F k).val (a k)) l (𝓝 x)

/-- Complex numbers with such parts. -/
def NearC {w : Width} (a : ∀ k, Cf w (F k).T) (z : Cf w ℝ) : Prop :=
  Near l (fun k => (a k).x) z.x ∧ Near l (fun k => (a k).y) z.y

/-- The exact activation does not jump at `z`. -/
def Steady {w : Width} : ActFunc → Cf w ℝ → Prop
  | .none, _ | .ritTanh, _ | .ritReLU, _ | .modZ, _ => True
  | .ritSigmoid, z => |z.x| ≠ Act.sigThreshold w ∧ |z.y| ≠ Act.sigThreshold w
  | .zReLU, z => z.x ≠ 0 ∧ z.y ≠ 0
  | .cardioid, z => match w with
    | .w32 => 0 < z.x ∨ z.y ≠ 0
    | .w64 => z.x ≠ 0

/-- Neither do its derivatives. -/
def SteadyD {w : Width} : ActFunc → Cf w ℝ → Prop
  | .none, _ | .ritTanh, _ => True
  | .ritReLU, z => z.x ≠ 0 ∧ z.y ≠ 0
  | .modZ, z => z.x ≠ 0 ∨ z.y ≠ 0
  | .ritSigmoid, z => |z.x| ≠ Act.sigThreshold w ∧ |z.y| ≠ Act.sigThreshold w
  | .zReLU, z => z.x ≠ 0 ∧ z.y ≠ 0
  | .cardioid, z => match w with
    | .w32 => 0 < z.x ∨ z.y ≠ 0
    | .w64 => z.x ≠ 0

/-- The number of compared entries, if the kinds agree. -/
def pairCount {α : Type} : IOType α → IOType α → Nat
  | .scalar t, .scalar p => min t.length p.length
  | .matrix t, .matrix p => min (t.flatMap Mat.getBody).length (p.flatMap Mat.getBody).length
  | _, _ => 0

/-- The loss does not divide by zero. -/
def LossOk {α : Type} : LossFunc → IOType α → IOType α → Prop
  | .meanSquare, t, p => 2 ≤ pairCount t p
  | .normCrossEntropy, _, _ => True

end Rounding

/-! ## At most `δ` away -/

section within
variable {w : Width} {F : Format}

/-- Finite and at most `δ` away in both parts. -/
def Cf.Within (δ : ℝ) (a : Cf w F.T) (z : Cf w ℝ) : Prop :=
  (F.fin a.x ∧ |F.val a.x - z.x| ≤ δ) ∧ F.fin a.y ∧ |F.val a.y - z.y| ≤ δ

/-- The same for inputs and outputs of layers. -/
abbrev IOType.Within (δ : ℝ) : IOType (Cf w F.T) → IOType (Cf w ℝ) → Prop := IOType.Rel (Cf.Within δ)

/-- The same for layers; the functions of pooling layers are not compared. -/
def Layer.Within (δ : ℝ) : Layer (Cf w F.T) → Layer (Cf w ℝ) → Prop
  | .dense d, .dense e => Mat.Rel (Cf.Within δ) d.weights e.weights
      ∧ List.Forall₂ (Cf.Within δ) d.biases e.biases ∧ d.func = e.func
  | .conv d, .conv e => Mat.Rel (Mat.Rel (Cf.Within δ)) d.kernels e.kernels
      ∧ List.Forall₂ (Cf.Within δ) d.biases e.biases ∧ d.func = e.func
      ∧ d.inputFeaturesLen = e.inputFeaturesLen
  | .reduce d, .reduce e => Mat.Rel (Cf.Within δ) d.interpKernel e.interpKernel
      ∧ d.blockSize = e.blockSize ∧ d.inputFeaturesLen = e.inputFeaturesLen
  | .flatten d, .flatten e => d = e
  | _, _ => False

/-- The same for networks. -/
def Net.Within (δ : ℝ) (n : Net (Cf w F.T)) (n' : Net (Cf w ℝ)) : Prop :=
  List.Forall₂ (Layer.Within δ) n.layers n'.layers

/-- The same for data sets. -/
abbrev Dataset.Within (δ : ℝ) : Dataset (Cf w F.T) → Dataset (Cf w ℝ) → Prop := Dataset.Rel (Cf.Within δ)

/-- The same for a history of training calls with the same losses. -/
def stepsWithin (δ : ℝ) (s : List (TrainStep (Cf w F.T))) (s' : List (TrainStep (Cf w ℝ))) : Prop :=
  List.Forall₂ (fun a b => a.1.Within δ b.1 ∧ a.2.1 = b.2.1 ∧ Cf.Within δ a.2.2 b.2.2) s s'

end within

/-- The mean of a block, the function of the pooling layers of the example program (`avgBlock`). -/
def meanBlock {w : Width} {R : Type} [Scalar R] (block : List (Cf w R)) : Run (Cf w R) :=
  Cf.div (block.foldl Cf.add Cf.default) (Cf.new (Scalar.ofNat block.length) Scalar.zero)

/-- All pooling layers take means. -/
def Net.MeanPools {w : Width} {R : Type} [Scalar R] (n : Net (Cf w R)) : Prop :=
  ∀ d, Layer.reduce d ∈ n.layers → d.blockFunc = meanBlock

end Renplex
