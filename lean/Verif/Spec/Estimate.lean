import Verif.Spec.Rounding
import Verif.Spec.Symmetry
/-!
# Numbers with error bounds

`Est u` is a real number together with a bound for the distance of the number that a format of
precision `u` computes in its place, or `none` if nothing is known. The operations compute exactly and
update the bound (running error analysis). `Mon w u` is the type of complex numbers of this kind with
the operations of the crate; its activations give up (`none`, a panic) where the computed number may
lie on the other side of a case distinction. Running the code of the crate on these numbers yields the
exact results together with bounds for the errors of the floating-point results (C93).
-/

namespace Renplex

/-- An exact value and an error bound of the computed one. -/
structure Est (u : ℝ) where
  val : ℝ
  err : Option ℝ

namespace Est

noncomputable section
open Classical
variable {u : ℝ}

/-- One rounding: of a number at most `e` away from `x`. -/
def bound (u x e : ℝ) : Option ℝ := if u * (|x| + e) ≤ 1 then some (e + u * (1 + |x| + e)) else none

/-- An operation with exact result `x` that amplifies the error to `g` if `G` holds. -/
def op₁ (x : ℝ) (a : Est u) (G : ℝ → Prop) (g : ℝ → ℝ) : Est u :=
  ⟨x, a.err.bind fun e => if G e then bound u x (g e) else none⟩

/-- The same with two operands. -/
def op₂ (x : ℝ) (a b : Est u) (G : ℝ → ℝ → Prop) (g : ℝ → ℝ → ℝ) : Est u :=
  ⟨x, a.err.bind fun e => b.err.bind fun f => if G e f then bound u x (g e f) else none⟩

/-- The computed numbers surely differ. -/
def Apart (a b : Est u) : Prop :=
  a.val ≠ b.val ∧ ∃ e f, a.err = some e ∧ b.err = some f ∧ e + f < |a.val - b.val|

/-- The computed number surely has the sign of the exact one. -/
def Signed (a : Est u) : Prop := ∃ e, a.err = some e ∧ e < |a.val|

/-- How far the argument of the complex number may change if its parts do. -/
def argErr (y x e f : ℝ) : ℝ :=
  sSup {d | ∃ y' x', |y' - y| ≤ e ∧ |x' - x| ≤ f ∧ d = |Complex.arg ⟨x', y'⟩ - Complex.arg ⟨x, y⟩|}

instance : Scalar (Est u) where
  add a b := op₂ (a.val + b.val) a b (fun _ _ => True) fun e f => e + f
  sub a b := op₂ (a.val - b.val) a b (fun _ _ => True) fun e f => e + f
  mul a b := op₂ (a.val * b.val) a b (fun _ _ => True) fun e f => |a.val| * f + |b.val| * e + e * f
  div a b := op₂ (a.val / b.val) a b (fun _ f => f < |b.val|) fun e f =>
    (|a.val| * f + |b.val| * e) / (|b.val| * (|b.val| - f))
  neg a := op₁ (-a.val) a (fun _ => True) id
  lit n d := ⟨n / d, if d = 0 then none else bound u (n / d) 0⟩
  ofNat n := ⟨n, bound u n 0⟩
  sq a := op₁ (a.val ^ 2) a (fun _ => True) fun e => (2 * |a.val| + e) * e
  sqrt a := op₁ (Real.sqrt a.val) a (fun e => e ≤ a.val) Real.sqrt
  exp a := op₁ (Real.exp a.val) a (fun _ => True) fun e => Real.exp a.val * (Real.exp e - 1)
  ln a := op₁ (Real.log a.val) a (fun e => e < a.val ∧ u ≤ a.val - e) fun e => e / (a.val - e)
  cos a := op₁ (Real.cos a.val) a (fun e => u * (|a.val| + e) ≤ 1) id
  sin a := op₁ (Real.sin a.val) a (fun e => u * (|a.val| + e) ≤ 1) id
  tanh a := op₁ (Real.tanh a.val) a (fun _ => True) id
  cosh a := op₁ (Real.cosh a.val) a (fun _ => True) fun e => Real.cosh a.val * (Real.exp e - 1)
  atan a := op₁ (Real.arctan a.val) a (fun _ => True) id
  atan2 a b := op₂ (Complex.arg ⟨b.val, a.val⟩) a b (fun e f => f < b.val ∨ e < |a.val|)
    (argErr a.val b.val)
  pi := ⟨Real.pi, bound u Real.pi 0⟩
  lt a b := decide (a.val < b.val)
  le a b := decide (a.val ≤ b.val)
  beq a b := decide (¬ a.Apart b)
  signNeg a := decide (a.val < 0)

/-- The positive part. -/
def relu (a : Est u) : Est u := ⟨max a.val 0, a.err.map (· + u)⟩

end
end Est

/-- Complex numbers with error bounds. -/
structure Mon (w : Width) (u : ℝ) where
  z : Cf w (Est u)

namespace Mon

noncomputable section
open Classical
variable {w : Width} {u : ℝ}

/-- Whether computed and exact number fall into the same case of the activation. -/
def Sure : ActFunc → Cf w (Est u) → Prop
  | .none, _ | .ritTanh, _ | .modZ, _ | .cardioid, _ => True
  | .ritSigmoid, z => Est.Apart (Act.sigThreshold w) z.x ∧ z.x.Apart (Scalar.neg (Act.sigThreshold w))
      ∧ Est.Apart (Act.sigThreshold w) z.y ∧ z.y.Apart (Scalar.neg (Act.sigThreshold w))
  | .ritReLU, z | .zReLU, z => z.x.Signed ∧ z.y.Signed

/-- The activation; `ritReLU` has no jump. -/
def activate : ActFunc → Mon w u → Run (Mon w u)
  | .ritReLU, a => some ⟨⟨a.z.x.relu, a.z.y.relu⟩⟩
  | f, a => if Sure f a.z then (Act.activate f a.z).map Mon.mk else none

/-- The loss functions take the numbers out. -/
def io : IOType (Mon w u) → IOType (Cf w (Est u))
  | .scalar v => .scalar (v.map Mon.z)
  | .matrix v => .matrix (v.map fun m => ⟨m.body.map Mon.z, m.shape, m.capacity⟩)

instance : CplxOps (Mon w u) (Est u) where
  zero := ⟨BasicOps.zero⟩
  add a b := ⟨BasicOps.add a.z b.z⟩
  sub a b := ⟨BasicOps.sub a.z b.z⟩
  mul a b := ⟨BasicOps.mul a.z b.z⟩
  div a b := (BasicOps.div a.z b.z).map Mon.mk
  addAssign a b := ⟨BasicOps.addAssign a.z b.z⟩
  subAssign a b := ⟨BasicOps.subAssign a.z b.z⟩
  mulAssign a b := ⟨BasicOps.mulAssign a.z b.z⟩
  divAssign a b := (BasicOps.divAssign a.z b.z).map Mon.mk
  gt a b := BasicOps.gt a.z b.z
  unit := ⟨CplxOps.unit⟩
  conj a := ⟨CplxOps.conj a.z⟩
  ofUsize n := ⟨CplxOps.ofUsize n⟩
  activate := activate
  dActivate f a := if Sure f a.z then (Act.dActivate f a.z).map Mon.mk else none
  dConjActivate f a := if Sure f a.z then (Act.dConjActivate f a.z).map Mon.mk else none
  loss f t p := Loss.compute f (io t) (io p)
  dLoss f t p := (Loss.computeD f (io t) (io p)).map fun v => v.map Mon.mk

/-- The exact value. -/
def exact (a : Mon w u) : Cf w ℝ := ⟨a.z.x.val, a.z.y.val⟩

/-- An exact number whose computed counterpart is at most `δ` away in both parts. -/
def of (u δ : ℝ) (z : Cf w ℝ) : Mon w u := ⟨⟨⟨z.x, some δ⟩, ⟨z.y, some δ⟩⟩⟩

/-- The mean of a block. -/
def mean (block : List (Mon w u)) : Run (Mon w u) := (meanBlock (block.map Mon.z)).map Mon.mk

/-- Error bounds for both parts, at most `δ`. -/
def Within (δ : ℝ) (a : Mon w u) : Prop :=
  (∃ e, a.z.x.err = some e ∧ e ≤ δ) ∧ ∃ e, a.z.y.err = some e ∧ e ≤ δ

end
end Mon

section
variable {w : Width} {F : Format}

/-- The bound is a bound. -/
def Est.Covers (a : F.T) (b : Est F.u) : Prop := ∀ e, b.err = some e → F.fin a ∧ |F.val a - b.val| ≤ e

/-- The bounds of both parts are. -/
def Mon.Covers (a : Cf w F.T) (b : Mon w F.u) : Prop := b.z.x.Covers a.x ∧ b.z.y.Covers a.y

/-- The exact value is this one. -/
def Mon.Stands {u : ℝ} (a : Cf w ℝ) (b : Mon w u) : Prop := a = b.exact

end

/-! ## Monitored networks -/

noncomputable section
variable {w : Width} (u δ : ℝ)

/-- The matrix with these error bounds. -/
def Mat.monitor (m : Mat (Cf w ℝ)) : Mat (Mon w u) := ⟨m.body.map (Mon.of u δ), m.shape, m.capacity⟩

/-- The input or output with these error bounds. -/
def IOType.monitor : IOType (Cf w ℝ) → IOType (Mon w u)
  | .scalar v => .scalar (v.map (Mon.of u δ))
  | .matrix v => .matrix (v.map (Mat.monitor u δ))

/-- The layer with these error bounds for the parameters; pooling layers take means. -/
def Layer.monitor : Layer (Cf w ℝ) → Layer (Mon w u)
  | .dense d => .dense ⟨d.weights.monitor u δ, d.biases.map (Mon.of u δ), d.func⟩
  | .conv d => .conv ⟨d.inputFeaturesLen,
      ⟨d.kernels.body.map (Mat.monitor u δ), d.kernels.shape, d.kernels.capacity⟩,
      d.biases.map (Mon.of u δ), d.func⟩
  | .reduce d => .reduce ⟨d.inputFeaturesLen, d.blockSize, Mon.mean, d.interpKernel.monitor u δ⟩
  | .flatten d => .flatten d

/-- The network with these error bounds for the parameters. -/
def Net.monitor (n : Net (Cf w ℝ)) : Net (Mon w u) := ⟨n.layers.map (Layer.monitor u δ)⟩

/-- The data set with these error bounds for the entries. -/
def Dataset.monitor (d : Dataset (Cf w ℝ)) : Dataset (Mon w u) :=
  ⟨d.inputs.map (IOType.monitor u δ), d.target.map (IOType.monitor u δ)⟩

/-- The training calls with these error bounds for data and rates. -/
def monitorSteps (s : List (TrainStep (Cf w ℝ))) : List (TrainStep (Mon w u)) :=
  s.map fun t => (t.1.monitor u δ, t.2.1, Mon.of u δ t.2.2)

variable {u}

/-- All errors are at most `ε`. -/
def IOType.Bounded (ε : ℝ) : IOType (Mon w u) → Prop
  | .scalar v => ∀ a ∈ v, a.Within ε
  | .matrix v => ∀ m ∈ v, ∀ a ∈ m.body, a.Within ε

/-- All errors of the parameters are at most `ε`. -/
def Layer.Bounded (ε : ℝ) : Layer (Mon w u) → Prop
  | .dense d => (∀ a ∈ d.weights.body, a.Within ε) ∧ ∀ a ∈ d.biases, a.Within ε
  | .conv d => (∀ m ∈ d.kernels.body, ∀ a ∈ m.body, a.Within ε) ∧ ∀ a ∈ d.biases, a.Within ε
  | .reduce d => ∀ a ∈ d.interpKernel.body, a.Within ε
  | .flatten _ => True

/-- All errors of the parameters are at most `ε`. -/
def Net.Bounded (ε : ℝ) (n : Net (Mon w u)) : Prop := ∀ d ∈ n.layers, d.Bounded ε

end
end Renplex
