import Verif.Spec.Still
import Verif.Spec.Symmetry
/-!
# Signs of zeros, conjugates and real numbers in `f32` and `f64`
-/

namespace Renplex
variable {w : Width} {B : Binary} {L : Libm B}

/-- The same number, except that a zero may have the other sign. -/
def Fp.Like (a b : Fp B) : Prop := a = b ∨ a.isZero = true ∧ b.isZero = true

/-- Both parts are the same numbers, up to the signs of zeros. -/
def Cf.Alike (a b : Cf w (Fl L)) : Prop := a.x.fp.Like b.x.fp ∧ a.y.fp.Like b.y.fp

/-- One number is the conjugate of the other, up to the signs of zeros. -/
def Cf.ConjAlike (a b : Cf w (Fl L)) : Prop := a.x.fp.Like b.x.fp ∧ a.y.fp.Like b.y.fp.neg

/-- The imaginary part is zero or NaN. -/
def Cf.Flat (z : Cf w (Fl L)) : Prop := z.y.fp.Null

/-- The same number, with an imaginary part that is zero or NaN. -/
def Cf.SameFlat (a b : Cf w (Fl L)) : Prop := a = b ∧ b.Flat

/-- What is asked of the library functions: `tanh` is odd and `cosh` is even, and the sign of a zero
does not matter to `exp`. -/
structure Libm.Regular (L : Libm B) : Prop where
  exp_zero : L.exp (.zero true) = L.exp (.zero false)
  tanh_neg (a : Fp B) : (L.tanh a.neg).Like (L.tanh a).neg
  tanh_zero (s : Bool) : (L.tanh (.zero s)).isZero = true
  tanh_nan : L.tanh .nan = .nan
  cosh_neg (a : Fp B) : L.cosh a.neg = L.cosh a

/-- The options whose values do not depend on the signs of zeros. -/
def ActFunc.Blind (f : ActFunc) : Prop :=
  f = .none ∨ f = .modZ ∨ f = .ritTanh ∨ f = .ritSigmoid ∨ f = .ritReLU

/-- The options whose derivatives do not depend on them either. -/
def ActFunc.BlindDer (f : ActFunc) : Prop :=
  f = .none ∨ f = .modZ ∨ f = .ritTanh ∨ f = .ritSigmoid

/-- The options that commute with conjugation up to the signs of zeros. -/
def ActFunc.EvenIeee (f : ActFunc) : Prop := f = .none ∨ f = .modZ ∨ f = .ritTanh

/-- The options that keep zero imaginary parts. -/
def ActFunc.KeepsFlat (f : ActFunc) : Prop := f ≠ .ritSigmoid ∧ f ≠ .cardioid

/-- All imaginary parts are zero or NaN. -/
def Mat.IsFlat (m : Mat (Cf w (Fl L))) : Prop := ∀ z ∈ m.body, z.Flat

/-- All imaginary parts are zero or NaN. -/
def IOType.IsFlat : IOType (Cf w (Fl L)) → Prop
  | .scalar v => ∀ z ∈ v, z.Flat
  | .matrix v => ∀ m ∈ v, m.IsFlat

/-- All parameters have imaginary parts that are zero or NaN, and the pooling function keeps such
numbers. -/
def Layer.IsFlat : Layer (Cf w (Fl L)) → Prop
  | .dense d => d.weights.IsFlat ∧ ∀ z ∈ d.biases, z.Flat
  | .conv d => (∀ m ∈ d.kernels.body, m.IsFlat) ∧ ∀ z ∈ d.biases, z.Flat
  | .reduce d => d.interpKernel.IsFlat
      ∧ ∀ v, (∀ z ∈ v, z.Flat) → ∀ y, d.blockFunc v = some y → y.Flat
  | .flatten _ => True

/-- All layers are so. -/
def Net.IsFlat (n : Net (Cf w (Fl L))) : Prop := ∀ d ∈ n.layers, d.IsFlat

/-- All entries are so. -/
def Dataset.IsFlat (d : Dataset (Cf w (Fl L))) : Prop :=
  (∀ x ∈ d.inputs, x.IsFlat) ∧ ∀ x ∈ d.target, x.IsFlat

end Renplex
