import Verif.Spec.Ieee
import Verif.Spec.Training
/-!
# Parameters that training leaves alone, in `f32` and `f64`
-/

namespace Renplex
variable {w : Width} {B : Binary} {L : Libm B}

/-- Plus or minus zero, or NaN. -/
def Fp.Null (a : Fp B) : Prop := a = .nan ∨ a.Finite ∧ a.val = 0

/-- `a'` is the number `a` (a zero may have changed its sign), unless it is NaN. -/
def Fp.Keeps (a a' : Fp B) : Prop := a' = .nan ∨ a' = a ∨ a.Finite ∧ a'.Finite ∧ a'.val = a.val

/-- Both parts are zero or NaN. -/
def Cf.Null (z : Cf w (Fl L)) : Prop := z.x.fp.Null ∧ z.y.fp.Null

/-- Both parts of `z'` are those of `z`, unless they are NaN. -/
def Cf.Keeps (z z' : Cf w (Fl L)) : Prop := z.x.fp.Keeps z'.x.fp ∧ z.y.fp.Keeps z'.y.fp

/-- The weight of the last digit of a number (0 for infinities and NaN). -/
noncomputable def Fp.lastPlace : Fp B → ℝ
  | .num _ _ k _ => 2 ^ k
  | _ => 0

/-- Both parts are at most `t` in absolute value. -/
def Cf.Below (z : Cf w (Fl L)) (t : ℝ) : Prop := |z.x.fp.val| ≤ t ∧ |z.y.fp.val| ≤ t

/-- The layers are of the same kind, shape and activation, and their parameters are related one by one. -/
def Layer.Paired {α : Type} (R : α → α → Prop) : Layer α → Layer α → Prop
  | .dense l, .dense l' => l'.weights.shape = l.weights.shape ∧ l'.func = l.func
      ∧ List.Forall₂ R l.weights.body l'.weights.body ∧ List.Forall₂ R l.biases l'.biases
  | .conv l, .conv l' => l'.inputFeaturesLen = l.inputFeaturesLen ∧ l'.kernels.shape = l.kernels.shape
      ∧ l'.func = l.func
      ∧ List.Forall₂ (fun k k' => k'.shape = k.shape ∧ List.Forall₂ R (Mat.body k) (Mat.body k'))
        l.kernels.body l'.kernels.body
      ∧ List.Forall₂ R l.biases l'.biases
  | .reduce l, .reduce l' => l' = l
  | .flatten l, .flatten l' => l' = l
  | _, _ => False

/-- Whenever `x` passes through the layers `pre`, entry `i` of the outcome is zero (or NaN). -/
def ZeroAt (pre : List (Layer (Cf w (Fl L)))) (i : Nat) (x : IOType (Cf w (Fl L))) : Prop :=
  ∀ ys, Chain pre x ys → ∀ v, (x :: ys).getLast? = some (.scalar v) → ∀ e, v[i]? = some e → e.Null

/-- Whenever `x` passes through the layers `pre`, both derivatives the code uses for the activation of
unit `j` of the dense layer `l` are zero (or NaN). -/
def FlatAt (pre : List (Layer (Cf w (Fl L)))) (l : Dense (Cf w (Fl L))) (j : Nat)
    (x : IOType (Cf w (Fl L))) : Prop :=
  ∀ ys, Chain pre x ys → ∀ v, (x :: ys).getLast? = some (.scalar v) → ∀ q, l.computeQ v = some q →
    ∀ z, q[j]? = some z → (∀ d, CplxOps.dActivate l.func z = some d → d.Null)
      ∧ ∀ d, CplxOps.dConjActivate l.func z = some d → d.Null

end Renplex
