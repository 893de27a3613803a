import Verif.Spec.Still
/-!
# Training that overflows
-/

namespace Renplex
variable {w : Width} {B : Binary} {L : Libm B}

/-- Both parts are plus or minus zero. -/
def Cf.Vanishes (z : Cf w (Fl L)) : Prop :=
  (z.x.fp.Finite ∧ z.x.fp.val = 0) ∧ (z.y.fp.Finite ∧ z.y.fp.val = 0)

/-- Whenever `x` passes through the layers `pre`, all entries of the outcome are zero. -/
def FedZeros (pre : List (Layer (Cf w (Fl L)))) (x : IOType (Cf w (Fl L))) : Prop :=
  ∀ ys, Chain pre x ys → ∀ v, (x :: ys).getLast? = some (.scalar v) → ∀ e ∈ v, e.Vanishes

/-- `T` training calls on the same single point. -/
def onePoint {α : Type} (x t : IOType α) (f : LossFunc) (lr : α) (T : Nat) : List (TrainStep α) :=
  List.replicate T (⟨[x], [t]⟩, f, lr)

end Renplex
