import Verif.Spec.Cycle
import Verif.Spec.Rounding
/-!
# Specification vocabulary for rounding errors in long training runs
-/

namespace Renplex
variable {w : Width}

/-- The points of the batches determine the parameters: two layers that make the same predictions on all of them have
the same weights and biases. -/
def Determined (pre : List (Layer (Cf w ℝ))) (u m : Nat) (bs : List (Part w)) : Prop :=
  ∀ l l' : Dense (Cf w ℝ), l.Linear u m → l'.Linear u m →
    (∀ p ∈ bs, ∀ q ∈ p.pts, (withHead pre l).forward q.1 = (withHead pre l').forward q.1) → l.distSq l' = 0

open Classical in
/-- The format that computes exactly except that differences `a - b` with `1 ≤ a` come out larger by `u`. -/
noncomputable def Format.biased (u : ℝ) : Format :=
  { Format.ofRound (T := ℝ) id id u with
    ops := { (Format.ofRound (T := ℝ) id id u).ops with
      sub := fun a b : ℝ => if 1 ≤ a then a - b + u else a - b } }

end Renplex
