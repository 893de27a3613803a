import Verif.Spec.Hidden
import Verif.Lemmas.Exact
/-!
# Hidden units of which all parameters are zero
-/

namespace Renplex
variable {w : Width}

/-- The activation is zero at zero, and has both derivatives there. -/
def ActFunc.Silent (w : Width) (f : ActFunc) : Prop :=
  CplxOps.activate f (0 : Cf w ℝ) = some 0 ∧ (∃ e, CplxOps.dActivate f (0 : Cf w ℝ) = some e)
    ∧ ∃ ec, CplxOps.dConjActivate f (0 : Cf w ℝ) = some ec

/-- The networks differ in the number of units of the dense layer at position `k`, which is `u` in the first
and `u'` in the second; the next layer is dense too. Both have the same units up to unit `u₀`, and in all
further ones the weights, the bias and the weights of the next layer that belong to them are zero. -/
def Padded (u₀ k u u' : Nat) (n n' : Net (Cf w ℝ)) : Prop :=
  0 < u ∧ 0 < u' ∧ u₀ ≤ u ∧ u₀ ≤ u' ∧
  ∃ (pre : List (Layer (Cf w ℝ))) (a a' b b' : Dense (Cf w ℝ)) (post : List (Layer (Cf w ℝ))) (m v : Nat)
    (W : Nat → Nat → Cf w ℝ) (c : Nat → Cf w ℝ) (f : ActFunc) (V : Nat → Nat → Cf w ℝ) (d : Nat → Cf w ℝ) (g : ActFunc),
    pre.length = k ∧ 0 < m ∧ f.Silent w
    ∧ n.layers = pre ++ .dense a :: .dense b :: post
    ∧ n'.layers = pre ++ .dense a' :: .dense b' :: post
    ∧ a.Is u m W c f ∧ a'.Is u' m W c f
    ∧ b.Is v u V d g ∧ b'.Is v u' V d g
    ∧ (∀ j, u₀ ≤ j → c j = 0) ∧ (∀ j, u₀ ≤ j → ∀ i, W j i = 0) ∧ ∀ j, u₀ ≤ j → ∀ i, V i j = 0

end Renplex
