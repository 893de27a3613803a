import Verif.Spec.Hidden
import Verif.Lemmas.Exact
/-!
# Rescaling and turning hidden units
-/

namespace Renplex
variable {w : Width}

/-- The factors that pass through an activation: multiplying the argument by `s` multiplies the value
by `t`. -/
def ActFunc.Passes : ActFunc → ℂ → ℂ → Prop
  | .none, s, t => s ≠ 0 ∧ t = s
  | .modZ, s, t => s ≠ 0 ∧ t = s / ‖s‖
  | .ritReLU, s, t => (∃ r : ℝ, 0 < r ∧ s = r) ∧ t = s
  | .zReLU, s, t => (∃ r : ℝ, 0 < r ∧ s = r) ∧ t = s
  | .cardioid, s, t => (∃ r : ℝ, 0 < r ∧ s = r) ∧ t = 1
  | .ritTanh, s, t => s ^ 4 = 1 ∧ t = s
  | .ritSigmoid, s, t => s = 1 ∧ t = 1

/-- Position `k` of the network `n` holds a dense layer of `u` units with `m` inputs, weights `W`,
biases `c` and activation `f`, and the next layer is dense too, with `v` units, weights `V`, biases `d`
and activation `g`. -/
def HiddenPair {α : Type} (n : Net α) (k u m v : Nat) (W : Nat → Nat → α) (c : Nat → α) (f : ActFunc)
    (V : Nat → Nat → α) (d : Nat → α) (g : ActFunc) : Prop :=
  ∃ (pre : List (Layer α)) (a b : Dense α) (post : List (Layer α)), pre.length = k
    ∧ n.layers = pre ++ .dense a :: .dense b :: post ∧ a.Is u m W c f ∧ b.Is v u V d g

/-- `n'` is `n` with every unit `j` of the dense layer at position `k` rescaled: its weights and bias are
multiplied by `s j`, and the weights of the next layer that belong to it are divided by `t j`, where
`s j` and `t j` pass through the activation. Everything else is the same. -/
def HiddenScale (s t : Nat → Cf w ℝ) (k u : Nat) (n n' : Net (Cf w ℝ)) : Prop :=
  0 < u ∧ ∃ (pre : List (Layer (Cf w ℝ))) (a a' b b' : Dense (Cf w ℝ)) (post : List (Layer (Cf w ℝ)))
    (m v : Nat) (W : Nat → Nat → Cf w ℝ) (c : Nat → Cf w ℝ) (f : ActFunc) (V : Nat → Nat → Cf w ℝ)
    (d : Nat → Cf w ℝ) (g : ActFunc),
    pre.length = k ∧ 0 < m ∧ (∀ j, j < u → f.Passes (s j).toC (t j).toC)
    ∧ n.layers = pre ++ .dense a :: .dense b :: post
    ∧ n'.layers = pre ++ .dense a' :: .dense b' :: post
    ∧ a.Is u m W c f ∧ a'.Is u m (fun j i => s j * W j i) (fun j => s j * c j) f
    ∧ b.Is v u V d g ∧ b'.Is v u (fun j i => V j i / t i) d g

/-- The squared norm of the parameters of unit `j`: its `m` weights and its bias. -/
noncomputable def inSq (m : Nat) (W : Nat → Nat → Cf w ℝ) (c : Nat → Cf w ℝ) (j : Nat) : ℝ :=
  (∑ i ∈ Finset.range m, ‖(W j i).toC‖ ^ 2) + ‖(c j).toC‖ ^ 2

/-- The squared norm of the `v` weights with which the next layer receives unit `j`. -/
noncomputable def outSq (v : Nat) (V : Nat → Nat → Cf w ℝ) (j : Nat) : ℝ :=
  ∑ i ∈ Finset.range v, ‖(V i j).toC‖ ^ 2

end Renplex
