import Verif.Spec.Training
import Verif.Spec.Layer
import Mathlib.Logic.Equiv.Basic
/-!
# Renumbering the units of a hidden layer
-/

namespace Renplex

/-- `n'` is `n` with the `u` units of the dense layer at position `k` renumbered by `σ`: the rows of
weights and the biases of that layer and the columns of weights of the next layer, which is dense,
are permuted; everything else is the same. -/
def HiddenPerm {α : Type} (σ : Equiv.Perm Nat) (k u : Nat) (n n' : Net α) : Prop :=
  (∀ j, σ j < u ↔ j < u) ∧ 0 < u ∧
  ∃ (pre : List (Layer α)) (a a' b b' : Dense α) (post : List (Layer α)) (m v : Nat)
    (W : Nat → Nat → α) (c : Nat → α) (f : ActFunc) (V : Nat → Nat → α) (d : Nat → α) (g : ActFunc),
    pre.length = k ∧ 0 < m
    ∧ n.layers = pre ++ .dense a :: .dense b :: post
    ∧ n'.layers = pre ++ .dense a' :: .dense b' :: post
    ∧ a.Is u m W c f ∧ a'.Is u m (fun j i => W (σ j) i) (fun j => c (σ j)) f
    ∧ b.Is v u V d g ∧ b'.Is v u (fun j i => V j (σ i)) d g

/-- Units `p` and `q` of the dense layer at position `k`, which has `u` units and is followed by a
dense layer, are twins: same bias, same incoming and same outgoing weights. -/
def Twins {α : Type} (k u p q : Nat) (n : Net α) : Prop :=
  p < u ∧ q < u ∧
  ∃ (pre : List (Layer α)) (a b : Dense α) (post : List (Layer α)) (m v : Nat)
    (W : Nat → Nat → α) (c : Nat → α) (f : ActFunc) (V : Nat → Nat → α) (d : Nat → α) (g : ActFunc),
    pre.length = k ∧ 0 < m
    ∧ n.layers = pre ++ .dense a :: .dense b :: post
    ∧ a.Is u m W c f ∧ b.Is v u V d g
    ∧ c p = c q ∧ (∀ i, i < m → W p i = W q i) ∧ ∀ j, j < v → V j p = V j q

end Renplex
