import Verif.Spec.Training
import Verif.Spec.Layer
import Mathlib.Logic.Equiv.Basic
/-!
# Renumbering the filters of a convolutional layer
-/

namespace Renplex

/-- The renumbering of a flattened vector made of blocks of length `s`, when the blocks are
renumbered by `σ`. -/
def blockPerm (σ : Nat → Nat) (s k : Nat) : Nat := σ (k / s) * s + k % s

/-- The layers that read the `nf` maps of a convolutional layer, before and after the maps have been
renumbered by `σ`: another convolutional layer, whose channels are permuted, or a `Flatten` layer
with a dense layer, whose blocks of columns are permuted. -/
inductive FilterReader {α : Type} (σ : Equiv.Perm Nat) (nf : Nat) :
    List (Layer α) → List (Layer α) → Prop
  | conv {b b' : Conv α} {v p q : Nat} {K : Nat → Nat → Nat → Nat → α} {c : Nat → α} {f : ActFunc}
      (h : b.Is v nf p q K c f) (h' : b'.Is v nf p q (fun o ch => K o (σ ch)) c f) :
      FilterReader σ nf [.conv b] [.conv b']
  | dense {l : Flatten} {b b' : Dense α} {r s v : Nat} {V : Nat → Nat → α} {c : Nat → α}
      {f : ActFunc} (hl : l.inputSize = ((r, s), nf)) (h : b.Is v (nf * (r * s)) V c f)
      (h' : b'.Is v (nf * (r * s)) (fun j i => V j (blockPerm σ (r * s) i)) c f) :
      FilterReader σ nf [.flatten l, .dense b] [.flatten l, .dense b']

/-- `n'` is `n` with the `nf` filters of the convolutional layer at position `k` renumbered by `σ`:
the kernels and biases of that layer are permuted, and so are the channels or columns of the layer
that reads its maps, with any number of pooling layers in between; everything else is the same. -/
def FilterPerm {α : Type} (σ : Equiv.Perm Nat) (k nf : Nat) (n n' : Net α) : Prop :=
  (∀ j, σ j < nf ↔ j < nf) ∧
  ∃ (pre : List (Layer α)) (a a' : Conv α) (mid : List (Reduce α)) (rd rd' post : List (Layer α))
    (m p q : Nat) (K : Nat → Nat → Nat → Nat → α) (c : Nat → α) (f : ActFunc),
    pre.length = k
    ∧ n.layers = pre ++ .conv a :: (mid.map .reduce ++ (rd ++ post))
    ∧ n'.layers = pre ++ .conv a' :: (mid.map .reduce ++ (rd' ++ post))
    ∧ a.Is nf m p q K c f ∧ a'.Is nf m p q (fun o => K (σ o)) (fun o => c (σ o)) f
    ∧ FilterReader σ nf rd rd'

end Renplex
