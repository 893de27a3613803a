import Verif.Spec.Training
import Verif.Spec.Layer
import Verif.Spec.Conv
/-!
# Mirrored images and mirrored networks
-/

namespace Renplex

/-- Index `i` of `n`, counted from the other end if `f`. -/
def rev (f : Bool) (n i : Nat) : Nat := if f then n - 1 - i else i

/-- Maps of `r` rows and `c` columns, upside down if `v`, left and right exchanged if `h` (turned by
180° if both). -/
def mirrored {β : Type} (v h : Bool) (r c : Nat) (X : Nat → Nat → β) (i j : Nat) : β :=
  X (rev v r i) (rev h c j)

/-- The place of entry `k` of flattened maps of `r` rows and `c` columns in the mirrored maps. -/
def mirrorIdx (v h : Bool) (r c k : Nat) : Nat :=
  k / (r * c) * (r * c) + (rev v r (k % (r * c) / c) * c + rev h c (k % (r * c) % c))

/-- `x'` is the image `x` (`n` channels of `r` rows and `c` columns), mirrored. -/
def MirrorImage {α : Type} (v h : Bool) (n r c : Nat) (x x' : IOType α) : Prop :=
  ∃ ms ms' X, x = .matrix ms ∧ x' = .matrix ms' ∧ MapsAre ms n r c X
    ∧ MapsAre ms' n r c fun ch => mirrored v h r c (X ch)

/-- `data'` holds the mirrored images of `data` with the same targets. -/
def MirrorData {α : Type} (v h : Bool) (n r c : Nat) (data data' : Dataset α) : Prop :=
  List.Forall₂ (MirrorImage v h n r c) data.inputs data'.inputs ∧ data'.target = data.target

/-- A pooling layer that treats mirrored maps alike: its block function does not change when the
block is mirrored, nor does its interpolation kernel, and the place where up-sampling puts a
derivative is the middle of the block. -/
def MirrorPool {α : Type} (v h : Bool) (l : Reduce α) : Prop :=
  (∀ F : Nat → Nat → α, l.blockFunc (table l.blockSize.1 l.blockSize.2
      (mirrored v h l.blockSize.1 l.blockSize.2 F))
    = l.blockFunc (table l.blockSize.1 l.blockSize.2 F))
  ∧ (∀ k, l.interpKernel.Is 3 3 k → ∀ a, a < 3 → ∀ b, b < 3 → mirrored v h 3 3 k a b = k a b)
  ∧ (v = true → 2 * upOff l.blockSize.1 + 1 = l.blockSize.1)
  ∧ (h = true → 2 * leftOff l.blockSize.1 l.blockSize.2 + 1 = l.blockSize.2)

/-- `ls'` are the layers `ls`, mirrored: convolutional layers with mirrored kernels and pooling
layers as above in any order, up to a `Flatten` layer and a dense layer whose columns are renumbered
accordingly; the same layers after that. -/
inductive MirrorLayers {α : Type} (v h : Bool) : List (Layer α) → List (Layer α) → Prop
  | conv {a a' : Conv α} {nf n p q : Nat} {K : Nat → Nat → Nat → Nat → α} {b : Nat → α} {f : ActFunc}
      {ls ls' : List (Layer α)} (ha : a.Is nf n p q K b f)
      (ha' : a'.Is nf n p q (fun o ch => mirrored v h p q (K o ch)) b f)
      (t : MirrorLayers v h ls ls') : MirrorLayers v h (.conv a :: ls) (.conv a' :: ls')
  | pool {l : Reduce α} {ls ls' : List (Layer α)} (hl : MirrorPool v h l)
      (t : MirrorLayers v h ls ls') : MirrorLayers v h (.reduce l :: ls) (.reduce l :: ls')
  | dense {l : Flatten} {a a' : Dense α} {r c n u : Nat} {V : Nat → Nat → α} {b : Nat → α}
      {f : ActFunc} (hl : l.inputSize = ((r, c), n)) (ha : a.Is u (n * (r * c)) V b f)
      (ha' : a'.Is u (n * (r * c)) (fun j i => V j (mirrorIdx v h r c i)) b f)
      (post : List (Layer α)) :
      MirrorLayers v h (.flatten l :: .dense a :: post) (.flatten l :: .dense a' :: post)

end Renplex
