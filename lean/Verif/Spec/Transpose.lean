import Verif.Spec.Mirror
/-!
# Transposed images and transposed networks
-/

namespace Renplex

/-- Rows and columns exchanged. -/
def transposed {β : Type} (X : Nat → Nat → β) (i j : Nat) : β := X j i

/-- The place of entry `k` of flattened maps of `c` rows and `r` columns in the transposed maps, of `r` rows and `c`
columns. -/
def transIdx (r c k : Nat) : Nat :=
  k / (c * r) * (r * c) + (k % (c * r) % r * c + k % (c * r) / r)

/-- `x'` is the image `x` (`n` channels of `r` rows and `c` columns), transposed. -/
def TransImage {α : Type} (n r c : Nat) (x x' : IOType α) : Prop :=
  ∃ ms ms' X, x = .matrix ms ∧ x' = .matrix ms' ∧ MapsAre ms n r c X
    ∧ MapsAre ms' n c r fun ch => transposed (X ch)

/-- `data'` holds the transposed images of `data` with the same targets. -/
def TransData {α : Type} (n r c : Nat) (data data' : Dataset α) : Prop :=
  List.Forall₂ (TransImage n r c) data.inputs data'.inputs ∧ data'.target = data.target

/-- Where up-sampling puts a derivative in blocks of `p` rows and `q` columns is transposed with the block. -/
def TransOff (p q : Nat) : Prop := leftOff p q = upOff q ∧ leftOff q p = upOff p

/-- `l'` is the pooling layer `l`, transposed: the blocks, the block function and the interpolation kernel. -/
def TransPool {α : Type} (l l' : Reduce α) : Prop :=
  l'.blockSize = (l.blockSize.2, l.blockSize.1) ∧ l'.inputFeaturesLen = l.inputFeaturesLen
  ∧ (∀ F : Nat → Nat → α, l'.blockFunc (table l.blockSize.2 l.blockSize.1 (transposed F))
    = l.blockFunc (table l.blockSize.1 l.blockSize.2 F))
  ∧ (∀ k, l.interpKernel.Is 3 3 k → l'.interpKernel.Is 3 3 (transposed k))
  ∧ TransOff l.blockSize.1 l.blockSize.2

/-- `ls'` are the layers `ls`, transposed: convolutional layers with transposed kernels and transposed pooling layers in
any order, up to a `Flatten` layer and a dense layer whose columns are renumbered accordingly; the same layers after
that. -/
inductive TransLayers {α : Type} : List (Layer α) → List (Layer α) → Prop
  | conv {a a' : Conv α} {nf n p q : Nat} {K : Nat → Nat → Nat → Nat → α} {b : Nat → α} {f : ActFunc}
      {ls ls' : List (Layer α)} (ha : a.Is nf n p q K b f)
      (ha' : a'.Is nf n q p (fun o ch => transposed (K o ch)) b f)
      (t : TransLayers ls ls') : TransLayers (.conv a :: ls) (.conv a' :: ls')
  | pool {l l' : Reduce α} {ls ls' : List (Layer α)} (hl : TransPool l l')
      (t : TransLayers ls ls') : TransLayers (.reduce l :: ls) (.reduce l' :: ls')
  | dense {l l' : Flatten} {a a' : Dense α} {r c n u : Nat} {V : Nat → Nat → α} {b : Nat → α}
      {f : ActFunc} (hl : l.inputSize = ((r, c), n)) (hl' : l'.inputSize = ((c, r), n))
      (ha : a.Is u (n * (r * c)) V b f)
      (ha' : a'.Is u (n * (c * r)) (fun j i => V j (transIdx r c i)) b f)
      (post : List (Layer α)) :
      TransLayers (.flatten l :: .dense a :: post) (.flatten l' :: .dense a' :: post)

end Renplex
