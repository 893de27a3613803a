import Verif.Spec.Unitary
import Verif.Spec.Training
/-!
# Mixing the channels of the images
-/

namespace Renplex
variable {w : Width}

/-- Both inputs are images of `r` rows and `c` columns in `m` channels. Every pixel of the second has
the channels of this pixel in the first multiplied by `U`. -/
def MixedImage (m r c : Nat) (U : Nat → Nat → Cf w ℝ) (x x' : IOType (Cf w ℝ)) : Prop :=
  ∃ ms ms' X, x = .matrix ms ∧ x' = .matrix ms' ∧ MapsAre ms m r c X
    ∧ MapsAre ms' m r c fun k i j => ∑ ch ∈ Finset.range m, U k ch * X ch i j

/-- The same targets for mixed images. -/
def MixedData (m r c : Nat) (U : Nat → Nat → Cf w ℝ) (d d' : Dataset (Cf w ℝ)) : Prop :=
  List.Forall₂ (MixedImage m r c U) d.inputs d'.inputs ∧ d'.target = d.target

/-- The same training calls with mixed images. -/
def MixedSteps (m r c : Nat) (U : Nat → Nat → Cf w ℝ) (s s' : List (TrainStep (Cf w ℝ))) : Prop :=
  List.Forall₂ (fun t t' => MixedData m r c U t.1 t'.1 ∧ t'.2 = t.2) s s'

/-- Both networks start with a convolutional layer on `m` channels. At every place the kernels of a filter
in the second network are those in the first times the conjugate transpose of the unitary matrix `U`. -/
def Mixed (m : Nat) (U : Nat → Nat → Cf w ℝ) (n n' : Net (Cf w ℝ)) : Prop :=
  0 < m ∧ Unitary m U ∧ ∃ (a a' : Conv (Cf w ℝ)) (post : List (Layer (Cf w ℝ))) (nf p q : Nat)
    (K : Nat → Nat → Nat → Nat → Cf w ℝ) (b : Nat → Cf w ℝ) (f : ActFunc),
    n.layers = .conv a :: post ∧ n'.layers = .conv a' :: post ∧ a.Is nf m p q K b f
    ∧ a'.Is nf m p q (fun o k x y => ∑ i ∈ Finset.range m, K o i x y * CplxOps.conj (U k i)) b f

/-- The network starts with a convolutional layer of `nf` filters on `m` channels, with `p × q` kernels
`K`, biases `b` and activation `f`. -/
def StartsConv (n : Net (Cf w ℝ)) (nf m p q : Nat) (K : Nat → Nat → Nat → Nat → Cf w ℝ)
    (b : Nat → Cf w ℝ) (f : ActFunc) : Prop :=
  ∃ a post, n.layers = .conv a :: post ∧ a.Is nf m p q K b f

/-- `X` are the channels of an image of `r` rows and `c` columns in the training history. -/
def Shown (m r c : Nat) (steps : List (TrainStep (Cf w ℝ))) (X : Nat → Nat → Nat → Cf w ℝ) : Prop :=
  ∃ s ∈ steps, ∃ p ∈ s.1.points, ∃ ms, p.1 = .matrix ms ∧ MapsAre ms m r c X

end Renplex
