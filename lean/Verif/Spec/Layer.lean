import Verif.Model.Layer
import Verif.Spec.Matrix
/-!
# Specification vocabulary for layers
-/

namespace Renplex

/-- `Draws method s vs s'`: drawing one value after the other with `method`, starting with seed
`s`, gives exactly the values `vs` in this order and leaves the seed `s'`. -/
inductive Draws {α : Type} [GenOps α] (method : InitMethod) : Nat → List α → Nat → Prop
  | nil (s : Nat) : Draws method s [] s
  | cons {s s₁ s' : Nat} {v : α} {vs : List α} (h : GenOps.gen method s = some (v, s₁))
      (t : Draws method s₁ vs s') : Draws method s (v :: vs) s'

/-- A value has the kind and the extent a shape describes: a vector of `n` scalars, resp. `n`
feature maps (of any size: `IOShape` does not record it). -/
def IOType.Matches {α : Type} (x : IOType α) (s : IOShape) : Prop :=
  match x, s with
  | .scalar v, .scalar n => v.length = n
  | .matrix ms, .matrix n => ms.length = n
  | _, _ => False

/-- A dense layer with `u` units on `n` inputs, weights `W j i`, biases `b j` and activation `f`. -/
def Dense.Is {α : Type} (l : Dense α) (u n : Nat) (W : Nat → Nat → α) (b : Nat → α) (f : ActFunc) :
    Prop :=
  l.weights.Is u n W ∧ l.biases = (List.range u).map b ∧ l.func = f

/-- A convolutional layer with `nf` filters on `n` input maps, `p × q` kernels with entries
`K o ch a b` (filter `o`, channel `ch`), biases `b o` and activation `f`. -/
def Conv.Is {α : Type} (l : Conv α) (nf n p q : Nat) (K : Nat → Nat → Nat → Nat → α) (b : Nat → α)
    (f : ActFunc) : Prop :=
  l.inputFeaturesLen = n ∧ l.biases = (List.range nf).map b ∧ l.func = f
    ∧ ∃ M : Nat → Nat → Mat α, l.kernels.Is nf n M
      ∧ ∀ o, o < nf → ∀ ch, ch < n → (M o ch).Is p q (K o ch)

/-- A list of `n` feature maps of size `r × c` with entries `X ch i j`. -/
def MapsAre {α : Type} (maps : List (Mat α)) (n r c : Nat) (X : Nat → Nat → Nat → α) : Prop :=
  maps.length = n ∧ ∀ (ch : Nat) (m : Mat α), maps[ch]? = some m → m.Is r c (X ch)

/-- Sum over `ch < n` of `v ch`, added left to right (`+=`) starting from zero. -/
def accN {α : Type} [BasicOps α] (n : Nat) (v : Nat → α) : α :=
  (List.range n).foldl (fun acc ch => BasicOps.addAssign acc (v ch)) BasicOps.zero

/-- A layer as the constructors build it: storage agrees with the recorded shapes. -/
def Layer.WF {α : Type} : Layer α → Prop
  | .dense l => l.weights.Rect ∧ l.biases.length = l.weights.shape.1
  | .conv l => l.kernels.Rect ∧ l.kernels.shape.2 = l.inputFeaturesLen
      ∧ l.biases.length = l.kernels.shape.1 ∧ (∀ k ∈ l.kernels.body, k.Rect)
      ∧ ∃ s, ∀ k ∈ l.kernels.body, k.shape = s
  | .reduce _ => True
  | .flatten _ => True

end Renplex
