import Verif.Model.Network
import Verif.Spec.Layer
import Verif.Spec.Exact
/-!
# Specification vocabulary for networks
-/

namespace Renplex
variable {α P : Type}

/-- One call that adds a layer to a network. -/
inductive NetOp (α : Type)
  | addInput (l : Layer α)
  | add (l : Layer α)

/-- The result of the call and the network left behind; `none` if the call panics. -/
def NetOp.apply (n : Net α) : NetOp α → Run (Except LayerAdditionErr Unit × Net α)
  | .addInput l => some (n.addInput l)
  | .add l => n.add l

/-- The network after a whole history of calls, whatever each of them returned. -/
def Net.calls (n : Net α) (ops : List (NetOp α)) : Run (Net α) :=
  ops.foldlM (fun n op => (NetOp.apply n op).map (·.2)) n

/-- Consecutive layers fit together and no layer is uninitialised. -/
def Net.Compatible (n : Net α) : Prop :=
  (∀ (i : Nat) (l l' : Layer α), n.layers[i]? = some l → n.layers[i + 1]? = some l' →
    l.outputShape = l'.inputShape)
  ∧ ∀ l ∈ n.layers, l.isEmpty = false

/-- `Chain ls x ys`: passing `x` through the layers one after the other, each forward pass returning
normally, gives the activations `ys`, one per layer. -/
inductive Chain [CplxOps α P] : List (Layer α) → IOType α → List (IOType α) → Prop
  | nil (x : IOType α) : Chain [] x []
  | cons {l : Layer α} {ls : List (Layer α)} {x y : IOType α} {ys : List (IOType α)}
      (h : l.forward x = some (.ok y)) (t : Chain ls y ys) : Chain (l :: ls) x (y :: ys)

/-- The extent of a value: a vector of `n` scalars, or `n` feature maps of `r × c` each. -/
inductive Size
  | vec (n : Nat)
  | maps (n r c : Nat)

/-- A value has this extent. -/
def IOType.HasSize : IOType α → Size → Prop
  | .scalar v, .vec n => v.length = n
  | .matrix ms, .maps n r c => ms.length = n ∧ ∀ m ∈ ms, m.Rect ∧ m.shape = (r, c)
  | _, _ => False

/-- The layer accepts values of extent `s` and turns them into values of extent `s'`: vector
lengths agree, kernels fit, blocks divide the maps, flattened maps have the declared size. -/
def Layer.Fits : Layer α → Size → Size → Prop
  | .dense l, .vec n, .vec u => 0 < n ∧ l.weights.shape = (u, n)
  | .conv l, .maps n r c, .maps nf r' c' => 0 < n ∧ 0 < nf ∧ l.kernels.shape = (nf, n)
      ∧ ∃ p q, (∀ k ∈ l.kernels.body, k.shape = (p, q)) ∧ 1 ≤ p ∧ p ≤ r ∧ 1 ≤ q ∧ q ≤ c
        ∧ r' = r - p + 1 ∧ c' = c - q + 1
  | .reduce l, .maps n r c, .maps n' r' c' => n = n' ∧ n = l.inputFeaturesLen ∧ 0 < r' ∧ 0 < c'
      ∧ 0 < l.blockSize.1 ∧ 0 < l.blockSize.2 ∧ r = r' * l.blockSize.1 ∧ c = c' * l.blockSize.2
  | .flatten l, .maps n r c, .vec u => l.inputSize = ((r, c), n) ∧ u = n * (r * c)
  | _, _, _ => False

/-- The layers fit one after the other, from extent `s` to extent `s'`. -/
inductive FitsChain : List (Layer α) → Size → Size → Prop
  | nil (s : Size) : FitsChain [] s s
  | cons {l : Layer α} {ls : List (Layer α)} {s s₁ s' : Size} (h : l.Fits s s₁)
      (t : FitsChain ls s₁ s') : FitsChain (l :: ls) s s'

/-- The layer's own function never panics: the activation on any value, the block function on any
block of the layer's block size. -/
def Layer.Total [CplxOps α P] : Layer α → Prop
  | .dense l => ∀ z : α, ∃ y, CplxOps.activate l.func z = some y
  | .conv l => ∀ z : α, ∃ y, CplxOps.activate l.func z = some y
  | .reduce l => ∀ b : List α, b.length = l.blockSize.1 * l.blockSize.2 → ∃ y, l.blockFunc b = some y
  | .flatten _ => True

/-- The number of stored weights and biases of a layer. -/
def Layer.stored : Layer α → Nat
  | .dense l => l.weights.body.length + l.biases.length
  | .conv l => (l.kernels.body.map fun k => k.body.length).sum + l.biases.length
  | .reduce _ => 0
  | .flatten _ => 0

/-- One training call: batch, loss and learning rate. -/
abbrev TrainStep (α : Type) := Dataset α × LossFunc × α

/-- The network after a whole history of training calls. -/
def Net.train [CplxOps α P] (n : Net α) (steps : List (TrainStep α)) : Run (Net α) :=
  steps.foldlM (fun n s => (n.gradientOpt s.1 s.2.1 s.2.2).map (·.2)) n

/-- `i` is the first position of a largest modulus in `v`. -/
def FirstLargest {w : Width} (v : List (Cf w ℝ)) (i : Nat) : Prop :=
  ∃ z, v[i]? = some z ∧ (∀ y ∈ v, ‖y.toC‖ ≤ ‖z.toC‖)
    ∧ ∀ (j : Nat) (y : Cf w ℝ), j < i → v[j]? = some y → ‖y.toC‖ < ‖z.toC‖

end Renplex
