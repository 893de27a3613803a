import Verif.Spec.Network
import Verif.Spec.Loss
/-!
# Specification vocabulary for training
-/

namespace Renplex
variable {α P : Type}

/-- Derivatives (or directions, or accumulated gradients) for one layer: weights and biases. -/
abbrev LayerVec (α : Type) := List α × List α

/-- The chain rule through the layers from last to first, without any accumulation: the derivatives
of each layer that has parameters, `([], [])` for the others. The list pairs every layer with the
activation before it, last layer first; so does the result. -/
def backGrads [CplxOps α P] :
    List (IOType α × Layer α) → List α → List α → Run (List (LayerVec α))
  | [], _, _ => some []
  | (prev, l) :: rest, d, dc =>
    if l.propagates then
      (l.computeDerivatives prev d dc >>= unwrap) >>= fun r =>
        (backGrads rest r.2.2.1 r.2.2.2).map ((r.1, r.2.1) :: ·)
    else (backGrads rest d dc).map (([], []) :: ·)

/-- The derivatives one sample contributes, in the order of the layers. -/
def sampleGrads [CplxOps α P] (n : Net α) (f : LossFunc) (p : IOType α × IOType α) :
    Run (List (LayerVec α)) :=
  (n.collectActs p.1 >>= unwrap) >>= fun acts =>
    acts.reverse.head? >>= fun pred =>
      unwrap (CplxOps.dLoss f p.2 pred) >>= fun dlda =>
        (backGrads (acts.reverse.tail.zip n.layers.reverse) dlda (dlda.map CplxOps.conj)).map
          List.reverse

/-- A vector has one entry per parameter of the layer. -/
def LayerVec.Fits (g : LayerVec α) (l : Layer α) : Prop :=
  if l.propagates then g.1.length = l.paramsLen.1 ∧ g.2.length = l.paramsLen.2 else g = ([], [])

/-- Entry by entry combination of the kernels with a flat vector, kernel by kernel, row by row. -/
def zipKernels (upd : α → α → α) : List (Mat α) → List α → List (Mat α)
  | [], _ => []
  | k :: ks, d =>
    ⟨List.zipWith upd k.body (d.take k.body.length), k.shape, k.capacity⟩
      :: zipKernels upd ks (d.drop k.body.length)

/-- The layer with every parameter `p` replaced by `upd p d`, where `d` is the corresponding entry
of the vector. -/
def Layer.zipParams (upd : α → α → α) : Layer α → LayerVec α → Layer α
  | .dense l, d => .dense ⟨⟨List.zipWith upd l.weights.body d.1, l.weights.shape, l.weights.capacity⟩,
      List.zipWith upd l.biases d.2, l.func⟩
  | .conv l, d => .conv ⟨l.inputFeaturesLen, ⟨zipKernels upd l.kernels.body d.1, l.kernels.shape,
      l.kernels.capacity⟩, List.zipWith upd l.biases d.2, l.func⟩
  | .reduce l, _ => .reduce l
  | .flatten l, _ => .flatten l

/-- The same for all layers of a network. -/
def Net.zipParams (upd : α → α → α) (n : Net α) (ds : List (LayerVec α)) : Net α :=
  ⟨List.zipWith (Layer.zipParams upd) n.layers ds⟩

/-- Entry by entry sum of two vectors. -/
def LayerVec.add [Add α] (a b : LayerVec α) : LayerVec α :=
  (List.zipWith (· + ·) a.1 b.1, List.zipWith (· + ·) a.2 b.2)

/-- The zero vector with one entry per parameter of the layer. -/
def LayerVec.zero [Zero α] (l : Layer α) : LayerVec α :=
  if l.propagates then (List.replicate l.paramsLen.1 0, List.replicate l.paramsLen.2 0) else ([], [])

/-- The sum over a batch of per-sample derivatives, layer by layer. -/
def sumGrads [Add α] [Zero α] (n : Net α) (gss : List (List (LayerVec α))) : List (LayerVec α) :=
  gss.foldl (List.zipWith LayerVec.add) (n.layers.map LayerVec.zero)

/-- The network with all parameters displaced by `s` times the direction `δs`. -/
noncomputable def Net.move {w : Width} (n : Net (Cf w ℝ)) (δs : List (LayerVec (Cf w ℝ))) (s : ℝ) :
    Net (Cf w ℝ) :=
  n.zipParams (fun p d => Cf.ofC (p.toC + s * d.toC)) δs

/-- `Σ gₖ·δₖ` over all parameters of all layers. -/
noncomputable def pairAll {w : Width} (gs δs : List (LayerVec (Cf w ℝ))) : ℂ :=
  (List.zipWith (fun g δ => pairing g.1 δ.1 + pairing g.2 δ.2) gs δs).sum

/-- `gs` are the Wirtinger derivatives of the squared error of the network's prediction for `x` with
respect to all its parameters: in every direction `δs` in parameter space the network still
forwards `x` near the current parameters, and the error `Σ |tᵢ - predᵢ|²` has the derivative
`2·Re Σ gₖ·δₖ`. -/
def IsNetGradient {w : Width} (n : Net (Cf w ℝ)) (x : IOType (Cf w ℝ)) (t : List (Cf w ℝ))
    (gs : List (LayerVec (Cf w ℝ))) : Prop :=
  List.Forall₂ LayerVec.Fits gs n.layers ∧
  ∀ δs, List.Forall₂ LayerVec.Fits δs n.layers → ∃ L : ℝ → ℝ,
    (∀ᶠ s in nhds (0 : ℝ), ∃ p, (n.move δs s).forward x = some (.ok (.scalar p)) ∧ L s = sqSum t p)
      ∧ HasDerivAt L (2 * (pairAll gs δs).re) 0

/-- The values a layer hands to its activation function when it is applied to `prev`, as computed by
`compute_q` (none for layers without one). -/
def Layer.preActs [BasicOps α] : Layer α → IOType α → Run (List α)
  | .dense l, .scalar v => l.computeQ v
  | .conv l, .matrix ms => l.computeQ ms
  | _, _ => some []

/-- The activation option of a layer. -/
def Layer.act : Layer α → ActFunc
  | .dense l => l.func
  | .conv l => l.func
  | _ => .none

/-- `e` is the summed squared error of the network on a batch of inputs and target vectors, all of
which it forwards to vectors. -/
def BatchError {w : Width} (n : Net (Cf w ℝ)) (pts : List (IOType (Cf w ℝ) × List (Cf w ℝ)))
    (e : ℝ) : Prop :=
  ∃ ps, List.Forall₂ (fun q p => n.forward q.1 = some (.ok (.scalar p))) pts ps
    ∧ e = (List.zipWith (fun q p => sqSum q.2 p) pts ps).sum

/-- The squared Euclidean norm of a vector over all parameters. -/
noncomputable def normSqAll {w : Width} (gs : List (LayerVec (Cf w ℝ))) : ℝ :=
  (gs.map fun g => (g.1.map fun z => ‖z.toC‖ ^ 2).sum + (g.2.map fun z => ‖z.toC‖ ^ 2).sum).sum

/-- The displaced layer: all parameters moved by `s` times the direction `δ`. -/
noncomputable def Layer.move {w : Width} (l : Layer (Cf w ℝ)) (δ : LayerVec (Cf w ℝ)) (s : ℝ) :
    Layer (Cf w ℝ) :=
  l.zipParams (fun p d => Cf.ofC (p.toC + s * d.toC)) δ

/-- All scalars of a value, in storage order. -/
def IOType.flat : IOType α → List α
  | .scalar v => v
  | .matrix ms => ms.flatMap Mat.getBody

/-- The value with every scalar `p` replaced by `upd p d`, `d` the corresponding entry of the
vector. -/
def IOType.zipVals (upd : α → α → α) : IOType α → List α → IOType α
  | .scalar v, d => .scalar (List.zipWith upd v d)
  | .matrix ms, d => .matrix (zipKernels upd ms d)

/-- A value displaced by `s` times a direction. -/
noncomputable def IOType.move {w : Width} (x : IOType (Cf w ℝ)) (v : List (Cf w ℝ)) (s : ℝ) :
    IOType (Cf w ℝ) :=
  x.zipVals (fun p d => Cf.ofC (p.toC + s * d.toC)) v

/-- The first `m` scalars of a value as a vector of complex numbers. -/
noncomputable def IOType.toVec {w : Width} (x : IOType (Cf w ℝ)) (m : Nat) : Fin m → ℂ :=
  fun k => (x.flat.getD k ⟨0, 0⟩).toC

/-- The chain rule at one layer. `g` are the Wirtinger derivatives of some loss with respect to the
outputs of the layer at the input `x`; then `γ` are its derivatives with respect to the parameters
of the layer and `gx` those with respect to the input. In detail: for every real-valued function `L`
of the outputs whose differential at the current output is `v ↦ 2·Re Σ gₖ·vₖ`, for every direction
`δ` of the parameters and `v` of the input, the layer still forwards the displaced input near the
current values, and `L` of what it returns has the derivative `2·Re (Σ γₖ·δₖ + Σ gxₖ·vₖ)`. -/
def IsLayerGradient {w : Width} (l : Layer (Cf w ℝ)) (x : IOType (Cf w ℝ)) (g : List (Cf w ℝ))
    (γ : LayerVec (Cf w ℝ)) (gx : List (Cf w ℝ)) : Prop :=
  γ.Fits l ∧ gx.length = x.flat.length ∧
  ∀ y, l.forward x = some (.ok y) →
  ∀ (L : (Fin g.length → ℂ) → ℝ) (L' : (Fin g.length → ℂ) →L[ℝ] ℝ),
    HasFDerivAt L L' (y.toVec g.length) → (∀ v, L' v = 2 * (∑ k, g[k].toC * v k).re) →
  ∀ (δ : LayerVec (Cf w ℝ)) (v : List (Cf w ℝ)), δ.Fits l → v.length = x.flat.length →
    ∃ e : ℝ → ℝ, (∀ᶠ s in nhds (0 : ℝ), ∃ y', (l.move δ s).forward (x.move v s) = some (.ok y')
        ∧ e s = L (y'.toVec g.length))
      ∧ HasDerivAt e (2 * (pairing γ.1 δ.1 + pairing γ.2 δ.2 + pairing gx v).re) 0

/-- The derivatives of the layer's activation never panic; for a pooling layer, the interpolation
kernel is 3 × 3, the block is not of odd width below half its height (always so for square
blocks), and there is at least one map. -/
def Layer.TotalBack [CplxOps α P] : Layer α → Prop
  | .dense l => (∀ z : α, ∃ y, CplxOps.dActivate l.func z = some y)
      ∧ ∀ z : α, ∃ y, CplxOps.dConjActivate l.func z = some y
  | .conv l => (∀ z : α, ∃ y, CplxOps.dActivate l.func z = some y)
      ∧ ∀ z : α, ∃ y, CplxOps.dConjActivate l.func z = some y
  | .reduce l => l.interpKernel.Rect ∧ l.interpKernel.shape = (3, 3)
      ∧ (l.blockSize.2 % 2 = 1 → (l.blockSize.1 - 1) / 2 < l.blockSize.2)
      ∧ 0 < l.inputFeaturesLen
  | .flatten _ => True

/-- A network ready for training on inputs of extent `s` with predictions of extent `s'`: at least
two layers, as the constructors build them, fitting from layer to layer, whose own functions and
derivatives never panic. -/
structure Net.Ready [CplxOps α P] (n : Net α) (s s' : Size) : Prop where
  layers : 2 ≤ n.layers.length
  wf : ∀ l ∈ n.layers, l.WF
  fits : FitsChain n.layers s s'
  total : ∀ l ∈ n.layers, l.Total
  totalBack : ∀ l ∈ n.layers, l.TotalBack

/-- All inputs of a batch have extent `s`, all targets extent `s'`. -/
def Dataset.HasSize (d : Dataset α) (s s' : Size) : Prop :=
  ∀ p ∈ d.points, p.1.HasSize s ∧ p.2.HasSize s'

end Renplex
