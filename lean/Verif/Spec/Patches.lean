import Verif.Spec.LeastSquares
/-!
# Specification vocabulary for training on the patches of images
-/

namespace Renplex
variable {w : Width}

/-- The patch of `p` rows and `q` columns of all maps, with its first entry at row `i` and column `j`. -/
noncomputable def patchAt (p q i j : Nat) : IOType (Cf w ℝ) → IOType (Cf w ℝ)
  | .matrix ms => .matrix (ms.map fun m => Mat.fromBody
      (table p q fun a b => m.body.getD ((i + a) * m.shape.2 + (j + b)) 0) (p, q))
  | .scalar v => .scalar v

/-- Of a vector that lists `nf` maps of `R` rows and `C` columns: the entries of all maps at row `i` and
column `j`. -/
noncomputable def pixelAt (nf R C i j : Nat) (t : List (Cf w ℝ)) : List (Cf w ℝ) :=
  (List.range nf).map fun o => t.getD (o * (R * C) + (i * C + j)) 0

/-- The patches of an image with the targets at their places. -/
noncomputable def patchesOf (nf p q r c : Nat) (x : IOType (Cf w ℝ) × List (Cf w ℝ)) : List (IOType (Cf w ℝ) × List (Cf w ℝ)) :=
  table (r - p + 1) (c - q + 1) fun i j =>
    (patchAt p q i j x.1, pixelAt nf (r - p + 1) (c - q + 1) i j x.2)

/-- All patches of all images. -/
noncomputable def allPatches (nf p q r c : Nat) (pts : List (IOType (Cf w ℝ) × List (Cf w ℝ))) :
    List (IOType (Cf w ℝ) × List (Cf w ℝ)) :=
  pts.flatMap (patchesOf nf p q r c)

/-- A convolutional layer and the flattening of its maps. -/
def imageNet (nf R C : Nat) (l : Conv (Cf w ℝ)) : Net (Cf w ℝ) := ⟨[.conv l, .flatten ⟨((R, C), nf)⟩]⟩

/-- The flattening of a patch, as the only layer before a dense one. -/
def patchFront (n p q : Nat) : List (Layer (Cf w ℝ)) := [.flatten ⟨((p, q), n)⟩]

/-- The dense layer has one unit per filter, with the entries of its kernels as weights. -/
def SameWeights (nf n p q : Nat) (f : ActFunc) (l : Conv (Cf w ℝ)) (d : Dense (Cf w ℝ)) : Prop :=
  ∃ (K : Nat → Nat → Nat → Nat → Cf w ℝ) (b : Nat → Cf w ℝ) (W : Nat → Nat → Cf w ℝ),
    l.Is nf n p q K b f ∧ d.Is nf (n * (p * q)) W b f
    ∧ ∀ o, o < nf → ∀ ch, ch < n → ∀ a, a < p → ∀ e, e < q → W o (ch * (p * q) + (a * q + e)) = K o ch a e

/-- Kernels that fit into the images, images and target vectors of the right size, and an activation
function whose values and derivatives are never computed with a panic. -/
structure ImageSetting (w : Width) (nf n p q r c : Nat) (f : ActFunc) : Prop where
  filters : 0 < nf
  channels : 0 < n
  rows : 1 ≤ p ∧ p ≤ r
  cols : 1 ≤ q ∧ q ≤ c
  value : ∀ z : Cf w ℝ, ∃ y, CplxOps.activate f z = some y
  deriv : ∀ z : Cf w ℝ, ∃ y, CplxOps.dActivate f z = some y
  derivConj : ∀ z : Cf w ℝ, ∃ y, CplxOps.dConjActivate f z = some y

/-- Images of `n` maps of `r` rows and `c` columns, with as many targets as the filters give outputs. -/
def Images (nf n p q r c : Nat) (pts : List (IOType (Cf w ℝ) × List (Cf w ℝ))) : Prop :=
  ∀ x ∈ pts, x.1.HasSize (.maps n r c) ∧ x.2.length = nf * ((r - p + 1) * (c - q + 1))

/-- A convolutional layer of `nf` filters with `p × q` kernels on `n` maps, without activation function. -/
def Conv.Linear (l : Conv (Cf w ℝ)) (nf n p q : Nat) : Prop :=
  ∃ (K : Nat → Nat → Nat → Nat → Cf w ℝ) (b : Nat → Cf w ℝ), l.Is nf n p q K b .none

/-- The squared Euclidean distance of the parameters of two convolutional layers of the same shape. -/
noncomputable def Conv.distSq (l l' : Conv (Cf w ℝ)) : ℝ :=
  (List.zipWith (fun k k' => (List.zipWith (fun a b => ‖a.toC - b.toC‖ ^ 2) k.body k'.body).sum)
      l.kernels.body l'.kernels.body).sum
    + (List.zipWith (fun a b => ‖a.toC - b.toC‖ ^ 2) l.biases l'.biases).sum

/-- A training run: `L T` is the convolutional layer after `T` training calls with the images and the learning
rate `s`, starting with `L 0`, and `e T` is the summed squared error on the images at that time. -/
structure ImageRun (nf n p q r c : Nat) (pts : List (IOType (Cf w ℝ) × List (Cf w ℝ))) (f : LossFunc) (s : ℝ)
    (L : Nat → Conv (Cf w ℝ)) (e : Nat → ℝ) : Prop where
  linear : ∀ T : Nat, (L T).Linear nf n p q
  train : ∀ T : Nat, (imageNet nf (r - p + 1) (c - q + 1) (L 0)).train (List.replicate T (batchOf pts, f, ⟨s, 0⟩))
    = some (imageNet nf (r - p + 1) (c - q + 1) (L T))
  error : ∀ T : Nat, BatchError (imageNet nf (r - p + 1) (c - q + 1) (L T)) pts (e T)

/-- No choice of kernels and biases has a smaller error than `e`. -/
def LeastImageError (nf n p q r c : Nat) (pts : List (IOType (Cf w ℝ) × List (Cf w ℝ))) (e : ℝ) : Prop :=
  ∀ (l : Conv (Cf w ℝ)) (e' : ℝ), l.Linear nf n p q →
    BatchError (imageNet nf (r - p + 1) (c - q + 1) l) pts e' → e ≤ e'

/-- The learning rate multiplied by a number. -/
noncomputable def timesRate (k : Nat) (lr : Cf w ℝ) : Cf w ℝ := ⟨lr.x * k, lr.y * k⟩

end Renplex
