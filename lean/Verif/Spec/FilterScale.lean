import Verif.Spec.Rescale
import Verif.Spec.Layer
import Verif.Lemmas.Exact
/-!
# Scaling and turning the filters of a convolutional layer
-/

namespace Renplex

variable {w : Width}

/-- The block function of a pooling layer passes on a factor common to the entries of its block. -/
def Reduce.Homogeneous (l : Reduce (Cf w ℝ)) : Prop :=
  ∀ (z : Cf w ℝ) (b : List (Cf w ℝ)) (y : Cf w ℝ), b.length = l.blockSize.1 * l.blockSize.2 → l.blockFunc b = some y →
    l.blockFunc (b.map (z * ·)) = some (z * y)

/-- The layers behind a convolutional layer of `nf` filters, before and after map `o` has been multiplied by `t o`:
any number of homogeneous pooling layers, then another convolutional layer or a `Flatten` layer with a dense layer that
divide the factors out, then other layers. `Q` is a condition on networks where a convolutional layer reads the maps. -/
inductive ScaleReader (t : Nat → Cf w ℝ) (nf : Nat) (Q : Prop) : List (Layer (Cf w ℝ)) → List (Layer (Cf w ℝ)) → Prop
  | pool {l : Reduce (Cf w ℝ)} {ls ls' : List (Layer (Cf w ℝ))} (h : l.Homogeneous)
      (hs : ScaleReader t nf Q ls ls') : ScaleReader t nf Q (.reduce l :: ls) (.reduce l :: ls')
  | conv {b b' : Conv (Cf w ℝ)} {v p q : Nat} {K : Nat → Nat → Nat → Nat → Cf w ℝ} {c : Nat → Cf w ℝ} {f : ActFunc}
      (hQ : Q) (h : b.Is v nf p q K c f) (h' : b'.Is v nf p q (fun o ch i j => K o ch i j / t ch) c f)
      (post : List (Layer (Cf w ℝ))) : ScaleReader t nf Q (.conv b :: post) (.conv b' :: post)
  | dense {l : Flatten} {b b' : Dense (Cf w ℝ)} {r s v : Nat} {V : Nat → Nat → Cf w ℝ} {c : Nat → Cf w ℝ}
      {f : ActFunc} (hl : l.inputSize = ((r, s), nf)) (h : b.Is v (nf * (r * s)) V c f)
      (h' : b'.Is v (nf * (r * s)) (fun j i => V j i / t (i / (r * s))) c f) (post : List (Layer (Cf w ℝ))) :
      ScaleReader t nf Q (.flatten l :: .dense b :: post) (.flatten l :: .dense b' :: post)

/-- `n'` is `n` with the kernels and the bias of filter `o` of the convolutional layer at position `k` multiplied by
`s o`, which multiplies its map by `t o`, and with these factors divided out where the maps are read. The layer has
`nf` filters and the activation `f`. -/
def FilterScale (s t : Nat → Cf w ℝ) (k nf : Nat) (f : ActFunc) (Q : Prop) (n n' : Net (Cf w ℝ)) : Prop :=
  (∀ o, f.Passes (s o).toC (t o).toC)
  ∧ ∃ (pre : List (Layer (Cf w ℝ))) (a a' : Conv (Cf w ℝ)) (rd rd' : List (Layer (Cf w ℝ))) (m p q : Nat)
    (K : Nat → Nat → Nat → Nat → Cf w ℝ) (c : Nat → Cf w ℝ), pre.length = k
    ∧ n.layers = pre ++ .conv a :: rd ∧ n'.layers = pre ++ .conv a' :: rd'
    ∧ a.Is nf m p q K c f ∧ a'.Is nf m p q (fun o ch i j => s o * K o ch i j) (fun o => s o * c o) f
    ∧ ScaleReader t nf Q rd rd'

/-- The filters of the layer at position `k` are turned by factors `s` of absolute value one. If a convolutional layer
reads the maps the turned layer has no activation or the factors are one and minus one. -/
def FilterTurn (s : Nat → Cf w ℝ) (k nf : Nat) (f : ActFunc) (n n' : Net (Cf w ℝ)) : Prop :=
  (∀ o, ‖(s o).toC‖ = 1) ∧ FilterScale s s k nf f (f = .none ∨ ∀ o, (s o).y = 0) n n'

end Renplex
