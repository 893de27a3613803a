import Verif.Model.Gen
/-!
# Layers: `/repo/src/cvnn/layer/{dense,conv,reduce,flatten,mod}.rs`
-/

namespace Renplex

/-- `type ComplexDerivatives<T>`, layer/mod.rs:18: `(dldw, dldb, dlda, dlda_conj)`. -/
abbrev Derivs (α : Type) := List α × List α × List α × List α

/-- `struct DenseCLayer<T>`, dense.rs:12-16. -/
structure Dense (α : Type) where
  weights : Mat α
  biases : List α
  func : ActFunc

namespace Dense
variable {α P : Type}

/-- `is_empty`, dense.rs:27-33. -/
def isEmpty (l : Dense α) : Bool := l.weights.shape == (0, 0) || l.biases.length == 0
/-- `propagates`, dense.rs:36-38. -/
def propagates (_ : Dense α) : Bool := true
/-- `params_len`, dense.rs:41-45. -/
def paramsLen (l : Dense α) : Nat × Nat :=
  (l.weights.shape.1 * l.weights.shape.2, l.biases.length)
/-- `get_input_shape`, dense.rs:48-51. -/
def inputShape (l : Dense α) : IOShape := .scalar l.weights.shape.2
/-- `get_output_shape`, dense.rs:54-56. -/
def outputShape (l : Dense α) : IOShape := .scalar l.biases.length

/-- The loops of `init`, dense.rs:80-85: body, biases and seed after `units` rows. -/
def initLoop [BasicOps α] [GenOps α] (method : InitMethod) (inputs : Nat) :
    Nat → Nat → Run (List α × List α × Nat)
  | 0, seed => some ([], [], seed)
  | u + 1, seed => do
    let (row, seed) ← genMany method inputs seed
    let (body, biases, seed) ← initLoop method inputs u seed
    some (row ++ body, BasicOps.zero :: biases, seed)

/-- `init`, dense.rs:67-97: the layer and the advanced seed. -/
def init [BasicOps α] [GenOps α] (shape : IOShape) (units : Nat) (func : ActFunc)
    (method : InitMethod) (seed : Nat) : Run (Except LayerInitErr (Dense α) × Nat) :=
  match shape with
  | .scalar inputs => do
    let (body, biases, seed) ← initLoop method inputs units seed
    some (.ok ⟨Mat.fromBody body (units, inputs), biases, func⟩, seed)
  | .matrix _ => some (.error .invalidInputShape, seed)

/-- `compute_q`, dense.rs:257-262 (and lines 109-116 of `forward`). -/
def computeQ [BasicOps α] (l : Dense α) (input : List α) : Run (List α) := do
  let r ← l.weights.mulSlice input
  let res ← unwrap r
  unwrap (addSliceMut res l.biases)

/-- `forward`, dense.rs:104-126. -/
def forward [CplxOps α P] (l : Dense α) : IOType α → Run (Except LayerForwardErr (IOType α))
  | .scalar input => do
    let res ← l.computeQ input
    let out ← activateMut l.func res
    some (.ok (.scalar out))
  | .matrix _ => some (.error .invalidInput)

/-- The neuron loop of `compute_derivatives`, dense.rs:181-207: accumulators are `dldw`, `dldb`
and `new_dlda`. -/
def derivLoop [BasicOps α] (input : List α) :
    List ((α × α) × List α) → List α × List α × List α → Run (List α × List α × List α)
  | [], acc => some acc
  | ((val, conjVal), row) :: rest, (dldw, dldb, newDlda) => do
    let mult := fun e => BasicOps.mul e (BasicOps.add val conjVal)
    let newDlda ← unwrap (addSliceMut newDlda (row.map mult))
    derivLoop input rest
      (dldw ++ input.map mult, dldb ++ [BasicOps.add val conjVal], newDlda)

/-- `compute_derivatives`, dense.rs:134-215. -/
def computeDerivatives [CplxOps α P] (l : Dense α) (prev : IOType α) (dlda dldaConj : List α) :
    Run (Except GradErr (Derivs α)) :=
  if dlda.length ≠ l.weights.shape.1 then some (.error .inconsistentShape)
  else if dldaConj.length ≠ l.weights.shape.1 then some (.error .inconsistentShape)
  else match prev with
    | .scalar input => do
      let q ← l.computeQ input
      let dldaDadq ← (q.zip dlda).mapM fun p => do
        let d ← CplxOps.dActivate l.func p.1
        some (BasicOps.mul d p.2)
      let dldaConjDaConjDq ← (q.zip dldaConj).mapM fun p => do
        let d ← CplxOps.dConjActivate l.func p.1
        some (BasicOps.mul (CplxOps.conj d) p.2)
      let dqda ← l.weights.rowsAsIter
      let (dldw, dldb, newDlda) ← derivLoop input ((dldaDadq.zip dldaConjDaConjDq).zip dqda)
        ([], [], List.replicate l.weights.shape.2 BasicOps.zero)
      some (.ok (dldw, dldb, newDlda, newDlda.map CplxOps.conj))
    | .matrix _ => none

/-- `neg_conj_adjustment`, dense.rs:223-250: the result and the layer left behind. -/
def negConjAdjustment [CplxOps α P] (l : Dense α) (dldw dldb : List α) :
    Except GradErr Unit × Dense α :=
  if dldb.length ≠ l.biases.length then (.error .inconsistentShape, l)
  else if dldw.length ≠ l.weights.body.length then (.error .inconsistentShape, l)
  else
    let upd := fun (p dp : α) => BasicOps.subAssign p (CplxOps.conj dp)
    (.ok (), { l with
      weights := { l.weights with body := zipUpd upd l.weights.body dldw }
      biases := zipUpd upd l.biases dldb })

end Dense

/-- `struct ConvCLayer<T>`, conv.rs:7-14. -/
structure Conv (α : Type) where
  inputFeaturesLen : Nat
  kernels : Mat (Mat α)
  biases : List α
  func : ActFunc

namespace Conv
variable {α P : Type}

/-- `is_empty`, conv.rs:22-25. -/
def isEmpty (l : Conv α) : Bool := l.kernels.shape == (0, 0)
/-- `propagates`, conv.rs:28-30. -/
def propagates (_ : Conv α) : Bool := true
/-- `params_len`, conv.rs:33-43. -/
def paramsLen (l : Conv α) : Nat × Nat :=
  (l.kernels.body.foldl (fun acc k => acc + k.shape.1 * k.shape.2) 0, l.biases.length)
/-- `get_input_shape`, conv.rs:46-48. -/
def inputShape (l : Conv α) : IOShape := .matrix l.inputFeaturesLen
/-- `get_output_shape`, conv.rs:51-53. -/
def outputShape (l : Conv α) : IOShape := .matrix l.kernels.shape.1

/-- The kernel loops of `init`, conv.rs:80-91: `n` kernels (filters × channels, in order). -/
def initLoop [GenOps α] (method : InitMethod) (ksize : Nat × Nat) :
    Nat → Nat → Run (List (Mat α) × Nat)
  | 0, seed => some ([], seed)
  | n + 1, seed => do
    let (k, seed) ← genMany method (ksize.1 * ksize.2) seed
    let (ks, seed) ← initLoop method ksize n seed
    some (Mat.fromBody k ksize :: ks, seed)

/-- `init`, conv.rs:66-106: the layer and the advanced seed. The two nested kernel-element loops
are one loop of `kernel_size[0] * kernel_size[1]` steps here, the filter and channel loops one of
`filters_len * input_features_len` steps. -/
def init [BasicOps α] [GenOps α] (shape : IOShape) (filters : Nat) (ksize : Nat × Nat)
    (func : ActFunc) (method : InitMethod) (seed : Nat) :
    Run (Except LayerInitErr (Conv α) × Nat) :=
  match shape with
  | .matrix feats => do
    let (ks, seed) ← initLoop method ksize (filters * feats) seed
    some (.ok ⟨feats, Mat.fromBody ks (filters, feats), List.replicate filters BasicOps.zero, func⟩,
      seed)
  | .scalar _ => some (.error .invalidInputShape, seed)

/-- `output_shape`, conv.rs:120-123, 344-347 (and 175-180): panics if there is no kernel or no
input map, or on underflow. -/
def outShape (l : Conv α) (input : List (Mat α)) : Run (Nat × Nat) := do
  let k ← l.kernels.elm 0 0 >>= unwrap
  let f ← input[0]?
  let a ← usub k.shape.1 1
  let o0 ← usub f.shape.1 a
  let b ← usub k.shape.2 1
  let o1 ← usub f.shape.2 b
  some (o0, o1)

/-- One output feature before activation, conv.rs:133-150 and 353-370. -/
def feature [BasicOps α] (out : Nat × Nat) (input : List (Mat α)) (filter : List (Mat α)) (bias : α) :
    Run (Mat α) := do
  let init := Mat.fromBody (List.replicate (out.1 * out.2) BasicOps.zero) out
  let acc ← (input.zip filter).foldlM (fun acc p => do
    let c ← p.1.convolution p.2 >>= unwrap
    unwrap (acc.addMut c)) init
  some (acc.addMutScalar bias)

/-- `forward`, conv.rs:113-161. -/
def forward [CplxOps α P] (l : Conv α) : IOType α → Run (Except LayerForwardErr (IOType α))
  | .matrix input => do
    let out ← l.outShape input
    if l.kernels.shape.2 ≠ input.length then some (.error .invalidInput)
    else do
      let rows ← l.kernels.rowsAsIter
      let feats ← (rows.zip l.biases).mapM fun p => do
        let f ← feature out input p.1 p.2
        let body ← activateMut l.func f.body
        some { f with body := body }
      some (.ok (.matrix feats))
  | .scalar _ => some (.error .invalidInput)

/-- `compute_q`, conv.rs:342-376. -/
def computeQ [BasicOps α] (l : Conv α) (input : List (Mat α)) : Run (List α) := do
  let out ← l.outShape input
  let rows ← l.kernels.rowsAsIter
  let feats ← (rows.zip l.biases).mapM fun p => feature out input p.1 p.2
  some (feats.flatMap Mat.getBody)

/-- State of the filter loop of `compute_derivatives`: remaining `dlda_dadq` and
`dlda_conj_da_conj_dq`, then the accumulators `dldk`, `dldb`, `new_dlda`, `new_dlda_conj`. -/
structure DState (α : Type) where
  val : List α
  conjVal : List α
  dldk : List α
  dldb : List α
  newDlda : List α
  newDldaConj : List α

/-- `oper_a`, conv.rs:230-251: kernel derivatives of one filter and the summands of its bias
derivative. -/
def operA [BasicOps α] (input : List (Mat α)) (feat conjFeat : Mat α) :
    Run (List α × List α) := do
  let parts ← input.mapM fun feature => do
    let t1 ← feature.convolution feat >>= unwrap
    let t2 ← feature.convolution conjFeat >>= unwrap
    let s ← unwrap (t1.addMut t2)
    some s.body
  let b ← unwrap (addSlice feat.body conjFeat.body)
  some (parts.flatten, b)

/-- Half of `oper_b`, conv.rs:265-273 (resp. 275-283): a padded gradient map convolved with every
flipped kernel of a filter. -/
def operB [BasicOps α] (flipped : List (Mat α)) (padded : Mat α) : Run (List α) := do
  let parts ← flipped.mapM fun k => do
    let c ← padded.convolution k >>= unwrap
    some c.body
  some parts.flatten

/-- Body of the filter loop of `compute_derivatives`, conv.rs:218-295. -/
def derivStep [BasicOps α] (input : List (Mat α)) (out : Nat × Nat) (padx pady size : Nat)
    (s : DState α) (filter : List (Mat α)) : Run (DState α) := do
  let (v, val) ← drainFront size s.val
  let feat := Mat.fromBody v out
  let (cv, conjVal) ← drainFront size s.conjVal
  let conjFeat := Mat.fromBody cv out
  let flipped ← filter.mapM fun k => k.flip >>= unwrap
  let padded ← feat.pad (padx, pady)
  let conjPadded ← conjFeat.pad (padx, pady)
  let (dldkF, dldbF) ← operA input feat conjFeat
  let nd ← operB flipped padded
  let ndc ← operB flipped conjPadded
  let db ← reduce BasicOps.add dldbF
  let newDlda ← unwrap (addSliceMut s.newDlda nd)
  let newDldaConj ← unwrap (addSliceMut s.newDldaConj ndc)
  some ⟨val, conjVal, s.dldk ++ dldkF, s.dldb ++ [db], newDlda, newDldaConj⟩

/-- `compute_derivatives`, conv.rs:169-301. -/
def computeDerivatives [CplxOps α P] (l : Conv α) (prev : IOType α) (dlda dldaConj : List α) :
    Run (Except GradErr (Derivs α)) :=
  match prev with
  | .matrix input => do
    let f ← input[0]?
    let k ← l.kernels.elm 0 0 >>= unwrap
    let padx ← usub k.shape.1 1
    let pady ← usub k.shape.2 1
    let o0 ← usub f.shape.1 padx
    let o1 ← usub f.shape.2 pady
    let q ← l.computeQ input
    let dldaDadq ← (q.zip dlda).mapM fun p => do
      let d ← CplxOps.dActivate l.func p.1
      some (BasicOps.mul d p.2)
    let dldaConjDaConjDq ← (q.zip dldaConj).mapM fun p => do
      let d ← CplxOps.dConjActivate l.func p.1
      some (BasicOps.mul (CplxOps.conj d) p.2)
    if l.kernels.shape.1 = 0 then none
    else do
      let size := dldaDadq.length / l.kernels.shape.1
      let n := f.shape.1 * f.shape.2 * input.length
      let filters ← l.kernels.rowsAsIter
      let s ← filters.foldlM (derivStep input (o0, o1) padx pady size)
        ⟨dldaDadq, dldaConjDaConjDq, [], [], List.replicate n BasicOps.zero,
          List.replicate n BasicOps.zero⟩
      some (.ok (s.dldk, s.dldb, s.newDlda, s.newDldaConj))
  | .scalar _ => none

/-- The flattened `iter_mut` over all kernel elements zipped with `dldw`, conv.rs:323-328. -/
def updKernels (upd : α → α → α) : List (Mat α) → List α → List (Mat α)
  | [], _ => []
  | k :: ks, dw =>
    { k with body := zipUpd upd k.body dw } :: updKernels upd ks (dw.drop k.body.length)

/-- `neg_conj_adjustment`, conv.rs:309-335: the result and the layer left behind. -/
def negConjAdjustment [CplxOps α P] (l : Conv α) (dldw dldb : List α) :
    Except GradErr Unit × Conv α :=
  if dldb.length ≠ l.paramsLen.2 then (.error .inconsistentShape, l)
  else if dldw.length ≠ l.paramsLen.1 then (.error .inconsistentShape, l)
  else
    let upd := fun (p dp : α) => BasicOps.subAssign p (CplxOps.conj dp)
    (.ok (), { l with
      kernels := { l.kernels with body := updKernels upd l.kernels.body dldw }
      biases := zipUpd upd l.biases dldb })

end Conv

/-- `struct Reduce<T>`, reduce.rs:5-10. The boxed closure is an arbitrary function, which may
panic. -/
structure Reduce (α : Type) where
  inputFeaturesLen : Nat
  blockSize : Nat × Nat
  blockFunc : List α → Run α
  interpKernel : Mat α

namespace Reduce
variable {α : Type}

/-- `is_empty`, reduce.rs:27-29. -/
def isEmpty (_ : Reduce α) : Bool := false
/-- `propagates`, reduce.rs:32-34. -/
def propagates (_ : Reduce α) : Bool := true
/-- `params_len`, reduce.rs:37-39. -/
def paramsLen (_ : Reduce α) : Nat × Nat := (0, 0)
/-- `get_input_shape`, reduce.rs:42-44. -/
def inputShape (l : Reduce α) : IOShape := .matrix l.inputFeaturesLen
/-- `get_output_shape`, reduce.rs:47-49. -/
def outputShape (l : Reduce α) : IOShape := .matrix l.inputFeaturesLen
/-- `init`, reduce.rs:61-68. -/
def init (n : Nat) (block : Nat × Nat) (f : List α → Run α) (k : Mat α) : Reduce α := ⟨n, block, f, k⟩

/-- `foward`, reduce.rs:75-92. -/
def forward [BasicOps α] (l : Reduce α) : IOType α → Run (Except LayerForwardErr (IOType α))
  | .matrix features => do
    let out ← features.mapM fun f => f.blockReduce l.blockSize l.blockFunc >>= unwrap
    some (.ok (.matrix out))
  | .scalar _ => some (.error .invalidInput)

/-- `a / b` on `usize`: panics for `b = 0` (reduce.rs:105, 117). -/
def udiv (a b : Nat) : Run Nat := if b = 0 then none else some (a / b)

/-- The feature loop of `compute_derivatives`, reduce.rs:112-134, on the remaining chunks. -/
def derivLoop [BasicOps α] (l : Reduce α) :
    List (Mat α) → List (List α) → List (List α) → Run (List α × List α)
  | [], _, _ => some ([], [])
  | f :: fs, ds, dcs => do
    let s0 ← udiv f.shape.1 l.blockSize.1
    let s1 ← udiv f.shape.2 l.blockSize.2
    let d ← ds.head?
    let m ← unwrap (Mat.toMatrix d (s0, s1))
    let u ← m.fractionalUpsampling l.blockSize l.interpKernel >>= unwrap
    let dc ← dcs.head?
    let mc ← unwrap (Mat.toMatrix dc (s0, s1))
    let uc ← mc.fractionalUpsampling l.blockSize l.interpKernel >>= unwrap
    let (r, rc) ← derivLoop l fs ds.tail dcs.tail
    some (u.body ++ r, uc.body ++ rc)

/-- `compute_derivatives`, reduce.rs:100-140. -/
def computeDerivatives [BasicOps α] (l : Reduce α) (prev : IOType α) (dlda dldaConj : List α) :
    Run (Except GradErr (Derivs α)) :=
  match prev with
  | .matrix features => do
    let n ← udiv dlda.length features.length
    let ds ← chunks n dlda
    let dcs ← chunks n dldaConj
    let (nd, ndc) ← derivLoop l features ds dcs
    some (.ok ([], [], nd, ndc))
  | .scalar _ => some (.error .inconsistentShape)

end Reduce

/-- `struct Flatten`, flatten.rs:8-10. -/
structure Flatten where
  inputSize : (Nat × Nat) × Nat

namespace Flatten

/-- `is_empty`, flatten.rs:18-20. -/
def isEmpty (_ : Flatten) : Bool := false
/-- `propagates`, flatten.rs:23-25. -/
def propagates (_ : Flatten) : Bool := false
/-- `get_input_shape`, flatten.rs:28-30. -/
def inputShape (l : Flatten) : IOShape := .matrix l.inputSize.2
/-- `get_output_shape`, flatten.rs:33-37. -/
def outputShape (l : Flatten) : IOShape :=
  .scalar (l.inputSize.1.1 * l.inputSize.1.2 * l.inputSize.2)
/-- `init`, flatten.rs:45-47. -/
def init (shape : Nat × Nat) (ni : Nat) : Flatten := ⟨shape, ni⟩
/-- `foward`, flatten.rs:55-67. -/
def forward {α : Type} (_ : Flatten) : IOType α → Run (Except LayerForwardErr (IOType α))
  | .matrix features => some (.ok (.scalar (features.flatMap Mat.getBody)))
  | .scalar _ => some (.error .invalidInput)

end Flatten

/-- `enum CLayer<T>`, layer/mod.rs:23-28. -/
inductive Layer (α : Type)
  | dense (l : Dense α)
  | conv (l : Conv α)
  | reduce (l : Reduce α)
  | flatten (l : Flatten)

namespace Layer
variable {α P : Type}

/-- `is_empty`, layer/mod.rs:39-46. -/
def isEmpty : Layer α → Bool
  | dense l => l.isEmpty
  | conv l => l.isEmpty
  | reduce l => l.isEmpty
  | flatten l => l.isEmpty
/-- `propagates`, layer/mod.rs:49-56. -/
def propagates : Layer α → Bool
  | dense l => l.propagates
  | conv l => l.propagates
  | reduce l => l.propagates
  | flatten l => l.propagates
/-- `get_input_shape`, layer/mod.rs:59-66. -/
def inputShape : Layer α → IOShape
  | dense l => l.inputShape
  | conv l => l.inputShape
  | reduce l => l.inputShape
  | flatten l => l.inputShape
/-- `get_output_shape`, layer/mod.rs:69-76. -/
def outputShape : Layer α → IOShape
  | dense l => l.outputShape
  | conv l => l.outputShape
  | reduce l => l.outputShape
  | flatten l => l.outputShape
/-- `params_len`, layer/mod.rs:79-86. -/
def paramsLen : Layer α → Nat × Nat
  | dense l => l.paramsLen
  | conv l => l.paramsLen
  | reduce l => l.paramsLen
  | flatten _ => (0, 0)
/-- `foward`, layer/mod.rs:93-101. -/
def forward [CplxOps α P] : Layer α → IOType α → Run (Except LayerForwardErr (IOType α))
  | dense l, x => l.forward x
  | conv l, x => l.forward x
  | reduce l, x => l.forward x
  | flatten l, x => l.forward x
/-- `compute_derivatives`, layer/mod.rs:109-116. -/
def computeDerivatives [CplxOps α P] :
    Layer α → IOType α → List α → List α → Run (Except GradErr (Derivs α))
  | dense l, x, d, dc => l.computeDerivatives x d dc
  | conv l, x, d, dc => l.computeDerivatives x d dc
  | reduce l, x, d, dc => l.computeDerivatives x d dc
  | flatten _, _, _, _ => none
/-- `neg_conj_adjustment`, layer/mod.rs:124-131 (reduce.rs:148-152 does nothing). -/
def negConjAdjustment [CplxOps α P] :
    Layer α → List α → List α → Run (Except GradErr Unit × Layer α)
  | dense l, dw, db => let r := l.negConjAdjustment dw db; some (r.1, dense r.2)
  | conv l, dw, db => let r := l.negConjAdjustment dw db; some (r.1, conv r.2)
  | reduce l, _, _ => some (.ok (), reduce l)
  | flatten _, _, _ => none

end Layer
end Renplex
