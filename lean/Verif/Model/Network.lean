import Verif.Model.Layer
/-!
# Networks and datasets: `/repo/src/cvnn/network/mod.rs`, `/repo/src/dataset/mod.rs:16-90`
-/

namespace Renplex

/-- `struct Dataset<B, T>`, dataset/mod.rs:17-21 (the crate only uses `B = T`). -/
structure Dataset (α : Type) where
  inputs : List (IOType α)
  target : List (IOType α)

namespace Dataset
variable {α : Type}

/-- `new`, dataset/mod.rs:53-55. -/
def new : Dataset α := ⟨[], []⟩
/-- `get_n_points`, dataset/mod.rs:58-60. -/
def nPoints (d : Dataset α) : Nat := d.inputs.length
/-- `get_point`, dataset/mod.rs:67-69: panics out of range. -/
def getPoint (d : Dataset α) (i : Nat) : Run (IOType α × IOType α) := do
  let x ← d.inputs[i]?
  let t ← d.target[i]?
  some (x, t)
/-- `points_as_iter`/`points_into_iter`, dataset/mod.rs:72-79, zipped as all callers do. -/
def points (d : Dataset α) : List (IOType α × IOType α) := d.inputs.zip d.target
/-- `add_point`, dataset/mod.rs:86-89. -/
def addPoint (d : Dataset α) (p : IOType α × IOType α) : Dataset α :=
  ⟨d.inputs ++ [p.1], d.target ++ [p.2]⟩

end Dataset

/-- `struct CNetwork<T>`, network/mod.rs:14-16. -/
structure Net (α : Type) where
  layers : List (Layer α)

namespace Net
variable {α P : Type}

/-- `new`, network/mod.rs:20-24. -/
def new : Net α := ⟨[]⟩
/-- `params_len`, network/mod.rs:27-35. -/
def paramsLen (n : Net α) : Nat :=
  n.layers.foldl (fun len l => len + (l.paramsLen.1 + l.paramsLen.2)) 0
/-- `get_input_shape`, network/mod.rs:39-43. -/
def inputShape (n : Net α) : Except LayerAdditionErr IOShape :=
  match n.layers with
  | [] => .error .missingInput
  | l :: _ => .ok l.inputShape
/-- `get_output_shape`, network/mod.rs:47-51. -/
def outputShape (n : Net α) : Except LayerAdditionErr IOShape :=
  match n.layers.getLast? with
  | none => .error .missingInput
  | some l => .ok l.outputShape
/-- `add_input`, network/mod.rs:58-70: the result and the network left behind. -/
def addInput (n : Net α) (layer : Layer α) : Except LayerAdditionErr Unit × Net α :=
  if n.layers.length > 0 then (.error .existentInput, n)
  else if !layer.isEmpty then (.ok (), ⟨n.layers ++ [layer]⟩)
  else (.error .missingInitialization, n)
/-- `add`, network/mod.rs:74-87: panics on an empty network. -/
def add (n : Net α) (layer : Layer α) : Run (Except LayerAdditionErr Unit × Net α) :=
  if layer.isEmpty then some (.error .missingInitialization, n)
  else do
    let last ← n.layers.getLast?
    if last.outputShape ≠ layer.inputShape then some (.error .incompatibleIO, n)
    else some (.ok (), ⟨n.layers ++ [layer]⟩)

variable [CplxOps α P]

/-- `layer.foward(x).unwrap()`, e.g. network/mod.rs:106. -/
def fwd (l : Layer α) (x : IOType α) : Run (IOType α) := l.forward x >>= unwrap

/-- `forward`, network/mod.rs:95-111. -/
def forward (n : Net α) (input : IOType α) : Run (Except ForwardErr (IOType α)) :=
  match n.layers with
  | [] => some (.error .missingLayers)
  | l :: ls => do
    let out ← fwd l input
    let out ← if n.layers.length > 1 then ls.foldlM (fun acc layer => fwd layer acc) out else some out
    some (.ok out)

/-- The loop of `intercept`, network/mod.rs:129-137. -/
def interceptLoop (index : Nat) : Nat → List (Layer α) → IOType α → Run (IOType α × Layer α)
  | _, [], _ => none
  | cur, l :: ls, x =>
    if cur = index then some (x, l)
    else do
      let x ← fwd l x
      interceptLoop index (cur + 1) ls x

/-- `intercept`, network/mod.rs:123-138. -/
def intercept (n : Net α) (input : IOType α) (index : Nat) :
    Run (Except ForwardErr (IOType α × Layer α)) := do
  let last ← usub n.layers.length 1
  if index > last then some (.error .invalidLayerIndex)
  else do
    let r ← interceptLoop index 0 n.layers input
    some (.ok r)

/-- The loop of `collect_acts`, network/mod.rs:151-158: `x` is the last activation so far. -/
def collectLoop : List (Layer α) → IOType α → Run (List (IOType α))
  | [], _ => some []
  | l :: ls, x => do
    let y ← fwd l x
    let rest ← collectLoop ls y
    some (y :: rest)

/-- `collect_acts`, network/mod.rs:145-161. -/
def collectActs (n : Net α) (input : IOType α) : Run (Except ForwardErr (List (IOType α))) :=
  if n.layers.length = 0 then some (.error .missingLayers)
  else do
    let outs ← collectLoop n.layers input
    some (.ok (input :: outs))

/-- `loss`, network/mod.rs:169-193. It never returns an error itself. -/
def loss [RealOps P] (n : Net α) (data : Dataset α) (f : LossFunc) : Run P := do
  let vals ← data.points.mapM fun p => do
    let pred ← n.forward p.1 >>= unwrap
    unwrap (CplxOps.loss f p.2 pred)
  let total ← reduce BasicOps.add vals
  BasicOps.div total (RealOps.ofUsize vals.length)

/-- The index fold of `max_pred_test`, network/mod.rs:215-226. -/
def argmax (v : List α) : Nat :=
  (v.zipIdx.foldl (fun (acc : Nat × α) (e : α × Nat) =>
    if BasicOps.gt e.1 acc.2 then (e.2, e.1) else acc) (0, BasicOps.zero)).1

/-- `max_pred_test`, network/mod.rs:201-234. -/
def maxPredTest [RealOps P] (n : Net α) (data : Dataset α) : Run P := do
  let results ← data.points.mapM fun p => do
    let prediction ← n.forward p.1 >>= unwrap
    let pred ← prediction.asSlice
    let targ ← p.2.asSlice
    some (if argmax targ = argmax pred then 1 else 0)
  BasicOps.div (RealOps.ofUsize results.sum) (RealOps.ofUsize data.target.length)

/-- Per-layer gradient accumulators, network/mod.rs:248-264. -/
def initAcc (l : Layer α) : List α × List α :=
  if l.propagates then
    (List.replicate l.paramsLen.1 BasicOps.zero, List.replicate l.paramsLen.2 BasicOps.zero)
  else ([], [])

/-- The backward loop for one sample, network/mod.rs:300-309, over the pairs (previous
activation, layer) from last to first. `k` is the index `n_layers - l - 1` of the current layer.
Updates the accumulators in place. -/
def backLoop : List (IOType α × Layer α) → Nat → List α → List α → List (List α × List α) →
    Run (List (List α × List α))
  | [], _, _, _, acc => some acc
  | (prev, layer) :: rest, k, dlda, dldaConj, acc =>
    if layer.propagates then do
      let r ← layer.computeDerivatives prev dlda dldaConj
      let (dldw, dldb, dlda, dldaConj) ← unwrap r
      let (aw, ab) ← acc[k]?
      let aw ← unwrap (addSliceMut aw dldw)
      let ab ← unwrap (addSliceMut ab dldb)
      backLoop rest (k - 1) dlda dldaConj (acc.set k (aw, ab))
    else backLoop rest (k - 1) dlda dldaConj acc

/-- One sample of `gradient_opt`, network/mod.rs:271-312. -/
def sampleStep (n : Net α) (f : LossFunc) (acc : List (List α × List α))
    (p : IOType α × IOType α) : Run (List (List α × List α)) := do
  let acts ← n.collectActs p.1 >>= unwrap
  let ract := acts.reverse
  let prediction ← ract.head?
  let dlda ← unwrap (CplxOps.dLoss f p.2 prediction)
  let dldaConj := dlda.map CplxOps.conj
  backLoop (ract.tail.zip n.layers.reverse) (n.layers.length - 1) dlda dldaConj acc

/-- The update of one layer, network/mod.rs:324-335. -/
def updateLayer (scale : α) (g : List α × List α) (layer : Layer α) : Run (Layer α) :=
  if layer.propagates then do
    let r ← layer.negConjAdjustment (mulMutScalar g.1 scale) (mulMutScalar g.2 scale)
    let _ ← unwrap r.1
    some r.2
  else some layer

/-- `gradient_opt`, network/mod.rs:243-338: the result and the network left behind. -/
def gradientOpt (n : Net α) (data : Dataset α) (f : LossFunc) (lr : α) :
    Run (Except ForwardErr Unit × Net α) :=
  if n.layers.length ≤ 1 then some (.error .missingLayers, n)
  else do
    let acc0 := n.layers.map initAcc
    let acc ← data.points.foldlM (sampleStep n f) acc0
    let scale ← BasicOps.div lr (CplxOps.ofUsize data.inputs.length)
    let layers ← (acc.zip n.layers).mapM fun p => updateLayer scale p.1 p.2
    some (.ok (), ⟨layers⟩)

/-- `mvn_opt`, network/mod.rs:342-344: not implemented, always panics. -/
def mvnOpt (_ : Net α) : Run (Net α) := none

end Net
end Renplex
