# Formal model of Pxdr0-A/renplex in Lean 4

## 1. Layout

| path | content |
|------|---------|
| `lean/Verif/Model/*.lean` | the model: one definition per Rust function, each citing file and lines |
| `lean/Verif/Spec/*.lean`  | small specifications independent of the model's helpers |
| `lean/Verif/Lemmas/*.lean`| helper lemmas |
| `lean/Verif/Props/*.lean` | the property theorems (`C01_…` …), with a non-vacuity example beside each |
| `MANIFEST.json`           | property -> status, theorem names |
| `seeded/LOG.jsonl`        | wrong-program experiments |

## 2. How Rust is represented

* `Run α` is `Option α`; `none` is a Rust **panic** (debug profile: index out of
  range, `unwrap` on `Err`/`None`, integer under/overflow, division by zero,
  `chunks(0)`, `windows(0)`, explicit `panic!`).
* `Result<T,E>` is `Except E T`. A function that returns a `Result` and may panic has
  type `Run (Except E T)`.
* `&mut self` methods return the new value. On `Err` the Rust code leaves a particular
  state behind; methods whose error path touches the state return the state explicitly.
* `usize` is `Nat`; subtraction that would underflow panics (`usub`). Growth past
  2^64 is not modelled (no such vector can be allocated). `u128` overflow in the random
  generator *is* modelled, because seeds are arbitrary `u128`.
* `Vec`, slices and iterators are `List`. Iterator adaptors become list functions, loops become
  folds or structural recursion; `iter_mut().zip(..).for_each(..)` becomes `zipUpd`, which keeps
  the unmatched tail of the left list as Rust does.
* The element type `T: BasicOperations<T>` is a type with a `BasicOps` instance: *uninterpreted*
  operations without any laws. `+` and `+=`, `*` and `*=` ... are separate operations, because the
  Rust implementations differ. Structural theorems are proved for every instance, so they apply to
  f32/f64 with their real rounding behaviour.
* `Cf32`/`Cf64` are `Cf w R`, a pair over a scalar type `R` with a `Scalar R` instance
  (uninterpreted float operations). Algebraic and analytic theorems instantiate
  `R := ℝ` ("exact arithmetic"): rounding, NaN, infinities and signed zero are then
  *not* modelled; where those matter the theorem says so or uses a
  special-value model. C78 connects the two: runs in a rounded format tend to the exact run as the
  precision grows. `Spec/Ieee` models the formats f32 and f64 themselves (IEEE 754: rounding, overflow,
  gradual underflow, signed zero, infinities, NaN); `Fl L` is a `Scalar` instance, so the same model
  of the crate runs on it. The library functions (exp, ln, cos, ...) are a parameter `L`.

## 3. Trusted base

* Lean's kernel. `vcheck` replays every module through it.
* Axioms, by `#print axioms` on all 662 theorems of MANIFEST.json: 592 use `propext`,
  `Classical.choice` and `Quot.sound`; 32 use `propext` and `Quot.sound`; 26 use `propext` only;
  12 use none. There are no own axioms, no `sorry`, no `native_decide` and no `bv_decide`.
* The reading of /repo into `Verif/Model`. Every definition cites file and lines; nothing checks
  the citation. The Rust code was read, never built or run.
* The statements: `Verif/Spec` and the theorems in `Verif/Props`.

### What is modelled

| source | model |
|--------|-------|
| `src/math/matrix` | `Model/Matrix`: storage, element-wise operations, convolution, block reduction, up-sampling, chunk iterators, CSV |
| `src/math/cfloat` | `Model/Cfloat`, `Model/Ops`: both widths, all operators |
| `src/math/random`, `src/init` | `Model/Random`, `Model/Gen`: the generator with its 128-bit overflow, all initialisers |
| `src/act`, `src/opt` | `Model/Act`, `Model/Loss` |
| `src/input`, `src/dataset` | `Model/Input`, `Model/Data`: MNIST byte readers, signal synthesis, CSV |
| `src/cvnn/layer`, `src/cvnn/network` | `Model/Layer`, `Model/Network` |
| `examples/classification.rs`, `examples/regression.rs` | `Model/Examples`: network builders, training and test loops, feature extraction, `main` |
| `src/lib.rs` | `Model/Tests`: the crate's test programs |

### What is not modelled

* rayon: only `rows_as_par_chunks` uses it and nothing in the crate calls it.
* Memory allocation, `Vec` capacity, running out of memory, `usize` sums and products past 2^64.
* OS errors: opening and writing files succeeds; a file to read is the list of its bytes.
* Printing to the terminal, timing, file names, and `Debug` and `Display` other than those of `Matrix`,
  `Cf32` and `Cf64` (C75). The text of a number is a parameter `disp`.
* Floating-point rounding, NaN, infinities and signed zeros in the theorems marked "exact
  arithmetic". Structural theorems hold for every `Scalar` instance, hence also for f32 and f64.
  C25 models the rounding of integers to f32 and f64. C78 covers formats that round, described by
  `Format.Sound` in `Spec/Rounding`; C84 proves that f32 and f64 are such formats if the library
  functions are accurate. C85 and later use the IEEE 754 formats of `Spec/Ieee`.
* NaN payloads and the sign of NaN, and the exact values of library functions in f32 and f64.
* In exact arithmetic `x/0 = 0` and `ln 0 = 0`. Theorems exclude the zero divisors they meet. A zero
  draw makes `ln 0` infinite in floating point; C61, C65 and C68 do not show that, C88 does.
* The Python scripts in /repo.

## 4. Plan per property

| id | model | method |
|----|-------|--------|
| C01 | `Mat` with all mutators as an op machine | invariant by induction on the op list; refutation for `add_col`/zero-width `add_mut_row`, partial theorem for the rest |
| C02,C03 | `elm`, `row`, columns, `elm_mut` | index arithmetic against "list of rows" spec |
| C04-C07 | `addRow`, `delRow`, `addMutRow`, `addCol` | refinement to list-of-rows; refutations for C06, C07 |
| C08,C09 | `flip`, `pad` | pointwise characterisation |
| C10,C11,C17,C18 | element-wise ops, `mulSlice`, chunk iterators | list induction |
| C12-C14 | `convolution` | pointwise sum formula, then bilinearity and adjoint by finite sums |
| C15,C16 | `blockReduce`, `fractionalUpsampling` | pointwise; refutation of C16 for kernels other than 3x3 |
| C19-C23 | `Cf` arithmetic | ring isomorphism with ℂ; refutations for `*=`, `/=`, `PartialOrd`, `Cf64::phase` |
| C24-C28 | generator with 128-bit overflow and f32 rounding of integers | modular arithmetic; refutations |
| C29-C32 | activations over ℝ | Fréchet derivatives (Mathlib); refutation for Cardioid, saturated sigmoid |
| C33-C36 | loss functions | sums; refutations for the divisor and the cross-entropy derivative |
| C37-C42 | layer model | unfolding plus the matrix theorems |
| C43-C47 | network machine | induction over call histories and layers |
| C48,C50-C55 | `gradientOpt` | induction over layers pairing forward and backward derivatives |
| C49,C64,C67 | convolutional and pooling layers, whole convolutional networks | Wirtinger calculus per layer, adjointness of convolution and up-sampling; refutations |
| C56,C57 | `maxPredTest`, `loss` | folds |
| C58-C63 | dataset, MNIST byte files, signal synthesis, CSV text, `IOType` | induction over histories |
| C65 | initialisers | exact value of every parameter from consecutive draws |
| C66 | `gradientOpt` | totality: every step of a training call on fitting networks and data returns |
| C68 | signal synthesis | every sample as a function of the draws |
| C72 | period and distribution of the generator | number theory: 2^31-1 is prime, the multiplier is a primitive root |
| C73 | the regression program descends along the gradient | C48 and C53 for the built auto-encoder; tanh has the right derivative everywhere |
| C69-C71 | the example programs | composition of C58-C68: the builders, the loops and `main` |
| C74,C75 | `cconvolution`, `Display` | equality with `convolution`; case split on the shapes |
| C76 | `Real::gen` | C72 |
| C77 | windows of feature maps | C40 and C41 at shifted indices, induction over the layers |
| C78 | forward, loss and training in number formats of growing precision | a logical relation along a filter between families of rounded values and exact ones (`Spec/Relate`), shown for every function of the network model |
| C79-C81 | two number types | the same relation along a one-point filter; conjugation and real numbers as instances |
| C82 | network shapes | case analysis on the layer list; layer shapes are kept by training |
| C83 | Lipschitz bound | induction on the layers; the bound of a unit by the triangle inequality |
| C84 | f32 and f64 as binary formats | rounding to nearest as a monotone map on the reals; accuracy of every operation gives `Format.Sound` |
| C85 | complex division and ModZ in f32 and f64 | when the rounded sum of squares is zero or infinite |
| C86 | activations in f32 and f64 | monotone rounding keeps the interval [0, 1]; NaN through the operations |
| C87 | NaN spreads | a set of numbers that no operation leaves (`Absorbs`), through the forward and the backward pass of every sample |
| C88 | Initial weights in `f32` and `f64` | bounds by powers of two through every step of the generators |
| C89 | Rounding errors in `f32` and `f64` | error counters `(1 + u)^k` carried through sums and products |
| C90 | Rounding error of a whole network | the error counters of C89 through each layer; sizes bound what can overflow |
| C91 | The predicted class in f32 and f64 | the fold compares computed squares; their error bound gives the margin |
| C92 | The losses in f32 and f64 | division by zero; non-finite values spread through the sums; rounding errors add up along the fold |
| C93 | Certified error bounds for prediction, loss and training | error propagation through every operation; the branches of the activations; exact and rounded control flow agree |
| C94 | The laws of batches | averaging over the batch: joining, repeating, scaling the rate |
| C95 | Dead units | units and layers that no longer learn |
| C96 | Hidden units are interchangeable | renumbering hidden units |
| C97 | Training with a small fixed rate comes to stationary points | convergence |
| C98 | Scaling and turning hidden units changes nothing, and training keeps units balanced | invariance |
| C99 | The crate's own test programs run to their end and compute what they are named after | functional |
| C100 | Initial weights are distributed as documented | statistical |
| C101 | The loss bounds the share of wrong predictions | loss against accuracy |
| C102 | Training a single dense layer solves the least-squares problem | the training call is the gradient step of a linear least-squares problem |
| C103 | Without activation functions depth adds nothing | a network of affine layers is one dense layer, and cannot do the exclusive or |
| C104 | Training moves the first layer only along the inputs it has seen | the weight change is a sum of multiples of the conjugated inputs |
| C105 | Training does not depend on the unitary basis of the inputs | inputs times a unitary matrix, first weights times its conjugate transpose: same predictions and training |
| C106 | Dense networks with RITReLU learn any consistent data by heart and approximate any continuous function | interpolation by one hidden layer; universal approximation on compact sets; loss 0 iff the data are consistent |
| C107 | A convolutional layer is a dense layer with shared weights | same values and same panics; derivatives are the sums over shared weights; passed-on derivative differs (C49) |
| C108 | Cardioid weakens numbers according to their phase | false: the value is a point of the cardioid curve, whatever the modulus; exact set of agreement; even in Cf64 |
| C109 | What training leaves alone in f32 and f64 | zero inputs, flat activations and updates below a quarter of the last place change no parameter, unless to NaN |
| C110 | The filters of a convolutional layer are interchangeable | renumbering filters, with the channels or columns that read them, commutes with prediction and training |
| C111 | A mirrored network on mirrored images | false for 2 × 2 pooling: derivatives go to the upper left of each block; holds without pooling and for odd square blocks |
| C112 | Signs of zeros, conjugates and real numbers in f32 and f64 | the symmetries of C80 and C81 hold in every digit up to the signs of zeros |
| C113 | Training does not depend on the basis of the outputs | turning the targets by a unitary matrix and renumbering the classes commute with training |
| C114 | Training does not depend on the basis of the channels | mixing the channels by a unitary matrix commutes with training; kernels move only along patches seen |
| C115 | All seeds draw from one cycle | any two seeds differ by a shift; weights, training and test signals of the regression program use disjoint stretches |
| C116 | Successive random numbers lie on few planes | triples on 1692 planes, e.g. amplitude, frequency and phase of all waves |
| C117 | Dead convolutional filters stay dead | flat at all places of all inputs: kernels and bias never move; a whole dead layer also freezes all layers before it |
| C118 | One NaN pixel destroys a convolutional network | one NaN part in one image of the batch makes every kernel, weight, bias and later prediction NaN |
| C119 | Training a convolutional layer is training a dense layer on all patches | the weights stay equal through all histories; without activation the kernels converge to the least-squares solution nearest to the start |
| C120 | The exact threshold of the learning rate | a single layer converges from every start for r·K < 2B and diverges near every start for r·K > 2B; one point: factor (1 − r(1+‖x‖²))² per call |
| C121 | Training with several batches in turn | a single layer converges geometrically to the nearest parameters that reproduce all batches; without such parameters an epoch can stand still at an error that is not least |
| C122 | Complex learning rates for a single layer | for one point the exact learning rates, real and complex, with which the error goes to 0 under the wrong complex `*=`; the intended range lies inside |
| C123 | What convolutional networks can learn by heart and approximate | a layer that copies all pixels reduces it to C106; with a single dense layer exactly the kernels as large as the image suffice |
| C124 | A learning rate that is too large ends in NaN | IEEE arithmetic: a bias doubles exactly until it overflows, then 0·∞ spreads; at most 278 (f32) or 2099 (f64) calls |
| C125 | Training in epochs always settles | affine epoch map with a contracting linear part (C121); fixed points found by finite dimension; first-order expansion of an epoch for small rates |
| C126 | Rounding errors do not accumulate | the bound of C78 for one epoch, uniform on bounded sets of parameters by compactness; contraction of an epoch (C125); induction on the number of epochs |
| C127 | Rounding errors do not accumulate where training is stable | C78 twice (once with exact arithmetic as the format, which gives continuity); bounded sequences of networks have limits; blocks of epochs in which the exact run contracts; convolutional layers by way of the patches (C119) |
| C128 | A transposed network on transposed images | a correspondence (C100) for each kind of layer: sums over rows and columns are exchanged |
| C129 | Scaling and turning the filters of a convolutional layer, and their balance in training | a relation between the forward passes, a correspondence (C100) for steps with a real rate, and the identity of Euler for the balance; a network of two filters of one weight computed by hand for the condition |
| C130 | The origin of the targets and of the inputs | a relation between two networks (`OutShifted`, `InShifted`), kept by every call; counterexamples where it ends |
| C131 | Hidden units that are zero | a relation between networks of different widths (`Padded`), kept by every call; an example with RITSigmoid where it ends |

## 5. Where the code differs from the claim

The full statement stays in properties.jsonl. A theorem `…_refuted…` shows that the model of the code
violates it; `…_partial` says what does hold. The main findings:

| where | finding | claims |
|-------|---------|--------|
| `Matrix::add_col` | rejects every column of the right height, corrupts the body otherwise | C01, C07 |
| `Matrix::add_mut_row` | accepts rows `add_row` rejects | C01, C06 |
| `Matrix::fractional_upsampling` | wrong shape for kernels other than 3x3 | C16 |
| `Matrix::cconvolution` | no size check: empty result or panic | C74 |
| `Display for Matrix` | panics on a matrix without columns | C75 |
| `Cf32`/`Cf64` `*=`, `/=` | read the real part they have just overwritten | C20, C50 |
| `Cf64::phase` | wrong in the left half-plane | C23 |
| `lcgf32`, `lcgi` | return 1.0 resp. the limit itself for some seeds; the update has a fixed point | C25-C27 |
| activations | wrong derivative of the cardioid and of the saturated sigmoid; Cf32 sigmoid not monotone | C29, C30 |
| losses | mean square divides by n-1; cross-entropy derivative is that of the squared error | C33, C34 |
| `CNetwork::add`, `intercept` | `add` on an empty network panics; `intercept` returns the input of the layer | C43, C45 |
| `ConvCLayer::compute_derivatives` | the two vectors returned for the input are not the derivative and its conjugate; their sum is the derivative | C49, C64, C107 |
| `Reduce::compute_derivatives` | interpolates instead of applying the adjoint | C67 |
| 2 x 2 pooling | derivatives go to the upper left of each block, so training tells images from mirror images | C111 |
| `gradient_opt`, `loss` | panic on an empty batch | C54 |
| `gen_pred` | panics at index = size | C59 |
| MNIST readers | past the end they repeat the last record or deliver black images | C60 |
| `signal_reconstruction` | training noise drawn from the test seed; odd sample counts panic | C61, C68 |
| `regression.rs` | the running mean is not the mean; every epoch sees the same data | C71 |
| `Complex::gen` | uniform modulus, not uniform in the circle | C100 |
| `Complex::gen_xa` | mean square 4 / n instead of 1 / n | C100 |
| `image_conv_test` | phase π instead of ±π/2 on vertical gradients | C99 |

## 6. Wrong-program experiments

`seeded/mutants.json` lists edits of the model; `seeded/run.py` applies each to a scratch copy,
rebuilds, and records which proofs fail; `seeded/log.py` appends the result to `seeded/LOG.jsonl`.
Caveats: a failing proof shows that the proof script no longer works, not by itself that the
statement is false. The theorem named first in the log is often a helper that the property theorems
depend on. Edits that survive are either equivalent programs or gaps in the statements; the log says
which, and which theorems were tightened.
