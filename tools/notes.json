{
 "C01": "False of the code: a history of sane calls can end in a matrix whose body is not rows*cols long, and another panics (C01_refuted). Proved for every history without add_col whose added rows are all non-empty (C01_partial), and for histories using neither add_col nor add_mut_row with rows of any length (C01_partial_any_rows). Missing: add_col, and add_mut_row together with zero-width rows, where the claim fails.",
 "C06": "False of the code: add_mut_row accepts rows that add_row rejects, namely on a matrix of zero-width rows, and beyond the column capacity of an empty matrix (C06_refuted, C06_refuted_zero_width). Agreement proved when the matrix has columns, or has no rows and the row is within the column capacity.",
 "C07": "False of the code: add_col always rejects a column of the right height (C07_refuted), and whenever it succeeds on a rectangular matrix that has columns the result is corrupt (C07_refuted_corrupts). C07_refuted_room says what it does with all other columns: refused as too large where there is room; where there is none, columns too short are spread over the first rows and columns too high panic. Proved of the claim: rejected calls change nothing, and an empty matrix without column capacity becomes a one-column matrix.",
 "C10": "Elementwise addition proved for equal shapes with at least one row, scalar operations and mismatch rejection for all. Matrix::new is neutral; a never-filled matrix made by with_capacity is not (C10_refuted).",
 "C16": "Any arithmetic, every non-empty matrix, block and kernel. Among kernels of odd size the shape is restored exactly for 3x3 kernels, unless an odd block width is at most half the block height (C16_partial_iff; the entries in C16_partial). C16_partial_all gives the shape and entries of every result and exactly when the call panics: kernels with one row, kernels too wide, and blocks that are too narrow. Kernels with an even side are rejected with an error (C16_even). C16_refuted: odd kernels of size 5 or more give a result that is too large.",
 "C20": "False of the code: *= and /= read the real part they have just overwritten (C20_refuted). += and -= are right; C20_partial gives the exact condition for *= and /=: right operand real (or zero, for /=, where both panic), or real part unchanged. For the primitive floats all four are operate-then-assign (C20_primitives).",
 "C22": "Order by modulus, totality, transitivity and consistency with partial_cmp proved; but partial_cmp is Equal for different numbers of equal modulus, which == distinguishes (C22_refuted). Exact arithmetic: no NaN.",
 "C23": "Exact for every Cf32 number and for Cf64 with positive real part. For Cf64 every number with negative real part comes back negated (C23_refuted). Exact arithmetic. In f64 itself a number and its negative have the same polar form, bit for bit, on the imaginary axis too (C23_refuted_f64).",
 "C25": "False of the code: lcgf32 can return exactly 1.0 (C25_refuted) and distinct seeds can collide (C25_refuted_seeds). Proved: [0,1) and distinct states give distinct draws for f64 with its rounding modelled (C25_partial_f64) and in exact arithmetic; for f32 with its rounding the draw is below 1.0 exactly when the new state is below 2^31-64 (C25_partial_f32_iff). C25_casts and C25_ieee: the whole-number rounding of the model is that of IEEE 754, and the draws are those computed in the arithmetic of f32 and f64.",
 "C26": "False for every limit other than 1 and 2^31-1 (C26_refuted_iff); for limits 2 to 46340 the seed 1914008856 returns limit itself (C26_refuted). For every limit from 1 to 2^31-1 the exact set of good states is proved (C26_partial_any_limit); all other limits panic (C26_panic).",
 "C27": "The update is a bijection on the states below 2^31-1 with exactly one fixed point, 1934915413, so 'no fixed point' is false (C27_refuted).",
 "C28": "Exact arithmetic. Radius bound stated for a non-zero number of units (the code divides by it).",
 "C29": "Exact arithmetic. C29_partial_iff is the exact answer at every point of differentiability: right for None, ModZ, RITTanh, RITReLU and zReLU; right for the sigmoid exactly inside the threshold; right for the cardioid exactly on the negative real axis of Cf32; wrong everywhere else. C29_partial_where says where sigmoid and cardioid are differentiable. C29_cardioid gives the true cardioid derivatives: half the returned values in swapped roles, up to the sign of the phase.",
 "C30": "Exact arithmetic. Bounds and symmetry proved for both precisions, monotonicity for Cf64. Monotonicity is false for Cf32: 14 gives more than 15 (C30_refuted); C30_partial_w32_iff says exactly which pairs of inputs are ordered the wrong way. C30_value: inside the clamp the value is the logistic function, and everywhere it is within 1e-6 (Cf32) or 1e-13 (Cf64) of it.",
 "C31": "Exact arithmetic; the sign of zero is not represented (is_sign_negative x is read as x<0).",
 "C32": "For every option and every implementation of the Complex trait: activation and both derivatives.",
 "C33": "False of the code: the sum is divided by n-1, so for n>=2 the value is wrong whenever target and prediction differ (C33_refuted), and n=1 divides by zero (C33_refuted_single). Proved for n>=2: value Sum/(n-1), non-negative, zero exactly on agreement.",
 "C34": "False of the code for both losses. The returned vector is always the gradient of the undivided squared error (C34_partial); for mean-square with n>=2 it is the gradient of the reported loss exactly when n=2 or prediction=target (C34_partial_iff). For cross-entropy it is wrong at the zero prediction for every non-zero target (C34_refuted_ce).",
 "C35": "Exact arithmetic (exp does not overflow).",
 "C36": "For any float arithmetic.",
 "C37": "Stated as an equivalence over the draws for any generator; C37_init_exact instantiates it for the crate's generator in exact arithmetic, for seeds whose first step does not overflow u128.",
 "C38": "The claimed output is proved for every layer with at least one input, in any arithmetic (summation order made explicit) and in exact arithmetic. False for a layer with zero inputs, which panics on the empty vector (C38_refuted_no_inputs).",
 "C39": "Stated as an equivalence over the draws for any generator; C39_init_exact instantiates it for the crate's generator in exact arithmetic, for seeds whose first step does not overflow u128.",
 "C40": "Output formula and panic for kernels that do not fit proved for every layer with at least one filter and one channel; layers with none panic (C40_empty_layer). 'Wrong number of channels is an error' is false for no channels at all and when the first map is smaller than the kernel by more than one (C40_refuted_channels); C40_channels_partial is the exact rule.",
 "C41": "Reduce for an arbitrary, possibly panicking block function.",
 "C42": "Proved for all four kinds of well-formed layers; for Flatten only when the maps have the declared size. As stated it is false for Flatten (C42_refuted), because the shape does not record map sizes. Constructors return well-formed layers (C42_built).",
 "C43": "False of the code: add on an empty network panics for every initialised layer (C43_refuted, which shows this is the only panic). Everything else proved for every history that does not panic; histories starting on a non-empty network never panic. What counts as uninitialised for the layers the constructors return: C43_initialised; a convolutional layer without filters is accepted (C43_no_filters).",
 "C44": "Chain describes the layers' forward passes one after the other; layer errors are unwrapped by the network, so a failing layer is a panic in both functions.",
 "C45": "False of the code: intercept returns the input of the i-th layer, not its output (C45_refuted), and panics on an empty network (C45_refuted_empty). C45_partial gives what it does return; no panic on a non-empty network that can forward the input.",
 "C55": "Proved for dense and convolutional layers (conv: well-formed ones). False for the parameterless layers: Reduce accepts any vectors, Flatten panics (C55_refuted).",
 "C46": "False of the code: shapes of feature maps record only their number, so an accepted convolutional network can panic on a matching input (C46_refuted), and so does a dense layer with zero inputs (C46_refuted_no_inputs). Proved for accepted networks with a positive number of scalar inputs (C46_scalar_partial), and for any network whose extents fit layer by layer (C46_sized_partial), given that the layers are as the constructors build them and their activations/block functions never panic (all but ModZ: C46_total).",
 "C47": "Layers as the constructors build them (Layer.WF, preserved by training); histories that do not panic.",
 "C54": "The MissingLayers part is proved. The empty batch is false of the code: training panics for two or more layers (C54_refuted, exact arithmetic) and so does the loss (C54_refuted_loss). No call that returns leaves a malformed network.",
 "C56": "Exact arithmetic, for Cf32 and Cf64. C56_accuracy covers batches whose predictions and targets are non-empty vectors; C56_range covers every call that returns.",
 "C57": "Panic condition in any arithmetic; mean and permutation invariance in exact arithmetic.",
 "C50": "C50_step: any commutative arithmetic, in terms of the code's own *= and -=. C50_partial: exact arithmetic, real learning rate, non-empty batch. Complex learning rates are false of the code (C50_refuted), because *= on complex numbers is wrong (C20); C50_partial_value gives the step the code makes instead and C50_partial_iff says exactly when it is the right one. The empty batch panics (C54_refuted).",
 "C51": "C51_permutation: any commutative (exact) arithmetic; also covers whether the call panics; layers as the constructors build them. C51_ieee_order: IEEE numbers with at least 4 digits, a network with one weight and one bias.",
 "C52": "Exact arithmetic, every kind of layer and every complex learning rate; for calls that return (a derivative of ModZ at zero panics).",
 "C48": "Exact arithmetic. C48_partial: every depth and width, dense and flatten layers, whenever the code's activation derivatives are right at the values that occur; C48_partial_differentiable: in particular at all points of differentiability for every activation except sigmoid and cardioid. Where the activation derivative is wrong (C29_refuted_*) the result of back-propagation is wrong (C48_refuted).",
 "C53": "Exact arithmetic, real learning rates, two or more layers. C53_partial holds for every network whose back-propagation is right on the batch; C53_partial_dense spells the hypotheses out for dense networks via C48_partial, C53_partial_conv for networks with convolutional and pooling layers via C64_partial. False where the activation derivative is wrong: with a cardioid unit every small step can increase the error (C53_refuted). Not covered by the partial theorems: values at which the code's activation derivative is wrong, and the networks of C64_refuted and C64_refuted_pool.",
 "C49": "Exact arithmetic, every size. C49_partial: kernel and bias derivatives are right and the derivative with respect to the input is the SUM of the two vectors the code returns; with an activation holomorphic at the values that occur the second is zero and the first is right. The full claim is false: the first vector is wrong whenever the second is not zero (C49_refuted, C49_refuted_instance), and in the holomorphic case the second is not the conjugate of the first (C49_refuted_conj).",
 "C64": "Exact arithmetic, every depth and size. C64_partial: a convolutional layer of any activation in front, or any number of convolutional layers with holomorphic activations, and pooling layers whose interpolation kernel is the transpose of their weights, followed by flatten and dense layers, whenever the activation derivatives are right. With two convolutional layers and a non-holomorphic activation the gradient is wrong (C64_refuted), and also with one convolutional layer followed by the pooling layer of the classification example (C64_refuted_pool).",
 "C58": "Any element type, unbounded sequences.",
 "C59": "C59_partial: every size and every index other than the size itself. At index = size the code panics instead of returning the error (C59_refuted).",
 "C62": "Written text modelled as a string, cells recovered by an independent splitter. Data sets fully, with the exact panic condition; matrices with at least one column (C62_matrix_partial); a matrix without columns panics (C62_refuted_no_columns).",
 "C63": "All values of both kinds.",
 "C60": "Both readers, any number of calls with any batch sizes on files with any number of well-formed records, exact arithmetic for the pixel values (byte/255); C60_size holds for any file contents in any arithmetic. Requests past the end of the files are not truncated: files with fewer than 60000 records repeat the last record (C60_refuted_short), the exhausted training files give a black image labelled 0 (C60_refuted_end).",
 "C61": "Exact arithmetic, all even sample counts, batch sizes and thresholds, all seeds for which the first multiplication of the generator fits in 128 bits; larger seeds panic (C61_refuted_seed), odd sample counts panic (C61_odd_panics). In f32 a zero draw for the modulus of the noise makes the two samples it is for infinite or NaN, whatever the threshold (C61_refuted_ieee); the test seed 285924089 has one for samples 6 and 7 of the first training input.",
 "C65": "Exact arithmetic. The draw that is excluded in C65_normal_bound exists (C65_zero_draw): in floating point the weight is then infinite or NaN, which exact arithmetic does not show.",
 "C66": "Any arithmetic. Ready: at least two layers, storage agreeing with shapes, extents fitting from layer to layer, activations other than ModZ (whose division panics), pooling with a block function that returns on blocks of the configured size, a 3x3 interpolation kernel and square-like blocks. The learning rate division is the only remaining panic (C66_panics), in exact arithmetic exactly the empty batch.",
 "C67": "Exact arithmetic, every size. C67_partial: right whenever the 3x3 kernel holds the weights turned by 180 degrees about the place where the code puts the derivative in its block. C67_exact: with two blocks in each direction these are the only right kernels. No kernel is right for square blocks larger than 3x3 (C67_refuted_large), and the classification example's average pooling with its bilinear kernel is wrong (C67_refuted).",
 "C68": "Exact arithmetic. C68_partial gives every sample of both batches and both seeds left behind. The moduli of the training noise are drawn from the test seed, so the training batch is not determined by the training seed (C68_refuted). Odd sample counts and seeds near 2^128 panic (C61_odd_panics, C61_refuted_seed).",
 "C69": "Any arithmetic. Each builder returns a network that fits its data in the sense of C66 (Ready), with the number of parameters and the seed given exactly, and with every layer stated: its kind, sizes, activation, initialiser and the seeds it is drawn from. C69_pooling gives the pooling layer in exact arithmetic. A seed for which a draw leaves 128 bits panics (C69_overflow), and so does the auto-encoder with no samples (C69_no_samples).",
 "C70": "C70_epochs, C70_calls, C70_pipeline, C70_main and C70_two_conv hold in any arithmetic in which dividing by 255, the batch size (and 4) does not panic; C70_train, C70_test and C70_exact are exact arithmetic. Opening and writing files is taken to succeed; printing, timing and file names are not modelled. The commented-out or unused alternatives are covered as far as the code has them: C70_two_conv is the program with the convolutional builder.",
 "C71": "Exact arithmetic. C71_epochs, C71_calls, C71_pipeline and C71_main give the result of the program: it never panics, every epoch uses the same batches again (the seeds are passed by value), and the curves are recorded values. The recorded value is not the mean: loss k counts with weight k!/B! (C71_recorded), so it is at most the mean, with equality exactly for at most two batches or when all losses but the last vanish (C71_mean_partial, C71_curve_partial). C71_refuted gives a network where it is smaller, for any settings with at least three batches.",
 "C72": "The states are natural numbers as in the code; C72_calls covers any mixture of the code's drawing functions (index lengths from 1 to 2^31-1). The draws are state / 2^31 in exact arithmetic; rounding to f32 merges neighbouring draws, which exact arithmetic does not show. Primality of 2^31-1 and the order of the multiplier are proved in the file.",
 "C73": "Exact arithmetic. C73_step and C73_descent need no condition on the values that occur (unlike C48_partial and C53_partial), since tanh and the identity have the right derivatives everywhere. C73_auto_encoder and C73_regression apply it to the network the program builds and to every one of its training calls, whatever was trained before. The rate of the program is fixed, so nothing is said about the error falling over the whole run. The gradient is the one of the squared error for every loss argument, which is what the code differentiates (C34).",
 "C74": "C74_conjugated_partial holds in any arithmetic, C74_exact_partial and C74_self_partial in exact arithmetic. The function never returns an error (C74_refuted_no_error): a kernel one row or column too large gives an empty matrix, a larger one panics (C74_refuted_larger). The code calls the function experimental.",
 "C75": "The texts of a row, of a number and of a pair of extents are parameters (Rust's Debug and Display). A matrix without columns, such as a new one, cannot be printed: chunks(0) panics (C75_refuted).",
 "C76": "C76_overflow holds in any arithmetic, the rest is exact arithmetic. The remaining seeds give the same draw forever (C72), so their mean is not near zero. In f32 the draw can be 1.0 (C25_refuted); the rounding of the result is not modelled.",
 "C77": "Any arithmetic, including activations and block functions that panic for some values: only the call on the whole maps is assumed to return. C77_convolution is the matrix operation, C77_layer one layer, C77_network any network of such layers.",
 "C78": "Spec/Rounding says what is assumed of a format: finite results of size up to 1/u are within u(1+|x|) of the exact ones, comparisons are exact. Nothing is assumed of larger results, infinities, NaN, division by zero or the sign of zero. That f32 and f64 satisfy this with u a few units in the last place is not proved; C78 shows that such formats exist with any u > 0 (fixed point). The bound gives no rate: d depends on the network and the input. The condition on jumps (SteadyAt, SteadyRun) is about the exact run; networks with tanh and the identity meet it always (Net.Smooth). C78_jump shows that it cannot be dropped. Pooling layers must take means, as in the example program.",
 "C79": "Any arithmetic. Panics of the second run are not followed: the first run may then do anything. C80 and C81 are two instances.",
 "C80": "Exact arithmetic. C80_forward and C80_loss are equations, errors and panics included; C80_run is a relation between the resulting networks. Pooling functions are conjugated as well (Layer.conj); the mean is its own conjugate.",
 "C81": "Exact arithmetic. Pooling functions must map real values to real ones. In floating point Cardioid of a negative number has the imaginary part of a rounded sin(pi), which need not be zero.",
 "C83": "Exact arithmetic. Maximum of the norms of the entries as distance. Pooling by a maximum is outside the claim.",
 "C84": "Spec/Ieee: sign, significand and exponent, gradual underflow, overflow to infinity, signed zero, one NaN. Operations round the exact result to nearest, ties to even. The library functions (exp, ln, cos, sin, atan, atan2, tanh) are a parameter; Libm.Accurate says that finite values of size up to 1/u are within u(1+|x|). A correctly rounding platform meets it (Libm.rounded). NaN payloads and signs are not modelled.",
 "C85": "False in the stated form. Exact: division panics if and only if both squares of the divisor round to zero (C85_panics_iff), for example for 2^-75 in f32 and 2^-538 in f64 (C85_refuted_tiny); ModZ of a finite number panics under the same condition (C85_modZ_iff). If a square overflows, z/z and ModZ of z have a NaN part (C85_refuted_self, C85_refuted_modZ).",
 "C86": "The sigmoid part is proved for platforms with u at most 2^-22 (f32) and 2^-44 (f64). The part on Cardioid is false: in f64 Cardioid of zero is NaN because the phase is the arctangent of the quotient of the parts; in f32 the value is fine, but both derivatives are NaN. The special values of the library functions used are listed in Libm.Standard.",
 "C87": "Dense layers must have at least one unit and an activation that keeps NaN: all but RITReLU and zReLU, for which C87_relu says when. Convolutional and pooling layers are outside the claim. C66_panics_ieee says when training returns in f32 and f64.",
 "C88": "The library functions are assumed accurate to a relative and absolute error of at most 1/32, ln of numbers up to 1 not positive, and ln 0 = -inf; the correctly rounded ones are an instance.",
 "C89": "Division: only where the squared modulus of the divisor is finite and at least the smallest normal number.",
 "C90": "Activations other than None, RITTanh and RITReLU can be discontinuous or have unbounded slope (C83), so no such bound exists for them. Pooling functions other than the mean only if they have such bounds themselves.",
 "C91": "False of the code: the moduli are compared by their computed squares, NaN counts as the smallest (C91_argmax). Outputs that are NaN or whose squares underflow all give class 0 (C91_refuted_lost), so a network with NaN parameters predicts class 0 for every input (C91_refuted_network); if the square of the first output overflows the class is 0 whatever follows (C91_refuted_overflow, C91_refuted_f32). Proved: if the largest exact output is ahead by more than an explicit margin and its square cannot overflow, both arithmetics predict it (C91_stable_partial, C91_network_partial), and then the accuracy is the exact one rounded once (C91_accuracy_partial).",
 "C92": "False of the code: the mean-square loss of one component is NaN or infinite whatever the values, since it divides by the length less one (C92_refuted_single), so the loss of a network with one output is never finite (C92_refuted_one_output); the cross-entropy is NaN as soon as one exponential overflows (C92_refuted_overflow), in f32 with one prediction of modulus 10 (C92_refuted_f32). Proved: the mean-square loss of two or more components is finite if the exact one is well below the overflow threshold (C92_finite_partial), and every finite one is within an explicit rounding bound of the exact one (C92_mean_square_partial).",
 "C93": "Running error analysis. If the monitored run returns, the exact and the floating-point run return as well, and the bounds hold (C93_forward, C93_loss, C93_run; C93_forward_cert, C93_loss_cert and C93_run_cert start from parameters and data that are at most a given distance away; C93_ieee states it for f32 and f64). Such certificates exist with bounds as small as wanted wherever no activation jumps, if precision and starting errors are small enough (C93_forward_sharp, C93_loss_sharp, C93_run_sharp). At a jump monitoring gives up (C93_gives_up).",
 "C94": "Holds for the loss, the accuracy (C94_loss, C94_accuracy) and for training with real rates (C94_partial_concat, C94_partial_duplicate, C94_partial_rate, C94_zero_rate). False for complex rates: for every rate that is not real, giving a point twice trains a different network than giving it once (C94_refuted_duplicate), because `*=` uses the new real part for the imaginary part, which is not linear in the rate. C94_partial_duplicate_iff says for which derivatives it makes no difference. Whether a call panics never depends on the rate (C94_rate_returns).",
 "C95": "C95_flat says where the derivatives vanish: for RITReLU where both components are negative, for ZReLU where one is, for the cardioid on the negative real axis of Cf32 only; never for the other four activations (not even on the plateaus of the sigmoid). C95_history is for the first layer with parameters; a dead unit further back can be revived by a change of the layers before it, which C95_step allows for. C95_layer and C95_layer_history: a layer dead as a whole freezes itself and all layers before it. C95_constant: behind it the prediction no longer depends on the input.",
 "C96": "C96_forward, C96_measures, C96_step and C96_train are for a renumbering. They are exact: they use that sums can be reordered, which floating point does not allow: C96_rounding has two networks of f32 or f64 that differ by a renumbering and predict infinity and a finite number. C96_twins, for units that start equal, assumes nothing of the arithmetic and so holds in floating point too.",
 "C97": "C97_step is one step, uniform over a ball of parameters; C97_run a run of any number of steps for a time τ = r·T fixed beforehand; C97_stationary the conclusion; C97_rate the example where the error is multiplied by (1 - r)² in every step. Weighted pooling layers and the other activations are left out: some are not smooth, and for others the derivatives the code computes are wrong (C29, C49).",
 "C98": "C98_passes lists the factors for each activation: any non-zero factor without activation and for ModZ (which passes on its phase), positive ones for the RITReLU, zReLU and cardioid (which forgets them), the four units 1, -1, i, -i for RITTanh, and only 1 for RITSigmoid. C98_balance is exact: the difference changes by (r/B)² times the difference of the squared norms of the summed derivatives.",
 "C99": "False where the gradient is vertical: the test stores the phase pi whenever the horizontal part is zero, so that a horizontal edge is recorded as a vertical one (C99_refuted_phase). Everything else holds. Values of the library functions are those of exact arithmetic. The five tests that call nothing of the crate are left out.",
 "C100": "False of the area: moduli instead of areas are uniform, so that half of all weights fall into the inner quarter of the circle (C100_refuted_disc, C100_partial_modulus). False of the method named Xavier: its weights have the mean square 4 / n, not 1 / n (C100_refuted_xavier). Directions are equally frequent and the mean weight is zero for every method; XavierGlorotU, XavierGlorotN and HeInit have the mean square 2 / n (C100_mean_square, C100_normal). Means are exact up to a relative error of 10^-5 or less. In exact arithmetic ln 0 = 0, which concerns one seed.",
 "C104": "For complex learning rates the change of weight and bias need not be a multiple of (conj v, 1): C104_refuted_complex shows it for every rate that is not real (the in-place complex product of C20 uses an updated real part).",
 "C105": "For learning rates that are not real the networks part after one call: C105_refuted_complex shows it for every such rate (the in-place complex product of C20 uses an updated real part).",
 "C106": "It says which networks exist, not that training finds them. With C103 it separates the two cases: without activation functions a network is one affine map.",
 "C107": "The backward theorem is partial because of the flaw in C49: the dense layer passes on the sum of the two vectors that the convolution passes on, so the next layer down gets a different derivative where the activation is not holomorphic.",
 "C108": "False of the code. C108_refuted and C108_refuted_f64 say at exactly which numbers the value is that of the cardioid; C108_curve says what the value is; C108_refuted_even(_f64): in Cf64 the value does not distinguish a number from its negative. C108_phase_partial: Cf32 keeps the phase, with value zero on the negative real axis.",
 "C109": "C109_inputs, C109_units: one call; C109_history: any history, first layer with parameters. A zero may change its sign. C109_flat: where the activations are flat. C109_swallowed, C109_stall: updates too small to change anything, with an explicit bound.",
 "C110": "C110_forward, C110_measures: what the network computes; C110_step, C110_train: training; C110_symmetric: filters that are alike stay alike. Props/Corr is a general scheme: networks whose layers correspond in a way that forward pass, backward pass and updates respect train alike. Sums are reordered, so this does not hold in f32 and f64.",
 "C111": "False for pooling with even blocks, such as the 2 × 2 average pooling of examples/classification.rs: up-sampling puts derivatives into the upper left place of the block. C111_refuted: a network with that layer which cannot tell an image from any of its mirror images; one training call on the image, or else on its mirror image, leaves networks that give different predictions for the two. C111_forward_partial, C111_step_partial, C111_train_partial: holds without pooling, and for pooling layers with a symmetric block function, a symmetric interpolation kernel and the derivative in the middle of the block (odd heights for upside down; for left and right odd widths equal to the height or one less, because line 589 of src/math/matrix/mod.rs takes the height for the width). C111_invariant_partial: a network that is its own mirror image cannot tell images from mirror images.",
 "C112": "The exact counterparts are C80 and C81. A sum that cancels is +0 in both runs, so signs of zeros are lost; that is why RITReLU, whose derivative is 1 at +0 and 0 at -0, is left out of training (C112_tells_apart).",
 "C113": "The counterpart of C105 for the outputs. C113_which lists the matrices, C113_partner gives the second network, C113_complex_rates and C113_ties show that the two restrictions are needed.",
 "C114": "The counterpart of C105 and C104 for convolutional first layers. C114_partner gives the second network and the mixed images, C114_complex_rates shows that real rates are needed for the mixing.",
 "C115": "Uses the period of C72. C115_program ties the stretches to the program of C69 and C71.",
 "C116": "C116_contrast shows that three free states would give at least 2^31-1 values.",
 "C117": "The analogue of C95 for filters. Where both derivatives vanish is C95_flat. The example network of one pixel meets all hypotheses for all pixels of modulus at most one.",
 "C118": "The analogue of C87 for images. Behind the activation RITReLU the hypothesis is necessary: with a set sign bit it turns NaN into zero (C87_relu). Pooling is covered by C118_mean.",
 "C119": "Exact arithmetic. The parameter-free layer in front of the dense layer only turns a patch into a vector. Least squares by C102; a rate that satisfies the condition always exists (small_rate).",
 "C120": "Exact arithmetic. Sharpens the sufficient condition of C102 and C119 to the exact one. Steepness is defined by the errors of the network on zero targets.",
 "C121": "Exact arithmetic. C121_stuck shows that the assumption of reproducible targets is needed.",
 "C122": "Exact arithmetic, batches of one point. The step itself is C50_partial_value.",
 "C123": "Exact arithmetic. It says which parameters exist, not that training finds them.",
 "C124": "IEEE 754 arithmetic as modelled in Spec/Ieee.lean; any library functions.",
 "C125": "Exact arithmetic (real numbers). C121_stuck shows that the limit is in general not the best choice of parameters.",
 "C126": "Number formats in the sense of C78: every operation errs by at most u absolutely and relatively. The precision is shown to exist, without a formula for it. The format of the counterexample is biased; IEEE formats round to nearest.",
 "C127": "The stability of the exact run is an assumption; it is shown for linear layers (C127_linear) only. It cannot hold where whole curves of parameters give the same network, as with several linear layers in a row.",
 "C128": "The condition on the blocks (TransOff) says that the offsets of the upsampling are transposed with the block; C128_blocks shows it for square and for even blocks.",
 "C129": "The learning rate must be real because *= on complex numbers is wrong (C20). The condition where a convolutional layer reads the maps comes from its backward pass, which treats the two derivatives it passes back separately. ModZ panics at zero and is therefore outside the networks considered.",
 "C130": "Training with the cross-entropy loss is covered because the code uses the derivative of the squared error for both loss functions. That training depends on the origin of the inputs is shown for every learning rate with a real part other than zero.",
 "C131": "That RITSigmoid wakes zero units is shown on one network for every learning rate with a real part other than zero. With the cardioid the exact model has the value 4 at zero; in the code Cf64 gives NaN there (C86)."
}