{"id": "C01", "title": "Matrix stays rectangular under every history", "statement": "A Matrix built by new/with_capacity and then changed by any sequence of the public mutators always stores exactly rows*cols elements, where rows and cols are what get_shape reports, and never panics on the way.", "quantifier": "all capacities, all element types, all finite sequences of add_row, add_mut_row, del_row, add_col, dealloc, element writes and in-place arithmetic", "why_tests_cant": "The state space of histories is infinite; a corrupting interleaving (e.g. zero-width rows followed by a wide one) is easy to miss.", "anchors": ["src/math/matrix/mod.rs:Matrix::new", "src/math/matrix/mod.rs:Matrix::with_capacity", "src/math/matrix/mod.rs:Matrix::add_row", "src/math/matrix/mod.rs:Matrix::add_mut_row", "src/math/matrix/mod.rs:Matrix::add_col", "src/math/matrix/mod.rs:Matrix::del_row", "src/math/matrix/mod.rs:Matrix::dealloc"]}
{"id": "C02", "title": "Row-major addressing", "statement": "On a rectangular matrix elm(i,j) succeeds exactly when i<rows and j<cols and returns the j-th element of the i-th row; row(i), copy_col_into_vec(j), row_into_slice and col_into_slice return the same elements; nothing panics; out-of-range indices are reported as errors.", "quantifier": "all shapes, all bodies, all index pairs", "why_tests_cant": "Index arithmetic must be right for every shape, including non-square and zero dimensions.", "anchors": ["src/math/matrix/mod.rs:Matrix::elm", "src/math/matrix/mod.rs:Matrix::row", "src/math/matrix/mod.rs:Matrix::copy_col_into_vec", "src/math/matrix/mod.rs:Matrix::row_into_slice", "src/math/matrix/mod.rs:Matrix::col_into_slice"]}
{"id": "C03", "title": "Element write is local", "statement": "Writing through elm_mut(i,j) changes what elm reads at (i,j) to the written value and leaves every other element and the shape as they were.", "quantifier": "all rectangular matrices, all in-range positions, all values, all other positions", "why_tests_cant": "Aliasing of two positions shows up only for particular shapes.", "anchors": ["src/math/matrix/mod.rs:Matrix::elm_mut", "src/math/matrix/mod.rs:Matrix::row_as_mut"]}
{"id": "C04", "title": "add_row appends or rejects atomically", "statement": "add_row either appends exactly the given row after the existing rows, or returns an error and leaves the matrix exactly as it was; it is accepted exactly when the row has the matrix width (any width for an empty matrix) and fits the capacity.", "quantifier": "all rectangular matrices, all rows", "why_tests_cant": "Atomicity on the error path and the capacity test interact over all shape/capacity pairs.", "anchors": ["src/math/matrix/mod.rs:Matrix::add_row"]}
{"id": "C05", "title": "del_row removes exactly one row", "statement": "del_row(i) with i<rows returns the i-th row and leaves the other rows in order; with i>=rows it returns an error and changes nothing. After a successful del_row the capacity equals the shape, so the next add_row is always rejected unless it is inconsistent for another reason.", "quantifier": "all rectangular matrices, all indices, all rows added afterwards", "why_tests_cant": "Needs every index and every shape; the loss of capacity is an effect on later histories.", "anchors": ["src/math/matrix/mod.rs:Matrix::del_row", "src/math/matrix/mod.rs:Matrix::dealloc"]}
{"id": "C06", "title": "add_mut_row agrees with add_row", "statement": "add_mut_row accepts and appends exactly the rows that add_row accepts, and empties the caller's vector on success.", "quantifier": "all rectangular matrices, all rows", "why_tests_cant": "The two guards differ; agreement must be checked for all shape/capacity/length triples.", "anchors": ["src/math/matrix/mod.rs:Matrix::add_mut_row"]}
{"id": "C07", "title": "add_col appends a column", "statement": "add_col with a column whose length equals the number of rows appends that column to the right of the matrix (when capacity allows) and otherwise reports an error; it never corrupts the matrix.", "quantifier": "all rectangular matrices, all columns", "why_tests_cant": "The guard is a comparison over all lengths; one passing example does not show the condition is the right way round.", "anchors": ["src/math/matrix/mod.rs:Matrix::add_col"]}
{"id": "C08", "title": "Flip reverses both axes", "statement": "flip returns a matrix of the same shape whose (i,j) element is the (rows-1-i, cols-1-j) element of the original; flipping twice gives the original elements.", "quantifier": "all rectangular matrices", "why_tests_cant": "Back-propagation relies on it for every kernel size.", "anchors": ["src/math/matrix/mod.rs:Matrix::flip"]}
{"id": "C09", "title": "Padding surrounds with zeros", "statement": "pad((p,q)) yields a (rows+2p) x (cols+2q) rectangular matrix equal to the original inside and to the default value in the border, without panicking.", "quantifier": "all rectangular matrices, all pad amounts including 0", "why_tests_cant": "Border arithmetic for every size.", "anchors": ["src/math/matrix/mod.rs:Matrix::pad"]}
{"id": "C10", "title": "Matrix addition and scalar operations are element-wise", "statement": "add_mut of two equally shaped matrices adds element by element; a never-filled matrix acts as a neutral element on either side; other shape mismatches are rejected and leave the left operand unchanged; add_mut_scalar and mul_mut_scalar act on every element and keep the shape.", "quantifier": "all matrices, all scalars", "why_tests_cant": "The neutral-element special case and the mismatch guard overlap in a compound condition.", "anchors": ["src/math/matrix/mod.rs:Matrix::add_mut", "src/math/matrix/mod.rs:Matrix::add_mut_scalar", "src/math/matrix/mod.rs:Matrix::mul_mut_scalar", "src/math/matrix/mod.rs:Matrix::div_mut_scalar"]}
{"id": "C11", "title": "Matrix-vector product", "statement": "mul_slice and mul_vec return, for every row, the sum of products of the row with the vector; they reject any vector whose length is not the number of columns; for a rectangular matrix with at least one column they never panic.", "quantifier": "all rectangular matrices, all vectors", "why_tests_cant": "Every shape and every vector length.", "anchors": ["src/math/matrix/mod.rs:Matrix::mul_slice", "src/math/matrix/mod.rs:Matrix::mul_vec"]}
{"id": "C12", "title": "Convolution is the valid cross-correlation", "statement": "convolution(kernel) of an r x c matrix with a kr x kc kernel, 1<=kr<=r and 1<=kc<=c, never panics and returns the (r-kr+1) x (c-kc+1) matrix whose (i,j) element is the sum over a<kr, b<kc of m(i+a,j+b)*kernel(a,b); a larger kernel is rejected with an error.", "quantifier": "all matrix and kernel shapes and contents", "why_tests_cant": "The sliding-window implementation must match the formula for every size, not for one image.", "anchors": ["src/math/matrix/mod.rs:Matrix::convolution", "src/math/matrix/mod.rs:Matrix::get_slider", "src/math/matrix/mod.rs:SliceOps::scalar_prod"]}
{"id": "C13", "title": "Convolution is bilinear", "statement": "Convolving a sum of matrices is the sum of convolutions, scalars factor out, in both arguments.", "quantifier": "all matrices, kernels and scalars (exact arithmetic)", "why_tests_cant": "An algebraic law over all inputs.", "anchors": ["src/math/matrix/mod.rs:Matrix::convolution"]}
{"id": "C14", "title": "Flipped-kernel convolution of the padded map is the adjoint of convolution", "statement": "For every matrix x, kernel k and map y of the output shape, the pairing of convolution(x,k) with y equals the pairing of x with convolution(pad(y,(kr-1,kc-1)), flip(k)).", "quantifier": "all shapes, all contents (exact arithmetic)", "why_tests_cant": "This identity is what makes back-propagation through a convolution right; it is a statement about all inputs.", "anchors": ["src/math/matrix/mod.rs:Matrix::convolution", "src/math/matrix/mod.rs:Matrix::pad", "src/math/matrix/mod.rs:Matrix::flip", "src/cvnn/layer/conv.rs:ConvCLayer::compute_derivatives"]}
{"id": "C15", "title": "Block reduction partitions the matrix", "statement": "block_reduce with block (p,q), p,q>=1, p|rows, q|cols, and rows>=p, cols>=q returns the (rows/p) x (cols/q) matrix whose (i,j) entry is block_func of exactly the elements (i*p+a, j*q+b), a<p, b<q, in row-major order; non-dividing or too large blocks are rejected with an error.", "quantifier": "all rectangular matrices, all block sizes, all reduction functions", "why_tests_cant": "Iterator bookkeeping for all sizes and an arbitrary user closure.", "anchors": ["src/math/matrix/mod.rs:Matrix::block_reduce"]}
{"id": "C16", "title": "Fractional up-sampling restores the pre-reduction shape", "statement": "fractional_upsampling with block (p,q) and an odd kernel returns a matrix of shape (rows*p, cols*q), so gradients of a Reduce layer have the size of its input.", "quantifier": "all rectangular matrices, all block sizes, all odd kernel shapes", "why_tests_cant": "Size arithmetic over all blocks and kernels; the tests use one block and one kernel.", "anchors": ["src/math/matrix/mod.rs:Matrix::fractional_upsampling", "src/cvnn/layer/reduce.rs:Reduce::compute_derivatives"]}
{"id": "C17", "title": "Slice arithmetic is element-wise and checks lengths", "statement": "add_slice_mut, mul_slice_mut and mul_slice act element by element on equal lengths and reject unequal lengths leaving the operand unchanged; add_slice does the same except that an empty left operand returns the right one; scalar_prod is the sum of products.", "quantifier": "all slices and scalars", "why_tests_cant": "Every pair of lengths.", "anchors": ["src/math/matrix/mod.rs:SliceOps"]}
{"id": "C18", "title": "Rows round-trip", "statement": "rows_as_iter of a rectangular matrix with at least one column yields exactly `rows` slices of length `cols` whose concatenation is the body; slice-to-matrix conversion succeeds exactly when the length is rows*cols and exporting the body returns the slice.", "quantifier": "all rectangular matrices, all slices and shapes", "why_tests_cant": "Round-trip over all sizes.", "anchors": ["src/math/matrix/mod.rs:Matrix::rows_as_iter", "src/math/matrix/mod.rs:SliceToMatrix::to_matrix", "src/math/matrix/mod.rs:Matrix::export_body"]}
{"id": "C19", "title": "Complex +,-,*,/ are the field operations", "statement": "Cf32/Cf64 addition, subtraction, multiplication, conjugation and division compute the complex field operations (in exact arithmetic); division panics exactly for a zero divisor.", "quantifier": "all complex operands", "why_tests_cant": "Algebraic identity over all operands.", "anchors": ["src/math/cfloat/mod.rs:Add", "src/math/cfloat/mod.rs:Mul", "src/math/cfloat/mod.rs:Div", "src/math/mod.rs:Complex::conj"]}
{"id": "C20", "title": "Compound assignment means operate-then-assign", "statement": "a += b, a -= b, a *= b and a /= b leave in a the value of a+b, a-b, a*b and a/b.", "quantifier": "all complex operands", "why_tests_cant": "Holds for real right operands, so tests with real learning rates pass; must hold for all.", "anchors": ["src/math/cfloat/mod.rs:AddAssign", "src/math/cfloat/mod.rs:MulAssign", "src/math/cfloat/mod.rs:DivAssign"]}
{"id": "C21", "title": "Norm and conjugate laws", "statement": "conj is an involutive automorphism, z*conj(z) is norm_sq(z), norm_sq is multiplicative and zero only at zero, norm is the square root of norm_sq and satisfies the triangle inequality.", "quantifier": "all complex numbers (exact arithmetic)", "why_tests_cant": "Laws over all inputs.", "anchors": ["src/math/mod.rs:Complex::norm", "src/math/mod.rs:Complex::norm_sq", "src/math/mod.rs:Complex::conj"]}
{"id": "C22", "title": "Comparison orders by modulus", "statement": "<,<=,>,>= on complex numbers are a total preorder given by modulus, mutually consistent and consistent with partial_cmp, and partial_cmp is Equal exactly for equal numbers (the contract of PartialOrd).", "quantifier": "all pairs and triples of complex numbers", "why_tests_cant": "Order laws quantify over all triples.", "anchors": ["src/math/cfloat/mod.rs:PartialOrd"]}
{"id": "C23", "title": "Polar round-trip", "statement": "newe(norm(z), phase(z)) gives back z, for both precisions.", "quantifier": "all complex numbers (exact arithmetic)", "why_tests_cant": "Must hold in every quadrant.", "anchors": ["src/math/mod.rs:Complex::newe", "src/math/mod.rs:Complex::phase"]}
{"id": "C24", "title": "Generator state stays in range and never overflows", "statement": "After any number of draws of lcgf32/lcgf64/lcgi from any seed that the first multiplication can hold, the seed is below 2^31-1 and no later draw overflows; the state is a function of the seed and the number of draws only.", "quantifier": "all seeds, all numbers and mixes of draws", "why_tests_cant": "Unbounded sequences of draws.", "anchors": ["src/math/random/mod.rs:lcgf32", "src/math/random/mod.rs:lcgf64", "src/math/random/mod.rs:lcgi"]}
{"id": "C25", "title": "Uniform draws lie in [0,1)", "statement": "lcgf32 and lcgf64 return values in [0,1), with distinct seeds giving distinct lcgf64 values.", "quantifier": "all seeds", "why_tests_cant": "2^31 states, and the float rounding of the largest ones decides.", "anchors": ["src/math/random/mod.rs:lcgf32", "src/math/random/mod.rs:lcgf64"]}
{"id": "C26", "title": "Random index is below the limit", "statement": "lcgi(seed, limit) returns an index in 0..limit-1 for every positive limit.", "quantifier": "all seeds, all limits", "why_tests_cant": "Fails only for a handful of the 2^31 states, which sampling will not hit.", "anchors": ["src/math/random/mod.rs:lcgi"]}
{"id": "C27", "title": "Generator is a permutation without stuck states", "statement": "The state update is injective on the reachable states and has no fixed point, so the draws do not get stuck.", "quantifier": "all states", "why_tests_cant": "A single bad state among 2^31-1.", "anchors": ["src/math/random/mod.rs:lcgf32"]}
{"id": "C28", "title": "Initialisers stay inside their radius", "statement": "Every weight drawn by the uniform, Xavier and Xavier-Glorot-uniform initialisers has modulus at most the documented radius; every draw advances the generator by a fixed number of steps, so initialisation is reproducible from the seed.", "quantifier": "all seeds, all scale/unit counts, both precisions (exact arithmetic)", "why_tests_cant": "All seeds.", "anchors": ["src/init/mod.rs:InitMethod::gen", "src/math/mod.rs:Complex::gen", "src/math/mod.rs:Complex::gen_xagu", "src/math/mod.rs:Complex::gen_xa"]}
{"id": "C29", "title": "Activation derivatives are the Wirtinger derivatives", "statement": "For every activation function option, d_activate and d_conj_activate are the derivatives with respect to z and conj(z) of activate, at every point where it is differentiable.", "quantifier": "all activation options, all complex points (exact arithmetic)", "why_tests_cant": "A derivative is a limit; finite differences at sample points cannot settle it.", "anchors": ["src/act/mod.rs:ComplexActFunc"]}
{"id": "C30", "title": "Sigmoid is bounded, monotone and symmetric", "statement": "Each component of RITSigmoid lies strictly between 0 and 1, is non-decreasing in the corresponding component of the input and maps -x to 1-f(x).", "quantifier": "all real inputs, both precisions (exact arithmetic)", "why_tests_cant": "The clamp threshold introduces a seam that only matters at two points.", "anchors": ["src/act/mod.rs:sigmoid_f32", "src/act/mod.rs:sigmoid_f64"]}
{"id": "C31", "title": "ReLU family selects by sign", "statement": "RITReLU returns max(0,.) of each component and is idempotent; zReLU returns its argument when both components are non-negative and 0 otherwise; ModZ returns a unit-modulus number for every non-zero input and panics at 0.", "quantifier": "all complex inputs (exact arithmetic)", "why_tests_cant": "Case split over all inputs.", "anchors": ["src/act/mod.rs:ritrelu_cf32", "src/act/mod.rs:zrelu_cf32", "src/act/mod.rs:mod_z_cf32"]}
{"id": "C32", "title": "Slice activation is element-wise", "statement": "Activating a slice in place equals activating each element, preserves length, and panics exactly when some element's activation panics.", "quantifier": "all activation options, all slices", "why_tests_cant": "All lengths and contents.", "anchors": ["src/act/mod.rs:compute_cf32", "src/act/mod.rs:compute_d_cf32", "src/act/mod.rs:compute_d_conj_cf32"]}
{"id": "C33", "title": "Mean-square loss is the mean squared error", "statement": "The MeanSquare loss of target and prediction of length n is (1/n) * sum |t_i-p_i|^2; it is non-negative and zero exactly when they agree.", "quantifier": "all n>=1, all targets and predictions (exact arithmetic)", "why_tests_cant": "The divisor must be right for every n, including 1.", "anchors": ["src/opt/mod.rs:mean_sq_loss_cf32", "src/opt/mod.rs:mean_sq_loss_cf64"]}
{"id": "C34", "title": "Loss derivative is the gradient of the loss", "statement": "d_loss is the vector of derivatives of the reported loss with respect to the prediction components, for each loss function.", "quantifier": "all targets and predictions, both loss functions (exact arithmetic)", "why_tests_cant": "A statement about derivatives at all points.", "anchors": ["src/opt/mod.rs:d_mean_sq_loss_cf32", "src/opt/mod.rs:d_norm_ce_loss_cf32"]}
{"id": "C35", "title": "Cross-entropy loss is non-negative for one-hot targets", "statement": "For a one-hot target the NormCrossEntropy loss is minus the log of the soft-max probability of the true class, hence non-negative, and smaller when the true class's modulus grows.", "quantifier": "all prediction lengths and values, all classes (exact arithmetic)", "why_tests_cant": "All predictions.", "anchors": ["src/opt/mod.rs:norm_ce_loss_cf32"]}
{"id": "C36", "title": "Loss rejects mismatched kinds", "statement": "Loss and loss derivative return an error exactly when one of target and prediction is a list of scalars and the other a list of matrices; otherwise they return a value and the derivative has as many entries as the shorter of the two.", "quantifier": "all targets, predictions and loss functions", "why_tests_cant": "All shape combinations.", "anchors": ["src/opt/mod.rs:compute_cf32", "src/opt/mod.rs:compute_d_cf32"]}
{"id": "C37", "title": "Dense layer initialisation", "statement": "DenseCLayer::init with a scalar input shape n and u units yields a layer with u*n weights and u zero biases whose reported input shape is n, output shape u and parameter count (u*n,u); it advances the seed by exactly u*n draws in row order; a matrix input shape is rejected.", "quantifier": "all n, u, activation options, methods and seeds", "why_tests_cant": "All sizes and seeds.", "anchors": ["src/cvnn/layer/dense.rs:DenseCLayer::init"]}
{"id": "C38", "title": "Dense forward pass", "statement": "Forwarding x through a dense layer gives, for each unit, activation(sum_i w_ji x_i + b_j); a wrong-length vector panics; matrix input is an error.", "quantifier": "all layers, all inputs", "why_tests_cant": "All sizes and values.", "anchors": ["src/cvnn/layer/dense.rs:DenseCLayer::forward"]}
{"id": "C39", "title": "Convolutional layer initialisation", "statement": "ConvCLayer::init with n input maps, f filters and kernel (p,q) has f*n kernels of p x q and f zero biases, reports input n, output f, parameter count (f*n*p*q, f), and advances the seed by f*n*p*q draws; a scalar input shape is rejected.", "quantifier": "all sizes, methods and seeds", "why_tests_cant": "All sizes.", "anchors": ["src/cvnn/layer/conv.rs:ConvCLayer::init"]}
{"id": "C40", "title": "Convolutional forward pass", "statement": "Forwarding n equally sized maps through a convolutional layer whose kernels fit gives one map per filter whose (i,j) element is activation(bias + sum over channels and kernel offsets); the wrong number of channels is an error; a kernel that does not fit panics.", "quantifier": "all layers and inputs", "why_tests_cant": "All shapes.", "anchors": ["src/cvnn/layer/conv.rs:ConvCLayer::forward"]}
{"id": "C41", "title": "Reduce and Flatten forward passes", "statement": "Reduce applies block reduction map by map and keeps the number of maps; Flatten concatenates the maps in order, row by row; both reject scalar input with an error; Flatten's output has the advertised length when the maps have the declared size.", "quantifier": "all layers and inputs", "why_tests_cant": "All shapes and an arbitrary block function.", "anchors": ["src/cvnn/layer/reduce.rs:Reduce::foward", "src/cvnn/layer/flatten.rs:Flatten::foward"]}
{"id": "C42", "title": "Advertised shapes are honoured", "statement": "Whenever forward succeeds on an input matching a layer's get_input_shape, the output matches its get_output_shape.", "quantifier": "all layers of all kinds, all matching inputs", "why_tests_cant": "All layers and inputs.", "anchors": ["src/cvnn/layer/mod.rs:CLayer::get_input_shape", "src/cvnn/layer/mod.rs:CLayer::get_output_shape", "src/cvnn/layer/mod.rs:CLayer::foward"]}
{"id": "C43", "title": "Network construction keeps layers compatible", "statement": "After any sequence of add_input and add calls, consecutive layers have equal output/input shapes, no layer is uninitialised, and a failed call returns an error and leaves the network unchanged; no call panics.", "quantifier": "all call sequences, all layers", "why_tests_cant": "Unbounded histories; the call order matters (add before add_input).", "anchors": ["src/cvnn/network/mod.rs:CNetwork::add_input", "src/cvnn/network/mod.rs:CNetwork::add"]}
{"id": "C44", "title": "Forward is the composition of the layers", "statement": "forward on a non-empty network is the left-to-right composition of the layers' forward passes and equals the last element of collect_acts; an empty network returns MissingLayers.", "quantifier": "all networks and inputs", "why_tests_cant": "All depths.", "anchors": ["src/cvnn/network/mod.rs:CNetwork::forward", "src/cvnn/network/mod.rs:CNetwork::collect_acts"]}
{"id": "C45", "title": "Intercept returns the features at a layer", "statement": "intercept(x,i) returns the i-th layer together with the output features of the i-th layer, an error when i is not a layer index, and never panics for a network that can forward x.", "quantifier": "all networks, inputs and indices", "why_tests_cant": "All depths and indices; off-by-one.", "anchors": ["src/cvnn/network/mod.rs:CNetwork::intercept"]}
{"id": "C46", "title": "A network that was built can forward", "statement": "If every layer was accepted by add_input/add, forwarding an input that matches the network's input shape returns a prediction matching its output shape, without panicking.", "quantifier": "all accepted networks, all matching inputs", "why_tests_cant": "All architectures.", "anchors": ["src/cvnn/network/mod.rs:CNetwork::forward", "src/cvnn/network/mod.rs:CNetwork::add"]}
{"id": "C47", "title": "Parameter count", "statement": "params_len is the total number of stored weights and biases and is unchanged by training.", "quantifier": "all networks and training histories", "why_tests_cant": "All networks, all histories.", "anchors": ["src/cvnn/network/mod.rs:CNetwork::params_len"]}
{"id": "C48", "title": "Back-propagation computes the gradient of a dense network", "statement": "For a network of dense layers (optionally behind flatten layers), the per-sample derivatives accumulated by gradient_opt are the exact Wirtinger derivatives of the summed squared error with respect to every weight and bias.", "quantifier": "all depths, widths, weights, inputs, targets, and activations at points of differentiability (exact arithmetic)", "why_tests_cant": "Gradient correctness is a statement about derivatives for all networks; finite differences sample it.", "anchors": ["src/cvnn/network/mod.rs:CNetwork::gradient_opt", "src/cvnn/layer/dense.rs:DenseCLayer::compute_derivatives"]}
{"id": "C49", "title": "Back-propagation through convolutional layers", "statement": "compute_derivatives of a convolutional layer returns the Wirtinger derivatives of the loss with respect to kernels, biases and input maps (and their conjugates).", "quantifier": "all sizes, contents, activations (exact arithmetic)", "why_tests_cant": "Gradient correctness over all inputs.", "anchors": ["src/cvnn/layer/conv.rs:ConvCLayer::compute_derivatives"]}
{"id": "C50", "title": "Training step is gradient descent on the batch", "statement": "gradient_opt replaces each parameter p by p - conj((lr/B) * sum over the batch of dL/dp), for any complex learning rate, keeping all shapes.", "quantifier": "all networks, batches, learning rates", "why_tests_cant": "All inputs; complex learning rates exercise code that real ones do not.", "anchors": ["src/cvnn/network/mod.rs:CNetwork::gradient_opt", "src/cvnn/layer/dense.rs:DenseCLayer::neg_conj_adjustment", "src/cvnn/layer/conv.rs:ConvCLayer::neg_conj_adjustment"]}
{"id": "C51", "title": "Training does not depend on the order of the batch", "statement": "In exact arithmetic, permuting the points of the batch does not change the parameters after gradient_opt. In f32 and f64 it does: there are three points that leave the bias unchanged in one order and change it by 1, the exact result, in the reverse order.", "quantifier": "all networks, batches and permutations", "why_tests_cant": "All permutations of unbounded batches.", "anchors": ["src/cvnn/network/mod.rs:CNetwork::gradient_opt"]}
{"id": "C52", "title": "Perfectly fitted parameters are a fixed point", "statement": "If the network predicts every target of the batch exactly, gradient_opt leaves every parameter unchanged.", "quantifier": "all networks and fitted batches, all learning rates (exact arithmetic)", "why_tests_cant": "All networks.", "anchors": ["src/cvnn/network/mod.rs:CNetwork::gradient_opt"]}
{"id": "C53", "title": "A small step decreases the loss", "statement": "For dense networks and real learning rates, the derivative at rate 0 of the batch squared error after gradient_opt is minus (2/B) times the squared norm of the gradient, so it strictly decreases unless the gradient vanishes.", "quantifier": "all dense networks and batches (exact arithmetic, differentiability points)", "why_tests_cant": "A limit statement over all networks.", "anchors": ["src/cvnn/network/mod.rs:CNetwork::gradient_opt", "src/cvnn/network/mod.rs:CNetwork::loss"]}
{"id": "C54", "title": "Training refuses degenerate calls safely", "statement": "gradient_opt on a network with fewer than two layers returns MissingLayers without change; an empty batch never corrupts or crashes.", "quantifier": "all networks and batches", "why_tests_cant": "Edge cases of a quantified size.", "anchors": ["src/cvnn/network/mod.rs:CNetwork::gradient_opt", "src/cvnn/network/mod.rs:CNetwork::loss"]}
{"id": "C55", "title": "Parameter adjustment is all or nothing", "statement": "Adjusting a layer with derivative vectors of the wrong length returns InconsistentShape and changes nothing; with the right lengths it subtracts the conjugate element-wise and keeps the shape.", "quantifier": "all layers and vectors", "why_tests_cant": "All lengths.", "anchors": ["src/cvnn/layer/dense.rs:DenseCLayer::neg_conj_adjustment", "src/cvnn/layer/conv.rs:ConvCLayer::neg_conj_adjustment"]}
{"id": "C56", "title": "Accuracy is the fraction of matching arg-max", "statement": "max_pred_test returns k/B where k counts the points whose prediction and target have the same first index of largest modulus; the value is in [0,1] for a non-empty batch.", "quantifier": "all networks and batches", "why_tests_cant": "All predictions, ties included.", "anchors": ["src/cvnn/network/mod.rs:CNetwork::max_pred_test"]}
{"id": "C57", "title": "Network loss is the batch mean", "statement": "loss returns the arithmetic mean of the per-point losses, is invariant under permuting the batch, and panics exactly for an empty batch or a point that cannot be evaluated.", "quantifier": "all networks, batches, permutations", "why_tests_cant": "All batches.", "anchors": ["src/cvnn/network/mod.rs:CNetwork::loss"]}
{"id": "C58", "title": "Dataset is an ordered list of points", "statement": "After any sequence of add_point calls, get_n_points is the number of calls, get_point(i) is the i-th added pair, and both iterators enumerate the pairs in order.", "quantifier": "all sequences of points, all indices", "why_tests_cant": "Unbounded histories.", "anchors": ["src/dataset/mod.rs:Dataset::add_point", "src/dataset/mod.rs:Dataset::get_point"]}
{"id": "C59", "title": "One-hot targets", "statement": "gen_pred(size,k) returns the vector of length size with a one at k and zeros elsewhere for k<size and an error for k>=size.", "quantifier": "all sizes and indices", "why_tests_cant": "Boundary at k=size.", "anchors": ["src/math/mod.rs:Complex::gen_pred", "src/math/mod.rs:Real::gen_pred"]}
{"id": "C60", "title": "MNIST batches are consecutive records", "statement": "Successive batch reads over one pair of files yield the records in file order, without skipping or repeating, labels matched to images; a batch never contains more points than requested nor points beyond the end of the files.", "quantifier": "all well-formed file pairs, all batch sizes and numbers of batches", "why_tests_cant": "Unbounded histories of reads over arbitrary files.", "anchors": ["src/dataset/mod.rs:minist_as_batch", "src/dataset/mod.rs:minist_as_complex_batch"]}
{"id": "C61", "title": "Synthetic signals are well-formed", "statement": "signal_reconstruction returns two batches of exactly batch_size points, each with `samples` inputs and targets, every target sample having modulus at most 1; it is determined by the two seeds.", "quantifier": "all even sample counts, batch sizes, thresholds, seeds (exact arithmetic)", "why_tests_cant": "All seeds.", "anchors": ["src/dataset/mod.rs:signal_reconstruction"]}
{"id": "C62", "title": "CSV export lays out rows", "statement": "Matrix::to_csv writes one line per row with every element followed by a comma; Dataset::to_csv writes one line per point with inputs then targets separated by commas; the cells can be recovered from the text when no element prints a comma or newline.", "quantifier": "all matrices and datasets", "why_tests_cant": "Round-trip over all contents.", "anchors": ["src/math/matrix/mod.rs:Matrix::to_csv", "src/dataset/mod.rs:Dataset::to_csv"]}
{"id": "C63", "title": "Input wrappers release only their own kind", "statement": "release_vec/as_slice/to_vec return the scalars of a scalar value, release_maps the matrices of a matrix value; release_* report an error and as_slice/to_vec panic on the other kind.", "quantifier": "all values", "why_tests_cant": "All values of both kinds.", "anchors": ["src/input/mod.rs:IOType"]}
{"id": "C64", "title": "Back-propagation computes the gradient of convolutional networks", "statement": "For a network of convolutional, pooling, flatten and dense layers, the per-sample derivatives accumulated by gradient_opt are the exact Wirtinger derivatives of the summed squared error with respect to every kernel, weight and bias.", "quantifier": "all depths, sizes, kernels, weights, inputs, targets, and activations at points of differentiability (exact arithmetic)", "why_tests_cant": "Gradient correctness is a statement about derivatives for all networks; finite differences sample it.", "anchors": ["src/cvnn/network/mod.rs:CNetwork::gradient_opt", "src/cvnn/layer/conv.rs:ConvCLayer::compute_derivatives", "src/cvnn/layer/reduce.rs:Reduce::compute_derivatives"]}
{"id": "C65", "title": "Each initialiser draws the weight it stands for", "statement": "Every initialisation method returns a modulus times a direction exp(2 pi i u): the uniform methods a modulus uniform on their radius, the He and Xavier-Glorot normal methods a Box-Muller normal number of standard deviation sqrt(2/n); all computed from the next two or three draws of the generator. A normal weight never exceeds sqrt(2/n)*sqrt(62 ln 2) in modulus unless a draw is exactly zero.", "quantifier": "all methods, all seeds, all unit counts, both precisions (exact arithmetic)", "why_tests_cant": "All seeds; a wrong scale factor only shows in the distribution.", "anchors": ["src/init/mod.rs:InitMethod::gen", "src/math/mod.rs:Complex::gen_he", "src/math/mod.rs:Complex::gen_xagn"]}
{"id": "C66", "title": "Training never panics on fitting networks and data", "statement": "For a network of at least two layers whose extents fit from layer to layer, whose activations are not ModZ and whose pooling layers use a 3x3 interpolation kernel, gradient_opt on any batch of points of the fitting extents returns Ok and leaves a network with the same properties, for any number of calls; it panics exactly if dividing the learning rate by the batch size does.", "quantifier": "all depths, sizes, kinds of layers, parameters, batches, losses, learning rates and training histories, any arithmetic (rounding, infinities and NaN included)", "why_tests_cant": "Every intermediate length and shape in the backward pass must agree for all architectures at once; tests train a handful.", "anchors": ["src/cvnn/network/mod.rs:CNetwork::gradient_opt", "src/cvnn/layer/conv.rs:ConvCLayer::compute_derivatives", "src/cvnn/layer/dense.rs:DenseCLayer::compute_derivatives", "src/cvnn/layer/reduce.rs:Reduce::compute_derivatives"]}
{"id": "C67", "title": "The pooling layer passes back the derivatives of its block function", "statement": "For a pooling layer whose block function is a weighted sum, Reduce::compute_derivatives returns the derivatives of the loss with respect to the layer's input: every entry of a block gets the derivative of that block's output times its own weight.", "quantifier": "all block sizes, weights, interpolation kernels, numbers and sizes of maps, inputs and output derivatives (exact arithmetic)", "why_tests_cant": "Which interpolation kernels are right is a statement about all inputs; the code never compares the kernel with the block function.", "anchors": ["src/cvnn/layer/reduce.rs:Reduce::compute_derivatives", "examples/classification.rs:_get_2conv_layer_cvcnn"]}
{"id": "C68", "title": "The synthetic signals, sample by sample", "statement": "signal_reconstruction returns, for every point, a target that is a superposition of 1 to 9 waves scaled to peak 1, and an input that is the target plus Box-Muller noise of standard deviation thr + thr/20*|sample| in a uniform direction, all computed from consecutive draws; the seeds advance by the number of draws. The training batch is determined by the training seed and the test batch by the test seed.", "quantifier": "all even sample counts, batch sizes, thresholds and seeds the generator can hold (exact arithmetic)", "why_tests_cant": "All seeds; a wrong noise formula or a mixed-up seed still gives plausible signals.", "anchors": ["src/dataset/mod.rs:signal_reconstruction"]}
{"id": "C69", "title": "The example programs build the networks they describe", "statement": "The network builders of the example programs succeed: every unwrap on a layer or network constructor is on Ok, the layers fit each other and the data, the network has the stated numbers of parameters, and the seed advances by two draws per parameter pair that is initialised.", "quantifier": "all seeds the generator can hold, all positive sample counts, every arithmetic of the floats (the two-convolution network: where dividing by 4 does not panic)", "why_tests_cant": "All seeds and sample counts; a run shows one seed, and layer sizes that disagree only show up as a panic deep inside a forward pass.", "anchors": ["examples/classification.rs:_get_2conv_layer_cvcnn", "examples/classification.rs:_get_fully_connected_cvnn", "examples/regression.rs:_get_auto_encoder"]}
{"id": "C70", "title": "The classification program runs to its end and records what it says", "statement": "With the MNIST files in place, classification.rs runs to its end: no unwrap fails and nothing panics. It trains on consecutive batches, each record once per epoch; the recorded losses and accuracies are the means over all records of the epoch, and the recorded test accuracy is the fraction of the test records the network classifies correctly.", "quantifier": "all contents of well-formed files of 60000 and 10000 records, all seeds the generator can hold; the epochs for every network, batch size and loss that fit (every arithmetic where dividing by 255 and the batch size does not panic; the recorded values in exact arithmetic)", "why_tests_cant": "All file contents, seeds and networks; a run takes hours and shows one of them, and a wrongly weighted mean still looks like a learning curve.", "anchors": ["examples/classification.rs:class_pipeline", "examples/classification.rs:_train_pipeline", "examples/classification.rs:_test_pipeline", "examples/classification.rs:_extract_features", "examples/classification.rs:main"]}
{"id": "C71", "title": "The regression program runs to its end and records the mean losses", "statement": "regression.rs runs to its end: no unwrap fails and nothing panics. It trains the auto-encoder on the batches the generator delivers, and the recorded training and test loss of an epoch are the means of the losses of its batches.", "quantifier": "all seeds the generator can hold; the epochs for every network from signals to signals, even sample count, threshold, learning rate, loss, number and size of batches and number of epochs (exact arithmetic)", "why_tests_cant": "All seeds, networks and batch counts; the wrong running mean still falls as training proceeds, so a learning curve looks right.", "anchors": ["examples/regression.rs:signal_rec_train_test", "examples/regression.rs:reg_pipeline", "examples/regression.rs:main"]}
{"id": "C72", "title": "The random numbers have the full period and are equally distributed over it", "statement": "From every seed not congruent to 1934915413 modulo 2^31-1 the draws repeat exactly after 2^31-2 of them and no earlier. In one period every state below 2^31-1 other than 1934915413 occurs exactly once, so the draws are equally distributed over [0,1) and their mean is 1/2 up to 10^-9. The remaining seeds give the same draw forever.", "quantifier": "all seeds, all positions in the sequence and all mixtures of draws (any arithmetic for the states; exact arithmetic for the draws)", "why_tests_cant": "A period of two thousand million draws from every one of the possible seeds; a multiplier of smaller order looks just as random in any short sample.", "anchors": ["src/math/random/mod.rs:lcgf32", "src/math/random/mod.rs:lcgf64", "src/math/random/mod.rs:lcgi"]}
{"id": "C73", "title": "Every training step of the regression program is a gradient-descent step", "statement": "A dense network whose activations are tanh or the identity is trained by exact gradient descent: one training call subtracts from every parameter the learning rate times the conjugate of the derivative of the squared error, averaged over the batch, the trained network is again of this kind, and the error falls for all small enough learning rates unless its gradient is zero. The auto-encoder of regression.rs is such a network, so this holds of every training call of the program.", "quantifier": "all such networks that fit their data, all non-empty batches, real learning rates and losses; for the program all seeds the generator can hold, sample counts, batch sizes and all training calls of the run (exact arithmetic)", "why_tests_cant": "Every parameter of every network at every one of the calls; finite differences check a few parameters of one network up to rounding, and a wrong gradient usually still lowers the loss.", "anchors": ["examples/regression.rs:reg_pipeline", "examples/regression.rs:signal_rec_train_test", "src/cvnn/network/mod.rs:gradient_opt", "src/cvnn/layer/dense.rs:compute_derivatives"]}
{"id": "C74", "title": "Conjugated convolution is the cross-correlation with the conjugated kernel", "statement": "cconvolution(kernel) of an r x c matrix with a kr x kc kernel, 1<=kr<=r and 1<=kc<=c, returns the (r-kr+1) x (c-kc+1) matrix whose (i,j) element is the sum over a<kr, b<kc of m(i+a,j+b)*conj(kernel(a,b)); a larger kernel is rejected with an error.", "quantifier": "all matrix and kernel shapes and contents (any arithmetic for the equality with convolution, exact arithmetic for the sums)", "why_tests_cant": "All sizes; a kernel that is one row too high returns an empty matrix, which no test of fitting sizes shows.", "anchors": ["src/math/matrix/mod.rs:Matrix::cconvolution"]}
{"id": "C75", "title": "Printing a matrix shows its rows", "statement": "Displaying a matrix yields one line per row followed by a line with shape and capacity; displaying a complex number yields both parts, so that different numbers print differently.", "quantifier": "all matrices whose rows print without line breaks; complex numbers whose parts print differently and without blanks", "why_tests_cant": "All shapes, including new, empty matrices.", "anchors": ["src/math/matrix/mod.rs:Display for Matrix", "src/math/cfloat/mod.rs:Display for Cf32", "src/math/cfloat/mod.rs:Display for Cf64"]}
{"id": "C76", "title": "Real draws are symmetric around zero", "statement": "Real::gen(seed, scale) takes exactly one draw u and returns scale*(2u-1), which lies in [-scale, scale]. Over a full period of the generator, from every seed not congruent to 1934915413 modulo 2^31-1, the mean of the values is zero up to scale/10^8. A seed that leaves 128 bits panics.", "quantifier": "all seeds the generator can hold, all scales, any number of calls (exact arithmetic)", "why_tests_cant": "All seeds, and a period of two thousand million draws.", "anchors": ["src/math/mod.rs:Real::gen"]}
{"id": "C77", "title": "Convolutional and pooling layers commute with cutting out a window", "statement": "If a network of convolutional and pooling layers returns on feature maps, then on a window of these maps it returns the corresponding window of that result: a window that begins at (s,t) times the product of the block sizes gives the window that begins at (s,t).", "quantifier": "all networks of convolutional and pooling layers in any number and order that fit the maps and the window, all parameters, activations, block functions, maps and windows, any arithmetic", "why_tests_cant": "All positions and sizes of windows and all depths; an index that depends on the position or the size of the map only shows for some of them.", "anchors": ["src/math/matrix/mod.rs:Matrix::convolution", "src/cvnn/layer/conv.rs:ConvCLayer::forward", "src/cvnn/layer/reduce.rs:Reduce::foward", "src/cvnn/network/mod.rs:CNetwork::forward"]}
{"id": "C78", "title": "Rounded runs tend to the exact ones", "statement": "For every network, input and error bound e > 0 there is a precision d > 0 such that, in every number format of precision d or better, with parameters and inputs within d of the exact ones, the forward pass, the loss and any history of training calls return without panic and lie within e of the exact results, provided the exact run never applies an activation (or, for training, its derivative) where it jumps and the loss does not divide by zero. Where an activation jumps no precision is enough.", "quantifier": "all networks with mean pooling, inputs, data sets, losses, rates and numbers of training calls for which the exact run returns; all number formats whose operations err by at most d absolutely plus d relatively", "why_tests_cant": "All formats and all networks; a test sees one format and cannot compare with exact arithmetic.", "anchors": ["src/cvnn/network/mod.rs:CNetwork::forward", "src/cvnn/network/mod.rs:CNetwork::loss", "src/cvnn/network/mod.rs:CNetwork::gradient_opt"]}
{"id": "C79", "title": "Networks only use the operations of their number type", "statement": "If two number types are related by a relation that their operations, losses and the activations in use preserve, then the forward pass, the loss and any history of training calls on related networks and data give related results or the same error.", "quantifier": "all pairs of number types, all relations, networks, inputs, data sets, losses, rates and numbers of training calls for which the second run returns", "why_tests_cant": "All relations and number types at once.", "anchors": ["src/cvnn/network/mod.rs:CNetwork::forward", "src/cvnn/network/mod.rs:CNetwork::loss", "src/cvnn/network/mod.rs:CNetwork::gradient_opt"]}
{"id": "C80", "title": "Conjugated networks compute conjugated values", "statement": "With activations None, ModZ, RITTanh and Cardioid, the network with conjugated parameters maps the conjugated input to the conjugated output, has the same loss on conjugated data, and training it on conjugated data with conjugated rates gives the conjugated network. The other three activations do not commute with conjugation.", "quantifier": "all networks with these activations, all inputs, data sets, losses, rates and numbers of training calls (exact arithmetic)", "why_tests_cant": "All networks and training histories.", "anchors": ["src/cvnn/network/mod.rs:CNetwork::forward", "src/cvnn/network/mod.rs:CNetwork::loss", "src/cvnn/network/mod.rs:CNetwork::gradient_opt"]}
{"id": "C81", "title": "Real networks stay real", "statement": "With any activation but RITSigmoid, a network with real parameters maps real inputs to real outputs, and training on real data with real rates keeps all parameters real. RITSigmoid never returns a real number.", "quantifier": "all networks without RITSigmoid, all real inputs, data sets and rates, all losses and numbers of training calls (exact arithmetic)", "why_tests_cant": "All networks and training histories.", "anchors": ["src/cvnn/network/mod.rs:CNetwork::forward", "src/cvnn/network/mod.rs:CNetwork::gradient_opt"]}
{"id": "C82", "title": "The shapes a network reports", "statement": "get_input_shape and get_output_shape return MissingInput exactly when the network is empty, otherwise the first layer's input shape and the last layer's output shape. A layer is added only if its input shape is the reported output shape; adding it keeps the input shape and makes its output shape the reported one; training changes neither shape.", "quantifier": "all networks, layers, numbers of added layers and training calls (any arithmetic)", "why_tests_cant": "All networks and sequences of calls.", "anchors": ["src/cvnn/network/mod.rs:CNetwork::get_input_shape", "src/cvnn/network/mod.rs:CNetwork::get_output_shape", "src/cvnn/network/mod.rs:CNetwork::add_input", "src/cvnn/network/mod.rs:CNetwork::add", "src/cvnn/network/mod.rs:CNetwork::gradient_opt"]}
{"id": "C83", "title": "Networks are Lipschitz continuous", "statement": "If two inputs differ by at most d in every entry, the outputs differ by at most L d, where L is the product over the layers of the largest absolute weight sum of an output unit (1 for mean pooling and flatten), for layers without activation or with RITTanh or RITReLU. The bound is attained by a dense layer. The other four activations are not Lipschitz for any constant.", "quantifier": "all networks of dense, convolutional, mean pooling and flatten layers with these activations, all pairs of inputs (exact arithmetic)", "why_tests_cant": "All networks and pairs of inputs.", "anchors": ["src/cvnn/network/mod.rs:CNetwork::forward", "src/cvnn/layer/dense.rs:DenseCLayer::forward", "src/cvnn/layer/conv.rs:ConvCLayer::forward", "src/act/mod.rs:ComplexActFunc"]}
{"id": "C84", "title": "Numbers in f32 and f64", "statement": "A result is rounded to the nearest number of the format, to infinity exactly from half a unit below the first power of two that is too large, and to zero exactly up to half the smallest positive number. Integers up to 2^24 (f32) and 2^53 (f64) are exact. If the library functions are accurate to u, the format meets the conditions under which the rounded run tends to the exact one (C78).", "quantifier": "all real numbers, all binary formats with gradual underflow, all platforms that differ in the library functions", "why_tests_cant": "Uncountably many exact results and every platform.", "anchors": ["src/math/cfloat/mod.rs:Cf32", "src/math/cfloat/mod.rs:Cf64", "src/math/mod.rs:Real"]}
{"id": "C85", "title": "Complex division and ModZ in f32 and f64", "statement": "Dividing panics only if the divisor is zero; a number divided by itself is 1; ModZ is defined for every number but zero.", "quantifier": "all finite numbers of f32 and f64, special values included in the results (IEEE 754)", "why_tests_cant": "2^64 and 2^128 numbers; the exact condition for a panic is on the squares of the parts.", "anchors": ["src/math/cfloat/mod.rs:Div for Cf32", "src/math/cfloat/mod.rs:DivAssign for Cf32", "src/math/cfloat/mod.rs:Div for Cf64", "src/math/cfloat/mod.rs:DivAssign for Cf64", "src/act/mod.rs:mod_z_cf32", "src/act/mod.rs:mod_z_cf64"]}
{"id": "C86", "title": "Activations in f32 and f64", "statement": "The sigmoid and its derivative of every number that is not NaN, infinities included, are finite and between 0 and 1. Cardioid and its derivatives are numbers at zero.", "quantifier": "all numbers of f32 and f64, all platforms that differ in the library functions (IEEE 754)", "why_tests_cant": "All bit patterns and platforms.", "anchors": ["src/act/mod.rs:sigmoid_f32", "src/act/mod.rs:sigmoid_f64", "src/act/mod.rs:card_cf64", "src/act/mod.rs:d_card_cf32", "src/act/mod.rs:d_conj_card_cf32"]}
{"id": "C87", "title": "NaN spreads over the whole network", "statement": "One NaN part in an input makes every output of a network of dense layers NaN. One such point in a training set makes every weight and bias NaN, however many other points there are; afterwards every prediction for every input is NaN. RITReLU and zReLU keep NaN exactly if its sign bit is clear.", "quantifier": "all networks of dense and flatten layers, data sets and inputs in f32 and f64; all platforms that differ in the library functions (IEEE 754)", "why_tests_cant": "All networks, data sets and positions of the NaN.", "anchors": ["src/cvnn/network/mod.rs:CNetwork::gradient_opt", "src/cvnn/network/mod.rs:CNetwork::forward", "src/cvnn/layer/dense.rs:DenseCLayer::compute_derivatives", "src/act/mod.rs:ComplexActFunc", "src/opt/mod.rs:ComplexLossFunc"]}
{"id": "C88", "title": "Initial weights in f32 and f64", "statement": "Every initialiser draws a finite weight, for up to 2^64 units and any seed that does not overflow the generator. Falsified: if the first draw is zero, HeInit and XavierGlorotN make a weight with no finite part, and so do all four initialisers that count units if there are none.", "quantifier": "all initialisers, units, scales and seeds, in f32 and f64 with accurate library functions", "why_tests_cant": "The generator has 2^31 - 2 states; the zero draw is one of them.", "anchors": ["src/init/mod.rs:InitMethod::gen", "src/math/mod.rs:Complex::gen_he", "src/math/mod.rs:Complex::gen_xagn", "src/math/mod.rs:Complex::gen_xa", "src/math/mod.rs:Complex::gen_xagu", "src/math/random/mod.rs:lcgf32"]}
{"id": "C89", "title": "Rounding errors in f32 and f64", "statement": "If no part of a result overflows or is NaN, sums and differences of complex numbers have relative error 2^-p and products 3 * 2^-p plus an underflow term, quotients 10 * 2^-p; the value of a dense or convolutional unit before its activation differs from the exact one by at most ((1 + 2^-p)^k - 1) times the sum of the absolute products, k the number of roundings on the longest path.", "quantifier": "all operands, weights, inputs and sizes, in f32 and f64", "why_tests_cant": "A test sees one rounding error, not the largest one.", "anchors": ["src/math/cfloat/mod.rs:Add", "src/math/cfloat/mod.rs:Sub", "src/math/cfloat/mod.rs:Mul", "src/math/cfloat/mod.rs:Div for Cf32", "src/cvnn/layer/dense.rs:DenseCLayer::compute_q", "src/cvnn/layer/conv.rs:ConvCLayer::compute_q"]}
{"id": "C90", "title": "Rounding error of a whole network in f32 and f64", "statement": "A network of dense, convolutional, mean-pooling and flatten layers with activations None, RITTanh or RITReLU returns what it returns in exact arithmetic up to an error computed layer by layer from the sums of absolute weights, the biases and the sizes; and if these bounds stay below half the overflow threshold nothing overflows.", "quantifier": "all networks of such layers, weights, inputs and sizes, in f32 and f64 with accurate library functions", "why_tests_cant": "The exact result is not available to a test, and the bound is over all weights and inputs.", "anchors": ["src/cvnn/network/mod.rs:CNetwork::forward", "src/cvnn/layer/dense.rs:DenseCLayer::forward", "src/cvnn/layer/conv.rs:ConvCLayer::forward", "src/cvnn/layer/reduce.rs:Reduce::foward", "src/cvnn/layer/flatten.rs:Flatten::foward", "src/act/mod.rs:rittanh_cf32", "src/act/mod.rs:ritrelu_cf32"]}
{"id": "C91", "title": "The predicted class in f32 and f64", "statement": "max_pred_test predicts the first index of largest modulus, as in exact arithmetic.", "quantifier": "all outputs and targets, all networks and batches, in f32 and f64", "why_tests_cant": "It depends on overflow, underflow and rounding of the squares for all outputs, and on the exact result, which a test cannot see.", "anchors": ["src/cvnn/network/mod.rs:CNetwork::max_pred_test", "src/math/cfloat/mod.rs:PartialOrd"]}
{"id": "C92", "title": "The losses in f32 and f64", "statement": "The loss of finite predictions and targets is finite and close to the exact loss.", "quantifier": "all predictions and targets, all networks and batches, in f32 and f64", "why_tests_cant": "It depends on overflow and on the rounding of every operation for outputs of every size and length, and on the exact loss, which a test cannot see.", "anchors": ["src/opt/mod.rs:mean_sq_loss_cf32", "src/opt/mod.rs:mean_sq_loss_cf64", "src/opt/mod.rs:norm_ce_loss_cf32", "src/opt/mod.rs:norm_ce_loss_cf64", "src/cvnn/network/mod.rs:CNetwork::loss"]}
{"id": "C93", "title": "Certified error bounds for prediction, loss and training", "statement": "Running the same code on exact numbers that carry error bounds returns the exact result, and the bounds it returns hold for the floating-point result.", "quantifier": "all networks, data sets, losses and histories of training calls, all accurate formats", "why_tests_cant": "It compares a floating-point run with the exact run, which no test can execute, for every rounding the format may choose.", "anchors": ["src/cvnn/network/mod.rs:CNetwork::forward", "src/cvnn/network/mod.rs:CNetwork::loss", "src/cvnn/network/mod.rs:CNetwork::gradient_opt", "src/act/mod.rs:ritrelu_cf32", "src/math/cfloat/mod.rs:Mul"]}
{"id": "C94", "title": "The laws of batches", "statement": "Training, loss and accuracy treat a batch as the mean of its points: repeating a batch changes nothing, a joined batch gives the weighted mean of what its parts give, and the step is proportional to the learning rate.", "quantifier": "all networks, batches of any size, number of copies, losses and learning rates", "why_tests_cant": "It relates runs on all batches, all splits of them and all rates; floating-point tests could compare only up to rounding.", "anchors": ["src/cvnn/network/mod.rs:CNetwork::gradient_opt", "src/cvnn/network/mod.rs:CNetwork::loss", "src/cvnn/network/mod.rs:CNetwork::max_pred_test", "src/math/cfloat/mod.rs:MulAssign"]}
{"id": "C95", "title": "Dead units", "statement": "A unit whose weighted sum falls where both derivatives of the activation are zero, for every input it is trained on, is not moved by training; in the first trained layer it stays dead for ever. A layer of such units stops the training of everything before it.", "quantifier": "all networks, layer sizes, batches, losses, (complex) learning rates and histories of training calls", "why_tests_cant": "It is about all later training calls on all batches, and about exact zeros of the derivatives.", "anchors": ["src/cvnn/layer/dense.rs:DenseCLayer::compute_derivatives", "src/cvnn/network/mod.rs:CNetwork::gradient_opt", "src/act/mod.rs:d_ritrelu_cf32", "src/act/mod.rs:d_zrelu_cf32"]}
{"id": "C96", "title": "Hidden units are interchangeable", "statement": "Renumbering the units of a hidden dense layer, together with the columns of the dense layer behind it, changes no prediction, loss or accuracy, and training commutes with it: the same calls panic and the networks they leave differ by the same renumbering. So two units that start with equal parameters keep equal parameters for ever.", "quantifier": "all networks with two adjacent dense layers at any position, all sizes, permutations, activations, batches, losses, rates and histories; for renumbering any arithmetic that is a commutative ring, hence exact complex numbers, and for equal units any arithmetic, hence floating point too", "why_tests_cant": "It compares all pairs of networks that differ by a permutation, over all histories of training.", "anchors": ["src/cvnn/layer/dense.rs:DenseCLayer::forward", "src/cvnn/layer/dense.rs:DenseCLayer::compute_derivatives", "src/cvnn/network/mod.rs:CNetwork::gradient_opt"]}
{"id": "C97", "title": "Training with a small fixed rate comes to stationary points", "statement": "For every network of smooth layers, batch and ε there is a learning rate below which repeated training on the batch never panics, never increases the error, and after at most B·e/(r·ε) steps passes a network whose gradient has squared norm at most ε, where e is the error at the start, B the size of the batch and r the rate. With a large rate the error can grow without bound.", "quantifier": "all networks of two or more dense, flatten and convolutional layers without activation or with RITTanh (convolutional layers first, or without activation), all parameters, batches, losses, ε > 0, rates below the bound and numbers of steps; exact arithmetic; no bound on the parameters during training is assumed", "why_tests_cant": "It says that a rate exists for every network and batch, and that the whole run, however long, then stays under control.", "anchors": ["src/cvnn/network/mod.rs:CNetwork::gradient_opt", "src/cvnn/layer/dense.rs:DenseCLayer::compute_derivatives", "src/cvnn/layer/conv.rs:ConvCLayer::compute_derivatives", "src/act/mod.rs:rittanh_cf32"]}
{"id": "C98", "title": "Scaling and turning hidden units changes nothing, and training keeps units balanced", "statement": "If the weights and bias of hidden units are multiplied by factors that pass through the activation, and the next layer divides them out, then the predictions, losses and accuracies stay the same. Factors of absolute value one also commute with training. For hidden units without activation or with RITReLU or zReLU, one training step changes the squared norm of what enters a unit and of what leaves it by the same amount up to second order in the rate, so that along a run of training their difference drifts by at most r/B times the initial error. For ModZ units the squared norm of weights and bias never decreases.", "quantifier": "all networks with two adjacent dense layers anywhere in them, all sizes, parameters, factors, data, losses and real rates; all numbers of steps; the bound over a run for networks of smooth layers and small rates; exact arithmetic", "why_tests_cant": "It is a symmetry of a continuous family of networks and an exact conservation law, for all of them and for runs of any length.", "anchors": ["src/cvnn/network/mod.rs:CNetwork::gradient_opt", "src/cvnn/network/mod.rs:CNetwork::forward", "src/cvnn/layer/dense.rs:DenseCLayer::compute_derivatives", "src/act/mod.rs:mod_z_cf32", "src/act/mod.rs:zrelu_cf32"]}
{"id": "C99", "title": "The crate's own test programs run to their end and compute what they are named after", "statement": "The tests of matrix and vector arithmetic print the values computed by hand. The image tests take picture 58 of the data files and write it out, write the Sobel gradients of the picture as moduli and as pairs of modulus and phase, the means of its 2 x 2 blocks, and the bilinear interpolation of these. The signal test writes two files of 20000 lines with 512 noisy and 512 clean samples each.", "quantifier": "all data files with at least 100 well-formed records, all 28 x 28 images, all ways to print numbers; running to the end in any arithmetic, values in exact arithmetic", "why_tests_cant": "The tests themselves contain no assertions, and run on one data file.", "anchors": ["src/lib.rs:basic_tests::image_conv_test", "src/lib.rs:basic_tests::image_pool_test", "src/lib.rs:basic_tests::signal_data", "src/lib.rs:basic_tests::matrix_add", "src/lib.rs:basic_tests::matrix_mul", "src/lib.rs:basic_tests::vec_add", "src/dataset/mod.rs:Dataset::minist_as_batch"]}
{"id": "C100", "title": "Initial weights are distributed as documented", "statement": "Over all seeds of the generator, a weight drawn uniformly in a circle of radius r lies in a part of the circle as often as the part has area, weights drawn by an Xavier or He method have the mean square that the method asks for, all directions are equally frequent, and the mean weight is zero.", "quantifier": "all initialisation methods and layer sizes, both number widths, all 2^31 - 1 seeds together, exact arithmetic", "why_tests_cant": "A test draws a few weights; the distribution over two thousand million seeds needs the arithmetic of the generator.", "anchors": ["src/math/mod.rs:Complex::gen", "src/math/mod.rs:Complex::gen_xa", "src/math/mod.rs:Complex::gen_xagu", "src/math/mod.rs:Complex::gen_he", "src/init/mod.rs:InitMethod::gen"]}
{"id": "C101", "title": "The loss bounds the share of wrong predictions", "statement": "For one-hot targets of m classes, the share of wrong predictions (1 minus max_pred_test) is at most 2(m-1) times the mean-square loss, and at most the cross-entropy loss divided by log 2. If the loss of B points is below 1/(2(m-1)B), or below log 2 / B, every prediction is right. Neither bound can be lowered.", "quantifier": "all networks, all batches with one-hot targets that the network can evaluate, any number of classes from 2 on, both number widths, exact arithmetic", "why_tests_cant": "A test compares loss and accuracy of a few batches; the bound must hold for every prediction vector.", "anchors": ["src/cvnn/network/mod.rs:CNetwork::loss", "src/cvnn/network/mod.rs:CNetwork::max_pred_test", "src/opt/mod.rs:mean_sq_loss_cf32", "src/opt/mod.rs:norm_ce_loss_cf32"]}
{"id": "C102", "title": "Training a single dense layer solves the least-squares problem", "statement": "A network of parameter-free layers followed by one dense layer without activation is trained on one batch of B points with feature vectors x_q at learning rate r. If 0 < r and r*sum(1+|x_q|^2) < 2B, the summed squared error never grows, its excess over the least possible error falls by a fixed factor per call, and the parameters converge to the least-error solution nearest to the start. If the sum is at most B, after T calls the error exceeds that of any other parameters by at most B times their squared distance from the start over r*T. A call leaves the parameters unchanged exactly if their error is least. At r*sum(1+|x_q|^2) = 2B training may make no progress.", "quantifier": "all parameter-free front layers, feature and output counts, batches, start parameters, learning rates in the range, loss functions, numbers of training calls, both number widths, exact arithmetic", "why_tests_cant": "Convergence is a statement about all numbers of calls and the least error over all parameters; a test sees finitely many calls of one problem.", "anchors": ["src/cvnn/network/mod.rs:CNetwork::gradient_opt", "src/cvnn/layer/dense.rs:DenseCLayer::compute_derivatives", "src/cvnn/layer/dense.rs:DenseCLayer::neg_conj_adjustment", "src/opt/mod.rs:mean_sq_loss_cf32"]}
{"id": "C103", "title": "Without activation functions depth adds nothing", "statement": "A network of any depth whose layers are dense or convolutional without activation function, poolings by a weighted sum, and flatten layers computes the same as one dense layer without activation on the flattened input. A dense layer without activation followed by a dense layer can be replaced anywhere in a network by one dense layer with the multiplied weights, with the same results, errors and panics. Such a network has a summed squared error of at least 1 on the four points of the exclusive or; 1 is reached, and one layer with the split ReLU makes the error 0.", "quantifier": "all networks of such layers that fit together, layer sizes, inputs, both number widths, exact arithmetic", "why_tests_cant": "The statement is about all networks of a class and all inputs; a test shows one network failing on one task.", "anchors": ["src/cvnn/network/mod.rs:CNetwork::forward", "src/cvnn/layer/dense.rs:DenseCLayer::forward", "src/cvnn/layer/conv.rs:ConvCLayer::forward"]}
{"id": "C104", "title": "Training moves the first layer only along the inputs it has seen", "statement": "After training with real learning rates, the weights and bias of every unit of the first dense layer differ from the start by a sum of multiples of (conj v, 1), one for each training input v as the parameter-free layers before present it. Hence the change does not affect any direction orthogonal to all training inputs: the answer of the unit along it stays as initialised. The weights of a feature that is 0 in all training inputs never change, and two features that agree in all training inputs keep the difference of their weights.", "quantifier": "all networks that start with parameter-free layers and a dense layer, whatever follows, all training histories, loss functions, real learning rates (the last two statements: all learning rates), both number widths, exact arithmetic", "why_tests_cant": "The statement covers every training history and every direction; a test checks one history in one direction.", "anchors": ["src/cvnn/network/mod.rs:CNetwork::gradient_opt", "src/cvnn/layer/dense.rs:DenseCLayer::compute_derivatives", "src/cvnn/layer/dense.rs:DenseCLayer::neg_conj_adjustment"]}
{"id": "C105", "title": "Training does not depend on the unitary basis of the inputs", "statement": "Multiply all input vectors by a unitary matrix and the weights of the first dense layer by its conjugate transpose. Then predictions, losses, accuracies and panics stay the same, and after any training with real learning rates the two networks still differ by just this matrix. This covers reordering the inputs, turning the phase of each input by its own angle, and the discrete Fourier transform: a network learns from spectra exactly what it learns from signals.", "quantifier": "all networks that start with a dense layer, whatever follows, all unitary matrices of its size, all data and training histories, loss functions, real learning rates, both number widths, exact arithmetic", "why_tests_cant": "The statement ranges over all unitary matrices and training histories and includes which calls panic; a test compares two runs up to rounding.", "anchors": ["src/cvnn/network/mod.rs:CNetwork::gradient_opt", "src/cvnn/network/mod.rs:CNetwork::forward", "src/cvnn/layer/dense.rs:DenseCLayer::compute_derivatives", "src/cvnn/layer/dense.rs:DenseCLayer::neg_conj_adjustment"]}
{"id": "C106", "title": "Dense networks with RITReLU learn any consistent data by heart and approximate any continuous function", "statement": "For any finite number of different input vectors and any wanted outputs there is a network of two dense layers, with one hidden RITReLU unit per input, that returns exactly the wanted outputs; so a data set of vectors (of at least two outputs) can reach mean square loss 0 exactly if it never wants two outputs for one input. On a compact set every continuous complex function of vectors is approximated within any tolerance by a network of dense RITReLU layers and a last dense layer without activation function.", "quantifier": "all numbers of inputs, outputs and points, all compact sets, continuous functions and tolerances, both number widths, exact arithmetic", "why_tests_cant": "It states that networks exist for every data set and every continuous function; a test can only train some network on some data.", "anchors": ["src/cvnn/layer/dense.rs:DenseCLayer::forward", "src/cvnn/network/mod.rs:CNetwork::forward", "src/cvnn/network/mod.rs:CNetwork::loss", "src/act/mod.rs:ritrelu_cf32"]}
{"id": "C107", "title": "A convolutional layer is a dense layer with shared weights", "statement": "For every convolution and every size of input maps there is a dense layer on the flattened maps whose weights are the kernel entries, repeated at every position of the window and 0 outside it. The convolution computes exactly what this dense layer computes, and panics exactly when it does; in a network the two can be exchanged without changing any prediction. If the convolution is the first layer, one sample gives the later layers the same derivatives in both networks, and each kernel entry and bias the sum of the derivatives of all the weights and biases that share it. In deeper positions the convolution passes the same derivative on to the layer before it as the dense layer. (The last sentence is false of the code: the vector the convolution passes on is only one of the two summands of what the dense layer passes on.)", "quantifier": "all numbers of filters and channels, all kernel and map sizes with the kernel inside the map, all weights, biases, activation functions, inputs, losses and later layers, both number widths, exact arithmetic", "why_tests_cant": "It relates two different layers for all sizes, weights and inputs, and their derivatives as exact sums; tests can compare only some sizes up to rounding.", "anchors": ["src/cvnn/layer/conv.rs:ConvCLayer::forward", "src/cvnn/layer/conv.rs:ConvCLayer::compute_derivatives", "src/cvnn/layer/dense.rs:DenseCLayer::forward", "src/cvnn/layer/dense.rs:DenseCLayer::compute_derivatives", "src/cvnn/network/mod.rs:CNetwork::forward"]}
{"id": "C108", "title": "Cardioid weakens numbers according to their phase", "statement": "The activation Cardioid multiplies a number z of phase phi by (1 + cos phi)/2: the phase is kept, positive numbers are unchanged, negative ones become zero. (False of the code; proved instead: the value is the point 2(1 + cos phi) e^(i phi) of the curve of that name, so it depends on the phase alone, is not changed by scaling and has modulus at most 4; it is the value above exactly for moduli 4, and on the negative axis in Cf32. Cf32 keeps the phase. Cf64 gives z and -z the same value.)", "quantifier": "all complex numbers, exact arithmetic for both widths; for the evenness also all f64 numbers on all platforms", "why_tests_cant": "It compares two functions at every point of the plane; tests sample finitely many points.", "anchors": ["src/act/mod.rs:card_cf32", "src/act/mod.rs:card_cf64", "src/math/mod.rs:Cf64::phase"]}
{"id": "C109", "title": "What training leaves alone in f32 and f64", "statement": "In f32 and f64 a parameter of a dense layer stays what it is in a training call, or becomes NaN, if its input is zero at every point of the batch, or if the activation of its unit is flat at every point (RITReLU with both sign bits set, ZReLU with one, RITTanh when the squared hyperbolic cosines overflow). For a first layer the statement about zero inputs holds over any history of calls. Beyond that, learning rates that are too small do nothing: if the updates are below a quarter of the last place of the parameters, the call returns the network it was given.", "quantifier": "all dense layers anywhere in a network, all batches, losses and learning rates, all numbers with NaN and infinities, every binary format and platform; the last part for networks of all layers", "why_tests_cant": "It is about all inputs, all histories and every rounding; a test observes single runs on one platform.", "anchors": ["src/cvnn/layer/dense.rs:DenseCLayer::compute_derivatives", "src/cvnn/layer/dense.rs:DenseCLayer::neg_conj_adjustment", "src/cvnn/network/mod.rs:CNetwork::gradient_opt", "src/math/cfloat/mod.rs:MulAssign"]}
{"id": "C110", "title": "The filters of a convolutional layer are interchangeable", "statement": "Renumber the filters of a convolutional layer, and with them the channels of the next convolutional layer or the blocks of columns of the dense layer behind the next Flatten, with any number of pooling layers in between. In exact arithmetic the network then computes the same predictions, losses and accuracies, and training commutes with the renumbering: every training call panics for both networks or for neither, returns the same, and leaves networks that differ by the same renumbering, and so does every training run. In particular filters that start alike stay alike.", "quantifier": "all networks whose layers fit together and whose own functions never panic, all positions, all permutations of the filters, all sizes, activations but ModZ, batches of fitting points, losses, learning rates and training runs", "why_tests_cant": "It compares two networks over all permutations, all data and all training histories.", "anchors": ["src/cvnn/layer/conv.rs:ConvCLayer::compute_derivatives", "src/cvnn/layer/conv.rs:ConvCLayer::forward", "src/cvnn/layer/reduce.rs:Reduce::compute_derivatives", "src/cvnn/layer/flatten.rs:Flatten::foward", "src/cvnn/layer/dense.rs:DenseCLayer::compute_derivatives", "src/cvnn/network/mod.rs:CNetwork::gradient_opt"]}
{"id": "C111", "title": "A mirrored network on mirrored images", "statement": "Mirror all images (upside down, left and right, or both) and the network with them: the kernels of the convolutional layers are mirrored, the columns of the dense layer behind Flatten are renumbered accordingly. The mirrored network then computes on a mirrored image what the network computes on the image, and training it on the mirrored images leaves the mirror image of the network that training on the images leaves.", "quantifier": "all networks of convolutional and pooling layers in any order, Flatten and dense layers that fit together and never panic; the three reflections; all sizes, images, batches, losses, learning rates and training runs", "why_tests_cant": "It compares two networks over all images and all training histories.", "anchors": ["src/cvnn/layer/conv.rs:ConvCLayer::compute_derivatives", "src/cvnn/layer/conv.rs:ConvCLayer::forward", "src/cvnn/layer/reduce.rs:Reduce::compute_derivatives", "src/cvnn/layer/flatten.rs:Flatten::foward", "src/cvnn/layer/dense.rs:DenseCLayer::compute_derivatives", "src/math/matrix/mod.rs:Matrix::fractional_upsampling", "src/cvnn/network/mod.rs:CNetwork::gradient_opt", "examples/classification.rs:avg_pooling_layer"]}
{"id": "C112", "title": "Signs of zeros, conjugates and real numbers in f32 and f64", "statement": "In f32 and f64, too, the conjugated network maps the conjugated input to the conjugated output, has the same loss on conjugated data and stays the conjugated network under training, in every digit and up to the signs of zeros, with activations None, ModZ and RITTanh. Changing the signs of zeros in parameters and data changes nothing else in predictions and losses (None, ModZ, RITTanh, RITSigmoid, RITReLU) nor in training (all of these but RITReLU). With any activation but RITSigmoid and Cardioid a network with real parameters maps real inputs to outputs whose imaginary parts are zero or NaN, and training on real data with real rates keeps its parameters so. The derivative of RITReLU and the value of ZReLU depend on the sign of a zero.", "quantifier": "both number widths; all networks of dense, convolutional, pooling and flatten layers, all inputs, data, losses, rates and training runs, infinities and NaN included; all library functions with odd tanh and even cosh", "why_tests_cant": "It compares runs in every digit, over all networks, all data and all training histories, including overflow and NaN.", "anchors": ["src/math/cfloat/mod.rs:Cf32", "src/math/cfloat/mod.rs:Cf64", "src/act/mod.rs:ComplexActFunc", "src/opt/mod.rs:ComplexLossFunc", "src/cvnn/network/mod.rs:CNetwork::forward", "src/cvnn/network/mod.rs:CNetwork::gradient_opt"]}
{"id": "C113", "title": "Training does not depend on the unitary basis of the outputs or the numbering of the classes", "statement": "Multiply all target vectors and the weights and biases of the last dense layer by the same unitary matrix. Then all predictions are multiplied by it, the mean-square loss and the panics stay the same, and after any training with real learning rates the two networks still differ by just this matrix. Without activation in the last layer this holds for every unitary matrix, with ModZ for phases of each output, with RITTanh for factors 1, -1, i, -i, and with every activation for renumbering the outputs; renumbering also keeps the cross-entropy loss, allows complex learning rates, and keeps the accuracy if no two moduli tie for the largest. With a complex learning rate the factor i fails, and with ties the accuracy depends on the numbering.", "quantifier": "all networks that end with a dense layer, whatever comes before, all matrices as stated, all data with target vectors of the right length, all training histories, loss functions, both number widths, exact arithmetic", "why_tests_cant": "The statement ranges over all unitary matrices, permutations and training histories and includes which calls panic; a test compares two runs up to rounding.", "anchors": ["src/cvnn/network/mod.rs:CNetwork::gradient_opt", "src/cvnn/network/mod.rs:CNetwork::forward", "src/cvnn/network/mod.rs:CNetwork::max_pred_test", "src/cvnn/layer/dense.rs:DenseCLayer::compute_derivatives", "src/opt/mod.rs:ComplexLossFunc"]}
{"id": "C114", "title": "Training does not depend on the unitary basis of the channels, and kernels move only along the patches seen", "statement": "Multiply the channels of all images, pixel by pixel, by a unitary matrix and the kernels of the first convolutional layer by its conjugate transpose. Then the network returns the same results, losses and accuracies, panics for the same inputs, and after any training with real learning rates the two networks still differ by just this matrix. With real rates the kernels and the bias of a filter change only by combinations of the conjugated patches of the training images, extended by a one for the bias, so a combination that vanishes on all patches keeps its value. For all rates a channel that is zero in all training images keeps its kernels, and the kernels of two channels that agree in all training images keep their difference. With a complex rate the mixing fails.", "quantifier": "all networks that start with a convolutional layer and take part in training without error, all numbers of channels, filters and kernel sizes, all unitary matrices, all training histories, loss functions, both number widths, exact arithmetic", "why_tests_cant": "The statement ranges over all unitary matrices, networks and training histories; a test compares two runs up to rounding.", "anchors": ["src/cvnn/layer/conv.rs:ConvCLayer::forward", "src/cvnn/layer/conv.rs:ConvCLayer::compute_derivatives", "src/cvnn/network/mod.rs:CNetwork::gradient_opt", "src/cvnn/network/mod.rs:CNetwork::forward"]}
{"id": "C115", "title": "All seeds draw from one cycle, and the stretches the programs use do not meet", "statement": "All seeds but those congruent to 1934915413 give the same endless sequence of generator states, each from another place on, and two stretches of draws share a state exactly if one starts within the other. The state after k draws is a closed formula of the seed, and seeds that differ by d give states that differ by d times the same powers of the multiplier. The number of draws the first k signals take is bounded on both sides, and different signals of a history are made from different states. In the regression program the initial weights, the training signals and the test signals of an epoch use three stretches without a common state, and networks started from different seeds of the list in the programs share no draw.", "quantifier": "all seeds, all numbers of draws up to the period, all sample counts; the last sentence for the constants in the two programs", "why_tests_cant": "Comparing the stretches of all seeds needs the position on a cycle of 2147483646 states; the theorem gives it by a closed formula.", "anchors": ["src/math/random/mod.rs:lcgf32", "src/math/random/mod.rs:lcgi", "src/dataset/mod.rs:signal_reconstruction", "examples/regression.rs:reg_pipeline", "examples/classification.rs:main"]}
{"id": "C116", "title": "Successive random numbers lie on few planes", "statement": "Whenever the multiplier of the generator is a root modulo 2^31-1 of a polynomial with integer coefficients, the combination of successive draws with these coefficients has at most as many values as the sum of their moduli, for all seeds and places together, and these values are about one apart. So pairs of successive draws lie on 59983 lines, triples on 1692 planes, quadruples on 313 and six draws on 65 hyperplanes; in particular the amplitude, frequency and phase of every wave of the synthetic signals lie on 1692 parallel planes. In f32 the rounded draws lie within 2^-25 times the sum of the moduli of such a plane.", "quantifier": "all coefficient lists with the stated property, all seeds, all places in the sequence", "why_tests_cant": "The planes hold for all seeds at once; a test sees some of the points and none of the empty space between the planes.", "anchors": ["src/math/random/mod.rs:lcgf32", "src/math/random/mod.rs:lcgf64", "src/dataset/mod.rs:signal_reconstruction"]}
{"id": "C117", "title": "Dead convolutional filters stay dead", "statement": "If the weighted sums of a filter of a convolutional layer fall on points where both activation derivatives are zero, at all places and for all inputs of the batch, then gradient_opt leaves its kernels and its bias exactly as they are, for every loss and every (also complex) learning rate. In the first layer with parameters such a filter stays dead over every training history with such inputs. If all filters of a layer are dead, neither that layer nor any layer before it ever changes, and behind RITReLU and ZReLU the network predicts the same for all such inputs. A filter whose bias lies below minus the bound of the image entries times the sum of the moduli of its kernels is dead on all images within the bound.", "quantifier": "all networks that are ready for training, all positions of the layer, all numbers of filters, channels and sizes, all batches and histories, both losses, all learning rates; exact arithmetic", "why_tests_cant": "The statement is about all later training histories; a test sees a filter that did not move in the steps it ran.", "anchors": ["src/cvnn/layer/conv.rs:ConvCLayer::compute_derivatives", "src/cvnn/layer/conv.rs:ConvCLayer::forward", "src/cvnn/network/mod.rs:CNetwork::gradient_opt", "src/act/mod.rs:ritrelu_cf32", "src/act/mod.rs:zrelu_cf32"]}
{"id": "C118", "title": "One NaN pixel destroys a convolutional network", "statement": "In networks of convolutional, pooling, flatten and dense layers with at least one dense layer, whose activations keep NaN: if one part of one pixel of an image is NaN, every output of the network is NaN. If one image of a batch has such a pixel, a single call of gradient_opt makes every kernel, every weight and every bias of every layer NaN, whatever the other images are, and from then on every prediction is NaN for every input. The convolutional network of classification.rs is such a network for every seed, on platforms whose NaN has a clear sign bit; the training call returns normally there.", "quantifier": "all networks that are ready for training, all depths and sizes, all positions of the pixel, all batches, both losses, all learning rates; f32 and f64", "why_tests_cant": "That every parameter of every network is lost, at whatever place the NaN enters and however small the kernels, is a statement about all networks and batches.", "anchors": ["src/cvnn/layer/conv.rs:ConvCLayer::compute_derivatives", "src/cvnn/layer/conv.rs:ConvCLayer::forward", "src/cvnn/layer/reduce.rs:Reduce::compute_derivatives", "src/cvnn/layer/flatten.rs:Flatten::foward", "src/cvnn/network/mod.rs:CNetwork::gradient_opt", "examples/classification.rs:_get_2conv_layer_cvcnn"]}
{"id": "C119", "title": "Training a convolutional layer is training a dense layer on all patches", "statement": "A convolutional layer of nf filters with p x q kernels computes at every place of an image what a dense layer of nf units with the same weights computes on the patch at that place. A network of this layer and a flatten layer, trained on images, keeps the same weights as a network of flatten and the dense layer trained on all patches of the images, with the learning rate multiplied by the number of patches per image, for any activation and any training history; the summed squared errors of the two are equal. Without activation, and with a learning rate s such that s times the sum of 1+|patch|^2 over all patches is less than twice the number of images, the error on a fixed batch never grows, its excess over the least error possible with such kernels and biases falls by a constant factor per call, and the kernels and biases converge to those of least error nearest to the start. A call leaves them unchanged exactly if their error is least.", "quantifier": "all numbers of filters and channels, kernel and image sizes, activations whose values and derivatives exist, batches, losses, learning rates (complex ones for the equality), numbers of calls; exact arithmetic", "why_tests_cant": "Equality of two programs over all histories and convergence to the best of infinitely many kernels cannot be seen in finitely many runs.", "anchors": ["src/cvnn/layer/conv.rs:ConvCLayer::forward", "src/cvnn/layer/conv.rs:ConvCLayer::compute_derivatives", "src/cvnn/layer/dense.rs:DenseCLayer::compute_derivatives", "src/cvnn/layer/flatten.rs:Flatten::foward", "src/cvnn/network/mod.rs:CNetwork::gradient_opt"]}
{"id": "C120", "title": "The exact threshold of the learning rate", "statement": "For a network whose only parameters are those of a final dense layer without activation, trained with a fixed batch of B points and a real learning rate r, let K be the largest summed squared output on the batch over all parameters of length 1. K exists and lies between B and the sum of 1+|x|^2 over the points. If 0 < r*K < 2B, every run converges to the nearest parameters of least error, at a geometric rate, and the error never grows. If r*K > 2B, there are starts arbitrarily near to every start from which the error tends to infinity; in particular every r > 2 is too large for every batch. If r*K = 2B, there are starts arbitrarily near to every start from which the error stays a fixed amount above the least. If r < 0, the error grows strictly and to infinity from every start that is not already best. For a single point K = 1+|x|^2 and every call multiplies the error by exactly (1-r*K)^2. The same holds for a single convolutional layer with K taken over all patches of the images, and every r above 2/P is too large if the kernel has P places.", "quantifier": "all parameter-free front layers, sizes, non-empty batches, targets, losses, learning rates, initial parameters, numbers of calls; exact arithmetic", "why_tests_cant": "Convergence and divergence are statements about infinitely long runs, and the threshold separates them exactly.", "anchors": ["src/cvnn/layer/dense.rs:DenseCLayer::compute_derivatives", "src/cvnn/layer/dense.rs:DenseCLayer::neg_conj_adjustment", "src/cvnn/layer/conv.rs:ConvCLayer::compute_derivatives", "src/cvnn/network/mod.rs:CNetwork::gradient_opt"]}
{"id": "C121", "title": "Training with several batches in turn", "statement": "A network whose only parameters are those of a final dense layer without activation is trained in epochs: with several batches in a fixed order, over and over, each with its own loss and its own positive learning rate below the threshold of C120 for this batch. A call takes the parameters no further from any parameters that reproduce its batch exactly, and strictly nearer unless they already do. If some parameters reproduce all targets of all batches, the run converges to such parameters, namely the ones nearest to the start; the squared distance falls at least by a constant factor below 1 per epoch that does not depend on the start, and the errors on all batches tend to zero. The order of the batches does not matter: the run converges to the same parameters for every order in which each batch is used again and again. If the targets cannot all be reproduced this fails: for every learning rate there are two batches and parameters that every epoch brings back to the same values although their error is not the least. The convergence holds for a single convolutional layer trained with batches of images, too.", "quantifier": "all parameter-free front layers, sizes, lists of non-empty batches, losses, learning rates below the thresholds, initial parameters, numbers of epochs; exact arithmetic", "why_tests_cant": "The limit of an infinite run, and that it is the nearest of infinitely many solutions from every start, cannot be observed in finitely many runs.", "anchors": ["src/cvnn/layer/dense.rs:DenseCLayer::compute_derivatives", "src/cvnn/layer/dense.rs:DenseCLayer::neg_conj_adjustment", "src/cvnn/layer/conv.rs:ConvCLayer::compute_derivatives", "src/cvnn/network/mod.rs:CNetwork::gradient_opt"]}
{"id": "C122", "title": "Complex learning rates for a single layer", "statement": "A network whose only parameters are those of a final dense layer without activation is trained with one point and a complex learning rate a + b·i. Because of the wrong complex `*=` the call does not scale the gradient by this number, but applies a real-linear map to it. With c = 1 + Σ|x_i|² and s = 1 + Σx_i² over the features of the input, a quadratic form in the deviations of the outputs from the targets is multiplied by the same explicit factor in every call, whatever the initial parameters. If the factor is below 1 and the form is positive definite, the error goes to 0 geometrically; if the factor is above 1, the error grows beyond every bound from all parameters at which the form is not 0. The error goes to 0 for every learning rate with c·|r|² < 2·Re r, the range of a correct product. For real features it goes to 0 from all parameters exactly when c·a² < 2a - b², which is a larger range. A learning rate other than 0 without positive real part always makes the error grow.", "quantifier": "all parameter-free front layers, sizes, inputs, targets, losses, complex learning rates, initial parameters, numbers of calls; exact arithmetic", "why_tests_cant": "The exact boundary of the learning rates and the behaviour of an infinite run cannot be observed.", "anchors": ["src/math/cfloat/mod.rs:MulAssign", "src/cvnn/layer/dense.rs:DenseCLayer::neg_conj_adjustment", "src/cvnn/network/mod.rs:CNetwork::gradient_opt"]}
{"id": "C123", "title": "What convolutional networks can learn by heart and approximate", "statement": "For kernels of any size that fits into the images: any finite number of different images with any wanted output vectors is reproduced exactly by a network of a convolutional layer with RITReLU, a flatten layer and two dense layers, and every continuous function on a compact set of images is approximated as closely as one likes by a network of a convolutional layer, a flatten layer and dense layers. With a single dense layer behind the convolutional one this depends on the kernel: kernels as large as the images can still reproduce any finite number of images, with one filter per image; with smaller kernels the outputs for the four images with two opposite corners black or white obey y00 + y11 = y01 + y10, whatever the number of filters, the activation function and the parameters, so that the summed squared error on their exclusive or is at least 1.", "quantifier": "all image sizes, channel counts, kernel sizes, finite sets of images, compact sets, continuous functions, numbers of filters, activation functions that never panic, parameters; exact arithmetic", "why_tests_cant": "The existence of exact parameters for all finite sets and the impossibility for all parameters cannot be tested.", "anchors": ["src/cvnn/layer/conv.rs:ConvCLayer::forward", "src/cvnn/layer/dense.rs:DenseCLayer::forward", "src/cvnn/network/mod.rs:CNetwork::forward"]}
{"id": "C124", "title": "A learning rate that is too large ends in NaN", "statement": "In f32 and f64, with all rounding, signed zeros, subnormal numbers and infinities: a network whose only layer with parameters is the last one, dense and without activation, is trained again and again with a learning rate of 4 or more in size on a point whose features and targets are zero. All calls return without an error. In every call both parts of the bias of a unit at least double in size until one of them overflows, and the call after that turns the bias and all weights of the unit into NaN, in both parts. So after 278 calls in f32 and 2099 calls in f64 every unit with finite weights and a finite bias other than zero is NaN, whatever the initial values, and from then on it predicts NaN for every input. With the learning rate 1 a single call instead makes all biases exactly zero and keeps the weights.", "quantifier": "all numbers of units and inputs, layers without parameters in front, finite weights and biases, real learning rates of size at least 4, loss functions, binary formats, library functions", "why_tests_cant": "Thousands of calls for every starting value and every learning rate cannot be run, and the bound must hold for the smallest subnormal bias.", "anchors": ["src/cvnn/network/mod.rs:CNetwork::gradient_opt", "src/cvnn/layer/dense.rs:DenseCLayer::compute_derivatives", "src/math/cfloat/mod.rs:MulAssign", "src/opt/mod.rs:d_sq_error_cf32"]}
{"id": "C125", "title": "Training in epochs always settles, and near the best parameters if the learning rates are small", "statement": "A dense layer without activation behind layers without parameters, or a convolutional layer without activation on images, is trained with several batches in turn, over and over, with learning rates below the thresholds of the batches. The targets need not be reproducible. Each epoch takes two choices of parameters no further apart, and strictly nearer if their predictions differ on some point. So the parameters after every epoch converge, at least geometrically with a factor that does not depend on the start, to parameters that an epoch leaves as they are, and among those to the nearest ones to the start. If all learning rates are multiplied by the same small number, the squared distance of the limit from parameters with the least weighted squared error, and the excess of its weighted error over the least one, are at most a constant times the square of that number, with a constant that does not depend on the start.", "quantifier": "all numbers of units and inputs, layers without parameters in front, lists of batches, targets, loss functions, learning rates below the thresholds, starting values", "why_tests_cant": "Convergence and the order of the excess are statements about infinitely many epochs, learning rates and starting values.", "anchors": ["src/cvnn/network/mod.rs:CNetwork::gradient_opt", "src/cvnn/layer/dense.rs:DenseCLayer::compute_derivatives", "src/cvnn/layer/conv.rs:ConvCLayer::compute_derivatives", "src/opt/mod.rs:d_sq_error_cf32"]}
{"id": "C126", "title": "Rounding errors do not accumulate in long training runs", "statement": "A dense layer without activation behind layers without parameters (mean pooling, flattening) is trained with several batches in turn, over and over, with learning rates below the thresholds of the batches, and the points of the batches determine the parameters. Then for every tolerance there is a precision such that training in any number format of this precision, with data and starting values rounded to it, never panics and stays within the tolerance of the run in exact arithmetic after every number of epochs; one precision serves for all lengths of the run. After some number of epochs it stays within the tolerance of the parameters at which exact training settles, of which there is only one choice. If the points do not determine the parameters this fails: there are a network and a batch for which formats of any precision take a weight arbitrarily far away while exact training changes nothing.", "quantifier": "all numbers of units and inputs, layers without parameters in front, lists of batches, targets, loss functions, learning rates below the thresholds, starting values, tolerances, number formats, numbers of epochs", "why_tests_cant": "The statement is about runs of unlimited length in all sufficiently precise formats, with one precision for all of them.", "anchors": ["src/cvnn/network/mod.rs:CNetwork::gradient_opt", "src/cvnn/layer/dense.rs:DenseCLayer::compute_derivatives", "src/cvnn/layer/dense.rs:DenseCLayer::neg_conj_adjustment", "src/math/cfloat/mod.rs:Cf32"]}
{"id": "C127", "title": "Rounding errors do not accumulate where exact training is stable", "statement": "Let a network of any layers be trained in exact arithmetic with the same list of training calls over and over. Let the run be bounded and uniformly asymptotically stable (networks whose parameters are close to those of the run stay close to it, and networks at a distance of at most R come as close to it as wanted), and let no activation jump at the networks at this distance. Then for every tolerance there is a precision such that training in any number format of this precision never panics and stays within the tolerance of the exact run after every number of epochs. Started at a smaller distance than R it comes within the tolerance of the exact run after a number of epochs that depends on the tolerance only, and stays there for ever. Linear layers whose points determine the parameters are stable in this sense, for every R, if the learning rates are below the thresholds, and so are convolutional layers without activation whose patches determine the kernels and biases. If networks stay close to the run but do not come closer the statement fails.", "quantifier": "all networks of dense, convolutional, mean-pooling and flattening layers, lists of training calls, loss functions, learning rates, exact runs with the assumed stability, tolerances, number formats, numbers of epochs", "why_tests_cant": "The statement is about runs of unlimited length of arbitrary networks in all sufficiently precise formats, with one precision for all of them.", "anchors": ["src/cvnn/network/mod.rs:CNetwork::gradient_opt", "src/cvnn/layer/dense.rs:DenseCLayer::neg_conj_adjustment", "src/cvnn/layer/conv.rs:ConvCLayer::neg_conj_adjustment", "src/math/cfloat/mod.rs:Cf32"]}
{"id": "C128", "title": "A transposed network on transposed images", "statement": "Exchange the rows and columns of all images and of the network with them: the kernels of the convolutional layers and the interpolation kernels are transposed, the blocks of the pooling layers are q x p instead of p x q, and the columns of the dense layer behind Flatten are renumbered. Let the blocks of the pooling layers be square or have an even number of rows and of columns. Then the transposed network exists, computes on a transposed image what the network computes on the image, and training it on the transposed images leaves the transpose of the network that training on the images leaves. The condition on the blocks is needed: with blocks of one row and three columns the backward pass works, with blocks of three rows and one column it panics. Together with the mirror images (C111) this gives the quarter turns of the images.", "quantifier": "all networks of convolutional and pooling layers in any order, Flatten and dense layers that fit together and never panic, with blocks of the stated kind; all sizes, images, batches, losses, learning rates and training runs", "why_tests_cant": "It compares two networks over all images and all training histories.", "anchors": ["src/cvnn/layer/conv.rs:ConvCLayer::compute_derivatives", "src/cvnn/layer/conv.rs:ConvCLayer::forward", "src/cvnn/layer/reduce.rs:Reduce::compute_derivatives", "src/cvnn/layer/flatten.rs:Flatten::foward", "src/cvnn/layer/dense.rs:DenseCLayer::compute_derivatives", "src/math/matrix/mod.rs:Matrix::fractional_upsampling", "src/cvnn/network/mod.rs:CNetwork::gradient_opt", "examples/classification.rs:avg_pooling_layer"]}
{"id": "C129", "title": "Scaling and turning the filters of a convolutional layer, and their balance in training", "statement": "Multiply the kernels and the bias of each filter of a convolutional layer by a factor that its activation passes on (any factor for no activation, a positive one for RITReLU and ZReLU, a fourth root of unity for RITTanh), and divide the factors out in the layer that reads the maps: behind any pooling layers that pass on a common factor, such as the average pooling of the example, either the next convolutional layer or Flatten with a dense layer. The new network computes the same outputs, losses and accuracies. If the factors have absolute value one and the learning rates are real, training keeps the two networks related in this way, so that they compute the same for ever; where a convolutional layer reads the maps this holds for layers without activation and for the factors one and minus one, and fails otherwise: with RITTanh in both convolutional layers, a turn by a right angle and one training call with the same image lead to different outputs for that image. With the rate i even layers without activation train differently after such a turn. For filters without activation, with RITReLU or with zReLU that Flatten and a dense layer read, one training step with a real rate changes the squared norm of the kernels and bias of a filter and the squared norm of the weights that read its map by the same amount, up to an explicit term of second order in the rate.", "quantifier": "all networks that fit together and never panic, with the filters at any position; all numbers of filters and channels, sizes, kernels, biases, factors, images, batches, losses, real learning rates and training runs", "why_tests_cant": "It compares infinitely many networks over all images and all training histories.", "anchors": ["src/cvnn/layer/conv.rs:ConvCLayer::forward", "src/cvnn/layer/conv.rs:ConvCLayer::compute_derivatives", "src/cvnn/layer/reduce.rs:Reduce::compute_derivatives", "src/cvnn/layer/flatten.rs:Flatten::foward", "src/cvnn/layer/dense.rs:DenseCLayer::compute_derivatives", "src/cvnn/network/mod.rs:CNetwork::gradient_opt", "examples/classification.rs:avg_pooling_layer"]}
{"id": "C130", "title": "Training does not depend on the origin of the targets, but on that of the inputs", "statement": "Add the same vector to all targets and to the biases of the last dense layer, which has no activation. Then the vector is added to all predictions, the mean-square loss and the panics stay the same, and after any training, with either loss function and any complex learning rates, the two networks still differ by just this vector. The cross-entropy loss and the accuracy do depend on the origin of the targets. A vector added to all inputs can be taken up by the biases of the first dense layer, so that predictions, losses, accuracies and panics stay the same, but training does not respect this.", "quantifier": "all networks that end (or, for the inputs, start) with a dense layer, whatever the other layers, all vectors, all data with target vectors of the right length, all training histories, loss functions and learning rates, both number widths, exact arithmetic", "why_tests_cant": "The statement ranges over all networks, vectors and training histories and includes which calls panic; a test compares two runs up to rounding.", "anchors": ["src/cvnn/network/mod.rs:CNetwork::gradient_opt", "src/cvnn/network/mod.rs:CNetwork::forward", "src/cvnn/network/mod.rs:CNetwork::loss", "src/cvnn/network/mod.rs:CNetwork::max_pred_test", "src/cvnn/layer/dense.rs:DenseCLayer::forward", "src/cvnn/layer/dense.rs:DenseCLayer::compute_derivatives", "src/opt/mod.rs:ComplexLossFunc"]}
{"id": "C131", "title": "Hidden units of which all parameters are zero take no part in training", "statement": "Let two networks differ only in the number of units of a hidden dense layer that is followed by a dense layer, where in the units that only one of them has, the incoming weights, the bias and the outgoing weights are all zero. If the activation of the layer is none, RITTanh, RITReLU or ZReLU, both networks give the same predictions, losses, accuracies and panics, and after any training, with either loss function and any complex learning rates, they still differ only in units that are zero. So a network with such a hidden layer that starts with all these parameters zero gives the same prediction for all inputs, also after any training. These are all the activations that are zero at zero: ModZ panics there, and with RITSigmoid the first call gives a unit that was zero a nonzero weight.", "quantifier": "all networks with two adjacent dense layers, whatever the other layers, all numbers of zero units, all data, training histories, loss functions and learning rates, both number widths, exact arithmetic", "why_tests_cant": "The statement ranges over all networks, widths and training histories and includes which calls panic.", "anchors": ["src/cvnn/network/mod.rs:CNetwork::gradient_opt", "src/cvnn/network/mod.rs:CNetwork::forward", "src/cvnn/network/mod.rs:CNetwork::loss", "src/cvnn/network/mod.rs:CNetwork::max_pred_test", "src/cvnn/layer/dense.rs:DenseCLayer::forward", "src/cvnn/layer/dense.rs:DenseCLayer::compute_derivatives", "src/act/mod.rs:ComplexActFunc"]}
