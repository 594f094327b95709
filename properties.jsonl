{"id": "C01", "title": "Rank arguments are normalised or rejected", "statement": "A rank argument given as an integer means the same rank on every one of the d-1 bonds; a rank given as a sequence is accepted unchanged (before trimming) when it has exactly d-1 entries and is rejected with ValueError otherwise; the accepted result always has d-1 entries.", "quantifier": "every shape, every integer or sequence rank, trim on or off", "why_tests_cant": "the number of modes and the rank tuples are unbounded", "anchors": ["tt_sketch/utils.py:process_tt_rank"]}
{"id": "C02", "title": "Trimming only lowers ranks and respects the unfolding bounds", "statement": "Trimmed ranks never exceed the requested ranks, and rank i never exceeds the product of the mode sizes to its left nor the product of those to its right.", "quantifier": "every shape and every requested rank tuple of matching length", "why_tests_cant": "infinitely many shapes and rank tuples", "anchors": ["tt_sketch/utils.py:trim_ranks", "tt_sketch/utils.py:process_tt_rank"]}
{"id": "C03", "title": "Trimmed ranks are mutually consistent", "statement": "For tensors with at most 102 modes, after trimming every pair of neighbouring ranks satisfies r[i+1] <= r[i]*n and r[i] <= n*r[i+1] (with boundary ranks 1), as the docstring promises; in fact the trimmed rank is the largest such tuple below the request (this for any number of modes: nothing consistent is lost), and trimming twice is the same as trimming once. The bound is sharp: the code gives up after 100 sweeps, and for 103 modes there are ranks it leaves inconsistent. Even then the left half r[i+1] <= r[i]*n holds, for any number of modes.", "quantifier": "every shape with positive mode sizes (consistency of both halves and idempotence: at most 102 modes; the rest: any number of modes), every tuple of positive requested ranks", "why_tests_cant": "the fixed iteration budget of the loop is only exceeded by tensors with more modes than any test uses", "anchors": ["tt_sketch/utils.py:trim_ranks"]}
{"id": "C04", "title": "Trimming is lossless", "statement": "Every tensor that is representable as a tensor train with the requested ranks is representable exactly by a tensor train with the trimmed ranks.", "quantifier": "every shape, every rank tuple and every tensor train with ranks at most those, over every commutative semiring of scalars", "why_tests_cant": "an existence statement over all tensors", "anchors": ["tt_sketch/utils.py:trim_ranks"]}
{"id": "C05", "title": "Transpose reverses the modes", "statement": "For each tensor format, X.T has the reversed shape and X.T.to_numpy()[i_d,...,i_1] equals X.to_numpy()[i_1,...,i_d]; transposing twice gives back an equal tensor. (A lazy sum must have at least one summand.)", "quantifier": "every dense, sparse, TT, CP, Tucker tensor and every lazy sum, all shapes and ranks", "why_tests_cant": "all formats times all orders times all ranks", "anchors": ["tt_sketch/tensor.py:DenseTensor.T", "tt_sketch/tensor.py:SparseTensor.T", "tt_sketch/tensor.py:TensorTrain.T", "tt_sketch/tensor.py:CPTensor.T", "tt_sketch/tensor.py:TuckerTensor.T", "tt_sketch/tensor.py:TensorSum.T"]}
{"id": "C06", "title": "Dense conversion of structured formats", "statement": "to_numpy of a TT returns at every index the product of the core slices, of a CP tensor the sum over components of products of factor entries, of a Tucker tensor the multilinear contraction of core and factors, and the result has the declared shape.", "quantifier": "every TT/CP/Tucker tensor with conforming cores, every index", "why_tests_cant": "unbounded order, mode sizes and ranks; row-major reshapes must agree at every index", "anchors": ["tt_sketch/tensor.py:TensorTrain.to_numpy", "tt_sketch/tensor.py:CPTensor.to_numpy", "tt_sketch/tensor.py:TuckerTensor.to_numpy"]}
{"id": "C07", "title": "Scalar arithmetic is entrywise", "statement": "c*X, X*c, -X and X/c denote c times, -1 times and 1/c times the dense tensor of X in every format; multiplying a lazy sum by a sequence of coefficients scales summand by summand and is rejected when the lengths differ.", "quantifier": "every tensor of every format, every scalar / coefficient sequence", "why_tests_cant": "all formats, sizes and scalars", "anchors": ["tt_sketch/tensor.py:Tensor.__rmul__", "tt_sketch/tensor.py:Tensor.__truediv__", "tt_sketch/tensor.py:Tensor.__neg__", "tt_sketch/tensor.py:DenseTensor.__mul__", "tt_sketch/tensor.py:SparseTensor.__mul__", "tt_sketch/tensor.py:TensorTrain.__mul__", "tt_sketch/tensor.py:CPTensor.__mul__", "tt_sketch/tensor.py:TuckerTensor.__mul__", "tt_sketch/tensor.py:TensorSum.__mul__"]}
{"id": "C08", "title": "Tensor-train addition", "statement": "For tensor trains with at least two modes, tt1.add(tt2) represents the entrywise sum, has the same shape, and its ranks are the sums of the ranks. (For one mode the code is wrong: the result has two modes.)", "quantifier": "every two tensor trains of the same shape, of any order", "why_tests_cant": "block structure must be right at every bond of every order, including order 1", "anchors": ["tt_sketch/tensor.py:TensorTrain.add"]}
{"id": "C09", "title": "Lazy sums denote sums", "statement": "Any expression built with +, - and scalar multiplication from tensors of any formats denotes the corresponding entrywise expression of the dense tensors, whichever operand order and grouping is used.", "quantifier": "every finite expression over tensors of all formats of one shape", "why_tests_cant": "infinitely many expression trees and format combinations", "anchors": ["tt_sketch/tensor.py:Tensor.__add__", "tt_sketch/tensor.py:Tensor.__sub__", "tt_sketch/tensor.py:TensorSum.__add__", "tt_sketch/tensor.py:TensorSum.to_numpy"]}
{"id": "C10", "title": "In-place accumulation", "statement": "After any sequence of s += X on a lazy sum s, s denotes its initial value plus all added tensors (also for s += s), every name bound to the same object sees the update, and no other sum object changes.", "quantifier": "every finite history of += and + operations on sum objects", "why_tests_cant": "histories are unbounded and aliasing patterns too", "anchors": ["tt_sketch/tensor.py:TensorSum.__iadd__", "tt_sketch/tensor.py:TensorSum.__add__"]}
{"id": "C11", "title": "Inner product", "statement": "X.dot(Y) (and X @ Y) equals the sum over all indices of X.to_numpy()*Y.to_numpy() for every combination of formats and both dispatch directions, provided no sparse tensor stores an index twice. (With repeated indices the value depends on the format of the other operand.)", "quantifier": "every pair of tensors of equal shape in any formats", "why_tests_cant": "the double dispatch has many paths and each must hold for all sizes", "anchors": ["tt_sketch/tensor.py:Tensor.dot", "tt_sketch/tensor.py:SparseTensor.dot", "tt_sketch/tensor.py:TensorTrain.dot", "tt_sketch/tensor.py:TensorSum.dot"]}
{"id": "C12", "title": "Norm", "statement": "X.norm() is the Frobenius norm of X.to_numpy() in every format, for sparse tensors storing no index twice and tensor trains with positive mode sizes and ranks.", "quantifier": "every tensor of every format (sparse: distinct indices; TT: positive sizes and ranks); any QR meeting its contract", "why_tests_cant": "all values, sizes and ranks; QR-based path", "anchors": ["tt_sketch/tensor.py:Tensor.norm", "tt_sketch/tensor.py:SparseTensor.norm", "tt_sketch/tensor.py:TensorTrain.norm"]}
{"id": "C13", "title": "Error measures", "statement": "X.error(Y) is the Frobenius norm of the difference; relative divides by the norm of Y and is infinite when that norm is zero; rmse divides by the square root of the number of entries; the fast formula and the TT formula give the same value as the dense one (exact arithmetic). Two tensor trains need at least two modes, rmse a nonempty tensor, and fast two tensors that are not both zero.", "quantifier": "every pair of tensors of equal shape in the stated domain, all flag combinations", "why_tests_cant": "all sizes and formats", "anchors": ["tt_sketch/tensor.py:Tensor.error", "tt_sketch/tensor.py:TensorTrain.error"]}
{"id": "C14", "title": "Gather agrees with dense indexing", "statement": "gather at a list of in-range multi-indices returns exactly the entries of to_numpy at those indices, in order, for TT, CP and sparse tensors.", "quantifier": "every tensor, every list of in-range indices (with repetitions)", "why_tests_cant": "all index lists", "anchors": ["tt_sketch/tensor.py:TensorTrain.gather", "tt_sketch/tensor.py:CPTensor.gather", "tt_sketch/tensor.py:SparseTensor.gather"]}
{"id": "C15", "title": "Splitting a sparse tensor", "statement": "split(n) returns n sparse tensors whose stored entries, concatenated in order, are exactly the stored entries of the original, so, if no index is stored twice, the lazy sum denotes the same tensor; split(0) raises ZeroDivisionError.", "quantifier": "every sparse tensor and every n >= 1, including n > nnz", "why_tests_cant": "all nnz/n remainders", "anchors": ["tt_sketch/tensor.py:SparseTensor.split"]}
{"id": "C16", "title": "Dense to sparse round trip", "statement": "DenseTensor.to_sparse stores every entry exactly once and converting back to dense gives the same array.", "quantifier": "every dense tensor", "why_tests_cant": "all shapes", "anchors": ["tt_sketch/tensor.py:DenseTensor.to_sparse", "tt_sketch/tensor.py:SparseTensor.to_numpy"]}
{"id": "C17", "title": "Reported storage size", "statement": "size is the number of stored floating point numbers: product of the shape (dense), nnz*(d+1) (sparse), sum of core sizes (TT, Tucker), and the sum over summands for lazy sums of these; for CP tensors that number is size(), a method, and a lazy sum with a CP summand raises TypeError.", "quantifier": "every tensor of every format and every lazy sum", "why_tests_cant": "all formats in all combinations", "anchors": ["tt_sketch/tensor.py:DenseTensor.size", "tt_sketch/tensor.py:SparseTensor.size", "tt_sketch/tensor.py:TensorTrain.size", "tt_sketch/tensor.py:CPTensor.size", "tt_sketch/tensor.py:TuckerTensor.size", "tt_sketch/tensor.py:TensorSum.size"]}
{"id": "C18", "title": "Left-orthogonalisation", "statement": "For positive mode sizes and ranks, orthogonalize returns a tensor train of the same shape denoting the same tensor, in which every core but the last is left-orthogonal; ranks never grow.", "quantifier": "every tensor train with positive mode sizes and ranks; any QR routine meeting its contract", "why_tests_cant": "all orders/ranks, including rank-deficient and over-ranked trains", "anchors": ["tt_sketch/tensor.py:TensorTrain.orthogonalize"]}
{"id": "C19", "title": "Rounding respects shape and ranks", "statement": "For positive mode sizes and ranks round returns a tensor train of the same shape whose ranks never exceed the input ranks nor max(1, trimmed max_rank) (for positive requests: the trimmed max_rank), and every core but the first is right-orthogonal; a rank sequence of the wrong length raises ValueError.", "quantifier": "every tensor train with positive sizes and ranks, eps, max_rank, orthogonalized flag; any SVD/QR meeting its contract", "why_tests_cant": "all orders, ranks, spectra", "anchors": ["tt_sketch/tensor.py:TensorTrain.round"]}
{"id": "C20", "title": "Rounding accuracy", "statement": "The squared error of round equals the sum of the squares of the singular values it discards; rounding without discarding nonzero singular values is exact. For eps >= 0 the squared error is at most (d-1) times the squared distance to any tensor train with the requested ranks plus eps^2 times the squared norm times the sum of the trimmed ranks, and without max_rank at most eps^2 times the squared norm times the sum of the ranks; rounding without eps to ranks with which the tensor is representable is exact. With orthogonalized=True the input must be left-orthogonal.", "quantifier": "every tensor train with positive sizes and ranks, eps, max_rank, every competing tensor train; any SVD/QR meeting its contract", "why_tests_cant": "all spectra and orders", "anchors": ["tt_sketch/tensor.py:TensorTrain.round"]}
{"id": "C21", "title": "Partial contractions", "statement": "partial_dense('lr')[mu] is the unfolding matrix of the first mu+1 cores (rows indexed row-major by the leading indices); partial_dense('rl') the mirrored statement.", "quantifier": "every tensor train", "why_tests_cant": "all orders; row-major index arithmetic", "anchors": ["tt_sketch/tensor.py:TensorTrain.partial_dense"]}
{"id": "C22", "title": "Matricization", "statement": "matricize places entry (i_1..i_d) at the row given by the row-major index of the selected modes and the column given by the row-major index of the rest; dematricize(matricize(A, mode), mode, A.shape) is A.", "quantifier": "every array, every mode", "why_tests_cant": "all orders and shapes", "anchors": ["tt_sketch/utils.py:matricize", "tt_sketch/utils.py:dematricize"]}
{"id": "C23", "title": "Multithreaded random fill is schedule independent", "statement": "For a given seed and thread count, random_normal returns the same array under every interleaving of the worker threads, every position is written exactly once, and the position p holds draw number p mod step of generator p div step.", "quantifier": "every size, thread count, and every interleaving of the workers' writes", "why_tests_cant": "interleavings cannot be enumerated by tests", "anchors": ["tt_sketch/utils.py:MultithreadedRNG", "tt_sketch/utils.py:random_normal"]}
{"id": "C24", "title": "The integer hash never collides", "statement": "hash_int_c maps distinct 64-bit values to distinct 64-bit values.", "quantifier": "all 2^64 inputs", "why_tests_cant": "cannot enumerate 2^128 pairs", "anchors": ["tt_sketch/drm/fast_lazy_gaussian.pyx:hash_int_c"]}
{"id": "C25", "title": "Hashed doubles are ordinary numbers", "statement": "Every hashed bit pattern used as a double is a positive, finite, normal number, with frexp mantissa in [0.5,1) and exponent in [-510,1]; the number handed to ndtri lies in [0,1).", "quantifier": "every index, rank column, shape and seed", "why_tests_cant": "2^64 hash values", "anchors": ["tt_sketch/drm/fast_lazy_gaussian.pyx:_inds_to_rand_double", "tt_sketch/drm/fast_lazy_gaussian.pyx:uint_to_normal"]}
{"id": "C26", "title": "Sparse sign rows", "statement": "Each row of the sparse sign matrix has exactly the requested number of non-zeros (when that number is at most the rank) and all of them are +1 or -1; a column slice is a slice of the full row.", "quantifier": "every row index, rank, number of non-zeros and seed", "why_tests_cant": "random permutations cannot be enumerated", "anchors": ["tt_sketch/drm/fast_lazy_gaussian.pyx:_inds_to_sparse_sign", "tt_sketch/drm/fast_lazy_gaussian.pyx:inds_to_sparse_sign", "tt_sketch/drm/sparse_sign_drm.py:SparseSignDRM"]}
{"id": "C27", "title": "Distinct tensor indices get distinct random rows", "statement": "As long as the product of all mode sizes but the last is below 2^31 (and the total size at most 2^64), two distinct multi-indices within the shape are given distinct hash keys, hence (up to the three masked bits) distinct pseudo-random rows. For larger shapes this fails: the running product is kept in a 32-bit int, and in shape (2^16, 2^16, 2) the two entries of every last-mode fibre share one row.", "quantifier": "every shape within the stated bounds and every pair of distinct in-range indices", "why_tests_cant": "large shapes overflow machine integers and are never tested", "anchors": ["tt_sketch/drm/fast_lazy_gaussian.pyx:_inds_to_rand_double"]}
{"id": "C28", "title": "Lazy DRM entries depend only on index, column and seed", "statement": "inds_to_normal and inds_to_sparse_sign return for each requested index a row that depends only on that index: permuting, repeating or splitting the list of indices permutes, repeats or splits the rows; requesting columns [a,b) returns columns a..b of the full row, so enlarging the rank keeps existing columns.", "quantifier": "every list of indices, every shape, rank window and seed", "why_tests_cant": "all index lists and windows", "anchors": ["tt_sketch/drm/fast_lazy_gaussian.pyx:_inds_to_rand_double", "tt_sketch/drm/fast_lazy_gaussian.pyx:inds_to_normal", "tt_sketch/drm/fast_lazy_gaussian.pyx:inds_to_sparse_sign"]}
{"id": "C29", "title": "DRM rank bookkeeping", "statement": "A DRM built for ranks r reports rank r for left and reversed r for right DRMs; slice(a,b) reports b-a in the DRM's own direction, and .T reverses rank data and flips the direction and is an involution.", "quantifier": "every rank tuple, window and direction", "why_tests_cant": "all tuples", "anchors": ["tt_sketch/drm_base.py:DRM.__init__", "tt_sketch/drm_base.py:DRM.T", "tt_sketch/drm_base.py:CanSlice.slice"]}
{"id": "C30", "title": "Sketching with a sliced DRM equals slicing the sketch", "statement": "For every DRM that supports slicing, built with an explicit seed (and, for the sparse sign DRM, with the default number of non-zeros), and every tensor format it supports, the contractions produced by drm.slice(a,b) are the columns a..b of the contractions produced by drm. Excluded: a tensor-train DRM applied to a dense or Tucker tensor (it ignores the window), a dense Gaussian DRM without seed or with seed 2^32-1, a sparse sign DRM with its own number of non-zeros: in each of these the code breaks the claim.", "quantifier": "every DRM kind, seed, window, direction and every supported tensor", "why_tests_cant": "all windows, formats and DRM kinds", "anchors": ["tt_sketch/drm_base.py:CanSlice.slice", "tt_sketch/drm/tensor_train_drm.py:TensorTrainDRM", "tt_sketch/drm/dense_gaussian_drm.py:DenseGaussianDRM", "tt_sketch/drm/sparse_gaussian_drm.py:SparseGaussianDRM", "tt_sketch/drm/sparse_sign_drm.py:SparseSignDRM"]}
{"id": "C31", "title": "Increasing a DRM's rank keeps its old part", "statement": "drm.increase_rank(new) restricted to the old ranks is the old DRM, for both Gaussian DRMs with an explicit seed below 2^32-1; other DRM kinds do not offer increase_rank and raise AttributeError, and without a seed the dense Gaussian DRM is redrawn.", "quantifier": "every Gaussian DRM, seed, old and new ranks", "why_tests_cant": "all seeds and ranks", "anchors": ["tt_sketch/drm_base.py:CanIncreaseRank.increase_rank", "tt_sketch/drm/dense_gaussian_drm.py:DenseGaussianDRM", "tt_sketch/drm/sparse_gaussian_drm.py:SparseGaussianDRM"]}
{"id": "C32", "title": "Shape mismatch is rejected", "statement": "Sketching a tensor whose shape differs from the DRM's shape raises ValueError and never returns a sketch.", "quantifier": "every DRM, every tensor of a different shape, all methods", "why_tests_cant": "all shapes", "anchors": ["tt_sketch/drm_base.py:handle_transpose"]}
{"id": "C33", "title": "The streaming sketch is the defining contraction", "statement": "For tensors without repeated sparse indices each Omega of stream_sketch is exactly the contraction of the dense tensor with the left DRM on modes up to mu and the right DRM on the other modes, and each Psi the same with mode mu left open (TT, CP, sparse of any order; dense and Tucker for two modes, and in general, for lazy sums of dense tensors as well, with the right DRM acting through the unreversed row-major order); valid calls do succeed.", "quantifier": "every tensor of those formats, every DRM supporting it, every order d >= 2", "why_tests_cant": "all orders, ranks, DRMs", "anchors": ["tt_sketch/sketch_dispatch.py:general_sketch", "tt_sketch/sketching_methods/"]}
{"id": "C34", "title": "The sketch depends only on the tensor, not on its storage format", "statement": "Two tensors with equal dense arrays have equal streaming sketches under the same DRMs, whatever formats (TT, CP, sparse, and for two modes dense and Tucker, or lazy sums of them) store them. For dense and Tucker tensors of three or more modes the right DRM uses a different ordering, so this fails.", "quantifier": "every pair of tensors in any formats with equal dense arrays, every common DRM", "why_tests_cant": "all format pairs and shapes", "anchors": ["tt_sketch/sketch_dispatch.py:general_sketch", "tt_sketch/drm/tensor_train_drm.py:TensorTrainDRM.sketch_dense", "tt_sketch/drm/tensor_train_drm.py:TensorTrainDRM.sketch_tucker"]}
{"id": "C35", "title": "Sketching is linear", "statement": "The streaming sketch of a lazy sum is the sum of the streaming sketches of its summands, for any number, order and grouping of summands and any formats; scaling the tensor scales the sketch.", "quantifier": "every lazy sum, every DRM pair", "why_tests_cant": "all sums", "anchors": ["tt_sketch/sketch_dispatch.py:sketch_omega_sum", "tt_sketch/sketch_dispatch.py:sketch_psi_sum", "tt_sketch/sketch_dispatch.py:sum_sketch", "tt_sketch/sketch_container.py:SketchContainer.__add__"]}
{"id": "C36", "title": "Updating a sketch equals sketching the sum", "statement": "stream_sketch(X) + Y has exactly the Psi cores and Omega matrices of sketching X + Y with the same DRMs, and keeps the DRMs.", "quantifier": "every tensor X, Y of the same shape, every DRM pair", "why_tests_cant": "all tensors", "anchors": ["tt_sketch/sketch.py:SketchedTensorTrain.__add__", "tt_sketch/sketch.py:stream_sketch"]}
{"id": "C37", "title": "Any history of updates", "statement": "After any sequence of updates stt + X_1 + ... + X_k the sketch equals the sketch of the total, independently of the order of the updates.", "quantifier": "every finite list of tensors and every permutation of it", "why_tests_cant": "unbounded histories", "anchors": ["tt_sketch/sketch.py:SketchedTensorTrain.__add__"]}
{"id": "C38", "title": "Sketch shapes and ranks", "statement": "Psi[mu] has shape (left_rank[mu-1], n[mu], right_rank[mu]) and Omega[mu] shape (left_rank[mu], right_rank[mu]) (1 at the ends) and left_rank/right_rank of the sketch are those of the DRMs.", "quantifier": "every tensor and DRM pair", "why_tests_cant": "all", "anchors": ["tt_sketch/sketch_dispatch.py:general_sketch", "tt_sketch/sketch.py:SketchedTensorTrain"]}
{"id": "C39", "title": "Exact recovery by the streaming sketch", "statement": "For tensors without repeated sparse indices (Tucker tensors of three or more modes: with factors of full row rank): if at every mu the matrix Omega[mu] has the same rank as the mu-th unfolding of the tensor, converting the sketch to a TT (in either direction) gives exactly the original tensor. For every format and mixed lazy sums it also gives the original whenever each unfolding X_mu factors through its sketched columns W_mu (X_mu = W_mu B) and the left sketch keeps their row space (W_mu = C Omega_mu).", "quantifier": "every lazy sum of TT, CP and sparse tensors of any order and of dense and Tucker tensors of two modes; every dense tensor, lazy sum of dense tensors and Tucker tensor of any order (for the rank condition; not sums that mix dense or Tucker tensors of three or more modes with other formats: their parts meet different right matrices, see C34 - for these the factorisation condition); every DRM pair satisfying the rank condition; any least-squares routine meeting its contract", "why_tests_cant": "holds for all tensors; tests draw a few random ones", "anchors": ["tt_sketch/sketch.py:stream_sketch", "tt_sketch/sketch.py:assemble_sketched_tt"]}
{"id": "C40", "title": "Reconstruction ranks and directions", "statement": "C_cores('right') has TT ranks left_rank, C_cores('left') has TT ranks right_rank, both have the tensor's shape; 'auto' picks the direction whose ranks are smaller.", "quantifier": "every sketch", "why_tests_cant": "all ranks", "anchors": ["tt_sketch/sketch.py:assemble_sketched_tt"]}
{"id": "C41", "title": "orthogonal_sketch recovers exactly and is left-orthogonal", "statement": "The result of orthogonal_sketch has the tensor's shape and the left ranks, all its cores but the last are left-orthogonal (positive mode sizes and ranks), and if at every mu the contraction of the tensor with both DRMs (for Tucker tensors of three or more modes: the contraction the sketch really computes, see C33) has the rank of the mu-th unfolding the result equals the tensor; for every format and mixed lazy sums it equals the tensor whenever each unfolding X_mu factors through its sketched columns W_mu (X_mu = W_mu B) and the left sketch keeps their row space (W_mu = C Omega_mu); calls with fresh DRMs and trimmed ranks succeed.", "quantifier": "every tensor with at least two modes (TT, CP, sparse, dense, Tucker, lazy sums); recovery for lazy sums of TT, CP, sparse tensors without repeated indices and two-mode dense and Tucker tensors, for single dense tensors of any order and for Tucker tensors of three or more modes whose factors have full row rank; all ranks, DRM types or supplied DRMs, seeds, and all outcomes of the random number generators", "why_tests_cant": "all tensors", "anchors": ["tt_sketch/sketch.py:orthogonal_sketch", "tt_sketch/sketch_dispatch.py:orth_step", "tt_sketch/sketch_dispatch.py:OrthogTTDRM"]}
{"id": "C42", "title": "hmt_sketch recovers exactly and is left-orthogonal", "statement": "The result of hmt_sketch has the tensor's shape and the trimmed ranks (or those of the supplied DRM), all its cores but the last are left-orthogonal (positive mode sizes and ranks), and if each right DRM matrix preserves the rank of the unfolding the result equals the tensor; for every format and mixed lazy sums it equals the tensor whenever each unfolding X_mu factors through its sketched columns W_mu (X_mu = W_mu B); calls with a fresh DRM succeed. With return_drm=True it raises NameError instead of returning.", "quantifier": "as for C41", "why_tests_cant": "all tensors", "anchors": ["tt_sketch/sketch.py:hmt_sketch", "tt_sketch/sketch_dispatch.py:general_sketch"]}
{"id": "C43", "title": "Rank ordering is validated", "statement": "stream_sketch raises ValueError unless left ranks are all smaller or all larger than right ranks; orthogonal_sketch unless all left are smaller than right; supplied DRMs of a different rank are rejected; accepted calls use strictly ordered ranks after trimming.", "quantifier": "every rank pair (int or tuple), shape and supplied DRM", "why_tests_cant": "all combinations", "anchors": ["tt_sketch/sketch.py:stream_sketch", "tt_sketch/sketch.py:orthogonal_sketch", "tt_sketch/sketch.py:hmt_sketch"]}
{"id": "C44", "title": "Blocked sketch equals unblocked sketch", "statement": "For a DRM pair made by the constructors (a DenseGaussianDRM with a seed below 2^32-1; a TensorTrainDRM not meeting dense or Tucker tensors), blocked_stream_sketch with any chain of rank cut points from 0 to the full ranks succeeds and returns exactly what the ordinary streaming sketch returns (Psi cores, Omega matrices, shape, ranks). With a TensorTrainDRM and a dense tensor it can raise ValueError although the ordinary sketch succeeds.", "quantifier": "every tensor, sliceable DRM pair, every chain of cut points", "why_tests_cant": "all partitions", "anchors": ["tt_sketch/sketch.py:blocked_stream_sketch", "tt_sketch/sketch.py:_blocked_stream_sketch_components", "tt_sketch/sketch.py:_assemble_blocked_stream_sketches"]}
{"id": "C45", "title": "Rank increase equals sketching afresh", "statement": "If stt is a streaming sketch of X with DenseGaussianDRM (seed below 2^32-1) or SparseGaussianDRM on each side, stt.increase_rank(X, l, r) with ranks at least the old ones equals the streaming sketch of X with the enlarged DRMs, which are those constructed afresh with the old seeds; so the call can be repeated. With a TensorTrainDRM or SparseSignDRM the call raises AttributeError.", "quantifier": "every tensor, DRM pair supporting it, old and new ranks", "why_tests_cant": "all ranks", "anchors": ["tt_sketch/sketch.py:SketchedTensorTrain.increase_rank"]}
{"id": "C46", "title": "Scaling a sketch raises", "statement": "stt * c, -stt, stt / c and differences with a sketch never return a wrongly scaled sketch: with the current code they always raise (UnboundLocalError).", "quantifier": "every sketch and scalar", "why_tests_cant": "all sketches", "anchors": ["tt_sketch/sketch_container.py:SketchContainer.__mul__", "tt_sketch/sketch.py:SketchedTensorTrain.__mul__"]}
{"id": "C47", "title": "Transposing a sketch", "statement": "stt.T holds a sketch of the reversed shape with the two sides' ranks exchanged and reversed, and transposing twice gives back the same sketch. It converts to the transposed tensor train: C_cores('right') of stt.T is the transpose of C_cores('left') of stt and vice versa, and to_tt() commutes with T (given that least squares multiplies by a matrix determined by the left-hand side, i.e. a generalised inverse). If the shape and the ranks read the same backwards, stt.T is exactly the streaming sketch of X.T with its own DRMs and can be updated like one; if the shape does not read the same backwards, adding a tensor of the transposed shape to stt.T is an error, never a wrong sketch.", "quantifier": "every streaming sketch (any tensor, ranks, DRM kinds; hence, by C37, any updated sketch), every tensor added to its transpose", "why_tests_cant": "all sketches", "anchors": ["tt_sketch/sketch_container.py:SketchContainer.T", "tt_sketch/sketch.py:SketchedTensorTrain.T", "tt_sketch/drm_base.py:DRM.T"]}
{"id": "C48", "title": "Seeds make sketches reproducible", "statement": "Calling a sketching function twice in one interpreter with the same tensor, ranks, DRM types and seed gives the same result, whatever the state of the entropy source; across interpreters this needs the same string hash (PYTHONHASHSEED), on which the right seed depends.", "quantifier": "every tensor, rank, seed; every run of the interpreter", "why_tests_cant": "process-level state (hash randomisation, cpu count) does not vary inside a test run", "anchors": ["tt_sketch/sketch.py:stream_sketch", "tt_sketch/sketch.py:orthogonal_sketch", "tt_sketch/utils.py:MultithreadedRNG"]}
{"id": "C49", "title": "TT-SVD", "statement": "For every nonempty tensor of order >= 2 and every admissible rank argument, tt_svd returns a valid tensor train of the same shape whose ranks are at most max(1, trimmed requested rank); its squared error is the sum of the squares of the discarded singular values, and is at most (d-1) times the squared distance to any tensor whose unfoldings have the requested ranks. It is exact when the tensor is representable with the requested (trimmed) ranks, in particular when no rank is requested. With a single mode it raises IndexError.", "quantifier": "every nonempty real tensor, in every format, every rank argument; any SVD meeting its contract", "why_tests_cant": "all tensors", "anchors": ["tt_sketch/tt_svd.py:tt_svd"]}
{"id": "C50", "title": "MPO application", "statement": "MPO(x) is a tensor train of the MPO's output shape whose entry at k is the sum over j of the MPO's dense entry at (j1,k1,..,jd,kd) times x[j]; its ranks are the products of the ranks. to_numpy has the axes (in1,out1,..,ind,outd) and the entries given by products of core slices; to_tt merges the two indices of each mode and denotes the same numbers.", "quantifier": "every MPO and tensor train of matching shapes", "why_tests_cant": "all orders, ranks", "anchors": ["tt_sketch/tt_gmres.py:MPO.__call__", "tt_sketch/tt_gmres.py:MPO.to_numpy", "tt_sketch/tt_gmres.py:MPO.to_tt"]}
{"id": "C51", "title": "Identity and transpose MPO", "statement": "MPO.eye(shape) has the identity matrix as dense form and MPO.eye(shape)(x) is x; MPO.T has the transposed matrix, the same ranks, is an involution, and is the adjoint: <A x, y> = <x, A.T y>.", "quantifier": "every shape, MPO and tensor trains", "why_tests_cant": "all", "anchors": ["tt_sketch/tt_gmres.py:MPO.eye", "tt_sketch/tt_gmres.py:MPO.T"]}
{"id": "C52", "title": "Scaling an MPO and its side effects", "statement": "A * c (also c * A, -A, A / c) returns an MPO denoting c times what A denoted. It also overwrites A: afterwards A, and every MPO object holding the same core list, denotes c times its former value; MPOs with other core lists are unchanged. The other ways to make an MPO (constructor, T) change no existing MPO, and a transpose is independent of the original.", "quantifier": "every program building and scaling MPOs, every MPO object alive", "why_tests_cant": "aliasing effects on every operand", "anchors": ["tt_sketch/tt_gmres.py:MPO.__mul__"]}
{"id": "C53", "title": "Preconditioner", "statement": "For an invertible matrix of the size of the chosen mode: forward_call multiplies that mode by the matrix and nothing else, backward_call (and calling the preconditioner) by its inverse and nothing else, keeping shape and ranks; the two undo each other in both orders. A singular matrix raises LinAlgError on backward_call; a mode the tensor train does not have raises IndexError.", "quantifier": "every square matrix, mode and tensor train with positive sizes and ranks; any QR / triangular solve meeting its contract", "why_tests_cant": "all matrices", "anchors": ["tt_sketch/tt_gmres.py:TTPrecond"]}
{"id": "C54", "title": "Sums of linear maps", "statement": "TTLinearMapSum applied to a TT or a sum of TTs denotes the sum of all maps applied to all summands (for MPOs: the sum of the matrices applied to the sum of the inputs); the constructor accepts exactly the nonempty lists with common input and output shapes and otherwise raises ValueError; an empty lazy sum raises IndexError.", "quantifier": "every list of maps, every input", "why_tests_cant": "all", "anchors": ["tt_sketch/tt_gmres.py:TTLinearMapSum"]}
{"id": "C55", "title": "round_tt_sum: shape, ranks, accuracy", "statement": "For rounding methods exact, pairwise, sketch and orth_sketch, round_tt_sum succeeds and returns a tensor train of the shape of the sum whose ranks are at most the trimmed max_rank (exactly the trimmed ones for the sketches); the one exception is pairwise with a single summand, which is returned unchanged whatever max_rank says. exact is quasi-optimal: its squared error is at most (d-1) times that of any tensor train with ranks at most max_rank, plus the eps term; it is lossless if the sum has such ranks. pairwise is lossless if the ranks of the summands add up to at most max_rank; the sketches are lossless whenever the sketch matrices have the rank of the unfoldings. A max_rank sequence of the wrong length, an unknown method, orth_sketch with oversample_factor <= 1 and sketch with oversample_factor 1 raise ValueError; method None returns the sum itself.", "quantifier": "every list of at least one tensor train of one shape with >= 2 modes, positive sizes and ranks, every positive max_rank (int or sequence), every eps, every oversample_factor > 1, every random state", "why_tests_cant": "quantifies over all sums, ranks, tolerances, methods and random draws", "anchors": ["tt_sketch/tt_gmres.py:round_tt_sum"]}
{"id": "C56", "title": "GMRES history and stopping", "statement": "A successful tt_sum_gmres run makes n iterations, 1 <= n <= maxiter; the history lists have the lengths n+1 (residual_norm, rank, w_norm, step_time) and n (step_time_res, delta); for b != 0 the reported relative residuals are nonnegative and never increase, and the run stops after the first iteration with residual^2 * |b| < tolerance, or after maxiter iterations (the code compares the squared residual that lstsq returns); H_matrix is upper Hessenberg with subdiagonal w_norm[1:], y is a least squares solution of the reduced system and the last reported residual is its residual; all times are nonnegative and the total time covers the parts; maxiter=0 never returns a result.", "quantifier": "every system, preconditioner, initial guess, tolerance, maxiter >= 0, rounding method, random numbers and clock", "why_tests_cant": "ranges over all systems and all iteration counts", "anchors": ["tt_sketch/tt_gmres.py:tt_sum_gmres"]}
{"id": "C57", "title": "GMRES residual, optimality and convergence", "statement": "For every successful run the residual of the returned x (in the preconditioned system) is at most sqrt(n+1) times the last reported residual plus the rounding errors made on the way (weighted by the entries of y). If no rounding loses anything (and symmetric=True is only used for self-adjoint operators) the basis is orthonormal, the reported residual is the true one, and x minimises the residual over the initial guess plus the Krylov space of dimension n. If moreover the operator is injective, b != 0, the guess is not a solution, tolerance > 0 and maxiter >= 1, the run succeeds after at most prod(shape) iterations, and with maxiter >= prod(shape) it ends with |b - A x|^2 < tolerance |b|. If the guess is already a solution the run fails with a division by zero.", "quantifier": "every well-formed sum of linear maps, right hand side, initial guess, preconditioner, rank, rounding method", "why_tests_cant": "ranges over all systems and all iteration counts", "anchors": ["tt_sketch/tt_gmres.py:tt_sum_gmres"]}
{"id": "C58", "title": "GMRES input validation, errors and ranks", "statement": "Shape mismatches between map, right hand side and initial guess, non-square maps and rank sequences of the wrong length raise ValueError before any iteration; a run only succeeds with matching shapes, a known rounding method (not None) and maxiter >= 1; with well-formed arguments it either succeeds, divides by zero, or raises ValueError (rank deficient H_matrix), UnboundLocalError only and always for maxiter=0; the result is a well-formed tensor train of the shape of the unknown with ranks at most final_round_rank (default max_rank), and every rank in the history is at most max_rank.", "quantifier": "every input", "why_tests_cant": "all shapes, maps and ranks", "anchors": ["tt_sketch/tt_gmres.py:tt_sum_gmres"]}
{"id": "C59", "title": "Unsupported tensor/DRM pairs fail loudly", "statement": "Sketching a tensor type with no sketching method, or with a DRM lacking the method for that type, raises an exception rather than returning a wrong sketch.", "quantifier": "every tensor type and DRM kind", "why_tests_cant": "all pairs", "anchors": ["tt_sketch/sketch_dispatch.py:get_sketch_method", "tt_sketch/sketch.py:get_drm_capabilities"]}
{"id": "C60", "title": "Zero tensors", "statement": "TensorTrain.zero(shape, rank) has the given shape and ranks and denotes the zero tensor; SketchContainer.zero likewise and is neutral for sketch addition.", "quantifier": "every shape and rank", "why_tests_cant": "all", "anchors": ["tt_sketch/tensor.py:TensorTrain.zero", "tt_sketch/sketch_container.py:SketchContainer.zero"]}
{"id": "C61", "title": "orthogonal and hmt sketches are orthogonal projections of the tensor", "statement": "The tensor train Y returned by orthogonal_sketch(X, ...) or hmt_sketch(X, ...) is the orthogonal projection of X onto the set of tensors that have a tensor train with the same cores as Y except for the last one: X - Y is orthogonal to every such tensor, no such tensor is closer to X than Y, and norm(X)^2 = norm(Y)^2 + norm(X - Y)^2 (so the norm never grows).", "quantifier": "every tensor format accepted by the sketch (as in C33/C41), every shape with at least two modes and positive sizes, all positive ranks, all DRMs (fresh or supplied), every tensor train that agrees with the result in all cores but the last", "why_tests_cant": "Optimality is over a continuum of competing tensor trains and must hold for every tensor, shape, rank and draw of the random matrices.", "anchors": ["tt_sketch/sketch.py: orthogonal_sketch, hmt_sketch, general_sketch", "tt_sketch/sketch_dispatch.py:orth_step", "tt_sketch/sketch_dispatch.py:OrthogTTDRM"]}
{"id": "C62", "title": "deterministic error bounds of hmt and orthogonal sketches", "statement": "For hmt_sketch with right matrices R_mu (X_mu R_mu being for dense and Tucker tensors of three or more modes the columns the sketch really computes, see C33), the squared error norm(X - Y)^2 is at most the sum over the d-1 bonds of norm(X_mu - (X_mu R_mu) B_mu)^2 for any matrices B_mu (in particular the best ones): the error is controlled by how well the sketched columns span each unfolding of X. For orthogonal_sketch with left matrices L_mu, the squared error is at most the sum of the squared errors of the generalised Nystroem approximations X_mu R_mu (L_mu X_mu R_mu)^- L_mu X_mu of the unfoldings.", "quantifier": "every tensor of every format with at least two modes, Tucker tensors of any order and lazy sums mixing formats included, sparse tensors without repeated indices; positive sizes, all positive ranks, all DRMs, all coefficient matrices", "why_tests_cant": "A bound on the error for all inputs, ranks and random draws; tests can only compare errors on samples.", "anchors": ["tt_sketch/sketch.py: orthogonal_sketch, hmt_sketch, general_sketch", "tt_sketch/utils.py: right_mul_pinv"]}
{"id": "C63", "title": "svdvals returns the singular values of the unfoldings", "statement": "TensorTrain.svdvals() returns one list per mode. For a mode mu >= 1 (counted from 0) it holds, in decreasing order, the singular values of the unfolding of the tensor with the first mu modes as rows (as many as the rank of the orthogonalised train there); for mode 0 it holds again those of the unfolding with the first mode as rows. Their squares sum to the squared norm; no tensor train of rank r at the bond is closer to the tensor than the tail of the squares from the r-th on; and round(max_rank) has a squared error of at most the sum of these tails over the bonds. The list depends only on the tensor, up to zeros at the end. This holds whenever no bond r_k of the orthogonalised train exceeds n_{k+1} r_{k+1} (which includes all trimmed ranks); otherwise svdvals raises ValueError.", "quantifier": "every tensor train with positive mode sizes and ranks, any number of modes (including one); every tensor train Z of the same shape for the distance; every maximal rank and eps for the rounding bound", "why_tests_cant": "Singular values of all unfoldings of every tensor, and bounds over a continuum of competing tensor trains; the ValueError depends on a relation between ranks and mode sizes that sampled ranks rarely violate.", "anchors": ["tt_sketch/tensor.py:TensorTrain.svdvals", "tt_sketch/tensor.py:TensorTrain.orthogonalize", "tt_sketch/tensor.py:TensorTrain.round"]}
{"id": "C64", "title": "TensorTrain.random", "statement": "TensorTrain.random(shape, rank, seed, orthog, trim, norm_goal) returns a well-formed tensor train of the given shape; its ranks are those asked for, trimmed if trim is set (default: exactly if orthog is set). Without orthog, and always in the last core, entry (a, j, b) of core i is the corresponding random number (own generator per core, row-major) divided by sqrt(r n) for norm_goal='norm-1' and by sqrt(r) for 'norm-preserve', r being the rank left of the core. With orthog all cores but the last are left-orthogonal, are the Q factors of the random matrices, and the norm of the tensor is the norm of the last core. orthog with trim=False, a rank sequence of the wrong length and an unknown norm_goal raise ValueError.", "quantifier": "every shape, rank (int or sequence), seed, flag combination and outcome of the random number generators; any number of modes; sizes and ranks may be zero unless orthog is set", "why_tests_cant": "all shapes, ranks and random outcomes; that the trimmed ranks always leave room for the orthogonalisation is a fact about all rank tuples", "anchors": ["tt_sketch/tensor.py:TensorTrain.random"]}
{"id": "C65", "title": "Random dense, sparse, CP and Tucker tensors", "statement": "DenseTensor.random gives an array of the shape filled with the random numbers. SparseTensor.random stores exactly nnz entries at distinct valid positions with the random values, and raises ValueError exactly if nnz exceeds the number of positions (or the shape is (), or the seed is >= 2^32). CPTensor.random gives a CP tensor of the shape and rank whose factors are the random numbers divided by sqrt(n_i). TuckerTensor.random gives a Tucker tensor with every rank cut to the mode size, factors with orthonormal rows and the norm of its core; its modes are the first ones of the shape, as many as there are ranks (a shorter rank sequence silently drops modes). Its core is drawn from the generator of the first factor: if both have the same size they consist of the same numbers.", "quantifier": "every shape, rank, nnz, seed, and outcome of the random number generators", "why_tests_cant": "all shapes and random outcomes", "anchors": ["tt_sketch/tensor.py:DenseTensor.random", "tt_sketch/tensor.py:SparseTensor.random", "tt_sketch/tensor.py:CPTensor.random", "tt_sketch/tensor.py:TuckerTensor.random", "tt_sketch/utils.py:random_normal"]}
{"id": "C66", "title": "Streaming sketches recover low-rank tensors with probability one", "statement": "The numbers drawn are random variables: the joint law of finitely many different draws has a density (e.g. independent standard normal numbers). If the ranks asked for in stream_sketch (before trimming) are at least the ranks of the unfoldings of the tensor - in particular if they are at least the TT ranks of a tensor train, the number of components of a CP tensor, the number of entries of a sparse one, or the sum of those of the summands of a lazy sum - and the DRMs are tensor train or dense Gaussian DRMs, then with probability one the call succeeds and C_cores (each direction) and to_tt return exactly the tensor. For dense arrays with three or more modes this holds with dense Gaussian right DRMs, and fails with tensor train DRMs: there are an array and sufficient ranks for which no outcome of the generators gives the array back.", "quantifier": "every tensor of any format and shape (sparse: no repeated indices; dense and Tucker: two modes, or dense Gaussian right DRMs for dense arrays) (at least two modes), every rank argument, seed and DRM class drawn from a generator, and almost every outcome of the generators", "why_tests_cant": "a statement about all tensors and about the probability of all outcomes of the random number generators; a test sees finitely many seeds", "anchors": ["tt_sketch/sketch.py:stream_sketch", "tt_sketch/sketch.py:SketchedTensorTrain.to_tt", "tt_sketch/drm/tensor_train_drm.py:TensorTrainDRM", "tt_sketch/drm/dense_gaussian_drm.py:DenseGaussianDRM", "tt_sketch/utils.py:random_normal", "tt_sketch/utils.py:trim_ranks"]}
{"id": "C67", "title": "Orthogonal and HMT sketches recover low-rank tensors with probability one", "statement": "The numbers drawn are random variables: the joint law of finitely many different draws has a density (e.g. independent standard normal numbers). If the ranks asked for (the left ones in orthogonal_sketch, those of hmt_sketch) are at least the ranks of the unfoldings of the tensor, and the DRMs are tensor train or dense Gaussian DRMs, then with probability one orthogonal_sketch and hmt_sketch succeed and return exactly the tensor. For dense arrays with three or more modes: with dense Gaussian right DRMs.", "quantifier": "every tensor of any format and shape (sparse: no repeated indices; dense and Tucker: two modes, or dense Gaussian right DRMs for dense arrays) (at least two modes, no empty mode), all positive ranks, every seed and DRM class drawn from a generator, and almost every outcome of the generators", "why_tests_cant": "a statement about all tensors and about the probability of all outcomes of the random number generators", "anchors": ["tt_sketch/sketch.py:orthogonal_sketch", "tt_sketch/sketch.py:hmt_sketch", "tt_sketch/drm/tensor_train_drm.py:TensorTrainDRM", "tt_sketch/drm/dense_gaussian_drm.py:DenseGaussianDRM"]}
{"id": "C68", "title": "Sketches preserve inner products on average", "statement": "The numbers drawn are independent random variables with mean 0 and variance 1, and the seeds of the generators involved differ. Two tensors X, Y of the same shape (any formats, also the same tensor) are sketched with stream_sketch with the same arguments (tensor train or dense Gaussian DRMs, positive ranks). Both calls succeed; the expectation of the product of entry (a,b) of Omega_mu of X and entry (a',b') of Omega_mu of Y is <X,Y> if (a,b)=(a',b') and 0 otherwise; for Psi_mu the same holds for the inner products of the mode-mu slices. Hence E||Omega_mu||^2 and E||Psi_mu||^2 are ||X||^2 times the number of rows and columns of the sketch: the 1/sqrt(rank) scaling of tensor train DRMs is the right one.", "quantifier": "every pair of tensors of any format and shape (at least two modes), every rank argument, seed and DRM class drawn from a generator", "why_tests_cant": "an expectation over all outcomes of the generators, for all tensors; tests see sample means", "anchors": ["tt_sketch/sketch.py:stream_sketch", "tt_sketch/drm/tensor_train_drm.py:TensorTrainDRM", "tt_sketch/drm/dense_gaussian_drm.py:DenseGaussianDRM", "tt_sketch/utils.py:random_normal", "tt_sketch/tensor.py:TensorTrain.random"]}
{"id": "C69", "title": "Expected norms of random tensors", "statement": "The numbers drawn are independent random variables with mean 0 and variance 1, and the seeds of the generators involved differ. TensorTrain.random (positive sizes and ranks) has uncorrelated entries; with norm_goal 'norm-1' they have mean square 1/size, so E||X||^2 = 1, and with 'norm-preserve' mean square 1. Orthogonalised trains have E||X||^2 = 1 for 'norm-1' and the size of the last mode for 'norm-preserve'. CPTensor.random has uncorrelated entries of mean square rank/size, so E||X||^2 = rank. DenseTensor.random: mean square one. SparseTensor.random: E||X||^2 = nnz. TuckerTensor.random: E||X||^2 is the product of the ranks (cut to the mode sizes).", "quantifier": "every shape, rank, seed, trimming and norm goal", "why_tests_cant": "an expectation over all outcomes of the generators", "anchors": ["tt_sketch/tensor.py:TensorTrain.random", "tt_sketch/tensor.py:CPTensor.random", "tt_sketch/tensor.py:DenseTensor.random", "tt_sketch/tensor.py:SparseTensor.random", "tt_sketch/tensor.py:TuckerTensor.random", "tt_sketch/utils.py:random_normal"]}
{"id": "C70", "title": "A streaming sketch is a product of oblique projections; its error is bounded", "statement": "Let P_k Z = (X_k R_k) Omega_k^+ (L_k Z_k) for the unfolding X_k behind the first k modes, with the matrices L_k, R_k of the two DRMs (X_k R_k being for dense and Tucker tensors of three or more modes the columns the sketch really computes, see C33), Omega_k = L_k X_k R_k and ^+ the Moore-Penrose inverse. Each P_k is a projection. The tensor train that C_cores and to_tt make from stream_sketch(X) denotes P_1 P_2 ... P_(d-1) X, whatever the direction: C_cores('left'), C_cores('right') and to_tt have the same entries even when the ranks are too small to recover X. If ||P_k Z|| <= c_k ||Z|| for all Z then ||X - Y|| <= sum_k c_1...c_(k-1) ||X - P_k X||, and if every Omega_k has full column rank then ||X - P_k X|| may be replaced by (1 + c_k) ||X_k - X_k R_k B|| for any B, in particular by the best approximation in the range of the right sketch.", "quantifier": "every tensor of every format with at least two modes, dense and Tucker tensors of any order and lazy sums mixing formats included (sparse: no repeated indices), every rank argument, seed, DRM class or supplied DRM, direction, choice of B", "why_tests_cant": "an identity and an inequality for all tensors and all sketching matrices; tests compare errors on samples", "anchors": ["tt_sketch/sketch.py:stream_sketch", "tt_sketch/sketch.py:SketchedTensorTrain.C_cores", "tt_sketch/sketch.py:assemble_sketched_tt", "tt_sketch/utils.py:right_mul_pinv", "tt_sketch/utils.py:left_mul_pinv"]}
{"id": "C71", "title": "MPO.random", "statement": "For input and output shapes of equal length and a rank for every bond MPO.random succeeds; the operator has these shapes and the ranks asked for, trimmed to what the products of input and output sizes allow (a rank sequence of the wrong length is a ValueError). Entry (a,i,j,b) of a core is the random number plus the one at the re-read transposed position, times sqrt(in*out) over the Frobenius norm of that array, so the squared entries of a core sum to in*out unless they all vanish. If input and output shapes agree the operator is symmetric: A.T == A, its matrix is symmetric and <A(x),y> = <x,A(y)>.", "quantifier": "all shapes (zero sizes included), rank arguments, outcomes of np.random.normal, tensor trains x, y", "why_tests_cant": "all shapes, ranks and random outcomes; tests draw samples of square operators", "anchors": ["tt_sketch/tt_gmres.py:MPO.random", "tt_sketch/tt_gmres.py:MPO.T", "tt_sketch/tt_gmres.py:MPO.__call__"]}
{"id": "C72", "title": "Mean error of hmt_sketch with Gaussian sketches", "statement": "hmt_sketch with a dense Gaussian DRM always returns, and if the generators yield independent standard normal numbers the mean of ||X - Y||^2 is at most the sum over the bonds mu of (1 + k/(l-k-1)) ||X - B_mu||^2, where l is the rank of the sketch at the bond (the one asked for, trimmed), and B_mu is any array whose mu-th unfolding has rank at most k, with k+2 <= l (k <= l if B_mu = X). So it is at most the sum of (1 + k/(l-k-1)) times the sum of the squared singular values of the unfolding after the first k. The probability of a squared error >= t is at most that bound over t.", "quantifier": "all tensors with at least two modes of the classes a dense Gaussian DRM supports: dense arrays, sparse tensors, tensor trains and lazy sums of sparse tensors and tensor trains (with two modes also sums containing dense arrays); all ranks, seeds, comparison arrays/target ranks k; probability over the draws", "why_tests_cant": "a statement about the mean over all draws, for every input and rank; tests draw a few samples", "anchors": ["tt_sketch/sketch.py:hmt_sketch", "tt_sketch/drm/dense_gaussian_drm.py:DenseGaussianDRM", "tt_sketch/utils.py:random_normal"]}
{"id": "C73", "title": "Mean error of orthogonal_sketch with Gaussian sketches", "statement": "orthogonal_sketch with dense Gaussian DRMs (left rank smaller than right rank) always returns, and if the generators yield independent standard normal numbers and the left and right matrices of every bond come from different seeds, the mean of ||X - Y||^2 is at most the sum over the bonds mu of (1 + l/(r-l-1)) (1 + k/(l-k-1)) ||X - B_mu||^2, where l and r are the left and right ranks at the bond, and B_mu is any array whose mu-th unfolding has rank at most k, with k+2 <= l and l+2 <= r (k <= l <= r if B_mu = X). In particular the bound holds with the sum of the squared singular values after the first k.", "quantifier": "all tensors with at least two modes of the classes a dense Gaussian DRM supports: dense arrays, sparse tensors, tensor trains and lazy sums of sparse tensors and tensor trains (with two modes also sums containing dense arrays); all ranks, seeds, comparison arrays/target ranks k; probability over the draws", "why_tests_cant": "a statement about the mean over all draws, for every input and rank; tests draw a few samples", "anchors": ["tt_sketch/sketch.py:orthogonal_sketch", "tt_sketch/drm/dense_gaussian_drm.py:DenseGaussianDRM", "tt_sketch/utils.py:right_mul_pinv", "tt_sketch/utils.py:random_normal"]}
{"id": "C74", "title": "Products with pseudo-inverses and projectors", "statement": "right_mul_pinv(A, B) is A B^+ and left_mul_pinv(A, B) is A^+ B for the Moore-Penrose inverse, for matrices of every shape and rank. projector(X, Y) is idempotent, has its range inside the range of X and is zero on everything orthogonal to the range of Y; it fixes X if Y^T X has the rank of X, and Y^T P = Y^T if Y^T X has the rank of Y. projector(X) is the orthogonal projection onto the range of X: symmetric, idempotent, fixes X, and P v is the best approximation of v by vectors X w. Matrices with different numbers of rows are rejected with a ValueError.", "quantifier": "all real matrices of matching shapes, of any rank, including empty ones", "why_tests_cant": "tests use a few random full-rank matrices; the claim covers rank-deficient ones and every shape", "anchors": ["tt_sketch/utils.py:right_mul_pinv", "tt_sketch/utils.py:left_mul_pinv", "tt_sketch/utils.py:projector"]}
{"id": "C75", "title": "Test tensors", "statement": "hilbert_tensor(d, n) has d modes of size n and the entry at i is 1/(i_1+...+i_d+1), so it is symmetric in its indices. sqrt_tensor(shape, a, b) has norm one and its entries are proportional to sqrt(|t_1+...+t_d|) at the grid points t, with the first two modes swapped against the requested shape; it returns exactly when the shape is not empty and the grid sums do not all vanish (or a mode has size 0).", "quantifier": "all dimensions, shapes and grid bounds", "why_tests_cant": "tests evaluate a few small tensors; the claim is about every entry for every shape", "anchors": ["tt_sketch/utils.py:hilbert_tensor", "tt_sketch/utils.py:sqrt_tensor"]}
{"id": "C76", "title": "Which tensor objects share memory", "statement": "In every program that builds tensors from arrays and lists, transposes, scales and adds them, assigns cores (x[i] = a) and writes to arrays: operations other than the two kinds of assignment change no existing tensor; a tensor changes only when a core in its own list is assigned (through any tensor with the same list) or an array sharing memory with one of its arrays is written to, and exactly as described by that assignment. x.T is a view: it stays the transpose of x through all later writes as long as no core of either is replaced. x * c of dense, sparse and tensor-train tensors and x.add(y) share nothing with older tensors: later changes of the old do not affect the new and vice versa. Tensor trains made from one list stay equal; x * c of a Tucker tensor shares all factors with x. The attribute shape is always right if assigned cores have the shape of the replaced ones.", "quantifier": "all programs (finite sequences of these operations, of any length), all array contents and shapes, all objects", "why_tests_cant": "aliasing depends on the whole history of operations and assignments; tests never mutate shared arrays", "anchors": ["tt_sketch/tensor.py:DenseTensor.T", "tt_sketch/tensor.py:SparseTensor.T", "tt_sketch/tensor.py:TensorTrain.T", "tt_sketch/tensor.py:TensorTrain.__setitem__", "tt_sketch/tensor.py:TensorTrain.__mul__", "tt_sketch/tensor.py:CPTensor.__mul__", "tt_sketch/tensor.py:TuckerTensor.__mul__", "tt_sketch/tensor.py:TensorTrain.add"]}
{"id": "C77", "title": "Cached dictionary of sparse tensors", "statement": "A sparse tensor made by the constructor, by .T or by scaling starts without a cached dictionary. Up to the first call of gather, gather answers with the entries the tensor has at that moment; after it, gather answers for ever with the entries at the moment of the first call. If no array sharing memory with the entries is written to after the first call, this is always what the tensor is.", "quantifier": "all programs of any length, all sparse tensors in them, all index lists", "why_tests_cant": "depends on the order of gather calls and writes in the whole history", "anchors": ["tt_sketch/tensor.py:SparseTensor.gather", "tt_sketch/tensor.py:SparseTensor.dict"]}
{"id": "C78", "title": "Experiments are run once over all processes and crashes", "statement": "An experiment table is a file with one row per experiment; scripts are killed and restarted, and every script process loads the table and calls do_experiment in some order. If experiments with the same name have the same parameters and the values fit the columns, then over the whole history (any number of processes, an experiment function may raise or be killed) every experiment is completed at most once, every requested experiment whose function returns is recorded, nothing recorded is ever lost, and the rows of the table are exactly the completed experiments, each with its name, parameters and results.", "quantifier": "all histories: any number of processes, kills between and inside experiment functions, any order and repetition of experiments, all names, parameter values and results", "why_tests_cant": "depends on all interleavings of runs, failures and restarts; there are no tests of it", "anchors": ["scripts/experiment_base.py:Experiment.__init__", "scripts/experiment_base.py:Experiment.do_experiment", "scripts/experiment_base.py:Experiment.save", "scripts/experiment_base.py:Experiment.load"]}
{"id": "C79", "title": "Linear maps written by users; the parametric cookie problem", "statement": "Any subclass of TTLinearMap whose call acts on well-formed tensor trains as some matrix can be summed with MPOs and preconditioners and given to the solver, and what is proved about sums and solver holds for it (its matrix is determined by the calls). In particular prepare_cookie_problem(num_coeffs, num_cookies) with 4 or 9 cookies, sound data and num_coeffs > 0 returns a map of shape (n, num_coeffs, ..., num_coeffs) which for every combination of grid indices takes the slice x(:, k) to A(theta)^T x(:, k), A(theta) = A_0 + theta_1 A_1 + ..., theta_mu = 10 k_mu / (num_coeffs - 1); a right hand side equal to b for every grid point; and a preconditioner made from A at the mean parameters. An array solves the system given to the solver exactly if its slices solve A(theta)^T x = b at every grid point. Other numbers of cookies are a ValueError.", "quantifier": "all user maps acting as matrices; all data (any number and size of matrices, any entries), all numbers of coefficients, all tensor trains, all arrays", "why_tests_cant": "the map is defined by its action on all tensors; there are no tests of the scripts", "anchors": ["tt_sketch/tt_gmres.py:TTLinearMap", "scripts/cookie_problem.py:CookieMap", "scripts/cookie_problem.py:prepare_cookie_problem"]}
{"id": "C80", "title": "Mean error of stream_sketch with Gaussian sketches", "statement": "stream_sketch with dense Gaussian DRMs followed by to_tt always returns, and if the generators yield independent standard normal numbers and all sketching matrices come from different seeds, the mean of ||X - Y||^2 is at most the square of the sum over the bonds mu of sqrt(g_mu (1 + l/(r-l-1)) (1 + k/(l-k-1)) ||X - B_mu||^2), where l < r are the (trimmed) left and the right ranks at the bond, B_mu is any array whose mu-th unfolding has rank at most k with k+2 <= l and l+2 <= r (k <= l if B_mu = X), and g_mu is the product of max(1, l/(r-l-1)) over the later bonds. If the right ranks are the smaller ones the same holds with the sides exchanged and the factors of the earlier bonds. In particular the bound holds with the sum of the squared singular values after the first k.", "quantifier": "all tensors with at least two modes of the classes a dense Gaussian DRM supports: dense arrays, sparse tensors, tensor trains and lazy sums of sparse tensors and tensor trains (with two modes also sums containing dense arrays); all ranks, seeds, comparison arrays/target ranks k; probability over the draws", "why_tests_cant": "a statement about the mean over all draws, for every input and rank; tests draw a few samples", "anchors": ["tt_sketch/sketch.py:stream_sketch", "tt_sketch/sketched_tensor_train.py:SketchedTensorTrain", "tt_sketch/drm/dense_gaussian_drm.py:DenseGaussianDRM", "tt_sketch/utils.py:right_mul_pinv", "tt_sketch/utils.py:left_mul_pinv"]}
{"id": "C81", "title": "Errors with high probability", "statement": "Under the hypotheses of C72, C73 and C80 (dense Gaussian DRMs, independent standard normal draws): for every delta > 0, hmt_sketch, orthogonal_sketch and stream_sketch followed by to_tt always return, and with probability at least 1 - delta the squared error ||X - Y||^2 is at most the bound on its mean divided by delta, for instance in terms of the squared singular values of the unfoldings after the first k.", "quantifier": "all tensors with at least two modes, ranks, seeds, target ranks k, delta > 0; probability over the draws", "why_tests_cant": "a statement about the probability over all draws, for every input and rank; tests draw a few samples", "anchors": ["tt_sketch/sketch.py:stream_sketch", "tt_sketch/sketch.py:orthogonal_sketch", "tt_sketch/sketch.py:hmt_sketch", "tt_sketch/drm/dense_gaussian_drm.py:DenseGaussianDRM"]}
{"id": "C82", "title": "Sketches and nested sums are tensors like the others", "statement": "A result of stream_sketch can be used wherever a tensor can, alone or as a summand of lazy sums of any nesting depth. For all well-formed objects of one shape: to_numpy returns the array of entries (a sketch standing for its to_tt(), a sum for the sum of its summands); dot, in either order and with any reverse flag, is the inner product of the arrays; norm is the Frobenius norm; error(Y, relative, rmse, fast) is the specified error of the arrays; T is the object with reversed indices; X + Y for X no sketch is a well-formed sum with the added entries; objects without sketches can be multiplied by numbers, negated and subtracted with the entries scaled; objects containing a sketch cannot: scaling, negating and subtracting always raise. size is the sum of the sizes of the parts, for a sketch the number of stored entries. Every result of stream_sketch of a tensor with at least two modes is well-formed in this sense.", "quantifier": "all objects (five formats, sketches, sums of these nested to any depth), shapes, scalars, flags", "why_tests_cant": "tests use sums of two or three basic tensors; here nesting, number of summands and data are arbitrary", "anchors": ["tt_sketch/tensor.py:TensorSum", "tt_sketch/tensor.py:Tensor", "tt_sketch/sketch.py:SketchedTensorTrain"]}
{"id": "C83", "title": "Sketching nested sums", "statement": "A lazy sum whose summands are again lazy sums, to any depth, is sketched by general_sketch (all three methods), stream_sketch, orthogonal_sketch and hmt_sketch exactly like the flat lazy sum of all its basic tensors: both calls return the same value, or neither returns. The flat sum is well-formed and has the same shape and entries. Adding a nested sum to a sketch is adding the flat sum. Objects with equal entries get equal stream sketches from the same arguments, however they are grouped. An object that is or contains a sketch is rejected by all of these: the call raises.", "quantifier": "all objects (five formats, sketches, sums nested to any depth), DRMs, methods, ranks, keyword arguments", "why_tests_cant": "tests sketch sums of depth one with two or three summands", "anchors": ["tt_sketch/sketch_dispatch.py:general_sketch", "tt_sketch/sketch_dispatch.py:sketch_omega_sum", "tt_sketch/sketch_dispatch.py:sketch_psi_sum", "tt_sketch/sketch_dispatch.py:get_sketch_method", "tt_sketch/tensor.py:TensorSum", "tt_sketch/sketch.py:SketchedTensorTrain"]}
{"id": "C84", "title": "The interleaved generator of orthogonal and hmt sketches", "statement": "orthogonal_sketch and hmt_sketch contract the tensor with cores that are still being computed: a generator reads a list of cores while cores are appended to it between calls of next. For every interleaving of additions and calls of next in which a call comes after the core it needs, the k-th call returns what contracting the tensor with the complete list of cores gives for bond k, whatever is added later; a call that comes too early raises and never returns a value computed from fewer cores (TypeError before any core was added, StopIteration after all bonds, else IndexError, for sparse tensors StopIteration, and for lazy sums RuntimeError if their first basic tensor is sparse and IndexError otherwise). Consequently general_sketch, orthogonal_sketch and hmt_sketch with these generators return a value exactly when contracting everything from scratch at every step does, and the same one.", "quantifier": "all objects (five formats, lazy sums nested to any depth), ranks, cores, interleavings of add_core and next; all DRMs, methods and keyword arguments for the sketches", "why_tests_cant": "tests see the one interleaving general_sketch makes, on a few tensors; they compare final results up to tolerance, never the generator protocol", "anchors": ["tt_sketch/sketch_dispatch.py:OrthogTTDRM", "tt_sketch/sketch_dispatch.py:general_sketch", "tt_sketch/sketch_dispatch.py:get_sketch_method", "tt_sketch/drm/tensor_train_drm.py:TensorTrainDRM", "tt_sketch/drm_base.py:handle_transpose"]}
{"id": "C85", "title": "Rounding errors of to_numpy, gather, dot and norm", "statement": "In floating point arithmetic with unit roundoff u (every addition and multiplication returns the exact result times 1+delta with |delta| <= u; no overflow or underflow), whatever order numpy and BLAS choose for the operations within one call and whatever the individual rounding errors: the entries of to_numpy() and gather() differ from the entries of the exact tensor by at most ((1+u)^n - 1) times the entries of the tensor whose stored numbers are replaced by their absolute values; X.dot(Y) differs from the exact inner product by at most ((1+u)^n - 1) <|X|,|Y|>, for every pair of formats including lazy sums; norm() (all formats but tensor trains, where it needs a QR decomposition) differs from the Frobenius norm by at most (1+u) sqrt((1+u)^n - 1) || |X| || + u ||X||. Here n is an explicit number of roundings depending only on the shapes and ranks, and (1+u)^n - 1 <= n u/(1 - n u). For tensors with nonnegative stored numbers the errors are relative. With u = 0 the results are the exact ones.", "quantifier": "all valid tensors of the five formats and lazy sums, all unit roundoffs, all rounding errors, all orders of operations within a numpy call, all indices", "why_tests_cant": "tests compare with a fixed tolerance on random well-conditioned inputs, on one machine with one order of operations; no test can range over rounding errors or orders of summation", "anchors": ["tt_sketch/tensor.py:TensorTrain.to_numpy", "tt_sketch/tensor.py:TensorTrain.gather", "tt_sketch/tensor.py:TensorTrain.dot", "tt_sketch/tensor.py:CPTensor.to_numpy", "tt_sketch/tensor.py:CPTensor.gather", "tt_sketch/tensor.py:TuckerTensor.to_numpy", "tt_sketch/tensor.py:SparseTensor.dot", "tt_sketch/tensor.py:Tensor.dot", "tt_sketch/tensor.py:Tensor.norm", "tt_sketch/tensor.py:TensorSum.to_numpy"]}
{"id": "C86", "title": "Rounding errors of the streaming sketch and of histories of updates", "statement": "In floating point arithmetic with unit roundoff u (standard model, no overflow or underflow), whatever order numpy and BLAS choose for the operations within one call and whatever the individual rounding errors: stream_sketch of a tensor of any format (or a lazy sum) with given or created DRMs returns Psi cores and Omega matrices of the shapes of the exact sketch, whose entries differ from the exact contractions of the dense tensor with the DRM matrices by at most ((1+u)^n - 1) times the contractions of the tensor of absolute values with the DRM matrices of absolute values; n is an explicit number of roundings depending only on the shapes, ranks, number of stored entries and DRM class. After any history of updates sketch = sketch + Y_k in floating point arithmetic, the result differs from the exact sketch of X + Y_1 + ... + Y_m by at most the same bound for the sum of the absolute values, with n the largest count of one tensor plus m. The exact sketch is one of the possible results, and with u = 0 the only one.", "quantifier": "all tensors with at least two modes, all DRM classes and ranks, all unit roundoffs, all rounding errors, all orders of operations within a numpy call, all histories of updates", "why_tests_cant": "tests compare sketches with np.allclose on a few random tensors; they cannot range over rounding errors, orders of summation or histories of arbitrary length", "anchors": ["tt_sketch/sketch.py:stream_sketch", "tt_sketch/sketch.py:SketchedTensorTrain.__add__", "tt_sketch/sketch_dispatch.py:general_sketch", "tt_sketch/sketch_container.py:SketchContainer.__add__", "tt_sketch/drm/tensor_train_drm.py:TensorTrainDRM", "tt_sketch/drm/dense_gaussian_drm.py:DenseGaussianDRM", "tt_sketch/sketching_methods/sparse_sketch.py", "tt_sketch/sketching_methods/tensor_train_sketch.py", "tt_sketch/sketching_methods/cp_sketch.py", "tt_sketch/sketching_methods/dense_sketch.py", "tt_sketch/sketching_methods/tucker_sketch.py"]}
{"id": "C87", "title": "Kills while the table of experiments is being saved", "statement": "to_csv is not atomic: a process killed inside it leaves a prefix of the text. Over every history of processes that start, call do_experiment and are killed anywhere, including inside the saving of the table, and files deleted by hand: as long as no line of the file is cut in the middle, the rows of the table are those of completed experiments (each with its name, parameters and results, no two of the same experiment), namely exactly those whose lines were not cut off; an experiment whose function returns is recorded right after it was asked for; starts and calls remove nothing; and an experiment is completed at most once more than there were kills inside save and deleted files. If the file is left without text, no later process can start until it is deleted. If a line is cut in the middle, results can be recorded under wrong parameters, and the experiment with those parameters is never run.", "quantifier": "all histories of any length: starts, calls, kills at every point of a save, deletions; all names, parameter values and results that fit their columns", "why_tests_cant": "the points at which a process can be killed and the histories of restarts cannot be enumerated; the repository has no test of it", "anchors": ["scripts/experiment_base.py:Experiment.save", "scripts/experiment_base.py:Experiment.__init__", "scripts/experiment_base.py:Experiment.do_experiment", "scripts/experiment_base.py:Experiment.check_experiment_done"]}
{"id": "C88", "title": "What the experiment functions record, and recompression of sketches", "statement": "experiment_stream_sketch, experiment_orthogonal_sketch, experiment_hmt_sketch, experiment_tt_svd and experiment_tt_round record the relative Frobenius distance between the input tensor and the approximation their method computes (infinite for a zero input), or what error_func returns for that approximation and the input. With recompression_rank=r the approximation is a tensor train of ranks at most r whose distance to the input is at most (1+sqrt(d-1)) times that of the sketch plus sqrt(d-1) times that of any tensor train of ranks at most r; the assertion in experiment_stream_sketch then never fails for r >= 1 and always fails for r = 0, and a tuple of ranks raises TypeError there. tt_svd and round are within sqrt(d-1) of the best tensor train of the ranks asked for. If the sketch is accurate except with probability delta, so is the recompressed one; the number experiment_hmt_sketch records obeys the explicit bound with the singular values with probability 1-delta.", "quantifier": "all input tensors (dense, sparse, CP, TT, Tucker, lazy sums as the sketches accept them), shapes, ranks, sketch types, recompression ranks and draws; positive mode sizes and ranks, at least two modes", "why_tests_cant": "the scripts are not tested; the bounds hold for every tensor, every competitor of the same ranks and, with probability, over all draws", "anchors": ["scripts/experiment_base.py:experiment_stream_sketch", "scripts/experiment_base.py:experiment_orthogonal_sketch", "scripts/experiment_base.py:experiment_hmt_sketch", "scripts/experiment_base.py:experiment_tt_svd", "scripts/experiment_base.py:experiment_tt_round", "tt_sketch/tensor.py:TensorTrain.round"]}
{"id": "C89", "title": "gather with arbitrary integers as indices", "statement": "For an integer index array idx with one row per mode: CPTensor.gather returns numpy's dense[tuple(idx)] (negative indices count from the end) and raises IndexError exactly when numpy does; SparseTensor.gather returns the dense entries if all indices are in range and non-negative and the dense size is below 2**63, and raises ValueError in every other case (including a wrong number of rows); TensorTrain.gather raises IndexError (for at least as many rows as modes) exactly if an index of the first mode is outside numpy's range, returns the dense entry if the others are in range and non-negative, and silently 0 if one of the others is negative or too large. Surplus rows are ignored by CP and TT; with missing rows CP returns the value of the tensor made of the first factors. Without any row all three raise (the exception of CP, AxisError, is both a ValueError and an IndexError).", "quantifier": "all well-formed TT, CP and sparse tensors, all index arrays of integers of any sign and any number of rows and columns", "why_tests_cant": "ranges over all tensors and all integer index arrays; the wrong results are silent", "anchors": ["tt_sketch/tensor.py: TensorTrain.gather, CPTensor.gather, SparseTensor.gather"]}
{"id": "C90", "title": "The test tensors and the error function of the plotting scripts", "statement": "For positive sizes and ranks and min_svdval <= 0, tt_exp_decay returns a well-formed tensor train with the shape asked for and the trimmed ranks; each core, unfolded to the matrix with more singular values, keeps the singular vectors it had in TensorTrain.random(orthog=True, trim=True) and its k-th of N singular values is sqrt(N)*10**(min_svdval*k/(N-1)) (in plot_timings.py: the old value, which is 1 in left-unfolded cores but the last, times that power). tt_error_func(tt1, tt2) for tensor trains (or a sketch and a tensor train) of the same shape with at least two modes is the Frobenius distance divided by the norm of tt2 (relative=False: the distance), and for tt2 = 0 it is inf, but AttributeError in plot_timings.py.", "quantifier": "all shapes, ranks, seeds, exponents and outcomes of the generators; all pairs of tensor trains of the same shape, and sketches", "why_tests_cant": "ranges over all random tensors and all pairs of tensor trains; scripts have no tests", "anchors": ["scripts/plot_dimension_scaling.py: tt_exp_decay, tt_error_func", "scripts/plot_timings.py: tt_exp_decay, tt_error_func", "scripts/plot_dimension_scaling_gaussian.py: tt_exp_decay"]}
{"id": "C91", "title": "Operands of different shapes", "statement": "What add, dot, error and lazy sums do when the shapes differ (nothing in the code checks it). tt1.add(tt2) with equally many modes raises ValueError exactly for different shapes; with different numbers of modes it is accepted if the first, the last and the zipped middle mode sizes agree. X.dot(Y): two tensor trains with equally many modes give np.sum of the broadcast dense arrays, ValueError if the shapes cannot be broadcast, and surplus modes of the longer one are cut off; pairs with a dense or Tucker tensor, two CP tensors, or CP and TT give the inner product of the flattened arrays if the numbers of entries agree and ValueError otherwise; a sparse tensor with a CP / sparse / TT tensor gives the sum over its stored entries if their indices exist there, otherwise IndexError / ValueError / (TT) IndexError for the first mode and a silent zero for the others. A lazy sum accepts all shapes; its to_numpy adds what can be broadcast to the first shape and raises ValueError otherwise. X.error(Y) is the norm of the broadcast difference (relative: divided by the norm of Y; rmse: divided by the square root of the number of entries of X), or ValueError (two tensor trains: ValueError for different shapes). For equal shapes dot never raises (dense size below 2**63).", "quantifier": "all pairs of well-formed tensors in TT, CP, Tucker, sparse and dense format of any shapes, all lazy sums", "why_tests_cant": "ranges over all pairs of shapes and formats; the wrong results are silent", "anchors": ["tt_sketch/tensor.py: TensorTrain.add, Tensor.dot, SparseTensor.dot, TensorTrain.dot, TensorSum.to_numpy, Tensor.error, TensorTrain.error"]}
{"id": "C92", "title": "TT-SVD with a floating-point singular value decomposition", "statement": "If np.linalg.svd is backward stable with relative error eps (the singular values are those of a matrix M' with ||M-M'|| <= eps ||M||, the singular vectors are within eps of those of M'), then tt_svd of any nonempty array A with d >= 2 modes and any acceptable rank returns a tensor train Y of the shape of A with ranks between 1 and the trimmed request, whose cores but the last are left-orthogonal up to 2 eps + eps^2, with ||Y|| <= (1+eps)^(3(d-1)) ||A|| and ||A - Y|| <= sqrt(d-1) ||A - Z|| + (d-1)(4+2 sqrt(d-1)) eps (1+eps)^(3(d-1)) ||A|| for every tensor train Z with the requested ranks. For arrays that have the requested ranks, and if no rank is given, only the second term remains.", "quantifier": "all eps >= 0, all svd routines with that error bound, all nonempty arrays with at least two modes, all acceptable ranks, all competitors", "why_tests_cant": "ranges over all arrays and all rounding errors the routine may commit", "anchors": ["tt_sketch/tt_svd.py: tt_svd"]}
{"id": "C93", "title": "orthogonalize and norm with a floating-point QR factorisation", "statement": "If the QR routine is backward stable with relative error eps (R is the factor of a matrix M' with ||M-M'|| <= eps ||M||, Q is within eps of the orthonormal factor of M'), then for every tensor train X with d positive sizes and positive ranks X.orthogonalize() returns a tensor train of the same shape and of the ranks it has in exact arithmetic, whose cores but the last are left-orthogonal up to 2 eps + eps^2 and whose distance from X is at most 2(d-1) eps (1+eps)^(2(d-1)) B, where B is the product of the Frobenius norms of the cores of X; X.norm() is within (d-1) eps (1+eps)^(d-1) B of the Frobenius norm of X.to_numpy(), and exact for d = 1. B cannot be replaced by the norm of X: X.norm() may be positive for a tensor train that represents zero.", "quantifier": "all eps >= 0, all QR routines with that error bound, all tensor trains with positive sizes and ranks", "why_tests_cant": "ranges over all tensor trains and all rounding errors the routine may commit", "anchors": ["tt_sketch/tensor.py: TensorTrain.orthogonalize", "tt_sketch/tensor.py: TensorTrain.norm"]}
{"id": "C94", "title": "Rounding with floating-point QR factorisations and singular value decompositions", "statement": "If the QR and SVD routines are backward stable with relative error eps, then for every tensor train X with d positive sizes and positive ranks, every tolerance tau >= 0 and every acceptable max_rank, X.round(eps=tau, max_rank) returns a tensor train Y of the same shape, with ranks at least 1, at most those of X and at most max(1, .) of the trimmed request, whose cores but the first are right-orthogonal up to 2 eps + eps^2, and with N = d-1, S the sum of the trimmed requested ranks and B the product of the norms of the cores of X, ||X-Y|| <= sqrt(N ||X-Z||^2 + S (tau (1+eps)^(4N) ||X||)^2) + N (6 + 4 sqrt N + tau sqrt S) eps (1+eps)^(5N) B for every tensor train Z with the requested ranks. Without max_rank, ||X-Y|| <= tau sqrt S (1+eps)^(4N) ||X|| + the same second term, S being the sum of the ranks of X. With orthogonalized=True and left-orthogonal cores the second term is N (5 + 3 sqrt N) eps (1+eps)^(4N) ||X||, with no condition on the QR routine.", "quantifier": "all eps >= 0, all QR and SVD routines with that error bound, all tensor trains with positive sizes and ranks, all tolerances >= 0, all acceptable maximal ranks, all competitors", "why_tests_cant": "ranges over all tensor trains and all rounding errors the routines may commit", "anchors": ["tt_sketch/tensor.py: TensorTrain.round", "tt_sketch/tensor.py: TensorTrain.orthogonalize"]}
{"id": "C95", "title": "hmt_sketch with floating-point QR factorisations", "statement": "If the QR routine is backward stable with relative error eps, hmt_sketch (fresh or supplied DRM) succeeds in the same cases as with an exact one and returns a tensor train Y of the tensor's shape with the ranks of the DRM, whose cores but the last are left-orthogonal up to 2 eps + eps^2, and with N = d-1 bonds, X_mu the unfoldings, R_mu the matrices of the DRM, ||X-Y|| <= sqrt(sum_mu ||X_mu - X_mu R_mu B_mu||^2) + N eps (1+eps)^N sqrt(sum_mu ||X_mu R_mu||^2 ||B_mu||^2) + 2 N eps (1+eps)^(2N) ||X|| for every choice of coefficient matrices B_mu. If sketching keeps the rank of every unfolding, the first term vanishes for suitable B_mu, which depend on X and the DRM but not on the QR routine: recovery up to rounding.", "quantifier": "all eps >= 0, all QR routines with that error bound, all tensors with at least two modes (dense arrays, and all others on which the DRM streams exactly), all DRMs, all coefficient matrices", "why_tests_cant": "ranges over all tensors, DRMs and all rounding errors the QR routine may commit", "anchors": ["tt_sketch/sketch.py: hmt_sketch, general_sketch", "tt_sketch/sketching_methods"]}
{"id": "C96", "title": "Reconstruction of streaming sketches in floating point", "statement": "If the least squares routine is backward stable (every column of its result solves a least squares problem whose matrix and right hand side have relative distance at most eps from the given ones), then for every streaming sketch C_cores('right'), C_cores('left') and to_tt succeed, give tensor trains of the tensor's shape with the TT ranks of the sketch, and ||X-Y|| <= sum_mu prod_{nu<mu} ||C_nu|| * ( (||Z_mu Omega_mu - Psi_mu|| + E_mu) ||B_mu|| + ||C_mu|| ||L_{mu+1} D_mu|| + ||L_mu D_mu|| ) with D_mu = X_mu - X_mu R_mu B_mu and E_mu = eps((||C_mu||+||Z_mu||) ||Omega_mu|| + 2||Psi_mu||), for every choice of coefficients B_mu, Z_mu (direction 'left' symmetric). If the sketch itself was computed in floating point (any order of summation, any rounding errors of size at most u), the same bound holds with the differences of the computed and exact Psi, Omega added to E_mu, and these differences are at most (1+u)^n - 1 times the norms of the sketches of absolute values. If every Omega_mu has the rank of the unfolding, B_mu and Z_mu exist (independently of the routine) that leave only the rounding terms. The norms of the cores are at most 4(1+eps) ||G|| ||Psi_mu|| if G is a one-sided inverse of Omega_mu with eps ||G|| ||Omega_mu|| <= 1/2.", "quantifier": "all eps, u >= 0, all least squares routines with that error bound, all floating-point executions of the sketch, all tensors with at least two modes (dense arrays, and all others on which the DRM streams exactly), all DRMs, all coefficients", "why_tests_cant": "ranges over all tensors, DRMs and all rounding errors that the sketch and the least squares routine may commit", "anchors": ["tt_sketch/sketch.py: stream_sketch", "tt_sketch/sketch.py: SketchedTensorTrain.C_cores, SketchedTensorTrain.to_tt", "tt_sketch/sketch.py: assemble_sketched_tt", "tt_sketch/utils.py: left_mul_pinv, right_mul_pinv"]}
{"id": "C97", "title": "orthogonal_sketch in floating point linear algebra", "statement": "If every QR factorisation computed by orthogonal_sketch is backward stable with relative error eps (the returned Q is at distance at most eps from a matrix with orthonormal columns that factorises a matrix at relative distance at most eps from the given one) and every least squares solve is columnwise backward stable with relative error eps, then orthogonal_sketch returns (for fresh DRMs with left rank below right rank, and for supplied DRMs that fit) a tensor train of the tensor's shape with the ranks of the left DRM, all cores but the last are left-orthogonal up to 2 eps + eps^2, and its distance to X is at most sqrt(sum_mu ||X_mu - X_mu R_mu B_mu||^2) + sqrt(sum_mu t_mu^2) + 2 N eps (1+eps)^(2N) ||X|| for every choice of coefficients B_mu, H_mu, where N is the number of bonds and t_mu = ((1+eps)^N ((N+1) eps ||X_mu R_mu|| + ||X_mu R_mu - H_mu Omega_mu|| + eps ||Omega_mu|| ||H_mu||) + 2 eps ||Omega_mu|| ||C_mu||) ||B_mu|| with C_mu the solution computed at that bond. If Omega_mu has a right inverse G_mu with eps ||G_mu|| ||Omega_mu|| <= 1/2 then ||C_mu|| <= 4 (1+eps)^N ||G_mu|| ||X_mu R_mu||, so the bound is independent of the run. If every Omega_mu has full row rank and the rank of the unfolding, there are constants K and delta > 0 depending only on the tensor and the DRMs such that for all routines with error eps <= delta the distance is at most K eps.", "quantifier": "all eps >= 0, all QR and least squares routines with that error bound, all tensors with at least two modes (dense arrays, and all others on which the DRM streams exactly) and positive dimensions, all DRMs, all coefficients", "why_tests_cant": "ranges over all tensors, DRMs and all rounding errors that the QR factorisations and the least squares solves may commit", "anchors": ["tt_sketch/sketch.py: orthogonal_sketch", "tt_sketch/sketch_dispatch.py: orth_step, OrthogTTDRM", "tt_sketch/utils.py: right_mul_pinv"]}
{"id": "C98", "title": "round_tt_sum in floating point linear algebra", "statement": "If the QR factorisations, singular value decompositions and least squares solves are backward stable with relative error eps (of any size), round_tt_sum of a non-empty list of tensor trains of the same shape with at least two modes succeeds with every method (exact, pairwise, sketch, orth_sketch) and returns a well-formed tensor train of that shape whose ranks are at most the requested ranks trimmed to the shape (equal to them for the sketches; for pairwise with at least two summands). For method exact, the distance to the sum is at most the distance bound of C94 for the unrounded sum and every competitor of the requested ranks; for pairwise it is at most the sum of the errors of the single roundings, each within the bound of C94 for the intermediate sum it rounds; for sketch and orth_sketch it is within the bounds of C96 and C97 for the sketch of the sum that the call makes.", "quantifier": "all eps >= 0, all routines with that error bound, all lists of well-formed tensor trains of equal shape, all ranks, tolerances and methods, all oversampling factors above 1, all random draws", "why_tests_cant": "ranges over all lists of tensor trains and all rounding errors that the factorisations may commit", "anchors": ["tt_sketch/tt_gmres.py: round_tt_sum, _add_rounding", "tt_sketch/tensor.py: TensorTrain.round", "tt_sketch/sketch.py: stream_sketch, orthogonal_sketch"]}
{"id": "C99", "title": "tt_sum_gmres in floating point linear algebra", "statement": "If the roundings inside tt_sum_gmres use backward stable QR, SVD and least squares routines (relative error eps, of any size) and the small least squares problems are solved backward stably (relative error eta), then every successful run without preconditioner returns a well-formed tensor train of the domain's shape with ranks at most the trimmed final_round_rank, with the ranks in the history at most the trimmed max_rank. The vectors of save_basis are the rounded vectors divided by computed, non-zero norms, and each computed norm is accurate relative to the core norms. The true residual of the result is at most the norm of the basis times (the reported residual plus eta times the size of the reduced system) plus the errors of the single roundings weighted with the coefficients (plus, when the last computed norm is zero, the true norm of the vector thereby dropped). The reported residual exceeds the least possible residual of the reduced system by at most a multiple of eta. Inexactness adds no way to fail: a run succeeds, divides by zero or raises ValueError because lstsq did not return exactly one residual (UnboundLocalError for maxiter=0 only).", "quantifier": "all eps, eta >= 0 and all routines with those error bounds, all operators (TT operators, sums and compositions without preconditioner), right-hand sides, starting vectors, ranks, methods, non-negative tolerances, iteration numbers and clocks", "why_tests_cant": "ranges over all problems, all iteration numbers and all rounding errors that the routines may commit", "anchors": ["tt_sketch/tt_gmres.py: tt_sum_gmres, round_tt_sum", "tt_sketch/tensor.py: TensorTrain.norm, TensorTrain.dot"]}
{"id": "C100", "title": "The preconditioner in floating point linear algebra", "statement": "A TTPrecond built from a square matrix A with a QR factorisation of relative error eps, and applied (backward_call, __call__) with triangular solves of relative error eta: it raises LinAlgError exactly when the computed triangular factor has a zero on its diagonal; otherwise it returns a well-formed tensor train of the same shape and ranks whose product with A on the preconditioned mode differs from the input by at most (eps + eta (1+eps)) ||A|| times the product of the core norms of the result plus eps times that of the input. The error against the exact inverse is at most ||A^-1|| times that. If eps times the condition number of A is below one, no zero appears on the diagonal, so the application succeeds.", "quantifier": "all eps, eta >= 0 and all routines with those error bounds, all square matrices, modes and well-formed tensor trains with positive ranks and matching mode size", "why_tests_cant": "ranges over all matrices, tensor trains and all rounding errors the routines may commit", "anchors": ["tt_sketch/tt_gmres.py: TTPrecond, backward_call"]}
{"id": "C101", "title": "Preconditioned tt_sum_gmres in floating point linear algebra", "statement": "As C99, with a preconditioner whose QR factorisation has relative error eps and whose triangular solves have relative error theta: every successful run returns a well-formed tensor train of the domain's shape with ranks at most the trimmed final_round_rank (history ranks at most the trimmed max_rank), and the true residual ||b - A x|| of the original, unpreconditioned system is at most ||M|| (M the preconditioner matrix) times the bound of C99 for the preconditioned residual (reported residual times the basis norm, error of the reduced system, errors of the single roundings), plus the effect of the last rounding, plus the losses of C100 in each application of the preconditioner to the right-hand side, to the operator applied to the initial guess and to the basis vectors (weighted with the coefficients). A run raises LinAlgError when the computed triangular factor has a zero on its diagonal, and otherwise fails only as in C99.", "quantifier": "all eps, eta, theta >= 0 and all routines with those error bounds, all operators without preconditioner terms in the sum, all preconditioners with an invertible matrix, right-hand sides, starting vectors, ranks, methods, non-negative tolerances, iteration numbers and clocks", "why_tests_cant": "ranges over all problems, iteration numbers and all rounding errors the routines may commit", "anchors": ["tt_sketch/tt_gmres.py: tt_sum_gmres, round_tt_sum, TTPrecond, backward_call"]}
{"id": "C102", "title": "svdvals in floating point linear algebra", "statement": "If the QR and SVD routines are backward stable with relative error eps, svdvals of a tensor train with d positive mode sizes, positive ranks and no bond larger than the modes to its right allow returns one list per mode with the lengths it has in exact arithmetic, nonnegative and decreasing, and every number differs from the corresponding exact singular value of the unfolding of the tensor by at most (4(d-1)+1) eps (1+eps)^(4(d-1)) times the product of the norms of the cores; if a bond is too large, ValueError is raised as in exact arithmetic. Singular values of two tensors of equal shape differ by at most the distance of the tensors.", "quantifier": "all eps >= 0, all QR and SVD routines with that error bound, all tensor trains with positive sizes and ranks, all modes and all positions in the lists", "why_tests_cant": "ranges over all tensor trains of all orders and all rounding errors the two routines may commit", "anchors": ["tt_sketch/tensor.py: TensorTrain.svdvals, TensorTrain.orthogonalize"]}
{"id": "C103", "title": "Rounding errors of tensor-train arithmetic", "statement": "For every program that applies MPOs to tensor trains, adds tensor trains and multiplies them by numbers, nested in any way with matching shapes, and for every unit roundoff u >= 0, all orders of the operations inside numpy calls and all individual rounding errors: the result is a well-formed tensor train with the shape and ranks of the exact result; each entry of to_numpy() or gather() of it differs from the exact entry by at most ((1+u)^n - 1) times the entry the same program computes from the absolute values of all given numbers, with n = sum of the ranks + the roundings in the cores (the contracted mode size for every application, one for every scaling, none for add); dot of two results is bounded the same way; stream_sketch of a result (at least two modes, given or created DRMs) returns Psi cores and Omega matrices whose entries differ from those of the exact sketch of the exact result by at most ((1+u)^n - 1) times the sketch of the program on absolute values with the DRMs of absolute values, n being the count of C86 plus the roundings in the cores.", "quantifier": "all programs built from MPO application, add and scaling, all tensor trains and MPOs of all sizes, all u >= 0, all rounding errors, all entries", "why_tests_cant": "ranges over all programs, sizes and rounding errors; a test fixes one rounding behaviour and one program", "anchors": ["tt_sketch/tt_gmres.py: MPO.__call__", "tt_sketch/tensor.py: TensorTrain.add, TensorTrain.__mul__, TensorTrain.to_numpy, TensorTrain.gather, TensorTrain.dot", "tt_sketch/sketch.py: stream_sketch"]}
{"id": "C104", "title": "Orthogonalisation and norm of tensor trains in floating point arithmetic", "statement": "If the QR routine is backward stable with relative error eps and every other numpy operation is rounded with relative error u per elementary operation (any order, any individual errors), then for every tensor train with d positive sizes and positive ranks, none above r: every run of orthogonalize() returns a tensor train of the same shape, with the ranks of exact arithmetic, cores but the last left-orthogonal up to 2 eps + eps^2, at distance at most 2 (d-1) rho (1+rho)^(2(d-1)) times the product of the core norms, with rho = eps + (1+eps)((1+u)^r - 1); every run of norm() returns the Frobenius norm of to_numpy() up to ((1+u)^(n+1) - 1) times it plus (1+u)^(n+1) (d-1) rho (1+rho)^(d-1) times the product of the core norms, n bounding the size of the last core. The same holds, with the error of the arithmetic added, for the norm of the result of every rounded program of MPO applications, sums and scalings, and for X.error(Y).", "quantifier": "all tensor trains, all programs of tensor-train operations, all eps, u >= 0, all QR routines with that error bound, all orders of operations and rounding errors", "why_tests_cant": "ranges over all sizes and all rounding errors of both LAPACK and numpy; a test fixes one machine", "anchors": ["tt_sketch/tensor.py: TensorTrain.orthogonalize, TensorTrain.norm, TensorTrain.error"]}
{"id": "C105", "title": "Rounding of tensor trains in floating point arithmetic", "statement": "If the QR and SVD routines are backward stable with relative error eps and every other numpy operation of X.round(tol, max_rank) - the products R times core, S[0]*eps, U[:, :r] @ np.diag(S[:r]) and its contraction with the next core - is rounded with relative error u <= 1 per elementary operation (any order, any individual errors), then for every tensor train X with d positive sizes and positive ranks, none above R: every run returns a tensor train Y of the same shape, with positive ranks at most those of X and those requested, cores but the first right-orthogonal up to 2 eps + eps^2, and ||X - Y|| is at most the quasi-optimal bound of exact arithmetic - sqrt((d-1) ||X - Z||^2 + sum of ranks (tol ||X||)^2) for every Z with the requested ranks, with tol replaced by (1+u) tol and ||X|| by (1+rho)^(4(d-1)) ||X|| - plus a multiple of rho times the product of the norms of the cores, rho = eps + (sqrt(R) + eps)((1+u)^(2R) - 1). Without a max_rank the same with the tolerance only; with orthogonalized=True and left-orthogonal cores, with ||X|| instead of the product of the core norms.", "quantifier": "all tensor trains, tolerances, maximal ranks, eps >= 0, 0 <= u <= 1, all QR and SVD routines with that error bound, all orders of operations and rounding errors", "why_tests_cant": "ranges over all sizes and all rounding errors of both LAPACK and numpy; a test fixes one machine", "anchors": ["tt_sketch/tensor.py: TensorTrain.round, TensorTrain.orthogonalize"]}
{"id": "C106", "title": "TT-SVD in floating point arithmetic", "statement": "If np.linalg.svd is backward stable with relative error eps and the products np.diag(S[:r]) @ V[:r, :] and the conversion tensor.to_numpy() are rounded with relative error u per elementary operation (any order, any individual errors), then for every tensor of any format with d >= 2 positive sizes and every acceptable rank, no trimmed rank above R, every run of tt_svd returns a tensor train of the same shape and the ranks of exact arithmetic, cores but the last left-orthogonal up to 2 eps + eps^2, at distance from the array at most sqrt(d-1) times that of any tensor train with the requested ranks plus (d-1)(4+2 sqrt(d-1)) rho (1+rho)^(3(d-1)) times its norm, rho = eps + (1+eps)((1+u)^R - 1); the error of the conversion (C85) is added for tensors of other formats. For arrays with the requested ranks, in particular without a rank argument, only the rounding term remains.", "quantifier": "all tensors, rank arguments, eps, u >= 0, all SVD routines with that error bound, all orders of operations and rounding errors", "why_tests_cant": "ranges over all sizes and all rounding errors of both LAPACK and numpy; a test fixes one machine", "anchors": ["tt_sketch/tt_svd.py: tt_svd"]}
{"id": "C107", "title": "Singular values of tensor trains in floating point arithmetic", "statement": "If the QR and SVD routines are backward stable with relative error eps and every other numpy operation of svdvals - R times core, U @ np.diag(S) and its contraction with the next core - is rounded with relative error u per elementary operation (any order, any individual errors), then for every tensor train with d positive mode sizes and positive ranks, none above R, none of whose bonds is larger than the modes to its right allow, every run of svdvals returns one list per mode, with as many numbers as in exact arithmetic, nonnegative and decreasing, each within (4(d-1)+1) rho (1+rho)^(4(d-1)) times the product of the core norms of the true singular value of the unfolding, rho = eps + (sqrt(R)+eps)((1+u)^(2R) - 1). If some bond is larger than that, every run raises ValueError.", "quantifier": "all tensor trains, eps, u >= 0, all QR and SVD routines with that error bound, all orders of operations and rounding errors", "why_tests_cant": "ranges over all sizes and all rounding errors of both LAPACK and numpy; a test fixes one machine", "anchors": ["tt_sketch/tensor.py: TensorTrain.svdvals, TensorTrain.orthogonalize"]}
{"id": "C108", "title": "hmt_sketch in floating point arithmetic", "statement": "If every QR factorisation has relative error at most eps and every other numpy operation of hmt_sketch - the contractions of the tensor with the DRM and with the cores found so far, and the Psi cores - is rounded with relative error u per elementary operation (any order, any individual errors), then for every tensor the method accepts (any format or lazy sum, positive mode sizes and ranks) every result Y has the tensor's shape and the ranks of the DRM, all cores but the last are left-orthogonal up to 2 eps + eps^2, and for every choice of coefficient matrices B, ||X - Y|| is at most (sum ||X_mu - (X_mu R_mu) B_mu||^2)^(1/2) + (sum ((N eps (1+eps)^N ||X_mu R_mu|| + (1+eps) E_mu) ||B_mu||)^2)^(1/2) + 2 N eps (1+eps)^(2N) ||X|| + (1 + N eps (1+eps)^N) E_N, where N is the number of bonds and E_mu = ((1+u)^(n_mu) - 1) times the norm of the sketched unfolding of absolute values times the norms of the earlier cores bounds the rounding error of a Psi core. If sketching keeps the rank of the unfoldings, B can be chosen such that the first term vanishes. Exact arithmetic is one of the runs. In that case the error is at most K (eps + u), with K depending only on the tensor, the DRM and B.", "quantifier": "all tensors in every format and lazy sums, all DRM kinds and ranks, eps, u >= 0, all QR routines with that error, all orders of operations and rounding errors, all B", "why_tests_cant": "ranges over all sizes and all rounding errors of both LAPACK and numpy; a test fixes one machine", "anchors": ["tt_sketch/sketch.py: hmt_sketch", "tt_sketch/sketch_dispatch.py: general_sketch"]}
{"id": "C109", "title": "orthogonal_sketch in floating point arithmetic", "statement": "If every QR factorisation and every least squares solve of orthogonal_sketch has relative error at most eps and every other numpy operation - the contractions of the tensor with the two DRMs and with the cores found so far, the Omega matrices and the Psi cores - is rounded with relative error u per elementary operation (any order, any individual errors), then for every tensor the method accepts (any format or lazy sum, positive mode sizes and left ranks) every result Y has the tensor's shape and the ranks of the left DRM, all cores but the last are left-orthogonal up to 2 eps + eps^2, each such core is the orthogonal factor of a computed solution S_mu of a least squares problem whose matrix and right hand side are the exact sketches of the tensor up to eO_mu and eP_mu, and for every choice of coefficient matrices B, H the distance ||X - Y|| is at most the bound of C97 plus explicit terms in eO_mu and eP_mu. eO_mu and eP_mu are ((1+u)^n - 1) times the norms of the sketches of absolute values. If Omega_mu has a right inverse G with ||G|| (eps ||Omega_mu|| + (1+eps) eO_mu) <= 1/2 then ||S_mu|| <= 4 (1+eps) ||G|| ((1+eps)^N ||X_mu R_mu|| + eP_mu). Exact arithmetic is one of the runs. If every Omega_mu has full row rank and the rank of the unfolding, then for all small eps and u the error is at most K (eps + u), with K depending only on the tensor and the DRMs.", "quantifier": "all tensors in every format and lazy sums, all DRM kinds and ranks, eps, u >= 0, all QR and least squares routines with that error, all orders of operations and rounding errors, all B, H, G", "why_tests_cant": "ranges over all sizes and all rounding errors of both LAPACK and numpy; a test fixes one machine", "anchors": ["tt_sketch/sketch.py: orthogonal_sketch, orth_step", "tt_sketch/sketch_dispatch.py: general_sketch"]}
{"id": "C110", "title": "TensorTrain.error with its options in floating point arithmetic", "statement": "If every QR factorisation has relative error at most eps and every other operation of X.error(Y, relative, rmse) - the negation, the norms, the division by norm(Y), the conversion of the number of entries, its square root and the last division - is rounded with relative error u < 1, then for tensor trains of the same shape with at least two modes and positive sizes and ranks every run returns a finite number that differs from the exact value ||X - Y|| (divided by ||Y|| if relative, by the root of the number of entries if rmse) by at most an explicit bound in eps, u, the ranks and the norms of the cores. For relative the norm of Y has to exceed the bound on its own error, which holds for every nonzero Y when eps and u are small enough. The result in exact arithmetic is one of the runs.", "quantifier": "all tensor trains of the same shape, both options, eps >= 0, 0 <= u < 1, all QR routines with that error, all orders of operations and rounding errors", "why_tests_cant": "ranges over all sizes and all rounding errors of both LAPACK and numpy; a test fixes one machine", "anchors": ["tt_sketch/tensor.py: TensorTrain.error, TensorTrain.norm"]}
