# tt-sketch: formal model and proofs

The subject is `/repo` (RikVoorhaar/tt-sketch, python + one cython file).  Nothing is run; the
model is a hand translation of the source, and each definition cites the file and lines it models.

## Layout

| directory | contents |
|---|---|
| `lean/Verif/ND.lean`, `Einsum.lean`, `Idx.lean` | numpy arrays, `einsum`, row-major index arithmetic |
| `lean/Verif/Model/` | the model of the code, function by function, with citations |
| `lean/Verif/Spec/` | what the properties mean: entries of a format, the defining contraction of a sketch, orthogonality, unfoldings, contracts of external routines.  Nothing here calls the algorithms |
| `lean/Verif/Proofs/` | helper lemmas |
| `lean/Verif/Props/` | the property theorems (`TTS.Props.Cxx...`) and their non-vacuity `example`s |
| `seeded/LOG.jsonl` | wrong programs tried against the theorems |

## Approach

* **Arrays.**  A numpy array is `ND K`: a shape (`List Nat`) and a total entry function on
  multi-indices that is `0` outside the shape (so equality of arrays is equality of shape and
  entries).  `reshape` is row-major recoding (`ravel`/`unravel`), `transpose` permutes axes and
  `einsum` takes the same label strings as the python code.  Scalars are an arbitrary commutative
  (semi)ring or field, or `Real` where norms, QR and SVD are involved.
* **Tensors.**  Dense, sparse (list of index/value pairs), TT, CP, Tucker, and lazy sums, with the
  operations of `tensor.py` branch by branch; python exceptions are `Except PyErr`.
* **Semantics.**  Each format has a *dense value at an index*, written independently of the code
  (product of core slices, sum of products, ...).  `to_numpy` of the model is proved to be it.
* **Sketches.**  One refinement theorem: the model of `general_sketch` computes, for each
  format, exactly `Omega = sum L * X * R`, `Psi = ...` where `L`,`R` are the entries of the left and
  right DRM.  Linearity, streaming, blocking, rank increase and exact recovery follow.
* **State.**  Python object identity matters for `TensorSum.__iadd__` (C10) and `MPO.__mul__` (C52);
  these have heap models (`Model/SumHeap.lean`, `MPOHeap`), everything else is functional.
  The multithreaded RNG (C23) is a transition system over all schedules; the generators behind
  orthogonal and hmt sketches are state machines driven by any interleaving of calls (C84).
* **Machine level.**  The cython hash file is modelled on `BitVec 64` / 32-bit `int` truncation.
* **Loops with data dependent length** (`trim_ranks`, `tt_sum_gmres`) are structural recursions on
  the bound the code itself has (100 sweeps, `maxiter`).

## Trusted base

* Lean's kernel; the axioms `propext`, `Classical.choice`, `Quot.sound` and nothing else
  (`#print axioms` on every theorem in MANIFEST; `vcheck` repeats it).
* The reading of the python source that the model encodes.  In particular numpy's documented
  semantics of `reshape`, `transpose`, `einsum`, slicing, broadcasting of `*`, `concatenate`.
* **Exact arithmetic.**  Floating point rounding, overflow and nan propagation are not modelled,
  except: rounding errors of `to_numpy`, `gather`, `dot` and `norm` in the standard model
  `fl(x op y) = (x op y)(1+δ)`, `|δ| ≤ u`, without overflow and underflow (C85, C86, C103, C104, C105, C106, C107, C108, C109, C110); inexact results of the SVD and QR
  routines (relative error at most ε) in `tt_svd`, `orthogonalize`, `round` and `hmt_sketch` (C92-C95, the contractions between
  them exact), and of the least squares routine in the reconstruction of a streaming sketch, with a sketch computed in floating
  point (C96), of QR and least squares in `orthogonal_sketch` (C97), of all of them in `round_tt_sum` (C98) and `tt_sum_gmres` (C99), of QR and triangular solves in `TTPrecond` (C100), alone and inside `tt_sum_gmres` (C101), of QR and SVD in `svdvals` (C102); `PyFloat.nan` for the 0/0 of `fast` error measures (C13), `PyErr.nonFinite` for the
  division by a zero norm in GMRES (C57_solved), and the IEEE bit patterns of the lazy hash
  (C25), which are exact.
* **External routines** are parameters of the model (`Env`, `LinAlg`, `LinAlg2`), and what is assumed
  of them is a hypothesis of the theorems that use them.  Every contract is shown satisfiable.

| routine | parameter | contract | witness |
|---|---|---|---|
| `scipy.linalg.lstsq` in sketch assembly | `Env.lstsq` | `LstsqContract` (solves what can be solved), `PinvContract` (multiplication by a generalised inverse of `A`), `MPContract` (multiplication by the Moore-Penrose inverse; C70) | `lstsqChoice_contract` (every field), `mpChoice_contract` |
| `scipy.linalg.qr(mode="economic")` | `Env.qr` | `QRContract` (`IsQR`: orthonormal columns, upper triangular, product) | `qrChoice_contract`, `exists_qr` |
| `np.linalg.qr` | `LinAlg.qr` | `QROk` (same) | `laChoice_qr` |
| `scipy.linalg.svd` / `np.linalg.svd(full_matrices=False)` | `LinAlg.svd`, `LinAlg.svdThin` | `SVDOk`, `SVDThinOk` (`IsSVD`: orthonormal, sorted nonnegative, product) | `laChoice_svd`, `laChoice_svdThin` |
| `scipy.linalg.solve_triangular` | `LinAlg2.solveTri` | `SolveTriOk` (solves for invertible triangular input) | `solveTriChoice_ok` |
| `np.linalg.lstsq` in GMRES | `LinAlg2.lstsq` | `LstsqOk` (least squares minimiser, sum of squared residuals returned only for full column rank) | `la2Choice_lstsq` |
| numpy random generators, `SeedSequence`, `ndtri`, `hash(str)` | `Env.*`, `gens`, `ndtri` | none (arbitrary functions); in C66, C67 random variables with a joint density (`ContinuousDraws`, Spec/Prob); in C68, C69 independent with mean 0 and variance 1 (`StandardDraws`, Spec/Moments); in C72 ff. independent standard normal (`GaussianDraws`, Spec/GaussErr) | `normalDraws_continuous`, `normalDraws_standard`, `normalDraws_gaussian` |

## Modelled and not modelled

| file | modelled | not modelled |
|---|---|---|
| `tensor.py` | all classes and methods | `__repr__`, `reduce`-style type dispatch errors for non-tensor operands, dtype promotion; random constructors: see C64, C65; integer indices of `gather`: C89 |
| `utils.py` | `matricize`, `dematricize`, `right_mul_pinv`, `left_mul_pinv`, `projector`, `process_tt_rank`, `trim_ranks`, `MultithreadedRNG`, `hilbert_tensor`, `sqrt_tensor` | `random_normal` size bookkeeping beyond the slicing of the shared array, `power_decay_tensor` (always a `NameError`) |
| `drm_base.py`, `drm/*.py` | all | warnings |
| `drm/fast_lazy_gaussian.pyx` | `hash_int_c`, `inds_to_rand_double`, `inds_to_normal`, `inds_to_sparse_sign` | `ndtri` itself; OpenMP-free, so no concurrency; the float rounding inside the choice of swap positions of the sparse sign rows (an arbitrary in-range position) |
| `sketch.py`, `sketch_dispatch.py`, `sketch_container.py`, `sketching_methods/*` | all | timing/logging |
| `tt_svd.py` | all | – |
| `tt_gmres.py` | `TTLinearMap` (any subclass), `MPO`, `TTPrecond`, `TTLinearMapSum`, `round_tt_sum`, `tt_sum_gmres` | `verbose` printing; wall-clock values (only the number of recorded times) |
| `scripts/experiment_base.py` | `Experiment`, with kills inside `to_csv`; the five `experiment_*` functions | times, dates |
| `scripts/cookie_problem.py` | `CookieMap`, `prepare_cookie_problem` | reading of the data files |
| `scripts/plot_*.py` | `tt_exp_decay`, `tt_error_func` | loops over experiments, plots |
| other `scripts/`, `tests/`, `docs/` | – | experiment drivers |

## Per property: model, proof, theorems

| property | modelled | how it is proved | theorems (`TTS.Props.`) |
|----|------------------|------------------|---|
| C01 Rank arguments are normalised or rejected | `process_tt_rank` | case analysis | `C01_int`, `C01_seq`, `C01_length` |
| C02 Trimming only lowers ranks and respects the unfolding bounds | `trim_ranks` with its 100-sweep loop | loop invariant | `C02` |
| C03 Trimmed ranks are mutually consistent | same | closed form `min_j r_j * prod dims`; each sweep settles one more bond from each end | `C03_consistent`, `C03_greatest`, `C03_idempotent`, `C03_pos`, `C03_counterexample`, `C03_left` |
| C04 Trimming is lossless | TT with ranks r, trimmed ranks | re-factor bond by bond (rank of an unfolding bounds the bond) | `C04`, `C04_self` |
| C05 Transpose reverses the modes | `.T` of all formats | index reversal | `C05`, `C05_empty` |
| C06 Dense conversion of structured formats | `to_numpy` of all formats | induction on cores; `sumIdx` algebra | `C06_tt`, `C06_cp`, `C06_tucker`, `C06_sparse` |
| C07 Scalar arithmetic is entrywise | `*`, `-`, `/` of all formats and sums | linearity of the entry in one core | `C07_mul`, `C07_neg`, `C07_div`, `C07_seq`, `C07_seq_reject` |
| C08 Tensor-train addition | `TensorTrain.add` | block matrices, induction on cores | `C08`, `C08_one_mode` |
| C09 Lazy sums denote sums | `TensorSum` | induction on summands | `C09` |
| C10 In-place accumulation | heap of sum objects, statements | refinement to an abstract store over all histories | `C10`, `C10_invariant`, `C10_shared_list` |
| C11 Inner product | `dot` dispatch table | case analysis over formats | `C11`, `C11_duplicates` |
| C12 Norm | `norm` | QR contract, orthogonality | `C12`, `C12_tt`, `C12_duplicates` |
| C13 Error measures | `error`, `mse_error` | from C11, C12 | `C13`, `C13_fast_zero`, `C13_one_mode` |
| C14 Gather agrees with dense indexing | `gather` | entries | `C14` |
| C15 Splitting a sparse tensor | `SparseTensor.split` | list partition | `C15`, `C15_zero` |
| C16 Dense to sparse round trip | `to_sparse` | support | `C16` |
| C17 Reported storage size | `size` | counting | `C17` |
| C18 Left-orthogonalisation | `orthogonalize` | induction along the sweep | `C18`, `C18_zero_rank` |
| C19 Rounding respects shape and ranks | `round` | induction along the sweep | `C19`, `C19_pos`, `C19_reject` |
| C20 Rounding accuracy | `round` | Pythagoras, Eckart-Young (proved here) | `C20`, `C20_quasi_optimal`, `C20_tolerance`, `C20_exact` |
| C21 Partial contractions | `partial_dense` | induction | `C21_lr`, `C21_rl` |
| C22 Matricization | `matricize`, `dematricize` | index arithmetic | `C22_matricize`, `C22_matricize_false`, `C22_dematricize` |
| C23 Multithreaded random fill is schedule independent | workers writing slices of a shared array | invariant over all schedules | `C23`, `C23_schedule_independent`, `C23_finishes`, `C23_thread_dependence` |
| C24 The integer hash never collides | 64-bit hash | explicit inverse | `C24` |
| C25 Hashed doubles are ordinary numbers | bit masks | bit lemmas | `C25` |
| C26 Sparse sign rows | sparse sign rows | Fisher-Yates invariant | `C26`, `C26_slice` |
| C27 Distinct tensor indices get distinct random rows | flat index with 32-bit stride | mixed radix injectivity | `C27_distinct`, `C27_counterexample` |
| C28 Lazy DRM entries depend only on index, column and seed | lazy DRM entries | computation on streams | `C28_normal`, `C28_sign`, `C28_shift` |
| C29 DRM rank bookkeeping | DRM records | computation | `C29_new`, `C29_seed`, `C29_slice`, `C29_T` |
| C30 Sketching with a sliced DRM equals slicing the sketch | `slice` | prefix stability of streams | `C30_slice`, `C30_reslice`, `C30_dense`, `C30_nnz`, `C30_unseeded` |
| C31 Increasing a DRM's rank keeps its old part | `increase_rank` | same | `C31_increase`, `C31_other`, `C31_unseeded` |
| C32 Shape mismatch is rejected | shape checks | case analysis | `C32_mismatch`, `C32_general` |
| C33 The streaming sketch is the defining contraction | `general_sketch` for all formats and DRMs | refinement to the defining contraction; for Tucker tensors the factors are absorbed into the DRM matrices | `C33_streaming`, `C33_success`, `C33_dense`, `C33_tucker`, `C33_all`, `C33_dense_sum` |
| C34 The sketch depends only on the tensor, not on its storage format | same | corollary of C33 | `C34_format`, `C34_dense_differs`, `C34_tucker_differs` |
| C35 Sketching is linear | same, `TensorSum` | corollary of C33 | `C35_sum`, `C35_perm`, `C35_group`, `C35_scale` |
| C36 Updating a sketch equals sketching the sum | `SketchedTensorTrain.__add__` | corollary of C35 | `C36_update` |
| C37 Any history of updates | histories of `+=` | induction on the history | `C37_history` |
| C38 Sketch shapes and ranks | container shapes | computation | `C38_shapes` |
| C39 Exact recovery by the streaming sketch | `assemble_sketched_tt` | generalised Nystrom identity along the train | `C39_recovery`, `C39_dense`, `C39_tucker`, `C39_dense_sum`, `C39_recovery_all` |
| C40 Reconstruction ranks and directions | `assemble`, `to_tt` directions | lstsq contract | `C40_cores` |
| C41 orthogonal_sketch recovers exactly and is left-orthogonal | `orthogonal_sketch`, all formats | projection along the train; form and success by induction over the cores whatever the sketched matrices are | `C41_form`, `C41_form_dense`, `C41_recovery`, `C41_recovery_dense`, `C41_success`, `C41_success_dense`, `C41_success_supplied`, `C41_form_all`, `C41_success_all`, `C41_success_supplied_all`, `C41_recovery_tucker`, `C41_recovery_all` |
| C42 hmt_sketch recovers exactly and is left-orthogonal | `hmt_sketch` | same | `C42_form`, `C42_form_dense`, `C42_recovery`, `C42_recovery_dense`, `C42_success`, `C42_success_dense`, `C42_success_supplied`, `C42_return_drm`, `C42_form_all`, `C42_success_all`, `C42_success_supplied_all`, `C42_recovery_tucker`, `C42_recovery_all` |
| C43 Rank ordering is validated | rank checks | case analysis | `C43_stream_reject`, `C43_stream_accept`, `C43_left_mismatch`, `C43_right_mismatch`, `C43_orth_reject`, `C43_orth_accept`, `C43_orth_mismatch` |
| C44 Blocked sketch equals unblocked sketch | `blocked_stream_sketch` | block writes cover the container; C30, C33 | `C44_blocked`, `C44_dense` |
| C45 Rank increase equals sketching afresh | `increase_rank` of a sketch | C31, C33, C44 | `C45_increase`, `C45_other`, `C45_other_right` |
| C46 Scaling a sketch raises | `SketchContainer.__mul__` | computation | `C46_raises` |
| C47 Transposing a sketch | `.T` of a sketch | generalised inverse commutes with transpose | `C47_twice`, `C47_convert`, `C47_update`, `C47_update_rejected`, `C47_reported` |
| C48 Seeds make sketches reproducible | seeding | determinism; witness | `C48_seeded`, `C48_process` |
| C49 TT-SVD | `tt_svd` | induction along the sweep, Pythagoras, Eckart-Young | `C49`, `C49_exact`, `C49_none`, `C49_formats`, `C49_one_mode` |
| C50 MPO application | `MPO.__call__`, `to_numpy`, `to_tt` | induction on cores | `C50`, `C50_dense`, `C50_to_tt` |
| C51 Identity and transpose MPO | `MPO.eye`, `MPO.T` | induction on cores | `C51_eye`, `C51_T`, `C51_adjoint` |
| C52 Scaling an MPO and its side effects | heap of MPO objects | frame lemmas | `C52`, `C52_operand`, `C52_others`, `C52_changes` |
| C53 Preconditioner | `TTPrecond` | QR and triangular solve contracts | `C53`, `C53_forward`, `C53_backward`, `C53_singular`, `C53_mode` |
| C54 Sums of linear maps | `TTLinearMapSum` | induction on maps | `C54`, `C54_new`, `C54_matrix`, `C54_empty` |
| C55 round_tt_sum: shape, ranks, accuracy | `round_tt_sum` | C19, C20, C41, C39 | `C55`, `C55_single`, `C55_single_rank`, `C55_other`, `C55_reject`, `C55_factor`, `C55_exact`, `C55_exact_lossless`, `C55_pairwise_lossless`, `C55_sketch_lossless` |
| C56 GMRES history and stopping | `tt_sum_gmres` loop | loop invariant | `C56`, `C56_zero`, `C56_system`, `C56_times` |
| C57 GMRES residual, optimality and convergence | same | Arnoldi relation with rounding errors, least squares optimality | `C57`, `C57_image`, `C57_exact`, `C57_optimal`, `C57_converges`, `C57_solved` |
| C58 GMRES input validation, errors and ranks | same | case analysis, invariant | `C58`, `C58_reject`, `C58_accept`, `C58_none`, `C58_errors` |
| C59 Unsupported tensor/DRM pairs fail loudly | dispatch | case analysis | `C59_contr`, `C59_pairs`, `C59_sketched`, `C59_add` |
| C60 Zero tensors | `zero` | computation | `C60_tt`, `C60_container` |
| C61 orthogonal and hmt sketches are orthogonal projections of the tensor | orthogonalSketch, hmtSketch (Model/Sketch) | last core = contraction of X with the left-orthogonal cores; isometry of left-orthogonal cores; Pythagoras | `C61_orth`, `C61_orth_dense`, `C61_hmt`, `C61_hmt_dense`, `C61_orth_all`, `C61_hmt_all` |
| C62 deterministic error bounds of hmt and orthogonal sketches | orthogonalSketch, hmtSketch (Model/Sketch) | telescoping of the norm of the open contraction over the bonds; Bessel for each QR factor; a contraction with left-orthogonal cores does not increase the defect | `C62_hmt`, `C62_hmt_dense`, `C62_orth`, `C62_orth_dense`, `C62_orth_mp`, `C62_orth_mp_dense`, `C62_hmt_all`, `C62_orth_all` |
| C63 svdvals returns the singular values of the unfoldings | TT.svdvals, TT.svdvalsLoop, TT.orthogonalize, TT.round (Model/Numerics) | induction over the right-to-left sweep: the tensor is a product of the not yet processed left-orthogonal cores and orthonormal right vectors; Eckart–Young for decompositions over index sets | `C63`, `C63_reject`, `C63_consistent`, `C63_unique`, `C63_first`, `C63_norm`, `C63_distance`, `C63_round` |
| C64 TensorTrain.random | TT.random, TT.randomCore (Model/DRM) | unfolding; left half of rank consistency (C03_left); norm by the isometry of left-orthogonal cores | `C64`, `C64_reject`, `C64_norm` |
| C65 Random dense, sparse, CP and Tucker tensors | denseRandom, Sparse.random, CP.random, Tucker.random (Model/Random) | unfolding; injectivity of unravel; products of orthonormal rows are orthonormal (induction on the factors) | `C65_dense`, `C65_sparse`, `C65_cp`, `C65_tucker`, `C65_tucker_short`, `C65_tucker_empty`, `C65_tucker_norm`, `C65_tucker_shared` |
| C66 Streaming sketches recover low-rank tensors with probability one | streamSketch with the generators as random variables (Spec/Prob) | a nonzero polynomial vanishes only on a null set (induction on the variables, Fubini); for each DRM a matrix realising full rank is exhibited, core by core for tensor train DRMs (induction on the modes); then C39 | `C66_stream`, `C66_stream_dense`, `C66_format`, `C66_dense_tt_fails` |
| C67 Orthogonal and HMT sketches recover low-rank tensors with probability one | orthogonalSketch, hmtSketch with the generators as random variables (Spec/Prob) | as C66, then C41 and C42 | `C67_orthogonal`, `C67_orthogonal_dense`, `C67_hmt`, `C67_hmt_dense`, `C67_format`, `C67_hmt_format` |
| C68 Sketches preserve inner products on average | streamSketch with the generators as random variables (Spec/Moments) | isotropy of the DRM matrices core by core (induction on the modes, independence of disjoint sets of draws), then bilinearity of the sketch | `C68_stream`, `C68_stream_dense`, `C68_norm` |
| C69 Expected norms of random tensors | the random constructors with the generators as random variables | as C68: isotropy of the train / CP product by induction on the modes | `C69_tt`, `C69_tt_orth`, `C69_cp`, `C69_dense`, `C69_sparse`, `C69_tucker` |
| C70 A streaming sketch is a product of oblique projections; its error is bounded | streamSketch, C_cores in both directions with the least-norm solution of lstsq | induction on the bonds: partial products of the cores applied to left sketches; telescoping sum of the projections | `C70_stream`, `C70_stream_dense`, `C70_directions`, `C70_directions_dense`, `C70_projection`, `C70_stream_all`, `C70_directions_all` |
| C71 MPO.random | MPO.random with the drawn arrays as arbitrary functions | row-major positions of the transposed array; cores in closed form over the bond list; symmetry through C51 | `C71`, `C71_reject`, `C71_symmetric` |
| C72 Mean error of hmt_sketch with Gaussian sketches | hmt_sketch with draws as a random field; independent standard normal draws (compatible positions) | rotation invariance of the Gaussian law, E tr (G G^T)^-1 = r/(l-r-1) through inverse chi-square moments and Schur complements; range finder bound per bond; deterministic bound C62; Markov | `C72`, `C72_dense`, `C72_tail`, `C72_svd`, `C72_dense_svd` |
| C73 Mean error of orthogonal_sketch with Gaussian sketches | orthogonal_sketch with draws as a random field; lstsq as Moore-Penrose inverse; independent standard normal draws | per bond: condition on the left sketch; the Nyström remainder is (X - X_L-projected) G G_1^+ with independent Gaussian blocks (rotation invariance), E tr (G G^T)^-1; then the range finder bound over the left draws; deterministic bound C62 | `C73`, `C73_dense`, `C73_svd`, `C73_dense_svd` |
| C74 Products with pseudo-inverses and projectors | matricised products with lstsq/pinv as parameters with Moore-Penrose contracts | Penrose equations; rank arguments for the oblique projector; Pythagoras for best approximation | `C74_right`, `C74_left`, `C74_projector`, `C74_orthogonal`, `C74_mismatch` |
| C75 Test tensors | np.meshgrid with xy indexing, linspace, entrywise formulas | index computation; sums over a permuted index set | `C75_hilbert`, `C75_sqrt`, `C75_sqrt_returns`, `C75_sqrt_swapped` |
| C76 Which tensor objects share memory | heap of buffers, array objects (a buffer, possibly with reversed axes), list objects and tensor objects; small-step programs | numbers stay in range (invariant by induction over programs); lists and buffers that no mutation is aimed at are stable; freshness of copies; view relation preserved | `C76_pure`, `C76_frame`, `C76_setitem`, `C76_setitem_ok`, `C76_write`, `C76_T`, `C76_mul`, `C76_add`, `C76_view`, `C76_copy`, `C76_same_list`, `C76_tucker_shared`, `C76_shape`, `C76_cp_shared`, `C76_tucker_changes`, `C76_stale_shape` |
| C77 Cached dictionary of sparse tensors | cached_property as an optional dictionary per object in the same heap | induction over programs: new objects have no cache, a cache is never replaced | `C77`, `C77_current`, `C77_stale` |
| C78 Experiments are run once over all processes and crashes | state machine of memory table, file and list of completed runs; events: start of a process (load), a call of do_experiment whose function returns or not; pandas csv reading as a parameter (CsvOk) | invariant over histories: table in memory, file and completed runs agree up to index columns; reload preserves columns that fit | `C78`, `C78_grows`, `C78_subset`, `C78_mixed`, `C78_missing`, `C78_concurrent` |
| C79 Linear maps written by users; the parametric cookie problem | user maps as a constructor of the type of linear maps (two shapes and a call); CookieMap and prepare_cookie_problem function by function | unit tensor trains determine the matrix of a user map; mode products (C53) for the two einsums; sum over the maps by induction | `C79`, `C79_errors`, `C79_solves`, `kernel_unique` |
| C80 Mean error of stream_sketch with Gaussian sketches | streamSketch and toTT with the idealised generators of C72 | the tensor is a product of oblique projections (C70), which can be read from both ends since the maps of different bonds commute; conditioned on the draws of the smaller side each projection is a Gaussian least squares problem; telescoping and Minkowski for the mean | `C80`, `C80_dense`, `C80_left`, `C80_left_dense`, `C80_svd`, `C80_dense_svd` |
| C81 Errors with high probability | as for C72, C73 and C80 | Markov's inequality from C72, C73 and C80; a zero bound gives a zero error almost surely | `C81`, `C81_hmt`, `C81_hmt_dense`, `C81_orth`, `C81_orth_dense`, `C81_stream`, `C81_stream_dense` |
| C82 Sketches and nested sums are tensors like the others | Model/Objects.lean: the tensor classes together with SketchedTensorTrain and nested TensorSums (tensor.py 52-137, 612-671; sketch.py 232-361), dispatch of dot and error between them | structural induction on nested sums; atoms reduce to C01-C13 and, for sketches, to C38, C40, C47 | `C82_numpy`, `C82_dot`, `C82_norm`, `C82_error`, `C82_T`, `C82_mul`, `C82_neg`, `C82_sub`, `C82_mul_fails`, `C82_add`, `C82_size`, `C82_stream`, `C82_stream_T`, `C82_stream_size`, `C82_stream_error` |
| C83 Sketching nested sums | Model/Objects.lean: contractions of nested sums are nested tuples; omega, psi and the loops of sketch_dispatch.py 85-157 on them | nested tuples are related to the list over the basic tensors; adding an inner total equals adding its summands (invariant of the += loops), for Omega, Psi and the three methods | `C83`, `C83_stream`, `C83_orthogonal`, `C83_hmt`, `C83_update`, `C83_reject`, `C83_reject_class`, `C83_reject_user`, `C83_flatten`, `C83_regroup` |
| C84 The interleaved generator of orthogonal and hmt sketches | Model/Coroutine.lean: the generators of the five sketch methods of TensorTrainDRM and of sum_sketch as state machines (loop variable, running contraction, ended or not) that read the list of cores at each call, OrthogTTDRM with add_core and __next__, the Psi loop and general_sketch with them | invariant: after k calls the suspended state is the running contraction over the first k cores (ObjAt, for nested sums mutual induction); appending cores preserves it; the Psi loop keeps it between steps | `C84`, `C84_early`, `C84_early_class`, `C84_sketch`, `C84_orthogonal`, `C84_hmt` |
| C85 Rounding errors of to_numpy, gather, dot and norm | Spec/Float.lean: evaluations of sums of products in the standard model (FlVal); Model/Float.lean: to_numpy, gather, dot of all formats, lazy sums, norm as relations between input and possible results | forward error analysis: the relation |v - x| <= (p-1) a, |x| <= a is closed under products (p q), sums and rounding ((1+u) p); induction over the loops of the programs with p = (1+u)^(roundings so far) | `C85_to_numpy`, `C85_gather`, `C85_dot`, `C85_norm`, `C85_relative`, `C85_gamma`, `C85_exact`, `C85_runs`, `C85_sharp` |
| C86 Rounding errors of the streaming sketch and of histories of updates | Model/FloatSketch.lean: contraction loops of all DRM classes, Omega and Psi of all formats, lazy sums, container addition and histories of updates, as relations between input and possible results | the error calculus of C85 (Near/NN) pushed through the contraction loops by induction, giving bounds by the same program run on absolute values; that run is itself an exact sketch (of |X| with |D|), so the C33 theorems evaluate it | `C86_sketch`, `C86_streaming`, `C86_dense`, `C86_history`, `C86_all`, `C86_all_history`, `C86_exact`, `C86_zero`, `C86_all_zero` |
| C87 Kills while the table of experiments is being saved | Model/Crash.lean: `Experiment` with the csv file as text that a kill inside `save` cuts at any point | invariant over histories: file and table hold the lines of the kept experiments; counting argument for repeated experiments; C87_blank, C87_cut by computing the histories | `C87`, `C87_step`, `C87_blank`, `C87_cut` |
| C88 What the experiment functions record, and recompression of sketches | Model/ExperimentFns.lean: the five experiment functions of scripts/experiment_base.py, with `AssertionError` | C82 for the recorded error, C19/C20/C49 and the triangle inequality for recompression, C81 for the probabilities | `C88_stream`, `C88_zero`, `C88_orthogonal`, `C88_hmt`, `C88_tt_svd`, `C88_tt_round`, `C88_prob`, `C88_hmt_prob` |
| C89 gather with arbitrary integers as indices | `gather` of three formats on integer index arrays, with the errors of numpy indexing and `ravel_multi_index` | normalisation of indices against `Selects`/`IsIndex`; tensor trains by reduction to natural indices with a bound above all mode sizes | `C89_cp`, `C89_cp_long`, `C89_cp_short`, `C89_sparse`, `C89_sparse_reject`, `C89_tt`, `C89_tt_short`, `C89_no_rows`, `C89_formats_differ` |
| C90 The test tensors and the error function of the plotting scripts | `tt_exp_decay`, `tt_error_func` of three scripts | C64 for the random train, replacement of singular values in a thin SVD; C08 and C12 for the error | `C90_decay`, `C90_error` |
| C91 Operands of different shapes | `add`, `dot` (dispatch table), `error`, `TensorSum.to_numpy` with the checks and the broadcasting of numpy | broadcasting = stretching the cores, then the theorems for equal shapes; C89 for `gather` | `C91_add`, `C91_add_same`, `C91_add_orders`, `C91_dot_tt`, `C91_dot_orders`, `C91_dot_flat`, `C91_dot_sparse_cp`, `C91_dot_sparse`, `C91_dot_sparse_tt`, `C91_sum`, `C91_error`, `C91_error_tt`, `C91_agree` |
| C92 TT-SVD with a floating-point singular value decomposition | the model of `tt_svd` of C49, with the inexact contract `SVDThinApprox ε` in the place of the exact one | induction over the loop: every step is an exact step of a nearby tensor (Pythagoras, Eckart–Young, Bessel) plus four perturbations, Minkowski | `C92`, `C92_exact`, `approx_of_exact`, `badSvd_approx` |
| C93 orthogonalize and norm with a floating-point QR factorisation | the model of `orthogonalize` and `norm` of C18 and C12, with the inexact contract `QRApprox ε` in the place of the exact one | induction over the loop, along with a second train whose cores are exactly orthogonal and whose last core is the computed one: perturbations, isometries, the norm of a train is at most the product of the norms of its cores | `C93`, `C93_norm`, `C93_vector`, `C93_cancellation`, `approxQr_of_exact`, `badQr_approx` |
| C94 Rounding with floating-point QR factorisations and singular value decompositions | the model of `round` of C19 and C20, with the inexact contracts `QRApprox ε` and `SVDApprox ε` in the place of the exact ones | induction over the backward sweep, against the train with exactly orthogonal cores of C93: at every bond Eckart-Young for the perturbed matrix and the perturbation of the factors, collected by a recursion on the error bound | `C94`, `C94_tolerance`, `C94_orthogonalized`, `approxSvd_of_exact`, `badLa_qr`, `badLa_svd` |
| C95 hmt_sketch with floating-point QR factorisations | the model of `hmt_sketch` of C07 and C62, with the inexact contract `QRApproxContract ε` in the place of the exact one | every computed core has an exactly orthogonal partner at distance ε; the run is compared with the train of the partners, whose projections are those of C62, and the difference of the unfoldings of the two trains is bounded by induction over the bonds | `C95`, `C95_dense`, `C95_coeffs`, `C95_recovery`, `C95_recovery_dense`, `C95_success`, `C95_success_supplied`, `qrApprox_of_exact`, `badEnv_qr` |
| C96 Reconstruction of streaming sketches in floating point | the models of `stream_sketch` (C33), of its floating-point executions (C86) and of `assemble_sketched_tt` (C39), with `LstsqApproxContract ε` in the place of the exact contract | residual of one least squares problem for the given (not the perturbed) data, compared with any candidate; one step of the sweep relates the partial contractions of the tensor by the residual and the defects of the coefficients; the recursion over the bonds is unrolled | `C96`, `C96_dense`, `C96_float`, `C96_float_dense`, `C96_sketch_err`, `C96_coeffs`, `C96_recovery`, `C96_recovery_dense`, `C96_cores`, `lstsqApprox_of_pinv`, `badLstsq_approx` |
| C97 orthogonal_sketch in floating point linear algebra | the model of `orthogonal_sketch` (C41) with `QRApproxContract ε` and `LstsqApproxContract ε` in the place of the exact contracts | a step of the method is a step of the method `hmt` (C95) applied to the computed solution of the least squares problem; the residual of that problem is compared with the candidate obtained by contracting `H` with the cores computed so far; the defects of the bonds are accumulated against a train of exactly orthogonal cores | `C97`, `C97_dense`, `C97_apriori`, `C97_apriori_dense`, `C97_coeffs`, `C97_recovery`, `C97_recovery_dense`, `C97_success`, `C97_success_supplied`, `orthBound_zero` |
| C98 round_tt_sum in floating point linear algebra | the model of `round_tt_sum` (C55) with `RoundApprox ε` (inexact QR, SVD and least squares) in the place of the exact contracts | the theorems C94, C96 and C97 applied to the sum; for `pairwise` an induction over the summands with the triangle inequality | `C98`, `C98_exact`, `C98_pairwise`, `C98_sketch`, `C98_of_exact` |
| C99 tt_sum_gmres in floating point linear algebra | the model of `tt_sum_gmres` (C56) with `GmresApprox ε η`: inexact roundings (C98), inexact norm (a QR sweep), inexact reduced least squares problem | loop invariant: Arnoldi relation up to the errors of the recorded rounding calls with computed instead of true norms; Cauchy–Schwarz for the combination of basis vectors; perturbation bound for the reduced problem | `C99`, `C99_ranks`, `C99_basis`, `C99_least`, `C99_errors`, `lstsqApprox_of_exact`, `gmresBad` |
| C100 The preconditioner in floating point linear algebra | the model of `TTPrecond` (C58) with inexact QR (`QRApprox`) and inexact triangular solves (`SolveTriApprox`) | column by column: residual of a perturbed triangular system after a perturbed factorisation, summed over the columns of the matricised core, then carried to the whole train by the product of core norms; nonsingularity by Neumann-type contradiction | `C100`, `C100_error`, `C100_condition`, `solveTriApprox_of_exact`, `badSolve_approx` |
| C101 Preconditioned tt_sum_gmres in floating point linear algebra | the model of `tt_sum_gmres` with `GmresApprox ε η` and `SolveTriApprox θ`, preconditioner as in C100 | the loop invariant of C99 for a relation between argument and result of the preconditioned operator instead of a linear map; the Arnoldi relation multiplied by the preconditioner matrix (operator norm at most its Frobenius norm) | `C101`, `C101_errors`, `args6_run` |
| C102 svdvals in floating point linear algebra | the model of `svdvals` with `QRApprox ε` and `SVDApprox ε` | Weyl's inequality for singular values (dimension count, Bessel); induction over the sweep: every list holds the exact singular values of a tensor within a bounded distance of the one denoted by the exactly orthogonal partner cores; C93 for the orthogonalisation | `C102`, `C102_reject`, `C102_weyl`, `C102_of_exact` |
| C103 Rounding errors of tensor-train arithmetic | `MPO.__call__`, `TensorTrain.__mul__` as relations between inputs and possible rounded outputs, `TensorTrain.add` (copies only); programs as an inductive type | structural induction over the program: cores stay entrywise near the exact ones with a list of exponents per core; the product formula for entries adds the exponents up; then C85 for the dense array, entries and inner products of the result | `C103_to_numpy`, `C103_gather`, `C103_dot`, `C103_runs`, `C103_exact`, `C103_sketch`, `C103_streaming` |
| C104 Orthogonalisation and norm of tensor trains in floating point arithmetic | `orthogonalize`, `norm`, `error` of tensor trains as relations: `la.qr` inexact, every contraction, the final `np.linalg.norm` and the scaling by -1 rounded | the induction of C93 with the rounding of R times the next core as an additional perturbation of the remaining train (relative error (1+u)^r - 1 in Frobenius norm); `FlVal` bounds for the sum of squares, square root; C103 for programs | `C104`, `C104_norm`, `C104_program`, `C104_error`, `C104_runs`, `C104_exact` |
| C105 Rounding of tensor trains in floating point arithmetic | `round` of tensor trains as a relation: `la.qr` and `la.svd` inexact, `S[0] * eps`, `U @ np.diag(S)` and every contraction rounded | the induction of C94 with the rounding of U S and of its contraction with the next core merged into one perturbation of the remaining train, of relative size (sqrt(R) + eps)((1+u)^(2R) - 1) in Frobenius norm, since every other core is nearly orthogonal | `C105`, `C105_tolerance`, `C105_orthogonalized`, `C105_runs` |
| C106 TT-SVD in floating point arithmetic | `tt_svd` as a relation: `la.svdThin` inexact, the products `np.diag(S) @ V` and the conversion `to_numpy` rounded | the induction of C92 with the rounding of S V as a perturbation of the compressed tensor, of relative size (1+u)^R - 1 in Frobenius norm (the product with a diagonal matrix has no cancellation); C85 for the conversion | `C106`, `C106_exact`, `C106_tensor`, `C106_runs` |
| C107 Singular values of tensor trains in floating point arithmetic | `svdvals` as a relation: `la.qr` and `la.svd` inexact, `U @ np.diag(S)` and every contraction rounded | the induction of C102 with the rounding of U S and of its contraction with the next core merged into one perturbation of the remaining train (as in C105); Weyl's inequality | `C107`, `C107_reject`, `C107_runs` |
| C108 hmt_sketch in floating point arithmetic | `hmt_sketch` as a relation: `la.qr` inexact, the contractions with the DRM and with the cores found so far and the Psi cores rounded (`FlOrthStep`) | C86 bounds the error of every computed Psi core by the exact Psi core of the computed cores before it; these errors enter the induction of C95 beside the QR errors | `C108`, `C108_dense`, `C108_recovery`, `C108_runs`, `hmtFloatRounding_zero`, `C108_apriori`, `C108_apriori_dense`, `C108_recovery_linear` |
| C109 orthogonal_sketch in floating point arithmetic | `orthogonal_sketch` as a relation: `la.qr` and `la.lstsq` inexact, the contractions with both DRMs and with the cores found so far, the Omega matrices and the Psi cores rounded (`FlOrthStep`, `FlOrthogonalSketch`) | C86 bounds the error of every computed Omega matrix and of every Psi core by the exact sketch with the computed cores; these errors enter the bond estimate of C97 as perturbations of matrix and right hand side of the least squares problem | `C109`, `C109_dense`, `C109_runs`, `orthFloatBound_exact`, `omegaError_zero`, `C109_apriori`, `C109_apriori_dense`, `C109_ranks`, `C109_recovery`, `C109_recovery_dense` |
| C110 TensorTrain.error with its options in floating point arithmetic | `TT.error` with both options as a relation: negation, norms, divisions, square root and conversion rounded (`FlErrorOpts`, `TT.FlErrorWith`) | C104_error and C104_norm bound the two norms; a quotient and a root with relative errors are bounded by elementary inequalities (`quot_near`, `rmse_near`); the hypothesis on the norm of `Y` follows for small errors by continuity | `C110`, `C110_runs`, `C110_margin`, `errorWithBound_exact` |

## Findings in the code

Where the code fails an expected property, the property states the exact domain on which it
holds, and the failure is proved on a witness (theorem in brackets).

* `trim_ranks` stops after 100 sweeps, so with 103 modes the result need not be consistent
  [`C03_counterexample`].
* `TensorTrain.add` gives a two-mode result for one-mode trains [`C08_one_mode`]; hence
  `TensorTrain.error` is wrong for them [`C13_one_mode`].
* `error(fast=True)` between zero tensors is nan [`C13_fast_zero`]; repeated sparse indices change
  `norm`, `dot` [`C11_duplicates`, `C12_duplicates`].
* `TensorSum([...])` does not copy its list [`C10_shared_list`].
* `orthogonalize` raises for zero interior ranks [`C18_zero_rank`].
* `svdvals` raises `ValueError` when a bond is larger than the modes to its right allow
  [`C63_reject`].
* 32-bit wraparound of the stride in the lazy hash makes distinct indices share random rows
  [`C27_counterexample`].
* `TensorTrainDRM.sketch_dense/sketch_tucker` ignore `rank_min`/`rank_max` [`C30_dense`,
  `C44_dense`]; `SparseSignDRM.slice` drops `num_non_zero_per_row` [`C30_nnz`];
  `DenseGaussianDRM` uses the raw `seed`, so without one slicing/increase redraws
  [`C30_unseeded`, `C31_unseeded`].
* For dense and Tucker tensors of three or more modes, the right DRM acts through unreversed index
  order, so the sketch depends on the storage format [`C34_dense_differs`].
* `increase_rank` on DRMs that cannot grow raises `AttributeError`, not the documented
  `ValueError` [`C45_other`].
* `SketchContainer.__mul__` always raises `UnboundLocalError` [`C46_raises`];
  `SketchedTensorTrain + SketchedTensorTrain` raises [`C59_add`].
* `stt.T` keeps DRMs with un-reversed shape and data [`C47_update_rejected`, `C47_reported`].
* The right seed goes through `hash(str(...))`, which differs between interpreters [`C48_process`];
  `MultithreadedRNG` depends on the number of threads [`C23_thread_dependence`].
* `hmt_sketch(return_drm=True)` ends in `NameError` [`C42_return_drm`]; `power_decay_tensor` too
  (`SeedSequence` not imported; read, not modelled).
* `tt_svd` of a one-mode tensor raises `IndexError` [`C49_one_mode`].
* `MPO.__mul__` scales the operand's own first core, so `A - B` flips the sign of `B`
  [`C52_changes`].
* `round_tt_sum(method="pairwise")` does not round a single summand [`C55_single_rank`]; a sketch
  with oversampling factor 1 raises `ValueError` [`C55_factor`].
* `tt_sum_gmres` uses the squared residual in the stopping test after the first iteration [`C56`];
  `maxiter=0` raises `UnboundLocalError` [`C56_zero`]; `rounding_method=None` never succeeds
  [`C58_none`]; a rank deficient Hessenberg matrix raises `ValueError` [`C58_errors`]; a guess that
  already solves the system divides by zero [`C57_solved`].
* `TuckerTensor.random` with a rank sequence shorter than the shape silently returns a tensor with
  fewer modes [`C65_tucker_short`], and draws its core from the generator of its first factor
  [`C65_tucker_shared`]; `TensorTrain.random` scales by `sqrt(r1 n)`, not by the documented
  `sqrt(r1 n r2)` [`C64`].
* `sqrt_tensor(shape)` returns a tensor with the first two modes swapped [`C75_sqrt_swapped`].
* `x * c` of a CP tensor shares all arrays but the first with `x`, and of a Tucker tensor the list of factors, while the
  other classes copy [`C76_cp_shared`, `C76_tucker_changes`]; `x[i] = a` leaves the attributes `shape` and `rank` and the
  transpose of `x` as they were [`C76_stale_shape`].
* `SparseTensor.gather` caches a dictionary that is never refreshed [`C77_stale`].
* `Experiment.do_experiment` takes an experiment as done if a row agrees on the *given* parameters, so one with fewer
  parameters is skipped [`C78_subset`]; parameters that are numbers in some rows and objects in others, or `None`, are not
  recognised after a restart and run again [`C78_mixed`, `C78_missing`]; two processes at the same time overwrite each
  other's rows [`C78_concurrent`]; `to_csv` writes the index, so every reload adds an `Unnamed: 0` column.
* `CookieMap` multiplies by the transposed matrices ("ijk,jl->ilk") while its preconditioner inverts the matrix itself, so
  they fit together only for symmetric matrices (which the cookie matrices are) [`C79`].
* Sketches are tensors, but scaling, negating or subtracting an object that is or contains a sketch always raises
  (`C82_mul_fails`): `SketchContainer.__mul__` reads a local variable before it is assigned (C46).  `X - S` and `(X + S) * 2` are therefore errors although
  `X + S` works and `X.error(S)` gives the difference.
* `Experiment.save` overwrites the table in place (`to_csv`). A process killed in it can leave an empty file, which no later process can read (`EmptyDataError`), or a line cut in the middle, which the next process reads as a result with other parameters (`rank` 15 becomes 1; the experiment with rank 1 is then never run) (C87_blank, C87_cut).
* `experiment_stream_sketch(..., recompression_rank=0)` always fails its own assertion (`round` keeps rank one), and a tuple as recompression rank raises `TypeError` there, although the orthogonal and HMT variants accept it (C88_zero).
* `gather` treats indices outside the usual range differently in every format (C89): a negative index wraps around in a CP
  tensor, raises `ValueError` in a sparse tensor, and in a tensor train is silently read as an entry 0 (except in the first
  mode, where it wraps).  Too large indices raise `IndexError` (CP), `ValueError` (sparse) or are a silent 0 (TT, all modes
  but the first).  `CPTensor.gather` with too few rows silently returns a number that is no entry of the tensor.
* `SparseTensor.gather`, hence also the inner product of two sparse tensors, raises `ValueError` when the shape has 2^63
  entries or more (C89), although such tensors can be sketched.
* `scripts/plot_timings.py` would raise `AttributeError` (`np.infa`) for a zero reference tensor; in
  `plot_dimension_scaling_gaussian.py` the result of `tensor.orthogonalize()` is discarded (C90).
* Shapes are never compared (C91): `dot` of dense, CP or Tucker tensors of shapes (2,3) and (3,2) returns the inner product of
  the flattened arrays; `dot` and `add` of tensor trains with different numbers of modes silently cut off modes (the result of
  `add` need not be a tensor train); a sparse tensor with entries outside a tensor train's shape loses them silently in `dot`.
* With tensor train DRMs, `stream_sketch` of a dense array with three modes can lose rank for every
  outcome of the generators, although the ranks asked for are sufficient [`C66_dense_tt_fails`].
