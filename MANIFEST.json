{
 "claims": [
  {
   "property": "C01",
   "status": "proved",
   "theorems": [
    "TTS.Props.C01_int",
    "TTS.Props.C01_seq",
    "TTS.Props.C01_length"
   ],
   "note": ""
  },
  {
   "property": "C02",
   "status": "proved",
   "theorems": [
    "TTS.Props.C02"
   ],
   "note": ""
  },
  {
   "property": "C03",
   "status": "proved",
   "theorems": [
    "TTS.Props.C03_consistent",
    "TTS.Props.C03_greatest",
    "TTS.Props.C03_idempotent",
    "TTS.Props.C03_pos",
    "TTS.Props.C03_counterexample",
    "TTS.Props.C03_left"
   ],
   "note": "The docstring promises consistency for every number of modes, which is false of the code (it stops after 100 sweeps): C03_counterexample has 103 modes. Proved on the exact range of mode counts where it holds."
  },
  {
   "property": "C04",
   "status": "proved",
   "theorems": [
    "TTS.Props.C04",
    "TTS.Props.C04_self"
   ],
   "note": ""
  },
  {
   "property": "C05",
   "status": "proved",
   "theorems": [
    "TTS.Props.C05",
    "TTS.Props.C05_empty"
   ],
   "note": ""
  },
  {
   "property": "C06",
   "status": "proved",
   "theorems": [
    "TTS.Props.C06_tt",
    "TTS.Props.C06_cp",
    "TTS.Props.C06_tucker",
    "TTS.Props.C06_sparse"
   ],
   "note": ""
  },
  {
   "property": "C07",
   "status": "proved",
   "theorems": [
    "TTS.Props.C07_mul",
    "TTS.Props.C07_neg",
    "TTS.Props.C07_div",
    "TTS.Props.C07_seq",
    "TTS.Props.C07_seq_reject"
   ],
   "note": "exact arithmetic"
  },
  {
   "property": "C08",
   "status": "proved",
   "theorems": [
    "TTS.Props.C08",
    "TTS.Props.C08_one_mode"
   ],
   "note": "C08_one_mode: the code gives a two-mode result for one-mode tensor trains"
  },
  {
   "property": "C09",
   "status": "proved",
   "theorems": [
    "TTS.Props.C09"
   ],
   "note": ""
  },
  {
   "property": "C10",
   "status": "proved",
   "theorems": [
    "TTS.Props.C10",
    "TTS.Props.C10_invariant",
    "TTS.Props.C10_shared_list"
   ],
   "note": "C10_shared_list: the constructor does not copy its list, so two TensorSums made from one list object share updates"
  },
  {
   "property": "C11",
   "status": "proved",
   "theorems": [
    "TTS.Props.C11",
    "TTS.Props.C11_duplicates"
   ],
   "note": "C11_duplicates shows the restriction to non-repeated sparse indices is needed"
  },
  {
   "property": "C12",
   "status": "proved",
   "theorems": [
    "TTS.Props.C12",
    "TTS.Props.C12_tt",
    "TTS.Props.C12_duplicates"
   ],
   "note": "C12_duplicates: a sparse tensor with a repeated index has norm 5 although its dense form has norm 4."
  },
  {
   "property": "C13",
   "status": "proved",
   "theorems": [
    "TTS.Props.C13",
    "TTS.Props.C13_fast_zero",
    "TTS.Props.C13_one_mode"
   ],
   "note": "C13_fast_zero: nan for fast between zero tensors; C13_one_mode: TT error of a one-mode train to itself is 2 (TT addition is wrong for d=1)."
  },
  {
   "property": "C14",
   "status": "proved",
   "theorems": [
    "TTS.Props.C14"
   ],
   "note": ""
  },
  {
   "property": "C15",
   "status": "proved",
   "theorems": [
    "TTS.Props.C15",
    "TTS.Props.C15_zero"
   ],
   "note": ""
  },
  {
   "property": "C16",
   "status": "proved",
   "theorems": [
    "TTS.Props.C16"
   ],
   "note": ""
  },
  {
   "property": "C17",
   "status": "proved",
   "theorems": [
    "TTS.Props.C17"
   ],
   "note": ""
  },
  {
   "property": "C18",
   "status": "proved",
   "theorems": [
    "TTS.Props.C18",
    "TTS.Props.C18_zero_rank"
   ],
   "note": "C18_zero_rank: with zero interior ranks orthogonalize raises ValueError."
  },
  {
   "property": "C19",
   "status": "proved",
   "theorems": [
    "TTS.Props.C19",
    "TTS.Props.C19_pos",
    "TTS.Props.C19_reject"
   ],
   "note": ""
  },
  {
   "property": "C20",
   "status": "proved",
   "theorems": [
    "TTS.Props.C20",
    "TTS.Props.C20_quasi_optimal",
    "TTS.Props.C20_tolerance",
    "TTS.Props.C20_exact"
   ],
   "note": "With orthogonalized=True the input is assumed left-orthogonal."
  },
  {
   "property": "C21",
   "status": "proved",
   "theorems": [
    "TTS.Props.C21_lr",
    "TTS.Props.C21_rl"
   ],
   "note": ""
  },
  {
   "property": "C22",
   "status": "proved",
   "theorems": [
    "TTS.Props.C22_matricize",
    "TTS.Props.C22_matricize_false",
    "TTS.Props.C22_dematricize"
   ],
   "note": ""
  },
  {
   "property": "C23",
   "status": "proved",
   "theorems": [
    "TTS.Props.C23",
    "TTS.Props.C23_schedule_independent",
    "TTS.Props.C23_finishes",
    "TTS.Props.C23_thread_dependence"
   ],
   "note": ""
  },
  {
   "property": "C24",
   "status": "proved",
   "theorems": [
    "TTS.Props.C24"
   ],
   "note": ""
  },
  {
   "property": "C25",
   "status": "proved",
   "theorems": [
    "TTS.Props.C25"
   ],
   "note": ""
  },
  {
   "property": "C26",
   "status": "proved",
   "theorems": [
    "TTS.Props.C26",
    "TTS.Props.C26_slice"
   ],
   "note": ""
  },
  {
   "property": "C27",
   "status": "proved",
   "theorems": [
    "TTS.Props.C27_distinct",
    "TTS.Props.C27_counterexample"
   ],
   "note": "Without the bound the property is false of the code (int32 wraparound); the counterexample is proved."
  },
  {
   "property": "C28",
   "status": "proved",
   "theorems": [
    "TTS.Props.C28_normal",
    "TTS.Props.C28_sign",
    "TTS.Props.C28_shift"
   ],
   "note": ""
  },
  {
   "property": "C29",
   "status": "proved",
   "theorems": [
    "TTS.Props.C29_new",
    "TTS.Props.C29_seed",
    "TTS.Props.C29_slice",
    "TTS.Props.C29_T"
   ],
   "note": ""
  },
  {
   "property": "C30",
   "status": "proved",
   "theorems": [
    "TTS.Props.C30_slice",
    "TTS.Props.C30_reslice",
    "TTS.Props.C30_dense",
    "TTS.Props.C30_nnz",
    "TTS.Props.C30_unseeded"
   ],
   "note": "C30_dense, C30_nnz and C30_unseeded are proved counterexamples for the excluded cases"
  },
  {
   "property": "C31",
   "status": "proved",
   "theorems": [
    "TTS.Props.C31_increase",
    "TTS.Props.C31_other",
    "TTS.Props.C31_unseeded"
   ],
   "note": "C31_unseeded: counterexample without a seed"
  },
  {
   "property": "C32",
   "status": "proved",
   "theorems": [
    "TTS.Props.C32_mismatch",
    "TTS.Props.C32_general"
   ],
   "note": ""
  },
  {
   "property": "C33",
   "status": "proved",
   "theorems": [
    "TTS.Props.C33_streaming",
    "TTS.Props.C33_success",
    "TTS.Props.C33_dense",
    "TTS.Props.C33_tucker",
    "TTS.Props.C33_all",
    "TTS.Props.C33_dense_sum"
   ],
   "note": "Exact arithmetic. C33_streaming: lazy sums of TT, CP, sparse tensors of any order and two-mode dense and Tucker tensors. C33_dense, C33_tucker: dense and Tucker tensors of any order (sketch of the array, or of the core with the factors absorbed in the DRM matrices; right rows looked up in the unreversed row-major order). C33_all: lazy sums of all formats of any order."
  },
  {
   "property": "C34",
   "status": "proved",
   "theorems": [
    "TTS.Props.C34_format",
    "TTS.Props.C34_dense_differs",
    "TTS.Props.C34_tucker_differs"
   ],
   "note": "C34_dense_differs, C34_tucker_differs: proved counterexamples for a dense and a Tucker 3-mode tensor"
  },
  {
   "property": "C35",
   "status": "proved",
   "theorems": [
    "TTS.Props.C35_sum",
    "TTS.Props.C35_perm",
    "TTS.Props.C35_group",
    "TTS.Props.C35_scale"
   ],
   "note": ""
  },
  {
   "property": "C36",
   "status": "proved",
   "theorems": [
    "TTS.Props.C36_update"
   ],
   "note": ""
  },
  {
   "property": "C37",
   "status": "proved",
   "theorems": [
    "TTS.Props.C37_history"
   ],
   "note": ""
  },
  {
   "property": "C38",
   "status": "proved",
   "theorems": [
    "TTS.Props.C38_shapes"
   ],
   "note": ""
  },
  {
   "property": "C39",
   "status": "proved",
   "theorems": [
    "TTS.Props.C39_recovery",
    "TTS.Props.C39_dense",
    "TTS.Props.C39_tucker",
    "TTS.Props.C39_dense_sum",
    "TTS.Props.C39_recovery_all"
   ],
   "note": "Exact arithmetic. C39_recovery: all formats of any order except dense and Tucker with three or more modes (they may occur with two modes); C39_dense: dense arrays of any order; C39_tucker: Tucker tensors of any order whose factor matrices have full row rank. C39_dense_sum: lazy sums of dense arrays of any order. C39_recovery_all: every format and mixed sums, under the factorisation condition (lstsq returns least squares solutions of least norm)."
  },
  {
   "property": "C40",
   "status": "proved",
   "theorems": [
    "TTS.Props.C40_cores"
   ],
   "note": "lstsq contract of Spec/Contract is a hypothesis, shown satisfiable by lstsqChoice."
  },
  {
   "property": "C41",
   "status": "proved",
   "theorems": [
    "TTS.Props.C41_form",
    "TTS.Props.C41_form_dense",
    "TTS.Props.C41_recovery",
    "TTS.Props.C41_recovery_dense",
    "TTS.Props.C41_success",
    "TTS.Props.C41_success_dense",
    "TTS.Props.C41_success_supplied",
    "TTS.Props.C41_form_all",
    "TTS.Props.C41_success_all",
    "TTS.Props.C41_success_supplied_all",
    "TTS.Props.C41_recovery_tucker",
    "TTS.Props.C41_recovery_all"
   ],
   "note": "Exact arithmetic; lstsq and QR by contract (shown satisfiable over the reals). The _all theorems hold for every format; exact recovery excludes sparse tensors with repeated indices (see C33, C34); for Tucker tensors with three or more modes it is C41_recovery_tucker, with the misread right matrices of C33_tucker. Recovery for every format: C41_recovery_all (rightCols in Spec/RightCols.lean)."
  },
  {
   "property": "C42",
   "status": "proved",
   "theorems": [
    "TTS.Props.C42_form",
    "TTS.Props.C42_form_dense",
    "TTS.Props.C42_recovery",
    "TTS.Props.C42_recovery_dense",
    "TTS.Props.C42_success",
    "TTS.Props.C42_success_dense",
    "TTS.Props.C42_success_supplied",
    "TTS.Props.C42_return_drm",
    "TTS.Props.C42_form_all",
    "TTS.Props.C42_success_all",
    "TTS.Props.C42_success_supplied_all",
    "TTS.Props.C42_recovery_tucker",
    "TTS.Props.C42_recovery_all"
   ],
   "note": "As for C41. Finding: return_drm=True always ends in NameError. Recovery for every format: C42_recovery_all (rightCols in Spec/RightCols.lean)."
  },
  {
   "property": "C43",
   "status": "proved",
   "theorems": [
    "TTS.Props.C43_stream_reject",
    "TTS.Props.C43_stream_accept",
    "TTS.Props.C43_left_mismatch",
    "TTS.Props.C43_right_mismatch",
    "TTS.Props.C43_orth_reject",
    "TTS.Props.C43_orth_accept",
    "TTS.Props.C43_orth_mismatch"
   ],
   "note": ""
  },
  {
   "property": "C44",
   "status": "proved",
   "theorems": [
    "TTS.Props.C44_blocked",
    "TTS.Props.C44_dense"
   ],
   "note": "All tensors and lazy sums, all DRM class pairs, all chains of cut points (any number, empty slices allowed). Domain as C30 (seeded DenseGaussian; no TensorTrainDRM with dense/Tucker: C44_dense shows the ValueError)."
  },
  {
   "property": "C45",
   "status": "proved",
   "theorems": [
    "TTS.Props.C45_increase",
    "TTS.Props.C45_other",
    "TTS.Props.C45_other_right"
   ],
   "note": "All tensors and lazy sums, both growable classes on either side, all old/new ranks; conclusion re-establishes the hypotheses, so histories of increases are covered. C45_other: other classes raise AttributeError rather than the documented ValueError."
  },
  {
   "property": "C46",
   "status": "proved",
   "theorems": [
    "TTS.Props.C46_raises"
   ],
   "note": "SketchContainer.__mul__ uses an unbound local variable"
  },
  {
   "property": "C47",
   "status": "proved",
   "theorems": [
    "TTS.Props.C47_twice",
    "TTS.Props.C47_convert",
    "TTS.Props.C47_update",
    "TTS.Props.C47_update_rejected",
    "TTS.Props.C47_reported"
   ],
   "note": "C47_convert assumes PinvContract (lstsq = product with a generalised inverse determined by A; shown satisfiable over every field). C47_update: formats as in C33. Finding: the DRMs of stt.T keep the original shape and data, so updates are only possible for palindromic shapes, and stt.T.left_rank/right_rank are reported in the wrong order (C47_reported). Not covered: palindromic shape with non-palindromic ranks."
  },
  {
   "property": "C48",
   "status": "proved",
   "theorems": [
    "TTS.Props.C48_seeded",
    "TTS.Props.C48_process"
   ],
   "note": "C48_process: two interpreters with different string hashes give different sketches"
  },
  {
   "property": "C49",
   "status": "proved",
   "theorems": [
    "TTS.Props.C49",
    "TTS.Props.C49_exact",
    "TTS.Props.C49_none",
    "TTS.Props.C49_formats",
    "TTS.Props.C49_one_mode"
   ],
   "note": "np.linalg.svd is a parameter with contract SVDThinOk (orthonormal columns/rows, sorted nonnegative singular values, product = input). Exact real arithmetic."
  },
  {
   "property": "C50",
   "status": "proved",
   "theorems": [
    "TTS.Props.C50",
    "TTS.Props.C50_dense",
    "TTS.Props.C50_to_tt"
   ],
   "note": "Any commutative semiring. Shape mismatch between MPO and tensor train (numpy error or silent zip truncation) is outside the domain."
  },
  {
   "property": "C51",
   "status": "proved",
   "theorems": [
    "TTS.Props.C51_eye",
    "TTS.Props.C51_T",
    "TTS.Props.C51_adjoint"
   ],
   "note": ""
  },
  {
   "property": "C52",
   "status": "proved",
   "theorems": [
    "TTS.Props.C52",
    "TTS.Props.C52_operand",
    "TTS.Props.C52_others",
    "TTS.Props.C52_changes"
   ],
   "note": "The expected 'A * c leaves A unchanged' is false of the code (new_cores = self.cores aliases the list); the proved property states exactly what is changed, C52_changes is a concrete witness."
  },
  {
   "property": "C53",
   "status": "proved",
   "theorems": [
    "TTS.Props.C53",
    "TTS.Props.C53_forward",
    "TTS.Props.C53_backward",
    "TTS.Props.C53_singular",
    "TTS.Props.C53_mode"
   ],
   "note": "np.linalg.qr and scipy.linalg.solve_triangular are parameters with contracts QROk, SolveTriOk (shown satisfiable). Negative modes (python indexing from the end) are not modelled."
  },
  {
   "property": "C54",
   "status": "proved",
   "theorems": [
    "TTS.Props.C54",
    "TTS.Props.C54_new",
    "TTS.Props.C54_matrix",
    "TTS.Props.C54_empty"
   ],
   "note": ""
  },
  {
   "property": "C55",
   "status": "proved",
   "theorems": [
    "TTS.Props.C55",
    "TTS.Props.C55_single",
    "TTS.Props.C55_single_rank",
    "TTS.Props.C55_other",
    "TTS.Props.C55_reject",
    "TTS.Props.C55_factor",
    "TTS.Props.C55_exact",
    "TTS.Props.C55_exact_lossless",
    "TTS.Props.C55_pairwise_lossless",
    "TTS.Props.C55_sketch_lossless"
   ],
   "note": "Exact real arithmetic; QR, SVD, lstsq are parameters under their contracts. C55_single_rank is a finding: pairwise does not round a single summand."
  },
  {
   "property": "C56",
   "status": "proved",
   "theorems": [
    "TTS.Props.C56",
    "TTS.Props.C56_zero",
    "TTS.Props.C56_system",
    "TTS.Props.C56_times"
   ],
   "note": "Finding: after the first iteration the stopping test and delta use the squared residual. Non-vacuity: args5_run, gmresEnv8."
  },
  {
   "property": "C57",
   "status": "proved",
   "theorems": [
    "TTS.Props.C57",
    "TTS.Props.C57_image",
    "TTS.Props.C57_exact",
    "TTS.Props.C57_optimal",
    "TTS.Props.C57_converges",
    "TTS.Props.C57_solved"
   ],
   "note": "Exact arithmetic; lstsq, svd, qr, solve_triangular enter through their documented contracts (GmresEnv, shown satisfiable by gmresEnv8). args5_run: a concrete system meeting all hypotheses. Finding: C57_solved."
  },
  {
   "property": "C58",
   "status": "proved",
   "theorems": [
    "TTS.Props.C58",
    "TTS.Props.C58_reject",
    "TTS.Props.C58_accept",
    "TTS.Props.C58_none",
    "TTS.Props.C58_errors"
   ],
   "note": "args9_ok: arguments with an MPO, a preconditioner, an initial guess and every rounding method are well formed."
  },
  {
   "property": "C59",
   "status": "proved",
   "theorems": [
    "TTS.Props.C59_contr",
    "TTS.Props.C59_pairs",
    "TTS.Props.C59_sketched",
    "TTS.Props.C59_add"
   ],
   "note": ""
  },
  {
   "property": "C60",
   "status": "proved",
   "theorems": [
    "TTS.Props.C60_tt",
    "TTS.Props.C60_container"
   ],
   "note": ""
  },
  {
   "property": "C61",
   "status": "proved",
   "theorems": [
    "TTS.Props.C61_orth",
    "TTS.Props.C61_orth_dense",
    "TTS.Props.C61_hmt",
    "TTS.Props.C61_hmt_dense",
    "TTS.Props.C61_orth_all",
    "TTS.Props.C61_hmt_all"
   ],
   "note": "ProjectsOntoFrame is in Spec/OrthErr.lean. Contracts of scipy lstsq and qr as in C41. C61_orth_all/C61_hmt_all: every format without repeated sparse indices, Tucker of any order included."
  },
  {
   "property": "C62",
   "status": "proved",
   "theorems": [
    "TTS.Props.C62_hmt",
    "TTS.Props.C62_hmt_dense",
    "TTS.Props.C62_orth",
    "TTS.Props.C62_orth_dense",
    "TTS.Props.C62_orth_mp",
    "TTS.Props.C62_orth_mp_dense",
    "TTS.Props.C62_hmt_all",
    "TTS.Props.C62_orth_all"
   ],
   "note": "rangeErrSq and nystromErrSq are in Spec/OrthErr.lean. The orthogonal part assumes that scipy lstsq multiplies with a generalised inverse (PinvContract); the _mp theorems give the sharper form for Moore-Penrose inverses (MPContract). C62_hmt_all, C62_orth_all: every format; rightCols, colsErrSq, colsOmega are in Spec/RightCols.lean."
  },
  {
   "property": "C63",
   "status": "proved",
   "theorems": [
    "TTS.Props.C63",
    "TTS.Props.C63_reject",
    "TTS.Props.C63_consistent",
    "TTS.Props.C63_unique",
    "TTS.Props.C63_first",
    "TTS.Props.C63_norm",
    "TTS.Props.C63_distance",
    "TTS.Props.C63_round"
   ],
   "note": "IsSingularValues, leftRanks and FitsRight are in Spec/SvdVals.lean. Finding: for ranks that are too large for the modes to their right, svdvals raises ValueError (C63_reject), e.g. shape (4, 2) with rank 4. Exact arithmetic; contracts of numpy qr and svd."
  },
  {
   "property": "C64",
   "status": "proved",
   "theorems": [
    "TTS.Props.C64",
    "TTS.Props.C64_reject",
    "TTS.Props.C64_norm"
   ],
   "note": "ttDraw is in Spec/Random.lean. Contract of np.linalg.qr. With more than 102 modes the trimmed ranks need not be fully consistent, but the half needed for the orthogonalisation (C03_left) always holds. The docstring claims variance 1/(r1 n r2); the code divides by sqrt(r1 n) only (variance 1/(r1 n))."
  },
  {
   "property": "C65",
   "status": "proved",
   "theorems": [
    "TTS.Props.C65_dense",
    "TTS.Props.C65_sparse",
    "TTS.Props.C65_cp",
    "TTS.Props.C65_tucker",
    "TTS.Props.C65_tucker_short",
    "TTS.Props.C65_tucker_empty",
    "TTS.Props.C65_tucker_norm",
    "TTS.Props.C65_tucker_shared"
   ],
   "note": "ChoiceContract (np.random.choice without replacement) and StatePrefix (SeedSequence.generate_state) are in Spec/Random.lean; contract of np.linalg.qr. Findings: Tucker rank sequences shorter than the shape silently give a tensor with fewer modes (C65_tucker_short); core and first factor of a random Tucker tensor share their generator (C65_tucker_shared); the shape () raises TypeError, ValueError or IndexError."
  },
  {
   "property": "C66",
   "status": "proved",
   "theorems": [
    "TTS.Props.C66_stream",
    "TTS.Props.C66_stream_dense",
    "TTS.Props.C66_format",
    "TTS.Props.C66_dense_tt_fails"
   ],
   "note": "ContinuousDraws, Env.withDraws, Env.DistinctStates (the words of SeedSequence for the cores of one DRM differ) and DRMKind.Drawn are in Spec/Prob.lean, Tensor.bond in Spec/Bond.lean; ContinuousDraws is met by independent standard normal draws (normalDraws_continuous). Contract of scipy.linalg.lstsq. Finding: tensor train DRMs lose rank on dense arrays with three modes for every outcome (C66_dense_tt_fails), a consequence of the wrong mode order found with C33. The hash-based DRMs (sparse Gaussian, sparse sign) are not covered: they are deterministic functions of the seed."
  },
  {
   "property": "C67",
   "status": "proved",
   "theorems": [
    "TTS.Props.C67_orthogonal",
    "TTS.Props.C67_orthogonal_dense",
    "TTS.Props.C67_hmt",
    "TTS.Props.C67_hmt_dense",
    "TTS.Props.C67_format",
    "TTS.Props.C67_hmt_format"
   ],
   "note": "Same setting as C66; contracts of scipy.linalg.lstsq and scipy.linalg.qr."
  },
  {
   "property": "C68",
   "status": "proved",
   "theorems": [
    "TTS.Props.C68_stream",
    "TTS.Props.C68_stream_dense",
    "TTS.Props.C68_norm"
   ],
   "note": "StandardDraws (independent, mean 0, variance 1 draws; met by standard normal draws: normalDraws_standard), Env.SeedsApart (left and right DRM use different generators), SketchMoments are in Spec/Moments.lean. Hypothesis on 1/sqrt: invSqrt r ^ 2 * r = 1. Not covered: hash-based sparse DRMs (deterministic functions of the seed)."
  },
  {
   "property": "C69",
   "status": "proved",
   "theorems": [
    "TTS.Props.C69_tt",
    "TTS.Props.C69_tt_orth",
    "TTS.Props.C69_cp",
    "TTS.Props.C69_dense",
    "TTS.Props.C69_sparse",
    "TTS.Props.C69_tucker"
   ],
   "note": "EntryMoments in Spec/Moments.lean; setting as C68. Contract of scipy.linalg.qr for the orthogonalised forms."
  },
  {
   "property": "C70",
   "status": "proved",
   "theorems": [
    "TTS.Props.C70_stream",
    "TTS.Props.C70_stream_dense",
    "TTS.Props.C70_directions",
    "TTS.Props.C70_directions_dense",
    "TTS.Props.C70_projection",
    "TTS.Props.C70_stream_all",
    "TTS.Props.C70_directions_all"
   ],
   "note": "StreamApprox, oblique, obliques, PinvsOf, NormBounds in Spec/Nystrom.lean. Contract: lstsq(A, B)[0] = A^+ B (MPContract; met by mpChoice). The inverses exist and are unique (pinvs_exist, IsPinv.unique), bounds c_k exist (normBounds_exist). C70_stream_all, C70_directions_all: every format (StreamApproxCols, PinvsOfCols, NormBoundsCols in Spec/NystromAll.lean, rightCols in Spec/RightCols.lean)."
  },
  {
   "property": "C71",
   "status": "proved",
   "theorems": [
    "TTS.Props.C71",
    "TTS.Props.C71_reject",
    "TTS.Props.C71_symmetric"
   ],
   "note": "foldedDraw, foldedSq, entrySq in Spec/MPORandom.lean. For different input and output sizes \"symmetrize\" adds the transpose re-read in row-major order (transpose.reshape), which is what C71 states. If all folded numbers of a core vanish numpy produces nan; the entry formula then describes x/0 = 0 and is not claimed for numpy."
  },
  {
   "property": "C72",
   "status": "proved",
   "theorems": [
    "TTS.Props.C72",
    "TTS.Props.C72_dense",
    "TTS.Props.C72_tail",
    "TTS.Props.C72_svd",
    "TTS.Props.C72_dense_svd"
   ],
   "note": "GaussianDraws, MeanErrSq, Oversampled in Spec/GaussErr.lean. The mean is stated through a measurable majorant, because the outcome of QR/lstsq need not be measurable. The bonds need not be independent (equal dimension products share a stream)."
  },
  {
   "property": "C73",
   "status": "proved",
   "theorems": [
    "TTS.Props.C73",
    "TTS.Props.C73_dense",
    "TTS.Props.C73_svd",
    "TTS.Props.C73_dense_svd"
   ],
   "note": "GaussianDraws, MeanErrSq, Oversampled, StreamsApart in Spec/GaussErr.lean, MPContract (lstsq returns the least squares solution of least norm) in Spec/Nystrom.lean. Different bonds need not be independent."
  },
  {
   "property": "C74",
   "status": "proved",
   "theorems": [
    "TTS.Props.C74_right",
    "TTS.Props.C74_left",
    "TTS.Props.C74_projector",
    "TTS.Props.C74_orthogonal",
    "TTS.Props.C74_mismatch"
   ],
   "note": "MPContract (lstsq) and PinvOk (pinv): the external routines return Moore-Penrose inverses; both are shown satisfiable."
  },
  {
   "property": "C75",
   "status": "proved",
   "theorems": [
    "TTS.Props.C75_hilbert",
    "TTS.Props.C75_sqrt",
    "TTS.Props.C75_sqrt_returns",
    "TTS.Props.C75_sqrt_swapped"
   ],
   "note": "C75_sqrt_swapped: sqrt_tensor([2,3]) has shape [3,2] (meshgrid with its default indexing), although the docstring promises the shape that was asked for."
  },
  {
   "property": "C76",
   "status": "proved",
   "theorems": [
    "TTS.Props.C76_pure",
    "TTS.Props.C76_frame",
    "TTS.Props.C76_setitem",
    "TTS.Props.C76_setitem_ok",
    "TTS.Props.C76_write",
    "TTS.Props.C76_T",
    "TTS.Props.C76_mul",
    "TTS.Props.C76_add",
    "TTS.Props.C76_view",
    "TTS.Props.C76_copy",
    "TTS.Props.C76_same_list",
    "TTS.Props.C76_tucker_shared",
    "TTS.Props.C76_shape",
    "TTS.Props.C76_cp_shared",
    "TTS.Props.C76_tucker_changes",
    "TTS.Props.C76_stale_shape"
   ],
   "note": "Reachable, Uses, SameList, Mutates, KeepsShapes, Copies, Pure are in Spec/Mem.lean. C76_cp_shared, C76_tucker_changes and C76_stale_shape are counterexamples: scaled CP and Tucker tensors share arrays with the original, item assignment leaves the attribute shape and the transpose stale."
  },
  {
   "property": "C77",
   "status": "proved",
   "theorems": [
    "TTS.Props.C77",
    "TTS.Props.C77_current",
    "TTS.Props.C77_stale"
   ],
   "note": "C77_stale: a write to the entries after the first gather makes gather and to_numpy disagree."
  },
  {
   "property": "C78",
   "status": "proved",
   "theorems": [
    "TTS.Props.C78",
    "TTS.Props.C78_grows",
    "TTS.Props.C78_subset",
    "TTS.Props.C78_mixed",
    "TTS.Props.C78_missing",
    "TTS.Props.C78_concurrent"
   ],
   "note": "Suite, CsvOk, Exper.Same are in Spec/Experiment.lean. Kills during the write of the file itself are the subject of C87. C78_subset, C78_mixed, C78_missing, C78_concurrent are counterexamples outside the hypotheses."
  },
  {
   "property": "C79",
   "status": "proved",
   "theorems": [
    "TTS.Props.C79",
    "TTS.Props.C79_errors",
    "TTS.Props.C79_solves",
    "TTS.Props.kernel_unique"
   ],
   "note": "paramMatrix, gridParams, CookieData.Ok are in Spec/Cookie.lean, UserMap.Kernel in Spec/MPO.lean. C54, C57, C58 now cover user maps (constructor user of LinMap). The map applies the transposed matrices while the preconditioner inverts the matrix itself; they fit together for symmetric matrices."
  },
  {
   "property": "C80",
   "status": "proved",
   "theorems": [
    "TTS.Props.C80",
    "TTS.Props.C80_dense",
    "TTS.Props.C80_left",
    "TTS.Props.C80_left_dense",
    "TTS.Props.C80_svd",
    "TTS.Props.C80_dense_svd"
   ],
   "note": "growth and bondMean (the factors in the bound), StreamsDistinct, GaussianDraws, MeanErrSq are in Spec/GaussErr.lean. lstsq is assumed to return least squares solutions of least norm (as numpy documents), shown satisfiable."
  },
  {
   "property": "C81",
   "status": "proved",
   "theorems": [
    "TTS.Props.C81",
    "TTS.Props.C81_hmt",
    "TTS.Props.C81_hmt_dense",
    "TTS.Props.C81_orth",
    "TTS.Props.C81_orth_dense",
    "TTS.Props.C81_stream",
    "TTS.Props.C81_stream_dense"
   ],
   "note": "WithProb is in Spec/GaussErr.lean. C81 is the step from any mean bound; the others are the three sketches with singular values."
  },
  {
   "property": "C82",
   "status": "proved",
   "theorems": [
    "TTS.Props.C82_numpy",
    "TTS.Props.C82_dot",
    "TTS.Props.C82_norm",
    "TTS.Props.C82_error",
    "TTS.Props.C82_T",
    "TTS.Props.C82_mul",
    "TTS.Props.C82_neg",
    "TTS.Props.C82_sub",
    "TTS.Props.C82_mul_fails",
    "TTS.Props.C82_add",
    "TTS.Props.C82_size",
    "TTS.Props.C82_stream",
    "TTS.Props.C82_stream_T",
    "TTS.Props.C82_stream_size",
    "TTS.Props.C82_stream_error"
   ],
   "note": "Obj.entry, Obj.array, Obj.Good, Obj.NoEmpty and Sketched.Transposes are in Spec/Objects.lean. C82_mul_fails is the limit of the property in the code: Z - X, -X and c * X raise whenever X is or contains a sketch. C82_size excludes CP summands, whose size is a bound method (TypeError when added). C82_error needs two or more modes (tensor trains of one mode cannot be subtracted, C13)."
  },
  {
   "property": "C83",
   "status": "proved",
   "theorems": [
    "TTS.Props.C83",
    "TTS.Props.C83_stream",
    "TTS.Props.C83_orthogonal",
    "TTS.Props.C83_hmt",
    "TTS.Props.C83_update",
    "TTS.Props.C83_reject",
    "TTS.Props.C83_reject_class",
    "TTS.Props.C83_reject_user",
    "TTS.Props.C83_flatten",
    "TTS.Props.C83_regroup"
   ],
   "note": "SameOk, Obj.flatten, Obj.leaves and Obj.sketches are in Spec/Objects.lean. When a call raises, the two errors need not be of the same class (a nested sum fails in another order). C83_regroup has the restriction of C33 on dense tensors with right tensor train DRMs. C83_reject_class: the exception is a ValueError when the DRMs can sketch all basic tensors that occur."
  },
  {
   "property": "C84",
   "status": "proved",
   "theorems": [
    "TTS.Props.C84",
    "TTS.Props.C84_early",
    "TTS.Props.C84_early_class",
    "TTS.Props.C84_sketch",
    "TTS.Props.C84_orthogonal",
    "TTS.Props.C84_hmt"
   ],
   "note": "OrthOp.Ahead (every next comes after its core), added, nexts and Obj.Modes are in Spec/Coroutine.lean. X.contr is the from-scratch contraction that C07, C41, C42 and C83 describe. C84 and C84_early need the from-scratch contraction with the complete list to exist (it does whenever the first call of next returns, proved as next_ok_contr). C84_early_class: the exception class (Obj.earlyError in Spec/Coroutine.lean)."
  },
  {
   "property": "C85",
   "status": "proved",
   "theorems": [
    "TTS.Props.C85_to_numpy",
    "TTS.Props.C85_gather",
    "TTS.Props.C85_dot",
    "TTS.Props.C85_norm",
    "TTS.Props.C85_relative",
    "TTS.Props.C85_gamma",
    "TTS.Props.C85_exact",
    "TTS.Props.C85_runs",
    "TTS.Props.C85_sharp"
   ],
   "note": "FlVal, FlND, the absolute value tensors and the numbers of roundings are in Spec/Float.lean. The float programs (Model/Float.lean) are relations: any result that some order of operations and some rounding errors can give. flVal_sum and flVal_pairwise (Proofs/FloatExact.lean) show that left-to-right summation with any rounding function and the pairwise contraction of optimize=\"optimal\" are such evaluations; C85_runs that the exact result is; C85_sharp that the bound of to_numpy is attained. TensorTrain.norm: see C104."
  },
  {
   "property": "C86",
   "status": "proved",
   "theorems": [
    "TTS.Props.C86_sketch",
    "TTS.Props.C86_streaming",
    "TTS.Props.C86_dense",
    "TTS.Props.C86_history",
    "TTS.Props.C86_all",
    "TTS.Props.C86_all_history",
    "TTS.Props.C86_exact",
    "TTS.Props.C86_zero",
    "TTS.Props.C86_all_zero"
   ],
   "note": "Model/FloatSketch.lean restates the programs of Model/DRM.lean and Model/Sketch.lean as relations (any result some order of operations and rounding errors can give). Counts of roundings, |D| and Container.Approx are in Spec/FloatSketch.lean. C86_sketch, C86_streaming and C86_history compare with the contraction of the dense tensor and therefore have the format domain of C33 (RightExact: the code contracts dense and Tucker tensors with more than two modes in another index order, finding of C33). C86_all, C86_all_history and C86_all_zero have no such restriction: exact sketch and bound are the sums over the summands of Leaf.sketchOf (as in C33_all) and Leaf.absSketchOf (Spec/FloatSketchAll.lean). The data of the DRMs (drawn and scaled numbers) are taken as given; entries generated by hashed DRMs are the given numbers."
  },
  {
   "property": "C87",
   "status": "proved",
   "theorems": [
    "TTS.Props.C87",
    "TTS.Props.C87_step",
    "TTS.Props.C87_blank",
    "TTS.Props.C87_cut"
   ],
   "note": "Model/Crash.lean (the file as lines of cells, cut at any point), GoodHistory, Shows, Cut.AtLine in Spec/Crash.lean. C87_blank and C87_cut are the proved failures outside the hypothesis that lines are not cut in the middle."
  },
  {
   "property": "C88",
   "status": "proved",
   "theorems": [
    "TTS.Props.C88_stream",
    "TTS.Props.C88_zero",
    "TTS.Props.C88_orthogonal",
    "TTS.Props.C88_hmt",
    "TTS.Props.C88_tt_svd",
    "TTS.Props.C88_tt_round",
    "TTS.Props.C88_prob",
    "TTS.Props.C88_hmt_prob"
   ],
   "note": "Model/ExperimentFns.lean, Truncated in Spec/ExperimentFns.lean. time_taken is not modelled; ranks None are not modelled for the sketching functions. Exact arithmetic."
  },
  {
   "property": "C89",
   "status": "proved",
   "theorems": [
    "TTS.Props.C89_cp",
    "TTS.Props.C89_cp_long",
    "TTS.Props.C89_cp_short",
    "TTS.Props.C89_sparse",
    "TTS.Props.C89_sparse_reject",
    "TTS.Props.C89_tt",
    "TTS.Props.C89_tt_short",
    "TTS.Props.C89_no_rows",
    "TTS.Props.C89_formats_differ"
   ],
   "note": "Model/GatherInt.lean; Selects and IsIndex in Spec/GatherInt.lean. C89_tt_short: with too few rows TensorTrain.gather raises IndexError. C89_formats_differ: the same tensor in TT, CP and sparse format gives three different outcomes for a negative index."
  },
  {
   "property": "C90",
   "status": "proved",
   "theorems": [
    "TTS.Props.C90_decay",
    "TTS.Props.C90_error"
   ],
   "note": "Model/Scripts.lean. Exact arithmetic; np.linalg.svd and qr by contract (shown satisfiable). Findings: plot_timings.tt_error_func has np.infa; plot_dimension_scaling_gaussian.tt_exp_decay discards the result of orthogonalize()."
  },
  {
   "property": "C91",
   "status": "proved",
   "theorems": [
    "TTS.Props.C91_add",
    "TTS.Props.C91_add_same",
    "TTS.Props.C91_add_orders",
    "TTS.Props.C91_dot_tt",
    "TTS.Props.C91_dot_orders",
    "TTS.Props.C91_dot_flat",
    "TTS.Props.C91_dot_sparse_cp",
    "TTS.Props.C91_dot_sparse",
    "TTS.Props.C91_dot_sparse_tt",
    "TTS.Props.C91_sum",
    "TTS.Props.C91_error",
    "TTS.Props.C91_error_tt",
    "TTS.Props.C91_agree"
   ],
   "note": "Model/Mismatch.lean (numpy broadcasting, the checks of np.concatenate, np.dot, einsum), Spec/Mismatch.lean. C91_add_orders: two tensor trains whose add returns an object that is no tensor train. error: without fast; equally many modes (rmse divides by the size of the first operand). Sparse with CP/TT: equally many modes (other cases: C89)."
  },
  {
   "property": "C92",
   "status": "proved",
   "theorems": [
    "TTS.Props.C92",
    "TTS.Props.C92_exact",
    "TTS.Props.approx_of_exact",
    "TTS.Props.badSvd_approx"
   ],
   "note": "Spec/ApproxSvd.lean: IsApproxSVD. C49 is the case eps = 0; badSvd_approx: a routine with this error bound that is not exact. The products of the computed factors (np.diag(S) @ V) are exact; rounded: C106."
  },
  {
   "property": "C93",
   "status": "proved",
   "theorems": [
    "TTS.Props.C93",
    "TTS.Props.C93_norm",
    "TTS.Props.C93_vector",
    "TTS.Props.C93_cancellation",
    "TTS.Props.approxQr_of_exact",
    "TTS.Props.badQr_approx"
   ],
   "note": "Spec/ApproxQr.lean: IsApproxQR, coreNorms. C18 and C12_tt are the case eps = 0; badQr_approx: a routine with this error bound that is not exact. The products R times the next core are exact; rounded: C104."
  },
  {
   "property": "C94",
   "status": "proved",
   "theorems": [
    "TTS.Props.C94",
    "TTS.Props.C94_tolerance",
    "TTS.Props.C94_orthogonalized",
    "TTS.Props.approxSvd_of_exact",
    "TTS.Props.badLa_qr",
    "TTS.Props.badLa_svd"
   ],
   "note": "Spec/ApproxQr.lean: QRApprox, SVDApprox, NearRightOrthogonal, coreNorms. C19 and C20_quasi_optimal are the case eps = 0; badLa_qr, badLa_svd: routines with these error bounds that are not exact. The contractions are exact; rounded: C105."
  },
  {
   "property": "C95",
   "status": "proved",
   "theorems": [
    "TTS.Props.C95",
    "TTS.Props.C95_dense",
    "TTS.Props.C95_coeffs",
    "TTS.Props.C95_recovery",
    "TTS.Props.C95_recovery_dense",
    "TTS.Props.C95_success",
    "TTS.Props.C95_success_supplied",
    "TTS.Props.qrApprox_of_exact",
    "TTS.Props.badEnv_qr"
   ],
   "note": "Spec/ApproxHmt.lean: QRApproxContract, sketchedNorm, coeffNorm, hmtRounding. C62_hmt is the case eps = 0; badEnv_qr: a routine with this error bound that is not exact. The contractions and the products with the DRM are exact (rounded: C108)."
  },
  {
   "property": "C96",
   "status": "proved",
   "theorems": [
    "TTS.Props.C96",
    "TTS.Props.C96_dense",
    "TTS.Props.C96_float",
    "TTS.Props.C96_float_dense",
    "TTS.Props.C96_sketch_err",
    "TTS.Props.C96_coeffs",
    "TTS.Props.C96_recovery",
    "TTS.Props.C96_recovery_dense",
    "TTS.Props.C96_cores",
    "TTS.Props.lstsqApprox_of_pinv",
    "TTS.Props.badLstsq_approx"
   ],
   "note": "Spec/ApproxStream.lean: LstsqApproxContract, rightBound, leftBound, rightRounding, leftRounding. The bound is a posteriori in the norms of the computed cores (a backward stable routine may return huge solutions for a numerically singular Omega); C96_cores bounds them when Omega has a one-sided inverse. The matrix products inside left_mul_pinv/right_mul_pinv are reshapes and transpositions only, so no further roundings occur."
  },
  {
   "property": "C97",
   "status": "proved",
   "theorems": [
    "TTS.Props.C97",
    "TTS.Props.C97_dense",
    "TTS.Props.C97_apriori",
    "TTS.Props.C97_apriori_dense",
    "TTS.Props.C97_coeffs",
    "TTS.Props.C97_recovery",
    "TTS.Props.C97_recovery_dense",
    "TTS.Props.C97_success",
    "TTS.Props.C97_success_supplied",
    "TTS.Props.orthBound_zero"
   ],
   "note": "Spec/ApproxOrthSketch.lean: orthBound, orthBond, midSketch, fitErr, bondSolution. The partial contractions of the tensor with the DRMs and the computed cores are exact here (C86 covers their rounding for stream_sketch). The same eps bounds the errors of both routines. Rounded: C109."
  },
  {
   "property": "C98",
   "status": "proved",
   "theorems": [
    "TTS.Props.C98",
    "TTS.Props.C98_exact",
    "TTS.Props.C98_pairwise",
    "TTS.Props.C98_sketch",
    "TTS.Props.C98_of_exact"
   ],
   "note": "The contractions inside the additions and sketches are exact. Spec/ApproxGmres.lean: RoundApprox, roundBound; rightBound and orthBound as in C96 and C97."
  },
  {
   "property": "C99",
   "status": "proved",
   "theorems": [
    "TTS.Props.C99",
    "TTS.Props.C99_ranks",
    "TTS.Props.C99_basis",
    "TTS.Props.C99_least",
    "TTS.Props.C99_errors",
    "TTS.Props.lstsqApprox_of_exact",
    "TTS.Props.gmresBad"
   ],
   "note": "Inner products, sums and operator applications are exact; no preconditioner. Spec/ApproxGmres.lean: GmresApprox, LinAlg2.LstsqApprox, GmresOut.scale/raw/basis. gmresBad gives genuinely inexact routines that meet the hypotheses."
  },
  {
   "property": "C100",
   "status": "proved",
   "theorems": [
    "TTS.Props.C100",
    "TTS.Props.C100_error",
    "TTS.Props.C100_condition",
    "TTS.Props.solveTriApprox_of_exact",
    "TTS.Props.badSolve_approx"
   ],
   "note": "The product Q^T b is exact; norms are Frobenius norms. Spec/ApproxPrecond.lean: LinAlg2.SolveTriApprox (each column solves a perturbed system). badSolve gives a genuinely inexact routine that meets the hypotheses."
  },
  {
   "property": "C101",
   "status": "proved",
   "theorems": [
    "TTS.Props.C101",
    "TTS.Props.C101_errors",
    "TTS.Props.args6_run"
   ],
   "note": "Inner products, sums, operator applications and Q^T b are exact. Spec/ApproxPrecGmres.lean: precErr, precLoss, GmresArgs.loss. args6_run: a preconditioned run satisfying all hypotheses."
  },
  {
   "property": "C102",
   "status": "proved",
   "theorems": [
    "TTS.Props.C102",
    "TTS.Props.C102_reject",
    "TTS.Props.C102_weyl",
    "TTS.Props.C102_of_exact"
   ],
   "note": "Matrix products (einsum, U @ diag(S)) are exact; only QR and SVD are inexact. Exact existence of the singular values compared with is part of the statement. C102_of_exact: eps = 0 gives C63 back. The product of core norms, not the norm of the tensor, is what backward stability of the factorisations gives for trains with cancellation."
  },
  {
   "property": "C103",
   "status": "proved",
   "theorems": [
    "TTS.Props.C103_to_numpy",
    "TTS.Props.C103_gather",
    "TTS.Props.C103_dot",
    "TTS.Props.C103_runs",
    "TTS.Props.C103_exact",
    "TTS.Props.C103_sketch",
    "TTS.Props.C103_streaming"
   ],
   "note": "Standard model of floating point arithmetic as in C85 (no overflow or underflow); the relative error is with respect to the program on absolute values, so cancellation is covered honestly. add needs at least two modes as in the code. An example shows a run that really rounds."
  },
  {
   "property": "C104",
   "status": "proved",
   "theorems": [
    "TTS.Props.C104",
    "TTS.Props.C104_norm",
    "TTS.Props.C104_program",
    "TTS.Props.C104_error",
    "TTS.Props.C104_runs",
    "TTS.Props.C104_exact"
   ],
   "note": "rho combines the QR error with the rounding of R times the next core. C104_runs: exact arithmetic is one of the runs; C104_exact: without rounding errors every run gives C12/C18. Errors for the default options of error (relative=False, rmse=False), trains with at least two modes. The norms of the cores appear because of cancellation (C93_cancellation)."
  },
  {
   "property": "C105",
   "status": "proved",
   "theorems": [
    "TTS.Props.C105",
    "TTS.Props.C105_tolerance",
    "TTS.Props.C105_orthogonalized",
    "TTS.Props.C105_runs"
   ],
   "note": "C94 with every numpy operation rounded as well. rho combines the error of the routines with the rounding of U S and of its contraction with the next core. C105_runs: exact arithmetic is one of the runs for every u >= 0, so that the statement is about a nonempty set of runs."
  },
  {
   "property": "C106",
   "status": "proved",
   "theorems": [
    "TTS.Props.C106",
    "TTS.Props.C106_exact",
    "TTS.Props.C106_tensor",
    "TTS.Props.C106_runs"
   ],
   "note": "C92 with every numpy operation rounded as well. C106_runs: exact arithmetic is one of the runs for every u >= 0."
  },
  {
   "property": "C107",
   "status": "proved",
   "theorems": [
    "TTS.Props.C107",
    "TTS.Props.C107_reject",
    "TTS.Props.C107_runs"
   ],
   "note": "C102 with every numpy operation rounded as well. C107_runs: exact arithmetic is one of the runs for every u >= 0."
  },
  {
   "property": "C108",
   "status": "proved",
   "theorems": [
    "TTS.Props.C108",
    "TTS.Props.C108_dense",
    "TTS.Props.C108_recovery",
    "TTS.Props.C108_runs",
    "TTS.Props.hmtFloatRounding_zero",
    "TTS.Props.C108_apriori",
    "TTS.Props.C108_apriori_dense",
    "TTS.Props.C108_recovery_linear"
   ],
   "note": "C95 with every numpy operation rounded as well. As in C95 the matrix form is for tensors whose right sketch is given by rightMats (for dense arrays with any number of modes: C108_dense). C108_runs: exact arithmetic is one of the runs for every u >= 0 (with C95_success: runs exist). hmtFloatRounding_zero: without errors no rounding terms remain. Each step of the model may round the earlier left contractions anew, which allows more results than the code has. C108_apriori: psiError replaced by a bound that does not depend on the run. C108_recovery_linear: if sketching keeps the unfoldings, the error is at most a constant times eps + u."
  },
  {
   "property": "C109",
   "status": "proved",
   "theorems": [
    "TTS.Props.C109",
    "TTS.Props.C109_dense",
    "TTS.Props.C109_runs",
    "TTS.Props.orthFloatBound_exact",
    "TTS.Props.omegaError_zero",
    "TTS.Props.C109_apriori",
    "TTS.Props.C109_apriori_dense",
    "TTS.Props.C109_ranks",
    "TTS.Props.C109_recovery",
    "TTS.Props.C109_recovery_dense"
   ],
   "note": "C97 with every numpy operation rounded as well. As in C97 the matrix form is for tensors whose right sketch is given by rightMats (for dense arrays with any number of modes: C109_dense). C109_runs: exact arithmetic is one of the runs for every u >= 0 (with C97_success: runs exist). orthFloatBound_exact, omegaError_zero, psiError_zero: without rounding the bound is that of C97. Each step of the model may round the earlier left contractions anew, which allows more results than the code has. C109_apriori: a bound that does not depend on the run. C109_ranks: ranks and DRMs of the result. C109_recovery: if every Omega has full row rank and the rank of the unfolding, the error is at most a constant times eps + u, for all small eps, u."
  },
  {
   "property": "C110",
   "status": "proved",
   "theorems": [
    "TTS.Props.C110",
    "TTS.Props.C110_runs",
    "TTS.Props.C110_margin",
    "TTS.Props.errorWithBound_exact"
   ],
   "note": "C104_error with the options. The product of the mode sizes is exact (no integer overflow). C110_runs: the result in exact arithmetic is one of the runs for every u >= 0. C110_margin: the hypothesis on norm(Y) holds for every nonzero Y when u and eps are small. Trains only: the branch that calls Tensor.error is covered in exact arithmetic only (C13)."
  }
 ]
}