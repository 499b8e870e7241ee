{
 "claims": [
  {
   "property": "C01",
   "status": "proved",
   "theorems": [
    "Sporco.Options.C01_shape_invariant",
    "Sporco.Options.C01_construct_defaults",
    "Sporco.Options.C01_construct_iff",
    "Sporco.Options.C01_premade_unchecked"
   ],
   "note": "Shape invariant over all histories with plain values; construction outcome. A ready-made ConstrainedDict as value is outside (C01_premade_unchecked)."
  },
  {
   "property": "C02",
   "status": "proved",
   "theorems": [
    "Sporco.Options.C02_assign_leaf_outcome",
    "Sporco.Options.C02_unknown_unchanged",
    "Sporco.Options.C02_update_iff",
    "Sporco.Options.C02_update_not_atomic"
   ],
   "note": "Exact outcome of leaf assignments and of unknown paths; update succeeds iff the dict fits. update is not atomic (C02_update_not_atomic)."
  },
  {
   "property": "C03",
   "status": "proved",
   "theorems": [
    "Sporco.Options.C03_assign_effect",
    "Sporco.Options.C03_leaf_readback",
    "Sporco.Options.C03_update_effect"
   ],
   "note": "Read-back and frame for leaf, nested-dict and update."
  },
  {
   "property": "C04",
   "status": "proved",
   "theorems": [
    "Sporco.Options.C04_coupled",
    "Sporco.Options.C04_tuple_key_limit"
   ],
   "note": "Coupling of the two auxiliary-variable options proved for every history of assignments and updates (C04_coupled). Limit shown in C04_tuple_key_limit: a one-element tuple key bypasses the hook."
  },
  {
   "property": "C05",
   "status": "partial",
   "theorems": [
    "Sporco.Util.C05_first_wins",
    "Sporco.Util.C05_user_value",
    "Sporco.Util.C05_default_partial",
    "Sporco.Util.C05_refuted",
    "Sporco.Util.C05_pgm_ccmod_refuted"
   ],
   "note": "First-wins rule and user value proved for every call sequence; C05_default_partial covers the solvers whose own default survives. C05_refuted: CnstrMOD, ConvCnstrMOD, ConvCnstrMODConsensus, ConvBPDNScalarTV and ConvBPDNRecTV never use their documented rho default because the base constructor runs first; C05_pgm_ccmod_refuted: same for L in the PGM dictionary update."
  },
  {
   "property": "C06",
   "status": "proved",
   "theorems": [
    "Sporco.Timer.C06_elapsed_total",
    "Sporco.Timer.C06_known_labels",
    "Sporco.Timer.C06_unknown_label",
    "Sporco.Timer.C06_elapsed_current",
    "Sporco.Timer.C06_no_interference",
    "Sporco.Timer.C06_context_startstop",
    "Sporco.Timer.C06_context_stopstart",
    "Sporco.Timer.C06_monotone",
    "Sporco.Timer.C06_nonneg"
   ],
   "note": "Timer refined to an event-list specification; no interference, monotonicity, ContextTimer block."
  },
  {
   "property": "C07",
   "status": "proved",
   "theorems": [
    "Sporco.Timer.C07_nested"
   ],
   "note": "All prefixes of all sessions of ADMM, ParConvBPDN, PGM and DictLearn solve; arbitrary non-decreasing clock."
  },
  {
   "property": "C08",
   "status": "partial",
   "theorems": [
    "Sporco.Util.C08_grid_search_partial",
    "Sporco.Util.C08_vector_partial",
    "Sporco.Util.C08_pool",
    "Sporco.Util.C08_all_nan",
    "Sporco.Util.C08_refuted"
   ],
   "note": "Proved for every grid, function and direction with NaN values allowed, whenever some grid value is a number other than the worst infinity; C08_refuted: if all numbers on the grid are +inf, a NaN point can be returned. C08_pool: independence of chunk size and completion order, with Pool.map taken at its documented contract."
  },
  {
   "property": "C09",
   "status": "partial",
   "theorems": [
    "Sporco.Util.C09_chunks",
    "Sporco.Util.C09_values",
    "Sporco.Util.C09_same_as_serial",
    "Sporco.Util.C09_vector_partial",
    "Sporco.Util.C09_vector_refuted"
   ],
   "note": "Chunking and equality with the serial search for every grid and process count (scalar functions). Vector functions: proved when there are at least as many points as processes; C09_vector_refuted: with more processes than points the ranks make different collective calls."
  },
  {
   "property": "C10",
   "status": "proved",
   "theorems": [
    "Sporco.Util.C10_retry",
    "Sporco.Util.C10_success"
   ],
   "note": "For every behaviour of the network (a function from attempt index to outcome) and every integer maxtry. An exception other than URLError propagates at once (e.g. a bare timeout raised by read)."
  },
  {
   "property": "C11",
   "status": "proved",
   "theorems": [
    "Sporco.Array.C11_extract",
    "Sporco.Array.C11_average",
    "Sporco.Array.C11_combine",
    "Sporco.Array.C11_median"
   ],
   "note": "Blocks, averages and (for the median) combinations over arbitrary shapes, block sizes and steps. Reshape, strides and row-major order are modelled by index arithmetic."
  },
  {
   "property": "C12",
   "status": "proved",
   "theorems": [
    "Sporco.Cnvrep.C12_zpad",
    "Sporco.Cnvrep.C12_bcrop",
    "Sporco.Cnvrep.C12_pad_crop"
   ],
   "note": "zpad/bcrop for single and multi-size dictionaries; every dimension."
  },
  {
   "property": "C13",
   "status": "partial",
   "theorems": [
    "Sporco.Array.C13_rolling",
    "Sporco.Array.C13_subsample",
    "Sporco.Array.C13_split",
    "Sporco.Array.C13_transpose_ntpl",
    "Sporco.Array.C13_ntpl_partial",
    "Sporco.Array.C13_ntpl_refuted",
    "Sporco.Array.C13_ndto2d",
    "Sporco.Array.C13_ndfrom2d"
   ],
   "note": "rolling windows, subsampling, split, tuple transposition, axis grouping are lossless. array2ntpl(ntpl2array(t)) = t holds for scalar fields only: C13_ntpl_refuted shows it fails for tuples of sequences."
  },
  {
   "property": "C14",
   "status": "proved",
   "theorems": [
    "Sporco.Cnvrep.C14_csc",
    "Sporco.Cnvrep.C14_roles",
    "Sporco.Cnvrep.C14_internal_signal",
    "Sporco.Cnvrep.C14_dictionarySize",
    "Sporco.Cnvrep.C14_cdu"
   ],
   "note": "All documented shapes (dimN or more axes; at most one channel and one signal axis); C14_roles shows that every documented number of axes is covered. Inputs with fewer than dimN or more than dimN+2 axes are not covered (the constructor accepts some of them and the later reshape fails)."
  },
  {
   "property": "C15",
   "status": "partial",
   "theorems": [
    "Sporco.Prox.C15_prox_l1_real",
    "Sporco.Prox.C15_numexpr_same",
    "Sporco.Prox.C15_prox_l1_nonneg",
    "Sporco.Prox.C15_prox_l1_complex_partial",
    "Sporco.Prox.C15_complex_zero_is_nan"
   ],
   "note": "Real arrays (both branches) and the non-negativity clip: unique minimiser. Complex arrays: proved when no entry is zero; the code returns NaN at complex zeros (C15_complex_zero_is_nan)."
  },
  {
   "property": "C16",
   "status": "proved",
   "theorems": [
    "Sporco.Prox.C16_prox_l0_weighted",
    "Sporco.Prox.C16_prox_l0",
    "Sporco.Prox.C16_norm_l0"
   ],
   "note": "Real or complex arrays, scalar or array thresholds."
  },
  {
   "property": "C17",
   "status": "proved",
   "theorems": [
    "Sporco.Prox.C17_prox_l2",
    "Sporco.Prox.C17_proj_l2",
    "Sporco.Prox.C17_proj_l2ball"
   ],
   "note": "Unique minimisers on all slices; also linalg.proj_l2ball."
  },
  {
   "property": "C18",
   "status": "proved",
   "theorems": [
    "Sporco.Conv.Prj.C18_projl1_axes",
    "Sporco.Prox.C18_proj_l1_sort_axis",
    "Sporco.Prox.C18_proj_l1_sort",
    "Sporco.Prox.C18_proj_l1_root",
    "Sporco.Prox.C18_root_exists"
   ],
   "note": "Sorting method with and without axis; root method for any exact root of the bracketed function, and existence of that root (brentq itself is not modelled). Also along the channel, filter and spatial axes of ConvBPDNProjL1."
  },
  {
   "property": "C19",
   "status": "proved",
   "theorems": [
    "Sporco.Prox.C19_prox_sl1l2"
   ],
   "note": "Unique minimiser, array-valued l1 threshold, all slices."
  },
  {
   "property": "C20",
   "status": "proved",
   "theorems": [
    "Sporco.Prox.C20_prox_dl1l2",
    "Sporco.Prox.C20_prox_dl1l2_axis",
    "Sporco.Prox.C20_beta_range_needed"
   ],
   "note": "Global minimiser for alpha >= 0 and the documented 0 <= beta <= 1, both code branches; C20_beta_range_needed shows the bound matters."
  },
  {
   "property": "C21",
   "status": "proved",
   "theorems": [
    "Sporco.Admm.Rpca.C21_C40_rpca_history",
    "Sporco.Prox.C21_nuc_eq_sum_singular_values",
    "Sporco.Prox.C21_prox_nuclear"
   ],
   "note": "Real and complex matrices, for any valid SVD (numpy's SVD is a contract). Nuclear norm given as dual norm and shown equal to the sum of singular values."
  },
  {
   "property": "C22",
   "status": "partial",
   "theorems": [
    "Sporco.Admm.Bpdn.C22_C39_projl1_nonneg_refuted",
    "Sporco.Conv.RTV.C22_convrectv_refuted",
    "Sporco.Conv.TVC.C22_convtv_refuted",
    "Sporco.Prox.C22_l1_partial",
    "Sporco.Prox.C22_clip_partial",
    "Sporco.Prox.C22_joint_partial",
    "Sporco.Prox.C22_joint_refuted",
    "Sporco.Prox.C22_projl1_refuted"
   ],
   "note": "Exact for the l1 solvers, the plain clip, and joint sparsity without the option; refuted for joint sparsity (C22_joint_refuted) and l1-ball (C22_projl1_refuted) with NonNegCoef; for the l1 ball the iterates do not converge to the constrained optimum either (C22_C39_projl1_nonneg_refuted). ConvBPDNScalarTV and ConvBPDNVectorTV accept the option and ignore it (C22_convtv_refuted), ConvBPDNRecTV likewise (C22_convrectv_refuted)."
  },
  {
   "property": "C23",
   "status": "proved",
   "theorems": [
    "Sporco.Linalg.C23_solvedbi",
    "Sporco.Linalg.C23_solvedbd",
    "Sporco.Linalg.C23_cached",
    "Sporco.Linalg.C23_unique"
   ],
   "note": "Complex model with the exact Sherman-Morrison expressions; solution and uniqueness, with and without the cached vector."
  },
  {
   "property": "C24",
   "status": "proved",
   "theorems": [
    "Sporco.Linalg.C24_ism",
    "Sporco.Linalg.C24_ism_denominators",
    "Sporco.Linalg.C24_rsm",
    "Sporco.Linalg.C24_cg_operator",
    "Sporco.Linalg.C24_unique",
    "Sporco.Linalg.C24_ism_array"
   ],
   "note": "solvemdbi_ism and solvemdbi_rsm for any number of rank-one terms, solvemdbi_ism also with an array in place of rho, including non-vanishing denominators; the operator handed to scipy CG is the system matrix (CG convergence itself is scipy and not modelled)."
  },
  {
   "property": "C25",
   "status": "partial",
   "theorems": [
    "Sporco.Linalg.C25_lu_ATAI",
    "Sporco.Linalg.C25_cho_ATAI",
    "Sporco.Linalg.C25_AATI_matrix_partial",
    "Sporco.Linalg.C25_AATI_vec",
    "Sporco.Linalg.C25_AATI_doc_refuted"
   ],
   "note": "ATAI proved for LU and Cholesky, tall and wide; AATI proved for vector b. For matrix b the code solves X(AA^T+rho I)=B, not the documented (AA^T+rho I)X=B: refuted by witness, actual behaviour proved."
  },
  {
   "property": "C26",
   "status": "partial",
   "theorems": [
    "Sporco.Linalg.C26_sylvester",
    "Sporco.Linalg.C26_indefinite_refuted"
   ],
   "note": "Proved for positive semidefinite arguments in every accepted form; refuted for indefinite full matrices (documentation asks only for symmetric) because of the absolute value taken after eigh."
  },
  {
   "property": "C27",
   "status": "proved",
   "theorems": [
    "Sporco.Linalg.C27_blocks",
    "Sporco.Linalg.C27_circular_convolution"
   ],
   "note": "Block formula and block circular convolution for all r, c, n."
  },
  {
   "property": "C28",
   "status": "partial",
   "theorems": [
    "Sporco.Linalg.C28_rearrangement",
    "Sporco.Linalg.C28_kpsvd_partial",
    "Sporco.Linalg.C28_nkp_partial",
    "Sporco.Linalg.C28_refuted",
    "Sporco.Linalg.C28_shape"
   ],
   "note": "with a correct SVD routine (existence proved in svdCorrect_exists) kpsvd is an exact decomposition whose n-term truncations are best, nkp is a best single Kronecker product; C28_refuted: both calls are refused when B is a row or column."
  },
  {
   "property": "C29",
   "status": "partial",
   "theorems": [
    "Sporco.Signal.C29_adjoint_partial",
    "Sporco.Signal.C29_adjoint_zero_pad",
    "Sporco.Signal.C29_length_one_refuted",
    "Sporco.Signal.C29_negative_axis_refuted"
   ],
   "note": "Zero-padded pair adjoint for every axis and length (C29_adjoint_zero_pad). Unpadded pair: proved for every axis given by a non-negative number and every length except 1, real and complex. Refuted: gradT raises for an axis of length 1 (C29_length_one_refuted); for a negative axis both functions treat the boundary along the wrong axis and are not adjoint (C29_negative_axis_refuted)."
  },
  {
   "property": "C30",
   "status": "partial",
   "theorems": [
    "Sporco.Signal.C30_complex_partial",
    "Sporco.Signal.C30_real_partial",
    "Sporco.Signal.C30_refuted"
   ],
   "note": "Real (rfftn path) and complex images: outputs sum to the input and the lowpass image is the crop of the unique minimiser of the documented functional over periodic padded images, for padded axes of at least two samples. Refuted for a padded axis of one sample (1x1 image, npd = 0): the gradient filter is cut off by the transform and the output is s/(1+2 lambda) instead of s. Trailing axes of stacks of images are filtered one image at a time and are not modelled."
  },
  {
   "property": "C31",
   "status": "partial",
   "theorems": [
    "Sporco.Signal.C31_gaussian",
    "Sporco.Signal.C31_lcn",
    "Sporco.Signal.C31_lcn_default_partial",
    "Sporco.Signal.C31_constant_refuted",
    "Sporco.Signal.C31_zero_refuted"
   ],
   "note": "gaussian sums to one, is non-negative and symmetric; reconstruction and the meaning of the local mean and norm proved for n >= 1 and c > 0. With the default c = None reconstruction needs a channel that is not constant: refuted (0/0) for constant channels. n = 0 returns empty arrays (refuted)."
  },
  {
   "property": "C32",
   "status": "proved",
   "theorems": [
    "Sporco.Conv.C32_fl2norm2",
    "Sporco.Conv.C32_rfl2norm2",
    "Sporco.Conv.C32_fftconv_complex",
    "Sporco.Conv.C32_fftconv_real"
   ],
   "note": "fl2norm2/rfl2norm2 equal the Frobenius norm of the inverse transform for every real signal, including odd and even last axes; fftconv equals the origin-shifted full linear convolution, real and complex, any dimension."
  },
  {
   "property": "C33",
   "status": "proved",
   "theorems": [
    "Sporco.Spline.C33_dct_pair",
    "Sporco.Spline.C33_diagonalises",
    "Sporco.Spline.C33_operator",
    "Sporco.Spline.C33_xstep",
    "Sporco.Spline.C33_C40_history",
    "Sporco.Spline.C33_objfn"
   ],
   "note": "DCT-II pair at scipy's documented definition; all shapes and all lists of distinct axes. x update unique minimiser, also along every run with automatic rho changes; recorded objective; convergence of the objective at X in C39_spline."
  },
  {
   "property": "C34",
   "status": "proved",
   "theorems": [
    "Sporco.Admm.Cmod.C34_cmod_feasible",
    "Sporco.Admm.Cmod.C34_cmod_nearest",
    "Sporco.Admm.Cmod.C34_cmod_idempotent",
    "Sporco.Cnvrep.C34_feasible",
    "Sporco.Cnvrep.C34_nearest",
    "Sporco.Cnvrep.C34_idempotent",
    "Sporco.Cnvrep.C34_getPcn_partial",
    "Sporco.Cnvrep.C34_getPcn_refuted"
   ],
   "note": "Feasibility, nearest point and idempotence proved for Pcn and for the projection in CMOD. getPcn equals Pcn unless zm, not crp and dimN != 2; C34_getPcn_refuted is the counterexample in that case."
  },
  {
   "property": "C35",
   "status": "partial",
   "theorems": [
    "Sporco.Admm.C35_solve_partial",
    "Sporco.Admm.C35_stop_condition",
    "Sporco.Admm.C35_stopping_test",
    "Sporco.Admm.C35_stats_partial",
    "Sporco.Admm.C35_fast",
    "Sporco.Admm.C35_resume_partial",
    "Sporco.Admm.C35_split",
    "Sporco.Admm.C35_zero_refuted"
   ],
   "note": "Proved for MaxMainIter >= 1 (any callback, any options, any sequence of solve calls); for MaxMainIter = 0 the property fails: the counter still advances (C35_zero_refuted)."
  },
  {
   "property": "C36",
   "status": "partial",
   "theorems": [
    "Sporco.Admm.C36_unscaled_dual",
    "Sporco.Admm.C36_frame",
    "Sporco.Admm.C36_factor",
    "Sporco.Admm.C36_period",
    "Sporco.Admm.C36_direction",
    "Sporco.Admm.C36_history",
    "Sporco.Admm.C36_first_iteration_exempt",
    "Sporco.Conv.Mod.C36_ccmodmd_cns_refuted",
    "Sporco.Conv.Mod.C36_ccmodmd_cns_partial"
   ],
   "note": "Single updates and whole runs. The first iteration (k=0) is exempt from the test whatever Period is (C36_first_iteration_exempt; the documentation of Period says otherwise for Period 1). ConvCnstrMODMaskDcpl_Consensus keeps a second dual variable U1 which update_rho does not rescale: rho*U1 changes (C36_ccmodmd_cns_refuted); the U block is preserved (C36_ccmodmd_cns_partial)."
  },
  {
   "property": "C37",
   "status": "proved",
   "theorems": [
    "Sporco.Admm.Bpdn.C37_minl1_refuted",
    "Sporco.Admm.C37_equal",
    "Sporco.Admm.C37_blocks",
    "Sporco.Admm.C37_twoblock",
    "Sporco.Admm.C37_twoblock_adjoint",
    "Sporco.Admm.C37_consensus",
    "Sporco.Admm.C37_consensus_ystep",
    "Sporco.Admm.C37_weighted_partial",
    "Sporco.Admm.C37_weighted_ystep",
    "Sporco.Admm.C37_weighted_rn_refuted",
    "Sporco.Admm.C37_weighted_sn_refuted",
    "Sporco.Admm.C37_twoblock_dual_partial",
    "Sporco.Conv.Mod.C37_ccmodmd_adjoint",
    "Sporco.Conv.Mod.C37_ccmodmd_dual_partial",
    "Sporco.Conv.Mod.C37_ccmodmd_cns_partial",
    "Sporco.Conv.Mod.C37_ccmodmd_cns_rn_refuted",
    "Sporco.Conv.Mod.C37_ccmodmd_cns_dual_partial",
    "Sporco.Conv.TB.C37_convtwoblock_adjoint",
    "Sporco.Tv.Dec.C37_tvl1deconv_dual_partial",
    "Sporco.Tv.Den.C37_tvl1denoise_dual_partial"
   ],
   "note": "Equality, two-block and consensus classes fully; weighted consensus: residuals and updates agree, the normalisations rsdl_rn and rsdl_sn do not (refuted with weight 4). The two-block solvers and TVL1Deconv override rsdl_s with rho*A^T u, which agrees with the generic dual residual only when RelaxParam is 1 (C37_twoblock_dual_partial, C37_tvl1deconv_dual_partial); refuted for MinL1InL2Ball with relaxation 1.8. ConvCnstrMODMaskDcpl_Consensus: relaxation, dual update and primal residual agree, the normalisation of the primal residual does not (refuted).  TVL1Denoise: its dual residual is rho times the norm of the adjoint of the constraint operator applied to the multiplier (C37_tvl1denoise_dual_partial)."
  },
  {
   "property": "C38",
   "status": "proved",
   "theorems": [
    "Sporco.Admm.C38_zero_residuals",
    "Sporco.Admm.C38_fixed_point",
    "Sporco.Admm.C38_suboptimality"
   ],
   "note": "For every class whose steps are exact minimisers; also a quantitative suboptimality bound in terms of the computed residual norms."
  },
  {
   "property": "C39",
   "status": "partial",
   "theorems": [
    "Sporco.Admm.Bpdn.C39_bpdn",
    "Sporco.Admm.Bpdn.C39_bpdn_recorded",
    "Sporco.Admm.Bpdn.C39_elasticnet",
    "Sporco.Admm.Bpdn.C39_joint",
    "Sporco.Admm.Bpdn.C39_projl1",
    "Sporco.Admm.Bpdn.C39_bpdn_iterates",
    "Sporco.Admm.Bpdn.C39_elasticnet_iterates",
    "Sporco.Admm.Bpdn.C39_joint_iterates",
    "Sporco.Admm.Bpdn.C39_projl1_iterates",
    "Sporco.Admm.Rpca.C39_rpca_iterates",
    "Sporco.Admm.Bpdn.C39_minl1_iterates",
    "Sporco.Admm.Bpdn.C39_minl1",
    "Sporco.Admm.Bpdn.C39_minl1_recorded",
    "Sporco.Admm.C39_convergence",
    "Sporco.Admm.C39_terminates",
    "Sporco.Admm.Bpdn.C22_C39_projl1_nonneg_refuted",
    "Sporco.Admm.Rpca.C39_rpca",
    "Sporco.Conv.Ams.C39_C59_addmask_partial",
    "Sporco.Conv.C39_convbpdn",
    "Sporco.Conv.C39_convbpdn_recorded",
    "Sporco.Conv.C39_convelasticnet",
    "Sporco.Conv.C39_convjoint",
    "Sporco.Conv.Grd.C39_convgradreg",
    "Sporco.Conv.Grd.C39_convgradreg_recorded",
    "Sporco.Conv.Prj.C39_convprojl1_iterates",
    "Sporco.Conv.Grd.C39_convgradreg_iterates",
    "Sporco.Conv.TB.C39_convmask_iterates",
    "Sporco.Conv.TB.C39_convminl1_iterates",
    "Sporco.Conv.LG.C39_convl1l1grd_iterates",
    "Sporco.Conv.C39_convbpdn_iterates",
    "Sporco.Conv.C39_convelasticnet_iterates",
    "Sporco.Conv.C39_convjoint_iterates",
    "Sporco.Conv.LG.C39_convl1l1grd",
    "Sporco.Conv.LG.C39_convl1l1grd_recorded",
    "Sporco.Conv.PD.C39_C67_proddictjoint_partial",
    "Sporco.Conv.PL.C39_proddictl1_residual_refuted",
    "Sporco.Conv.PL.C39_proddictl1_residual_partial",
    "Sporco.Conv.PL.C39_proddictl1joint_residual_partial",
    "Sporco.Conv.PL.C39_C67_proddictl1_partial",
    "Sporco.Conv.PL.C39_C67_proddictl1joint_partial",
    "Sporco.Conv.PD.C39_C67_proddict",
    "Sporco.Conv.Prj.C39_convprojl1",
    "Sporco.Conv.Prj.C39_convprojl1_recorded",
    "Sporco.Conv.RTV.C39_C67_convrectv_partial",
    "Sporco.Conv.TVC.C39_C67_convvectortv_partial",
    "Sporco.Conv.TB.C39_convmask",
    "Sporco.Conv.TB.C39_convmask_recorded",
    "Sporco.Conv.TB.C39_convminl1",
    "Sporco.Conv.TB.C39_convminl1_recorded",
    "Sporco.Spline.C39_spline_iterates",
    "Sporco.Spline.C39_spline",
    "Sporco.Tv.Dec.C39_tvl2deconv",
    "Sporco.Tv.Dec.C39_tvl2deconv_exists",
    "Sporco.Tv.Dec.C39_tvl1deconv",
    "Sporco.Tv.Dec.C39_tvl1deconv_exists",
    "Sporco.Tv.Den.C39_tvl2denoise_partial",
    "Sporco.Tv.Den.C39_tvl1denoise_partial",
    "Sporco.Tv.Dec.C39_tvl2deconv_iterates",
    "Sporco.Tv.Dec.C39_tvl1deconv_iterates"
   ],
   "note": "Generic convergence with relaxation in (0,2), fixed rho, termination; instantiated end-to-end for BPDN, ElasticNet, BPDNJoint, BPDNProjL1 and ConvBPDNProjL1 (without NonNegCoef: with it the step is not a proximal step and C22_C39_projl1_nonneg_refuted shows the optimum is not reached), MinL1InL2Ball and ConvMinL1InL2Ball (when some array meets the constraint strictly), ConvBPDNMaskDcpl, ConvBPDN (incl. NonNegCoef, NoBndryCross, HighMemSolve, multi-channel), ConvElasticNet and ConvBPDNGradReg (without a cached component), ConvBPDNJoint, RobustPCA, AddMaskSim around ConvBPDN (masks with all axes of the signal), ConvL1L1Grd (signals with at least two samples along each axis), ConvBPDNVectorTV, ConvBPDNRecTV, ConvProdDictBPDN, ConvProdDictBPDNJoint (without NonNegCoef), TVL2Deconv and TVL1Deconv (objective at the returned image). TVL2Denoise and TVL1Denoise, whose X update is inexact: an even number of Jacobi passes with GSTol 0 (the default is two) is an exact step plus a positive semidefinite proximal term, so the iteration converges (C39_tvl2denoise_partial, C39_tvl1denoise_partial; missing: odd MaxGSIter, axes other than the leading ones). ConvProdDictL1L1Grd and ConvProdDictL1L1GrdJoint: the objective tends to the minimum and the primal residual to zero (C39_C67_proddictl1_partial, C39_C67_proddictl1joint_partial), but their dual residual leaves out the gradient term of the objective: it approaches mu times the norm of the gradient operator applied to X and need not tend to zero (C39_proddictl1_residual_refuted), so that part of the property fails for these two classes when mu is not 0. Convergence of X and Y themselves to one minimiser: C39_bpdn_iterates, C39_elasticnet_iterates, C39_joint_iterates, C39_projl1_iterates, C39_convbpdn_iterates, C39_convelasticnet_iterates, C39_convjoint_iterates, C39_convprojl1_iterates, C39_convgradreg_iterates, C39_convmask_iterates, C39_convminl1_iterates, C39_convl1l1grd_iterates, C39_minl1_iterates; of both variables of RobustPCA to a solution: C39_rpca_iterates; of the returned array: C39_spline_iterates, C39_tvl2deconv_iterates, C39_tvl1deconv_iterates."
  },
  {
   "property": "C40",
   "status": "partial",
   "theorems": [
    "Sporco.Admm.Bpdn.C40_bpdn_xstep",
    "Sporco.Admm.Bpdn.C40_elasticnet_xstep",
    "Sporco.Admm.Bpdn.C40_minl1_xstep",
    "Sporco.Admm.Bpdn.C40_bpdn_history",
    "Sporco.Admm.Bpdn.C40_joint_history",
    "Sporco.Admm.Bpdn.C40_projl1_history",
    "Sporco.Admm.Bpdn.C40_elasticnet_history",
    "Sporco.Admm.Cmod.C40_cmod_xstep",
    "Sporco.Admm.Cmod.C40_cmod_history",
    "Sporco.Admm.Cmod.C40_cmod_ystep",
    "Sporco.Admm.Cmod.C40_cmod_recorded",
    "Sporco.Admm.Bpdn.C40_minl1_history",
    "Sporco.Admm.Rpca.C21_C40_rpca_history",
    "Sporco.Admm.Rpca.C40_rpca_ystep",
    "Sporco.Admm.Rpca.C40_rpca_recorded",
    "Sporco.Conv.Ams.C40_addmask_reconstruct",
    "Sporco.Conv.Ams.C40_addmask_recorded",
    "Sporco.Conv.C40_convbpdn_xstep",
    "Sporco.Conv.C40_convelasticnet_xstep",
    "Sporco.Conv.C40_reconstruct",
    "Sporco.Conv.C40_convbpdn_history",
    "Sporco.Conv.C40_convjoint_history",
    "Sporco.Conv.Mod.C40_ccmod_ism",
    "Sporco.Conv.Mod.C40_ccmod_ism_history",
    "Sporco.Conv.Mod.C40_ccmod_ism_recorded",
    "Sporco.Conv.Mod.C40_ccmod_reconstruct",
    "Sporco.Conv.Mod.C40_ccmod_ism_ystep",
    "Sporco.Conv.Mod.C40_ccmod_cns",
    "Sporco.Conv.Mod.C40_ccmod_cns_history",
    "Sporco.Conv.Mod.C40_ccmod_cns_recorded",
    "Sporco.Conv.Mod.C40_ccmod_cns_ystep",
    "Sporco.Conv.Mod.C40_ccmodmd_ism",
    "Sporco.Conv.Mod.C40_ccmodmd_ism_ystep",
    "Sporco.Conv.Mod.C40_ccmodmd_ism_recorded",
    "Sporco.Conv.Mod.C40_ccmodmd_cns",
    "Sporco.Conv.Mod.C40_ccmodmd_cns_ystep",
    "Sporco.Conv.Mod.C40_ccmodmd_cns_recorded",
    "Sporco.Conv.Mod.C40_ccmod_cnstr_recorded",
    "Sporco.Conv.Grd.C40_convgradreg_xstep",
    "Sporco.Conv.LG.C40_convl1l1grd_xstep",
    "Sporco.Conv.LG.C40_C43_convl1l1grd_history",
    "Sporco.Conv.PD.C40_proddictjoint_history_partial",
    "Sporco.Conv.PD.C40_proddictjoint_recorded",
    "Sporco.Conv.PL.C40_proddictl1_xstep",
    "Sporco.Conv.PL.C40_proddictl1_reconstruct",
    "Sporco.Conv.PL.C40_proddictl1_recorded",
    "Sporco.Conv.PL.C40_proddictl1joint_recorded",
    "Sporco.Conv.PL.C40_proddictl1_history",
    "Sporco.Conv.PD.C40_proddict_setB_refuted",
    "Sporco.Conv.PD.C40_proddict_xstep",
    "Sporco.Conv.PD.C40_proddict_reconstruct",
    "Sporco.Conv.PD.C40_proddict_run",
    "Sporco.Conv.PD.C40_proddict_recorded",
    "Sporco.Conv.PD.C40_proddict_history_partial",
    "Sporco.Conv.RTV.C40_convrectv_xstep",
    "Sporco.Conv.RTV.C40_C43_convrectv_history",
    "Sporco.Conv.RTV.C40_convrectv_recorded",
    "Sporco.Conv.TVC.C40_convtv_xstep_partial",
    "Sporco.Conv.TVC.C40_convtv_xstep_refuted",
    "Sporco.Conv.TVC.C40_C43_convtv_history_partial",
    "Sporco.Conv.TVC.C40_convscalartv_recorded_partial",
    "Sporco.Conv.TVC.C40_convvectortv_recorded_partial",
    "Sporco.Conv.TVC.C40_convtv_recorded_refuted",
    "Sporco.Conv.TB.C40_twoblock_xstep",
    "Sporco.Conv.TB.C40_convmask_history",
    "Sporco.Conv.TB.C40_convminl1_history",
    "Sporco.Dictlrn.C40_convdl_reconstruct",
    "Sporco.Dictlrn.Mask.C40_maskdl_reconstruct",
    "Sporco.Spline.C33_C40_history",
    "Sporco.Tv.Dec.C40_tvl2deconv_xstep_partial",
    "Sporco.Tv.Dec.C40_deconv_nan",
    "Sporco.Tv.Dec.C40_tvl1deconv_xstep_partial",
    "Sporco.Tv.Dec.C40_deconv_ystep",
    "Sporco.Tv.Dec.C40_tvl2deconv_history_partial",
    "Sporco.Tv.Dec.C40_tvl2deconv_recorded",
    "Sporco.Tv.Dec.C40_tvl1deconv_history_partial",
    "Sporco.Tv.Dec.C40_tvl1deconv_recorded",
    "Sporco.Tv.Dec.C40_deconv_singular_refuted",
    "Sporco.Tv.Den.C40_tvl2denoise_recorded",
    "Sporco.Tv.Den.C40_tvl1denoise_recorded",
    "Sporco.Tv.Den.C40_tvdenoise_ystep"
   ],
   "note": "Unique minimiser of the augmented Lagrangian, for every state and along whole runs with automatic rho: BPDN family, CMOD, ConvBPDN family with ConvBPDNGradReg, ConvL1L1Grd (single and multi-channel), two-block convolutional classes, ConvCnstrMOD (IterSM, Consensus) and its mask-decoupled versions, TVL2Deconv and TVL1Deconv for kernels with non-zero sum and axes of length >= 2 (otherwise refuted: division by zero, C40_deconv_singular_refuted). RobustPCA (contract on the SVD). Conjugate gradient variants are not modelled. ConvBPDNScalarTV and ConvBPDNVectorTV: X update exact for multi-channel dictionaries or equal TVWeight entries, refuted otherwise (C40_convtv_xstep_refuted); recorded values exact for a scalar L1Weight, refuted for an array (C40_convtv_recorded_refuted). ConvBPDNRecTV: X update, whole runs and recorded values exact (C40_convrectv_xstep, C40_C43_convrectv_history, C40_convrectv_recorded). ConvProdDictBPDN and ConvProdDictBPDNJoint: X update exact for every history in which B is only replaced together with D (C40_proddict_history_partial, C40_proddictjoint_history_partial); refuted for setdict(B=B) alone (C40_proddict_setB_refuted). ConvProdDictL1L1Grd and ConvProdDictL1L1GrdJoint: X update, every history of setdict calls, and recorded values exact (C40_proddictl1_xstep, C40_proddictl1_history, C40_proddictl1_recorded, C40_proddictl1joint_recorded). ConvBPDNDictLearn.reconstruct after any run (C40_convdl_reconstruct). TVL2Denoise and TVL1Denoise: exact Y update (C40_tvdenoise_ystep) and recorded values (C40_tvl2denoise_recorded, C40_tvl1denoise_recorded); for their X update see C41."
  },
  {
   "property": "C41",
   "status": "partial",
   "theorems": [
    "Sporco.Tv.C41_tvl2_partial",
    "Sporco.Tv.C41_tvl1_partial",
    "Sporco.Tv.C41_xstep_partial",
    "Sporco.Tv.C41_C61_singleton_refuted",
    "Sporco.Tv.Den.C41_tvl1_xstep_partial",
    "Sporco.Tv.Den.C41_tvl2_descent",
    "Sporco.Tv.Den.C41_tvl1_descent"
   ],
   "note": "The Jacobi iteration (called GaussSeidelStep) of both denoising solvers converges from every start to the unique minimiser of the augmented Lagrangian in x, for leading axes (0..k-1) in order, lengths at least two, positive data weight and rho (C41_tvl2_partial, C41_tvl1_partial); one xstep call performs MaxIter of these or stops by the residual test (C41_xstep_partial, C41_tvl1_xstep_partial). Whatever MaxGSIter and GSTol, the X update never increases the function it should minimise (C41_tvl2_descent, C41_tvl1_descent). Missing: other axes, for which the code's transpose operator is wrong (C61), and axes of length one, where the code raises (C41_C61_singleton_refuted)."
  },
  {
   "property": "C42",
   "status": "partial",
   "theorems": [
    "Sporco.Admm.Uinit.C42_default",
    "Sporco.Admm.Uinit.C42_bpdn_partial",
    "Sporco.Admm.Uinit.C42_bpdn_weights_partial",
    "Sporco.Admm.Uinit.C42_bpdn_weights_refuted",
    "Sporco.Admm.Uinit.C42_joint_refuted",
    "Sporco.Admm.Uinit.C42_rpca_refuted",
    "Sporco.Admm.Uinit.C42_tvl2_partial",
    "Sporco.Admm.Uinit.C42_tvl2_weights_refuted",
    "Sporco.Admm.Uinit.C42_tvl2_caxis_refuted",
    "Sporco.Admm.Uinit.C42_tvl1_partial",
    "Sporco.Admm.Uinit.C42_cmod_partial",
    "Sporco.Admm.Uinit.C42_cmod_refuted",
    "Sporco.Admm.Uinit.C42_cmod_iff_partial",
    "Sporco.Admm.Uinit.C42_consensus_partial",
    "Sporco.Admm.Uinit.C42_ccmodMask_partial",
    "Sporco.Admm.Uinit.C42_projL1_partial",
    "Sporco.Admm.Uinit.C42_construct_refuted",
    "Sporco.Admm.UinitCplx.C42_tv_cplx_real",
    "Sporco.Admm.UinitCplx.C42_tv_cplx_refuted",
    "Sporco.Admm.UinitCplx.C42_tv_cplx_zero"
   ],
   "note": "Holds at the default Y, for BPDN/ElasticNet, TVL2, TVL1 with weights one, for CMOD with normalised dictionary; exact characterisation for weighted BPDN; refuted for other weights, joint sparsity, TV with channel axis, RobustPCA (wrong sign), non-normalised dictionaries; five classes raise AttributeError. Exact characterisations for the dictionary updates (plain, consensus, masked: every filter has norm one or zero) and for the l1-ball classes (initial Y in the ball).  For the complex images that the TV modules support: proved where the initial Y is real, refuted otherwise (C42_tv_cplx_refuted)."
  },
  {
   "property": "C43",
   "status": "partial",
   "theorems": [
    "Sporco.Conv.C43_convbpdn_partial",
    "Sporco.Conv.C43_default_refuted",
    "Sporco.Conv.C43_elasticnet_refuted",
    "Sporco.Conv.Grd.C43_gradreg_refuted",
    "Sporco.Conv.LG.C40_C43_convl1l1grd_history",
    "Sporco.Conv.LG.C43_convl1l1grd_refuted",
    "Sporco.Conv.PL.C43_proddictl1_refuted",
    "Sporco.Conv.PD.C43_proddict_refuted",
    "Sporco.Conv.PD.C43_proddict_partial",
    "Sporco.Conv.RTV.C40_C43_convrectv_history",
    "Sporco.Conv.TVC.C40_C43_convtv_history_partial"
   ],
   "note": "Proved for ConvBPDN constructed with rho given: any history of solve calls (auto rho, callbacks) and setdict calls gives identical visible state with and without HighMemSolve. Refuted by witness for the default rho (base class caches for rho=1) and for ConvElasticNet after a rho change and ConvBPDNGradReg after a rho change (inherited rhochange ignores mu). ConvL1L1Grd with HighMemSolve and a single-channel dictionary cannot be constructed (C43_convl1l1grd_refuted). ConvBPDNScalarTV and ConvBPDNVectorTV: exact steps along every run with automatic rho, with and without HighMemSolve (C40_C43_convtv_history_partial). ConvProdDictBPDN: proved with rho given (C43_proddict_partial), refuted for the default rho (C43_proddict_refuted). ConvProdDictL1L1Grd with HighMemSolve cannot be constructed (C43_proddictl1_refuted)."
  },
  {
   "property": "C44",
   "status": "partial",
   "theorems": [
    "Sporco.Conv.C44_ystep_partial",
    "Sporco.Conv.C44_refuted",
    "Sporco.Conv.C44_refuted_none"
   ],
   "note": "Exact for filters with >= 2 samples along every axis, any dimension; refuted for a one-sample axis, where slice(0,None) zeroes everything."
  },
  {
   "property": "C45",
   "status": "proved",
   "theorems": [
    "Sporco.Pgm.C45_bpdn",
    "Sporco.Pgm.C45_rate_backtrack",
    "Sporco.Pgm.C45_rate_robust",
    "Sporco.PgmConv.C45_C68_C69_convbpdnmask_partial",
    "Sporco.PgmConv.C45_convbpdn",
    "Sporco.Pgm.C45_rate",
    "Sporco.Pgm.C45_rate_linear",
    "Sporco.Pgm.C45_rate_genLinear",
    "Sporco.Pgm.C45_weightedbpdn"
   ],
   "note": "C45_rate: the claimed bound for every convex problem (smooth part with curvature bound, convex part with exact proximal map on a convex set), with or without Monotone. C45_bpdn: the same stated for pgm.bpdn.BPDN in terms of matrices. C45_weightedbpdn: for WeightedBPDN. C45_convbpdn: for pgm.cbpdn.ConvBPDN in terms of convolutions, and for ConvBPDNMask in C45_C68_C69_convbpdnmask_partial (suffix because of C69). Also linear and generalised linear momentum, standard backtracking (any initial L) and robust backtracking (while the recorded line searches succeed)."
  },
  {
   "property": "C46",
   "status": "partial",
   "theorems": [
    "Sporco.Pgm.C46_standard",
    "Sporco.Pgm.C46_standard_mono",
    "Sporco.Pgm.C46_standard_smooth",
    "Sporco.Pgm.C46_robust",
    "Sporco.Pgm.C46_robust_smooth",
    "Sporco.PgmConv.C46_dft_refuted",
    "Sporco.PgmConv.C46_dft_partial",
    "Sporco.PgmConv.C46_dft_smooth_partial",
    "Sporco.PgmConv.C46_dft_robust_partial",
    "Sporco.PgmConv.C46_dft_robust_smooth_partial",
    "Sporco.PgmConv.C46_convbpdn_partial",
    "Sporco.PgmConv.C46_convbpdn_robust_partial"
   ],
   "note": "For any problem class in the spatial domain: the exact end condition of both searches, recorded F/Q/iteration count; smooth case: bound on number of increases, acceptance, L <= max(L, gamma_u Lf). DFT-domain classes: the same for the half-spectrum functions the code uses (C46_dft_partial, C46_convbpdn_partial for the standard search, C46_dft_robust_partial, C46_dft_robust_smooth_partial, C46_convbpdn_robust_partial for the robust one); their test uses unweighted half-spectrum sums and the claim about the data fidelity term fails (C46_dft_refuted)."
  },
  {
   "property": "C47",
   "status": "partial",
   "theorems": [
    "Sporco.Dictlrn.C47_C70_learning_refuted",
    "Sporco.Pgm.C47_partial",
    "Sporco.Pgm.C47_recorded_partial",
    "Sporco.Pgm.C47_convex_partial",
    "Sporco.Pgm.C47_refuted",
    "Sporco.Pgm.C47_dft_recorded_partial",
    "Sporco.Pgm.C47_dft_refuted"
   ],
   "note": "False in general: the first iteration is not guarded and its objective is reported as that of the starting point (C47_refuted); solvers in the DFT domain return the rejected iterate even with a valid step parameter (C47_dft_refuted). Proved: no increase for convex problems with L >= Lf from a feasible point; no increase for any problem and any options once the recorded objective is current; recorded values never increase (PGM and PGMDFT). In dictionary learning the comparison is with the objective for an earlier dictionary, so sparse coding can increase its functional even with a valid step parameter (C47_C70_learning_refuted)."
  },
  {
   "property": "C48",
   "status": "partial",
   "theorems": [
    "Sporco.Pgm.C48_nesterov",
    "Sporco.Pgm.C48_linear",
    "Sporco.Pgm.C48_genLinear_partial",
    "Sporco.Pgm.C48_genLinear_refuted",
    "Sporco.Pgm.C48_genLinear_small_refuted"
   ],
   "note": "Nesterov and Linear (b >= 2) as claimed. GenLinear violates the condition in its first step with default parameters, and t<1 for documented a >= b-1; proved for a >= b >= 2 from the second step."
  },
  {
   "property": "C49",
   "status": "partial",
   "theorems": [
    "Sporco.Pgm.C49_cauchy_partial",
    "Sporco.Pgm.C49_cauchy_zero_refuted",
    "Sporco.Pgm.C49_bb_partial",
    "Sporco.Pgm.C49_bpdn_cauchy_partial",
    "Sporco.Pgm.C49_weighted_refuted",
    "Sporco.Pgm.C49_bb_refuted",
    "Sporco.PgmConv.C49_convbpdn_cauchy_partial",
    "Sporco.PgmConv.C49_mask_refuted"
   ],
   "note": "Cauchy: proved when hessian_f is the Hessian and the gradient is not zero (NaN at zero); BPDN and ConvBPDN in terms of singular values of the dictionary operator. WeightedBPDN and ConvBPDNMask inherit a Hessian without weights (refuted). Barzilai-Borwein: proved when gradient differences belong to the point differences; in the solver gradients are at Y and points are X, so the claim fails in a run on x^2/2 (refuted)."
  },
  {
   "property": "C50",
   "status": "partial",
   "theorems": [
    "Sporco.Pgm.C50_solve_partial",
    "Sporco.Pgm.C50_callback_view",
    "Sporco.Pgm.C50_stop_condition",
    "Sporco.Pgm.C50_stats_partial",
    "Sporco.Pgm.C50_numbering_partial",
    "Sporco.Pgm.C50_classes_number",
    "Sporco.Pgm.C50_fast",
    "Sporco.Pgm.C50_resume_partial",
    "Sporco.Pgm.C50_split",
    "Sporco.Pgm.C50_zero_refuted"
   ],
   "note": "For all classes, callbacks and tolerances with MaxMainIter >= 1; MaxMainIter = 0 advances the iteration counter without an iteration (C50_zero_refuted)."
  },
  {
   "property": "C51",
   "status": "partial",
   "theorems": [
    "Sporco.Pgm.C51_bpdn",
    "Sporco.Pgm.C51_cmod",
    "Sporco.Pgm.C51_weighted_bpdn_partial",
    "Sporco.Pgm.C51_weighted_cmod_partial",
    "Sporco.Pgm.C51_weighted_bpdn_refuted",
    "Sporco.Pgm.C51_weighted_cmod_refuted",
    "Sporco.PgmConv.C51_convbpdn",
    "Sporco.PgmConv.C51_convbpdn_spatial",
    "Sporco.PgmConv.C51_convbpdnmask_spatial_partial",
    "Sporco.PgmConv.C51_convcnstrmod",
    "Sporco.PgmConv.C51_convcnstrmod_spatial",
    "Sporco.PgmConv.C51_convcnstrmodmask_spatial_partial",
    "Sporco.PgmConv.C51_mask_obfn_refuted",
    "Sporco.PgmConv.C51_mask_hessian_refuted",
    "Sporco.PgmConv.C51_dictmask_obfn_refuted",
    "Sporco.PgmConv.C51_dictmask_hessian_refuted"
   ],
   "note": "BPDN, CnstrMOD, ConvBPDN, ConvCnstrMOD: gradient and Hessian, in the DFT domain and as gradient of the spatial functional. WeightedBPDN, WeightedCnstrMOD, ConvBPDNMask, ConvCnstrMODMask: gradient proved, hessian_f (and obfn_f of the masked classes) refuted."
  },
  {
   "property": "C52",
   "status": "proved",
   "theorems": [
    "Sporco.Par.Cns.C52_step",
    "Sporco.Par.Cns.C52_granularity",
    "Sporco.Par.Cns.C52_solve",
    "Sporco.Par.CnsMask.C52_mask_step",
    "Sporco.Par.CnsMask.C52_mask_granularity",
    "Sporco.Par.CnsMask.C52_mask_solve"
   ],
   "note": "Statement-level model of the tasks on shared arrays, for both classes, with all numerical functions as parameters; any merge of the statements (or of any refinement of them into operations on the task's slices and private temporaries) equals the loop of nproc = 0, per step and for complete solve() runs."
  },
  {
   "property": "C53",
   "status": "proved",
   "theorems": [
    "Sporco.Par.C53_groups",
    "Sporco.Par.C53_groups_raise",
    "Sporco.Par.PCbpdn.C53_distribute",
    "Sporco.Par.PCbpdn.C53_solve",
    "Sporco.Par.PCbpdn.C53_y0step",
    "Sporco.Par.PCbpdn.C53_convergence",
    "Sporco.Par.PCbpdn.C53_slices",
    "Sporco.Par.PCbpdn.C53_xstep"
   ],
   "note": "Shared arrays with the statements of each worker as separate atomic operations; every interleaving of every call of distribute gives the arrays of the sequential loop (C53_distribute, C53_solve). Groups: C53_groups, C53_groups_raise (more groups than filters: ValueError), C53_slices. X update per group and Y0 update are exact minimisers; the objective at the returned array tends to the minimum (C53_convergence) for single-channel dictionaries, any mask and any schedule."
  },
  {
   "property": "C54",
   "status": "proved",
   "theorems": [
    "Sporco.Dictlrn.C54_feasible",
    "Sporco.Dictlrn.C54_steps"
   ],
   "note": "Any sparse coding solver, any sequence of successful calls (varying sizes, masks): C54_feasible (dictionary in the constraint set after construction and after every call), C54_steps (consecutive numbering, step sizes eta_a/(j+eta_b), not summable, square summable). CUDA variants, display and timing are not modelled."
  },
  {
   "property": "C55",
   "status": "partial",
   "theorems": [
    "Sporco.Dictlrn.C55_alternation",
    "Sporco.Dictlrn.C55_numbering_partial",
    "Sporco.Dictlrn.C55_callback",
    "Sporco.Dictlrn.C55_fields",
    "Sporco.Dictlrn.C55_configuration",
    "Sporco.Dictlrn.C55_numbering_refuted",
    "Sporco.Dictlrn.C55_convdl_update",
    "Sporco.Dictlrn.Mask.C55_maskdl_update_partial",
    "Sporco.Dictlrn.C55_bpdndl_update",
    "Sporco.Dictlrn.C55_wbpdndl_update"
   ],
   "note": "Arbitrary sub-solver objects, callbacks and sequences of calls: C55_alternation, C55_callback (how long a call runs), C55_fields (source of every field), C55_configuration (tables of dictlrn/common.py: every field filled, every displayed column recorded, for all methods and options). Numbering: C55_numbering_partial (no call with MaxMainIter 0), C55_numbering_refuted (MaxMainIter 0 advances the counter). The callback decides to stop but does not modify the object. For the concrete classes, the coefficients seen by the dictionary update show in the data fidelity it records: C55_convdl_update, C55_maskdl_update_partial (not with AuxVarObj), C55_bpdndl_update, C55_wbpdndl_update."
  },
  {
   "property": "C56",
   "status": "partial",
   "theorems": [
    "Sporco.Metric.C56_zero_iff_equal",
    "Sporco.Metric.C56_metric_laws",
    "Sporco.Metric.C56_snr_invariant",
    "Sporco.Metric.C56_psnr_invariant",
    "Sporco.Metric.C56_psnr_default_invariant",
    "Sporco.Metric.C56_isnr",
    "Sporco.Metric.C56_isnr_constant",
    "Sporco.Metric.C56_psnr_antitone",
    "Sporco.Metric.C56_bsnr_invariant",
    "Sporco.Metric.C56_pamse_identical_partial",
    "Sporco.Metric.C56_gmsd_identical_partial",
    "Sporco.Metric.C56_quality_map",
    "Sporco.Metric.C56_zero_image_refuted"
   ],
   "note": "isnr identity for every non-constant reference, with infinities and NaN; mae/mse zero iff equal plus symmetry, triangle inequality and Jensen; snr/psnr/bsnr invariance; pamse/gmsd zero on identical images unless the image maximum is 0 with rescale=True (C56_zero_image_refuted: NaN). Filters of pamse/gmsd are arbitrary (linear) maps; integer overflow in the default psnr range of narrow signed types is not modelled."
  },
  {
   "property": "C57",
   "status": "proved",
   "theorems": [
    "Sporco.Interp.C57_lstabsdev",
    "Sporco.Interp.C57_lstabsdev_complete",
    "Sporco.Interp.C57_lstmaxdev",
    "Sporco.Interp.C57_lstmaxdev_complete",
    "Sporco.Interp.C57_lstabsdev_solvable",
    "Sporco.Interp.C57_lstmaxdev_solvable"
   ],
   "note": "The LP solver is taken at its contract (returns an optimal point on success). Optimal points correspond to minimisers, both directions, and exist for every system (with at least one equation for lstmaxdev)."
  },
  {
   "property": "C58",
   "status": "partial",
   "theorems": [
    "Sporco.Linalg.Inner.C58_inner_partial",
    "Sporco.Linalg.Inner.C58_dot",
    "Sporco.Linalg.Inner.C58_inner_refuted",
    "Sporco.Linalg.C58_rrs",
    "Sporco.Linalg.C58_valid_adjoint",
    "Sporco.Linalg.C58_valid_adjoint_all"
   ],
   "note": "rrs, valid_adjoint and dot complete; inner equals np.sum(x*y, axis, keepdims=True) for arrays of equal rank with broadcasting (C58_inner_partial); with different ranks it silently returns a different result (C58_inner_refuted)."
  },
  {
   "property": "C59",
   "status": "proved",
   "theorems": [
    "Sporco.Cnvrep.C59_l1_partial",
    "Sporco.Cnvrep.C59_l1_scalar",
    "Sporco.Cnvrep.C59_l1_signal_refuted",
    "Sporco.Cnvrep.C59_l1_channel_refuted",
    "Sporco.Cnvrep.C59_mask",
    "Sporco.Cnvrep.C59_mask_one",
    "Sporco.Conv.Ams.C39_C59_addmask_partial",
    "Sporco.Conv.Ams.C59_addmask_broadcast_refuted",
    "Sporco.Tv.Dec.C59_tvweight_caxis_refuted"
   ],
   "note": "Masks: complete. Weights: proved if the signal has no signal axis without a channel axis and, for multi-channel dictionaries, the weights do not vary over channels; both excluded cases are refuted. TV weight arrays with a channel axis: refuted (C59_tvweight_caxis_refuted); without channel axis or with scalar weights the recorded values are right (C40_tvl2deconv_recorded, C40_tvl1deconv_recorded). AddMaskSim: right for masks with all axes of the signal (C39_C59_addmask_partial), refuted for masks that have to be broadcast (C59_addmask_broadcast_refuted)."
  },
  {
   "property": "C60",
   "status": "proved",
   "theorems": [
    "Sporco.Linalg.C60_pca"
   ],
   "note": "svd is a parameter with its documented contract; a routine meeting it for all matrices exists (svdCorrect_exists)."
  },
  {
   "property": "C61",
   "status": "proved",
   "theorems": [
    "Sporco.Conv.PL.C61_proddictl1",
    "Sporco.Conv.RTV.C61_convtv",
    "Sporco.Conv.RTV.C61_convrectv_partial",
    "Sporco.Conv.RTV.C61_convrectv_refuted",
    "Sporco.Tv.Dec.C61_deconv_partial",
    "Sporco.Tv.Dec.C61_deconv_short_refuted",
    "Sporco.Tv.C61_tvl2_partial",
    "Sporco.Tv.C61_tvl1_partial",
    "Sporco.Tv.C41_C61_singleton_refuted",
    "Sporco.Tv.C61_missing_refuted",
    "Sporco.Tv.C61_order_refuted",
    "Sporco.Tv.C61_tvl1_refuted"
   ],
   "note": "Denoising: adjointness holds for leading axes in order with lengths at least two; refuted for axes=(1,) (raises), axes=(1,0), and TVL1 axes=(1,) (silently wrong). Deconvolution: operators are the circular differences and their adjoint for axes of length at least two (C61_deconv_partial); refuted for length one. ConvBPDNScalarTV, ConvBPDNVectorTV: adjoint (C61_convtv); ConvBPDNRecTV: for single-channel dictionaries (C61_convrectv_partial), refuted for multi-channel ones (C61_convrectv_refuted). ConvProdDictL1L1Grd: cnst_A0T is the adjoint of cnst_A0 (C61_proddictl1)."
  },
  {
   "property": "C62",
   "status": "partial",
   "theorems": [
    "Sporco.Par.Cns.C62_serial_partial",
    "Sporco.Par.Cns.C62_options_refuted",
    "Sporco.Par.Cns.C62_feasible",
    "Sporco.Par.CnsMask.C62_mask_serial_partial",
    "Sporco.Par.CnsMask.C62_mask_feasible",
    "Sporco.Par.Cns.C62_objects_partial",
    "Sporco.Par.CnsMask.C62_mask_objects_partial"
   ],
   "note": "Equality with the sequential alternation proved for L1Weight = 1 without NonNegCoef/NoBndryCross (the only options the parallel code implements); refuted for L1Weight and NonNegCoef, which the parallel classes ignore. Feasibility proved for all runs with at least one iteration. C62_objects_partial and C62_mask_objects_partial: with one inner iteration and fixed penalty parameters the arrays that the parallel class keeps, and what getdict and getcoef return, agree with the objects of the sequential class after every number of iterations."
  },
  {
   "property": "C63",
   "status": "partial",
   "theorems": [
    "Sporco.Par.Globals.C63_last_partial",
    "Sporco.Par.Globals.C63_isolation_refuted"
   ],
   "note": "Refuted: state is in module globals. Proved for programs that only call methods of the object constructed last."
  },
  {
   "property": "C64",
   "status": "partial",
   "theorems": [
    "Sporco.Par.PCbpdn.C64_pipeline_partial",
    "Sporco.Par.PCbpdn.C64_residual_partial",
    "Sporco.Par.PCbpdn.C64_pipeline_refuted",
    "Sporco.Par.PCbpdn.C64_residual_refuted"
   ],
   "note": "C64_pipeline_partial: holds for sequences of calls none of which starts at iteration 257 (calls of at least one iteration, any stopping decisions). C64_pipeline_refuted: 257 + 1 iterations differ from 258 (integers compared with `is`). C64_residual_partial: holds for the last iteration of a call; C64_residual_refuted: the recorded residual of the second iteration is 0 or 1/8 depending on MaxMainIter."
  },
  {
   "property": "C65",
   "status": "partial",
   "theorems": [
    "Sporco.Dictlrn.C65_gradient_partial",
    "Sporco.Dictlrn.C65_statistics_partial",
    "Sporco.Dictlrn.C65_batch_refuted",
    "Sporco.Dictlrn.C65_channels_refuted",
    "Sporco.Dictlrn.C65_mask_refuted"
   ],
   "note": "C65_gradient_partial: signals with as many channels as the dictionary, constant batch size over the history, mask entries 0/1. Refuted otherwise: C65_batch_refuted (batch of 1 after a batch of 2), C65_channels_refuted (single-channel dictionary, two-channel signal), C65_mask_refuted (mask value 2). C65_statistics_partial: the recorded step number, step size, norm of the change and distance from the projection, under the same conditions."
  },
  {
   "property": "C66",
   "status": "partial",
   "theorems": [
    "Sporco.Conv.Multi.C66_multidict",
    "Sporco.Conv.Multi.C66_construct",
    "Sporco.Conv.Multi.C66_channels_refuted",
    "Sporco.Conv.Multi.C66_reconstruct_refuted",
    "Sporco.Conv.Multi.C66_reconstruct_partial"
   ],
   "note": "Convergence to the minimum of the documented sum and accepted shapes proved for dictionaries without a channel axis. Dictionaries with a channel axis are refused for every shape (C66_channels_refuted: signals are concatenated along the wrong axis), and reconstruct raises NameError on every call (C66_reconstruct_refuted: rfftn is not imported); with the import it would return D_b x (C66_reconstruct_partial)."
  },
  {
   "property": "C67",
   "status": "partial",
   "theorems": [
    "Sporco.Conv.PD.C39_C67_proddictjoint_partial",
    "Sporco.Conv.PL.C39_C67_proddictl1_partial",
    "Sporco.Conv.PL.C39_C67_proddictl1joint_partial",
    "Sporco.Conv.PD.C39_C67_proddict",
    "Sporco.Conv.RTV.C67_convrectv_block_refuted",
    "Sporco.Conv.RTV.C67_convrectv_refuted",
    "Sporco.Conv.RTV.C39_C67_convrectv_partial",
    "Sporco.Conv.TVC.C67_convscalartv_refuted",
    "Sporco.Conv.TVC.C39_C67_convvectortv_partial",
    "Sporco.Conv.TVC.C67_convscalartv_partial",
    "Sporco.Tv.Den.C67_tvl2denoise_partial",
    "Sporco.Tv.Den.C67_tvl1denoise_partial",
    "Sporco.Tv.Den.C67_tvl2denoise_limit",
    "Sporco.Tv.Den.C67_tvl1denoise_limit",
    "Sporco.Admm.Bpdn.C39_bpdn",
    "Sporco.Admm.Bpdn.C39_elasticnet",
    "Sporco.Admm.Bpdn.C39_joint",
    "Sporco.Admm.Bpdn.C39_projl1",
    "Sporco.Admm.Bpdn.C39_minl1",
    "Sporco.Conv.C39_convbpdn",
    "Sporco.Conv.C39_convelasticnet",
    "Sporco.Conv.C39_convjoint",
    "Sporco.Conv.Grd.C39_convgradreg",
    "Sporco.Conv.Prj.C39_convprojl1",
    "Sporco.Conv.TB.C39_convmask",
    "Sporco.Conv.TB.C39_convminl1",
    "Sporco.Conv.LG.C39_convl1l1grd",
    "Sporco.Admm.Rpca.C39_rpca",
    "Sporco.Tv.Dec.C39_tvl2deconv",
    "Sporco.Tv.Dec.C39_tvl1deconv",
    "Sporco.Spline.C39_spline",
    "Sporco.Conv.Ams.C39_C59_addmask_partial",
    "Sporco.Admm.Bpdn.C22_C39_projl1_nonneg_refuted"
   ],
   "note": "Proved class by class for BPDN, ElasticNet, BPDNJoint, BPDNProjL1, MinL1InL2Ball, ConvBPDN, ConvElasticNet, ConvBPDNJoint, ConvBPDNGradReg, ConvBPDNProjL1, ConvBPDNMaskDcpl, ConvMinL1InL2Ball, ConvL1L1Grd, ConvBPDNVectorTV (equal TVWeight entries or multi-channel dictionaries), ConvBPDNRecTV (single-channel dictionaries, one signal, or as many signals as channels), RobustPCA, TVL2Deconv, TVL1Deconv, SplineL1 and AddMaskSim, under the conditions in each theorem. Refuted for ConvBPDNScalarTV (C67_convscalartv_refuted: prox_l2 is called without an axis, so the class solves another problem, C67_convscalartv_partial), for ConvBPDNRecTV with a multi-channel dictionary and other numbers of signals (C67_convrectv_refuted: a block of Y is never updated) and for the l1 ball with NonNegCoef (C22_C39_projl1_nonneg_refuted). ConvProdDictBPDN and ConvProdDictBPDNJoint (without NonNegCoef) and both L1L1Grd classes of admm/pdcsc.py are covered; for cbpdnin.py and ppp.py, which minimise no documented functional, see C72 and C73. TVL2Denoise and TVL1Denoise: minimum reached with an even MaxGSIter and GSTol 0, the defaults (C67_tvl2denoise_partial, C67_tvl1denoise_partial); for any MaxGSIter and GSTol every limit of the iterates is a minimiser (C67_tvl2denoise_limit, C67_tvl1denoise_limit)."
  },
  {
   "property": "C68",
   "status": "partial",
   "theorems": [
    "Sporco.Pgm.C68_bpdn_partial",
    "Sporco.Pgm.C68_partial",
    "Sporco.Pgm.C68_solve_partial",
    "Sporco.Pgm.C68_monotone_linear_refuted",
    "Sporco.Pgm.C68_monotone_refuted",
    "Sporco.Pgm.C68_robust_refuted",
    "Sporco.PgmConv.C68_convbpdn_partial",
    "Sporco.PgmConv.C45_C68_C69_convbpdnmask_partial",
    "Sporco.Pgm.C68_weightedbpdn_partial"
   ],
   "note": "C68_partial: every convex problem, momentum, step size policy, without line search or with the standard one, every callback (which may change the solver), every iteration. C68_solve_partial: the value solve() returns. C68_bpdn_partial, C68_weightedbpdn_partial, C68_convbpdn_partial, C45_C68_C69_convbpdnmask_partial: the classes, in terms of matrices and convolutions. Refuted with Monotone (C68_monotone_refuted, C68_monotone_linear_refuted) and with the robust line search (C68_robust_refuted). Nothing is recorded with FastSolve. In the DFT classes the recorded number is the square of the length of the step."
  },
  {
   "property": "C69",
   "status": "partial",
   "theorems": [
    "Sporco.Pgm.C69_bpdn_partial",
    "Sporco.PgmConv.C69_convbpdn_partial",
    "Sporco.PgmConv.C45_C68_C69_convbpdnmask_partial",
    "Sporco.Pgm.C69_residual_partial",
    "Sporco.Pgm.C69_partial",
    "Sporco.Pgm.C69_linear_partial",
    "Sporco.Pgm.C69_genLinear_partial",
    "Sporco.Pgm.C69_weightedbpdn_partial"
   ],
   "note": "C69_partial: every convex problem with a solution, the default momentum, a fixed L not below the Lipschitz constant (with or without Monotone) or the standard line search with enough passes; without AutoStop and FastSolve. C69_linear_partial: the same for linear momentum with b >= 2. C69_genLinear_partial: generalised linear momentum with a >= b >= 2 and fixed L. C69_bpdn_partial, C69_weightedbpdn_partial, C69_convbpdn_partial, C45_C68_C69_convbpdnmask_partial: the classes. Missing: the step size policies (for which C49 shows that L may be too small), the robust line search, the line search in the DFT domain (whose test uses a different function, C46_dft_refuted)."
  },
  {
   "property": "C70",
   "status": "partial",
   "theorems": [
    "Sporco.Dictlrn.C70_convdl_accurate_partial",
    "Sporco.Dictlrn.C70_convdl_estimate_partial",
    "Sporco.Dictlrn.C70_convdl_returnx_refuted",
    "Sporco.Dictlrn.C70_convdl_weight_refuted",
    "Sporco.Dictlrn.Mask.C70_maskdl_accurate_partial",
    "Sporco.Dictlrn.Mask.C70_maskdl_estimate_partial",
    "Sporco.Dictlrn.Mask.C70_maskdl_returnvar_refuted",
    "Sporco.Dictlrn.Mask.C70_maskdl_weight_refuted",
    "Sporco.Dictlrn.C70_bpdndl_accurate",
    "Sporco.Dictlrn.C70_bpdndl_estimate",
    "Sporco.Dictlrn.C47_C70_learning_refuted",
    "Sporco.Dictlrn.C70_wbpdndl_accurate",
    "Sporco.Dictlrn.C70_wbpdndl_estimate_partial"
   ],
   "note": "BPDNDictLearn: C70_bpdndl_accurate, C70_bpdndl_estimate (every input, option value, sequence of solve calls and callbacks). WeightedBPDNDictLearn: C70_wbpdndl_accurate and, without Monotone, C70_wbpdndl_estimate_partial. False with Monotone: the recorded value can be the objective of an earlier dictionary (C47_C70_learning_refuted). ConvBPDNDictLearn, every xmethod and dmethod: C70_convdl_accurate_partial (not ReturnX; zero mean only with dimN=2; the l1 term is unweighted), C70_convdl_estimate_partial (not Monotone). False with ReturnX (C70_convdl_returnx_refuted); with AccurateDFid the option L1Weight is ignored (C70_convdl_weight_refuted). ConvBPDNMaskDictLearn, every xmethod and dmethod: C70_maskdl_accurate_partial (default ReturnVar; zero mean only with dimN=2; unweighted l1 term), C70_maskdl_estimate_partial (not AuxVarObj, not Monotone). False with ReturnVar 'X' (C70_maskdl_returnvar_refuted); L1Weight is ignored with AccurateDFid (C70_maskdl_weight_refuted)."
  },
  {
   "property": "C71",
   "status": "partial",
   "theorems": [
    "Sporco.Dictlrn.C71_convdl_partial",
    "Sporco.Dictlrn.C71_convdl_zeromean_refuted",
    "Sporco.Dictlrn.Mask.C71_maskdl_partial",
    "Sporco.Dictlrn.C71_bpdndl",
    "Sporco.Dictlrn.C71_wbpdndl"
   ],
   "note": "BPDNDictLearn (C71_bpdndl), WeightedBPDNDictLearn (C71_wbpdndl), ConvBPDNDictLearn and ConvBPDNMaskDictLearn (C71_convdl_partial, C71_maskdl_partial, every xmethod and dmethod): every input, option value, sequence of solve calls and callbacks. False for ZeroMean with dimN=1 (C71_convdl_zeromean_refuted)."
  },
  {
   "property": "C72",
   "status": "partial",
   "theorems": [
    "Sporco.Admm.Ppp.C72_ppp",
    "Sporco.Admm.Ppp.C72_ppp_optimal",
    "Sporco.Admm.Ppp.C72_pppconsensus",
    "Sporco.Admm.Ppp.C72_pppconsensus_mace",
    "Sporco.Admm.Ppp.C72_pppconsensus_optimal",
    "Sporco.Pgm.Ppp.C72_pgm_rate",
    "Sporco.Pgm.Ppp.C72_pgm_recorded",
    "Sporco.Pgm.Ppp.C72_pgm_monotone_refuted"
   ],
   "note": "Convergence for AutoRho off (the equilibrium depends on rho) and finite dimensional arrays: PPP (C72_ppp, C72_ppp_optimal) and PPPConsensus (C72_pppconsensus, _mace without proxg, _optimal). PGM version: rate with the default options (C72_pgm_rate) and recorded values (C72_pgm_recorded); false with Monotone (C72_pgm_monotone_refuted)."
  },
  {
   "property": "C73",
   "status": "partial",
   "theorems": [
    "Sporco.Conv.Inhib.C73_off",
    "Sporco.Conv.Inhib.C73_weights",
    "Sporco.Conv.Inhib.C73_updates",
    "Sporco.Conv.Inhib.C73_recorded",
    "Sporco.Conv.Inhib.C73_limit",
    "Sporco.Conv.Inhib.C73_window",
    "Sporco.Conv.Inhib.C73_constructor",
    "Sporco.Conv.Inhib.C73_window_refuted",
    "Sporco.Conv.Inhib.C73_groups_refuted"
   ],
   "note": "Weights (C73_weights), updates (C73_updates), recorded values (C73_recorded), limit of a convergent run with AutoRho off (C73_limit), no inhibition (C73_off) and the window (C73_window), for groups given by a 0/1 matrix. The window is not symmetric with the default window function (C73_window_refuted), and group weights other than 0 and 1 make a filter inhibit itself with a negative weight (C73_groups_refuted). That a run converges is not proved: the weights make the problem non-convex."
  },
  {
   "property": "C74",
   "status": "proved",
   "theorems": [
    "Sporco.Interp.C74_kernel",
    "Sporco.Interp.C74_divisor",
    "Sporco.Interp.C74_filter_sum",
    "Sporco.Interp.C74_filter_mirror",
    "Sporco.Interp.C74_filter_sample",
    "Sporco.Interp.C74_points",
    "Sporco.Interp.C74_points_nozero",
    "Sporco.Interp.C74_filters",
    "Sporco.Interp.C74_collapse"
   ],
   "note": "Real arithmetic. The divisor is shown to be positive for every kernel size and every point of [-1, 1]."
  },
  {
   "property": "C75",
   "status": "partial",
   "theorems": [
    "Sporco.Interp.C75_demosaic_partial",
    "Sporco.Interp.C75_bilinear_refuted"
   ],
   "note": "SciPy's RectBivariateSpline and griddata are parameters with contracts (interpolation, exceptions, reproduction of cubics; nan outside the hull, barycentric values), shown satisfiable in DemosaicLib. Samples, absence of nan, range of the green channel and corners are proved; bilinearity of red and blue is refuted and images smaller than 8 by 8 raise."
  },
  {
   "property": "C76",
   "status": "partial",
   "theorems": [
    "Sporco.Par.Cns.C76_recorded_partial",
    "Sporco.Par.CnsMask.C76_mask_recorded_partial"
   ],
   "note": "Both parallel classes, real data, every schedule, sequence of solve calls and callback. The zero mean constraint only with two spatial axes (for others the projection is refuted under C34)."
  },
  {
   "property": "C77",
   "status": "proved",
   "theorems": [
    "Sporco.Options.Learn.C77_independent",
    "Sporco.Options.Learn.C77_shape",
    "Sporco.Options.Learn.C77_initial",
    "Sporco.Options.Learn.C77_assign"
   ],
   "note": "Solver option trees are parameters (any well-formed trees). Which exception is raised, as opposed to whether one is raised, is not part of the independence statement. Pickling support (dynamic class names) is not modelled."
  },
  {
   "property": "C78",
   "status": "partial",
   "theorems": [
    "Sporco.Signal.Noise.C78_spnoise",
    "Sporco.Signal.Noise.C78_rndmask_partial",
    "Sporco.Signal.Noise.C78_rndmask_refuted",
    "Sporco.Signal.Noise.C78_rgb2gray_partial",
    "Sporco.Signal.Noise.C78_rgb2gray_refuted"
   ],
   "note": "spnoise proved for every draw. rndmask and rgb2gray are as described for floating point types only; the integer and Boolean cases are refuted with witnesses, as is a draw that equals the fraction exactly. The random generator is a parameter (uniform draws)."
  },
  {
   "property": "C79",
   "status": "proved",
   "theorems": [
    "Sporco.Util.Tile.C79_tiles"
   ],
   "note": "Includes the grid shape (room for every atom). A constant dictionary divides by zero and is excluded by hypothesis. The reshape of a two-dimensional dictionary is the definition from2d."
  },
  {
   "property": "C80",
   "status": "partial",
   "theorems": [
    "Sporco.Cnvrep.C80_roles_partial",
    "Sporco.Cnvrep.C80_squeeze_refuted"
   ],
   "note": "C80_roles_partial: no filter axis and not the number of filters is one (and a single-channel dictionary is declared without channel axis, or dimK is given, or the signal has both or neither of the optional axes). C80_squeeze_refuted: exactly one of these sizes is one."
  },
  {
   "property": "C81",
   "status": "partial",
   "theorems": [
    "Sporco.Pgm.C81_share_partial",
    "Sporco.Pgm.C81_robust_refuted",
    "Sporco.Pgm.C81_bb_partial",
    "Sporco.Pgm.C81_bb_refuted"
   ],
   "note": "Proved for all options without the robust line search and without the Barzilai-Borwein policy, and with the latter for solvers solved once each. Refuted for the robust line search (two solvers, one call each) and for alternating calls with the Barzilai-Borwein policy. Shown for class PGM, without a callback."
  },
  {
   "property": "C82",
   "status": "proved",
   "theorems": [
    "Sporco.Alias.C82_inputs"
   ],
   "note": "For admm BPDN, ConvBPDN, ConvCnstrMOD_IterSM, ConvMinL1InL2Ball, ConvCnstrMOD_Consensus, pgm BPDN, ConvBPDN and ConvBPDNMask, OnlineConvBPDNDictLearn. Library calls are taken not to write to their arguments; a callback does not write."
  },
  {
   "property": "C83",
   "status": "partial",
   "theorems": [
    "Sporco.Alias.C83_snapshot_partial",
    "Sporco.Alias.C83_live",
    "Sporco.Alias.C83_snapshot_refuted"
   ],
   "note": "Proved for admm BPDN, ConvBPDN, ConvCnstrMOD_IterSM, ConvMinL1InL2Ball and pgm BPDN. Refuted for ConvCnstrMOD_Consensus, the convolutional proximal gradient classes and online learning, which return the array they work on (C83_live)."
  },
  {
   "property": "C84",
   "status": "proved",
   "theorems": [
    "Sporco.Admm.Bpdn.C84_bpdn",
    "Sporco.Admm.Bpdn.C84_elasticnet",
    "Sporco.Admm.Bpdn.C84_joint",
    "Sporco.Conv.C84_convbpdn",
    "Sporco.Conv.C84_convelasticnet",
    "Sporco.PgmConv.C84_pgm_convbpdn",
    "Sporco.PgmConv.C84_pgm_convbpdnmask",
    "Sporco.Pgm.C84_pgm_bpdn",
    "Sporco.Pgm.C84_pgm_wbpdn"
   ],
   "note": "For admm BPDN, ElasticNet, BPDNJoint (there also a common rotation of atoms and signals), ConvBPDN, ConvElasticNet and pgm BPDN, WeightedBPDN, ConvBPDN, ConvBPDNMask, in exact arithmetic. ConvElasticNet without cached components of the linear solver."
  },
  {
   "property": "C85",
   "status": "proved",
   "theorems": [
    "Sporco.Admm.Bpdn.C85_bpdn",
    "Sporco.Admm.Bpdn.C85_elasticnet",
    "Sporco.Admm.Bpdn.C85_bpdnprojl1",
    "Sporco.Admm.Bpdn.C85_minl1",
    "Sporco.Conv.C85_convbpdn",
    "Sporco.Conv.C85_convelasticnet",
    "Sporco.Conv.C85_convbpdnjoint",
    "Sporco.Pgm.C85_pgm_bpdn",
    "Sporco.Pgm.C85_pgm_wbpdn",
    "Sporco.Pgm.C85_stopping_refuted",
    "Sporco.PgmConv.C85_pgm_convbpdn",
    "Sporco.PgmConv.C85_pgm_convbpdnmask"
   ],
   "note": "For admm BPDN, ElasticNet, BPDNProjL1, MinL1InL2Ball, ConvBPDN, ConvElasticNet, ConvBPDNJoint and pgm BPDN, WeightedBPDN, ConvBPDN, ConvBPDNMask, in exact arithmetic. The condition that both runs make the same number of iterations holds with zero tolerances or FastSolve (endless lemmas) and cannot be dropped (C85_stopping_refuted)."
  },
  {
   "property": "C86",
   "status": "partial",
   "theorems": [
    "Sporco.Admm.Dtype.C86_bpdn_float",
    "Sporco.Admm.Dtype.C86_bpdn_integer",
    "Sporco.Admm.Dtype.C86_bpdn_type",
    "Sporco.Admm.Dtype.C86_bpdn_integer_refuted",
    "Sporco.Pgm.Dtype.C86_pgm_bpdn_float",
    "Sporco.Pgm.Dtype.C86_pgm_bpdn_integer",
    "Sporco.Pgm.Dtype.C86_pgm_bpdn_type",
    "Sporco.Pgm.Dtype.C86_pgm_bpdn_integer_refuted"
   ],
   "note": "For BPDN of admm and pgm, in exact arithmetic: floating point types change nothing, entries of the arrays stay in the type. False for integer signals: the dictionary is truncated to zero (\u2026_integer_refuted). Single against double precision and complex types are not modelled. PGM: without line search, step size policy and Monotone."
  },
  {
   "property": "C87",
   "status": "partial",
   "theorems": [
    "Sporco.Admm.Display.C87_admm",
    "Sporco.Admm.Display.C87_admm_titles",
    "Sporco.Admm.Display.C87_admm_fastsolve_refuted",
    "Sporco.Pgm.Display.C87_pgm",
    "Sporco.Pgm.Display.C87_pgm_titles",
    "Sporco.Pgm.Display.C87_pgm_fastsolve_refuted",
    "Sporco.Pgm.Display.C87_pgm_filled",
    "Sporco.Util.Display.C87_number",
    "Sporco.Util.Display.C87_table"
   ],
   "note": "All classes derived from ADMM and PGM (49 and 12): rows, titles, values, alignment, nothing without Verbose, no exception (PGM: with line searches of at least one step). Alignment is proved for non-negative numbers with two-digit exponents and iteration numbers below 10000. False: recording with FastSolve and Verbose (\u2026_fastsolve_refuted). The class tables were transcribed from the class attributes; the tables of the dictionary learning classes are in C55, those of online and parallel dictionary learning are not covered."
  },
  {
   "property": "C88",
   "status": "partial",
   "theorems": [
    "Sporco.Admm.Bpdn.C88_bpdn_cycle_refuted",
    "Sporco.Admm.Bpdn.C88_bpdn_partial",
    "Sporco.Admm.C88_convergence_partial",
    "Sporco.Admm.C88_finite_changes_partial",
    "Sporco.Admm.C88_terminates_partial"
   ],
   "note": "The unconditional claim is refuted by an exact cycle of BPDN (C88_bpdn_cycle_refuted). Proved: residuals, functional and termination for every solver meeting the exact-step contract Implements, when the changes of log rho are summable (C88_convergence_partial, C88_terminates_partial) or finitely many (C88_finite_changes_partial), and for BPDN without further contracts (C88_bpdn_partial). Missing: a condition on the options alone under which rho settles (none is enforced by the code)."
  },
  {
   "property": "C89",
   "status": "partial",
   "theorems": [
    "Sporco.Admm.Bpdn.C89_bpdn",
    "Sporco.Admm.Bpdn.C89_elasticnet",
    "Sporco.Conv.C89_convbpdn",
    "Sporco.Conv.C89_convelasticnet",
    "Sporco.Conv.Mod.C89_ccmod_ism",
    "Sporco.Conv.Mod.C89_ccmodmd_ism",
    "Sporco.Conv.Mod.C89_ccmod_cg",
    "Sporco.Conv.Mod.C89_ccmodmd_cg",
    "Sporco.Conv.Mod.C89_cgit_refuted",
    "Sporco.Conv.Mod.C89_ccmod_cns",
    "Sporco.Conv.Mod.C89_consensus_check_refuted"
   ],
   "note": "Proved for BPDN, BPDNJoint, ElasticNet, ConvBPDN and the classes sharing its X update, ConvElasticNet, ConvCnstrMOD_IterSM/_CG, ConvCnstrMODMaskDcpl_IterSM/_CG. Refuted: the iteration count XSlvCGIt (C89_cgit_refuted) and the certificate of ConvCnstrMOD_Consensus (C89_consensus_check_refuted; its value is zero at the exact update, C89_ccmod_cns). Missing: the checks of the gradient-regularised, total variation, spline and product dictionary classes."
  },
  {
   "property": "C90",
   "status": "proved",
   "theorems": [
    "Sporco.Admm.Bpdn.C90_elasticnet",
    "Sporco.Admm.Bpdn.C90_bpdnjoint",
    "Sporco.Admm.Bpdn.C90_bpdnjoint_single",
    "Sporco.Conv.C90_convelasticnet",
    "Sporco.Conv.C90_convbpdnjoint",
    "Sporco.Conv.C90_convbpdnjoint_single",
    "Sporco.Conv.C90_convbpdngradreg",
    "Sporco.Conv.C90_convbpdninhib",
    "Sporco.Pgm.C90_weightedbpdn",
    "Sporco.Pgm.C90_weightedcnstrmod",
    "Sporco.PgmConv.C90_pgm_convbpdnmask",
    "Sporco.PgmConv.C90_pgm_convcnstrmodmask"
   ],
   "note": "Iteration records are compared in iteration number, objective value, residuals and penalty parameter; the classes record different lists of terms besides. No callback for the ADMM classes and the masked classes."
  },
  {
   "property": "C91",
   "status": "proved",
   "theorems": [
    "Sporco.Admm.Bpdn.C91_bpdn",
    "Sporco.Admm.Bpdn.C91_bpdnjoint",
    "Sporco.Admm.Bpdn.C91_bpdnprojl1",
    "Sporco.Admm.Bpdn.C91_elasticnet",
    "Sporco.Admm.Cmod.C91_cmod",
    "Sporco.Conv.C91_convbpdn",
    "Sporco.Conv.C91_convbpdnjoint",
    "Sporco.Conv.C91_convbpdnprojl1",
    "Sporco.Conv.C91_ccmod_ism",
    "Sporco.Conv.C91_ccmod_cns",
    "Sporco.Admm.Rpca.C91_rpca",
    "Sporco.Spline.C91_splinel1",
    "Sporco.Tv.Dec.C91_tvl2deconv"
   ],
   "note": "No callback. Not covered: TV denoising (its x update starts from X, which the constructor sets to S), ConvBPDNInhib (its weights are not options), ConvElasticNet, and automatic penalty updates with period 1 or a run that stopped between updates (the count of iterations restarts, so that the updates fall on other iterations)."
  },
  {
   "property": "C92",
   "status": "partial",
   "theorems": [
    "Sporco.Admm.Bpdn.C92_bpdn",
    "Sporco.Admm.Bpdn.C92_bpdnjoint",
    "Sporco.Admm.Bpdn.C92_elasticnet",
    "Sporco.Admm.Bpdn.C92_bpdnprojl1",
    "Sporco.Admm.Bpdn.C92_default_rho_refuted",
    "Sporco.Conv.C92_convbpdn",
    "Sporco.Conv.C92_convelasticnet",
    "Sporco.Conv.C92_convbpdnjoint",
    "Sporco.PgmConv.C92_pgm_convbpdn",
    "Sporco.PgmConv.C92_pgm_convbpdnmask",
    "Sporco.Pgm.C92_pgm_bpdn",
    "Sporco.Pgm.C92_pgm_weightedbpdn",
    "Sporco.Pgm.C92_pgm_reltol_refuted"
   ],
   "note": "Proved for a given rho (and RsdlTarget); refuted for the default rho. With normalised residuals the theorem assumes that the normalisation factors are never zero, in which case the code divides by 1 instead. No callback. For the proximal gradient solvers proved when the tolerances are given in the units of the residual; refuted for an unchanged RelStopTol."
  },
  {
   "property": "C93",
   "status": "partial",
   "theorems": [
    "Sporco.Pgm.C93_bpdn_stops",
    "Sporco.Pgm.C93_bpdn_stays",
    "Sporco.Pgm.C93_bpdn_bb_refuted",
    "Sporco.Pgm.C93_weightedbpdn_stops",
    "Sporco.Pgm.C93_bpdn_critical",
    "Sporco.Pgm.C93_bpdn_zero"
   ],
   "note": "Proved for all options with a stopping test and, without one, for a fixed L and the line searches; refuted for StepSizePolicyBB without a stopping test. No callback."
  },
  {
   "property": "C94",
   "status": "proved",
   "theorems": [
    "Sporco.Admm.Bpdn.C94_bpdn",
    "Sporco.Admm.Bpdn.C94_bpdn_zero",
    "Sporco.Conv.C94_convbpdn",
    "Sporco.Conv.C94_convbpdn_zero"
   ],
   "note": "Fixed rho (AutoRho off), real arrays."
  },
  {
   "property": "C95",
   "status": "proved",
   "theorems": [
    "Sporco.Admm.Bpdn.C95_bpdn_admm",
    "Sporco.Admm.Bpdn.C95_bpdn_pgm",
    "Sporco.Admm.Bpdn.C95_elasticnet",
    "Sporco.Conv.C95_convbpdn_admm",
    "Sporco.Conv.C95_convbpdn_pgm",
    "Sporco.Conv.C95_convelasticnet",
    "Sporco.Conv.C95_convbpdnmaskdcpl",
    "Sporco.Conv.C95_convbpdnmask_pgm",
    "Sporco.Conv.C95_addmasksim",
    "Sporco.Par.PCbpdn.C95_parconvbpdn",
    "Sporco.Tv.Den.C95_tvl2denoise"
   ],
   "note": "ADMM with AutoRho off, PGM with the Nesterov momentum and no backtracking, real arrays; an example shows that the coefficients of BPDN are not determined, only the reconstruction. SettingsMask.lean: the four solvers with a mask agree at the samples that are kept; AddMaskSim for masks with all the axes of the signal, ParConvBPDN with at most 256 iterations in earlier calls, as in C53.  TVL2Denoise (C95_tvl2denoise): non-zero data weights, MaxGSIter even, GSTol zero."
  },
  {
   "property": "C96",
   "status": "partial",
   "theorems": [
    "Sporco.Par.PCbpdn.C96_default_partial",
    "Sporco.Par.PCbpdn.C96_values_refuted",
    "Sporco.Par.PCbpdn.C96_first_refuted",
    "Sporco.Par.PCbpdn.C96_leak_refuted"
   ],
   "note": "False when an initial value is given (C96_values_refuted, C96_first_refuted, C96_leak_refuted); holds when none is given, after any history (C96_default_partial). The change of the shape of mp_X when Y0 is given (line 641) is not modelled; the counterexample gives only Y1."
  },
  {
   "property": "C97",
   "status": "partial",
   "theorems": [
    "Sporco.Par.PCbpdn.C97_aux",
    "Sporco.Par.PCbpdn.C97_records",
    "Sporco.Par.PCbpdn.C97_value",
    "Sporco.Par.PCbpdn.C97_default_refuted"
   ],
   "note": "Holds with AuxVarObj (C97_aux, C97_value); false for the default options (C97_default_refuted), for which C97_records says what is recorded. First call of solve of an object; dictionary with one channel for C97_value."
  },
  {
   "property": "C98",
   "status": "proved",
   "theorems": [
    "Sporco.Admm.Bpdn.C98_bpdn",
    "Sporco.Admm.Bpdn.C98_elasticnet",
    "Sporco.Admm.Bpdn.C98_projl1",
    "Sporco.Conv.C98_convbpdn",
    "Sporco.Tv.Den.C98_tvl2denoise",
    "Sporco.Tv.Dec.C98_tvl2deconv"
   ],
   "note": "Fixed rho (AutoRho off), real arrays.  TVL2Denoise and TVL2Deconv: C98_tvl2denoise (MaxGSIter even, GSTol zero), C98_tvl2deconv.  BPDNProjL1: C98_projl1 (without NonNegCoef)."
  },
  {
   "property": "C99",
   "status": "partial",
   "theorems": [
    "Sporco.Admm.Bpdn.C99_bpdn_lmbda",
    "Sporco.Admm.Bpdn.C99_bpdn_default",
    "Sporco.Admm.Bpdn.C99_projl1_gamma",
    "Sporco.Admm.Bpdn.C99_minl1_epsilon",
    "Sporco.Admm.Bpdn.C99_joint_mu",
    "Sporco.Admm.Rpca.C99_rpca_lmbda",
    "Sporco.Conv.C99_convbpdn_lmbda",
    "Sporco.Conv.C99_convbpdn_default_zero",
    "Sporco.Conv.C99_convbpdn_default_refuted",
    "Sporco.Tv.Den.C99_tvl2denoise_lmbda",
    "Sporco.Tv.Dec.C99_tvl2deconv_lmbda"
   ],
   "note": "The effect of lmbda is proved for BPDN and ConvBPDN, the default for BPDN (C99_bpdn_default); refuted for the default of ConvBPDN (C99_convbpdn_default_refuted, C99_convbpdn_default_zero). Fixed rho, real arrays, L1Weight 1 for the default.  The effect of lmbda is also proved for TVL2Denoise and TVL2Deconv.  Effect of the parameter also for BPDNProjL1 (gamma), MinL1InL2Ball (epsilon, strictly feasible), BPDNJoint (mu) and RobustPCA (lmbda)."
  },
  {
   "property": "C100",
   "status": "proved",
   "theorems": [
    "Sporco.Tv.Den.C100_tvl2denoise",
    "Sporco.Tv.Dec.C100_tvl2deconv"
   ],
   "note": "Fixed rho (AutoRho off). TVL2Denoise: MaxGSIter even, GSTol zero, non-zero data weights. Exact arithmetic."
  },
  {
   "property": "C101",
   "status": "proved",
   "theorems": [
    "Sporco.Admm.Bpdn.C101_bpdn_scale",
    "Sporco.Admm.Bpdn.C101_bpdn_perm",
    "Sporco.Conv.C101_convbpdn_scale",
    "Sporco.Conv.C101_convbpdn_shift",
    "Sporco.Conv.C101_convbpdn_perm",
    "Sporco.Tv.Den.C101_tvl2denoise_scale",
    "Sporco.Tv.Dec.C101_tvl2deconv_scale"
   ],
   "note": "Fixed rho (AutoRho off), exact arithmetic. TVL2Denoise: MaxGSIter even, GSTol zero, non-zero data weights.  TVL2Deconv: scaling, for the blurred image, which is unique, and the set of minimisers."
  },
  {
   "property": "C102",
   "status": "proved",
   "theorems": [
    "Sporco.Par.Layout.C102_init",
    "Sporco.Par.Layout.C102_bounds",
    "Sporco.Par.Layout.C102_rows",
    "Sporco.Par.Layout.C102_swap",
    "Sporco.Par.Layout.C102_worker",
    "Sporco.Par.Layout.C102_getcoef",
    "Sporco.Par.Layout.C102_roundtrip",
    "Sporco.Par.Layout.C102_zf_shape",
    "Sporco.Par.Layout.C102_move_row",
    "Sporco.Par.Layout.C102_move_group",
    "Sporco.Par.Layout.C102_move_collect",
    "Sporco.Par.Layout.C102_move_newaxis"
   ],
   "note": "Entries instead of bytes; that the processes of the pool see the same memory (fork) is assumed.  ParConvBPDN: C102_move_row, C102_move_group, C102_move_collect; the auxiliary and dual variables of the masked dictionary update: C102_move_newaxis."
  },
  {
   "property": "C103",
   "status": "partial",
   "theorems": [
    "Sporco.Util.FftShape.C103_rfftn",
    "Sporco.Util.FftShape.C103_irfftn",
    "Sporco.Util.FftShape.C103_axis",
    "Sporco.Util.FftShape.C103_ambiguous",
    "Sporco.Util.FftShape.C103_dtype",
    "Sporco.Util.FftShape.C103_dtype_inverse",
    "Sporco.Util.FftShape.C103_cupy",
    "Sporco.Util.FftShape.C103_cupy_refuted"
   ],
   "note": "Shapes and data types; the contents, memory order and byte alignment of pyfftw arrays are not modelled. numpy's type promotion is modelled as a table. The cupy version of complex_dtype agrees for the floating point types and is refuted for integers and double precision complex types."
  },
  {
   "property": "C104",
   "status": "partial",
   "theorems": [
    "Sporco.Conv.CplxType.C104_store",
    "Sporco.Conv.CplxType.C104_mixed_refuted",
    "Sporco.Conv.CplxType.C104_datatype",
    "Sporco.Conv.CplxType.C104_ccmod_store",
    "Sporco.Conv.CplxType.C104_ccmod_mixed_refuted",
    "Sporco.Conv.CplxType.C104_reflection_refuted",
    "Sporco.Conv.CplxType.C104_normal",
    "Sporco.Conv.CplxType.C104_example_refuted"
   ],
   "note": "Proved if S is complex or both are real, and with a complex DataType; refuted for a complex D with a real S. The effect on the x step is shown for one filter, one dimension and zero Y and U."
  }
 ]
}