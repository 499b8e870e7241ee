{"id": "C01", "title": "Option tree completeness and validity", "statement": "After constructing an options object and applying any sequence of key assignments and updates with plain values or plain nested dicts, whether individual operations succeed or raise, every documented option is still present and every option present is a documented one at a documented place in the tree (sub-trees stay sub-trees).", "quantifier": "all default trees, all histories of assignments and updates", "why_tests_cant": "the invariant has to survive arbitrary long histories mixing failing and succeeding operations on arbitrary trees", "anchors": ["sporco/cdict.py:ConstrainedDict.__init__", "sporco/cdict.py:ConstrainedDict.__setitem__", "sporco/cdict.py:ConstrainedDict.update", "sporco/cdict.py:ConstrainedDict.check"]}
{"id": "C02", "title": "A rejected option assignment changes nothing and names the offending path", "statement": "Assigning (by key or tuple-key path) to an option that is not in the defaults raises UnknownKeyError naming the path, assigning a non-dict where the defaults have a sub-tree raises InvalidValueError naming the path, and in both cases the option object is unchanged; a non-dict assignment raises for exactly those paths. A nested-dict update succeeds exactly when every path in it exists in the defaults with the same kind of entry (a failing one may have applied its earlier items).", "quantifier": "all trees, paths and values", "why_tests_cant": "needs every tree shape and every path, including tuple keys of any depth", "anchors": ["sporco/cdict.py:ConstrainedDict.__setitem__", "sporco/cdict.py:ConstrainedDict.check"]}
{"id": "C03", "title": "Option read-back and isolation", "statement": "After a successful assignment of a leaf value, reading the same key or tuple-key path returns that value and every other option reads as before.", "quantifier": "all trees, all pairs of paths", "why_tests_cant": "a frame property over all pairs of paths in all trees", "anchors": ["sporco/cdict.py:ConstrainedDict.__setitem__", "sporco/cdict.py:ConstrainedDict.__getitem__"]}
{"id": "C04", "title": "AuxVarObj coupling of objective-evaluation flags", "statement": "Whenever AuxVarObj is assigned by plain key, the options deciding which variable the objective terms are evaluated at switch together: AuxVarObj true gives fEvalX false and gEvalY true, anything else the reverse, for any history of later unrelated assignments.", "quantifier": "all assignment histories", "why_tests_cant": "depends on the order of an arbitrary history of assignments", "anchors": ["sporco/admm/bpdn.py:GenericBPDN.Options.__setitem__", "sporco/admm/admm.py:ADMMConsensus.Options.__setitem__", "sporco/admm/cbpdn.py:GenericConvBPDN.Options.__setitem__"]}
{"id": "C05", "title": "Solver parameter defaulting", "statement": "A solver parameter takes the user's value when one is given and otherwise the documented default of the most derived class; in particular the documented problem-dependent default for rho is the value actually used.", "quantifier": "all classes in a constructor chain, all option values", "why_tests_cant": "quantifies over constructor call chains and all option values", "anchors": ["sporco/common.py:IterativeSolver.set_attr", "sporco/admm/cmod.py:CnstrMOD.__init__", "sporco/admm/cbpdn.py:ConvBPDN.__init__", "sporco/admm/cbpdntv.py:ConvBPDNScalarTV.__init__"]}
{"id": "C06", "title": "Timer accounting", "statement": "For any history of start, stop, reset and elapsed calls at non-decreasing clock readings, the total elapsed time of a label is the sum over its maximal running periods of their durations since the last reset, other labels do not interfere, and elapsed time never decreases between resets.", "quantifier": "all histories of timer operations, all label sets, all clock readings", "why_tests_cant": "needs all interleavings of operations on all labels", "anchors": ["sporco/util.py:Timer"]}
{"id": "C07", "title": "Solver timers are nested", "statement": "In any solver run the time reported for 'solve_wo_rsdl' is at most that for 'solve_wo_func', which is at most that for 'solve', whatever the clock readings and wherever the run stops.", "quantifier": "all runs: any number of iterations, any stopping point, any clock", "why_tests_cant": "depends on the clock at each of the unboundedly many timer calls in a run", "anchors": ["sporco/admm/admm.py:ADMM.solve", "sporco/pgm/pgm.py:PGM.solve", "sporco/util.py:Timer"]}
{"id": "C08", "title": "Grid search optimality", "statement": "util.grid_search returns an index tuple, parameter values and function value that belong together, and the value is the minimum (maximum) over the whole grid; ties go to the first grid point in row-major order, independent of the number of worker processes.", "quantifier": "all grids (any number of axes and points), all functions, min and max", "why_tests_cant": "all grids and functions", "anchors": ["sporco/util.py:grid_search"]}
{"id": "C09", "title": "MPI grid distribution", "statement": "The MPI grid search assigns every grid point to exactly one rank, in rank order, with chunk sizes differing by at most one, so that the gathered values are in grid order and the result equals the serial search for every number of processes.", "quantifier": "all grid sizes and process counts", "why_tests_cant": "all (grid length, process count) pairs, including more processes than points", "anchors": ["sporco/mpiutil.py:_get_rank_limits", "sporco/mpiutil.py:grid_search"]}
{"id": "C10", "title": "Download retry discipline", "statement": "util.netgetdata makes at most maxtry attempts, retries only after timeouts, returns the data of the first successful attempt and otherwise raises the last error; no attempt is made after a success or a non-timeout error.", "quantifier": "all sequences of network outcomes, all maxtry values", "why_tests_cant": "all outcome sequences of any length", "anchors": ["sporco/util.py:netgetdata"]}
{"id": "C11", "title": "Block extraction and recombination round trip", "statement": "Averaging or combining (median) the blocks extracted from an array with any block shape and step reproduces the array wherever the blocks cover it, for every array size; extract_blocks yields exactly the blocks at the step grid.", "quantifier": "all array shapes, block shapes and steps, all dimensions", "why_tests_cant": "all sizes, block sizes and steps including non-dividing ones", "anchors": ["sporco/array.py:extract_blocks", "sporco/array.py:average_blocks", "sporco/array.py:combine_blocks", "sporco/array.py:rolling_window"]}
{"id": "C12", "title": "Padding and cropping of filters are inverse", "statement": "Zero-padding a dictionary to the signal size and cropping it back is the identity, cropping preserves exactly the declared filter support for single- and multi-size dictionaries, and the zero-padding has zeros elsewhere.", "quantifier": "all dictionary and signal shapes, all single- and multi-block size specifications", "why_tests_cant": "all shapes and multi-scale size specifications", "anchors": ["sporco/cnvrep.py:zpad", "sporco/cnvrep.py:bcrop", "sporco/array.py:zpad"]}
{"id": "C13", "title": "Subsampling and named-tuple conversions are lossless rearrangements", "statement": "subsample_array, split, transpose_ntpl_list, ntpl2array/array2ntpl and the axis permutations used by the prox functions move every element exactly once and to the documented place.", "quantifier": "all shapes and steps", "why_tests_cant": "all shapes", "anchors": ["sporco/array.py:subsample_array", "sporco/array.py:split", "sporco/array.py:transpose_ntpl_list", "sporco/array.py:ntpl2array", "sporco/prox/_util.py:ndto2d", "sporco/prox/_util.py:ndfrom2d"]}
{"id": "C14", "title": "Problem-dimension inference is consistent", "statement": "For every dictionary and signal shape accepted by the convolutional representation indexing, the inferred internal shapes of dictionary, signal and coefficient maps have the element counts of the inputs, a common rank dimN+3, and mutually compatible axes.", "quantifier": "all input shapes, dimN, dimK, single/multi-channel", "why_tests_cant": "all shapes and dimension flags", "anchors": ["sporco/cnvrep.py:CSC_ConvRepIndexing", "sporco/cnvrep.py:CDU_ConvRepIndexing", "sporco/cnvrep.py:DictionarySize"]}
{"id": "C15", "title": "prox_l1 is the proximal operator of the weighted l1 norm", "statement": "prox_l1(v, alpha) minimises (1/2)||x-v||^2 + sum alpha_i |x_i| uniquely, for real and complex arrays; with the non-negativity clip applied afterwards it minimises the same functional over non-negative arrays.", "quantifier": "all arrays and all non-negative thresholds", "why_tests_cant": "optimality is a statement about all competitors", "anchors": ["sporco/prox/_lp.py:prox_l1", "sporco/admm/bpdn.py:GenericBPDN.ystep"]}
{"id": "C16", "title": "prox_l0 is a proximal operator of the l0 norm", "statement": "prox_l0(v, alpha) minimises (1/2)||x-v||^2 + alpha ||x||_0.", "quantifier": "all arrays, all alpha >= 0", "why_tests_cant": "optimality over all competitors", "anchors": ["sporco/prox/_lp.py:prox_l0", "sporco/prox/_lp.py:norm_l0"]}
{"id": "C17", "title": "prox_l2 and proj_l2 are the proximal operator of the l2 norm and the projection onto the l2 ball", "statement": "prox_l2(v, alpha) uniquely minimises (1/2)||x-v||^2 + alpha||x||_2 and proj_l2(v, gamma) is the unique nearest point of the ball of radius gamma, on every slice along the chosen axes.", "quantifier": "all arrays, axes and parameters", "why_tests_cant": "optimality over all competitors", "anchors": ["sporco/prox/_lp.py:prox_l2", "sporco/prox/_lp.py:proj_l2", "sporco/linalg.py:proj_l2ball"]}
{"id": "C18", "title": "proj_l1 is the projection onto the l1 ball", "statement": "Both proj_l1 algorithms return the nearest point of the l1 ball of radius gamma (the input itself if it is inside).", "quantifier": "all vectors and radii", "why_tests_cant": "optimality over all competitors; the sort-based algorithm has data-dependent branches for every sort order", "anchors": ["sporco/prox/_l1proj.py:_proj_l1_sortsum", "sporco/prox/_l1proj.py:_proj_l1_scalar_root", "sporco/prox/_l1proj.py:proj_l1", "sporco/admm/cbpdn.py:ConvBPDNProjL1"]}
{"id": "C19", "title": "prox_sl1l2 is the proximal operator of the sum of l1 and l2 norms", "statement": "prox_sl1l2(v, alpha, beta) minimises (1/2)||x-v||^2 + alpha||x||_1 + beta||x||_2 on every slice.", "quantifier": "all arrays and parameters", "why_tests_cant": "optimality over all competitors", "anchors": ["sporco/prox/_l21.py:prox_sl1l2", "sporco/prox/_l21.py:norm_l21"]}
{"id": "C20", "title": "prox_dl1l2 is a proximal operator of the difference of l1 and l2 norms", "statement": "prox_dl1l2(v, alpha, beta) is a global minimiser of the non-convex functional (1/2)||x-v||^2 + alpha(||x||_1 - beta||x||_2).", "quantifier": "all arrays and parameters", "why_tests_cant": "global optimality of a non-convex functional over all competitors", "anchors": ["sporco/prox/_dl1l2.py:prox_dl1l2", "sporco/prox/_dl1l2.py:norm_dl1l2"]}
{"id": "C21", "title": "prox_nuclear is the proximal operator of the nuclear norm", "statement": "Given a valid SVD, prox_nuclear(V, alpha) minimises (1/2)||X-V||_F^2 + alpha||X||_*.", "quantifier": "all matrices", "why_tests_cant": "optimality over all competitors", "anchors": ["sporco/prox/_nuclear.py:prox_nuclear", "sporco/prox/_nuclear.py:norm_nuclear", "sporco/admm/rpca.py:RobustPCA"]}
{"id": "C22", "title": "Non-negativity constraint combined with other regularisers", "statement": "With NonNegCoef enabled the auxiliary-variable update of every solver is the exact proximal step of the constrained problem (regulariser plus non-negativity).", "quantifier": "all solvers with a NonNegCoef option, all inputs", "why_tests_cant": "optimality over all competitors", "anchors": ["sporco/admm/bpdn.py:BPDNJoint.ystep", "sporco/admm/bpdn.py:BPDNProjL1.ystep", "sporco/admm/bpdn.py:BPDN.ystep", "sporco/admm/bpdn.py:MinL1InL2Ball.ystep", "sporco/admm/cbpdn.py:ConvBPDNProjL1", "sporco/admm/cbpdntv.py:ConvBPDNScalarTV"]}
{"id": "C23", "title": "Sherman-Morrison diagonal-block solvers are exact", "statement": "solvedbi_sm and solvedbd_sm return the exact solution of their documented linear systems (rank-one plus scaled identity / diagonal), with or without the cached component.", "quantifier": "all complex vectors, all positive (diagonal) parameters, all sizes", "why_tests_cant": "all sizes and values", "anchors": ["sporco/linalg.py:solvedbi_sm", "sporco/linalg.py:solvedbi_sm_c", "sporco/linalg.py:solvedbd_sm", "sporco/linalg.py:solvedbd_sm_c"]}
{"id": "C24", "title": "Iterated and repeated Sherman-Morrison solvers are exact for any rank", "statement": "solvemdbi_ism and solvemdbi_rsm return the exact solution of (rho I + sum_k a_k a_k^H) x = b for any number of blocks K and any size M, and never divide by zero for rho>0.", "quantifier": "all K, M, inputs", "why_tests_cant": "induction over the data-dependent number of rank-one updates", "anchors": ["sporco/linalg.py:solvemdbi_ism", "sporco/linalg.py:solvemdbi_rsm"]}
{"id": "C25", "title": "LU/Cholesky-based solvers use the matrix inversion lemma correctly", "statement": "lu_solve_ATAI/cho_solve_ATAI solve (A^T A + rho I) x = b and lu_solve_AATI/cho_solve_AATI the system with A A^T, for tall and wide A alike, given a correct factorisation.", "quantifier": "all matrix shapes, all rho>0", "why_tests_cant": "all shapes and both branches", "anchors": ["sporco/linalg.py:lu_factor", "sporco/linalg.py:lu_solve_ATAI", "sporco/linalg.py:lu_solve_AATI", "sporco/linalg.py:cho_solve_ATAI", "sporco/linalg.py:cho_solve_AATI"]}
{"id": "C26", "title": "Symmetric Sylvester solver", "statement": "solve_symmetric_sylvester(A, B, C, alpha) returns the solution of A X B + alpha X = C given valid eigendecompositions.", "quantifier": "all symmetric positive semi-definite A, B and all C", "why_tests_cant": "all sizes and spectra", "anchors": ["sporco/linalg.py:solve_symmetric_sylvester"]}
{"id": "C27", "title": "Block-circulant matrices implement circular convolution", "statement": "block_circulant(A) multiplied by a stacked vector is the block-wise circular convolution with A.", "quantifier": "all tuples of equal-shape blocks", "why_tests_cant": "all sizes", "anchors": ["sporco/linalg.py:block_circulant"]}
{"id": "C28", "title": "Nearest Kronecker product reduces to rank-one approximation", "statement": "nkp/kpsvd: the rearrangement used is an isometry that maps Kronecker products to rank-one matrices, so the sum of Kronecker products reconstructs the matrix exactly when all terms are kept and the squared error is the energy of the dropped singular values.", "quantifier": "all matrix and block shapes", "why_tests_cant": "all shapes", "anchors": ["sporco/linalg.py:kpsvd", "sporco/linalg.py:nkp"]}
{"id": "C29", "title": "grad and gradT are adjoint", "statement": "For both zero_pad settings <grad(x), y> = <x, gradT(y)> along any axis of any array the functions accept.", "quantifier": "all arrays and axes", "why_tests_cant": "all sizes including the smallest", "anchors": ["sporco/signal.py:grad", "sporco/signal.py:gradT"]}
{"id": "C30", "title": "tikhonov_filter decomposition", "statement": "The lowpass and highpass outputs sum to the input and, on the padded periodic image, the lowpass image is the unique minimiser of the documented Tikhonov functional.", "quantifier": "all images, lambda >= 0, padding", "why_tests_cant": "optimality over all competitors", "anchors": ["sporco/signal.py:tikhonov_filter"]}
{"id": "C31", "title": "local_contrast_normalise is invertible", "statement": "snrm * scn + smn reproduces the input image for n >= 1 (and any c > 0), and gaussian() sums to one and is non-negative and symmetric.", "quantifier": "all images and window sizes", "why_tests_cant": "all sizes", "anchors": ["sporco/signal.py:local_contrast_normalise", "sporco/signal.py:gaussian"]}
{"id": "C32", "title": "FFT-domain norms and convolution", "statement": "rfl2norm2 and fl2norm2 applied to transforms equal the spatial squared norm for even and odd sizes (Parseval), and fftconv is circular convolution.", "quantifier": "all sizes (even and odd last axis) and real arrays", "why_tests_cant": "all sizes", "anchors": ["sporco/fft.py:rfl2norm2", "sporco/fft.py:fl2norm2", "sporco/fft.py:fftconv"]}
{"id": "C33", "title": "DCT pair and spline solver diagonalisation", "statement": "The eigenvalue array used by SplineL1 diagonalises its documented second-difference operator in the DCT-II basis for every signal length, so its x update is the exact minimiser.", "quantifier": "all signal lengths", "why_tests_cant": "all lengths", "anchors": ["sporco/admm/spline.py:SplineL1", "sporco/fft.py:dctii"]}
{"id": "C34", "title": "Dictionary constraint projection", "statement": "Pcn maps any array to the constraint set (prescribed support, unit-norm or zero filters, zero mean if requested), is idempotent, and returns a point nearest to the array among the dictionaries of the prescribed support (and zero mean, if requested) with unit-norm filters, a filter with zero feasible part being mapped to zero; the function returned by getPcn computes the same as Pcn.", "quantifier": "all dictionaries, sizes and option flags", "why_tests_cant": "optimality over all competitors, idempotence on all arrays", "anchors": ["sporco/cnvrep.py:Pcn", "sporco/cnvrep.py:getPcn", "sporco/cnvrep.py:normalise", "sporco/cnvrep.py:zeromean", "sporco/admm/cmod.py:CnstrMOD.ystep"]}
{"id": "C35", "title": "ADMM iteration accounting", "statement": "solve() performs at most MaxMainIter iterations, stops at the first iteration whose callback returns true or whose residuals are both below threshold, records one statistics entry per iteration with consecutive iteration numbers, and successive solve() calls continue the same trajectory as a single longer run.", "quantifier": "all step functions, callbacks, option settings and numbers of calls", "why_tests_cant": "all run lengths and stopping points", "anchors": ["sporco/admm/admm.py:ADMM.solve"]}
{"id": "C36", "title": "Adaptive rho preserves the dual variable and positivity", "statement": "At every iteration the automatic rho update leaves the unscaled dual variable rho*U unchanged, keeps rho positive, changes it by a factor between 1/Scaling and Scaling, only at multiples of Period, and in the direction that balances the residuals.", "quantifier": "all histories of residual pairs, all parameter settings", "why_tests_cant": "all histories", "anchors": ["sporco/admm/admm.py:ADMM.update_rho", "sporco/admm/ccmodmd.py:ConvCnstrMODMaskDcpl_Consensus.ystep"]}
{"id": "C37", "title": "ADMM residual and relaxation formulas agree across the class hierarchy", "statement": "The specialised residual, normalisation and relaxation formulas of the equality, two-block and consensus ADMM classes coincide with the generic definitions for the constraint they implement.", "quantifier": "all states", "why_tests_cant": "all states and sizes", "anchors": ["sporco/admm/admm.py:ADMMEqual", "sporco/admm/admm.py:ADMMTwoBlockCnstrnt", "sporco/admm/admm.py:ADMMConsensus", "sporco/admm/admm.py:WeightedADMMConsensus", "sporco/admm/tvl1.py:TVL1Deconv.rsdl_s", "sporco/admm/ccmodmd.py:ConvCnstrMODMaskDcpl_Consensus.compute_residuals"]}
{"id": "C38", "title": "ADMM fixed points are solutions", "statement": "A state left unchanged by one ADMM iteration (zero primal and dual residual) is a minimiser of the documented objective, for any positive rho.", "quantifier": "all convex f, g, all linear constraints", "why_tests_cant": "optimality over all competitors", "anchors": ["sporco/admm/admm.py:ADMM.solve", "sporco/admm/bpdn.py:BPDN"]}
{"id": "C39", "title": "ADMM convergence", "statement": "With fixed rho and no relaxation, ADMM residuals converge to zero and the objective to the optimum whenever a saddle point exists, so with a positive absolute tolerance solve() stops by itself if MaxMainIter is large enough. For the sparse coding classes (BPDN, ElasticNet, BPDNJoint, BPDNProjL1, MinL1InL2Ball and ConvBPDN, ConvElasticNet, ConvBPDNJoint, ConvBPDNProjL1, ConvBPDNGradReg, ConvBPDNMaskDcpl, ConvMinL1InL2Ball, ConvL1L1Grd), RobustPCA, SplineL1, TVL2Deconv and TVL1Deconv the returned arrays themselves converge, to a solution.", "quantifier": "all convex problems with a saddle point, all initial states", "why_tests_cant": "infinite iteration histories", "anchors": ["sporco/admm/admm.py:ADMM.solve", "sporco/admm/admm.py:ADMM.compute_residuals", "sporco/admm/tvl2.py:TVL2Deconv", "sporco/admm/tvl1.py:TVL1Deconv", "sporco/admm/rpca.py:RobustPCA", "sporco/admm/cbpdn.py:AddMaskSim", "sporco/admm/cbpdn.py:ConvBPDNProjL1", "sporco/admm/cbpdn.py:ConvBPDNGradReg", "sporco/admm/cbpdn.py:ConvL1L1Grd", "sporco/admm/cbpdntv.py:ConvBPDNVectorTV", "sporco/admm/pdcsc.py:ConvProdDictBPDN", "sporco/admm/pdcsc.py:ConvProdDictBPDNJoint", "sporco/admm/pdcsc.py:ConvProdDictL1L1Grd", "sporco/admm/pdcsc.py:ConvProdDictL1L1GrdJoint"]}
{"id": "C40", "title": "Primary-variable updates are exact minimisers", "statement": "The x update of each l1/least-squares ADMM solver minimises the augmented Lagrangian in x: BPDN and variants, convolutional BPDN in the frequency domain, mask decoupling, total-variation deconvolution, and the dictionary updates of CMOD and its convolutional versions.", "quantifier": "all data, rho>0", "why_tests_cant": "optimality over all competitors", "anchors": ["sporco/admm/bpdn.py:GenericBPDN.xstep", "sporco/admm/cbpdn.py:GenericConvBPDN.xstep", "sporco/admm/cbpdn.py:ConvTwoBlockCnstrnt.xstep", "sporco/admm/tvl2.py:TVL2Deconv.xstep", "sporco/admm/cmod.py:CnstrMOD.xstep", "sporco/admm/ccmod.py:ConvCnstrMOD_IterSM.xstep", "sporco/admm/ccmod.py:ConvCnstrMOD_Consensus.xstep", "sporco/admm/ccmodmd.py:ConvCnstrMODMaskDcpl_IterSM.xstep", "sporco/admm/tvl1.py:TVL1Deconv.xstep", "sporco/admm/rpca.py:RobustPCA.xstep", "sporco/admm/cbpdn.py:AddMaskSim", "sporco/admm/cbpdn.py:ConvBPDNGradReg", "sporco/admm/cbpdn.py:ConvL1L1Grd", "sporco/admm/cbpdntv.py:ConvBPDNVectorTV", "sporco/admm/cbpdntv.py:ConvBPDNScalarTV", "sporco/admm/pdcsc.py:ConvProdDictBPDN", "sporco/admm/pdcsc.py:ConvProdDictBPDNJoint", "sporco/admm/pdcsc.py:ConvProdDictL1L1Grd", "sporco/admm/pdcsc.py:ConvProdDictL1L1GrdJoint"]}
{"id": "C41", "title": "TV denoising inner iteration", "statement": "The inner iteration of the TV denoising x update has the exact solution as its only fixed point and converges to it from any start, for any image size and any non-negative weights with a positive data weight.", "quantifier": "all images, weights, axes, rho>0", "why_tests_cant": "infinite iteration, all sizes", "anchors": ["sporco/admm/tvl2.py:TVL2Denoise.xstep", "sporco/admm/tvl2.py:TVL2Denoise.GaussSeidelStep", "sporco/admm/tvl2.py:TVL2Denoise.LaplaceCentreWeight"]}
{"id": "C42", "title": "Initial dual variable satisfies the dual optimality condition", "statement": "When an initial Y is supplied, the default initial U of each solver satisfies the dual optimality condition for g at Y (as the documentation of the initialisation states).", "quantifier": "all initial Y, all weights and rho", "why_tests_cant": "all inputs", "anchors": ["sporco/admm/bpdn.py:BPDN.uinit", "sporco/admm/rpca.py:RobustPCA.uinit", "sporco/admm/tvl2.py:TVL2Denoise.uinit", "sporco/admm/cbpdn.py:ConvBPDN.uinit", "sporco/admm/cbpdn.py:ConvBPDNMaskDcpl.uinit"]}
{"id": "C43", "title": "Precomputation options do not change results", "statement": "Enabling HighMemSolve only caches: at every iteration, including after automatic rho changes, the linear solve returns the same result as without it.", "quantifier": "all histories of rho changes and dictionary changes, all solver classes", "why_tests_cant": "the cache must be coherent after every history of rho changes", "anchors": ["sporco/admm/cbpdn.py:GenericConvBPDN.setdict", "sporco/admm/cbpdn.py:GenericConvBPDN.rhochange", "sporco/admm/cbpdn.py:ConvElasticNet", "sporco/admm/cbpdn.py:ConvBPDNGradReg", "sporco/admm/cbpdn.py:ConvBPDN.__init__", "sporco/admm/cbpdn.py:ConvL1L1Grd", "sporco/admm/cbpdntv.py:ConvBPDNScalarTV", "sporco/admm/pdcsc.py:ConvProdDictBPDN", "sporco/admm/pdcsc.py:ConvProdDictL1L1Grd", "sporco/admm/pdcsc.py:ConvProdDictL1L1GrdJoint"]}
{"id": "C44", "title": "NoBndryCross removes exactly the boundary-crossing coefficients", "statement": "With NoBndryCross enabled, exactly the coefficients whose filter support would wrap around the signal boundary are set to zero.", "quantifier": "all signal and filter sizes", "why_tests_cant": "all sizes including size-one filters", "anchors": ["sporco/admm/cbpdn.py:GenericConvBPDN.ystep", "sporco/pgm/cbpdn.py:ConvBPDN.prox_g"]}
{"id": "C45", "title": "Accelerated proximal gradient rate", "statement": "With step parameter L at least the Lipschitz constant of the gradient and Nesterov momentum, after k iterations the objective of the returned solution exceeds the optimum by at most 2L||x0-x*||^2/(k+1)^2.", "quantifier": "all convex problems, all starting points, all iteration counts", "why_tests_cant": "a bound for every k and every problem", "anchors": ["sporco/pgm/pgm.py:PGM.xstep", "sporco/pgm/pgm.py:PGM.ystep", "sporco/pgm/momentum.py:MomentumNesterov"]}
{"id": "C46", "title": "Backtracking guarantees sufficient decrease", "statement": "On return from the backtracking update the quadratic upper-bound condition F<=Q holds for the accepted step unless the iteration limit was exhausted, L never decreases (standard) and if L already dominates the Lipschitz constant no increase happens; with an L-smooth function the number of increases is bounded.", "quantifier": "all problems, initial L, gamma, maxiter", "why_tests_cant": "loop with data-dependent trip count", "anchors": ["sporco/pgm/backtrack.py:BacktrackStandard.update", "sporco/pgm/backtrack.py:BacktrackRobust.update"]}
{"id": "C47", "title": "Monotone PGM never returns a worse iterate", "statement": "With Monotone enabled the objective value of successive returned iterates never increases.", "quantifier": "all problems and iteration counts", "why_tests_cant": "all trajectories", "anchors": ["sporco/pgm/pgm.py:PGM.xstep", "sporco/pgm/pgm.py:PGMDFT.xstep"]}
{"id": "C48", "title": "Momentum coefficients are admissible", "statement": "Each momentum policy yields t_k >= 1 with t_{k+1}^2 - t_{k+1} <= t_k^2 (the condition accelerated convergence needs) for its admissible parameters, and Nesterov's satisfies t_k >= (k+2)/2.", "quantifier": "all k, all admissible parameters", "why_tests_cant": "all k", "anchors": ["sporco/pgm/momentum.py:MomentumNesterov", "sporco/pgm/momentum.py:MomentumLinear", "sporco/pgm/momentum.py:MomentumGenLinear"]}
{"id": "C49", "title": "Adaptive step-size policies use the problem's curvature", "statement": "Cauchy and Barzilai-Borwein policies yield a step parameter between the smallest and largest eigenvalue of the Hessian of the smooth term of the solver they are used with.", "quantifier": "all quadratic problems, all iterates", "why_tests_cant": "all inputs", "anchors": ["sporco/pgm/stepsize.py:StepSizePolicyCauchy", "sporco/pgm/stepsize.py:StepSizePolicyBB", "sporco/pgm/bpdn.py:WeightedBPDN"]}
{"id": "C50", "title": "PGM iteration accounting", "statement": "PGM solve() performs at most MaxMainIter iterations, stops exactly when the callback or tolerance says so, numbers its statistics consecutively, and repeated solve() calls continue one trajectory.", "quantifier": "all step functions, callbacks, tolerances", "why_tests_cant": "all run lengths", "anchors": ["sporco/pgm/pgm.py:PGM.solve"]}
{"id": "C51", "title": "Gradients match objectives", "statement": "For every PGM problem class grad_f is the gradient of obfn_f, and hessian_f is the derivative of grad_f.", "quantifier": "all data and points", "why_tests_cant": "for all points and directions", "anchors": ["sporco/pgm/bpdn.py:BPDN", "sporco/pgm/bpdn.py:WeightedBPDN", "sporco/pgm/cmod.py:CnstrMOD", "sporco/pgm/cmod.py:WeightedCnstrMOD"]}
{"id": "C52", "title": "Parallel consensus dictionary learning is schedule independent", "statement": "One step of parallel consensus dictionary learning yields the same state for every number of worker processes and every interleaving of the per-signal work, equal to the sequential loop.", "quantifier": "all interleavings of all workers, all K", "why_tests_cant": "all schedules", "anchors": ["sporco/dictlrn/prlcnscdl.py:step_group", "sporco/dictlrn/prlcnscdl.py:ConvBPDNDictLearn_Consensus.step", "sporco/dictlrn/prlcnscdl.py:md_step_group"]}
{"id": "C53", "title": "Parallel sparse coding is schedule independent", "statement": "ParConvBPDN's grouped updates give the same state for every worker schedule, its filter groups partition the filters, and its y0 update is the exact minimiser of the documented coupled quadratic.", "quantifier": "all schedules, group counts", "why_tests_cant": "all schedules", "anchors": ["sporco/admm/parcbpdn.py:par_stepgrp", "sporco/admm/parcbpdn.py:y0astep", "sporco/admm/parcbpdn.py:par_y0bstep", "sporco/admm/parcbpdn.py:ParConvBPDN.solve"]}
{"id": "C54", "title": "Online dictionary learning keeps the dictionary feasible and uses summable-square steps", "statement": "After any sequence of solve calls the dictionary satisfies the constraint set, and the step sizes eta_a/(j+eta_b) are positive, decreasing, with divergent sum and convergent sum of squares.", "quantifier": "all sequences of training signals", "why_tests_cant": "all histories, infinite series", "anchors": ["sporco/dictlrn/onlinecdl.py:OnlineConvBPDNDictLearn.dstep", "sporco/dictlrn/onlinecdl.py:OnlineConvBPDNDictLearn.solve"]}
{"id": "C55", "title": "Alternating dictionary learning protocol", "statement": "DictLearn.solve alternates sparse coding and dictionary update so that each dictionary update sees the coefficients just computed and each sparse coding step the dictionary just computed; statistics are numbered consecutively and each requested field comes from the mapped source.", "quantifier": "all sub-solvers, all run lengths", "why_tests_cant": "all run lengths", "anchors": ["sporco/dictlrn/dictlrn.py:DictLearn.solve", "sporco/dictlrn/dictlrn.py:IterStatsConfig.iterstats"]}
{"id": "C56", "title": "Quality metrics identities", "statement": "isnr equals the difference of the two snr values, mse/mae are non-negative and zero exactly on equality, psnr and snr are invariant under common scaling (with the range scaled), and pamse/gmsd are zero on identical images.", "quantifier": "all images", "why_tests_cant": "all images", "anchors": ["sporco/metric.py:mae", "sporco/metric.py:mse", "sporco/metric.py:snr", "sporco/metric.py:psnr", "sporco/metric.py:isnr"]}
{"id": "C57", "title": "LP formulations of l1 and l-infinity regression", "statement": "lstabsdev and lstmaxdev: an optimal solution of the linear programme handed to the LP solver is a minimiser of ||Ax-b||_1 (resp. ||Ax-b||_inf), and its objective value is that minimum.", "quantifier": "all systems", "why_tests_cant": "optimality over all competitors", "anchors": ["sporco/interp.py:lstabsdev", "sporco/interp.py:lstmaxdev"]}
{"id": "C58", "title": "Weighted and residual reductions of vectors: inner, dot, rrs, valid_adjoint", "statement": "inner contracts the requested axes as documented, dot acts as the matrix product along the requested axis, rrs is zero exactly for exact solutions, and valid_adjoint returns a value that is zero for every probe exactly when the operators are adjoint on the probes.", "quantifier": "all shapes and axes", "why_tests_cant": "all shapes", "anchors": ["sporco/linalg.py:inner", "sporco/linalg.py:dot", "sporco/linalg.py:rrs", "sporco/linalg.py:valid_adjoint"]}
{"id": "C59", "title": "Weight and mask arrays are aligned with the axes they weight", "statement": "An l1 weight array of shape S.shape + (M,) or S.shape, and a mask of shape S.shape, where any size may be replaced by one, are given internal shapes in which every axis keeps its role (sample, channel, signal, filter) and which are compatible for multiplication with the coefficient maps and the signal respectively. A TVWeight array weights the gradient norm of its own pixel in the recorded regularisation term of the TV solvers.", "quantifier": "all signal, dictionary and weight shapes, all dimension flags", "why_tests_cant": "all shapes and combinations of present, absent and singleton axes", "anchors": ["sporco/cnvrep.py:l1Wshape", "sporco/cnvrep.py:mskWshape", "sporco/admm/tvl2.py:TVL2Denoise.eval_objfn", "sporco/admm/tvl2.py:TVL2Deconv.eval_objfn", "sporco/admm/cbpdn.py:AddMaskSim.ystep"]}
{"id": "C60", "title": "PCA components are optimal and ordered", "statement": "pca returns orthonormal components in decreasing order of their eigenvalues, which are eigenvectors of the scatter matrix of the (centred) data with the returned eigenvalues; analysis with B.T followed by synthesis with B restores the (centred) data; and for every n the first n components give the least total squared error among all linear (with centring: affine) subspaces of dimension n, the returned mean being the offset.", "quantifier": "all 2D data arrays, both values of centre, all n, all competing subspaces", "why_tests_cant": "optimality over all subspaces", "anchors": ["sporco/linalg.py:pca"]}
{"id": "C61", "title": "TV solver constraint operators are adjoint", "statement": "In each TV denoising, TV deconvolution or convolutional TV solver the operator that the solver applies as the transpose of the constraint operator is its adjoint, for every choice of the axes parameter, so that the x update and the residuals are those of the stated problem.", "quantifier": "all images, all choices and orders of axes, all dual arrays", "why_tests_cant": "all axes orders, sizes and values", "anchors": ["sporco/admm/tvl2.py:TVL2Denoise.cnst_A", "sporco/admm/tvl2.py:TVL2Denoise.cnst_AT", "sporco/admm/tvl1.py:TVL1Denoise.cnst_A", "sporco/admm/tvl1.py:TVL1Denoise.cnst_AT", "sporco/admm/tvl2.py:TVL2Deconv.cnst_A", "sporco/admm/tvl2.py:TVL2Deconv.cnst_AT", "sporco/admm/tvl1.py:TVL1Deconv.cnst_A", "sporco/admm/tvl1.py:TVL1Deconv.cnst_AT", "sporco/admm/cbpdntv.py:ConvBPDNScalarTV.cnst_AT", "sporco/admm/cbpdntv.py:ConvBPDNRecTV.cnst_AT", "sporco/admm/pdcsc.py:ConvProdDictL1L1Grd", "sporco/admm/pdcsc.py:ConvProdDictL1L1GrdJoint"]}
{"id": "C62", "title": "Parallel dictionary learning is the same algorithm as the sequential class", "statement": "One step of a parallel consensus dictionary learning class (with or without mask) computes exactly one iteration of the corresponding sequential class with the consensus dictionary update and the same options, and the returned dictionary is always in the constraint set.", "quantifier": "all signals, initial arrays, penalty and relaxation parameters, options, schedules", "why_tests_cant": "all states and options", "anchors": ["sporco/dictlrn/prlcnscdl.py:ConvBPDNDictLearn_Consensus", "sporco/dictlrn/prlcnscdl.py:ConvBPDNMaskDcplDictLearn_Consensus", "sporco/dictlrn/cbpdndl.py:ConvBPDNDictLearn", "sporco/dictlrn/cbpdndlmd.py:ConvBPDNMaskDictLearn"]}
{"id": "C63", "title": "Solver objects do not disturb each other", "statement": "The results of the methods of a parallel solver object do not depend on which other solver objects the program has constructed or used.", "quantifier": "all sequences of constructions and method calls on any number of objects", "why_tests_cant": "all histories", "anchors": ["sporco/dictlrn/prlcnscdl.py:ConvBPDNDictLearn_Consensus.__init__", "sporco/admm/parcbpdn.py:ParConvBPDN.__init__"]}
{"id": "C64", "title": "Parallel sparse coding performs the documented iterations", "statement": "After any sequence of ParConvBPDN.solve calls with k iterations in total the iterates are those of k iterations of the documented algorithm, however the iterations are divided into calls and wherever a callback or the tolerances stop a call, and the residuals recorded for an iteration are those of that iteration's iterates.", "quantifier": "all sequences of solve calls, stopping decisions, problem data, group counts", "why_tests_cant": "all histories; the implementation merges the end of each iteration with the start of the next and treats the first and last iterations of a call specially", "anchors": ["sporco/admm/parcbpdn.py:ParConvBPDN.solve", "sporco/admm/parcbpdn.py:par_stepgrp", "sporco/admm/parcbpdn.py:par_initial_stepgrp", "sporco/admm/parcbpdn.py:par_final_stepgrp", "sporco/admm/parcbpdn.py:par_compute_residuals"]}
{"id": "C65", "title": "The online dictionary update is a projected gradient step", "statement": "Each call of the online dictionary learning classes moves the dictionary along the negative gradient, with respect to the dictionary, of the (masked) data fidelity term of the given training signals at the coefficient maps just computed for them, by the documented step size, and projects the result onto the constraint set.", "quantifier": "all histories of training signals (numbers of channels, batch sizes, spatial sizes, masks), initial dictionaries, sparse coding options, step options", "why_tests_cant": "all histories and shapes; a test compares a few runs", "anchors": ["sporco/dictlrn/onlinecdl.py:OnlineConvBPDNDictLearn.solve", "sporco/dictlrn/onlinecdl.py:OnlineConvBPDNDictLearn.init_vars", "sporco/dictlrn/onlinecdl.py:OnlineConvBPDNDictLearn.setcoef", "sporco/dictlrn/onlinecdl.py:OnlineConvBPDNDictLearn.dstep", "sporco/dictlrn/onlinecdl.py:OnlineConvBPDNMaskDictLearn.dstep"]}
{"id": "C66", "title": "Fitting one set of coefficient maps to several dictionaries", "statement": "MultiDictConvBPDN(ConvBPDN, (D_0,...,D_B), (s_0,...,s_B), lmbda) solves argmin_x sum_b (1/2)||D_b x - s_b||^2 + lmbda ||x||_1 for any number of dictionaries, whose filters may have different sizes, and reconstruct(b) returns D_b x.", "quantifier": "all numbers of dictionaries and signals, all filter and signal sizes, all data, all weights and penalty parameters", "why_tests_cant": "The stacked arrays must give the documented sum for every number of dictionaries and every combination of filter sizes; a test checks a few shapes, and the repository's test does not call reconstruct.", "anchors": ["sporco/admm/cbpdn.py:MultiDictConvBPDN"]}
{"id": "C67", "title": "Each ADMM class solves the problem in its documentation", "statement": "For every ADMM solver class, with fixed rho and relaxation parameter in (0,2), the objective function written in the class documentation, evaluated at the array solve() returns, tends to its minimum as the number of iterations grows.", "quantifier": "all classes in sporco.admm with a convex documented problem, all signals, dictionaries, parameters, weights and initial states", "why_tests_cant": "infinite iteration histories and optimality over all competitors; a class that converges to the solution of a different problem passes residual-based tests", "anchors": ["sporco/admm/bpdn.py:BPDN", "sporco/admm/cbpdn.py:ConvBPDN", "sporco/admm/cbpdntv.py:ConvBPDNScalarTV", "sporco/admm/cbpdntv.py:ConvBPDNVectorTV", "sporco/admm/rpca.py:RobustPCA", "sporco/admm/tvl2.py:TVL2Deconv", "sporco/admm/cbpdntv.py:ConvBPDNRecTV", "sporco/admm/pdcsc.py:ConvProdDictBPDN", "sporco/admm/pdcsc.py:ConvProdDictBPDNJoint", "sporco/admm/pdcsc.py:ConvProdDictL1L1Grd", "sporco/admm/pdcsc.py:ConvProdDictL1L1GrdJoint"]}
{"id": "C68", "title": "The recorded residual of a PGM solver bounds the distance from the optimum", "statement": "At every iteration of a PGM solver on a convex problem, the recorded objective is that of the current solution array X and exceeds the objective at any feasible array Z by at most L*Rsdl*||Z-X|| + (Lf/2)*Rsdl^2, with L and Rsdl taken from the same row of the iteration statistics and Lf the Lipschitz constant of the gradient of the smooth term; in particular X is a solution if Rsdl is zero, and a solve() that stopped because Rsdl fell below RelStopTol returns an array this close to optimal.", "quantifier": "all convex problems, all options (momentum, step size policy, backtracking, Monotone), all initial states, all iterations", "why_tests_cant": "optimality is a statement about all competitors at every iteration; a solver that stops early because its residual vanishes at a non-optimal point looks converged in a test", "anchors": ["sporco/pgm/pgm.py:PGM.rsdl", "sporco/pgm/pgm.py:PGM.solve", "sporco/pgm/pgm.py:PGM.xstep", "sporco/pgm/cbpdn.py:ConvBPDN.rsdl", "sporco/pgm/backtrack.py:BacktrackRobust"]}
{"id": "C69", "title": "A PGM solver with a positive tolerance stops by itself", "statement": "With a positive RelStopTol, solve() of a PGM solver on a convex problem with a solution returns after a number of iterations bounded by the tolerance and the distance of the starting point from a solution, however large MaxMainIter is.", "quantifier": "all convex problems with a solution, all starting points, all tolerances", "why_tests_cant": "it is a bound on the length of every run, including runs far longer than a test can make", "anchors": ["sporco/pgm/pgm.py:PGM.solve", "sporco/pgm/pgm.py:PGM.rsdl", "sporco/pgm/cbpdn.py:ConvBPDN.rsdl", "sporco/pgm/bpdn.py:BPDN"]}
{"id": "C70", "title": "The functional recorded by dictionary learning is that of the learned dictionary and coefficients", "statement": "After every iteration of a dictionary learning object, the row of its iteration statistics gives data fidelity, l1 norm and functional: with AccurateDFid those at the dictionary returned by getdict() and the coefficients returned by getcoef(); without it those computed by the sparse coding step, i.e. for the dictionary from before the dictionary update.  Both options record the same functional, they differ only in the dictionary used.", "quantifier": "all signals, initial dictionaries, option values, sequences of solve() calls and callbacks, and iterations", "why_tests_cant": "the value passes through two solvers, the statistics mapping and the evaluation function; a stale or mixed-up value is plausible and looks like slow convergence", "anchors": ["sporco/dictlrn/dictlrn.py:DictLearn.solve", "sporco/dictlrn/bpdndl.py:BPDNDictLearn.evaluate", "sporco/dictlrn/wbpdndl.py:WeightedBPDNDictLearn.evaluate", "sporco/dictlrn/cbpdndl.py:ConvBPDNDictLearn.evaluate", "sporco/dictlrn/cbpdndlmd.py:ConvBPDNMaskDictLearn.evaluate"]}
{"id": "C71", "title": "A learned dictionary satisfies its constraints at every moment", "statement": "After construction, after every iteration and after every solve() call, getdict() of a dictionary learning object returns a dictionary whose atoms or filters have unit norm or are zero, vanish outside the declared support, are non-negative if that is requested and have zero mean if that is requested; the sparse coding step uses only such dictionaries.", "quantifier": "all signals, initial dictionaries, option values, sequences of solve() calls and callbacks, and iterations", "why_tests_cant": "the constraint must hold for every iterate of every run, including interrupted runs; tests look at shapes and final objective values", "anchors": ["sporco/dictlrn/dictlrn.py:DictLearn.solve", "sporco/dictlrn/bpdndl.py:BPDNDictLearn", "sporco/dictlrn/wbpdndl.py:WeightedBPDNDictLearn", "sporco/dictlrn/cbpdndl.py:ConvBPDNDictLearn", "sporco/dictlrn/cbpdndlmd.py:ConvBPDNMaskDictLearn", "sporco/pgm/cmod.py:getPcn", "sporco/cnvrep.py:getPcn"]}
{"id": "C72", "title": "The plug and play priors solvers reach the equilibrium of their operators", "statement": "With firmly nonexpansive operators and at least one equilibrium, the ADMM plug and play solver and its consensus version converge, from any state and for any penalty parameter and relaxation parameter in (0, 2), to an equilibrium, and both recorded residuals tend to zero; when the operators are the proximal operators of convex functions, the limit minimises the sum of those functions (weighted by mu in the consensus version). The proximal gradient version reduces the same objective at rate O(1/k^2), records the data fidelity term of the array the caller sees, and a zero recorded residual means an equilibrium.", "quantifier": "all operators, starting states, penalty and relaxation parameters, block counts and weights, iterations", "why_tests_cant": "convergence is a statement about the limit of infinitely many iterations for arbitrary operators", "anchors": ["sporco/admm/ppp.py:PPP", "sporco/admm/ppp.py:PPPConsensus", "sporco/pgm/ppp.py:PPP"]}
{"id": "C73", "title": "Convolutional sparse coding with inhibition", "statement": "The weights of the lateral and self inhibition terms are, after every iteration, the documented functions of the coefficient maps, mixed with the previous weights in the proportion SmoothWeight, and never negative; each iteration minimises the augmented Lagrangian with the current weights exactly, within the constraints asked for; a run that converges ends at a minimiser of the documented functional with the weights of that limit; without groups (or with mu zero) and with gamma zero the solver gives the iterates and statistics of the solver without inhibition; the recorded objective is the functional with the weights in use; and the spatial window is symmetric, centred at the origin and of the requested size.", "quantifier": "all signals, dictionaries, groups of filters, windows, parameters, starting states and iterations", "why_tests_cant": "the weights change with every iteration, and the statement about the limit is about infinitely many of them, for arbitrary data and windows", "anchors": ["sporco/admm/cbpdnin.py:ConvBPDNInhib", "sporco/admm/cbpdnin.py:ConvBPDNInhib.ystep", "sporco/admm/cbpdnin.py:ConvBPDNInhib.obfn_reg"]}
{"id": "C74", "title": "Lanczos interpolation filters", "statement": "lanczos_kernel is the documented windowed sinc function. interpolation_points(N) returns N equally spaced points of (-1/2, 1/2], one of them zero, and without zero those of N+1 points with zero removed. Every filter of lanczos_filters, in any number of dimensions, is the product over the axes of normalised one-dimensional kernels; the divisor of the normalisation is never zero, the entries add up to one, so constant signals are kept, the filter for -x is the mirror image of that for x, and at sampling points the filter returns the sample. Exceptions occur exactly for empty or multi-dimensional arrays and points outside [-1, 1]. collapse_axes gives one index to each combination of points.", "quantifier": "all kernel sizes, resampling points, numbers of axes and tuple entries", "why_tests_cant": "positivity of the normalisation is a statement about a transcendental function on a continuum of points for every kernel size", "anchors": ["sporco/interp.py:lanczos_kernel", "sporco/interp.py:interpolation_points", "sporco/interp.py:lanczos_filters"]}
{"id": "C75", "title": "Demosaicing", "statement": "bilinear_demosaic returns a three-channel image with no nan in which every sample of the mosaic appears unchanged in its channel and all other values are bilinear interpolations of samples of that channel; in particular the values of a channel stay within the range of its samples.", "quantifier": "all images of all sizes", "why_tests_cant": "the claim concerns arbitrary images, and depends on the parity of the numbers of rows and columns through the treatment of the corners", "anchors": ["sporco/interp.py:bilinear_demosaic"]}
{"id": "C76", "title": "Statistics of parallel dictionary learning", "statement": "Each step of a parallel consensus dictionary learning class (with or without mask) appends one row of statistics, numbered consecutively, whose values are the documented functional, its data fidelity term and the l1 norm at the dictionary and the coefficient maps that getdict and getcoef return right after that step; getdict always has the declared size and satisfies the constraints.", "quantifier": "all training sets, masks, initial dictionaries, options, numbers of processes, schedules, sequences of solve calls and callbacks", "why_tests_cant": "all schedules and inputs: the transforms that the evaluation reads are written by worker processes and must belong to the arrays that the getters read", "anchors": ["sporco/dictlrn/prlcnscdl.py:ConvBPDNDictLearn_Consensus.evaluate", "sporco/dictlrn/prlcnscdl.py:ConvBPDNDictLearn_Consensus.solve", "sporco/dictlrn/prlcnscdl.py:ConvBPDNMaskDcplDictLearn_Consensus.evaluate", "sporco/dictlrn/prlcnscdl.py:ConvBPDNMaskDcplDictLearn_Consensus.getcoef"]}
{"id": "C77", "title": "Options of the dictionary learning classes: independent objects, options of the chosen solvers", "statement": "In a program that constructs any number of options objects of a convolutional dictionary learning class with any methods and operates on them in any order, every object behaves as if it were the only one: the constructors of other objects, which write the defaults of their solvers into the class attribute that all objects are checked against, change neither its content nor which operations on it succeed. At every time it has under CBPDN and CCMOD exactly the options of the solver classes selected by its methods. A new object has the values the learning class prescribes and the solver defaults elsewhere; construction fails exactly for an unknown method. Assigning an option of a solver by tuple key succeeds exactly if that solver class has the option, and changes nothing else.", "quantifier": "all option trees of the solver classes, all interleavings of constructions, assignments and updates, succeeding or failing", "why_tests_cant": "the hazard is a shared mutable class attribute: its effect depends on the order of an arbitrary history of constructions and assignments", "anchors": ["sporco/dictlrn/cbpdndl.py:ConvBPDNDictLearn.Options.__init__", "sporco/dictlrn/cbpdndl.py:ConvBPDNOptionsDefaults", "sporco/dictlrn/cbpdndl.py:cbpdn_class_label_lookup", "sporco/dictlrn/cbpdndlmd.py:ConvBPDNMaskDictLearn.Options.__init__", "sporco/dictlrn/prlcnscdl.py:ConvBPDNDictLearn_Consensus.Options.__init__", "sporco/cdict.py:ConstrainedDict"]}
{"id": "C78", "title": "Salt and pepper noise, random masks and conversion to grey", "statement": "For a noise fraction between 0 and 1, whatever the random generator draws, every pixel of the output of spnoise is its original value, smn or smx, which of them depends only on the draw for that pixel, and exactly a fraction frc of the draws changes a pixel, half of them to each extreme. rndmask with a floating point type gives entries 0 and 1, 0 for exactly a fraction frc of the draws. rgb2gray lies between the smallest and largest channel value.", "quantifier": "all images, fractions, extremes, draws and data types", "why_tests_cant": "ranges over everything the random generator can draw and over the measure of the set of draws; the exceptional draws have probability zero and the integer types are not tried", "anchors": ["sporco/signal.py:spnoise", "sporco/signal.py:rndmask", "sporco/signal.py:rgb2gray"]}
{"id": "C79", "title": "The image of a dictionary shows every atom once", "statement": "The image constructed by tiledict for a dictionary of any number of atoms of any sizes contains every atom exactly once, in reading order on a grid, with tiles that lie within the image and do not touch each other, ones everywhere else, and all values mapped to [0, 1] by one increasing affine map that sends the smallest value of the dictionary to 0 and the largest to 1.", "quantifier": "all numbers of atoms, atom sizes, channels and values that are not all equal", "why_tests_cant": "the grid shape, the early exits of the two loops and the offsets have to fit together for every number of atoms and every combination of sizes", "anchors": ["sporco/util.py:tiledict"]}
{"id": "C80", "title": "Online learning sparse-codes each training array as the problem it was given", "statement": "For every dictionary size and training array accepted by the online dictionary learning classes, the sparse coding problem solved for the array has the declared roles of the axes and the declared numbers of channels, signals and filters.", "quantifier": "all dictionary sizes (one or several scales), training array shapes and settings of dimK", "why_tests_cant": "ranges over all combinations of sizes, including axes of size one, which the tests do not use", "anchors": ["sporco/dictlrn/onlinecdl.py:OnlineConvBPDNDictLearn.xstep", "sporco/dictlrn/onlinecdl.py:OnlineConvBPDNMaskDictLearn.xstep", "sporco/cnvrep.py:CSC_ConvRepIndexing"]}
{"id": "C81", "title": "Proximal gradient solvers constructed from the same options do not disturb each other", "statement": "Several solver objects may be constructed from one options object. Every solve() call then returns the same result and records the same statistics as if each solver had been given an options object of its own.", "quantifier": "for any number of solver objects of the proximal gradient classes with any problem data, any options, and any sequence of solve() calls on them", "why_tests_cant": "the objects in the options keep state between calls, so the result can depend on the whole history of calls of other solvers; tests construct one solver per options object", "anchors": ["sporco/pgm/pgm.py:PGM.__init__", "sporco/pgm/pgm.py:PGM.solve", "sporco/pgm/backtrack.py:BacktrackRobust", "sporco/pgm/stepsize.py:StepSizePolicyBB"]}
{"id": "C82", "title": "Solvers never change the arrays passed to them", "statement": "The arrays a program passes to a solver (dictionary, signals, mask, initial values) contain after any sequence of calls what they contained when they were passed, although constructors keep references to them without copying.", "quantifier": "for every class of the model, all array contents, all options, any number of objects' calls, iterations and line search passes, and every sequence of constructor, solve, get and set calls", "why_tests_cant": "in-place operations hit an input only through particular chains of aliases (same data type, no relaxation, particular options), and only histories of several calls show it", "anchors": ["sporco/admm/admm.py:ADMM.__init__", "sporco/admm/cbpdn.py:GenericConvBPDN", "sporco/admm/ccmod.py:ConvCnstrMOD_Consensus", "sporco/pgm/pgm.py:PGMDFT.xstep", "sporco/dictlrn/onlinecdl.py:OnlineConvBPDNDictLearn"]}
{"id": "C83", "title": "Arrays returned by solvers are snapshots", "statement": "An array returned by solve, getmin, getcoef or getdict keeps its contents whatever is done with the solver afterwards.", "quantifier": "for every class of the model, all array contents, all options, and every sequence of calls after the array was returned", "why_tests_cant": "tests look at a returned array once; whether a later call changes it depends on which attributes share memory and on which statements write in place", "anchors": ["sporco/admm/admm.py:ADMM.solve", "sporco/admm/admm.py:ADMMConsensus.ystep", "sporco/pgm/pgm.py:PGMDFT.xstep", "sporco/dictlrn/onlinecdl.py:OnlineConvBPDNDictLearn.getdict"]}
{"id": "C84", "title": "Sparse coding follows symmetries of its input", "statement": "Permuting signals, filters or channels, shifting signals circularly, or negating signals or filters changes the result of solve() only by the same permutation, shift and negation: after any number of iterations all arrays of the solver, the recorded statistics, the penalty or step size parameters and the iteration at which it stops are those of the original run, moved accordingly.", "quantifier": "for all dictionaries, signals, weights, masks, initial values and options, all permutations, shifts and signs (no negation with NonNegCoef, no shift with NoBndryCross), any number of iterations and repeated calls", "why_tests_cant": "a dependence on the order of filters or on the position of the origin may appear only for particular sizes, options, step size rules or late iterations", "anchors": ["sporco/admm/bpdn.py:BPDN", "sporco/admm/bpdn.py:ElasticNet", "sporco/admm/bpdn.py:BPDNJoint", "sporco/admm/cbpdn.py:ConvBPDN", "sporco/admm/cbpdn.py:ConvElasticNet", "sporco/pgm/bpdn.py:BPDN", "sporco/pgm/bpdn.py:WeightedBPDN", "sporco/pgm/cbpdn.py:ConvBPDN", "sporco/pgm/cbpdn.py:ConvBPDNMask"]}
{"id": "C85", "title": "Signals of a batch are coded independently", "statement": "Coding several signals in one call gives each of them the coefficients it would get alone or in any other batch: with a fixed penalty or step size parameter, after the same number of iterations the arrays of a solver for some of the signals (in any order, with repetitions) are the corresponding parts of the arrays of a solver for all of them. Only the stopping rule and the adaptive parameter rules couple the signals.", "quantifier": "for all dictionaries, signals, weights, masks, initial values and options without AutoRho (ADMM) or backtracking, step size policy and monotone restarts (PGM), all selections of signals, any number of iterations and repeated calls", "why_tests_cant": "a solver that lets one signal leak into another does so for particular shapes, solver branches or values of the other signals", "anchors": ["sporco/admm/bpdn.py:BPDN", "sporco/admm/bpdn.py:ElasticNet", "sporco/admm/bpdn.py:BPDNProjL1", "sporco/admm/bpdn.py:MinL1InL2Ball", "sporco/admm/cbpdn.py:ConvBPDN", "sporco/admm/cbpdn.py:ConvElasticNet", "sporco/admm/cbpdn.py:ConvBPDNJoint", "sporco/pgm/bpdn.py:BPDN", "sporco/pgm/bpdn.py:WeightedBPDN", "sporco/pgm/cbpdn.py:ConvBPDN", "sporco/pgm/cbpdn.py:ConvBPDNMask"]}
{"id": "C86", "title": "Data types", "statement": "The solution has the data type of the signal array, or the one given by DataType; converting dictionary, weights, parameters and intermediate arrays to that type does not change which problem is solved.", "quantifier": "for all dictionaries, signals of floating point or integer type, parameters, weights and options, any number of iterations and repeated calls", "why_tests_cant": "tests use floating point signals; conversions that truncate do nothing on the values a test happens to use", "anchors": ["sporco/common.py:IterativeSolver.set_dtype", "sporco/common.py:IterativeSolver.set_attr", "sporco/admm/bpdn.py:BPDN", "sporco/pgm/bpdn.py:BPDN"]}
{"id": "C87", "title": "Status display", "statement": "With Verbose, solve prints a header and then one row for every iteration it records, showing in this order the recorded iteration number, objective function values, residuals and algorithm parameters under their titles, with the columns lined up; it prints nothing without Verbose, and printing never raises an exception. With Verbose, statistics are also recorded when FastSolve is set.", "quantifier": "for all solver classes of the admm and pgm modules, options, initial states, callbacks, recorded values, numbers of iterations and repeated calls", "why_tests_cant": "the format strings are computed from class attributes; tests run with Verbose off or look at the output by eye for one class", "anchors": ["sporco/util.py:solve_status_str", "sporco/admm/admm.py:ADMM.display_start", "sporco/admm/admm.py:ADMM.display_status", "sporco/admm/admm.py:ADMM.hdrtxt", "sporco/admm/admm.py:ADMM.hdrval", "sporco/pgm/pgm.py:PGM.display_start", "sporco/common.py:IterativeSolver"]}
{"id": "C88", "title": "Convergence with automatic penalty parameter updates", "statement": "With AutoRho enabled (the default of BPDN, ConvBPDN and many other solvers) the ADMM solvers still converge: the residuals computed in each iteration tend to zero, the functional tends to its minimum, and solve stops by itself for positive tolerances, whatever the sequence of changes of the penalty parameter rho.", "quantifier": "for all problems, dictionaries, signals, initial states, relaxation parameters in (0, 2), AutoRho options and numbers of iterations", "why_tests_cant": "tests run a few problems for a few hundred iterations; whether the adaptation of rho can prevent convergence is a question about every infinite run", "anchors": ["sporco/admm/admm.py:ADMM.update_rho", "sporco/admm/admm.py:ADMM.compute_residuals", "sporco/admm/admm.py:ADMM.solve", "sporco/admm/bpdn.py:BPDN", "sporco/admm/bpdn.py:GenericBPDN.Options"]}
{"id": "C89", "title": "What the linear solver check certifies, and conjugate gradient dictionary updates", "statement": "With option LinSolveCheck the entry XSlvRelRes of each iteration record certifies the X update: it is zero exactly if X is the minimiser of the augmented Lagrangian, and a small value bounds the distance to it. For the dictionary updates by conjugate gradient (ConvCnstrMOD_CG, ConvCnstrMODMaskDcpl_CG), when conjugate gradient succeeds the recorded value is at most CG StopTol and X is that near to the X of the exact update; XSlvCGIt is the number of conjugate gradient iterations.", "quantifier": "for all dictionaries, coefficient maps, signals, penalty parameters, working variables, candidate spectra, tolerances and conjugate gradient routines that behave as SciPy documents", "why_tests_cant": "a test sees the value for the solver it runs on; that no wrong X gets a small value is a statement about all arrays", "anchors": ["sporco/linalg.py:rrs", "sporco/linalg.py:solvemdbi_cg", "sporco/admm/bpdn.py:GenericBPDN.xstep", "sporco/admm/bpdn.py:ElasticNet.xstep", "sporco/admm/cbpdn.py:GenericConvBPDN.xstep", "sporco/admm/cbpdn.py:ConvElasticNet.xstep", "sporco/admm/ccmod.py:ConvCnstrMODBase.xstep_check", "sporco/admm/ccmod.py:ConvCnstrMOD_CG.xstep", "sporco/admm/ccmod.py:ConvCnstrMOD_Consensus.xstep", "sporco/admm/ccmodmd.py:ConvCnstrMODMaskDcplBase.xstep_check", "sporco/admm/ccmodmd.py:ConvCnstrMODMaskDcpl_CG.xstep"]}
{"id": "C90", "title": "Classes with additional terms reduce to the basic classes", "statement": "With the default value 0 of mu, ElasticNet, BPDNJoint, ConvElasticNet, ConvBPDNJoint and ConvBPDNGradReg go through the same run as BPDN and ConvBPDN: the same iterates, residuals, penalty parameters, objective values and number of iterations. So does ConvBPDNInhib without inhibition (no groups or mu = 0, and gamma = 0). For a single signal or channel BPDNJoint and ConvBPDNJoint are BPDN and ConvBPDN with weights lmbda w + mu. With the default weights (ones) the PGM classes WeightedBPDN, WeightedCnstrMOD, ConvBPDNMask and ConvCnstrMODMask go through the same run as BPDN, CnstrMOD, ConvBPDN and ConvCnstrMOD.", "quantifier": "for all dictionaries, signals, weights, options (with AutoRho scaling at least 1), states that agree, and numbers of iterations and calls of solve", "why_tests_cant": "tests compare the classes on a few arrays up to rounding; the additional code paths (other linear solvers, caches, transforms of the residual) agree for all inputs and histories", "anchors": ["sporco/admm/bpdn.py:ElasticNet", "sporco/admm/bpdn.py:BPDNJoint", "sporco/admm/cbpdn.py:ConvElasticNet", "sporco/admm/cbpdn.py:ConvBPDNJoint", "sporco/admm/cbpdn.py:ConvBPDNGradReg", "sporco/admm/cbpdnin.py:ConvBPDNInhib", "sporco/pgm/bpdn.py:WeightedBPDN", "sporco/pgm/cmod.py:WeightedCnstrMOD", "sporco/pgm/cbpdn.py:ConvBPDNMask", "sporco/pgm/ccmod.py:ConvCnstrMODMask"]}
{"id": "C91", "title": "A solver constructed with Y0, U0 and rho of another one continues its run", "statement": "Construct a solver with the options Y0, U0 and rho set to the Y, U and rho of a solver that has been run, with the same data. A call of solve on the new solver gives the same variables, penalty parameter, result and number of iterations as a further call of solve on the first solver, and the same records except for the iteration number, which starts from 0. Automatic penalty updates must be off in the further call, or the first solver must have stopped at a multiple of the update period, which must not be 1.", "quantifier": "for all dictionaries, signals, parameters, options of both calls, initial values, and numbers of iterations, for the classes BPDN, BPDNJoint, BPDNProjL1, ElasticNet, CnstrMOD, ConvBPDN, ConvBPDNJoint, ConvBPDNProjL1, ConvCnstrMOD_IterSM, ConvCnstrMOD_Consensus, RobustPCA, SplineL1 and TVL2Deconv", "why_tests_cant": "a test restarts a few runs; that no other attribute (cached factorisations, spectra, X, AX) carries information over the restart must hold for every history", "anchors": ["sporco/admm/admm.py:ADMM.__init__", "sporco/admm/admm.py:ADMM.solve", "sporco/admm/admm.py:ADMM.update_rho", "sporco/admm/bpdn.py:GenericBPDN", "sporco/admm/cbpdn.py:GenericConvBPDN", "sporco/admm/ccmod.py:ConvCnstrMODBase", "sporco/admm/rpca.py:RobustPCA", "sporco/admm/spline.py:SplineL1", "sporco/admm/tvl2.py:TVL2Deconv"]}
{"id": "C92", "title": "Results do not depend on the units of the signal", "statement": "Multiply the signals, the parameter lmbda (and mu of a joint sparsity term, or the bound gamma on an l1 norm, but not mu of an elastic net), the absolute stopping tolerance and the initial values by a positive number c, and keep rho and the other options. Then solve gives c times the variables, the same number of iterations and the same penalty parameters; recorded objective values are multiplied by c squared, residuals are the same or, with StdResiduals, multiplied by c. This needs rho to be given: with the default rho of 50 lmbda + 1 it is false. The proximal gradient solvers behave in the same way when L is kept, the stopping tolerances RelStopTol and tau0 are multiplied by c (by c squared for the convolutional classes, whose residual is a squared norm) along with the signals. With RelStopTol kept, as its documentation as a relative tolerance suggests, this is false.", "quantifier": "for all dictionaries, signals, parameters, weights, options including AutoRho, initial states and numbers of iterations and calls of solve, and c > 0, for the classes BPDN, BPDNJoint, ElasticNet, BPDNProjL1, ConvBPDN, ConvElasticNet and ConvBPDNJoint, and the proximal gradient classes BPDN, WeightedBPDN, ConvBPDN and ConvBPDNMask with every step size policy, line search, momentum and stopping rule; residuals must not be normalised by zero", "why_tests_cant": "a test compares runs for a few arrays and factors up to rounding; the stopping test and the penalty updates must take the same decisions in every run", "anchors": ["sporco/admm/admm.py:ADMM.solve", "sporco/admm/admm.py:ADMM.compute_residuals", "sporco/admm/admm.py:ADMM.update_rho", "sporco/admm/bpdn.py:BPDN", "sporco/admm/bpdn.py:BPDNJoint", "sporco/admm/bpdn.py:ElasticNet", "sporco/admm/bpdn.py:BPDNProjL1", "sporco/admm/cbpdn.py:ConvBPDN", "sporco/admm/cbpdn.py:ConvElasticNet", "sporco/admm/cbpdn.py:ConvBPDNJoint", "sporco/pgm/pgm.py:PGM.solve", "sporco/pgm/pgm.py:PGM.rsdl", "sporco/pgm/pgm.py:PGMDFT", "sporco/pgm/bpdn.py:BPDN", "sporco/pgm/bpdn.py:WeightedBPDN", "sporco/pgm/cbpdn.py:ConvBPDN", "sporco/pgm/cbpdn.py:ConvBPDNMask"]}
{"id": "C93", "title": "Proximal gradient solvers started at a solution", "statement": "A proximal gradient solver constructed with a minimiser of the documented functional as X0 returns that array after one iteration, with recorded residual zero and the minimum as recorded objective, whenever its stopping tolerance is positive; without a stopping test it stays at the minimiser for all iterations, with a fixed L or a line search (with StepSizePolicyBB this is false: the step parameter becomes NaN). The zero array is a minimiser exactly when no entry of the correlation of the dictionary with the signals exceeds lmbda times its weight in absolute value (with NonNegCoef: exceeds it), so that with such lmbda a solver with default initial value returns exactly zero after one iteration.", "quantifier": "for all dictionaries, signals, lmbda, weights, momentum, step size policies, line searches, Monotone, AutoStop, L > 0, for BPDN and WeightedBPDN of the pgm modules", "why_tests_cant": "tests run from a few random arrays and do not start at exact minimisers; the claim is for all of them and all option combinations", "anchors": ["sporco/pgm/pgm.py:PGM.solve", "sporco/pgm/pgm.py:PGM.xstep", "sporco/pgm/pgm.py:PGM.ystep", "sporco/pgm/pgm.py:PGM.rsdl", "sporco/pgm/backtrack.py:BacktrackStandard", "sporco/pgm/backtrack.py:BacktrackRobust", "sporco/pgm/bpdn.py:BPDN", "sporco/pgm/bpdn.py:WeightedBPDN"]}
{"id": "C94", "title": "Inactive coefficients become exactly zero", "statement": "From some iteration on, the array returned by solve() of admm.bpdn.BPDN and admm.cbpdn.ConvBPDN is exactly zero (not merely small) at every coefficient whose atom or filter has, at the solution, a correlation with the residual strictly below lmbda times the weight; which solution is taken does not matter. In particular, when lmbda is strictly above the largest weighted correlation with the signal, the returned array is exactly zero after finitely many iterations.", "quantifier": "for all dictionaries, signals, positive lmbda and weights, NonNegCoef, NoBndryCross, initial states, relaxation parameters in (0, 2), fixed rho", "why_tests_cant": "the iteration from which this holds depends on the problem and is not bounded in advance; a test sees a few runs", "anchors": ["sporco/admm/bpdn.py:BPDN.ystep", "sporco/admm/cbpdn.py:ConvBPDN.ystep", "sporco/admm/admm.py:ADMM.solve", "sporco/admm/admm.py:ADMMEqual.ustep"]}
{"id": "C95", "title": "The solution found does not depend on the solver, its settings or its start", "statement": "For BPDN and ConvBPDN the reconstruction from the array returned by the ADMM solver tends to one and the same array whatever rho, the relaxation parameter and the initial state are, and the one from the proximal gradient solver of the same problem tends to that array too, with squared distance at most 4 L ||X0 - X*||^2 / (k + 1)^2 after k iterations, for any admissible L and start; the coefficients themselves need not be determined. For ElasticNet, and ConvElasticNet without cached components, with mu > 0, the functional has exactly one minimiser and X and Y tend to it whatever the settings and start are. With a mask, ConvBPDNMaskDcpl, AddMaskSim of ConvBPDN, ConvBPDNMask by PGM and ParConvBPDN (any schedule, number of groups, rho and alpha) tend to the same reconstruction at every sample the mask keeps. For TVL2Denoise with non-zero data weights the functional has exactly one minimiser and the returned image tends to it, whatever the settings and start are.", "quantifier": "for all dictionaries, signals, positive lmbda and weights, NonNegCoef, NoBndryCross, fixed rho > 0, relaxation parameters in (0, 2), initial states; PGM without backtracking, L at least the largest squared singular value", "why_tests_cant": "it compares the limits of infinitely many runs over a continuum of settings; tests compare two runs after finitely many iterations within a tolerance", "anchors": ["sporco/admm/bpdn.py:BPDN", "sporco/admm/bpdn.py:ElasticNet", "sporco/admm/cbpdn.py:ConvBPDN", "sporco/admm/cbpdn.py:ConvElasticNet", "sporco/pgm/bpdn.py:BPDN", "sporco/pgm/cbpdn.py:ConvBPDN", "sporco/admm/cbpdn.py:ConvBPDNMaskDcpl", "sporco/admm/cbpdn.py:AddMaskSim", "sporco/pgm/cbpdn.py:ConvBPDNMask", "sporco/admm/parcbpdn.py:ParConvBPDN", "sporco/admm/tvl2.py:TVL2Denoise"]}
{"id": "C96", "title": "Initial values given as options are used by the parallel solver", "statement": "When the options Y0, Y1, U0, U1 of admm.parcbpdn.ParConvBPDN are given, the iterations start from those arrays, and from zero arrays for those not given, whatever other solver objects the program has used before.", "quantifier": "all combinations and values of the four options, all sequences of objects constructed and solved before, all problems and iteration counts", "why_tests_cant": "it ranges over all initial values and all histories of the process; the tests of the module never give an initial value", "anchors": ["sporco/admm/parcbpdn.py:ParConvBPDN.__init__", "sporco/admm/parcbpdn.py:ParConvBPDN.Options", "sporco/admm/parcbpdn.py:init_mpraw", "sporco/admm/parcbpdn.py:ParConvBPDN.solve"]}
{"id": "C97", "title": "Functional values recorded by the parallel solver", "statement": "The objective function value, data fidelity and l1 term that ParConvBPDN records for an iteration are those of the documented masked functional at the variable of that iteration selected by fEvalX and gEvalY (X by default, Y1 with AuxVarObj), whatever the schedule of the worker processes is and whether or not further iterations follow.", "quantifier": "all dictionaries with one channel, signals, masks, weights, groupings, schedules, relaxation parameters, iteration limits and stopping decisions", "why_tests_cant": "the recorded numbers depend on how phases of neighbouring iterations are merged and on the iteration limit; tests do not compare the records of runs with different limits", "anchors": ["sporco/admm/parcbpdn.py:ParConvBPDN.obfn_dfd", "sporco/admm/parcbpdn.py:ParConvBPDN.obfn_reg", "sporco/admm/parcbpdn.py:ParConvBPDN.obfn_fvar", "sporco/admm/parcbpdn.py:ParConvBPDN.obfn_gvar", "sporco/admm/parcbpdn.py:ParConvBPDN.solve"]}
{"id": "C98", "title": "The result is stable under changes of the signal", "statement": "For BPDN, BPDNProjL1 and ConvBPDN the limits of the reconstructions from the arrays returned for two signals differ, in the l2 norm, at most as much as the signals do, whatever rho, relaxation parameter and start each of the two runs uses. For ElasticNet with mu > 0 the coefficients themselves are stable: ||X - X'||^2 <= ||S - S'||^2 / (4 mu). For TVL2Denoise the limits of the images returned, and for TVL2Deconv those images blurred, differ at most as much as the signals do.", "quantifier": "all dictionaries, pairs of signals, positive lmbda and weights, NonNegCoef, NoBndryCross, HighMemSolve, fixed rho > 0, relaxation parameters in (0, 2), starts", "why_tests_cant": "it bounds the change over a continuum of pairs of signals, and compares limits of infinite runs", "anchors": ["sporco/admm/bpdn.py:BPDN", "sporco/admm/bpdn.py:ElasticNet", "sporco/admm/cbpdn.py:ConvBPDN", "sporco/admm/tvl2.py:TVL2Denoise", "sporco/admm/tvl2.py:TVL2Deconv", "sporco/admm/bpdn.py:BPDNProjL1"]}
{"id": "C99", "title": "Effect and default of the regularisation parameter", "statement": "Increasing lmbda never decreases the data fidelity term of the solution BPDN or ConvBPDN tend to and never increases its l1 norm; the same for TVL2Denoise and TVL2Deconv with the total variation. The default lmbda, used when none is given, leads to a solution that is not zero whenever some atom is correlated with some signal. A larger radius gamma never increases the data term of BPDNProjL1, a larger epsilon never the l1 norm of MinL1InL2Ball, a larger mu never the l2,1 norm of BPDNJoint; a larger lmbda never increases the l1 norm of the sparse part of RobustPCA and never decreases the nuclear norm of the other part.", "quantifier": "all dictionaries, signals, pairs of positive lmbda, weights, constraints, fixed rho > 0, relaxation parameters in (0, 2), starts", "why_tests_cant": "monotonicity ranges over a continuum of parameters and the limits of infinite runs; that a default never degenerates is a statement about all dictionaries and signals", "anchors": ["sporco/admm/bpdn.py:BPDN.__init__", "sporco/pgm/bpdn.py:BPDN.__init__", "sporco/admm/cbpdn.py:ConvBPDN.__init__", "sporco/pgm/cbpdn.py:ConvBPDN.__init__", "sporco/admm/tvl2.py:TVL2Denoise", "sporco/admm/tvl2.py:TVL2Deconv", "sporco/admm/bpdn.py:BPDNProjL1", "sporco/admm/bpdn.py:MinL1InL2Ball", "sporco/admm/bpdn.py:BPDNJoint", "sporco/admm/rpca.py:RobustPCA"]}
{"id": "C100", "title": "Total variation restoration preserves the mean", "statement": "The images TVL2Denoise returns tend to an image with the same sum, weighted by the squares of the data weights, as the signal (the same mean with the default weight), and adding a constant to the signal adds the same constant to the limit. In every channel, the sum of the limit of the images TVL2Deconv returns, times the sum of the kernel, is the sum of the signal.", "quantifier": "all signals, kernels with non-zero sum, non-zero data weights, lmbda, weights of the total variation, channel groupings, fixed rho > 0, relaxation parameters in (0, 2), starts", "why_tests_cant": "it is an exact equality about the limit of infinite runs, for every signal; tests compare finitely many iterates within a tolerance", "anchors": ["sporco/admm/tvl2.py:TVL2Denoise", "sporco/admm/tvl2.py:TVL2Deconv"]}
{"id": "C101", "title": "Scaling and shifting the signal, reordering the dictionary", "statement": "For BPDN and ConvBPDN, multiplying the signal and lmbda by a positive number multiplies the limit of the reconstructions from the returned coefficients by it, and reordering the atoms of the dictionary together with the weights does not change that limit. For ConvBPDN without NoBndryCross a circular shift of the signal shifts the limit of the reconstructions by the same amount. For TVL2Denoise, multiplying the signal and lmbda by a positive number multiplies the limit of the images by it. The two runs compared may use different rho, relaxation parameters and starts.", "quantifier": "all dictionaries, signals, positive factors, shifts, permutations of the atoms, positive lmbda and weights (invariant under the shift), NonNegCoef, NoBndryCross, fixed rho > 0, relaxation parameters in (0, 2), starts", "why_tests_cant": "it relates the limits of two infinite runs for every factor, shift and permutation, where rounding, stopping rules and non-unique coefficients hide the relation in a finite comparison", "anchors": ["sporco/admm/bpdn.py:BPDN", "sporco/admm/cbpdn.py:ConvBPDN", "sporco/admm/tvl2.py:TVL2Denoise"]}
{"id": "C102", "title": "Shared arrays of the parallel solvers", "statement": "In the parallel dictionary learning classes each worker works on its own signal and only there: the shared array for a variable, read at position k, is slice k of the array it was initialised with, with the axis of the signals kept as an axis of length one; a write to position k is what is read at k afterwards and changes no other position; nothing outside the allocated buffer is used; and getcoef gives the array back with its original shape and every worker's results at the slice of its signal. In ParConvBPDN row m of a shared array is map m of the array it was initialised with, the worker of a group of maps changes the rows of its group only, and the arrays solve leaves have the original shape with the worker's results at the maps of its group.", "quantifier": "all ranks, shapes, positions of the signal axis, entries, slices and contents of the buffer", "why_tests_cant": "aliasing of storage and wrong axis order depend on rank and shape, and races on shared bytes on the schedule; tests try a few shapes and schedules", "anchors": ["sporco/dictlrn/prlcnscdl.py:mpraw_as_np", "sporco/dictlrn/prlcnscdl.py:swap_axis_to_0", "sporco/dictlrn/prlcnscdl.py:init_mpraw", "sporco/dictlrn/prlcnscdl.py:ConvBPDNDictLearn_Consensus.getcoef", "sporco/dictlrn/prlcnscdl.py:ConvBPDNMaskDcplDictLearn_Consensus.getcoef", "sporco/admm/parcbpdn.py:init_mpraw", "sporco/admm/parcbpdn.py:ParConvBPDN.solve"]}
{"id": "C103", "title": "Arrays allocated for real transforms and their data types", "statement": "rfftn_empty_aligned(shape, axes, dtype) gives an array with exactly the shape of the output of rfftn on an array of that shape, and irfftn of it with the original lengths as s has the original shape; only the last of the axes changes, to n//2+1; the shape alone does not determine the original one if that length is even. complex_dtype gives a complex type and real_dtype a real one for every type, each leaves its own kind alone, and they are inverse exactly for the types that correspond to each other. complex_dtype of the cupy version gives the same types.", "quantifier": "all ranks, shapes, sequences of distinct valid axes (non-negative and negative), all numeric data types", "why_tests_cant": "a wrong axis, parity or sign of an index shows only for some ranks, orders of axes and odd or even lengths", "anchors": ["sporco/fft.py:rfftn_empty_aligned", "sporco/fft.py:rfftn", "sporco/fft.py:irfftn", "sporco/fft.py:is_complex_dtype", "sporco/fft.py:complex_dtype", "sporco/fft.py:real_dtype", "sporco/cupy/__init__.py:_complex_dtype"]}
{"id": "C104", "title": "Real and complex inputs of the convolutional sparse coding and dictionary update classes", "statement": "The classes of admm.cbpdn and admm.ccmod accept real and complex dictionaries, coefficients and signals in any combination: no value of these or of a DFT coefficient loses its imaginary part in a working array, so that the x step solves its normal equation.", "quantifier": "all data types of D (or Z, which may be None) and S, all values of the option DataType, all values of the entries", "why_tests_cant": "the loss depends on the combination of types and shows as a wrong but plausible result, not as an exception", "anchors": ["sporco/admm/cbpdn.py:GenericConvBPDN.__init__", "sporco/admm/cbpdn.py:GenericConvBPDN.xstep", "sporco/common.py:IterativeSolver.set_dtype", "sporco/fft.py:empty_aligned_func", "sporco/admm/ccmod.py:ConvCnstrMODBase.__init__"]}
