# Design of the formal model of sporco

## 1. Trusted base

* Lean 4.33.0's kernel, and the three standard axioms `propext`,
  `Classical.choice`, `Quot.sound`. No axioms are added; no `sorry`, `admit`,
  `native_decide`, `bv_decide`.
* The reading of the Python source: the model is hand-written from `/repo`; every
  definition carries a comment citing the file and lines it models.
* Arithmetic. The numerical code is modelled over exact fields: the reals, the
  complex numbers, or an arbitrary (ordered) field. Floating-point rounding,
  overflow and `inf`/`nan` propagation are **not** modelled, and dtype
  conversion only as truncation to integers in `*/Dtype.lean` (C86);
  where the code would produce `nan` by `0/0` and then overwrite it
  (`zdivide`), the model gives the value after overwriting; where the code would
  divide by zero the theorem carries the explicit hypothesis that excludes it.
* Arrays. Arrays are functions from finite index types (or lists where the code
  is about order); an operation "along an axis" is modelled on one slice along
  that axis. Broadcasting and strides/views are not modelled unless said.
* External routines are parameters with their contract as hypothesis: LU,
  Cholesky, `eigh`, SVD, CG, LP solver, FFT (modelled by the DFT sum itself),
  clock readings, network outcomes, process schedules.

## 2. Layout

`lean/Verif/<Area>/Model.lean` (model of code, cited), `Spec.lean` (small
independent specification), `Lemmas.lean` (proof helpers), `Props.lean`
(property theorems, each with a satisfiability example). `Verif.lean` imports
everything.

| directory | code |
|-----------|------|
| `Options` | `cdict.py`, option classes of the solvers |
| `Timer` | `util.py` timers and their use in the solver loops |
| `Util` | `common.py:set_attr`, `util.py` (grid search, downloads), `mpiutil.py` |
| `Array` | `array.py`, `prox/_util.py` |
| `Cnvrep` | `cnvrep.py` |
| `Prox` | `prox/` |
| `Linalg` | `linalg.py` |
| `Signal`, `Interp`, `Metric` | `signal.py`, `interp.py`, `metric.py` |
| `Conv` | `fft.py` (as DFT sums), `admm/cbpdn.py` (equality and two-block classes, `AddMaskSim`), `admm/cbpdntv.py`, `admm/ccmod.py` and `admm/ccmodmd.py` (IterSM and consensus solvers; the CG solver is not modelled) |
| `Admm` | `admm/admm.py`, `admm/bpdn.py`, `admm/cmod.py`, `admm/rpca.py`, the `uinit` methods of all solvers |
| `Tv` | `admm/tvl2.py`, `admm/tvl1.py`: denoising (operators, inner iteration, and with `Tv/Denoise*` the whole classes), and (`Tv/Deconv*`) deconvolution of real images with one kernel per channel, axes in order |
| `Spline` | `admm/spline.py`, `dctii`, `idctii` of `fft.py` |
| `Par` | `dictlrn/prlcnscdl.py`, `admm/parcbpdn.py` |
| `Dictlrn` | `dictlrn/onlinecdl.py`, `dictlrn/dictlrn.py`, `dictlrn/common.py` |
| `Pgm` | `pgm/pgm.py`, `backtrack.py`, `momentum.py`, `stepsize.py`, `pgm/bpdn.py` |

## 3. Plan per property

| id | model | proof method |
|----|-------|--------------|
| C01-C03 | `ConstrainedDict` as an inductive tree with association list; `setitem`, `update`, `check`, `getparent` return `Except` and the possibly modified tree | invariant by induction over operation lists; mutual recursion on trees |
| C04 | options as finite record with history of plain-key sets | induction over history |
| C05 | `set_attr` on an optional attribute store, constructor chain as list of calls | computation; refutation for `CnstrMOD`, TV classes |
| C06 | `Timer` as map label -> (t0, accumulated) with explicit clock readings | invariant: refinement to interval-sum spec over history |
| C07 | event trace generated by the solver loop model, run through the Timer model | pointwise comparison of running intervals |
| C08 | list-based product grid, argmin, unravel | induction; characterisation of first minimiser |
| C09 | rank limits as closed formulas + prefix sums | arithmetic induction; refutation of the vector case with more ranks than points |
| C10 | retry loop over an outcome stream | induction on maxtry |
| C11-C13 | index-level models of reshape/stride operations | index arithmetic |
| C14 | shape inference on lists of sizes returning `Except` | case analysis |
| C15-C20 | scalar/slice models over the reals (complex for prox_l1) | convexity / subgradient / Cauchy-Schwarz arguments against an independent `IsProx` spec |
| C21 | prox_nuclear from a given SVD | duality of nuclear/spectral norm |
| C22 | clip after prox | positive theorem for l1, refutations for l1+l2 and l1-ball |
| C23-C28 | matrices/vectors over fields with star | algebra, induction over rank-one updates |
| C29-C33 | functions on `Fin n`, `ZMod n`, DFT sums | summation by parts, Parseval, trigonometric identities |
| C34 | normalise/zeromean/support projection | inner-product geometry |
| C35,C50 | solver loop as a fold with stop predicate over abstract steps | induction on iterations |
| C36 | `update_rho` | case analysis + induction over histories |
| C37 | residual formulas on abstract inner-product spaces | algebra |
| C38,C39 | ADMM operator on Hilbert spaces with prox steps; the classes instantiated one by one | Boyd's Lyapunov argument; iterates (`Admm/Iterates`, `Admm/IterGen`): a bounded subsequence has a limit, the limit is a saddle point, and the Lyapunov distance to it decreases to zero; X is recovered from A X (A injective), or from the normal equations of the X update (`TVL2Deconv`) |
| C40,C41 | normal equations; Jacobi iteration | completing the square; diagonal dominance; energy of the error under a pass |
| C42-C44 | uinit / cache / slicing models | subgradient check, cache-coherence invariant, index arithmetic; refutations where the code disagrees |
| C45-C49 | FISTA iteration, backtracking loop, monotone variant, step sizes, DFT-domain classes (`Pgm/Conv*`) | Beck-Teboulle argument, loop induction; DFT runs equal spatial runs; refutations for Monotone and half-spectrum backtracking |
| C51 | quadratic objectives, convolutional PGM classes | expansion identity, adjointness through the DFT; refutations for the masked classes |
| C52,C53 | shared-memory state as a function of slot; interleavings as permutations/sequences of atomic per-worker operations | commutation of operations on disjoint slots |
| C62 | the parallel step against a definition of the sequential iteration; numerical functions are parameters | footprints of statements; refutation with `L1Weight`, `NonNegCoef` |
| C64 | loop of `solve` with its first/last special cases; integer identity as equality up to 256 | the loop refines iteration of one ADMM step; refutations with 257 + 1 iterations and with `MaxMainIter` 2, 3 |
| C63 | histories of constructions and calls on one shared state | induction over histories; refutation |
| C54 | `OnlineConvBPDNDictLearn` (with and without mask) as a state machine; the sparse coding solver is an arbitrary function | invariant over the sequence of calls; harmonic series |
| C65 | same model | frequency domain computation = spatial residual and correlation; derivative of the fidelity term; refutations with two filters and two-sample signals |
| C66 | stacking of dictionaries and signals in `MultiDictConvBPDN`, for entries (no channel axis) and for shapes | stacked functional = documented sum, C39 for the inner solver; refutations for channel axes and `reconstruct` |
| C67 | the classes under C39, with the objective written in each class documentation; product dictionaries (`admm/pdcsc.py`, all four classes) through the multi-channel dictionary of all products | C39 for each class; simulation between classes; witness for `ConvBPDNScalarTV`; TV denoising: an even number of Jacobi passes is an exact proximal step (`Tv/JacobiProx`), proximal ADMM (`Admm/ProxConv`) |
| C68 | residual and statistics of the PGM loop, spatial and DFT domain | three point inequality for one proximal gradient step with any positive step parameter, for every iteration of every run; witnesses where `Monotone` or the robust line search makes the residual vanish elsewhere |
| C69 | same model | the potential of the accelerated method bounds the length of each step; the stopping rule is met after the stated number of iterations |
| C70 | `DictLearn` with the solver classes of `admm/bpdn.py`, `admm/cmod.py`, `pgm/bpdn.py`, `pgm/cmod.py`, and for the convolutional class those of `admm/cbpdn.py`, `admm/ccmod.py`, `admm/ccmodmd.py`, `pgm/cbpdn.py`, `pgm/ccmod.py`, plugged in | the run alternates between the two solvers (C55); the last inner iteration records its objective; the statistics map picks it up |
| C71 | same model | invariant of the inner solvers: the y step (ADMM) or the proximal step (PGM) projects |
| C72 | `Verif/Admm/Ppp.lean`, `Verif/Pgm/Ppp.lean`: `admm/ppp.py` and `pgm/ppp.py`, the operators being parameters | firmly nonexpansive operators make the iteration an averaged operator (Douglas-Rachford, `Verif/Admm/Firm.lean`), in the weighted product space for the consensus class; proximal operators are firmly nonexpansive, and equilibria are minimisers by the subgradient condition and a separating hyperplane; the rate by C45 |
| C73 | `Verif/Conv/InhibModel.lean`: `admm/cbpdnin.py`, the window function being a parameter | weights by the convolution theorem; updates by C40 and the weighted ℓ1 proximal operator; the limit by passing to the limit in the two minimality conditions (`Verif/Conv/InhibLim.lean`); simulation for the case without inhibition; windows in `Verif/Conv/InhibWin.lean` |
| C74 | `Verif/Interp/LanczosModel.lean`: the four functions of `interp.py` 92-227 over the reals | `sinc` is positive on (-π, π); the signs of the remaining terms of the normalisation alternate and their moduli decrease, so the sum is positive; index arithmetic for points and axes |
| C75 | `Verif/Interp/Demosaic.lean`: `interp.py` 24-89, the two SciPy routines being parameters with contracts (`Verif/Interp/DemosaicLib.lean` shows that the contracts can be met) | convex hull of the green sites: membership by midpoints, corners separated by a linear function; refutation of bilinearity by reproduction of cubics |
| C76 | `Verif/Par/Learn.lean`, `Verif/Par/LearnMask.lean`: `prlcnscdl.py` 453-640, 668-815, 1007-1209 with the transforms, solvers, proximal maps and projection of the code, constructors, getters and `evaluate` | every schedule gives the step of `C62_*`, which leaves transforms that belong to the arrays; induction over `solve` calls; equality with the objects of the sequential class by an invariant relating the arrays to their attributes |
| C77 | `Options/LearnOpt`: the options objects of the learning classes together with the class attribute `defaults` they share, as the state of a program of constructions and operations | invariant on all programs: the shared attribute keeps its top-level shape; assignment in a sub-tree does not read it (`setAt_self`); simulation with the program of one object alone |
| C78 | `Signal/Noise`: `spnoise`, `rndmask`, `rgb2gray` per pixel as functions of the draw; casts to integer and Boolean types | case analysis on the order of the sequential assignments; Lebesgue measure of the sets of draws |
| C79 | `Util/Tile`: `tiledict` with its two loops and early exits | loop invariant: after the counter has reached `k` the image holds the first `k` atoms; the tile of a pixel determines the atom |
| C55 | `DictLearn.solve` with arbitrary sub-solver objects, evaluation, clock and callback; `IterStatsConfig.iterstats`; the tables of `dictlrn/common.py`; the four dictionary learning classes with all their inner solvers | induction over the loop and over the sequence of calls; the finite set of configurations by evaluation in the kernel |
| C56-C57 | reals | algebra |
| C58 | reals; `inner` and `dot` on arrays with shapes and the broadcasting rule | algebra; index lists; refutation for different ranks |
| C60 | `pca` with the SVD as a contract parameter (existence proved) | Eckart-Young |
| C61 | TV constraint operators as lists of images; out-of-range component = `none` | summation by parts over rolled images; refutations for other axes |
| C59 | shapes as lists, broadcasting rule | case analysis over present axes; refutations |
| C80 | `Cnvrep/OnlineShape`: the shape of the squeezed dictionary passed to the solver | the two shape inferences (C14) compared; list arithmetic for the refutation |
| C81 | `Pgm/Share.lean`: the attributes `Tk`, `Zrb` of the line search object and `xprv`, `gradprv` of the policy object as one state shared by all solvers constructed from the options, loaded into `Pgm.Vars` before each `solve` and stored after it | without the robust line search and without the Barzilai-Borwein policy all steps commute with replacing that state (induction on the loop and the call list); with that policy the first iteration overwrites it before use; two counterexamples with one by one dictionaries |
| C82 | `Util/Heap.lean`: arrays as heap objects, attributes as references, the three kinds of assignment (new array, shared array, in-place); `Util/Alias.lean`: the assignments of eight classes line by line with arbitrary right-hand sides and conditions | ownership invariant: only arrays of certain attributes, or created in the same block, are written in place, and these never share memory with the rest; preserved by every statement, induction on the history |
| C83 | as C82 | the same invariant for classes that return attributes outside the owned ones; for the other three the returned reference is shown to stay that of the working array, and a history refutes the claim |
| C84 | `Admm/Symm.lean`, `Pgm/Symm.lean`: two runs of the solver models side by side; `Admm/BpdnSymm.lean`, `Conv/Symm.lean`, `Pgm/ConvSymm.lean`: the changes of the input and what they do to the methods of each class | the steps of ADMM are unique minimisers, so an isometry between the two problems carries one run to the other; for proximal gradient every method commutes with the isometry, which in the Fourier domain multiplies by phases; induction on the iterations and on the passes of the line search |
| C85 | `Admm/Batch.lean`, `Conv/Batch.lean`, `Pgm/Batch.lean`: a run for all signals beside a run for a selection of them | every step commutes with the selection; induction on the iterations; the tests that end the loop are the only place where the two runs may part, and `C85_stopping_refuted` shows that they do |
| C86 | `Admm/Dtype.lean`, `Pgm/Dtype.lean`: a type is a rounding (none for floating point, truncation for integers) applied where the code converts | floating point: the object is the one of C39; integers: the converted dictionary is zero, so zero is preserved by every step (induction), against a witness with a smaller objective; the entries stay in the type (induction) |
| C87 | `Util/Display.lean`: strings as lists of characters, the subset of the % operator used, `solve_status_str`; `Util/DisplayCls.lean`: the class attributes of 61 solver classes as tables; `Admm/Display.lean`, `Pgm/Display.lean`: output of `solve` | a parser for the format string proved to invert its construction (induction on the columns); the tables checked class by class (finite, complete: decide); the rows by induction on the iterations |
| C88 | `Admm/AutoConv.lean`: the loop of `Admm/Model.lean` with `update_rho`; `Admm/AutoBpdn.lean`: `BPDN` | a Lyapunov function for the unscaled dual variable, multiplied by the accumulated variation of log rho, decreases along every run; the refutation is an exact orbit of period 4 of `BPDN` |
| C89 | `Admm/LinCheck.lean`: `xrrs` of `bpdn.py`; `Conv/LinCheckModel.lean`: `rrs` of complex arrays, the checks of `cbpdn.py`, `ccmod.py`, `ccmodmd.py`, the CG updates with SciPy's `cg` as a parameter | the system matrix at each frequency is at least rho, so the residual bounds the error of the spectrum; Parseval bounds the error of the array (`Conv/LinCheck.lean`) |
| C90 | `Admm/Special.lean`, `Conv/Special.lean`, `Pgm/Special.lean`: the existing class models | two classes whose methods agree for positive rho go through the same run (`agrees_solve`); for the masked PGM classes the methods agree on the spectra of real arrays, a subspace that runs do not leave (`agreeOn_solve`) |
| C91 | `Admm/Warm.lean`, `Conv/Warm.lean`: the existing class models and `construct`, the state that the constructor makes from `Y0`, `U0`, `rho` | simulation: the methods do not depend on `X` and on the cached values except through an invariant that the constructor establishes (`Forgets`, `Keeps`), so that the loop started from 0 follows the loop started from `n` (`loop_warm`) |
| C92 | `Admm/Scale.lean`, `Conv/Scale.lean`, `Pgm/Scale.lean`, `Pgm/ConvScale.lean`: the existing class models; specification `St.scaled`, `Stat.scaled`, `Opts.scaled` | every method is homogeneous (`Scales`), so that the loop commutes with the change of units (`scaled_solve`); the linear solvers are linear in the right hand side whatever factorisation is cached; for projections uniqueness of the nearest point |
| C93 | `Pgm/Stay.lean`: the existing model of `PGM` with all options; specification: minimisers of `objBPDN`, `objWBPDN` over `allowed`, `AboveCritical` | a minimiser is a fixed point of the proximal gradient map for every `L > 0` (convexity along the segment); invariant `In`: all arrays of the solver equal the minimiser, so that line searches accept at the first pass |
| C94 | `Admm/BpdnIter.lean`, `Conv/Iterates.lean` on the models of `BPDN` and `ConvBPDN`; specification: minimisers of `objBPDN`, `objConv`, `Inactive` (correlation with the residual at a minimiser) | U converges to the scaled correlation with the residual (`Admm/Iterates.lean`: bounded, a cluster point is a saddle point, Fejer monotone); where Y is not zero the U update leaves U exactly at the threshold |
| C95 | `Admm/Settings.lean`, `Conv/Settings.lean`, `Conv/SettingsMask.lean` on the models of the ADMM and PGM classes; specification: minimisers of `objBPDN`, `objEN`, `objConv`, `objConvEN`, `objMask`, `objValid`, entrywise limits | convergence of the iterates (C39), uniqueness of the reconstruction over the minimisers, quadratic growth of the functional away from a minimiser (`ls_growth`) with the rate of C45 |
| C96 | `Par/Start.lean`: `init_mpraw` and the assignments of `mp_Y0`, `mp_Y1`, `mp_U0`, `mp_U1` in the constructor on a dictionary of module variables, then `solve` of `Par/ParCbpdn.lean`; specification: `expected`, the iterations from the given values | what each variable holds after the construction (`construct_get`); induction over the objects of the program; counterexample with two objects |
| C97 | `Par/Record.lean`: `obfn_fvar`, `obfn_gvar`, `obfn_dfd`, `obfn_reg` on the shared arrays of `Par/ParCbpdn.lean`; specification: `objMask`, the iterations `admmStep` | induction over the loop of `solve` for the list of records (`loop_stats`), from what the phases leave in the arrays (`body_core`); counterexample with one filter and one sample |
| C98 | `Admm/Stable.lean`, `Admm/StableMore.lean`, `Conv/Stable.lean`, `Tv/Stable.lean` on the models of `BPDN`, `ElasticNet`, `ConvBPDN`, `TVL2Denoise`, `TVL2Deconv`; specification: entrywise limits, sums of squares | convergence of the iterates (C39); the variational inequalities at the two minimisers, added, give `‖L(x - y)‖² ≤ ⟨b - c, L(x - y)⟩` |
| C99 | `Admm/Stable.lean`, `Admm/StableMore.lean`, `Conv/Stable.lean`, `Tv/Stable.lean`: `lmbdaDefault` models the default of the constructors; specification: data term and weighted l1 norm of the limits | exchange argument on the two minimisers; optimality of zero in terms of the correlations (C93, C94); for `ConvBPDN` the claim on the default is refuted |
| C100 | `Tv/Stable.lean` on the models of `TVL2Denoise` and `TVL2Deconv`; specification: sums of the entrywise limits | the minimiser, shifted by a constant, is compared with itself: the total variation does not change, so the derivative of the data term in the shift is zero; uniqueness of the minimiser for the equivariance |
| C101 | `Conv/Equivar.lean` on the models of `BPDN`, `ConvBPDN` and `TVL2Denoise`; specification: entrywise limits of the two runs | the map carries a minimiser of one functional to one of the other (`isMin_map`); uniqueness of the reconstruction (C95) |
| C102 | `Par/Layout.lean`, `Par/LayoutMove.lean`: numpy arrays as shape and entries, `newaxis`, `swapaxes`, `moveaxis`, indexing by the first axis, a flat buffer viewed in C order, assignment to an array and to a row; specification: `Same` (equal shape and entries) and `slice` | the positions of C order are injective and below the size, by induction on the rank; the swap of two axes computed on the index |
| C103 | `Util/FftShape.lean`: Python indices, shapes as lists, the shape of a sequence of one dimensional transforms as specification, the data types as an inductive type | transforms that keep the length of their axis keep the shape, by induction on the axes; cases on the data type |
| C104 | `Conv/CplxType.lean`: the data types fixed by the constructor, the conversion on assignment, the first x step for one filter with Mathlib's DFT on `ZMod N` | cases on the types; the real part of the transform is the transform of the mean with the conjugated reflection; refuted for complex `D` with real `S` |

Properties found to be false of the code are stated, refuted on a concrete
witness, and kept with a `_partial` theorem on the part of the domain where they
hold; section 4 lists them.

## 4. Disagreements found between documentation and code

(Collected while reading; each gets a refutation theorem when modelled.)

1. `ConstrainedDict.update` is not atomic.
2. `CnstrMOD` (ADMM) and the TV-regularised CBPDN classes: documented default
   `rho` never takes effect because the base constructor sets it first.
3. `mpiutil.grid_search` with a vector-valued function and more ranks than grid
   points: ranks with an empty chunk take the scalar branch of the collective.
4. `BPDNJoint`, `BPDNProjL1`: clipping after the prox/projection is not the
   constrained prox/projection.
5. `kpsvd` raises for block dimensions equal to one.
6. `gradT` without zero padding fails on length-one axes.
7. `gradient_filters`, `TVL2Denoise.cnst_AT`: axes other than `0..n-1`.
8. `solve_symmetric_sylvester` takes absolute eigenvalues: wrong for indefinite input.
9. `_Pcn_zm` ignores `dimN`.
10. `WeightedADMMConsensus.rsdl_rn/rsdl_sn` do not match the documented weighting.
11. `RobustPCA.uinit` has the wrong sign; `BPDN.uinit` ignores `L1Weight`.
12. `HighMemSolve`: `ConvBPDN` caches with the base-class default rho before the
    documented default replaces it; `ConvElasticNet`/`ConvBPDNGradReg` recompute
    the cache with the wrong formula after a rho change.
13. `NoBndryCross` zeroes everything for filters of size one along an axis.
14. `Monotone`: first iterate not compared; in the DFT variant the rejected
    iterate is returned.
15. `WeightedBPDN.hessian_f` is the unweighted Hessian.
16. `BPDN.reconstruct(X)` (PGM) ignores its argument.
17. `ConvBPDNScalarTV` with per-filter `TVWeight` uses the scaled-identity solver
    for a non-constant diagonal (`C40_convtv_xstep_refuted`).
18. `ParConvBPDN` residuals compare the *next* x iterate with the current y.
19. `OnlineConvBPDNMaskDictLearn.dstep` uses `W` where the gradient of the masked
    objective has `W**2` (equal for 0/1 masks).
20. `array2ntpl(ntpl2array(t))` raises an error if the fields of `t` are sequences
    (as in the iteration statistics): `hstack` concatenates them.
21. `prox_l1` on complex arrays: `0/0` at zero entries.
22. `solve(MaxMainIter=0)` still advances the iteration counter.
23. `AutoRho` with `Period = 1` does not update after the first iteration.
24. `MinL1InL2Ball.uinit` reads `self.S` before it is set; `rsdl_s` is not the dual
    residual of the two-block problem. `ConvBPDN.uinit` with `Y0` given reads
    `self.lmbda` before it is set; the same in `SplineL1`.
25. `ParConvBPDN.solve` compares iteration counters with `is`.
26. Generalised linear momentum: first step, and `a >= b - 1`.
27. Barzilai-Borwein step sizes mix differences of `X` and gradients at `Y`; Cauchy
    step sizes are `0/0` at a stationary point.
28. `psnr`/`gmsd`/`pamse` are `nan` on images with maximum zero.
29. `AuxVarObj` accepts tuple keys that bypass the coupling with `fEvalX`/`gEvalY`.
30. `l1Wshape`: for signals with a signal axis and no channel axis a weight array of the
    documented shape `S.shape + (M,)` gets the signals on the channel axis; for multi-channel
    dictionaries the documented shape is not compatible with the coefficient maps.
31. `nkp` and `kpsvd` raise `ValueError` if `B` has a dimension one, although such factors are
    allowed by the problem (`subsample_array` requires the step to be smaller than the size).
32. TV denoising: the transpose operator takes the component of its argument whose number is the
    axis number, not the position of the axis in `axes`; it raises `IndexError` for `axes=(1,)`
    (TVL2), and is not the adjoint for `axes=(1, 0)` or, silently, for TVL1 with `axes=(1,)`.
    Axes of length one make the gradient raise.
33. The default initial `U` given an initial `Y`: wrong for `L1Weight` or `TVWeight` different from
    one, for `BPDNJoint` with `mu > 0`, for TV with `caxis`, for dictionaries that are not
    normalised; of the wrong sign in `RobustPCA`; and in `SplineL1`, `MinL1InL2Ball`, `ConvBPDN`,
    `ConvBPDNMaskDcpl`, `ConvMinL1InL2Ball` its computation raises `AttributeError`.
34. `tikhonov_filter` on an image whose padded axis has one sample: the gradient filter is cut off by
    the transform length, and the lowpass image is not the documented minimiser.
35. `local_contrast_normalise` with `c=None` divides 0 by 0 on a constant channel; with `n=0` it
    returns empty arrays.
36. The parallel dictionary learning classes ignore `L1Weight`, `NonNegCoef` and `NoBndryCross`, while
    their documentation gives the options of the sequential classes and names only `AutoRho` as
    ignored.
37. The parallel solvers keep their state in module globals: after a second object is constructed,
    methods of the first work on the data of the second.
38. `ParConvBPDN`: a `solve()` call that starts at iteration 257 or later is not recognised as starting
    (`is` on integers), so it omits the X update it needs if the previous call ended at iteration 257 or
    earlier. The residual recorded for an iteration depends on `MaxMainIter`; the dual residual has no
    factor `rho`.
39. `ParConvBPDN`: the options `Y0`, `Y1`, `U0`, `U1` are stored in globals named `Y0`, ... and not read;
    for a multi-channel dictionary the x step sums over axis number `mp_C` (the number of channels)
    instead of the channel axis; more groups than filters raise an error in the constructor. (Not modelled
    except the last.)
40. Online dictionary learning: the shape information is renewed only if the spatial size of the signal
    changes; a batch of one signal after a batch of `K` signals of the same size counts `K` times.
41. Online dictionary learning with a single-channel dictionary and a multi-channel signal: the
    coefficient maps are moved to the signal axis but the signal is not; the computed gradient is not
    that of the fidelity term (with several signals an exception is raised).
42. `DictLearn.solve` with `MaxMainIter` 0 advances the iteration counter, leaving a gap in the numbering.
43. `linalg.inner` is documented as `np.sum(x * y, axis=axis, keepdims=True)`; for arrays of different ranks it
    pairs the leading axes instead of the trailing ones.
44. Backtracking in the DFT-domain PGM solvers compares `F` and `Q` summed over the half spectrum of a real
    transform, without weighting the frequencies that stand for two: a step is accepted although the
    quadratic model does not bound the spatial data fidelity term there (`C46_dft_refuted`).
45. `obfn_f` of the masked classes of `pgm/cbpdn.py` and `pgm/ccmod.py` is taken over the half spectrum and is
    not the function whose gradient `grad_f` returns.
46. `hessian_f` of `ConvBPDNMask` and `ConvCnstrMODMask` (PGM) is inherited and ignores the mask.
47. `MinL1InL2Ball`, `ConvMinL1InL2Ball` and `ConvBPDNMaskDcpl` override `rsdl_s` with `rho Aᵀ u`.
    After an exact x update that is the dual residual of the constraint plus `1 - RelaxParam` times
    its previous value, so it is the dual residual only with `RelaxParam` 1; the defaults are 1.8
    (C37).  It still tends to zero (C39).
48. `ConvCnstrMODMaskDcpl_Consensus.compute_residuals` normalises the primal residual with the norm of
    y instead of that of its `Nb` copies, unlike `ADMMConsensus.rsdl_rn` and unlike the generic formula
    (C37).
49. `ADMM.update_rho` rescales `self.U` only.  `ConvCnstrMODMaskDcpl_Consensus` keeps a second scaled
    dual variable `self.U1` and does not override the method, so with `AutoRho` enabled (it is off by
    default for this class) `rho U1` jumps at every change of rho (C36).
50. TV deconvolution with a kernel whose entries add up to zero: the x update divides zero by zero at
    frequency zero and the image becomes NaN, although the problem has solutions (C40).
51. TV deconvolution with an axis of length one: `gradient_filters` transforms `[1, -1]` to length one, which
    cuts it to `[1]`, so that the "difference" along the axis is the image itself (C61).
52. All TV solvers with `caxis` and an array `TVWeight`: the sum over the channel axis in `eval_objfn` does not
    keep the axis, the weights have it, and the broadcast product is not the weighted gradient norm. For a
    square image of side n and weights one the recorded `RegTV` is n times too large; other images raise
    `ValueError` (C59).
53. `AddMaskSim` with a mask that has no signal axis (or no channel axis, or a spatial axis of length one),
    documented as allowed: `Yi[np.where(self.W.astype(bool))] = 0.0` uses the indices of the mask array, which
    is not broadcast, so that only the first signal (channel, row) is masked and for all others the additive
    component is free. Their coefficients tend to zero whatever the signal (C59,
    `C59_addmask_broadcast_refuted`). For the same reason values of the mask other than zero act as ones.
54. `AddMaskSim.setdict` calls `sl.atleast_nd`, which is in `sporco.array` and not in `sporco.linalg`, so it
    always raises `AttributeError`. (By reading; no theorem.)
55. `BPDNProjL1` and `ConvBPDNProjL1` with `NonNegCoef` project onto the l1 ball and then clip, which is not the
    projection onto the intersection. This is not only a different proximal step: for the dictionary `[1, -2]`,
    the signal 1 and `gamma = 1/2` the objective at the returned array never tends to the minimum, whatever the
    penalty parameter, relaxation and start (`C22_C39_projl1_nonneg_refuted`).
56. `ConvBPDNGradReg` inherits `rhochange`, which with `HighMemSolve` replaces the cached component of
    `solvedbd_sm` for `mu GHGf + rho` by the component of `solvedbi_sm` for `rho`: after the first change of rho
    every X update is wrong (`C43_gradreg_refuted`). An axis of the signal with one sample is regularised as if
    its gradient were the array itself, because the filter `[1, -1]` is cut to `[1]`; the theorems assume at
    least two samples along each axis.
57. `ConvL1L1Grd.__init__` calls the constructor of its parent, which calls `setdict`, before it sets `mu` and
    `GHGf`: with `HighMemSolve` and a single-channel dictionary the object cannot be constructed
    (`AttributeError`, `C43_convl1l1grd_refuted`).
58. `MultiDictConvBPDN.reconstruct` calls `rfftn`, which `sporco/admm/cbpdn.py` does not import: every call raises
    `NameError` (`C66_reconstruct_refuted`).
59. `MultiDictConvBPDN` concatenates the signals along axis `dimN + dimC`, but inserts a channel axis at `dimN` only
    when there is none: dictionaries with a channel axis are refused for every shape (`C66_channels_refuted`).
60. `ConvBPDNScalarTV.ystep` calls `prox_l2` without an axis, whose default is the norm of the whole array: the class
    converges to the solution of a problem with the regulariser `mu` times one norm of all gradients, not the sum of
    total variations in its documentation (`C67_convscalartv_refuted`).
61. `ConvBPDNScalarTV.obfn_reg` multiplies `Wl1` by an array with one more axis: an `L1Weight` with one weight for
    each filter gives a recorded `RegL1` (and `ObjFun`) of the sum of the weights times the plain l1 norm
    (`C40_convtv_recorded_refuted`). `ConvBPDNVectorTV` is the same.
62. `ConvBPDNScalarTV` and `ConvBPDNVectorTV` accept `NonNegCoef` and `NoBndryCross` and ignore them
    (`C22_convtv_refuted`).
63. `ConvBPDNRecTV.ystep` assigns to `self.block_sep1(self.Y)[:]`. For a multi-channel dictionary `block_sep1`
    reshapes a slice that is not contiguous; unless there is one signal, or as many signals as channels, NumPy
    returns a copy and the gradient block of Y keeps its initial value for ever (`C67_convrectv_block_refuted`,
    `C67_convrectv_refuted`).
64. `ConvBPDNRecTV.cnst_AT` does not sum over the channels of a multi-channel dictionary: it is not the adjoint of
    `cnst_A`, and the dual residual is wrong (`C61_convrectv_refuted`).
65. `ConvBPDNRecTV` ignores `NonNegCoef` and `NoBndryCross` as well (`C22_convrectv_refuted`).
66. `ConvProdDictBPDN.setdict(B=B)` without D keeps the array `DSfBQ` of the old B and of its eigenvectors: the X
    update afterwards is not the minimiser for the new B (`C40_proddict_setB_refuted`); with D given every history
    is exact (`C40_proddict_history_partial`).
67. `ConvProdDictBPDN` with `HighMemSolve` and the default rho solves the first X update with the cache for rho = 1,
    as `ConvBPDN` does (`C43_proddict_refuted`).
68. The dual residual of `ConvProdDictL1L1Grd` and `ConvProdDictL1L1GrdJoint` is computed as rho A^T U although the
    objective has the smooth gradient term: along every run it approaches mu times the norm of the gradient operator
    applied to X (`C39_proddictl1_residual_partial`), so it need not tend to zero and the stopping rule may never be
    met (`C39_proddictl1_residual_refuted`); the objective still tends to the minimum (`C39_C67_proddictl1_partial`).
69. `ConvProdDictL1L1Grd` with `HighMemSolve` cannot be constructed (setdict reads mu before it is set), and its
    options `Y0` and `U0` are ignored (`C43_proddictl1_refuted`).
70. (Read from the code, not modelled) `ConvProdDictL1L1GrdJoint` called without options raises a TypeError at
    `opt['L21Weight']`; an `L21Weight` array with more than the coefficient and filter axes is broadcast differently
    in `ystep` and in `obfn_g1`.
71. With `Monotone` the residual after the first iteration is the distance of X from the *new* Y. It does not certify
    X: with the default momentum it can be zero at a point that is not a solution (`C68_monotone_refuted`), and with
    `MomentumLinear` it is zero in the second iteration of every convex problem, so that every `solve()` with a
    positive `RelStopTol` stops after at most two steps (`C68_monotone_linear_refuted`).
72. `BacktrackRobust` replaces Y inside the search, but the residual is measured from the Y of the iteration before; it
    too can be zero at a point that is not a solution (`C68_robust_refuted`).
73. `PGM.rsdl` is the length of the step, but `rsdl` of `ConvBPDN`, `ConvCnstrMOD` and their masked versions is its
    square, although both are compared with the same `RelStopTol` (`C68_partial`, `C68_convbpdn_partial`).
74. `WeightedBPDNDictLearn` with option `Monotone` in its sparse coding part: the comparison value is the objective
    for the dictionary of an earlier outer iteration.  The recorded functional can be stale, and sparse coding can increase
    the functional although L is valid (`C47_C70_learning_refuted`).
75. `ConvBPDNDictLearn` with `AccurateDFid` evaluates the functional at the variable Y of sparse coding.  With the option
    `ReturnX`, `getcoef()` returns X, and the recorded terms are not those of the returned coefficients
    (`C70_convdl_returnx_refuted`).
76. With `AccurateDFid` the recorded l1 term ignores the option `L1Weight`, without it the term is weighted; the option
    changes the functional and not only its accuracy (`C70_convdl_weight_refuted`).
77. `ConvBPDNDictLearn` with `ZeroMean` for signals with one or three spatial axes: the projection subtracts means over two
    axes, and the learned filters do not have zero mean (`C71_convdl_zeromean_refuted`, compare `C34_getPcn_refuted`).
78. `ConvBPDNMaskDictLearn` with `AccurateDFid` computes the data fidelity from `getcoef()`, but the l1 term from block 1 of
    Y.  With the option `ReturnVar` equal to `'X'` these are different variables, and the recorded functional is that of no
    iterate (`C70_maskdl_returnvar_refuted`); `L1Weight` is ignored as in item 76 (`C70_maskdl_weight_refuted`).
79. `reconstruct` of `CnstrMOD` in `pgm/cmod.py` (227-232) reads `self.D`, which the class does not have: every call raises
    `AttributeError`.  (Not modelled.)
80. The constructors of the dictionary learning classes store the initial dictionary in the options object of the
    caller (`opt['CCMOD'].update`, `cbpdndl.py` 451-454, `cbpdndlmd.py` 471-478), and `Options.__init__` of these classes
    changes the defaults of the class (`self.defaults.update`, `cbpdndl.py` 365, `cbpdndlmd.py` 371).  (Not modelled.)
81. `pgm/ppp.py` accepts the `Monotone` option, but the only objective value the class has is that of `f`, so the
    safeguard rejects every step that increases `f`, and the run can stay for ever at a point that is not an equilibrium
    (`C72_pgm_monotone_refuted`).  Backtracking and the Cauchy step size policy are accepted by the options class and
    raise an exception, as `obfn_f` and `hessian_f` are not defined.
82. `cbpdnin.py` 258-261 makes the window length odd "for symmetric inhibition", but `signal.get_window` returns a
    periodic window (`fftbins=True`), so that the window is not symmetric for any length (`C73_window_refuted`).
83. `cbpdnin.py` documents `Wg` as a matrix of strengths of membership, but the inhibition of a filter by itself is
    removed by subtracting the sum of the weights, not of their squares, so a weight of 1/2 gives a negative inhibition
    weight (`C73_groups_refuted`).  The documentation also has `|x_n * h|` where the code has `|x_n| * h`; the two
    differ for maps with entries of both signs, and the model follows the code.
84. `bilinear_demosaic` is documented as bilinear interpolation, but the red and blue channels come from
    `RectBivariateSpline` with its default degree 3, so they are bicubic splines and can leave the range of the samples
    (`C75_bilinear_refuted`).
85. For the same reason `bilinear_demosaic` raises an exception for images with fewer than eight rows or columns
    (`C75_demosaic_partial`).
86. `rndmask` leaves an entry drawn as exactly the fraction unchanged; with an integer data type the draws are truncated
    before the comparison and the mask is zero everywhere, with a Boolean type it is one everywhere
    (`C78_rndmask_refuted`).
87. `rgb2gray` casts the weights to the data type of the image: the grey version of an integer image is zero
    (`C78_rgb2gray_refuted`).
88. The online dictionary learning classes pass `D.squeeze()` to the sparse coding solver: a dictionary with one
    filter, or with filters of size one along an axis, is misread, and `solve` raises an error for every
    single-channel training array (`C80_squeeze_refuted`).
89. C81: `PGM.__init__` keeps the line search and policy objects of the options by reference (`pgm/pgm.py` 234, 246,
    267), and they keep state of the iteration (`pgm/backtrack.py` 157-158, 203-204, `pgm/stepsize.py` 104-105,
    119-120). A second solver constructed from the same options starts its robust line search from the auxiliary point
    of the first and leaves its own minimiser (`C81_robust_refuted`); with `StepSizePolicyBB` alternating calls use
    each other's points (`C81_bb_refuted`).
90. C83: the consensus dictionary update, the convolutional proximal gradient classes and online learning return the
    array they update in place (`admm/admm.py` 1559, 1591; `pgm/pgm.py` 389, 799; `dictlrn/onlinecdl.py` 333, 350):
    what `solve` or `getdict` returned changes with the next call (`C83_live`, `C83_snapshot_refuted`).
91. C86: with a signal of integer type and no `DataType`, BPDN (`admm/bpdn.py`, `pgm/bpdn.py`) converts the dictionary
    to integers too (`np.asarray(D, dtype=self.dtype)`): for normalised atoms it becomes zero and `solve` silently
    returns zero coefficients (`C86_bpdn_integer`, `C86_bpdn_integer_refuted`, `C86_pgm_bpdn_integer_refuted`).
92. C87: the documentation says that with `FastSolve` statistics are still computed and recorded when `Verbose` is set
    (`admm/admm.py` 77-80, 302-304; `pgm/pgm.py` 84-87, 293-295); with `FastSolve` nothing is recorded and only the
    header and separators are printed, whatever `Verbose` is (`C87_admm_fastsolve_refuted`,
    `C87_pgm_fastsolve_refuted`).
93. C88: with `AutoRho` enabled the ADMM iteration need not converge (`admm.py` 549-575 changes rho for ever).
    `C88_bpdn_cycle_refuted` gives a 5 x 2 dictionary, a signal and a start for which `BPDN` with default options,
    except `AutoRho` `Period` 1 and `AutoScaling` False, cycles with period 4, never stops and stays above the minimum
    by more than 0.0001; the same object converges with `AutoRho` disabled. Convergence holds if the changes of log
    rho are summable, in particular if rho changes finitely often.
94. C89: `XSlvCGIt` is documented as the number of CG iterations (`linalg.py` 566-567), but the
    value is the `info` result of `scipy.sparse.linalg.cg`, which is 0 whenever the tolerance was reached
    (`C89_cgit_refuted`).
95. C89: the check of `ConvCnstrMOD_Consensus.xstep` (`ccmod.py` 809-819) compares the two sides after summing them
    over the blocks, so errors of opposite sign in two blocks are not seen (`C89_consensus_check_refuted`); the other
    classes compare entry by entry.
96. C92: the documented default `50 lmbda + 1` of `rho` adds numbers with different units, so that default runs depend
    on the units of the signal (`C92_default_rho_refuted`).
97. C92: `RelStopTol` of the proximal gradient solvers is documented as a relative tolerance (`pgm/pgm.py` 110), but is
    compared with a norm (in the convolutional classes with the square of a norm) that depends on the units of the
    signal (`C92_pgm_reltol_refuted`, `C92_pgm_bpdn`, `C92_pgm_convbpdn`).
98. C93: with `StepSizePolicyBB` and no stopping test (`FastSolve`) a solver that is at a minimiser divides zero by
    zero in `pgm/stepsize.py` 124-145; L and X are NaN from the third iteration on (`C93_bpdn_bb_refuted`).
99. C96: `ParConvBPDN` ignores the initial values in the options `Y0`, `Y1`, `U0`, `U1`: the constructor stores them
    in module variables `Y0`, ... instead of `mp_Y0`, ... (`parcbpdn.py` 650, 659, 668, 675). The values are never
    used (`C96_values_refuted`); for the first object of a program `solve` raises a `TypeError` (`C96_first_refuted`);
    after another object it starts from the arrays of that object (`C96_leak_refuted`).
100. C97: with the default options `ParConvBPDN` evaluates the functional at the shared array `mp_X`, which holds the
    relaxed X of the next iteration, or of this one in the last iteration of a call (`C97_records`): the recorded
    value depends on `MaxMainIter` (`C97_default_refuted`).
101. `ConvBPDN` (`admm/cbpdn.py` 573-578, `pgm/cbpdn.py` 203-208): the default `lmbda` is a tenth of the largest
    modulus of `conj(Df) * Sf` over the frequencies, which is not scaled by the signal size, where `BPDN` takes a
    tenth of the largest correlation. For a constant signal of more than ten samples and a filter of one sample it
    exceeds every correlation, so the solution is zero (`C99_convbpdn_default_refuted`); the same for all nonnegative
    dictionaries and signals with enough samples (`C99_convbpdn_default_zero`).
102. `GenericConvBPDN` (`admm/cbpdn.py` lines 213-236) chooses complex transforms if `D` or `S` is
    complex but takes the type of all working arrays from `S`. For a complex `D` and a real `S` the imaginary part of
    `D` and of every DFT coefficient in `Xf` is dropped, and the x step gives the mean of the minimiser and its
    conjugated reflection (`C104_mixed_refuted`, `C104_reflection_refuted`, `C104_example_refuted`). A complex
    `DataType` avoids it (`C104_datatype`).
     `ConvCnstrMODBase` (`admm/ccmod.py` lines 251-291) does the same to a complex `Z` with a real
     `S` (`C104_ccmod_mixed_refuted`).
103. `TVL2Denoise.uinit` and `TVL2Deconv.uinit` (`admm/tvl2.py` 232-233, 589-590; the gradient part of `admm/tvl1.py`
    232-234 likewise) take the root of the sum of the squares of `Y`, not of the squared moduli. For complex images,
    which the modules support, the initial `U` does not satisfy the dual optimality criterion unless `Y` is real
    (`C42_tv_cplx_refuted`, `C42_tv_cplx_zero`).
104. `_complex_dtype` of the cupy version (`cupy/__init__.py` 231-243) gives `complex64` for integer types and for
    `complex128`, where `sporco.fft.complex_dtype` gives `complex128` (`C103_cupy_refuted`).
