# Formal model of python-qinfer

## Approach

The code is modelled in Lean 4 as small total functions, one per Python function,
under `lean/Verif/Model/`.  Every definition cites the file and lines it models and
says where it simplifies.  Specifications that do not mention the model's helpers are
in `lean/Verif/Spec/` (or at the head of a property file when only a line long), helper
lemmas in `lean/Verif/Lemmas/`, and the property theorems, with a
concrete case next to each, in `lean/Verif/Props/`.

Conventions of the model:

* Numbers are elements of an arbitrary linearly ordered field `K` (or of the reals where
  logarithms, square roots or trigonometric functions occur).  Floating-point rounding is
  not modelled, except in C102, C103, C154, C155, C156, C157, C158, C160 and C161, where it is an arbitrary function with bounded
  relative error (or rounding to a number of binary digits).  NaN and infinity are modelled only where the code can produce them in
  exact arithmetic (`0/0`, `1/0`, `0*log 0`): those values are made explicit (`Option`,
  `WithTop`), never hidden behind Lean's `x / 0 = 0`.
* Arrays are lists (or functions on `Fin n`); shape errors raised by numpy are explicit.
* Exceptions are values.  A method that mutates before raising returns the mutated state
  *and* the exception.
* Randomness and external calls are parameters.  Stateful randomness is a seed of an
  arbitrary type threaded through arbitrary functions, so every theorem is quantified
  over all random behaviour.  Warnings are appended to a log in the state.

## Trusted base

* The Lean 4 kernel, and the axioms `propext`, `Classical.choice`, `Quot.sound` (a
  per-theorem list is at the end of this file).
* The reading of `/repo` by which each definition was written; the code was not run.
* Python/numpy/scipy semantics used in that reading.

## Plan per property

| id | what is modelled | how it is proved |
|----|------------------|------------------|
| C01 | `SMCUpdater` as a state machine (update, batch_update, resample, reset, constructor) | invariant by induction over operation lists |
| C02 | same, policy `reset` | negation with witness; `_partial` for what holds |
| C03 | `hypothetical_update` over outcome and experiment arrays | direct, against Bayes' rule as a finite sum |
| C04 | update sequences without checks, static model | closed form by induction, then permutation invariance of products |
| C05 | same | telescoping product by induction |
| C06 | state machine | history invariant against a ghost log |
| C07 | `update`, policy branch | case analysis |
| C08 | `_maybe_resample`, `resample` | case analysis, ghost counter by induction |
| C09 | `update`, `min_n_ess` | induction with ghost list of effective sample sizes |
| C10 | `batch_update` | induction over the data |
| C11 | `n_ess` | Cauchy-Schwarz |
| C12 | `ParticleDistribution.__init__` | direct |
| C13 | `particle_mean`, `particle_covariance_mtx` | algebra over finite sums |
| C14 | `bayes_risk` for one experiment | law of total variance |
| C15 | `expected_information_gain` | Gibbs' inequality from `log x <= x - 1` |
| C16 | `est_credible_region` after an arbitrary descending sort | list lemmas on prefix sums |
| C17 | `ParticleDistribution.sample` | `searchsorted` characterised by counting |
| C18, C19 | Liu-West loop with fuel `maxiter` | loop invariant; C19 negation with witness |
| C20 | Liu-West centre and kernel step | expectation as weighted sums |
| C21 | `PostselectedDistribution.sample` | loop invariant |
| C22-C24 | domains | list membership, `Nodup`, length |
| C25 | byte-level `join_struct_arrays` / `separate_struct_array` | list splitting lemmas |
| C26 | `to_simplex` / `from_simplex` over the reals | induction over the stick-breaking recursion |
| C27 | `pr0_to_likelihood_array` | direct |
| C28 | `FiniteOutcomeModel.simulate_experiment` | argmax of a boolean list |
| C29, C30 | binomial / multinomial pmf | binomial / multinomial theorem |
| C31 | precession models over the reals | trigonometry and `HasDerivAt` |
| C32 | coin, noisy coin, die models | direct |
| C33 | `rb.py` | algebra, `HasDerivAt` |
| C34 | counters | induction over calls |
| C35 | model nesting as an inductive type | structural induction |
| C36 | ALE sampling loop with fuel | loop invariant; negation with witness |
| C37 | `array_split`, map, concatenate | list lemmas |
| C38 | `MixedApproximateSMCUpdater.hypothetical_update` | permutation lemmas |
| C39 | `ExperimentDesigner` | induction over guesses |
| C40, C41 | matrices over the complex numbers | Mathlib matrices |
| C42, C43 | closed formulas | field arithmetic |
| C44 | product and mixture sampling | list lemmas |
| C45-C47 | derived models, `uniquify` | direct / induction |
| C48, C49 | `perf_testing.py` | induction over trials; negation with witness |
| C50, C51 | `reset`, `SMCUpdaterBCRB` | case analysis, induction |
| C52 | `est_entropy` | concavity of the logarithm |
| C53 | poisoned models (`derived_models.py`) | direct; what the forwarded flags miss is stated in the `_partial` theorem |
| C54 | clipping of negative weights in `update` | case analysis |
| C55 | warnings and resampling decisions of `update` and `resample` | case analysis on the state machine |
| C56 | choice of resampler in the updater constructor | case analysis |
| C57 | `update_timestep` calls of the updater | induction over histories with a step counter |
| C58 | `DiffusiveTomographyModel.update_timestep` | C41 applied to each experiment column |
| C59 | `Simulatable.distance`, `metrics.py`, `outer_product`; weighted distances also with weights that vanish (`weightedEntry`) | metric axioms; Euclidean norm from Mathlib; cases of zero weights in floating point conventions |
| C60 | `PGH.__call__` with a stream of variates | induction over attempts, C17 for the draws |
| C61 | `ExpSparseHeuristic.__call__` | C06 for the length of the data record |
| C62 | `EnsembleHeuristic`, `np.random.choice` | C17 on the normalised probabilities |
| C63 | `BestOfKMetaheuristic.__call__` | argmax lemma, covariance identity |
| C64 | `DifferentiableModel.fisher_information`, both branches and the shapes it assigns | quadratic form is a sum of squares; derivative of the constant total; **finding**: the varying-outcome branch fails for several parameters or vectors (partial) |
| C65 | `ScoreMixin.score`, `ScoreMixin.h`, `FiniteDifference.central` | central difference bound by the mean value inequality three times |
| C66 | `sqrtm_psd` with `eigh` as any orthonormal eigenbasis | uniqueness of positive part and positive root |
| C67 | `DensityOperatorDistribution`, `rand_dm_ginibre_redit`, rank checks, `TensorProductDistribution.__init__` | C40 round trip; **finding**: `TensorProductDistribution` raises AttributeError |
| C68 | `GADFLIDistribution` | affine combination, moments of the beta distribution; **finding**: singular means fail only at sampling, the maximally mixed mean gives NaN |
| C69 | `RandomPauliHeuristic` | squares of tensor products of Pauli matrices, by induction |
| C70 | `UniformDistribution`, `SlantedNormalDistribution`, `ConstantDistribution`, `DiscreteUniformDistribution` | lists; Lebesgue measure of an interval; **finding**: discrete samples have one axis |
| C71 | `NormalDistribution`, `MultivariateNormalDistribution`, `LogNormalDistribution`, `grad_log_pdf` | image of the Gaussian measure, Bochner integrals, derivatives; **findings**: uniform gradient at one point, log-normal arguments (partial) |
| C72 | `compactspace`, `InterpolatedUnivariateDistribution` with `trapz`, `cumtrapz` and linear `interp1d` | induction on lists, strict monotonicity |
| C73 | `SingleSampleMixin`, `HaarUniform`, `GinibreUniform` in dimension two, instantiation of abstract classes | Cauchy-Schwarz; **finding**: `HilbertSchmidtUniform` is abstract |
| C74 | `est_covariance_mtx(corr=True)` with NaN | Cauchy-Schwarz |
| C75 | `particle_clusters`, `est_cluster_moments`, `est_cluster_covs`, `est_cluster_metric` | lists and finite sums; **finding**: moments not divided by the cluster weight (partial) |
| C76 | `_kl_divergence` | finite sums, logarithms; **finding**: `1/delta` outside the logarithm (partial) |
| C77 | `posterior_marginal` without smoothing, with `interp1d`, `linspace`, `gradient` | telescoping sums, monotone interpolation; **finding**: weight of the lowest particle lost |
| C78 | `posterior_mesh` | index arithmetic; **finding**: transposed values (partial) |
| C79 | `in_ellipsoid`, `in_credible_region` (`'pce'`, method names) | matrix algebra, Chebyshev's inequality |
| C80 | `mvee`, `in_credible_region` (`'hpd-mvee'`) | Khachiyan's algorithm: determinant lemma, Schur complement, geometric growth of the determinant; **findings**: does not enclose, matrix inverted (partial) |
| C81 | `data_to_params` with plain and record arrays, dtypes | structural, row by row, and one row alone as the table with this row; **finding**: string dtypes |
| C82 | `load_data_or_txt`, `do_update`, `simple_est_prec`, the prior of `simple_est_rb` | refinement to `feed` (C04); **findings**: `freq_min` ignored, one-line files (partial) |
| C83 | `promote_dims_left`, `shorten_right` on arrays with any number of axes | index arithmetic; **finding**: empty axes |
| C84 | `perf_test` (elapsed time left out) | induction over the loop; **finding**: column `true` of a time-dependent trial |
| C85 | `Timer`, `timing`, `pretty_time` as lists of characters | round trip through a reader; **findings**: exceptions, boundaries |
| C86 | `GaussianHyperparameterizedModel` complete | algebra and integrals of Gaussian densities; **findings**: missing 1/σ, shared noise (partial) |
| C87 | `np.random.multinomial`'s conditional binomials, `sample_multinomial`, `MultinomialModel.simulate_experiment`; reshape and transpose of arrays with any number of axes | induction over faces; index arithmetic; **findings**: tuple sizes, uninitialised probability |
| C88 | `MLEModel.likelihood` inside the updater of C04 | refinement to C04, limit of powers |
| C89 | `DifferentiableBinomialModel.fisher_information`, records of experiments | derivatives of log-likelihoods and the binomial variance; **finding**: scalar experiments (partial) |
| C90 | settings of `Model`/`FiniteOutcomeModel`, `update_timestep`, `are_expparam_dtypes_consistent` | induction over assignments; **finding**: recursive setter (partial) |
| C91 | the loop "choose an experiment from the updater's state, see an outcome, update" around the updater of C01–C12, with an arbitrary choice function | closed form of the posterior along adaptive runs (C04), then w_j ≤ ½√(ratio), Hellinger affinity by induction over experiments |
| C92 | the same loop, `est_mean`, `est_covariance_mtx`, `est_credible_region` | Bayes' rule swaps the order of the expectations; C16 for coverage |
| C93 | `bayes_risk` and `expected_information_gain` (C14, C15) against `update`, `est_mean`, `est_covariance_mtx`, `est_entropy` | algebra of finite sums and logarithms |
| C94 | `ellipsoid_volume`, `in_ellipsoid` | volume of the Euclidean ball and of linear images; **finding**: opposite conventions |
| C95 | `assert_sigfigs_equal` with infinities and NaN | floor and log10; **findings**: negative numbers always pass, constant (partial) |
| C96 | the numbers printed by `format_uncertainty`, without the text around them | floor and log10; **findings**: uncertainties and small values shown as zero, braces of the exponent lost (partial) |
| C97 | `update` with `update_timestep` (`Env.timestep`) along paths (`Spec.Moves`, `Spec.pathLike`) | induction over the data |
| C98 | the updaters of C97 for every number of particles, draws independent from a prior (`Spec.Sampled`) | strong law of large numbers, continuity, variance of independent sums |
| C99 | `heisenberg_weyl_operators`, `RandomStabilizerStateHeuristic`, `StateTomographyHeuristic.__call__` | entries of the operators, sums of roots of unity, `C41` |
| C100 | `ProcessTomographyHeuristic.__call__`, `ProductHeuristic._next_prepmeas`, `Qobj.unit` | Choi states and Kraus operators, `C41`; **findings**: preparations are transposed, Pauli heuristics have the wrong dimension (partial) |
| C101 | `region_est_hull`, `region_est_ellipsoid`, methods `'hpd-hull'` and `'hpd-mvee'` of `in_credible_region` | `C16` for the credible particles, convexity of the quadratic form, `C80` for the ellipsoid; **finding**: the ellipsoid can have less than the probability demanded (partial) |
| C102 | the kernel `cos_model` and `AcceleratedPrecessionModel.likelihood` with the schedule, the old memory and the rounding as parameters | induction over the work items, injectivity of the offsets, relative errors of a chain of operations |
| C103 | `hypothetical_update` and `update` with every operation rounded, the order of additions a tree | calculus of numbers equal up to a factor; the constants common to all particles are divided out, so errors do not multiply up |
| C104 | `postLoop`, `postSample` (C21) reading from a source of independent draws | induction over rounds: the probability that the open indices are filled with values in given sets is a product; extended from boxes to all measurable sets by the pi-lambda theorem |
| C105 | `liuWest` (C18) on independent uniform variates and kernel draws | law of the parent from the inverse CDF; moments of one particle (C20) and independence |
| C106 | `feed` (C97) of the first t of an infinite sequence of independent data | closed form of the weights, strong law for the log-likelihood ratio, strict Gibbs inequality |
| C107 | `clusterCall`, `clusterLoop`, masks; `meanfn`, `covarianceMtx` (Model/ClusterResample.lean) | induction over the clusters; negations by name lookup and by summing the cells |
| C108 | `LwSetup.resampler` (Model/LwSmc.lean), `update`, `liuWest` | the run as a recursion over the data; average over the parents of one call (C105), Fubini over the calls, induction; Markov's inequality |
| C109 | `qubitLikelihood`, `rebitLikelihood`, `multiLikelihood`, `htLikelihood`, `htSimulate`, class tables (Model/Legacy.lean) | Born's rule as a trace of 2 x 2 matrices; positivity from M = M*M + c; Lebesgue measure of the variates; negations |
| C110 | `conjugateBy`, `bcszSample`, `toQobj` (Model/Legacy.lean) | column-major flattening as a list of length D(D+1); unitarity; negations |
| C111 | `update`, `resample`, `LwSetup.resampler` (Model/Smc.lean, Model/LwSmc.lean) | second moment of the recursion `bootVal` over the stock of variates; pairwise independent draws; Chebyshev |
| C112 | `mixtureSample`, `drawMix`, `productSample`, `hstack` (Model/Dists.lean) | the shuffled blocks of multinomial sizes are counted by words (Lemmas/Shuffle.lean); Fubini over the components; for products the rows are transposed under the product measure; existence of the generator is shown by an infinite product measure |
| C113 | `binomialEnv`, `multinomialEnv` (Model/Batched.lean) over `update` (Model/Smc.lean) | closed form of a run of updates; the counted likelihood is a constant times the likelihood of the shots |
| C114 | `lwLocation`, `newLoc` (the run of `C105_run`), `pmeanFn` | moments of displacement and deviation from C20; bias and variance of an average of independent particles |
| C115 | `DObj` with `sample` as the set of possible shapes, combinators for every class (Model/Shapes.lean), `resetFromPrior` | induction over the ways to build distributions |
| C116 | `Fwd.Tree` over `Fwd.Alone` and `Fwd.Wrap`, with names, nParams, scale, cost, canon, step, distance, riskTerm, loss, objective (Model/Forward.lean) | induction over the nesting; broadcasting rules case by case |
| C117 | `bConstruct`, `bRun`, `currentBim`, `adapt`, `smcMean`, `precessionPr0`; spec `Spec.runProb`, `Spec.meanInfo`, `Spec.mse`, `Spec.bayesInfo` (Lemmas/VanTrees.lean, Lemmas/RunInfo.lean, Props/CramerRao.lean) | integration by parts and Cauchy-Schwarz (van Trees inequality); the outcomes of a run form one smooth model whose Fisher information adds up; bilinear forms under the integral sign |
| C118 | `feed`, `construct`, `nEss`; spec `Spec.Sampled`, `Spec.trueMean`, `Spec.errorVar` (Props/SampleError.lean) | the estimate is a ratio of two averages (C98); central limit theorem for the numerator, law of large numbers for the denominator, Slutsky's theorem; events on which the run is rejected have vanishing probability |
| C119 | `plotCovEllipse`, `plotRebitModelparams`, `plotDecorateRebits`, `plotRebitPosterior`, `plotRebitPrior` (Model/Plot.lean); a figure is the list of artists drawn; matplotlib's ellipse as a set of points, NumPy's `eigh` as any orthonormal eigendecomposition | Cauchy-Schwarz in the eigenbasis, also for singular matrices; Chebyshev's inequality in the plane; `C101` for the hull, `C40` for the bases; positivity of the determinant for the circle; **finding**: defaults of `true_state` and `rebit_axes` (partial) |
| C120 | `update`, `smcMean`, `smcCov`, `credRegion`, `logTotalLikelihood`; spec `Spec.atStop`, `Spec.chanceEver`, `Spec.chanceAlways`, `Spec.move` (Props/Stopping.lean) | tree of outcomes with a stopping rule; Bayes' rule turns means over truths into means of posterior means (induction over the number of experiments); the reciprocal of the weight of the truth and the ratio of evidences do not increase on average, which bounds the probability of ever crossing (Ville's inequality, by induction) |
| C121 | `update`, `entropy`; spec `Spec.atStop`, `Spec.move` (Props/Stopping.lean), number of experiments read off `data_record` | the mean entropy after an experiment is the entropy plus the mean entropy of the outcome given the truth less the entropy of the outcome; concavity of -x log x; entropy plus log k times the number of data does not decrease on average (induction over the tree of outcomes); Fano's inequality |
| C122 | `Nest.Tree` with domain, nOutcomes, construct, dtype, seen, seenStep (Model/Nest.lean) | induction over the nesting, with the models that can be made as an inductive predicate; the number of tuples from C23 |
| C123 | `__getitem__`, `__iter__`, `_format_float_as_latex`, `_format_complex_as_latex` and `_repr_html_` of bases, `SMCUpdater._repr_html_` and `plot_covariance` (Model/Show.lean) | case distinction over the index and over the three number formats, with the rounding lemmas of C96; entries of an orthonormal basis have modulus at most one; C13 for the table |
| C124 | `likelihood` and `n_modelparams` of all derived models, nested to any depth (Model/Stack.lean) | induction over the nesting, with the experiments of C122, the formulas of C29 and C30 and the domains of C23; Gibbs' inequality for the mode of the binomial distribution; NaN from a hedge that is too negative stays NaN outwards |
| C125 | `simulate_experiment` of all derived models, nested to any depth, as the law of one outcome (Model/StackSim.lean) | induction over the nesting, with C124 for the likelihoods |
| C126 | `simple_est_rb` from the data argument to the returned estimate (Model/SimpleEst.lean) | refinement to `feed` (C04, C08) and induction over the rows for the moment of resampling; C21 for the prior cloud |
| C127 | `get_qutip_module`, `check_qutip_version` and the comparison of versions they use (Model/Version.lean) | refinement of the splitting of strings to lists of numbers (Spec/Version.lean), then the lexicographic order; order laws by induction over the components |
| C128 | `apply_serial`, `perf_test_multiple` with its arguments `apply` and `progressbar`, `IPythonProgressBar` (Model/Deferred.lean) | refinement to the model of C48 by induction over the results; invariant of the widget over the loop |
| C129 | `update`, `resample` and `log_total_likelihood` of C05-C08 with arbitrary resampler and timestep; data from an arbitrary law (`Spec.dataProb`, `Spec.watch` in Props/AnyResampler.lean) | the ratio is a supermartingale as the predicted probabilities of a normalised cloud add up to one; optional stopping by induction over the number of experiments (lemmas of C120) |
| C130 | `update` as in C04 and `mixedUpdate` (Model/Mixed.lean: `update` calling the `hypothetical_update` of `MixedApproximateSMCUpdater`); right posterior and probability of the data (`dataPosterior`, `dataEvidence`), distance `Spec.weightDist` | unnormalised weights of both runs compared by induction over the data (`ApproxRun`), then normalised; the mixed updater by C38 (unmarked weight below one minus the ratio) |
| C131 | `ParticleDistribution.sample` as in C17, as `prior` of `construct`/`reset` (`cloudPrior`, `withPrior` in Model/Handover.lean); law of a cloud `Spec.cloudLaw`, variates `Spec.Variates` | the variate picks a particle with probability equal to its weight (C105); independence through the variates; limit by C98 with the uniform law as prior; posterior of a posterior is the posterior of both parts |
| C132 | `update`, `smcMean`, `smcCov`, `bayesRisk`, `infoGain` as in C01, C12, C13; a cloud as a list of weighted points, `Spec.mass` the weight of a point, `Spec.SameCloud` | equal masses are equal means of all functions; the posterior multiplies weights by a function of the place and the normalization is such a mean, hence induction over the data; concrete clouds for the exceptions |
| C133 | `step`/`run` of the updater, `liuWest`, `newLoc` (C105), `pmean`, `pcov`, `bayesRisk`, `rescaledDistance`, `modelDistance`; `Spec.Recoordinated` says what an environment in other coordinates is | every call commutes with the change of coordinates, by cases and induction over the history; uniqueness of positive square roots for a common unit; characteristic functions of normal noise (a root enters only through its square) and independence for the law |
| C134 | `bayesRisk`, `infoGain`, `binomialEnv`, the updater (`feed`), `coinPr0`, `noisyCoinPr0`, `t2Pr0`, `precessionPr0`; `Spec.NoisyVersion` says what garbling is, `Spec.runError` is the mean squared error of a strategy | the posterior mean minimises the squared error, so the risk is a minimum and mixing outcomes can only raise it; log sum inequality for the information; forgetting one of m measurements is a garbling; induction over the run, choosing a garbled outcome that is no worse than average; concrete witness for informative noise |
| C135 | `randnComplex`, `haarDraw`, `ginibreDraw`, `reditDraw` on top of the models of C67, C68 and C73; `Spec.Isotropic`, `Spec.haarLaw`, `Spec.ginibreLaw`, `Spec.IsQR` | the law of the variates is invariant under isometries; a unitary turning any direction to the z axis makes the characteristic function depend on the length only; Fubini for the uniqueness of the invariant law on the sphere; polar coordinates, gamma sums and a ratio substitution for the components; slices of the ball for k = 2; sign changes and exchanges of rows for the mean of the real states |
| C136 | `grwRun`, `grwRunTransformed`, `rwRun` (the time steps of successive data, on top of the models of C46); `Spec.JointlyNormal` | the factor applied to sums of variates, which no two particles or directions share; linear combinations of independent normal variates; linear combinations determine a law; additive nonnegative functions are linear; polarisation for the second moments; conjugation of the step by the transformation |
| C137 | `reditDraw`, `ginibreDraw`, `dmSample` (as in C67, C135) | fourth moments of a direction drawn uniformly: invariance under reflections and polarisation; determinants of normal variates vanish with probability zero, by induction on the size; Markov's inequality; moments of C135 for the Bloch vectors |
| C138 | `ParObj`, `ParObj.new`, `ParObj.reload`, `ParObj.likelihood`, `ParObj.simulate`, `ParObj.clearCache`, `ParObj.after`, `ParObj.asSerial` | induction over histories of operations; which calls reach the wrapped model is a separate recursion (`Spec.reaches`); lengths of chunks for the nested case |
| C139 | `precessionPr0`, `inversionPr0`, `t2Pr0`, `rbPr0`, `rbPr0Il`, `noisyCoinPr0`, `binomialLikelihood`, `expSparseCall`, `feed` (as in C31, C33, C61, C97) | equality of cosines; divisibility by powers of the denominator of the base; strict convexity of powers (secants) for three sequence lengths; C97 and C106 for the weights |
| C140 | `tomoLikelihood`, `randomPauliInit`, `randomPauliMeas`, `stateToModelparams`, `feed` (as in C41, C69, C97) | Born rule of C41; a traceless Hermitian V is a multiple of the difference of the densities (V±1)²/c; dimension count for spans; spectral theorem for the effects (1+B)/2; C106 for the weights; for `stabilizerMeas`: X^i Z^j with coprime exponents has d different eigenvalues (a partner commutes with it up to a primitive root), so its powers are combinations of projectors |
| C141 | `feed`, `logTotalLikelihood` (as in C05, C97, C106) | evidence formula of C97; strong law of large numbers for the log-likelihood of each particle; log-sum-exp bounds; strict Gibbs inequality; C106 for the ratio of evidences |
| C142 | `feed`, `maybeResample`, `nEss` (as in C08, C11, C97, C106) | strong law for the log-likelihood of each particle as in C141; ratios of likelihoods decay exponentially; the posterior formula as long as nothing is resampled |
| C143 | `feed`, `smcMean`, `smcCov`, `construct` (as in C97, C98), `precessionPr0`, `coinPr0` (as in C26, C139) | frequencies of the data converge (strong law), so log-likelihoods, cut off below, converge uniformly; the gap is bounded below on compact sets by the Hellinger distance; a neighbourhood of the truth with small loss bounds the evidence from below; with C98 for the updater |
| C144 | `ensuredir`, `preffilename`, `readConfig`, `saveConfig` (config.py 61-87) on a disk | cases on the existence of the directory; invariant that whatever exists lies in a directory |
| C145 | `feed`, `smcMean` (as in C130, C134) | total variation between the laws of whole runs grows by at most eta per experiment (induction over adaptive runs); normalising at most doubles it; excess squared error is the squared distance of the two means |
| C146 | `feed`, `smcMean`, `smcCov`, `precessionPr0` (as in C143) | strong law for bounded uncorrelated variables (second moments along squares), uniform gap of cut-off logarithms for all shares of the experiments, Hellinger distance; runs built from fresh variates are adaptive data by independence |
| C147 | `feed` (as in C106), heuristics as arbitrary functions of the updater and a variate | the products of square-rooted likelihood ratios divided by affinities are a nonnegative supermartingale, hence converge; the affinities of an experiment repeated for ever multiply to zero; ratios of the remaining particles are constant from some time on |
| C148 | `pghCall` (as in C60), `feed`, `sampleIdx` | chance of a pair from the law of `sampleIdx` (C105) and independence; an experiment whose conditional chance stays away from zero is repeated for ever (geometric bound); then C147 |
| C149 | `feed` (as in C106), `expSparseCall` (as in C61), `precessionPr0` | Kakutani's dichotomy: square roots of likelihood ratios divided by affinities give a nonnegative martingale that is bounded in L2 exactly if the defects are summable; aliases by periodicity of the cosine |
| C150 | `feed`, `expSparseCall`, `precessionPr0`, with frequencies as independent random variables | Riemann-Lebesgue lemma: on a set of positive measure the mean square of cos(x T) minus any sequence is at least about one half; Fubini; then C149_learnt |
| C151 | `ensembleCall` (as in C62), `pghCall`, `feed` | the variates that choose a member form an interval of its probability's length (C62); then C148_pairs |
| C152 | `bestOfK` (as in C63), `tomoLikelihood`, `feed` | if all k candidates agree the choice is forced (C63), which has the chance p^k; then C151_heuristics; states by C140 |
| C153 | `hypotheticalUpdate`, `feed` | the square root of the ratio of forecast and true probability, divided by their affinity, is a product over the run with mean at most one (history-dependent factors, Lemmas/History) and at least sqrt(w) exp(sum of misses); Markov; continuity of the measure |
| C154 | `essRound`, `meanRound`, `covRound` (rounding and order of additions are parameters) | forward error analysis by induction over the tree of additions; rounding to p binary digits is shown to meet the hypotheses, and the finding is computed with it |
| C155 | `cumRound`, `sampleIdxRound`, `lwParentsRound`, `simCellRound` (rounded addition is a parameter) | induction along the cumulative sums; rounding to p digits is monotone and idempotent, so sums stay sorted; findings computed in 53 digits through the rounded update `hypRound` |
| C156 | `runRound`, `stepRound`, `freshRound` on top of `hypRound`, `essRound`, `lwParentsRound` | invariant: rounded weights are proportional to exact ones up to c^(2k) and sum to one up to c^(D+1); induction over the clear run; exact run as the case u = 0; volume of the neighbourhoods of the cumulative sums; with the checks of the weights: `checkedStepRound`, `checkedRunRound`, sums of the new weights bounded on both sides |
| C157 | `credMaskRound`, `credRegionRound` (on `cumRound` of C155) | in a sorted list the entries up to the level come first; bounds on cumulative sums from C155 |
| C158 | `recordRound`, `logTotalRound` (on `stepRound` of C156) | the factor Z between rounded and exact weights satisfies Z' M = Z N at each update, so products telescope; induction over the clear run; exact record as the case u = 0 |
| C159 | `costObjective`, `designObjective`, `defaultCost`, `linearCost` | case split on `cost_mult`; multiplied objectives are compared through logarithms |
| C160 | `lwCentreRound`, `lwMoveRound` on top of `meanRound` | calculus of values that are off by k operations relative to a size: rounding, sums and products |
| C161 | `sqrtmPsd` (C66), `covRound` (C154), `lwMoveRound` (C160) | in an eigenbasis of the difference of the roots, X^2 - Y^2 has the diagonal l (x + y) with l = x - y, so l^2 is at most eps; the negative part of a matrix near a positive one is at most eps |
| C162 | `lwCovUsed`, `lwCall`: the branch for vanishing covariances, and one call of the resampler | the covariance vanishes iff all weighted particles agree (C13); the positive root of zcc I is unique; parents have positive weight (C17); the law of independent affine images of normal variables, and null sets of products without atoms |

## What is modelled, file by file

Line numbers are in the comments of the definitions.  "Complete" means every function of the
file that computes something (accessors that return an attribute are read off directly).

| file | modelled | not modelled |
|------|----------|--------------|
| `smc.py` | `SMCUpdater` (constructor, `reset`, `hypothetical_update`, `update`, `batch_update`, `resample`, `bayes_risk`, `expected_information_gain`, `posterior_marginal` without smoothing, `posterior_mesh`, `plot_covariance`, the names and numbers of `_repr_html_`), `MixedApproximateSMCUpdater`, `SMCUpdaterBCRB` | the other `plot_*`, zero-weight particle statistics in the log, smoothing of marginals |
| `distributions.py` | `ParticleDistribution` (constructor, `n_ess`, `sample`, moments, entropy, KL divergence, clusters, credible regions), products, mixtures, uniform, constant, normal, multivariate normal, slanted normal, log-normal, beta, gamma, beta-binomial parameters, discrete uniform, Haar and Ginibre states, postselection, interpolation, constrained sums | `scipy_dist` wrappers around named scipy distributions, the random bits of scipy samplers (variates are parameters), `ConvexHull` and `Delaunay` (parameters with their contract) |
| `abstract_model.py` | defaults of `Simulatable`, counters, `pr0_to_likelihood_array`, `simulate_experiment`, `fisher_information`, settings, `distance` | `_repr_html_` |
| `derived_models.py` | all wrapper classes | — |
| `test_models.py` | all models | — |
| `domains.py` | complete | — |
| `resamplers.py` | complete | scikit-learn's clustering, called by `ClusteringResampler` (an arbitrary function) |
| `utils.py` | `binomial_pdf`, `multinomial_pdf`, `sample_multinomial`, `binom_est_p`, `binom_est_error`, `compactspace`, `to_simplex`, `from_simplex`, `mvee`, `in_ellipsoid`, `ellipsoid_volume`, `uniquify`, `assert_sigfigs_equal`, `format_uncertainty`, `pretty_time`, `join_struct_arrays`, `separate_struct_array`, `sqrtm_psd`, version checks of QuTiP | `outer_product` |
| `expdesign.py` | all heuristics and `ExperimentDesigner`, with the scipy optimisers as arbitrary functions | the optimisers themselves |
| `ale.py`, `clustering.py`, `finite_difference.py`, `metrics.py`, `score.py`, `rb.py`, `simple_est.py`, `parallel.py` | complete; clustering algorithm and engines are arbitrary functions | scikit-learn, ipyparallel transport |
| `perf_testing.py` | timers, error policies, `perf_test`, `perf_test_multiple`, array helpers, progress bars | — |
| `tomography/bases.py`, `models.py`, `distributions.py`, `expdesign.py` | bases, tensor products, conversion to and from coordinates, truncation to states, likelihood, diffusion, state distributions, Heisenberg-Weyl operators, stabilizer, Pauli, product and best-of-k heuristics, the numbers of HTML output | LaTeX markup, QuTiP's random generators (their results are parameters) |
| `gpu_models.py` | the kernel, the likelihood | OpenCL contexts, queues and memory flags |
| `tomography/legacy.py` | likelihoods, validity and priors of the deprecated models | — |
| `tomography/plotting_tools.py` | what is drawn where | colours, styles, legends |
| `config.py`, `ipy.py` | complete, on an abstract disk; progress bars as the values set | file permissions, the appearance of widgets |
| `_due.py` | — | citations |

Not modelled anywhere: floating-point rounding, memory use, running time, threads, pickling
beyond what `parallel.py` defines, logging.

## Where the code does not do what is claimed or documented

Each item is proved as a theorem with a concrete witness (names in `MANIFEST.json`).

* C02: policy `reset` of `update` resets the cloud and then overwrites its weights with zeros.
* C10: with policy `skip` a batch with interval one differs from repeated updates.
* C14, C15: outcomes of probability zero make Bayes risk and information gain NaN.
* C18: a variate at or above the total of the weights makes the Liu–West draw index past the end (`IndexError`).
* C19: redrawn particles of the Liu–West loop use the centre of the wrong parent.
* C22: an integer domain with `max < min` has an example point outside itself.
* C24: the documented constructor call `ProductDomain([..])` raises `AttributeError`.
* C25: joining arrays without items raises `ZeroDivisionError`.
* C28: the outcome table is indexed twice when the number of outcomes is constant, and the varying branch raises `AttributeError`.
* C31: negative times give probabilities outside [0, 1] in `UnknownT2Model`.
* C32: negative die outcomes are read from the other end.
* C34: call and simulation counters miscount for six classes.
* C36: the adaptive likelihood estimate can exceed one and its loop need not end.
* C37: parallel simulation joins its pieces along the wrong axis.
* C38: `mixture_ratio >= 1` always raises `AssertionError`.
* C39: null optimiser keeps the last guess, flat gradients and callable guesses raise, the returned array is shared; `fmin_tnc` has no argument `full_output`, so that optimiser always fails with a TypeError.
* C40: `pauli_basis(0)` and tensor products of nothing raise `TypeError`.
* C41: `np.linalg.eig` need not return orthogonal eigenvectors, and then the truncation is not the nearest state; negative operators and empty arrays fail.
* C44: component counts are checked only partly; `sample(0)` fails for mixtures.
* C45: the constructor's check that exactly one of `tol` and `n_samples` is given never fires.
* C46: negative indices and slices make the wrong parameters walk or every step raise.
* C49: error policies leak when the block raises.
* C51: the caller's array is shared, keyword options are dropped, failed updates count.
* C53: `is_n_outcomes_constant` is not forwarded, so wrappers around binomial models report true although the domain varies.
* C54: clipped weights are not normalised again.
* C58: negative durations fail.
* C60: `maxiters <= 0` raises `UnboundLocalError`.
* C61: heuristics without `other_fields` raise `AttributeError`.
* C64: Fisher information with a varying number of outcomes raises for several parameters or vectors.
* C67: `TensorProductDistribution` cannot be constructed; rank zero gives NaN.
* C68: singular means fail only when sampled; the maximally mixed mean gives NaN.
* C70: discrete uniform samples have one axis only.
* C71: the uniform gradient is wrong for one point; the log-normal arguments are location and scale.
* C73: `HilbertSchmidtUniform` is abstract.
* C75: cluster moments are not divided by the cluster weight.
* C76: the factor `1/delta` stands outside the logarithm.
* C77: the marginal loses the weight of the lowest particle.
* C78: the mesh values are transposed.
* C79: an unknown region method raises `UnboundLocalError`.
* C80: the ellipsoid need not enclose the points, and the matrix is the inverse of the documented one.
* C81: dtypes given as strings are not recognised.
* C82: `freq_min` is ignored; files of one line fail.
* C83: nothing is trimmed along an axis on which some array is empty.
* C84: the column `true` is from before the time step.
* C85: timers do not stop when the block raises; exact days, hours and minutes are written in the smaller unit.
* C86: the hyperparameterised likelihood lacks 1/σ; repetitions share their noise.
* C87: tuple sizes fail; one probability is left uninitialised.
* C89: Fisher information fails for scalar experiments.
* C90: `n_outcomes_cutoff` cannot be assigned.
* C94: `ellipsoid_volume` and `in_ellipsoid` read their matrix in opposite ways.
* C95: negative numbers always pass `assert_sigfigs_equal`.
* C96: `format_uncertainty` can print a nonzero uncertainty as zero; the braces of the exponent are lost.
* C100: process tomography uses the transpose of the preparation; `ProductHeuristic` with Pauli heuristics always raises `ValueError`.
* C101: `region_est_ellipsoid` and `'hpd-mvee'` can hold less than the probability demanded; for one parameter SciPy's hull raises, so the hull methods need at least two.
* C102: the error of the accelerated model grows with the phase; at long times the result can be 0 where the probability is 1.
* C103: a weight that underflows to zero never returns.
* C107: `ClusteringResampler` raises `NameError`; its default secondary resampler does not fit; the weights are divided by the weight of the cluster instead of multiplied.
* C109: the legacy tomography models cannot be instantiated and their likelihoods raise `AttributeError`; the circuit simulator does not follow its likelihood.
* C110: `BCSZQubitDistribution.to_qobj` fails for two or more samples.
* C115: `DiscreteUniformDistribution.sample` returns an array with one axis; mixtures do not check the widths of their components; an updater accepts a prior of one variable for a model with several parameters.
- C116: `DerivedModel` forwards `Q` and `canonicalize` unchanged, so models that add parameters have a
  scale that is too short (ValueError in `distance`, `bayes_risk`, `perf_test`) and hand the added
  columns to the wrapped model; it does not forward `experiment_cost`; the two walks never call the
  wrapped model's `update_timestep`; `GaussianHyperparameterizedModel` forwards whole rows to it, so
  that around a one-parameter `RandomWalkModel` the means and variances of the readout walk too.
* C119: `plot_rebit_posterior` raises `TypeError` unless `true_state` is given; the default `rebit_axes` show X and Y of the Pauli basis (Z and X of the Gell-Mann basis).
- C122: `MultinomialModel` does not override `update_timestep`, so a scalar model inside gets the whole
  record; `GaussianHyperparameterizedModel` reports the two outcomes of the wrapped model although its
  domain is the real line, so `BinomialModel` and itself accept it.
- C124: a `MultinomialModel` around a `PoisonedModel` with three or more outcomes can raise
  `AssertionError`, as the last probability is what the distorted ones leave; an `MLEModel` inside a
  `BinomialModel` has its maximum at `(k/m)^(1/γ)` instead of `k/m`.
- C125: `BinomialModel.simulate_experiment` uses the likelihood of the wrapped model instead of
  simulating it, so that around a `PoisonedModel` or `MLEModel` the data change with the likelihood.
- C127: `get_qutip_module` accepts pre-releases (`3.2rc1` for `3.2`), raises `TypeError` for `4.0.dev`
  against `4.0.2`, rejects `4.0` for `4.0.0`, and never finds QuTiP where `distutils` is gone.
- C128: the progress bar of `perf_test_multiple` is told the index of the finished trial, so that it stops at
  `n - 1` of `n`.

## Axioms of each theorem

Output of `#print axioms` for every theorem named in `MANIFEST.json`, grouped.

* no axioms (5 theorems): `C37_simulate_unpickled`, `C49_not_restored`, `C70_discrete_one_axis`, `C79_methods`, `C90_cutoff_recursion`

* `propext` (29 theorems): `C18_accepted_unchanged`, `C21_accepted_unchanged`, `C28_nonconstant_fails`, `C34_wrapper_call_count_partial`, `C34_base_call_count_partial`, `C34_sim_count_partial`, `C34_base_under_wrappers`, `C37_no_engines`, `C37_default_threshold`, `C39_flat_gradient_raises`, `C39_callable_guess_fails`, `C44_product_unequal`, `C44_mixture_init`, `C46_random_walk_init`, `C48_bar_finished`, `C49_restored_partial`, `C53_flag_not_forwarded`, `C53_flag_correct_partial`, `C83_no_arguments`, `C90_settings_partial`, `C90_timestep`, `C115_constructors`, `C115_mixed_widths`, `Nest.C122_timestep_partial`, `Nest.C122_multinomial_timestep`, `C127_imports`, `C127_empty`, `C128_deferred`, `C128_same_results`

* `Quot.sound`, `propext` (100 theorems): `C06_each_call`, `C06_data_record_exact`, `C06_data_record`, `C06_records_survive`, `C08_resample_count`, `C08_fresh_not_just_resampled`, `C09_public_history`, `C09_min_n_ess_antitone`, `C09_any_policy`, `C10_batch_is_plan`, `C10_length_mismatch`, `C10_interval_zero`, `C12_argument_combinations`, `C17_draws_are_particles`, `C21_runtime_error`, `C22_n_members`, `C22_example_point`, `C24_values_exact`, `C24_in_domain_iff`, `C24_init`, `C25_join_spec`, `C25_empty_fails`, `C25_short_rows_fail`, `C27_entries`, `C28_scalar_iff`, `C28_domain`, `C32_die`, `C32_die_range`, `C32_die_negative`, `C34_miscounted_sims`, `C35_underlying`, `C37_simulate_partial`, `C39_best_guess_kept`, `C39_stored_cost_is_objective`, `C39_without_store`, `C39_returned_array_is_shared`, `C44_product`, `C44_mixture`, `C44_mixture_no_rows`, `C46_random_walk`, `C46_validity`, `C49_policy_in_block`, `C50_reset_all`, `C50_reset_both`, `C50_reset_count_without_weights`, `C51_information_accumulates`, `C51_initial_array_shared`, `C51_failed_update_counts`, `C51_update_is_inherited`, `C51_requires_differentiable`, `C51_same_inference`, `C53_flag_false`, `C55_resample_warnings`, `C55_no_data_warning`, `C55_divergences`, `C55_resampled_cloud`, `C55_small_ess_warning`, `C56_resampler_choice`, `C57_steps_counted`, `C61_time`, `C61_record`, `C62_invalid`, `C67_ranks`, `C70_uniform`, `C70_ranges`, `C70_slanted`, `C70_constant`, `C81_one_row`, `C82_shape_errors`, `C84_prefix`, `C84_data`, `C84_resample_count`, `C84_truth`, `C85_timer`, `C85_timing`, `C85_timing_exception`, `C87_counts`, `C87_tuple_size`, `C89_scalar_fails`, `C90_dtypes`, `C97_every_run_has_paths`, `C107_name_error`, `C115_qubits_only`, `Fwd.C116_names`, `Fwd.C116_distance_partial`, `Fwd.C116_distance_raises`, `Fwd.C116_time_step`, `Fwd.C116_hyper_walk`, `Fwd.C116_canonicalize`, `Nest.C122_fields`, `Nest.C122_missing`, `C127_check`, `C128_rows`, `C128_ipython`, `C128_closed`, `C133_history`, `C133_liu_west`, `C138_wrapped`, `C138_loaded`, `C138_options`

* `Classical.choice`, `Quot.sound`, `propext` (724 theorems): `C01_weights_are_probability_vector`, `C01_default_threshold`, `C02_reset_policy_loses_weights`, `C02_reset_policy_locations_partial`, `C03_hypothetical_update_is_bayes`, `C03_impossible_outcome`, `C04_posterior_closed_form`, `C04_order_independent`, `C04_any_policy`, `C04_order_independent_any_policy`, `C05_normalizations_multiply_to_evidence`, `C05_log_total_likelihood`, `C06_normalization_record`, `C06_batch_raises`, `C06_normalizations_of_history`, `C07_policy_irrelevant`, `C07_policy_table`, `C07_exact_threshold`, `C08_resample_iff`, `C08_just_resampled`, `C08_any_policy`, `C09_min_n_ess`, `C10_interval_one`, `C10_interval_one_skip_differs`, `C11_ess_bounds`, `C12_constructor_normalises`, `C12_zero_weights_nan`, `C13_cov_is_centred_moment`, `C13_cov_psd`, `C13_cov_zero_iff`, `C13_cov_posSemidef`, `C14_risk_decomposition`, `C14_risk_bounds`, `C14_risk_nan`, `C15_info_gain_nonneg`, `C15_info_gain_nan`, `C16_credible_region`, `C16_level_too_high`, `C17_inverse_cdf`, `C17_zero_weight_never_drawn`, `C18_valid_or_warns`, `C18_no_postselect`, `C18_exceptions`, `C18_count`, `C19_redraw_uses_wrong_parent`, `C19_actual_centre`, `C19_first_round_own_parent_partial`, `C19_some_parent_partial`, `C20_h_consistent`, `C20_override_kept`, `C20_mean_preserved`, `C20_cov_formula`, `C20_cov_scaled`, `C21_samples_valid`, `C21_first_valid_kept`, `C22_in_domain_iff`, `C22_values_exact`, `C22_reversed_bounds`, `C22_init`, `C22_init_truncates`, `C22_real_domain`, `C23_values_exact`, `C23_in_domain_iff`, `C24_finite_iff`, `C25_separate_join`, `C25_join_separate`, `C25_to_from_regular`, `C25_from_to_regular`, `C26_to_simplex_in_simplex`, `C26_from_to`, `C26_to_from`, `C26_boundary_not_real`, `C26_uniform_to_zero`, `C27_probabilities`, `C28_outcome_iff`, `C28_simulate`, `C28_shifted_table_wrong`, `C28_shifted_table_raises`, `C28_probability`, `C29_counts_ones`, `C29_sums_to_one`, `C29_single_measurement`, `C29_out_of_range`, `C30_formula`, `C30_sums_to_one`, `C31_likelihoods`, `C31_valid`, `C31_precession_value`, `C31_unknown_t2`, `C31_unknown_t2_negative_time`, `C31_inversion_score`, `C31_precession_score`, `C32_coins`, `C32_coin_fisher`, `C32_coin_score`, `C33_inverse`, `C33_fixed_points`, `C33_likelihood`, `C33_survival`, `C33_score`, `C33_score_interleaved`, `C34_uncounted_calls`, `C34_underlying_call_count`, `C35_chain`, `C35_base_model`, `C36_constructor`, `C36_stops_within_tolerance`, `C36_sample_count`, `C36_estimate_interior_partial`, `C36_terminates_partial`, `C36_diverges`, `C36_estimate_above_one`, `C37_chunks`, `C37_likelihood_equals_serial`, `C37_simulate_wrong_axis`, `C37_simulate_misplaced`, `C38_assignment`, `C38_likelihoods`, `C38_assertion`, `C38_full_ratio_raises`, `C38_good_nonempty`, `C39_null_last_guess_wins`, `C39_optimiser_type_error`, `C39_constructor`, `C40_gell_mann`, `C40_gell_mann_elements`, `C40_labels`, `C40_gell_mann_zero`, `C40_traceless`, `C40_params_round_trip`, `C40_params_of_state`, `C40_len`, `C40_hermitian_part`, `C40_state_round_trip`, `C40_state_of_params`, `C40_sizes_checked`, `C40_many_states`, `C40_tensor_product`, `C40_tensor_elements`, `C40_no_factors`, `C40_pauli`, `C40_covariance_superop`, `C41_truncation_partial`, `C41_truncation_distinct`, `C41_truncation_positive`, `C41_renormalize`, `C41_canonicalize`, `C41_density_unchanged`, `C41_allow_subnormalized`, `C41_no_rows`, `C41_likelihood`, `C41_born_rule`, `C41_skew_eigenvectors`, `C42_beta_from_moments`, `C42_beta_admissible`, `C42_beta_from_shapes`, `C42_gamma_from_moments`, `C42_gamma_from_shapes`, `C42_beta_binomial_from_moments`, `C42_beta_binomial_from_shapes`, `C42_incomplete`, `C43_constrained_row`, `C43_sample`, `C44_product_arguments`, `C45_ale`, `C45_mle`, `C45_range`, `C45_no_noise`, `C45_degenerate`, `C45_constructor`, `C46_gaussian_walk_partial`, `C46_negative_indices_walk_elsewhere`, `C46_long_negative_slice_fails`, `C46_slice_selects`, `C46_open_slice_rejected`, `C46_fixed_covariance_shape`, `C46_update_covariance`, `C46_transformed_walk_partial`, `C47_uniquify`, `C47_uniquify_of_nodup`, `C48_allow_failures`, `C48_failures_raised`, `C48_failure_changes_policy`, `C50_reset_only`, `C51_default_initial`, `C51_options`, `C52_entropy_bounds`, `C54_weights_nonneg`, `C54_clipping`, `C56_fresh_updater`, `C57_one_time_step`, `C58_update_timestep`, `C58_validity`, `C58_no_displacement`, `C58_negative_duration`, `C59_pseudometric`, `C59_zero_iff`, `C59_sum`, `C59_rescaled`, `C59_rescaled_metric`, `C59_weighted`, `C59_zero_weights`, `C59_other_powers`, `C60_first_distinct_pair`, `C60_gives_up`, `C60_collapsed_cloud`, `C62_chosen`, `C63_best_candidate`, `C64_psd`, `C64_covariance`, `C64_one_parameter`, `C64_varying_outcomes_fail`, `C64_varying_outcomes_partial`, `C65_score_quadratic`, `C65_score_error`, `C65_score_limit`, `C65_zero_likelihood`, `C65_steps`, `C65_gradient_error`, `C65_gradient_quadratic`, `C65_gradient_steps`, `C66_root`, `C66_error`, `C66_unique`, `C67_density`, `C67_samples`, `C67_ginibre_redit`, `C67_tensor_product_fails`, `C68_samples`, `C68_mean`, `C68_degenerate`, `C69_projector`, `C69_refused`, `C70_in_range`, `C70_law`, `C71_normal_law`, `C71_normal_truncated`, `C71_normal_gradient`, `C71_mvn_moments`, `C71_mvn_gradient`, `C71_mvn_singular`, `C71_uniform_gradient_partial`, `C71_uniform_gradient_one_point`, `C71_lognormal`, `C72_compactspace`, `C72_interpolated`, `C73_haar`, `C73_haar_dimension`, `C73_single_sample`, `C73_ginibre`, `C73_hilbert_schmidt_abstract`, `C74_correlation`, `C74_no_spread`, `C74_units`, `C75_partition`, `C75_moments_add_up`, `C75_one_cluster_partial`, `C75_metric`, `C75_total_variance_fails`, `C75_noise_warning`, `C76_defined`, `C76_bandwidth_one_partial`, `C76_overestimates`, `C77_marginal`, `C77_resolution`, `C78_mesh`, `C78_values_partial`, `C78_transposed`, `C78_misplaced`, `C79_ellipsoid`, `C79_singular`, `C79_pce_weight`, `C79_pce_units`, `C79_pce_mean`, `C80_no_failure`, `C80_ends`, `C80_flat_fails`, `C80_result`, `C80_encloses_iff`, `C80_touches`, `C80_nearly_encloses_partial`, `C80_progress`, `C80_misses`, `C80_matrix_is_inverse`, `C81_row_by_row`, `C81_succeeds_iff`, `C81_truncation`, `C81_field_values`, `C81_layouts_agree`, `C81_string_dtype`, `C81_scalar_type`, `C82_resampling_rule`, `C82_estimates_are_posterior`, `C82_estimate_within_cloud`, `C82_precession_partial`, `C82_precession_range`, `C82_freq_min_ignored`, `C82_below_freq_min`, `C82_one_line`, `C82_malformed_data`, `C82_rb_prior`, `C83_promote`, `C83_shorten_right`, `C83_empty_axis`, `C84_loss_formula`, `C84_loss_is_of_next_row`, `C84_static`, `C84_estimates`, `C84_true_column_is_stale`, `C85_fields`, `C85_reads_back`, `C85_seconds`, `C85_boundaries`, `C86_parameters`, `C86_constructor`, `C86_likelihood_entries`, `C86_equal_variances_partial`, `C86_posterior_equal_variances_partial`, `C86_total`, `C86_not_a_density`, `C86_wrong_posterior`, `C86_simulated`, `C86_simulated_law`, `C86_repetitions_share_noise`, `C87_law`, `C87_law_is_likelihood`, `C87_sample`, `C87_sample_default`, `C87_simulate`, `C87_in_domain`, `C87_uninitialised`, `C88_good`, `C88_amplified`, `C88_whole_power`, `C88_limit`, `C88_estimate`, `C88_mean_limit`, `C89_information_adds`, `C89_fisher_partial`, `C91_affinity`, `C91_always_undisturbed`, `C91_wrong_weight_decays`, `C91_estimate_converges`, `C91_converges`, `C92_error_bars`, `C92_optimal`, `C92_unbiased`, `C92_coverage`, `C92_total`, `C93_risk`, `C93_error`, `C93_information`, `C94_volume`, `C94_volume_of_form`, `C94_conventions`, `C94_arguments`, `C95_arrays`, `C95_positive`, `C95_relative_error`, `C95_shared_figures`, `C95_units`, `C95_negative`, `C95_zero`, `C95_too_strict`, `C96_faithful_partial`, `C96_exact`, `C96_hidden_uncertainty`, `C96_hidden_value`, `C97_path_posterior`, `C98_consistent`, `C98_estimates`, `C98_log_total_likelihood`, `C98_unbiased`, `C99_operators`, `C99_group`, `C99_complete`, `C99_stabilizer`, `C99_state_record`, `C99_born`, `C100_process_partial`, `C100_unit`, `C100_product_stabilizer`, `C100_product_pauli_fails`, `C100_transposed`, `C100_statement_fails`, `C101_hull`, `C101_in_hull`, `C101_nested`, `C101_ellipsoid_partial`, `C101_ellipsoid_misses`, `C101_ellipsoid_fails`, `C102_any_order`, `C102_same_as_plain`, `C102_precision`, `C102_range`, `C102_long_times`, `C102_validity`, `C103_exact`, `C103_normalised`, `C103_posterior`, `C103_mean`, `C103_underflow`, `C104_raises`, `C104_law`, `C104_stream`, `C105_parent_law`, `C105_run`, `C105_mean_noise`, `C105_cov_shrinks`, `C106_accepted`, `C106_refuted`, `C106_weight_vanishes`, `C106_impossible`, `C106_wrong_particles`, `C106_learns`, `C107_default_fails`, `C107_cells_partial`, `C107_total_weight`, `C107_not_normalised`, `C108_unbiased`, `C108_evidence`, `C108_prior`, `C109_valid_states`, `C109_not_instantiable`, `C109_likelihood_fails`, `C109_born_partial`, `C109_experiments`, `C109_rebit_partial`, `C109_multi_partial`, `C109_circuit_likelihood_partial`, `C109_circuit_simulation`, `C110_round_trip_partial`, `C110_several_samples`, `C110_not_trace_preserving`, `C111_variance`, `C111_evidence`, `C111_mean`, `C111_converges`, `C112_mixture`, `C112_product`, `C112_particles`, `C112_unshuffled`, `C113_binomial`, `C113_multinomial`, `C114_distance`, `C114_second_degree`, `C114_smooth`, `C115_shape_partial`, `C115_possible`, `C115_discrete`, `C115_no_draws`, `C115_prior`, `Fwd.C116_scale_partial`, `Fwd.C116_cost`, `C117_bound`, `C117_updater`, `C117_tracked`, `C117_adaptive`, `C117_precession`, `C118_normal`, `C118_ess`, `C118_interval`, `C119_ellipse`, `C119_posterior_partial`, `C119_hull_partial`, `C119_default_true_state_raises`, `C119_states`, `C119_inside_circle`, `C119_default_axes_hide_z`, `C119_gell_mann`, `C119_prior`, `C120_error_bars`, `C120_coverage`, `C120_truth_survives`, `C120_confidence`, `C120_model_comparison`, `C120_log_total_likelihood`, `C121_entropy_decreases`, `C121_experiments_needed`, `C121_identification`, `Nest.C122_constructors`, `Nest.C122_one_counter`, `Nest.C122_outcomes_partial`, `Nest.C122_reaches_model`, `Nest.C122_walk_timestep`, `Nest.C122_noise`, `Nest.C122_noise_multinomial`, `C123_item`, `C123_item_list`, `C123_iteration`, `C123_number`, `C123_complex`, `C123_basis`, `C123_updater_table`, `C123_covariance_plot`, `Nest.C124_columns`, `Nest.C124_single`, `Nest.C124_binomial`, `Nest.C124_multinomial`, `Nest.C124_distribution`, `Nest.C124_binomial_distorted`, `Nest.C124_multinomial_poisoned`, `Nest.C124_mle_place`, `Nest.C124_nan`, `Nest.C125_law`, `Nest.C125_poisoned_inside`, `Nest.C125_mle_inside`, `Nest.C125_noise`, `C126_posterior`, `C126_estimate_valid`, `C126_empty_range`, `C126_one_line`, `C126_succeeds`, `C127_releases`, `C127_first_difference`, `C127_extension`, `C127_order`, `C127_prerelease`, `C127_mixed_raises`, `C127_trailing_zeros`, `C128_bar_shows`, `C128_bar_raises`, `C129_mean`, `C129_never_overstates`, `C129_total`, `C129_total_exact`, `C129_log_total_likelihood`, `C130_posterior`, `C130_mixed`, `C130_rate`, `C130_estimates`, `C130_unlikely_data`, `C131_draws`, `C131_later_draws`, `C131_limit`, `C131_two_parts`, `C131_unbiased`, `C132_updates`, `C132_rearrangements`, `C132_moments`, `C132_bayes_risk`, `C132_information_gain`, `C132_resampling_differs`, `C133_whole_run`, `C133_run_is_update`, `C133_moments`, `C133_scale_matrix`, `C133_distance_differs`, `C133_liu_west_setup`, `C133_liu_west_run`, `C133_liu_west_law`, `C133_seeds_differ`, `C134_risk`, `C134_information`, `C134_repetitions`, `C134_repetitions_information`, `C134_adaptive_runs`, `C134_fixed_runs`, `C134_more_data`, `C134_noisy_coin`, `C134_dephasing`, `C134_informative_noise`, `C135_redit_rotation`, `C135_redit_mean`, `C135_gadfli`, `C135_ginibre`, `C135_haar`, `C135_haar_is_ginibre`, `C135_components`, `C135_haar_components`, `C135_moments`, `C135_ball`, `C136_spread`, `C136_schedules`, `C136_durations`, `C136_time_field`, `C136_estimates`, `C136_estimates_fixed`, `C136_transformed`, `C136_any_steps`, `C137_second_moments`, `C137_covariance`, `C137_purity`, `C137_purity_rank`, `C137_high_rank`, `C137_rank`, `C137_bloch`, `C137_prior`, `C138_counts`, `C138_connected`, `C138_clear_cache`, `C138_nested`, `C138_nested_default`, `C139_aliases`, `C139_never_told_apart`, `C139_short_times`, `C139_two_times`, `C139_three_times`, `C139_sparse_times`, `C139_inversion`, `C139_decoherence`, `C139_rb_two_lengths`, `C139_rb_three_lengths`, `C139_rb_degenerate`, `C139_rb_interleaved`, `C139_noisy_coin`, `C139_repetitions`, `C139_ratio_kept`, `C139_frequency_learnt`, `C140_criterion`, `C140_too_few`, `C140_just_enough`, `C140_paulis`, `C140_learnt`, `C140_stabilizers`, `C141_evidence`, `C141_rate`, `C141_better_wins`, `C141_truth_wins`, `C141_occam`, `C142_best_fit`, `C142_certainty`, `C142_ess`, `C142_resamples`, `C142_never`, `C143_resampled`, `C143_posterior`, `C143_mean`, `C143_updater`, `C143_precession`, `C143_coin`, `C144_saved`, `C144_place`, `C144_first`, `C144_elsewhere`, `C145_weights`, `C145_totals`, `C145_error`, `C146_explore`, `C146_posterior`, `C146_mean`, `C146_updater`, `C146_rules`, `C146_explore_rules`, `C146_precession`, `C147_limits`, `C147_learns`, `C147_leaders`, `C147_loop`, `C148_pairs`, `C148_chance`, `C148_learns`, `C149_independent`, `C149_refuted`, `C149_differences`, `C149_learnt`, `C149_survives`, `C149_refuted_iff`, `C149_sparse_aliases`, `C149_frozen`, `C150_frequencies`, `C150_drawn`, `C150_learnt`, `C150_sparse_times`, `C151_heuristics`, `C151_chance`, `C151_learns`, `C152_chance`, `C152_learns`, `C152_states`, `C153_forecast`, `C153_chance`, `C153_count`, `C153_right`, `C153_log_loss`, `C154_mean`, `C154_covariance`, `C154_variance`, `C154_ess`, `C154_nearest`, `C154_variance_lost`, `C154_exact`, `C155_exact`, `C155_lengths`, `C155_sorted`, `C155_sample`, `C155_liu_west`, `C155_simulate`, `C155_liu_west_fails`, `C155_impossible_outcome`, `C156_checks`, `C156_unlikely`, `C156_repaired`, `C156_parts`, `C156_run`, `C156_chance`, `C156_update`, `C157_exact`, `C157_region`, `C157_digits`, `C158_record`, `C158_log_total`, `C158_feed`, `C159_default`, `C159_linear`, `C159_units`, `C159_units_added`, `C159_scale`, `C160_move`, `C160_resampler`, `C160_valid`, `C160_cloud`, `C160_copy`, `C161_location`, `C161_root`, `C161_displacement`, `C161_rounded`, `C162_warns`, `C162_reseeded`, `C162_units`, `C162_covariance`, `C162_law`, `C162_spread`, `C162_mean`
