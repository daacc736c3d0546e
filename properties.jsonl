{"id": "C01", "title": "Updater weights always form a probability vector", "statement": "After constructing an SMCUpdater and after every later call to update, batch_update, resample or reset that returns, for a model with non-negative likelihoods, zero-weight policy 'error' or 'skip' and zero-weight threshold between the float spacing and 1, all particle weights are non-negative, sum to exactly 1, and there is one weight per particle location. A call that raises leaves the weights a probability vector too.", "quantifier": "every model with non-negative likelihood, every prior, every resampler that returns a weighted cloud, every random seed, every finite sequence of update/batch_update/resample/reset calls", "why_tests_cant": "A test exercises a few histories; the claim is an invariant over unboundedly long mixed histories including raised errors.", "anchors": ["src/qinfer/smc.py: SMCUpdater.__init__, update, batch_update, resample, reset", "src/qinfer/distributions.py: ParticleDistribution.__init__"]}
{"id": "C02", "title": "The 'reset' zero-weight policy really restarts from the prior", "statement": "When an update would send every particle weight to zero and the policy is 'reset', afterwards the updater holds the weights of a fresh prior cloud (uniform). The code at the pinned commit violates this: the zero weights overwrite the reset ones. The theorems show the violation and what is preserved.", "quantifier": "every updater state and every outcome of zero likelihood under policy 'reset'", "why_tests_cant": "The existing tests never look at the weights after a reset by policy; the claim ranges over every state.", "anchors": ["src/qinfer/smc.py: SMCUpdater.update lines 432-441", "src/qinfer/smc.py: SMCUpdater.reset"]}
{"id": "C03", "title": "hypothetical_update is Bayes' rule and has no side effects", "statement": "For each outcome and experiment, hypothetical_update returns weights proportional to weight times likelihood, normalised to sum 1 whenever the outcome's total probability is at least the float spacing; for an outcome impossible under every particle it returns all zeros; the reported normalisation is the true total probability; the updater is unchanged.", "quantifier": "every weight vector, every likelihood function, every array of outcomes and experiments", "why_tests_cant": "Numerical spot checks cannot cover all weight and likelihood arrays.", "anchors": ["src/qinfer/smc.py: SMCUpdater.hypothetical_update"]}
{"id": "C04", "title": "Posterior does not depend on the order of the data", "statement": "For a static model and no resampling, processing a list of (outcome, experiment) pairs in any order leaves the same final weights as long as no zero-weight event occurs; the weights equal the prior weights times the product of likelihoods, normalised.", "quantifier": "every finite data list, every permutation of it, every static model, every initial cloud, every zero-weight policy", "why_tests_cant": "Number of permutations is factorial and data lists are unbounded.", "anchors": ["src/qinfer/smc.py: SMCUpdater.update, batch_update"]}
{"id": "C05", "title": "normalization_record multiplies to the evidence", "statement": "For a static model without resampling, after any number of updates the product of normalization_record equals the prior-weighted average of the total likelihood of all data, so log_total_likelihood is the log of the evidence.", "quantifier": "every finite data list, static model, initial cloud", "why_tests_cant": "Telescoping identity over unbounded histories.", "anchors": ["src/qinfer/smc.py: SMCUpdater.update, normalization_record, log_total_likelihood"]}
{"id": "C06", "title": "data_record is the exact list of outcomes given", "statement": "After any history of calls, including updates that were skipped or that raised because of zero weights, data_record is exactly the list of outcomes passed to update/batch_update in order, where a batch that raises is recorded up to and including the datum at which it raised; normalization_record has exactly one entry, the probability of the outcome under the cloud of that time, per datum that was not rejected for zero weight (also if a resampling it triggered raised); reset and resample change neither.", "quantifier": "every sequence of operations, every policy", "why_tests_cant": "Ranges over unbounded mixed histories including failing calls.", "anchors": ["src/qinfer/smc.py: SMCUpdater.update, data_record, normalization_record, reset, resample"]}
{"id": "C07", "title": "Zero-weight policies do what they say", "statement": "When an update would send the total weight to at most the threshold: 'skip' leaves weights, locations, normalization record and resampling counters as they were; 'error' raises RuntimeError leaving weights and locations as they were; an unknown policy raises ValueError likewise; 'ignore' and 'warn' accept the update. When the total weight is above the threshold the policy has no effect whatsoever.", "quantifier": "every state, every outcome, every policy string", "why_tests_cant": "Needs every state and both sides of the threshold.", "anchors": ["src/qinfer/smc.py: SMCUpdater.update lines 415-441"]}
{"id": "C08", "title": "Resampling happens exactly when the effective sample size is below threshold", "statement": "update (with check_for_resample) performs a resampling step iff the datum was not rejected and 1/sum(w^2) of the updated weights is strictly below n_particles*resample_thresh; with check_for_resample=False never; resample_count counts exactly the resampling steps in the whole history and just_resampled is True iff a resampling happened after the last datum.", "quantifier": "every history and threshold", "why_tests_cant": "Counter invariants over unbounded histories.", "anchors": ["src/qinfer/smc.py: SMCUpdater._maybe_resample, resample, resample_count, just_resampled"]}
{"id": "C09", "title": "min_n_ess is the running minimum", "statement": "After any history min_n_ess equals the minimum of the initial particle count and the effective sample sizes of all updates that were not rejected for zero weight (before any resampling they trigger); in particular it never increases.", "quantifier": "every history, policy, model and resampler", "why_tests_cant": "Running minimum over unbounded histories.", "anchors": ["src/qinfer/smc.py: SMCUpdater.min_n_ess, update"]}
{"id": "C10", "title": "batch_update equals repeated update", "statement": "batch_update with resample_interval=1 leaves exactly the same state, and raises the same exception, as calling update once per datum, for every zero-weight policy except 'skip' (under 'skip' the code checks for resampling after a skipped datum in a batch but not in update, so the two can differ); for any non-zero interval it equals updates without checking plus a resampling check after each interval-th datum; a length mismatch raises ValueError before anything changes; interval 0 raises ZeroDivisionError after processing exactly the first datum.", "quantifier": "every data list, every interval, every state", "why_tests_cant": "Unbounded data lists and intervals.", "anchors": ["src/qinfer/smc.py: SMCUpdater.batch_update"]}
{"id": "C11", "title": "Effective sample size lies between 1 and the particle count", "statement": "For any normalised non-negative weight vector of n particles, n_ess is at least 1 and at most n; it is n exactly for uniform weights and 1 exactly when one particle carries all the weight.", "quantifier": "every n and every probability vector of length n", "why_tests_cant": "Inequality over all real vectors of all lengths.", "anchors": ["src/qinfer/distributions.py: ParticleDistribution.n_ess"]}
{"id": "C12", "title": "ParticleDistribution constructor normalises", "statement": "Constructing from locations and weights with not-all-zero weights gives non-negative weights summing to one in the original proportions of absolute values; giving both n_mps and particles raises ValueError; giving no particles yields one particle at the origin with weight one.", "quantifier": "every weight vector", "why_tests_cant": "All vectors of all lengths.", "anchors": ["src/qinfer/distributions.py: ParticleDistribution.__init__"]}
{"id": "C13", "title": "Covariance estimate is the centred second moment and positive semidefinite", "statement": "For normalised non-negative weights est_covariance_mtx equals the weighted sum of (x-mean)(x-mean)^T; it is symmetric and positive semidefinite; it is zero along a direction iff all particles with positive weight agree along it.", "quantifier": "every cloud, every dimension", "why_tests_cant": "Matrix identity over all clouds.", "anchors": ["src/qinfer/distributions.py: ParticleDistribution.particle_covariance_mtx, particle_mean, est_covariance_mtx"]}
{"id": "C14", "title": "Bayes risk never exceeds the current variance", "statement": "bayes_risk of an experiment whose likelihoods over its outcomes sum to 1 is non-negative and at most the Q-weighted variance of the current posterior, the gap being the Q-weighted variance of the hypothetical posterior means, provided the last outcome has non-zero probability and every other outcome is impossible or has a probability of at least the float spacing (smaller ones are renormalised by one in the code). If the last outcome is impossible the code divides zero by zero and returns NaN.", "quantifier": "every cloud, every finite-outcome likelihood, every scale vector", "why_tests_cant": "Law of total variance over all clouds and likelihoods.", "anchors": ["src/qinfer/smc.py: SMCUpdater.bayes_risk"]}
{"id": "C15", "title": "Expected information gain is non-negative", "statement": "expected_information_gain is at least 0 when every particle gives every outcome positive probability and no outcome but the last has a total probability below the float spacing; and it is NaN as soon as some particle gives zero probability to some outcome.", "quantifier": "every cloud with positive weights, every finite-outcome likelihood", "why_tests_cant": "Gibbs inequality over all distributions.", "anchors": ["src/qinfer/smc.py: SMCUpdater.expected_information_gain"]}
{"id": "C16", "title": "Credible region is the smallest heaviest-first set above the level", "statement": "est_credible_region(level) with 0<=level<total weight returns particles of total weight greater than level, no excluded particle is heavier than an included one, removing the lightest included particle brings the total weight to at most level, and inside plus outside is a rearrangement of all the particles. With level at least the total weight the code raises IndexError.", "quantifier": "every cloud, every level, every tie-breaking of the sort", "why_tests_cant": "All clouds, levels and orders of ties.", "anchors": ["src/qinfer/distributions.py: ParticleDistribution.est_credible_region"]}
{"id": "C17", "title": "ParticleDistribution.sample returns existing particles by inverse CDF", "statement": "Every draw is one of the particles; a uniform variate u selects particle i exactly when u lies in the half-open interval between consecutive cumulative weights, whose length is the weight of i, so zero-weight particles are never drawn while u is below the total weight.", "quantifier": "every cloud and every variate", "why_tests_cant": "Partition of the unit interval for every weight vector.", "anchors": ["src/qinfer/distributions.py: ParticleDistribution.sample"]}
{"id": "C18", "title": "Liu-West resampling yields valid particles or warns", "statement": "With postselection, the Liu-West resampler returns n_particles locations with uniform weights after at most maxiter rounds; either all returned particles are valid or a ResamplerWarning reports exactly the number of invalid ones; a particle once accepted is never changed; without postselection exactly one round is used. It returns as many particles as its argument n_particles says, else its default_n_particles, else as many as there were.", "quantifier": "every model validity predicate, every kernel outcome, every maxiter and particle count", "why_tests_cant": "Loop over unboundedly many random rounds.", "anchors": ["src/qinfer/resamplers.py: LiuWestResampler.__call__"]}
{"id": "C19", "title": "Liu-West redraws a rejected particle around its own parent", "statement": "Every round redraws each still-invalid particle around the centre a*x_j+(1-a)*mean of the parent j drawn for it. The code violates this: after a round with rejections the centres of the first k remaining particles are reused for the k rejected ones.", "quantifier": "every rejection pattern", "why_tests_cant": "Needs specific rejection patterns of a random procedure.", "anchors": ["src/qinfer/resamplers.py: LiuWestResampler.__call__ lines 365-372"]}
{"id": "C20", "title": "Liu-West preserves the first two moments exactly when a^2+h^2=1", "statement": "Over the random choice of parent and a zero-mean unit-covariance kernel, the resampled particle has the mean of the cloud, and covariance (a^2+h^2) times the covariance of the cloud; hence equal for h=None and every a in [-1,1]. Setting a later keeps h consistent unless h was overridden.", "quantifier": "every cloud, every a, h", "why_tests_cant": "Expectation identity over all clouds.", "anchors": ["src/qinfer/resamplers.py: LiuWestResampler.__init__, a, __call__"]}
{"id": "C21", "title": "PostselectedDistribution samples are valid or it raises", "statement": "PostselectedDistribution.sample(n) either returns exactly n samples that all satisfy are_models_valid, each produced by the underlying distribution, or raises RuntimeError after at most maxiters redraws; valid samples are not redrawn.", "quantifier": "every underlying sampler, predicate, n and maxiters", "why_tests_cant": "Unbounded random redraw loop.", "anchors": ["src/qinfer/distributions.py: PostselectedDistribution.sample"]}
{"id": "C22", "title": "IntegerDomain enumerates its members exactly once", "statement": "For a finite IntegerDomain with min<=max, values lists each accepted integer once in increasing order and nothing else, n_members is their number, example_point is a member, and in_domain accepts exactly the integers between min and max. For max<min the example point is not a member.", "quantifier": "every min, max including infinite ones", "why_tests_cant": "All integers.", "anchors": ["src/qinfer/domains.py: IntegerDomain"]}
{"id": "C23", "title": "MultinomialDomain enumerates all outcome tuples exactly once", "statement": "values lists every tuple of k non-negative integers summing to n_meas exactly once; n_members is the binomial coefficient C(n+k-1,k-1) and equals the number of values; the example point is a member; in_domain accepts exactly those tuples.", "quantifier": "every n_meas and k", "why_tests_cant": "Combinatorial identity for all n and k.", "anchors": ["src/qinfer/domains.py: MultinomialDomain"]}
{"id": "C24", "title": "ProductDomain is the Cartesian product", "statement": "values of a product of finite domains contains every tuple of component members exactly once, n_members is the product of component counts, and in_domain accepts a tuple iff each component accepts its part; the domain is finite iff all components are.", "quantifier": "every list of component domains", "why_tests_cant": "All lists of domains.", "anchors": ["src/qinfer/domains.py: ProductDomain"]}
{"id": "C25", "title": "Joining and separating structured arrays are inverse", "statement": "separate_struct_array(join_struct_arrays(arrays), dtypes) returns the original arrays byte for byte, and ProductDomain's from/to_regular_arrays are mutually inverse on correctly sized data.", "quantifier": "every list of arrays with any item sizes and at least one item (without items the conversions raise ZeroDivisionError)", "why_tests_cant": "All byte contents and field layouts.", "anchors": ["src/qinfer/utils.py: join_struct_arrays, separate_struct_array", "src/qinfer/domains.py: ProductDomain.to_regular_arrays, from_regular_array"]}
{"id": "C26", "title": "to_simplex and from_simplex are inverse", "statement": "from_simplex maps every point of the open simplex to a real vector and to_simplex maps back to the same point; to_simplex always lands in the simplex (positive entries, sum one), and from_simplex(to_simplex(y)) = y in all coordinates but the ignored last one, which is set to 0.", "quantifier": "every dimension and every real vector", "why_tests_cant": "Inverse functions over all reals.", "anchors": ["src/qinfer/utils.py: to_simplex, from_simplex"]}
{"id": "C27", "title": "Two-outcome likelihood arrays are complementary", "statement": "pr0_to_likelihood_array gives pr0 for outcome 0 and 1-pr0 for every other outcome, so for outcomes 0 and 1 entries sum to one, and lie in [0,1] when pr0 does, in the shape (outcomes, models, experiments).", "quantifier": "every pr0 array and outcome list", "why_tests_cant": "All arrays.", "anchors": ["src/qinfer/abstract_model.py: FiniteOutcomeModel.pr0_to_likelihood_array"]}
{"id": "C28", "title": "simulate_experiment draws outcomes from the likelihood", "statement": "For a finite-outcome model with constant outcome count whose outcomes are 0..k-1 with likelihoods summing to one, a uniform variate u in [0,1) yields outcome i exactly when u lies in the interval between cumulative likelihoods i-1 and i (length = likelihood of i). The code indexes the outcome table twice, so for a domain not starting at 0 it returns the wrong outcome or fails.", "quantifier": "every likelihood vector, every variate, every outcome table", "why_tests_cant": "All variates and likelihoods.", "anchors": ["src/qinfer/abstract_model.py: FiniteOutcomeModel.simulate_experiment"]}
{"id": "C29", "title": "BinomialModel is a proper distribution over n_meas+1 outcomes", "statement": "The likelihood of a BinomialModel over outcomes 0..n_meas sums to 1, is non-negative when the underlying two-outcome likelihood is in [0,1], counts outcome-1 occurrences of n_meas independent shots, and for n_meas=1 equals the underlying model.", "quantifier": "every n_meas and every underlying probability", "why_tests_cant": "Binomial theorem for all n and p.", "anchors": ["src/qinfer/derived_models.py: BinomialModel", "src/qinfer/utils.py: binomial_pdf"]}
{"id": "C30", "title": "Multinomial pdf is normalised", "statement": "multinomial_pdf over all tuples of the matching MultinomialDomain sums to one for every probability vector, and each term is the multinomial coefficient times the product of powers.", "quantifier": "every n_meas, k and probability vector", "why_tests_cant": "Multinomial theorem.", "anchors": ["src/qinfer/utils.py: multinomial_pdf", "src/qinfer/derived_models.py: MultinomialModel.likelihood"]}
{"id": "C31", "title": "Precession-type likelihoods are probabilities and scores are derivatives", "statement": "SimpleInversionModel, SimplePrecessionModel and UnknownT2Model return likelihoods in [0,1] that sum to one over the two outcomes (for valid models); the score of the inversion/precession model equals the derivative of the log-likelihood with respect to the frequency wherever the likelihood is non-zero.", "quantifier": "every real frequency, reference frequency and time", "why_tests_cant": "Calculus identity at all reals.", "anchors": ["src/qinfer/test_models.py: SimpleInversionModel, SimplePrecessionModel, UnknownT2Model"]}
{"id": "C32", "title": "Coin, noisy coin and die models return probabilities on valid parameters", "statement": "CoinModel, NoisyCoinModel and NDieModel likelihoods lie in [0,1] and sum to one over outcomes for all valid parameters (NDie: to the parameter sum, within the threshold); scores and Fisher information of the coin model match the definition.", "quantifier": "every valid parameter vector", "why_tests_cant": "All reals.", "anchors": ["src/qinfer/test_models.py: CoinModel, NoisyCoinModel, NDieModel"]}
{"id": "C33", "title": "Randomized benchmarking conversions and likelihood", "statement": "p(F,d) and F(p,d) are mutually inverse for d>1; for every parameter vector accepted by are_models_valid the likelihood of RandomizedBenchmarkingModel lies in [0,1] for every sequence length, interleaved or not, and its score is the gradient of the log-likelihood.", "quantifier": "every dimension, fidelity, sequence length and valid parameter", "why_tests_cant": "All reals and lengths.", "anchors": ["src/qinfer/rb.py: p, F, RandomizedBenchmarkingModel"]}
{"id": "C34", "title": "Call and simulation counters count exactly", "statement": "call_count equals the total number of (outcome, model, experiment) likelihood evaluations requested, and sim_count the number of simulated outcomes, over any history of calls; clearing or copying does not change them.", "quantifier": "every history of calls", "why_tests_cant": "Counters over unbounded histories.", "anchors": ["src/qinfer/abstract_model.py: Model.likelihood, Simulatable.simulate_experiment, call_count, sim_count"]}
{"id": "C35", "title": "Model chains unwrap to the base model", "statement": "For any nesting of derived models, model_chain lists all inner models from innermost to the directly wrapped one, base_model is the innermost, and underlying_model is the last element of the chain; a plain model has an empty chain, itself as base and no underlying model.", "quantifier": "every nesting depth", "why_tests_cant": "Unbounded nesting.", "anchors": ["src/qinfer/abstract_model.py: Simulatable.model_chain, base_model, underlying_model", "src/qinfer/derived_models.py: DerivedModel"]}
{"id": "C36", "title": "Adaptive likelihood estimation stops at its error tolerance with a valid estimate", "statement": "ALEApproximateModel likelihood estimates lie strictly inside (0,1) when the hedge is positive, and each loop stops only when the estimated error is within tolerance. With min_samp different from samp_step the hit count and the sample count disagree.", "quantifier": "every sequence of simulated outcomes", "why_tests_cant": "Unbounded sampling loop.", "anchors": ["src/qinfer/ale.py: binom_est_p, binom_est_error, ALEApproximateModel.likelihood", "src/qinfer/utils.py: binom_est_p, binom_est_error"]}
{"id": "C37", "title": "Parallel likelihood equals serial likelihood", "statement": "DirectViewParallelizedModel.likelihood returns exactly the serial model's array for any number of engines, above or below the serial threshold, for all numbers of models and experiments. Its simulate_experiment joins chunks along the wrong axis.", "quantifier": "every number of engines, models, experiments and threshold", "why_tests_cant": "All chunk sizes.", "anchors": ["src/qinfer/parallel.py: DirectViewParallelizedModel"]}
{"id": "C38", "title": "Mixed updater evaluates each particle with exactly one model, the heavy ones with the good one", "statement": "MixedApproximateSMCUpdater assigns each particle to exactly one of the two models; the good set has at least min_good particles or all above-threshold ones, no approximated particle is heavier than every good one, and likelihood values come from the assigned model at the particle's own location. When one set is empty the code raises AssertionError.", "quantifier": "every weight vector, permutation and ratio", "why_tests_cant": "All weight vectors and shuffles.", "anchors": ["src/qinfer/smc.py: MixedApproximateSMCUpdater.hypothetical_update"]}
{"id": "C39", "title": "Experiment designer keeps the best guess", "statement": "Over any sequence of optimiser guesses within one new_exp/design_expparams_field cycle the stored best cost is the minimum of all costs seen and the stored experiment achieves it. With the null optimiser the stored cost is never set and the last guess always wins.", "quantifier": "every sequence of guesses and costs", "why_tests_cant": "Unbounded sequences.", "anchors": ["src/qinfer/expdesign.py: ExperimentDesigner.new_exp, design_expparams_field"]}
{"id": "C40", "title": "Tomography bases round-trip states", "statement": "For a basis with orthonormal Hermitian elements, modelparams_to_state(state_to_modelparams(rho)) = rho for every state and conversely; the Gell-Mann basis is orthonormal and Hermitian in every dimension with first element proportional to the identity; tensor products of orthonormal bases are orthonormal.", "quantifier": "every dimension, state, parameter vector", "why_tests_cant": "Linear algebra in all dimensions.", "anchors": ["src/qinfer/tomography/bases.py: gell_mann_basis, tensor_product_basis, TomographyBasis"]}
{"id": "C41", "title": "Tomography canonicalisation gives positive unit-trace states", "statement": "trunc_neg_eigs replaces a Hermitian operator by the same operator with negative eigenvalues set to zero, which is positive; renormalize makes the trace one; canonicalize of any parameter vector with a positive part yields a density operator and leaves a density operator unchanged; likelihoods are clipped to [0,1].", "quantifier": "every Hermitian matrix in every dimension", "why_tests_cant": "All matrices.", "anchors": ["src/qinfer/tomography/models.py: TomographyModel.canonicalize, trunc_neg_eigs, renormalize, likelihood"]}
{"id": "C42", "title": "Moment-parameterised distributions hit their moments", "statement": "BetaDistribution(mean,var), BetaBinomialDistribution(mean,var), GammaDistribution(mean,var) choose shape parameters whose distribution has exactly that mean and variance; incomplete parameters raise ValueError.", "quantifier": "every admissible mean and variance", "why_tests_cant": "All reals.", "anchors": ["src/qinfer/distributions.py: BetaDistribution, BetaBinomialDistribution, GammaDistribution"]}
{"id": "C43", "title": "Constrained sum samples sum to the desired total", "statement": "Every sample of ConstrainedSumDistribution sums to desired_total when the underlying sample's sum is positive; for a negative sum the code returns a vector summing to -desired_total; underlying samples with positive sum keep ratios.", "quantifier": "every sample", "why_tests_cant": "All reals.", "anchors": ["src/qinfer/distributions.py: ConstrainedSumDistribution.sample"]}
{"id": "C44", "title": "Product and mixture distributions assemble components correctly", "statement": "ProductDistribution.sample(n) has n rows, each the concatenation of one row from each factor; n_rvs is the sum; MixtureDistribution.sample(n) returns exactly n rows, each drawn by one of the components, ns[k] from component k.", "quantifier": "every list of factors, counts, n (a mixture needs n >= 1: sample(0) raises ValueError)", "why_tests_cant": "All shapes.", "anchors": ["src/qinfer/distributions.py: ProductDistribution, MixtureDistribution"]}
{"id": "C45", "title": "Poisoned likelihoods stay probabilities", "statement": "PoisonedModel.likelihood always lies in [0,1] whatever the noise, for an underlying likelihood in [0,1] and (in sampling mode) a number of samples and a hedge that are not negative, and in general whenever it is not NaN; with zero noise it equals the underlying likelihood. The constructor's check that exactly one of tol and n_samples is given never fires.", "quantifier": "every noise value", "why_tests_cant": "All noise values.", "anchors": ["src/qinfer/derived_models.py: PoisonedModel"]}
{"id": "C46", "title": "Random walk step changes only walk parameters", "statement": "GaussianRandomWalkModel.update_timestep leaves every parameter that is not a random-walk parameter unchanged, adds sigma times the drawn noise to the others, and keeps one particle set per experiment; RandomWalkModel adds a step to every parameter.", "quantifier": "every index set, noise and cloud", "why_tests_cant": "All shapes and indices.", "anchors": ["src/qinfer/derived_models.py: RandomWalkModel, GaussianRandomWalkModel"]}
{"id": "C47", "title": "uniquify removes duplicates keeping first occurrences", "statement": "uniquify returns the distinct elements in order of first appearance: no duplicates, same set, and idempotent.", "quantifier": "every sequence", "why_tests_cant": "All sequences.", "anchors": ["src/qinfer/utils.py: uniquify"]}
{"id": "C48", "title": "perf_test_multiple masks exactly the failed trials", "statement": "With allow_failures the result has one row per trial, failed trials are masked and others intact in trial order; without it the first failure is raised; the progress bar is always told it finished.", "quantifier": "every pattern of failures and trial count", "why_tests_cant": "All failure patterns.", "anchors": ["src/qinfer/perf_testing.py: perf_test_multiple, apply_serial"]}
{"id": "C49", "title": "numpy_err_policy restores the previous error policy", "statement": "After a with-block using numpy_err_policy the floating point error policy is what it was before. The code violates this when the block raises.", "quantifier": "every policy and every block", "why_tests_cant": "All exits from the block.", "anchors": ["src/qinfer/perf_testing.py: numpy_err_policy"]}
{"id": "C50", "title": "Resetting a subset of parameters touches nothing else", "statement": "reset(only_params=...) leaves all other parameter columns of every particle unchanged and keeps the particle count; reset(n) gives n particles with uniform weights; passing both raises ValueError with no change.", "quantifier": "every cloud and column set", "why_tests_cant": "All shapes.", "anchors": ["src/qinfer/smc.py: SMCUpdater.reset"]}
{"id": "C51", "title": "Cramer-Rao tracking accumulates information additively", "statement": "SMCUpdaterBCRB.current_bim equals the initial matrix plus the sum of the prior Bayes information of all experiments given to update, adaptive_bim likewise with posterior information, adaptive_bim without tracking raises. The caller's initial_bim array is mutated in place.", "quantifier": "every history of updates", "why_tests_cant": "Sum over unbounded histories; aliasing.", "anchors": ["src/qinfer/smc.py: SMCUpdaterBCRB"]}
{"id": "C52", "title": "Entropy of the particle distribution is between 0 and log n", "statement": "est_entropy is non-negative and at most the log of the number of particles with positive weight.", "quantifier": "every probability vector", "why_tests_cant": "Inequality over all vectors.", "anchors": ["src/qinfer/distributions.py: ParticleDistribution.est_entropy"]}
{"id": "C53", "title": "is_n_outcomes_constant is truthful for wrapped models", "statement": "If a model reports is_n_outcomes_constant as true then its domain does not depend on the experiment, for any nesting of wrappers. DerivedModel does not forward the flag, so a PoisonedModel, MLEModel or RandomWalkModel around a binomial or multinomial model reports true although the domain varies.", "quantifier": "every nesting of wrappers", "why_tests_cant": "Unbounded nestings; existing tests only wrap constant models.", "anchors": ["src/qinfer/abstract_model.py: Simulatable.is_n_outcomes_constant", "src/qinfer/derived_models.py: DerivedModel"]}
{"id": "C54", "title": "Weights never go negative, whatever the likelihood", "statement": "For any likelihood function, also one returning negative numbers, and any zero-weight policy, as long as the resampler returns none, no weight is negative after any history of public calls. When the normalised weights contain a negative number, update warns and stores them cut to [0,1] without normalising again, so their sum is at least one.", "quantifier": "every model, policy and history", "why_tests_cant": "Unbounded histories and arbitrary models.", "anchors": ["src/qinfer/smc.py: SMCUpdater.update 412-421"]}
{"id": "C55", "title": "Resampling reports what it does", "statement": "resample warns about missing new data exactly when nothing was observed since the last resampling; it hands the old cloud to the resampler and stores the canonicalised result; with divergence tracking it records the divergence of the new cloud from the old one, once per successful resampling; a failed one records nothing. A check of the effective sample size warns exactly if it is at most ten.", "quantifier": "every state and history", "why_tests_cant": "Histories are unbounded.", "anchors": ["src/qinfer/smc.py: SMCUpdater.resample, _maybe_resample"]}
{"id": "C56", "title": "A fresh updater", "statement": "Construction gives n prior draws (canonicalised if configured) with weights 1/n and empty records; resample_a together with resampler raises ValueError, and nothing else about these arguments does.", "quantifier": "every n and every combination of arguments", "why_tests_cant": "All values of n and collaborators.", "anchors": ["src/qinfer/smc.py: SMCUpdater.__init__"]}
{"id": "C57", "title": "One time step per accepted datum", "statement": "Every accepted datum moves the particles by exactly one model time step under the experiment performed, after the weights were computed at the old positions; rejected data, resamplings and resets make no time step. Over any history the number of time steps is the number of recorded normalisations.", "quantifier": "every history", "why_tests_cant": "Unbounded histories.", "anchors": ["src/qinfer/smc.py: SMCUpdater.update 441-449"]}
{"id": "C58", "title": "Diffusive tomography keeps states physical", "statement": "DiffusiveTomographyModel.update_timestep displaces every traceless component of every particle by eps*sqrt(t) times a normal draw and canonicalises: particles that are density operators become density operators, the diffusion parameter is kept, the update never fails for nonnegative durations, a zero duration changes nothing, and a negative duration is an error.", "quantifier": "every dimension, particle array, noise array and list of durations", "why_tests_cant": "All matrices, all noise realisations.", "anchors": ["src/qinfer/tomography/models.py: DiffusiveTomographyModel.update_timestep, canonicalize"]}
{"id": "C59", "title": "Distances between parameter vectors", "statement": "Simulatable.distance is a pseudometric for every scale vector Q, it is the Q-weighted 1-norm, and it vanishes exactly for vectors that agree in every parameter of nonzero scale. rescaled_distance_mtx is the Q-weighted Euclidean metric. weighted_pairwise_distances equals the plain distance for uniform weights, is symmetric, has the same zeros, and brings heavier points closer. With a positive power its entries are numbers exactly if all particles have weight: the distance to a particle without weight is infinite, and NaN at the same place, so that such a particle has distance NaN to itself.", "quantifier": "every dimension, scale vector, vectors and weights", "why_tests_cant": "Metric axioms quantify over all vectors.", "anchors": ["src/qinfer/abstract_model.py: Simulatable.distance 336-355", "src/qinfer/metrics.py: rescaled_distance_mtx, weighted_pairwise_distances 72-125"]}
{"id": "C60", "title": "Particle guess heuristic", "statement": "PGH designs an experiment from the first drawn pair of particles at nonzero distance: the inversion field is inv_func of the first particle, the time is t_func of the inverse distance, and other_fields override both. If maxiters attempts all give distance zero (in particular on a collapsed cloud) it raises RuntimeError, and with maxiters <= 0 UnboundLocalError; a name which is no experiment field raises ValueError.", "quantifier": "every cloud, variates, scale vector, field names and maxiters", "why_tests_cant": "All random draws, and the rare event of repeated equal draws.", "anchors": ["src/qinfer/expdesign.py: PGH.__call__ 205-225"]}
{"id": "C61", "title": "Exponentially sparse times", "statement": "ExpSparseHeuristic returns t = A b^n where n is the number of update calls made, over every history of updates, resamplings and resets. As a record, the time wins over an entry of other_fields of the same name and all other entries are kept; leaving out other_fields while naming a time field raises AttributeError.", "quantifier": "every history and every A, b", "why_tests_cant": "Unbounded histories.", "anchors": ["src/qinfer/expdesign.py: ExpSparseHeuristic 131-152", "src/qinfer/smc.py: SMCUpdater.data_record"]}
{"id": "C62", "title": "Ensemble heuristics choose by probability", "statement": "EnsembleHeuristic asks member i exactly if the uniform variate falls in the i-th of consecutive intervals with lengths the (normalised) probabilities; members of probability zero are never asked; an empty ensemble, a negative probability or a total away from one raise ValueError.", "quantifier": "every ensemble and every variate", "why_tests_cant": "Correct frequencies can only be sampled by tests.", "anchors": ["src/qinfer/expdesign.py: EnsembleHeuristic 102-109"]}
{"id": "C63", "title": "Best of k measurements", "statement": "BestOfKMetaheuristic returns, of the k experiments drawn, the first one whose measurement has the largest posterior variance under the current cloud, with other_fields written over it; with k <= 0 it raises ValueError.", "quantifier": "every cloud and every list of candidate measurements", "why_tests_cant": "Optimality over all candidates and clouds.", "anchors": ["src/qinfer/tomography/expdesign.py: BestOfKMetaheuristic 230-245"]}
{"id": "C64", "title": "Fisher information", "statement": "fisher_information of a differentiable model with a constant number of outcomes is, for every parameter vector and experiment, symmetric and positive semidefinite, and is the covariance of the score when the likelihoods are positive and sum to one; with a varying number of outcomes each experiment is summed over its own outcomes.", "quantifier": "every model, number of parameters, outcomes, experiments and parameter vectors", "why_tests_cant": "A quantified algebraic and analytic law; tests check single models.", "anchors": ["src/qinfer/abstract_model.py: DifferentiableModel.fisher_information 707-761"]}
{"id": "C65", "title": "Numerical scores and gradients", "statement": "ScoreMixin.score and FiniteDifference.central differ from the true derivative by at most the bound of the central difference rule (third derivative times h^2/6L, respectively h^2/24), are exact for quadratics, converge as the step shrinks, and use one step per parameter.", "quantifier": "every likelihood or function with a bounded third derivative, every point and step", "why_tests_cant": "An error bound over all smooth functions is not a finite check.", "anchors": ["src/qinfer/score.py: ScoreMixin 60-117", "src/qinfer/finite_difference.py: FiniteDifference"]}
{"id": "C66", "title": "Square roots of positive matrices", "statement": "sqrtm_psd returns the unique positive square root of the positive part of a Hermitian matrix, whatever eigenvectors eigh returns, and its reported error is zero exactly if the matrix is positive.", "quantifier": "every complex matrix and every orthonormal eigenbasis", "why_tests_cant": "Uniqueness and the error criterion range over all matrices.", "anchors": ["src/qinfer/utils.py: sqrtm_psd 593-609"]}
{"id": "C67", "title": "Random states are density operators", "statement": "Every sample of a density operator distribution is the parameter vector of a density operator with first entry 1/sqrt(dim), and sample(n) returns n of them; real Ginibre samples are real density operators of bounded rank; ranks above the dimension are refused.", "quantifier": "every basis, every drawn operator, every rank and dimension", "why_tests_cant": "Positivity and normalisation over all random draws.", "anchors": ["src/qinfer/tomography/distributions.py: rand_dm_ginibre_redit 78-86, DensityOperatorDistribution 138-141, TensorProductDistribution 154-160, GinibreDistribution 180-184"]}
{"id": "C68", "title": "The GADFLI prior has the prescribed mean", "statement": "For a full-rank mean other than the maximally mixed state, every GADFLI sample is a density operator and the expectation of the samples is the prescribed mean when the fiducial distribution has maximally mixed mean; other means fail in a defined way.", "quantifier": "every mean in dimension two or more, every fiducial distribution with maximally mixed mean", "why_tests_cant": "An integral over the prior; tests can only estimate it.", "anchors": ["src/qinfer/tomography/distributions.py: GADFLIDistribution 262-296"]}
{"id": "C69", "title": "Random Pauli measurements are projectors", "statement": "On n >= 1 qubits each of the 4^n - 1 measurements RandomPauliHeuristic can draw is a Hermitian projector of trace 2^n/2, namely (1 + P)/2 for a Pauli operator P; dimensions that are not powers of two are refused with ValueError and dimension one fails.", "quantifier": "every number of qubits and every choice", "why_tests_cant": "Infinitely many dimensions; the number of choices grows as 4^n.", "anchors": ["src/qinfer/tomography/expdesign.py: RandomPauliHeuristic 133-160"]}
{"id": "C70", "title": "Uniform, slanted, constant and discrete distributions", "statement": "UniformDistribution samples have one row per draw and one entry per range, lie in their ranges (also reversed ones), and the probability of a subinterval is its share of the range; SlantedNormalDistribution adds weight times a normal variate; ConstantDistribution repeats its vector; malformed ranges are IndexErrors.", "quantifier": "every table of ranges, number of samples and variates", "why_tests_cant": "Laws over all variates, including a measure.", "anchors": ["src/qinfer/distributions.py: UniformDistribution 792-827, ConstantDistribution 829-846, SlantedNormalDistribution 911-948, DiscreteUniformDistribution 1148-1166"]}
{"id": "C71", "title": "Normal distributions: laws and gradients", "statement": "NormalDistribution(mean, var) samples follow the normal law with that mean and variance, within the limits if truncated; MultivariateNormalDistribution samples have the given mean and covariance; grad_log_pdf is the gradient of the log density; LogNormalDistribution(mu, sigma) samples are exponentials of normals with mean mu and deviation sigma.", "quantifier": "every mean, variance, covariance, limits and point", "why_tests_cant": "Probability laws and derivatives at all points.", "anchors": ["src/qinfer/distributions.py: NormalDistribution 848-880, MultivariateNormalDistribution 882-908, UniformDistribution.grad_log_pdf 821-827, LogNormalDistribution 950-970"]}
{"id": "C72", "title": "InterpolatedUnivariateDistribution inverts the trapezium-rule distribution function", "statement": "compactspace gives the increasing logistic quantiles; for a positive density every uniform variate gives a sample by linear interpolation, at most grid point k exactly when the variate is at most the trapezium-rule share up to k; rescaling the density changes nothing.", "quantifier": "every positive density, scale > 0, two or more points, every variate in [0, 1)", "why_tests_cant": "Inverse-CDF correctness over all densities and variates.", "anchors": ["src/qinfer/distributions.py: InterpolatedUnivariateDistribution 1352-1389", "src/qinfer/utils.py: compactspace 452-461"]}
{"id": "C73", "title": "Bloch vector priors lie in the Bloch ball", "statement": "HaarUniform samples are pure states (norm one), GinibreUniform samples are states (norm at most one, one for k = 1), drawn one by one with sample(n) giving n rows; dimensions other than two are ValueErrors.", "quantifier": "every variate, every number of samples", "why_tests_cant": "Geometric constraint over all random draws.", "anchors": ["src/qinfer/distributions.py: SingleSampleMixin 129-143, HilbertSchmidtUniform 1168-1220, HaarUniform 1223-1267, GinibreUniform 1269-1301"]}
{"id": "C74", "title": "Correlations are a correlation matrix", "statement": "est_covariance_mtx(corr=True) gives, for parameters with spread, the covariance in units of the standard deviations: between -1 and 1, symmetric, one on the diagonal and independent of units and origins; a parameter without spread gives NaN.", "quantifier": "every particle cloud whose weights form a probability vector", "why_tests_cant": "Cauchy-Schwarz over all clouds.", "anchors": ["src/qinfer/distributions.py: est_covariance_mtx 432-453"]}
{"id": "C75", "title": "Clusters partition the cloud and their moments add up", "statement": "particle_clusters yields nonempty clusters in which every particle appears exactly once; the cluster weights and first moments add up to those of the cloud; within- and between-cluster variance add up to the covariance of the cloud.", "quantifier": "every labelling, weights and locations", "why_tests_cant": "Partition and total-variance laws over all labellings.", "anchors": ["src/qinfer/clustering.py: particle_clusters", "src/qinfer/distributions.py: est_cluster_moments, est_cluster_covs, est_cluster_metric 505-575"]}
{"id": "C76", "title": "The divergence estimate is the plug-in kernel estimate", "statement": "est_kl_divergence is the sum over particles of weight times log of the ratio of the weight to the kernel density estimate, with bandwidth delta, of the other cloud.", "quantifier": "every pair of clouds, positive kernel and bandwidth", "why_tests_cant": "Estimator identity for all clouds and bandwidths.", "anchors": ["src/qinfer/distributions.py: _kl_divergence, est_kl_divergence 466-503"]}
{"id": "C77", "title": "The posterior marginal is a density", "statement": "posterior_marginal gives an evenly spaced grid from one end of the range to the other and nonnegative values whose trapezium-rule integral is one, less the weight of the lowest particle when the range starts at it (as it does by default); res < 2 is an error.", "quantifier": "every cloud with distinct locations of one parameter, every range that contains it, res >= 2", "why_tests_cant": "Integral over a grid of any size, interpolation through any table.", "anchors": ["src/qinfer/smc.py: posterior_marginal 672-740"]}
{"id": "C78", "title": "The posterior mesh pairs points with their densities", "statement": "posterior_mesh returns, at each place of the mesh arrays, the kernel density estimate at the mesh point of that place.", "quantifier": "every cloud, kernel and resolution", "why_tests_cant": "Index bookkeeping for all resolutions.", "anchors": ["src/qinfer/smc.py: posterior_mesh 795-850"]}
{"id": "C79", "title": "Covariance ellipsoids", "statement": "in_ellipsoid is membership in the affine image of the closed unit ball; the covariance ellipsoid (method pce) leaves out at most weight d/mult of the cloud, contains the mean, and does not depend on the linear coordinates used; a singular matrix or an unknown method name is an error.", "quantifier": "every matrix, centre, point and cloud", "why_tests_cant": "Geometry and a tail bound over all clouds.", "anchors": ["src/qinfer/utils.py: in_ellipsoid 355-374", "src/qinfer/distributions.py: in_credible_region 722-751"]}
{"id": "C80", "title": "mvee gives an enclosing ellipsoid", "statement": "For points that do not lie in one hyperplane mvee never fails and ends for every positive tolerance; the result is a nondegenerate ellipsoid that encloses the points, up to a factor that tends to one with the tolerance; points in a hyperplane are an error.", "quantifier": "every set of points, tolerance and number of passes", "why_tests_cant": "Termination and approximation guarantee of an iterative algorithm over all inputs.", "anchors": ["src/qinfer/utils.py: mvee 314-353", "src/qinfer/distributions.py: region_est_ellipsoid 643-667, in_credible_region 730-733"]}
{"id": "C81", "title": "Tables of data are read column by column", "statement": "data_to_params gives, for every row of a table, the outcome of the outcome column and an experiment whose fields hold the values of the columns named for them (integers truncated towards zero); it succeeds exactly if every column and field named exists; a plain array and a record array with the same contents give the same. One row alone, as loadtxt gives for a file with one line, is read as the table with this row.", "quantifier": "every table, layout, dtype and column assignment", "why_tests_cant": "Column bookkeeping for all layouts and all tables.", "anchors": ["src/qinfer/simple_est.py: data_to_params 70-106"]}
{"id": "C82", "title": "Simple estimation gives the posterior", "statement": "simple_est_prec and simple_est_rb return, as long as no resampling took place, the posterior mean and covariance (a number and a variance for one parameter) of the model under a prior that is uniform on the ranges given, and the updater if asked for; estimates lie within the cloud; arrays, record arrays and text files are treated alike.", "quantifier": "every table of data, number of particles and seed, every world of variates", "why_tests_cant": "Bayes' rule through the whole function for all data.", "anchors": ["src/qinfer/simple_est.py: do_update, load_data_or_txt, simple_est_rb, simple_est_prec 108-260"]}
{"id": "C83", "title": "Arrays are aligned at the right", "statement": "shorten_right gives all arrays the same number of axes and, on each axis, the smallest length occurring, keeping the last entries; promote_dims_left inserts axes of length one on the left.", "quantifier": "every nonempty collection of arrays without empty axes", "why_tests_cant": "Index arithmetic for any number of axes.", "anchors": ["src/qinfer/perf_testing.py: promote_dims_left, shorten_right 155-180"]}
{"id": "C84", "title": "A performance trial records what happened", "statement": "perf_test gives one row per experiment: experiments chosen from an updater that has seen the earlier outcomes, outcomes simulated from the true parameters of the row, estimates that are posterior means given the outcomes so far (up to the first resampling), a resampling count that grows by at most one, and the right-aligned quadratic loss; a shorter trial with the same seed is a prefix.", "quantifier": "every model, heuristic, prior, true model, seed and number of experiments", "why_tests_cant": "Refinement of a loop of any length with arbitrary components.", "anchors": ["src/qinfer/perf_testing.py: perf_test 182-273"]}
{"id": "C85", "title": "Durations are measured and written correctly", "statement": "A stopped timer shows the time between start and stop whenever it is read; pretty_time writes a duration so that reading the fields back gives the duration rounded down to seconds (to hundredths, rounded, up to one minute).", "quantifier": "every duration that is not negative", "why_tests_cant": "Round trip over all real durations.", "anchors": ["src/qinfer/perf_testing.py: Timer, timing 65-112", "src/qinfer/utils.py: pretty_time 535-545"]}
{"id": "C86", "title": "Two outcomes seen through normal noise", "statement": "GaussianHyperparameterizedModel accepts two-outcome models, adds two means and two variances as parameters (valid iff the variances are positive and the wrapped model accepts its part), its likelihood is the density of the mixture of the two normal distributions weighted by the wrapped likelihood, and simulated outcomes follow that mixture.", "quantifier": "every two-outcome model, parameter row, experiment and real outcome", "why_tests_cant": "Densities over the real line and Bayes' rule for all parameters.", "anchors": ["src/qinfer/derived_models.py: GaussianHyperparameterizedModel 385-508"]}
{"id": "C87", "title": "Multinomial samples have the multinomial law", "statement": "sample_multinomial and MultinomialModel.simulate_experiment return counts that are in the domain of the model (one per face, adding up to the number of rolls) and have exactly the probability that MultinomialModel.likelihood assigns to them, with axes in the documented order.", "quantifier": "every number of rolls, faces, distributions and repetitions", "why_tests_cant": "Exact distribution by induction over the conditional binomials.", "anchors": ["src/qinfer/utils.py: sample_multinomial 163-203", "src/qinfer/derived_models.py: MultinomialModel.simulate_experiment 652-679"]}
{"id": "C88", "title": "Amplified updates approach maximum likelihood", "statement": "With MLEModel, the weights after any data are proportional to the prior times the likelihood of the data to the given power; a whole power is the same as updating that often with the same data; as the power grows the weights concentrate on the particles of greatest likelihood and the mean tends to their prior-weighted mean.", "quantifier": "every model with positive likelihoods, cloud, sequence of data and power", "why_tests_cant": "A limit over all powers and induction over data.", "anchors": ["src/qinfer/derived_models.py: MLEModel 681-703"]}
{"id": "C89", "title": "Information of repeated measurements adds up", "statement": "The Fisher information of the binomial model with n measurements is n times that of one measurement, for each experiment's own n; DifferentiableBinomialModel.fisher_information returns it.", "quantifier": "every differentiable two-outcome model, parameter, n and experiment", "why_tests_cant": "Derivatives and sums over all outcomes for every n.", "anchors": ["src/qinfer/derived_models.py: DifferentiableBinomialModel 362-383"]}
{"id": "C90", "title": "Settings are kept, defaults do nothing", "statement": "Settings of a model read back the value last assigned to them; update_timestep leaves models alone by default, with axes for models, parameters and experiments; dtypes of outcomes are consistent iff any two experiments agree.", "quantifier": "every sequence of assignments, shape and list of experiments", "why_tests_cant": "Sequences of any length.", "anchors": ["src/qinfer/abstract_model.py: 218-240, 357-374, 470-516, 584-606"]}
{"id": "C91", "title": "Adaptive inference converges to the truth", "statement": "If the data come from one of the particles, then however the experiments are chosen from what has been learnt so far, the expected posterior weight of every other particle falls exponentially in the number of experiments, at the rate of the overlap of the two likelihoods; the expected weight of the truth tends to one and the estimated mean to the true parameters.", "quantifier": "every model, prior cloud with the truth in it, adaptive choice of experiments and number of experiments; updates that neither fail nor resample", "why_tests_cant": "A limit and an expectation over all outcome sequences of adaptive runs.", "anchors": ["src/qinfer/smc.py: SMCUpdater.update, hypothetical_update", "src/qinfer/perf_testing.py: perf_test 245-266 (adaptive loop)"]}
{"id": "C92", "title": "Reported uncertainties are honest", "statement": "Averaged over truths drawn from the prior cloud and over the outcomes of any adaptive run, the squared error of est_mean equals the variance reported by est_covariance_mtx, no other estimator has a smaller squared error, est_mean has no bias, and est_credible_region contains the truth at least as often as its level says.", "quantifier": "every model, prior cloud, adaptive choice of experiments, number of experiments, parameter and level; updates that neither fail nor resample", "why_tests_cant": "Exact identities of expectations over all truths and outcome sequences.", "anchors": ["src/qinfer/smc.py: SMCUpdater.update, hypothetical_update", "src/qinfer/distributions.py: est_mean, est_covariance_mtx, est_credible_region"]}
{"id": "C93", "title": "Experiment design delivers what it promises", "statement": "The value of bayes_risk for an experiment is the mean, over its outcomes, of the (Q-weighted) variance that the updater reports after performing it and processing the outcome, and equals the mean squared error of est_mean at that point; expected_information_gain is the mean drop of est_entropy.", "quantifier": "every model with finitely many outcomes, cloud and experiment whose possible outcomes are not below machine precision", "why_tests_cant": "Equality of two different computations for all models, clouds and outcomes.", "anchors": ["src/qinfer/smc.py: bayes_risk 553-612, expected_information_gain 614-663, update", "src/qinfer/distributions.py: est_entropy, est_covariance_mtx, est_mean"]}
{"id": "C94", "title": "Volumes of ellipsoids", "statement": "ellipsoid_volume returns the Lebesgue volume of the ellipsoid: of the points accepted by in_ellipsoid for the same shape matrix, and of the points with (x-c)^T A (x-c) <= 1; without a matrix there is a ValueError, for a singular one a LinAlgError.", "quantifier": "every dimension, positive definite matrix and centre", "why_tests_cant": "Measure theory in every dimension.", "anchors": ["src/qinfer/utils.py: ellipsoid_volume 290-308, in_ellipsoid 355-374"]}
{"id": "C95", "title": "Significant figures", "statement": "assert_sigfigs_equal accepts two arrays iff corresponding elements agree to the demanded number of significant figures, independently of the unit.", "quantifier": "all real numbers, all numbers of figures", "why_tests_cant": "Statement about all real numbers and all magnitudes.", "anchors": ["src/qinfer/utils.py: assert_sigfigs_equal 385-406"]}
{"id": "C96", "title": "Printed uncertainties", "statement": "The text from format_uncertainty shows value and uncertainty to within half the uncertainty; a non-zero uncertainty is never shown as zero.", "quantifier": "all values, uncertainties and breaks", "why_tests_cant": "Statement about all real numbers and all magnitudes.", "anchors": ["src/qinfer/utils.py: format_uncertainty 408-450"]}
{"id": "C97", "title": "Drifting parameters are tracked", "statement": "For a model whose parameters drift between experiments the updater weights every particle by the likelihood of the whole data set along the path the particle has taken; it reports the end points of the paths and records normalizations whose product is the probability of the data; it refuses data exactly if a datum takes this probability down by a factor below machine precision.", "quantifier": "every model, number of particles, data set and motion, without resampling", "why_tests_cant": "The weights depend on whole histories of arbitrary length.", "anchors": ["src/qinfer/smc.py: update, batch_update, hypothetical_update", "src/qinfer/abstract_model.py: update_timestep", "src/qinfer/derived_models.py: RandomWalkModel.update_timestep, GaussianRandomWalkModel.update_timestep"]}
{"id": "C98", "title": "More particles give the right answer", "statement": "As the number of particles drawn from the prior grows, est_mean, est_covariance_mtx, every mean over the particles and log_total_likelihood converge with probability one to the values of the exact posterior; for every fixed number the recorded normalizations are an unbiased estimate of the probability of the data with variance of order 1/n.", "quantifier": "every prior, model (also with drifting parameters) and data set of positive probability, without resampling", "why_tests_cant": "A statement about limits and probabilities.", "anchors": ["src/qinfer/smc.py: __init__, reset, update, log_total_likelihood", "src/qinfer/distributions.py: est_mean, est_covariance_mtx"]}
{"id": "C99", "title": "Stabilizer measurements", "statement": "heisenberg_weyl_operators(d) is a complete set of d*d orthogonal unitary operators, closed under products up to phases; every measurement drawn by RandomStabilizerStateHeuristic is the projector onto one vector invariant under one of them, and its record gives every state exactly the probability of Born's rule.", "quantifier": "every dimension, basis, state and random choice", "why_tests_cant": "A statement about all dimensions and states.", "anchors": ["src/qinfer/tomography/expdesign.py: heisenberg_weyl_operators 73-80, StateTomographyHeuristic 84-107, RandomStabilizerStateHeuristic 110-131", "src/qinfer/tomography/models.py: likelihood"]}
{"id": "C100", "title": "Process tomography predicts prepare-and-measure statistics", "statement": "For every preparation and measurement heuristic, the record from ProductHeuristic makes the model give a channel, represented by its Choi state, the probability of preparing the state, sending it through the channel and seeing the effect.", "quantifier": "every dimension, channel, preparation and effect", "why_tests_cant": "A statement about all channels and states.", "anchors": ["src/qinfer/tomography/expdesign.py: ProcessTomographyHeuristic 163-191, ProductHeuristic 193-213, RandomPauliHeuristic 134-160", "src/qinfer/tomography/models.py: likelihood"]}
{"id": "C101", "title": "Credible regions have at least the stated probability", "statement": "The polytope of region_est_hull, and the points accepted by in_credible_region with 'hpd-hull', hold more posterior probability than the level demanded; they are spanned by particles, and grow with the level. The same is promised of the ellipsoid of region_est_ellipsoid and of 'hpd-mvee'.", "quantifier": "every set of particles and weights, level, tolerance and order of equal weights", "why_tests_cant": "A statement about all sets of particles in any dimension.", "anchors": ["src/qinfer/distributions.py: region_est_hull 616-641, region_est_ellipsoid 643-666, in_credible_region 668-751"]}
{"id": "C102", "title": "The accelerated model agrees with the plain one", "statement": "AcceleratedPrecessionModel returns the likelihoods of SimplePrecessionModel whatever the order in which the device runs its work items and whatever its memory held before; with rounding the results are still probabilities, and their error is bounded by the precision times the phase.", "quantifier": "every number of models and experiments, order of work items, memory content, rounding", "why_tests_cant": "Schedules and rounding errors cannot be enumerated, and the tests need a device.", "anchors": ["src/qinfer/gpu_models.py: cos_model 76-90, AcceleratedPrecessionModel 92-195", "src/qinfer/test_models.py: SimplePrecessionModel 164-213"]}
{"id": "C103", "title": "Rounding does not spoil the posterior", "statement": "In rounded arithmetic, with sums taken in any order, the weights sum to one after every update up to the error of a single normalization, however many updates there were; if nothing underflows, the weights and the means computed from them agree with Bayes' rule up to a relative error linear in the number of data.", "quantifier": "every rounding with the stated relative error, order of additions, number of particles and data", "why_tests_cant": "Rounding errors of all data and all summation orders cannot be tried out.", "anchors": ["src/qinfer/smc.py: hypothetical_update 324-386, update 388-455"]}
{"id": "C104", "title": "Postselected priors are the conditioned distribution", "statement": "If the underlying distribution returns independent draws, then, given that PostselectedDistribution.sample(n) returns, its array is distributed as n independent draws conditioned on being valid, whatever maxiters is; RuntimeError has probability 1 - (1 - q^maxiters)^n, q the probability that a draw is invalid.", "quantifier": "every underlying distribution, measurable validity predicate with non-zero probability, n and maxiters", "why_tests_cant": "A claim about probability distributions; a test sees finitely many samples and cannot tell a biased redraw from chance.", "anchors": ["src/qinfer/distributions.py: PostselectedDistribution.sample 1317-1346"]}
{"id": "C105", "title": "Noise added by resampling", "statement": "One call of the Liu-West resampler without postselection on random draws: each particle is a parent with probability equal to its weight; the mean of the n new particles has the old mean as expectation, with covariance (a^2 + h^2) cov / n about it and Chebyshev's bound on large errors; the covariance of the new cloud is on average smaller than the old one by the factor 1 - 1/n (for a^2 + h^2 = 1).", "quantifier": "every weighted cloud, number of new particles, a, h, kernel law with mean zero and unit covariance, square root of the covariance", "why_tests_cant": "A claim about expectations over all random draws; a test sees a few noisy runs, and the factor 1 - 1/n is far below their noise.", "anchors": ["src/qinfer/resamplers.py: LiuWestResampler.__call__ 256-392"]}
{"id": "C106", "title": "The posterior concentrates on the truth", "statement": "Feed an updater independent data, without resampling, for a model without drift. A particle that explains the data less well on average (smaller expected log-likelihood) than another particle with weight loses its weight in the limit, with probability one; a particle that finds data impossible that do occur has weight exactly zero from some time on. If the data come from one of the particles and every other particle predicts a different outcome probability for an experiment that is performed, the weight of the true particle tends to one and the estimated mean of any function of the parameters tends to its true value.", "quantifier": "every model with non-negative likelihood and no drift, every finite cloud and prior weights, every law of the data (finite outcomes and experiments for the last part), almost every infinite sequence of data", "why_tests_cant": "A limit over infinitely many data with probability one; a test sees one finite run, and slow concentration looks the same as none.", "anchors": ["src/qinfer/smc.py: SMCUpdater.update 389-465, hypothetical_update 324-387", "src/qinfer/distributions.py: ParticleDistribution.particle_mean"]}
{"id": "C107", "title": "Resampling cluster by cluster", "statement": "ClusteringResampler resamples every cluster on its own with the secondary resampler (noise with the moments of the whole cloud), puts the new particles of a cluster in the places of the old ones, keeps the number of particles and returns normalised weights.", "quantifier": "every cloud, labelling returned by the clusterer, secondary resampler that keeps the number of particles, contents of the uninitialised arrays", "why_tests_cant": "The class is not tested at all; which particle ends up where, and the total weight, depend on the labelling, of which a test would try one or two.", "anchors": ["src/qinfer/resamplers.py: ClusteringResampler.__init__ 106-119, __call__ 123-169", "src/qinfer/utils.py: particle_meanfn 216-232, particle_covariance_mtx 235-287", "src/qinfer/clustering.py: particle_clusters 84-153"]}
{"id": "C108", "title": "Resampling by copies does not bias the evidence", "statement": "With a Liu-West resampler at a = 1 (h = 0, no postselection) the updater accepts all data, and on average over the random draws of the resampler the product of normalization_record times the mean of any function over the final cloud equals the value without resampling, whenever and however often the cloud is resampled. So the product of normalization_record is an unbiased estimate of the evidence, also over the prior when the particles are drawn from it, and overestimates the evidence c-fold with probability at most 1/c.", "quantifier": "every model with moving particles whose likelihoods are at least machine epsilon, data sequence, number of particles, weights, threshold, function", "why_tests_cant": "A claim about the average over all random draws in a run with data-dependent resampling times.", "anchors": ["src/qinfer/smc.py: update 390-455, resample 482-536, _maybe_resample 263-275, normalization_record 215-225", "src/qinfer/resamplers.py: LiuWestResampler.__call__ 256-392"]}
{"id": "C109", "title": "Legacy tomography models predict measurement statistics", "statement": "The models of qinfer.tomography.legacy can be used: a row is valid exactly if it is a Bloch vector of a state, likelihoods follow Born's rule with limited visibility, have the shape outcomes x states x experiments and are probabilities, and the circuit model simulates data with the probabilities of its likelihood.", "quantifier": "every list of states, experiments, outcomes; every function f and m with 2^m values; every mixing parameter", "why_tests_cant": "The classes have no tests; that a simulator follows the likelihood is a statement about probabilities, and broadcasting errors depend on the numbers of states and experiments.", "anchors": ["src/qinfer/tomography/legacy.py: QubitStatePauliModel 173-231, RebitStatePauliModel 233-287, MultiQubitStatePauliModel 290-341, HTCircuitModel 343-415"]}
{"id": "C110", "title": "Sampled channels convert back", "statement": "BCSZQubitDistribution.to_qobj turns samples of the distribution back into the sampled superoperators.", "quantifier": "every unitary basis change, every superoperator, any number of samples", "why_tests_cant": "The method is not tested; the round trip depends on the order of the entries and on the number of samples.", "anchors": ["src/qinfer/tomography/legacy.py: conjugate 66-67, BCSZQubitDistribution._sample 144-154, to_qobj 156-171"]}
{"id": "C111", "title": "Resampled estimates converge", "statement": "An updater that resamples by copies (LiuWestResampler with a = 1) whenever its effective sample size falls below the threshold estimates posterior means and the evidence with a mean square error that falls as 1/n in the number of particles.", "quantifier": "every model with likelihoods in [l, 1], data, threshold, bounded function, prior, number of particles; law of the resampler's variates", "why_tests_cant": "Convergence is a statement about the law of adaptively resampled runs for all numbers of particles; a test sees one seed and one number.", "anchors": ["src/qinfer/smc.py: update 390-460, resample 480-531, est_mean 541-549, normalization_record 164-173", "src/qinfer/resamplers.py: LiuWestResampler.__call__ 256-392"]}
{"id": "C112", "title": "Mixtures and products draw independent samples", "statement": "sample(n) of a mixture returns n independent rows, each following the weighted mixture of the component laws, and sample(n) of a product returns n independent rows, each the concatenation of independent draws from the factors, so nested priors give independent particles. A mixture with shuffle=False does not: its rows are independent draws from no distribution.", "quantifier": "every number and nesting of components, weights, component laws and n >= 1; law of numpy's multinomial and shuffle", "why_tests_cant": "Independence and the law of the rows are statements about all seeds at once, and the counts of a mixture are dependent while its shuffled rows are not; a test sees single draws.", "anchors": ["src/qinfer/distributions.py: MixtureDistribution.sample 233-259, ProductDistribution.sample 780-781"]}
{"id": "C113", "title": "Counting outcomes loses nothing", "statement": "Giving BinomialModel the number of ones of each experiment, or MultinomialModel how often each outcome occurred, leaves the updater with exactly the particles and weights it would have after the wrapped model has seen every single shot, in any order; the recorded normalizations differ by the number of orders of the shots.", "quantifier": "every two-outcome or finite-outcome model, cloud, list of experiments and shots, order of the single shots; models without drift, runs that are accepted and do not resample", "why_tests_cant": "The equality holds between two different models over histories of any length; tests compare pdfs at single points.", "anchors": ["src/qinfer/derived_models.py: BinomialModel.likelihood 314-329, MultinomialModel.likelihood 630-652", "src/qinfer/smc.py: update 388-457"]}
{"id": "C114", "title": "Resampling hardly changes predictions", "statement": "A particle made by the Liu-West resampler lies from its parent at a mean squared distance of 2(1-a) times the total variance of the cloud; for a function of the parameters that is at most quadratic the average over the new cloud (est_meanfn, a predicted probability) has the old average as its expectation; for a function that changes by at most L times the distance the expectation is off by at most L sqrt(2(1-a)V) and the mean squared change is at most L^2 V (2(1-a) + 1/n).", "quantifier": "every cloud, kernel with unit covariance, parameter a with the default h, square root of the covariance, number of new particles, function", "why_tests_cant": "The bounds hold for the distribution of the result over all random draws; a test sees a single draw and can only compare mean and covariance roughly.", "anchors": ["src/qinfer/resamplers.py: LiuWestResampler.__call__ 256-392", "src/qinfer/distributions.py: est_meanfn 407-430"]}
{"id": "C115", "title": "Samples have the declared shape", "statement": "sample(n) of every distribution, and of every nesting of products, mixtures, postselections and constrained sums, returns an array of shape (n, n_rvs), whatever is drawn; an updater accepts a prior exactly when its n_rvs is the number of parameters of the model. sample(0) of a distribution that draws samples one by one has shape (0, n_rvs), whatever its dimension.", "quantifier": "every nesting of distributions, n at least 1, random draws, number of parameters of the model", "why_tests_cant": "Nestings are unbounded, and the shapes depend on random counts; tests check each class on its own.", "anchors": ["src/qinfer/distributions.py: Distribution 101-127, MixtureDistribution.sample 234-261, ProductDistribution.sample 783-784, DiscreteUniformDistribution.sample 1164-1166, PostselectedDistribution.sample 1321-1347, ConstrainedSumDistribution.sample 1414-1417", "src/qinfer/smc.py: reset 304-316"]}
{"id": "C116", "title": "Wrapped models describe themselves consistently", "statement": "For every nesting of model wrappers, modelparam_names has one name for each of the n_modelparams parameters and starts with the names of the stand-alone model; Q has one entry per parameter, so that distances, Bayes risk and performance losses are defined; canonicalize, time steps and experiment costs are those of the wrapped model applied to its own parameters.", "quantifier": "every nesting of the seven wrappers over any stand-alone model, parameter rows, experiments, steps drawn", "why_tests_cant": "Nestings are unbounded; tests wrap one model once and do not ask for distances, costs or time steps of the result.", "anchors": ["src/qinfer/derived_models.py: DerivedModel 82-144, GaussianHyperparameterizedModel 410-428, RandomWalkModel 714-740, GaussianRandomWalkModel 784-870, 916-963", "src/qinfer/abstract_model.py: Simulatable 85-92, 171-187, 320-395, LinearCostModelMixin 531-542", "src/qinfer/smc.py: bayes_risk 600-609", "src/qinfer/perf_testing.py: perf_test 258-260", "src/qinfer/expdesign.py: design_expparams_field 323-339"]}
{"id": "C117", "title": "Bayesian Cramér-Rao bound", "statement": "For true parameters drawn from a smooth prior density and a finite-outcome model with smooth likelihood, no estimate computed from the outcomes of any (adaptively chosen) experiments, in particular not the posterior mean of an SMCUpdater, has a mean squared error matrix below the inverse of the Bayesian information matrix; the mean of SMCUpdaterBCRB.current_bim over the samples of the prior is that matrix for experiments fixed in advance, and what adaptive_bim adds at each update is, for the exact posterior, its increment for experiments chosen on the way.", "quantifier": "every smooth prior and model, number of experiments, strategy, estimate, updater configuration, heuristic and history of calls", "why_tests_cant": "The bound concerns all estimates and strategies, and means over a continuum of true parameters; a test compares the matrices with stored numbers.", "anchors": ["src/qinfer/smc.py: SMCUpdaterBCRB 1047-1241, _bim 1126-1138, current_bim 1139-1147, adaptive_bim 1149-1161, update 1212-1241", "src/qinfer/abstract_model.py: DifferentiableModel.fisher_information", "src/qinfer/test_models.py: SimplePrecessionModel 188-213", "src/qinfer/distributions.py: est_mean 336-348"]}
{"id": "C118", "title": "Sampling error of estimates", "statement": "With many particles drawn independently from the prior, the error of an estimated mean of a function of the parameters, compared with the mean under the exact posterior, is normally distributed with variance of order 1/n; n_ess divided by n converges to the square of the mean likelihood over the mean squared likelihood; and for a function that deviates from its mean by at most B, B/sqrt(n_ess) is a valid standard error: the error is at most z times that with at least the normal probability of [-z, z], in the limit.", "quantifier": "every prior, model, transport of particles, data of positive evidence with square-integrable likelihood, updater configuration without resampling, square-integrable function, interval", "why_tests_cant": "Statements about the law of the error of a randomised estimate in the limit of many particles; a test sees one cloud.", "anchors": ["src/qinfer/smc.py: SMCUpdater.update 388-447", "src/qinfer/distributions.py: n_ess 299-309, est_mean 336-348"]}
{"id": "C119", "title": "Rebit plots show what they say", "statement": "The ellipse drawn by plot_cov_ellipse consists of exactly the points at most nstd standard deviations from the centre in every direction; plot_rebit_posterior marks every particle and the posterior mean, its covariance ellipse holds at least 1 - 2/n_std² of the posterior weight and its hull more than the demanded level; states are drawn at the expectation values of the operators named on the axes, inside the unit circle; by default the X and Z axes are shown and no true state is needed. plot_rebit_prior marks every sample, the true states and the mean, where given.", "quantifier": "every covariance matrix, eigendecomposition, cloud, basis index, state, number of standard deviations and level", "why_tests_cant": "Plots are hard to test at all, and the claims concern all clouds and states; the tests do not exercise this module.", "anchors": ["src/qinfer/tomography/plotting_tools.py: plot_rebit_modelparams 82-95, plot_decorate_rebits 97-121, plot_cov_ellipse 123-153, plot_rebit_prior 156-195, plot_rebit_posterior 197-291"]}
{"id": "C120", "title": "Stopping whenever one likes", "statement": "Experiments may be chosen and ended by looking at the updater, for instance as soon as the reported variance is small. At the stop the mean squared error of est_mean, over truths and outcomes, still equals the mean reported variance, and credible regions still contain the truth with at least their level. The probability that the weight of the true particle ever falls to a fraction delta of its initial value is at most delta, so the particles above that fraction contain the truth at all times with probability 1 - delta. If one model is right, the probability that the log_total_likelihood of another ever exceeds its own by c is at most exp(-c).", "quantifier": "every model with static parameters and likelihoods that sum to one, cloud, heuristic, stopping rule, number of experiments, delta, c, pair of models; runs that raise or resample count as zero", "why_tests_cant": "Statements about all stopping rules and all times at once, averaged over truths and outcomes; a test stops at one fixed number of experiments.", "anchors": ["src/qinfer/smc.py: SMCUpdater.update 362-447, log_total_likelihood 215-226, normalization_record 204-213", "src/qinfer/distributions.py: est_mean 336-348, est_covariance_mtx 366-393, est_credible_region 568-650"]}
{"id": "C121", "title": "How fast one can learn", "statement": "However experiments are chosen and whenever one stops, the mean of est_entropy at the stop, over truths and outcomes, is at most its initial value. The mean number of experiments times the logarithm of the number of outcomes is at least the mean loss of entropy, and naming the true particle at the stop with a given error probability takes, on average, at least (entropy - log 2 - error probability times log of the particle number) / log of the number of outcomes experiments.", "quantifier": "every static model with a finite number of outcomes and likelihoods that sum to one, cloud, heuristic, stopping rule, rule that names a particle, cap on the number of experiments", "why_tests_cant": "A limit to every possible adaptive strategy; a test sees one strategy and one run.", "anchors": ["src/qinfer/distributions.py: est_entropy 457-464", "src/qinfer/smc.py: SMCUpdater.update 362-447, data_record 240-249"]}
{"id": "C122", "title": "Experiments and outcomes pass through wrappers", "statement": "For every model that can be made by wrapping models: there is at most one wrapper that counts outcomes; expparams_dtype has the fields of the stand-alone model and, if outcomes are counted, the additional field n_meas (and the field x for a scalar experiment); n_outcomes is the number of members of domain for each experiment; and the stand-alone model receives its own experiment with the values the user gave, both for likelihoods and simulations and for time steps. A random walk among the wrappers replaces the time step of the stand-alone model. Asked for the outcomes of an experiment without the field n_meas, a counting model raises ValueError (records), IndexError (numbers) or TypeError (None).", "quantifier": "every nesting of the seven wrappers over any stand-alone model with a fixed number of outcomes, every experiment with the declared fields", "why_tests_cant": "Nestings are unbounded, and the failing ones are accepted without an error.", "anchors": ["src/qinfer/derived_models.py: DerivedModel 92-144, BinomialModel 237-360, GaussianHyperparameterizedModel 397-429, MultinomialModel 529-668", "src/qinfer/abstract_model.py: Simulatable.n_outcomes, FiniteOutcomeModel.domain 610-631", "src/qinfer/domains.py: n_members"]}
{"id": "C123", "title": "Bases and updaters are read out and displayed faithfully", "statement": "Indexing a TomographyBasis with an int from -n to n-1 gives that element (negative ints count from the end), other ints raise IndexError, a list of indices gives the list of the items to any depth, and indices of other types raise TypeError. Iterating over a basis gives its elements in order, each once, and modelparams_to_state is the sum of the items weighted with the parameters. In the notebook display of a basis of dimension at most 10 every element stands with its own label and all its entries, each part correct to within 0.0005, and only entries within 1e-10 of zero are shown as zero; larger bases show only their labels. The notebook table of an updater shows under each parameter's name the format_uncertainty of its weighted mean and standard deviation, and in plot_covariance the cell (k, l) is the covariance of the k-th and l-th chosen parameter and the ticks bear their names.", "quantifier": "for all bases, indices (nested lists to any depth), real and complex numbers, tolerances, roundings to nearest, clouds of particles, numbers of parameters and selections of parameters", "why_tests_cant": "The displayed numbers go through three formats whose boundaries depend on the size of the number and on the tolerance; tests compare a few texts, if any, and cannot bound the error for all entries.", "anchors": ["src/qinfer/tomography/bases.py:156-175", "src/qinfer/tomography/bases.py:239-290", "src/qinfer/smc.py:756-792", "src/qinfer/smc.py:862-906"]}
{"id": "C124", "title": "Likelihoods of nested models", "statement": "For every nesting of BinomialModel, MultinomialModel, RandomWalkModel and GaussianRandomWalkModel that the constructors accept over a stand-alone model whose likelihoods are a probability distribution, likelihood fails on no member of the reported domain, and over this domain the values are non-negative and sum to one: they are the probabilities of the stand-alone model at the leading parameters and with its own experiment, or the binomial or multinomial probabilities of n_meas measurements of it. A BinomialModel around poisoned or amplified models still gives binomial probabilities for any noise. A MultinomialModel around a poisoned model with three or more outcomes can fail with an AssertionError, and an MLEModel inside a BinomialModel, unlike one around it, does not have its maximum at the maximum likelihood estimate.", "quantifier": "for all nestings to any depth, stand-alone likelihoods, rows of parameters, experiments with the declared fields, outcomes, powers and noise", "why_tests_cant": "Each wrapper is tested alone around one model; the nestings, the stripping of columns and fields through several layers, and the interplay of distorted likelihoods with counting are not.", "anchors": ["src/qinfer/derived_models.py:185-208", "src/qinfer/derived_models.py:314-329", "src/qinfer/derived_models.py:624-652", "src/qinfer/derived_models.py:701-728", "src/qinfer/derived_models.py:890-892"]}
{"id": "C125", "title": "Simulated data of nested models", "statement": "For every nesting of counting models and random walks that the constructors accept over a stand-alone model, with PoisonedModel and MLEModel anywhere outside of the counting model, simulate_experiment does not fail, its outcomes lie in the reported domain, and their law is the likelihood of the model without poisoning and amplification. Data seen through normal noise have the density of the mixture of two normal distributions. Inside a BinomialModel, however, PoisonedModel and MLEModel change the data as well: the poisoned data are not those of the original model, as documented, and the amplified data are those of a coin with probability p^gamma.", "quantifier": "for all nestings to any depth, stand-alone likelihoods, rows of parameters, experiments with the declared fields, outcomes, powers and noise", "why_tests_cant": "A law of random outcomes can only be sampled by tests, and only for a few nestings; that BinomialModel asks for the likelihood instead of simulating the wrapped model shows only in combination with models whose data do not follow their likelihood.", "anchors": ["src/qinfer/derived_models.py:210-220", "src/qinfer/derived_models.py:331-356", "src/qinfer/derived_models.py:488-508", "src/qinfer/derived_models.py:654-679", "src/qinfer/derived_models.py:697-699", "src/qinfer/derived_models.py:730-732", "src/qinfer/derived_models.py:894-896"]}
{"id": "C126", "title": "Randomized benchmarking from a table", "statement": "simple_est_rb, called with a table of counts, sequence lengths, numbers of sequences and (with interleaving) a reference column, as a plain array, a record array or a text file, starts from n_particles valid model vectors whose decay parameters lie between p_min and p_max, uses every row once and in order, and returns a vector and a matrix. As long as the updater has not resampled these are the posterior mean and covariance, where a row is a binomial experiment with survival probability A p^m + B, or A (p~ p)^m + B for interleaved rows. It resamples exactly if after some number of rows the effective sample size is below half the number of particles. If no row is next to impossible it succeeds. If the final particles are valid models, so is the estimate. A range without valid values raises RuntimeError, a text file of one line never works.", "quantifier": "for all tables, particle numbers, ranges, uniform variates in [0, 1) and resamplers that turn weighted clouds into weighted clouds", "why_tests_cant": "The function is tested with one simulated data set and a tolerance of a few percent; that the result is the posterior of the documented survival law for every table, which rows use which decay, and when the updater resamples, cannot be seen from such a comparison.", "anchors": ["src/qinfer/simple_est.py:70-139", "src/qinfer/simple_est.py:190-261", "src/qinfer/rb.py:137-195", "src/qinfer/derived_models.py:237-329", "src/qinfer/distributions.py:1297-1346"]}
{"id": "C127", "title": "QuTiP is detected by its version", "statement": "For release numbers written in decimal with dots, get_qutip_module returns the module exactly if the installed number is not lexicographically smaller than the required one, component by component as numbers. A missing QuTiP, or a missing distutils, gives None; other exceptions of the import are passed on. check_qutip_version never raises and is True exactly if get_qutip_module returns the module. Every version is good enough for itself, and lowering the requirement never loses the module. Not as documented: a version that begins with the required release is accepted whatever non-digit follows (3.2rc1 for 3.2); where the installed version has letters and the required one a number get_qutip_module raises TypeError instead of returning None (4.0.dev for 4.0.2); trailing zeros count (4.0 is not good enough for 4.0.0); without distutils the module is never found.", "quantifier": "for all version strings, release numbers of any length, required versions and outcomes of the imports", "why_tests_cant": "The test suite only uses the function to skip tests with the one installed version; the order on all version strings, and the strings for which the comparison raises, cannot be seen from it.", "anchors": ["src/qinfer/utils.py:64-103"]}
{"id": "C128", "title": "Delegated trials and progress bars", "statement": "perf_test_multiple gives, for every engine passed as apply and every progress bar that does not raise, the rows or the exception that its rules (C48) give for the results fetched in the order of the trials, with division by zero raising while they run. The default apply_serial runs a trial when its result is first fetched, keeps a result once it has one, and runs a trial that raised again at the next fetch; its results are those of an engine that runs each trial when it is submitted, only that a failure that is not allowed is the last trial run. An IPythonProgressBar changes neither rows nor exceptions nor the error policy nor the random state, whatever its widget raises; without ipywidgets the call raises ImportError before any trial. The bar is displayed and closed, also after an exception, but its value and text count from zero: after all n trials it shows n - 1 of n. If a bar raises in start no trial is run, if it raises in finished that exception replaces the result, and if it raises in update the row of that trial counts as failed. Once its widget is closed an IPythonProgressBar ignores everything and its description is None.", "quantifier": "for all engines, trials that depend on the error policy and the random state, numbers of trials, widgets and models", "why_tests_cant": "Tests run a few trials with the default engine and no bar, or check that a bar object is called; they cannot cover all engines, trials that share a random state, or widgets that raise at any moment.", "anchors": ["src/qinfer/perf_testing.py:276-384", "src/qinfer/ipy.py:57-122"]}
{"id": "C129", "title": "The total likelihood never overstates a model", "statement": "Whatever law the data follow (it may depend on all earlier data), however experiments are chosen, whenever resampling is allowed, whatever the resampler does and however particles move between experiments: the product of normalization_record divided by the true probability of the data is at most one on average at any stopping time. So the chance that log_total_likelihood ever exceeds the logarithm of the true probability of the data by c is at most exp(-c): a wrong model cannot beat the truth by more than chance, even with a bad resampler. For given randomness of the resampler the totals of all sequences of n outcomes add up to at most one, and to exactly one if no likelihood is below machine precision and the resampler does not raise.", "quantifier": "for all models with finitely many outcomes, clouds, resamplers, thresholds, motions of the particles, plans of experiments, laws of the data, stopping rules and bounds c, under the zero-weight policy 'error'", "why_tests_cant": "The statement is about all data sequences and all resamplers at once; a test sees one sequence and one resampler, and bad luck with probability exp(-c) is allowed.", "anchors": ["src/qinfer/smc.py:214-226", "src/qinfer/smc.py:388-457", "src/qinfer/smc.py:263-277", "src/qinfer/smc.py:491-551"]}
{"id": "C130", "title": "Nearly right likelihoods give nearly right posteriors", "statement": "If the likelihoods an updater uses differ by at most delta from the right ones, then after T data its weights differ from the right posterior (sum of absolute differences) by at most 2 delta (1 + n1 + n1 n2 + ...) / (n1 ... nT), where n1, ..., nT is its own normalization_record; with likelihoods up to one that is at most 2 T delta divided by exp(log_total_likelihood). The product of the record itself is within delta (1 + n1 + ...) of the right probability of the data, and the mean of a quantity bounded by C is off by at most C times the distance. MixedApproximateSMCUpdater with mixture_ratio r and an approximate model that is off by delta does no worse than if all likelihoods were off by (1 - r) delta, whatever the thresholds and shuffles. The division is needed: with data as unlikely as delta the posterior can be entirely wrong.", "quantifier": "for all clouds, data sequences of any length, pairs of likelihood functions, mixture settings, sorts and shuffles; models without drift, updates without resampling that are all accepted under the policy 'error'", "why_tests_cant": "The error of later updates builds on that of earlier ones; no finite set of data and likelihood pairs shows that the bound holds for all lengths.", "anchors": ["src/qinfer/smc.py:388-457", "src/qinfer/smc.py:279-385", "src/qinfer/smc.py:909-1045", "src/qinfer/derived_models.py:135-257"]}
{"id": "C131", "title": "A posterior serves as the next prior", "statement": "An updater can be given as prior to another updater. Its sample(n) returns n independent rows, each a particle with probability equal to its weight. If part of the data goes to a first updater and the rest to a second one whose prior is the first, then with more and more particles in the second its means converge, with probability one, to those of the first updater's posterior given all the data, and the product of its normalization_record to the probability of the rest given the first part. For every number of particles that product is unbiased, with variance falling as 1/n, if no likelihood is below machine precision. The second updater starts with no parameter values other than those of the first.", "quantifier": "for all clouds whose weights add up to one, data, splits of the data, functions and numbers of particles; models without drift whose canonicalize leaves the particles alone; independent uniform variates; second updater without resampling", "why_tests_cant": "Convergence and independence are statements about all seeds and all numbers of particles.", "anchors": ["src/qinfer/distributions.py:319-333", "src/qinfer/smc.py:123-178", "src/qinfer/smc.py:281-320", "src/qinfer/smc.py:388-457"]}
{"id": "C132", "title": "Only the distribution a particle cloud represents matters", "statement": "Reordering particles, splitting one into several at the same place, merging such particles and leaving out or adding particles without weight do not change inference. Two updaters with the same history whose clouds give the same total weight to every parameter value, fed with the same data without resampling, raise the same exceptions, record the same normalizations, give the same warnings and end with clouds that again agree. est_mean, est_covariance_mtx and bayes_risk agree, and expected_information_gain does if every particle has weight and every outcome is possible. The quantities that do see the representation are n_ess (splitting doubles it), est_entropy (splitting adds log 2), expected_information_gain with a particle of weight zero (NaN), and therefore the decision to resample.", "quantifier": "for all clouds, sizes, data sequences, models with non-negative likelihood whose particles move one by one without noise, and zero-weight policies other than reset", "why_tests_cant": "The claim compares all pairs of representations of all distributions over all data sequences; tests compare a few runs.", "anchors": ["src/qinfer/smc.py:322-457", "src/qinfer/smc.py:546-663", "src/qinfer/distributions.py:337-455", "src/qinfer/distributions.py:457-464"]}
{"id": "C133", "title": "Units do not matter", "statement": "The same model written in other coordinates gives the same inference. If likelihood, prior, time step, canonicalize and resampler are those of the new coordinates, a fresh updater and every history of update, batch_update, resample and reset of all parameters give the same weights, records, warnings, exceptions and resampling decisions, and the particles are the same ones in the new coordinates. est_mean and est_covariance_mtx transform as they should under every affine change; bayes_risk and rescaled_distance_mtx do not change if Q is divided by the squares of the units. The Liu-West resampler follows: with one common unit for all parameters the new particles are the same for the same random numbers; with different units (or any affine change) the new cloud has the same law, for the default normal kernel, and so do all clouds of whole runs: however the experiments are chosen from the clouds so far, every quantity of the clouds of a run has the same expectation in the new coordinates, up to the first resampling of a cloud that has collapsed to a point (see C162). Two more things do not follow: with different units the same seed gives different particles, and Simulatable.distance uses Q where bayes_risk uses its square root, so no Q serves both.", "quantifier": "for all transformations of the parameters (affine ones for the estimates and the Liu-West resampler), models, priors, histories of calls, weights and seeds", "why_tests_cant": "A test compares runs in two units for one seed, where the results need not agree although the laws do.", "anchors": ["src/qinfer/smc.py:263-551", "src/qinfer/smc.py:553-612", "src/qinfer/resamplers.py:256-392", "src/qinfer/distributions.py:337-455", "src/qinfer/metrics.py:72-106", "src/qinfer/abstract_model.py:340-355"]}
{"id": "C134", "title": "Noise never helps, repetitions never hurt", "statement": "If the outcomes of an experiment are read through a channel that garbles them in a way independent of the hypothesis (NoisyCoinModel against CoinModel, UnknownT2Model with a given dephasing against a slower one or SimplePrecessionModel), bayes_risk is not lower and expected_information_gain is not higher than without the garbling. More measurements in a BinomialModel never raise bayes_risk and never lower expected_information_gain, and m measurements give at most m times the information of one. The same holds for whole runs: whatever strategy chooses the experiments and whatever is estimated from garbled outcomes, some strategy without the garbling makes est_mean of an updater at least as good in mean squared error (the same experiments if they are fixed in advance), and further experiments never make est_mean worse on average. Garbling that depends on the hypothesis can help: unknown dephasing times at equal frequency give a lower risk than no dephasing.", "quantifier": "for all clouds, likelihoods, garbling channels, numbers of measurements, run lengths, adaptive strategies and estimators", "why_tests_cant": "Both sides are expectations over all outcomes and the comparison is over all strategies; simulations compare a few noisy averages.", "anchors": ["src/qinfer/smc.py:553-663", "src/qinfer/smc.py:377-479", "src/qinfer/derived_models.py:222-340", "src/qinfer/test_models.py:188-258", "src/qinfer/test_models.py:262-401"]}
{"id": "C135", "title": "Random states have no preferred direction", "statement": "HaarUniform draws from the only rotation invariant distribution of pure states: almost every draw is a Bloch vector of norm one, no rotation or reflection changes the distribution, every component is uniform on [-1, 1], and whatever routine computes the QR factors does not matter. The Bloch vectors of GinibreUniform are rotation invariant for every k, equal to HaarUniform for k = 1 and uniform in the Bloch ball for the default k = 2; a component, moved to [0, 1], has the beta distribution with parameters k and k, so the mean state is maximally mixed and the components are uncorrelated with variance 1/(2k+1). rand_dm_ginibre_redit (GinibreReditDistribution) is invariant under orthogonal changes of basis in every dimension and rank, its mean is the maximally mixed state, and GADFLIDistribution with it as fiducial distribution has the prescribed mean.", "quantifier": "for all unit directions, rotations, reflections, dimensions, ranks, values of k, QR routines and events, over the law of independent standard normal variates", "why_tests_cant": "The claims are equalities of probability distributions on continuous spaces; samples can only be compared with them statistically, at a few directions and sizes.", "anchors": ["src/qinfer/distributions.py:1223-1301", "src/qinfer/tomography/distributions.py:77-86", "src/qinfer/tomography/distributions.py:198-220", "src/qinfer/tomography/distributions.py:223-296"]}
{"id": "C136", "title": "How fast random walks spread", "statement": "With GaussianRandomWalkModel, after any number of data the parameters of all particles are jointly normal around their starting values: particles are independent, parameters outside the walk never change, and the covariance of a particle is the sum of the squared scales (scale_mult) times est_update_covariance of that particle. So only the sum of the squared scales matters, and the spread in a given time does not depend on how the time is divided into experiments if and only if the squared scale is proportional to the duration (a field of durations does not do, its square root does). On average the mean estimate stays, and the estimated covariance grows by the total squared scale times the step covariance, less one part in n_ess. With a transformation the same holds in the transformed coordinates. With RandomWalkModel and steps of any law, means and covariances grow in proportion to the number of steps and particles are independent.", "quantifier": "for all models, index sets without repetition, covariances fixed or learned, clouds, weights, numbers of steps and scales, over the law of independent standard normal variates (for RandomWalkModel: independent steps of any law with second moments)", "why_tests_cant": "The claims are about distributions after arbitrarily many steps and all schedules of scales; samples only show approximate moments for single schedules.", "anchors": ["src/qinfer/derived_models.py:704-741", "src/qinfer/derived_models.py:742-970", "src/qinfer/smc.py:446-449"]}
{"id": "C137", "title": "How mixed random states are", "statement": "rand_dm_ginibre_redit (GinibreReditDistribution) draws states of the rank asked for, with probability one, in dimension N of rank min(N, rank). Their mean purity is (N + rank + 1) / (N rank + 2): one for rank 1, strictly decreasing with the rank, towards 1/N, and the probability that the purity exceeds 1/N by epsilon is at most (N-1)(N+2) / (N (N rank + 2) epsilon). The covariance of the expectation values of any two operators A, B is (tr AB + tr AB^T - 2 tr A tr B / N) / (N (N rank + 2)). In any tomography basis the first model parameter drawn is 1/sqrt(N), the others have mean zero; those of symmetric elements have variance 2 / (N (N rank + 2)), those of antisymmetric elements (sigma_y) are always zero. The mean purity of GinibreUniform is (k + 2) / (2k + 1).", "quantifier": "for all dimensions, ranks, pairs of operators, tomography bases, values of k and epsilon, over the law of independent standard normal variates", "why_tests_cant": "Means and ranks of random matrices in every dimension cannot be settled by samples, and almost sure statements not at all.", "anchors": ["src/qinfer/tomography/distributions.py:78-86", "src/qinfer/tomography/distributions.py:138-141", "src/qinfer/tomography/distributions.py:198-219", "src/qinfer/distributions.py:1270-1301"]}
{"id": "C138", "title": "The life of a parallelized model", "statement": "Over any sequence of calls on a DirectViewParallelizedModel, including calls that raise and pickling and loading in between, call_count and sim_count are the numbers of likelihoods and data asked for; the wrapped model of this process is touched only by the calls small enough to stay serial and by clear_cache, so its own counters miss the engines' work. Until the object is pickled, with at least one engine, every likelihood is the serial one. After loading it never has engines again: likelihoods up to the threshold fixed at construction are the wrapped model's, larger ones raise RuntimeError, every simulation raises, however small, and reading allow_identical_outcomes or outcome_warning_threshold raises AttributeError until they are set again. clear_cache raises only what the wrapped model's raises, and purges the view and, if asked for at construction, its client. A parallelized model wrapped in another one reaches the engines pickled: with threshold t inside and n engines the call returns the serial answer for up to n t models (10 n^2 with default thresholds) and raises beyond.", "quantifier": "for all wrapped models with arbitrary internal state, histories of operations, thresholds, numbers of engines, models, outcomes and experiments", "why_tests_cant": "Tests run without engines; the histories, sizes and nested thresholds are unbounded.", "anchors": ["src/qinfer/parallel.py:109-181", "src/qinfer/parallel.py:183-287", "src/qinfer/abstract_model.py:306-307", "src/qinfer/abstract_model.py:420-516"]}
{"id": "C139", "title": "What data can tell apart", "statement": "Two parameter vectors are told apart by an experiment if some outcome has different likelihoods. A precession experiment of duration t fails to tell two frequencies apart exactly if they agree modulo 2 pi / t up to the sign; durations up to pi / Omega tell apart all frequencies in [0, Omega]; no two durations and their multiples tell all non-negative frequencies apart, three with pairwise irrational ratios do. The first experiment of ExpSparseHeuristic tells apart the frequencies up to pi / scale; with a base a/b in lowest terms, such as the default 9/8, its first n experiments confuse omega with omega + 2 pi b^n / scale, but the unending sequence tells all apart. SimpleInversionModel confuses omega with 2 w_ - omega until a second inversion frequency is used. UnknownT2Model needs two durations, t and 2t suffice. Randomized benchmarking: no two sequence lengths determine (p, A, B), any three do unless p is 0 or 1 or A is 0, and a single interleaved length then adds the gate; a noisy coin works exactly if its two sides are read differently; repetitions tell apart what one experiment does. Particles that no datum tells apart keep the ratio of their weights for ever; with a short enough duration in use the weight of the true frequency tends to one.", "quantifier": "for all frequencies, durations, bases, sequence lengths, valid benchmarking parameters, and all data", "why_tests_cant": "Whether some far away alias exists, and whether any list of experiments suffices, are statements about all parameters at once.", "anchors": ["src/qinfer/test_models.py:96-260", "src/qinfer/rb.py:112-195", "src/qinfer/expdesign.py:111-152", "src/qinfer/derived_models.py:314-329"]}
{"id": "C140", "title": "How many measurements a state needs", "statement": "A list of measurements determines a tomography model if no two different states have the same likelihoods for all outcomes of all of them. Measurement effects do so exactly if together with the identity they span the Hermitian operators. Fewer than d^2 - 1 measurements never do, whatever they are; in every dimension some d^2 - 1 effects do; the 4^n - 1 projectors that RandomPauliHeuristic chooses from do for n qubits, and so do, in every dimension, the projectors that RandomStabilizerStateHeuristic chooses from, provided eigenstates() returns d linearly independent unit eigenvectors of each Heisenberg-Weyl operator. With measurements that determine the model, each in use with positive probability, the weight of the true state among finitely many different states tends to one.", "quantifier": "for all tomography bases, dimensions, numbers of qubits, measurement lists, pairs of states and finite clouds of states", "why_tests_cant": "That no set of fewer measurements works is a statement about all measurements and all pairs of states.", "anchors": ["src/qinfer/tomography/models.py:155-226", "src/qinfer/tomography/expdesign.py:70-160", "src/qinfer/tomography/bases.py:60-330"]}
{"id": "C141", "title": "Comparing models by their total likelihood", "statement": "Feed updaters independent data, without resampling, for models without drift. With probability one log_total_likelihood per datum tends to the expected log-likelihood of the best particle that has weight. If a particle of one model fits the data better on average than every particle of another, the lead of its log_total_likelihood grows linearly without bound; in particular the model that contains the truth beats every model whose particles all predict other probabilities for an experiment in use. If two clouds both contain the truth and tell it from their other particles, the ratio of their total likelihoods tends to the ratio of the prior weights of the truth: a larger model pays exactly for its size.", "quantifier": "for all pairs of models without drift, finite clouds and prior weights, laws of the data (finite outcomes and experiments for the last two statements), almost every infinite sequence of data", "why_tests_cant": "Limits of infinitely many data for almost every sequence.", "anchors": ["src/qinfer/smc.py:214-227", "src/qinfer/smc.py:392-491"]}
{"id": "C142", "title": "A cloud that is not resampled collapses", "statement": "Feed an updater independent data of any law, for a model without drift; the truth need not be among the particles. If one particle with weight has a strictly larger expected log-likelihood than every other particle with weight, then without resampling, with probability one, its weight tends to one exponentially fast at any rate below the gap of the expected log-likelihoods; every posterior mean tends to its value at that particle and every posterior variance to zero, whatever the truth is; and the effective sample size tends to one. An updater with n particles that checks the effective sample size, with a resample_thresh larger than 1/n, therefore resamples at some time unless it raises; with resample_thresh at most 1/n it never does.", "quantifier": "for all models without drift, finite clouds, prior weights and laws of the data, almost every infinite sequence of data", "why_tests_cant": "Limits of infinitely many data for almost every sequence, with no assumption that the model is right.", "anchors": ["src/qinfer/smc.py:263-277", "src/qinfer/smc.py:392-491", "src/qinfer/distributions.py:299-307"]}
{"id": "C143", "title": "Parameters from a continuum are learnt", "statement": "Let the parameters range over a compact set, let the probabilities of the finitely many outcomes of finitely many experiments depend continuously on them, and let the prior give weight to every neighbourhood of the true parameters. With independent data from the true parameters and probability one, the exact posterior probability of everything outside an open set that contains all parameters with the true predictions falls exponentially fast, and the posterior mean of every continuous function that does not vary over those parameters tends to its true value. If no other parameters have the true predictions, then for every accuracy and enough data, an updater with enough particles drawn from the prior accepts the data, est_mean is that close to the truth and est_covariance_mtx that close to zero. If the updater resamples by copies whenever its effective sample size falls below the threshold, and likelihoods stay above machine precision, the same holds for the mean squared distance of estimated means of bounded functions from their true values. In particular the precession model learns any frequency between 0 and W if some duration in use is at most pi/W, and the coin model learns any bias, including 0 and 1.", "quantifier": "for all continuous models with compact parameter sets, all priors, almost every infinite sequence of data, and for the updater almost every sequence of draws from the prior", "why_tests_cant": "Limits of infinitely many data and infinitely many particles over an uncountable set of parameters, for almost every sequence of random numbers.", "anchors": ["src/qinfer/smc.py:392-491", "src/qinfer/smc.py:226-253", "src/qinfer/distributions.py:309-345", "src/qinfer/test_models.py:118-139", "src/qinfer/test_models.py:188-213", "src/qinfer/test_models.py:317-326"]}
{"id": "C144", "title": "Preferences are kept", "statement": "On Linux, macOS, Cygwin and Windows, if no part of the path to the preferences is a file and the preferences are not a directory, save_config succeeds whether or not the directory existed, and read_config then returns what was saved, which lies in ~/.config/qinfer.conf, or on Windows in qinfer.conf under %APPDATA%; a later saving replaces the earlier one. Nothing else on the disk changes than qinfer.conf and the directories that lead to it. If nothing was saved, read_config returns an empty parser and creates the directory but no file. On other platforms both raise TypeError.", "quantifier": "for all states of the disk, all home directories, all configurations, and all parsers that read back what they write", "why_tests_cant": "Unit tests run on one machine with one state of the disk; the claim is about every state and about everything else on the disk.", "anchors": ["src/qinfer/config.py:61-87"]}
{"id": "C145", "title": "Nearly right likelihoods cost little on average", "statement": "Let an updater use outcome probabilities that differ from the right ones by at most eta, added up over the outcomes of an experiment. Average over truths drawn from its initial cloud and data from the right model, with experiments chosen in any way from earlier outcomes. After T data its weights differ from the right posterior (sum of absolute differences) by at most 2 eta T on average, and the mean squared error of est_mean exceeds that of the best estimate with the right model by at most eta T times the squared widths of the parameter ranges (weighted by Q). The probabilities given by the product of normalization_record to all sequences of T outcomes differ from the right ones by at most eta T in total. In contrast to single data sequences (C130) nothing is divided by the probability of the data.", "quantifier": "for all clouds, pairs of models with finitely many outcomes, numbers of data, adaptive choices of experiments and estimators; models without drift, updates without resampling under the policy 'error'", "why_tests_cant": "An average over all data sequences and truths, for every length and every adaptive strategy, against every other estimator.", "anchors": ["src/qinfer/smc.py:392-463", "src/qinfer/distributions.py:309-345"]}
{"id": "C146", "title": "Adaptively chosen experiments learn parameters from a continuum", "statement": "Let the prior be any distribution on a compact set of parameters that gives weight to every neighbourhood of the truth, and let every experiment be chosen from a finite set in any way, from all data before and at random; only the outcomes must come from the model. Then with probability one the exact posterior outside any open set containing all parameters that predict the true probabilities in the experiments that keep a positive share, falls exponentially; posterior means of continuous functions determined by these predictions tend to their true values; and an updater with enough particles drawn from the prior has est_mean as close to the truth and est_covariance_mtx as close to zero as one likes, if no datum is less probable than machine precision given those before. An experiment that is chosen with at least probability p whatever the data before keeps every share below p. A precession frequency between 0 and W is learnt however the durations are chosen, as long as some duration of at most pi/W keeps a positive share.", "quantifier": "for all models with finitely many outcomes and probabilities continuous in the parameters, compact parameter spaces, priors, truths, rules for choosing among finitely many experiments, and almost all data sequences; models without drift, updates without resampling under the policy 'error'; the choice of experiments for the updater statement does not depend on its particles", "why_tests_cant": "A statement about limits, with probability one, for every prior and every adaptive strategy.", "anchors": ["src/qinfer/smc.py:392-463", "src/qinfer/expdesign.py:61-130", "src/qinfer/test_models.py:60-130"]}
{"id": "C147", "title": "An updater that chooses its own experiments keeps the truth and drops what its experiments can refute", "statement": "Let one particle, of positive weight, be the truth, and let every experiment be chosen from a finite set in any way, for example by a heuristic that looks at the updater and draws random numbers; only the outcomes must come from the truth. Then with probability one, on every run without an error, the weights of all particles converge and so does every estimated mean; the truth keeps a positive weight; and a particle keeps weight only if it predicts the same outcome probabilities as the truth in every experiment that is performed again and again. Hence if every other particle is told from the truth by some experiment performed again and again, however rarely, the weight of the truth tends to one and every estimated mean to its true value. The same holds if again and again the experiment tells the two heaviest particles from each other, whichever these are.", "quantifier": "for all numbers of particles, positive weights, models with finitely many outcomes, rules for choosing among finitely many experiments, and almost all runs; models without drift, updates without resampling under the policy 'error'", "why_tests_cant": "A statement about limits with probability one for every adaptive strategy; a test can only run some strategies for a while.", "anchors": ["src/qinfer/smc.py:388-463", "src/qinfer/expdesign.py:74-104"]}
{"id": "C148", "title": "The particle guess heuristic finds the true particle", "statement": "Let one particle, of positive weight, be the truth, and let the experiments be chosen by PGH from the updater itself, with some fixed experiment whenever it raises RuntimeError. PGH chooses the experiment made from two given particles with a probability of at least the product of their weights. If for every other particle the experiment made from it and the truth tells the two apart, then with probability one, on every run without an error in the updates, the weight of the truth tends to one and every estimated mean to its true value.", "quantifier": "for all numbers of particles, positive weights, models with finitely many outcomes, PGH objects with at least one attempt and known field names, and almost all runs; models without drift, updates without resampling under the policy 'error'", "why_tests_cant": "A statement about limits with probability one over the draws of the heuristic and the outcomes.", "anchors": ["src/qinfer/expdesign.py:154-225", "src/qinfer/smc.py:388-463", "src/qinfer/distributions.py:319-333"]}
{"id": "C149", "title": "One series decides whether a schedule of experiments refutes a wrong particle", "statement": "Let one particle, of positive weight, be the truth, and let the experiments follow a schedule fixed in advance, in which none need ever be repeated, such as the times of ExpSparseHeuristic. Let the defect of an experiment for another particle be one minus the sum over the outcomes of the square root of the product of the two particles' probabilities. If the defects add up to infinity, the other particle loses its weight with probability one; it suffices that the squared differences of the two probabilities of one outcome add up to infinity. If this holds of all other particles, the weight of the truth tends to one and every estimated mean to its true value. If the sum is finite and no experiment is certain to rule the particle out, its weight converges and stays away from zero with positive probability. In particular ExpSparseHeuristic with a whole-number base b and scale A cannot tell apart frequencies of the precession model whose sum or difference is a multiple of 2 pi / (A b^K) after its first K experiments: from then on the ratio of their weights never changes, whatever the outcomes.", "quantifier": "for all numbers of particles, weights, models with finitely many outcomes, schedules, frequencies, scales and whole-number bases, and almost all runs without an error; models without drift, updates without resampling under the policy 'error'", "why_tests_cant": "An equivalence about limits with probability one along infinitely many different experiments; a finite run cannot tell a slow decay from survival.", "anchors": ["src/qinfer/smc.py:388-463", "src/qinfer/expdesign.py:140-152", "src/qinfer/test_models.py:123-143"]}
{"id": "C150", "title": "Times that grow without bound find almost every frequency", "statement": "Along any schedule of precession experiments whose times grow without bound, in particular that of ExpSparseHeuristic with a positive scale and a base above one such as the default 9/8, a given frequency is refuted by data from almost every other one: the exceptions form a set of Lebesgue measure zero. Hence if the frequencies of the particles are drawn independently from laws with a density, and the outcomes come from one of the particles, possibly through noise that keeps a fixed share of the signal, then with probability one over the draw and over the data the weight of the true particle tends to one and every estimated mean to its true value, on every run without an error.", "quantifier": "for all numbers of particles, priors with densities, schedules with times tending to infinity, linear noise, positive weights, and almost all draws and runs; models without drift, updates without resampling under the policy 'error'", "why_tests_cant": "A statement about all but a null set of frequencies and about limits with probability one; single frequencies, which a test would use, may be exceptions (C149).", "anchors": ["src/qinfer/expdesign.py:111-152", "src/qinfer/smc.py:388-463", "src/qinfer/test_models.py:123-143"]}
{"id": "C151", "title": "Mixing heuristics does not stop learning", "statement": "An EnsembleHeuristic chooses any given experiment with at least the chance with which any one of its members chooses it, times the probability of that member. Let one particle, of positive weight, be the truth, and let the updater's experiments be chosen by any heuristic that, whatever the weights are, picks an experiment telling a given other particle from the truth with a chance of at least a fixed multiple of the product of the two weights; then with probability one, on every run without an error in the updates, the weight of the truth tends to one and every estimated mean to its true value. In particular an ensemble that contains PGH with any positive probability finds the true particle wherever PGH by itself would (C148), however useless its other members are.", "quantifier": "for all ensembles with non-negative probabilities adding up to one, members that are arbitrary functions of the updater and of their own random numbers, numbers of particles, positive weights, models with finitely many outcomes and experiments, and almost all runs; models without drift, updates without resampling under the policy 'error'", "why_tests_cant": "A statement about limits with probability one over the draws of the ensemble, of its members and of the outcomes, for all possible other members.", "anchors": ["src/qinfer/expdesign.py:89-109", "src/qinfer/expdesign.py:154-225", "src/qinfer/smc.py:388-463"]}
{"id": "C152", "title": "Choosing the best of k measurements finds what the base heuristic would", "statement": "If the base heuristic of a BestOfKMetaheuristic chooses an experiment with a chance of at least p, the metaheuristic returns it with a chance of at least p^k, whatever the updater's covariance is. So if every particle is told from the true one by some experiment that the base heuristic may choose, an updater whose experiments are chosen by the metaheuristic from its own covariance finds the truth: with probability one, on every run without an error in the updates, the weight of the true particle tends to one and every estimated mean to its true value. In particular, with a base heuristic such as RandomPauliHeuristic, whose measurements determine every state and each have a positive chance, it finds the true one among finitely many different states of a tomography model.", "quantifier": "for all k >= 1, base heuristics given by a law over finitely many experiments, other fields, numbers of particles, positive weights, models with finitely many outcomes, tomography bases and clouds of different states, and almost all runs; models without drift, updates without resampling under the policy 'error'", "why_tests_cant": "A statement about limits with probability one of a loop in which the posterior chooses its own experiments.", "anchors": ["src/qinfer/tomography/expdesign.py:215-245", "src/qinfer/smc.py:388-463", "src/qinfer/tomography/models.py:211-227"]}
{"id": "C153", "title": "Forecasts become right, whether or not the parameters can be told apart", "statement": "The normalization that hypothetical_update returns for an outcome and an experiment is the sum over the particles of weight times likelihood: the updater's forecast of that outcome. Let the outcomes come from a particle of prior weight w, and let the experiments be chosen in any way that does not look ahead, also by the updater itself. Then, on runs without an error in the updates, the chance that in the whole endless run there are m or more experiments for which the forecast of some outcome was wrong by eps or more is at most exp(-m eps^2/8)/sqrt(w); with probability one the squared errors of all forecasts add up to something finite, and the forecasts for the experiments done become right. No experiment needs to be repeated and the particles need not be distinguishable. For any data whatever, the sum of the logarithms of normalization_record falls behind the log-likelihood of the data under a particle of weight w by at most log(1/w).", "quantifier": "for all models without drift with finitely many outcomes and experiments, clouds, weights, adaptive laws of the experiments, numbers m and errors eps, and almost all runs; updates without resampling under the policy 'error'; the bound on the logarithms for all accepted sequences of data", "why_tests_cant": "A statement about chances over endless runs in which every forecast depends on all data before.", "anchors": ["src/qinfer/smc.py:324-386", "src/qinfer/smc.py:388-463"]}
{"id": "C154", "title": "Estimates in rounded arithmetic", "statement": "Let every arithmetic operation have a relative error of at most u (binary64: 2^-53) and sums be taken in any order. n_ess is right up to the factor (1-u)^-(D+2), where D is the depth of the sum, so it lies between one and the number of particles up to that factor and the decision to resample is right unless the effective sample size is that close to the threshold. Every entry of est_mean has an error of at most ((1+u)^(D+1) - 1) times the mean modulus of the parameter. An entry of est_covariance_mtx has an error of at most ((1+u)^(2D+4) - 1) times the sum of the second moment and the product of the mean moduli: small relative to the mean square of the parameters, but not relative to their variance. If the variance exceeds twice that error times the mean square, the reported variance is positive. Otherwise it may mean nothing: in binary64, particles at 2^30+19 and 2^30+20 with the weights 1/4 and 3/4 have the variance 3/16 and the reported variance -256.", "quantifier": "for all roundings of relative error u, orders of additions, numbers of particles, weights, parameters and thresholds; the finding is one case", "why_tests_cant": "Rounding errors for all inputs and all orders of additions; a test compares a few results with a tolerance.", "anchors": ["src/qinfer/distributions.py:299-307", "src/qinfer/distributions.py:336-348", "src/qinfer/distributions.py:350-399"]}
{"id": "C155", "title": "Drawing particles and outcomes in rounded arithmetic", "statement": "Let additions have a relative error of at most u and weights be non-negative. The cumulative sums that sample, the Liu-West resampler and simulate_experiment draw from are within (1-u)^i and (1+u)^i of the exact ones, and each particle's interval has the length of its weight up to u times the sum so far. With rounding to the nearest number of p binary digits they never decrease. sample then always returns one of the particles, the one whose interval holds the variate. The Liu-West resampler chooses the same parents if all variates are below the last cumulative sum, and raises IndexError if one is not; simulate_experiment returns outcome 0 in that case, whatever its probability. Both happen in binary64 although all probabilities sum to one before rounding: four particles of weight 1/4 and one datum of likelihoods 1/4, 3/4, 1/4, 1/4 give weights whose cumulative sum ends at 1 - 2^-53, which is a value np.random.random can return; and with the outcome probabilities 0, 1/6, 1/2, 1/6, 1/6 the outcome of probability zero is returned for that variate.", "quantifier": "for all additions of relative error u (sorted: all numbers of digits), numbers of particles, weights and variates; the two findings are one case each", "why_tests_cant": "The failing variate has probability 2^-53 per draw; no test meets it. The bounds quantify over all roundings, weights and variates.", "anchors": ["src/qinfer/distributions.py:320-333", "src/qinfer/resamplers.py:308-325", "src/qinfer/abstract_model.py:632-658"]}
{"id": "C156", "title": "A run in rounded arithmetic makes the decisions of the exact run", "statement": "Let every operation have a relative error of at most u and c = 1/(1-u). An updater starts with equal weights and gets data; it resamples by copies (LiuWestResampler with a = 1) whenever the effective sample size falls below the threshold. Call the run in exact arithmetic clear if at each datum the total likelihood is not near 2^-52, the effective sample size is not within a factor c^(8k+3D+5) of the threshold, and each variate of a resampling lies in the interval of its parent, away from the ends by a factor c^(4k+D+1+n), where k counts data since the last resampling and D bounds the depth of the sums. Then the rounded run ends without an error, has resampled at the same data, with the same parents, has exactly the same locations, and its weights are those of the exact run up to a factor c^(4k+D+1). Errors do not accumulate over resamplings. Unclear draws are rare: a uniform variate gets another parent than in exact arithmetic with probability at most n(g - 1/g), g = c^(k+n). The checks of update agree: in a clear run no update warns of negative weights or raises for vanishing ones if zero_weight_thresh is below (1-u)^(2D+1); an update with an outcome of probability below 2^-52/c^(D+1) raises RuntimeError if zero_weight_thresh is at least c 2^-52; and whatever the likelihoods, the weights left by update are not negative, with a warning exactly if one had to be clipped. Runs with checks may be cut anywhere: the second part starts where the first ends, warnings add up, and a part that raises ends the run.", "quantifier": "for all arithmetics of relative error u, numbers of particles, thresholds, data sequences of any length, orders of addition, locations and variates", "why_tests_cant": "A test compares runs on one machine with one order of additions; it cannot tell whether a resampling was decided by rounding, nor bound the error over runs of any length.", "anchors": ["src/qinfer/smc.py:263-277", "src/qinfer/smc.py:317-386", "src/qinfer/smc.py:388-457", "src/qinfer/resamplers.py:256-392", "src/qinfer/distributions.py:284-307"]}
{"id": "C157", "title": "Credible regions in rounded arithmetic", "statement": "Let additions have a relative error of at most u, c = 1/(1-u), and let the stored weights of n particles be those of the posterior up to a factor g (C156 bounds it). If the cumulative sums of the sorted weights do not decrease, which rounding to the nearest number of p binary digits guarantees, est_credible_region(level) returns particles that hold more than level/(g c^n) of the posterior's weight; without the last of them they hold at most level g c^n; no particle outside is heavier in the posterior than one inside by more than the factor g^2; inside and outside list every particle once. IndexError is raised only if level g c^n is at least the total weight.", "quantifier": "for all arithmetics of relative error u (numbers of digits), clouds, weights, levels and orders of equal weights", "why_tests_cant": "Whether a region computed in floating point holds the stated probability of the exact posterior cannot be read off the floating-point weights a test sees.", "anchors": ["src/qinfer/distributions.py:558-614"]}
{"id": "C158", "title": "The total likelihood in rounded arithmetic", "statement": "Let every operation have a relative error of at most u, c = 1/(1-u), and let the run of C156 be clear. Then the rounded normalization_record has one positive entry per datum, each right up to a factor c^(4t+2D+2), resample_count is that of the exact run, and the product of the record is right up to a factor c^(2t+m(2D+2)+D+2) for t data and m resamplings: the errors of the weights and of the normalizations cancel between updates, so the error of the evidence grows linearly with the number of data. log_total_likelihood, with logarithms of relative error u, is off by at most (2t+m(2D+2)+D+2) log c plus the error of adding up the logarithms. Without rounding this run is that of the updater: same weights, locations, normalization_record and resample_count, one row of variates used up by each resampling.", "quantifier": "for all arithmetics of relative error u, numbers of particles, thresholds, data sequences of any length, orders of addition, locations and variates", "why_tests_cant": "Floating-point tests see the rounded record only; how the errors of a run of any length accumulate is a statement about all runs.", "anchors": ["src/qinfer/smc.py:183-226", "src/qinfer/smc.py:388-457", "src/qinfer/smc.py:491-551"]}
{"id": "C159", "title": "Costs in experiment design", "statement": "The objective that design_expparams_field minimises compares experiments as documented: with the default experiment_cost the choice depends on the Bayes risk alone, for every cost_scale_k and either value of cost_mult; with LinearCostModelMixin the objective is risk + k t, or risk t^k, and raises if the experiments have no field t; multiplied costs may be given in any unit, added costs in another unit are the same as another cost_scale_k (and may change the choice); an experiment that is cheaper and preferred stays preferred when cost_scale_k grows, and for large cost_scale_k the cheaper experiment is preferred whatever the risks.", "quantifier": "all experiment arrays, risks, costs, scales and units", "why_tests_cant": "Tests run one optimisation with one cost scale; how choices depend on units and scales is a statement about all of them.", "anchors": ["src/qinfer/expdesign.py:321-339", "src/qinfer/abstract_model.py:320-334", "src/qinfer/abstract_model.py:530-542"]}
{"id": "C160", "title": "Liu-West moves in rounded arithmetic", "statement": "Let every operation have a relative error of at most u. Given the parent, the square root of the covariance and the kernel, every entry of a new location of LiuWestResampler is a l + (1-a) mean + h (S z) up to (1+u)^(D+5) - 1 times the same expression with moduli, where D bounds the depths of the sums in the mean and in the product with the kernel. So a bound on a parameter is accepted or rejected as in exact arithmetic unless the exact location lies within that error of it, and the mean of the new cloud is off by at most the average of these errors. With a = 1 and h = 0 and rounding to nearest the new location is exactly the parent.", "quantifier": "for all arithmetics of relative error u, clouds, weights, a between 0 and 1, h, parents, square roots, kernel values and orders of addition", "why_tests_cant": "A test compares one resampling with one set of numbers against a tolerance chosen by hand; it cannot bound the error for all clouds and orders of addition.", "anchors": ["src/qinfer/resamplers.py:256-392", "src/qinfer/distributions.py:336-348"]}
{"id": "C161", "title": "Errors of the covariance in the resampler", "statement": "If the computed covariance differs from the exact one by at most eps in its eigenvalues, what sqrtm_psd returns for the two differs by at most sqrt(2 eps), also if the computed covariance has negative eigenvalues, which are truncated (by at most sqrt(eps) if it has none). If every entry is off by at most delta, the displacement S z of a particle is off by at most sqrt(2 d delta) |z| for d parameters. With the covariance computed in rounded arithmetic of relative error u, from weights that add up to one and parameters with mean squares of at most M, this is sqrt(4 d gamma M) |z| with gamma = (1+u)^(2D+4) - 1. The rate cannot be improved. A new location computed from start to end, with the mean, the covariance, its square root and the move all rounded, is off by at most the relative error of D + 5 operations, plus |h| times that bound and times the error of the square root routine itself.", "quantifier": "for all matrices, dimensions, eigenbases, clouds, weights, orders of addition, arithmetics and kernel draws", "why_tests_cant": "A test takes the square root of one matrix; nearly singular covariances, where small errors have large effects, occur in late stages of a run.", "anchors": ["src/qinfer/utils.py:593-607", "src/qinfer/distributions.py:350-399", "src/qinfer/resamplers.py:293-300", "src/qinfer/resamplers.py:325-332"]}
{"id": "C162", "title": "Clouds that have collapsed", "statement": "The Liu-West resampler warns that the covariance is zero exactly if all particles that have weight are at the same point y. Then every new particle is y plus h sqrt(zero_cov_comp) times the kernel's numbers, in every parameter, whatever a is; particles without weight leave no trace. With the default kernel the new parameters are independent normal variables with variance h^2 zero_cov_comp around y, est_mean of n new particles is normal around y with variance h^2 zero_cov_comp / n, est_covariance_mtx is on average (1 - 1/n) h^2 zero_cov_comp times the identity, and almost surely no two particles agree in any parameter, so that two or more particles are not collapsed any more. This is the one case in which units matter: in units in which all parameters are multiplied by c, the cloud is spread out by the same numbers, so that it is the old one in the new units only if c = 1 or the kernel's numbers vanish.", "quantifier": "for all clouds, numbers of particles and parameters, square root routines, random numbers, a, h and zero_cov_comp", "why_tests_cant": "Only clouds in which one point has all the weight reach this branch; a test that reaches it sees a small spread and cannot tell on what it depends.", "anchors": ["src/qinfer/resamplers.py:284-294", "src/qinfer/resamplers.py:223-252", "src/qinfer/resamplers.py:325-332"]}
