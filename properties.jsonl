{"id": "C01", "title": "Every minibatch is an aligned window of the dataset", "statement": "For valid arguments, the k-th dictionary yielded by generate_batches maps the x placeholder to b consecutive rows of x and the y placeholder to the b labels of exactly those rows, where b = min(batch_size, N); rows that belong together are never separated and the window never leaves the dataset.", "quantifier": "every dataset size N, every batch size >= 1, every seed, every random generator behaviour allowed by numpy's randint contract, every k", "why_tests_cant": "tests draw a few batches for a few seeds; the claim is about every batch of an infinite stream for every size and generator", "anchors": ["pysgmcmc/data_batches.py:generate_batches"]}
{"id": "C02", "title": "Batch arguments are validated, lazily and completely", "statement": "generate_batches(...) itself never raises; the first next() raises AssertionError exactly when batch_size is not a positive int, or seed is neither None nor an int in [0, 2**32-1], or x and y disagree in length; after raising the generator is exhausted. Otherwise the generator yields forever and no next() ever fails.", "quantifier": "every argument combination (including bools, floats, strings, None) and every number of next() calls", "why_tests_cant": "the argument space is infinite and 'never fails' ranges over an infinite stream", "anchors": ["pysgmcmc/data_batches.py:generate_batches"]}
{"id": "C03", "title": "Drawing plain minibatches never changes the dataset", "statement": "After any number of next() calls on generate_batches the caller's x and y are unchanged, and every batch handed out earlier still shows the same rows.", "quantifier": "every dataset, every number of batches", "why_tests_cant": "batches are numpy views, so corruption could appear arbitrarily late", "anchors": ["pysgmcmc/data_batches.py:generate_batches"]}
{"id": "C04", "title": "Which rows a minibatch can contain", "statement": "Over the starting offsets generate_batches can draw, row i is contained in exactly min(i+1, b, N-b+1, N-i) windows: every row is reachable, but rows are equally represented if and only if b = 1 or b = N (interior rows are over-represented otherwise).", "quantifier": "every N >= 1, 1 <= b <= N, every row i", "why_tests_cant": "a statistical test cannot separate slight from no bias and cannot cover all N, b", "anchors": ["pysgmcmc/data_batches.py:generate_batches"]}
{"id": "C05", "title": "Shuffling keeps each datapoint with its label", "statement": "Every batch yielded by generate_shuffled_batches pairs each row of x with its own label from the original dataset: the multiset of (row, label) pairs in the caller's arrays is preserved forever, and every batch consists of b of those pairs.", "quantifier": "every dataset, seed, generator behaviour and number of batches drawn before", "why_tests_cant": "the docstring has only a TODO for this; it depends on two generators staying in lock-step forever", "anchors": ["pysgmcmc/data_batches.py:generate_shuffled_batches"]}
{"id": "C06", "title": "Shuffling does not modify the caller's dataset", "statement": "Drawing batches from generate_shuffled_batches leaves the caller's arrays x and y as they were.", "quantifier": "every dataset and every number of batches", "why_tests_cant": "in-place effects through numpy views only show in the caller's arrays, later", "anchors": ["pysgmcmc/data_batches.py:generate_shuffled_batches"]}
{"id": "C07", "title": "Batches are reproducible from the seed alone", "statement": "With an explicit seed the stream of batches does not depend on numpy's global random state and drawing them does not change that state; with seed=None the stream is one of the streams for an explicit seed in [1, 99999].", "quantifier": "every global random state, dataset, seed, number of batches", "why_tests_cant": "tests compare a handful of batches in one process state", "anchors": ["pysgmcmc/data_batches.py:generate_batches", "pysgmcmc/data_batches.py:generate_shuffled_batches"]}
{"id": "C08", "title": "A constant schedule is constant under every history", "statement": "After any interleaving of next() and update() calls with any arguments, next(schedule) on ConstantStepsizeSchedule(v) returns v, str(schedule) is unchanged, iteration never ends, and any number of samplers may share the object.", "quantifier": "every value v and every finite sequence of next/update calls", "why_tests_cant": "ranges over all call histories", "anchors": ["pysgmcmc/stepsize_schedules.py:ConstantStepsizeSchedule"]}
{"id": "C09", "title": "Iteration counting and the burn-in boundary", "statement": "After any history of next() calls on a burn-in sampler, some of which may fail, n_iterations is exactly the number of calls that returned a sample, and is_burning_in holds exactly while fewer than burn_in_steps calls have succeeded.", "quantifier": "every history of successes and failures (batch source, schedule or session failing), every integer burn_in_steps", "why_tests_cant": "ranges over all failure histories", "anchors": ["pysgmcmc/samplers/base_classes.py:MCMCSampler.__next__", "pysgmcmc/samplers/base_classes.py:BurnInMCMCSampler"]}
{"id": "C10", "title": "Step k uses batch k and stepsize k", "statement": "In a history without failures the k-th session run of any sampler is fed exactly the k-th batch of the batch generator and the k-th value of the stepsize schedule, and schedule.update is called once after it with the returned sample and cost.", "quantifier": "every batch generator and schedule (including ones that react to update), every k, with or without burn-in", "why_tests_cant": "a unit test fixes one schedule and a few steps", "anchors": ["pysgmcmc/samplers/base_classes.py:MCMCSampler.__next__", "pysgmcmc/samplers/base_classes.py:MCMCSampler._next_batch", "pysgmcmc/samplers/base_classes.py:MCMCSampler._next_stepsize"]}
{"id": "C11", "title": "A failed step is not counted", "statement": "If next(sampler) raises, n_iterations is what it was before; the exception is exactly the one raised by the feed_dict check, the batch generator, the schedule or the session. If no batch, no stepsize or no session result could be obtained, the stored mass matrix is unchanged and schedule.update was not called; without batch or stepsize the session was not run at all. Only if schedule.update itself raises has the session run and, during burn-in, the new mass matrix been stored.", "quantifier": "every state and every failure point", "why_tests_cant": "crash points are not enumerable by tests of the happy path", "anchors": ["pysgmcmc/samplers/base_classes.py:MCMCSampler.__next__", "pysgmcmc/samplers/base_classes.py:BurnInMCMCSampler.__next__"]}
{"id": "C12", "title": "After burn-in the mass matrix is frozen", "statement": "With burn_in_steps > 0, every session run after the first burn_in_steps successful ones is fed, for each parameter, the inverse mass matrix returned by the last burn-in run; it never changes again.", "quantifier": "every number of burn-in steps and sampling steps and every history with failures", "why_tests_cant": "must hold at every later step", "anchors": ["pysgmcmc/samplers/base_classes.py:BurnInMCMCSampler.__next__"]}
{"id": "C13", "title": "No burn-in means no adaptation", "statement": "With burn_in_steps = 0 the sampler never adapts its mass matrix.", "quantifier": "every chain with burn_in_steps = 0", "why_tests_cant": "absence of adaptation at every step of every chain", "anchors": ["pysgmcmc/samplers/base_classes.py:BurnInMCMCSampler.__next__", "pysgmcmc/samplers/sghmc.py:SGHMCSampler", "pysgmcmc/samplers/sgld.py:SGLDSampler"]}
{"id": "C14", "title": "Samples have one shape for the whole chain", "statement": "next(sampler) returns one value per target parameter in the same form (list of arrays for several parameters) at every step of the chain.", "quantifier": "every number of parameters, every step before and after the burn-in boundary", "why_tests_cant": "the form may change at a boundary thousands of steps into a chain", "anchors": ["pysgmcmc/samplers/base_classes.py:MCMCSampler.__next__", "pysgmcmc/samplers/base_classes.py:BurnInMCMCSampler.__next__"]}
{"id": "C15", "title": "A caller-supplied feed_dict is respected", "statement": "Values passed in feed_dict to sampler.__next__ are fed to the session, except where the sampler's own batch or stepsize defines the same key.", "quantifier": "every feed_dict, every step before and after burn-in", "why_tests_cant": "interaction of caller key, batch key and phase", "anchors": ["pysgmcmc/samplers/base_classes.py:MCMCSampler.__next__", "pysgmcmc/samplers/base_classes.py:BurnInMCMCSampler.__next__"]}
{"id": "C16", "title": "A finite batch source ends the chain cleanly", "statement": "If the batch generator is exhausted after k batches and nothing else fails, iterating the sampler (islice, for) yields exactly k samples and then stops.", "quantifier": "every k and every requested length", "why_tests_cant": "all lengths", "anchors": ["pysgmcmc/samplers/base_classes.py:MCMCSampler.__next__"]}
{"id": "C17", "title": "get_sampler builds the sampler with exactly the intended arguments", "statement": "Sampler.get_sampler(method, **kwargs) for a known method either fails or calls that method's constructor with every constructor parameter bound exactly once: to the caller's value if given, otherwise to the declared default.", "quantifier": "every method, every keyword dictionary", "why_tests_cant": "all subsets of keyword arguments", "anchors": ["pysgmcmc/sampling.py:Sampler.get_sampler"]}
{"id": "C18", "title": "get_sampler rejects bad keyword sets", "statement": "It raises ValueError if some keyword is not a constructor parameter (naming the first such keyword) and otherwise if some parameter without default is missing (naming the first one), and for an unknown method; in no other case.", "quantifier": "every method value and keyword dictionary", "why_tests_cant": "all keyword dictionaries", "anchors": ["pysgmcmc/sampling.py:Sampler.get_sampler"]}
{"id": "C19", "title": "Every member of Sampler is supported", "statement": "is_supported(m) holds exactly for the members of the Sampler enum, as documented, and the BNN accepts exactly these.", "quantifier": "all enum members and all other Python values", "why_tests_cant": "quantifies over all values", "anchors": ["pysgmcmc/sampling.py:Sampler.is_supported", "pysgmcmc/models/bayesian_neural_network.py:BayesianNeuralNetwork.__init__"]}
{"id": "C20", "title": "A sampler uses the stepsize schedule it was given", "statement": "A sampler constructed with stepsize_schedule=s draws all its stepsizes from s.", "quantifier": "every sampler class and every schedule", "why_tests_cant": "every sampler class and schedule; a constant default hides the difference", "anchors": ["pysgmcmc/sampling.py:Sampler.get_sampler", "pysgmcmc/samplers/sghmc.py:SGHMCSampler.__init__", "pysgmcmc/samplers/sgld.py:SGLDSampler.__init__", "pysgmcmc/samplers/relativistic_sghmc.py:RelativisticSGHMCSampler.__init__", "pysgmcmc/samplers/svgd.py:SVGDSampler.__init__"]}
{"id": "C21", "title": "vectorize and unvectorize are inverse", "statement": "unvectorize(vectorize(t), t.shape) = t for tensors of every rank and shape; vectorize yields a column with all elements in row-major order; unvectorize fails exactly on element-count mismatch; non-tensors are rejected with ValueError.", "quantifier": "every rank, shape and content", "why_tests_cant": "all shapes", "anchors": ["pysgmcmc/tensor_utils.py:vectorize", "pysgmcmc/tensor_utils.py:unvectorize"]}
{"id": "C22", "title": "median is the statistical median", "statement": "median(t) equals the middle order statistic for an odd number of elements and the mean of the two middle ones for an even number; it is independent of element order and at least half of the elements lie on each side.", "quantifier": "every non-empty tensor", "why_tests_cant": "all inputs", "anchors": ["pysgmcmc/tensor_utils.py:median"]}
{"id": "C23", "title": "safe_divide never divides by zero", "statement": "For every x, y and every positive small_constant c the result of safe_divide(x, y) is finite, has the sign of x/y (of x if y = 0), satisfies |result| <= |x| / c and, for y != 0, differs from x/y by at most 3 c |x| / (|y| (|y| + c)) in magnitude.", "quantifier": "all real x, y and c > 0", "why_tests_cant": "all reals", "anchors": ["pysgmcmc/tensor_utils.py:safe_divide"]}
{"id": "C24", "title": "safe_sqrt is total", "statement": "safe_sqrt(x) is finite and non-negative for every finite x, is the square root for x >= 0, is 0 for x < 0 and is monotone.", "quantifier": "all real x", "why_tests_cant": "all reals", "anchors": ["pysgmcmc/tensor_utils.py:safe_sqrt"]}
{"id": "C25", "title": "pdist enumerates all pairs in order", "statement": "pdist(X) of m observations has m(m-1)/2 entries and the distance of observations i < j sits at position i*m - i(i+1)/2 + (j-i-1); rank other than 2 gives ValueError and an unknown metric NotImplementedError, in that order.", "quantifier": "every m, dimension and content", "why_tests_cant": "all sizes", "anchors": ["pysgmcmc/tensor_utils.py:pdist"]}
{"id": "C26", "title": "squareform expands a condensed distance vector", "statement": "squareform(v) succeeds exactly if len(v) = k(k-1)/2 for some k; the result is a k x k (1 x 1 for the empty vector) symmetric matrix with zero diagonal holding v row by row above the diagonal; otherwise ValueError (NotImplementedError for non-vectors).", "quantifier": "every vector length and content", "why_tests_cant": "all lengths; the dimension is recovered via a square root", "anchors": ["pysgmcmc/tensor_utils.py:squareform"]}
{"id": "C27", "title": "squareform(pdist(X)) is the distance matrix", "statement": "Entry (i, j) of squareform(pdist(X)) is the Euclidean distance of observations i and j, for at least one observation; hence symmetric, zero on the diagonal, non-negative, and satisfying the triangle inequality.", "quantifier": "every number of observations and dimension", "why_tests_cant": "all inputs", "anchors": ["pysgmcmc/tensor_utils.py:pdist", "pysgmcmc/tensor_utils.py:squareform"]}
{"id": "C28", "title": "Constructing a sampler never overwrites initialized parameters", "statement": "Constructing a sampler initializes exactly the uninitialized target parameters and leaves the value of every already initialized one untouched; afterwards the sampler's working copy of each parameter equals that parameter.", "quantifier": "every set of parameters, any subset of them initialized, every order in which the initializers run", "why_tests_cant": "all subsets and all initializer schedules", "anchors": ["pysgmcmc/tensor_utils.py:uninitialized_params", "pysgmcmc/samplers/base_classes.py:MCMCSampler.__init__"]}
{"id": "C29", "title": "Burn-in statistics stay well-defined for every gradient history", "statement": "Starting from the documented initial state, for every sequence of gradients the adaptive statistics of SGHMC and SGLD stay finite, the squared-gradient estimate stays positive and at least the square of the gradient estimate, the averaging window stays >= 1, the averaging rate stays in (0, 1/2], and the inverse mass matrix is finite and positive.", "quantifier": "every finite history of gradients of any length", "why_tests_cant": "an invariant over unbounded histories", "anchors": ["pysgmcmc/samplers/sghmc.py:SGHMCSampler.__init__", "pysgmcmc/samplers/sgld.py:SGLDSampler.__init__", "pysgmcmc/tensor_utils.py:safe_divide", "pysgmcmc/tensor_utils.py:safe_sqrt"]}
{"id": "C30", "title": "Bounded gradients give bounded mass matrix and slow averaging", "statement": "If all gradients are bounded by G >= 1 in absolute value, then after any number n of steps the window is at most n+1 and the inverse mass matrix is between 1/(G + 3e-16) and 2^n.", "quantifier": "every gradient history with bound G, every n", "why_tests_cant": "unbounded histories", "anchors": ["pysgmcmc/samplers/sghmc.py:SGHMCSampler.__init__", "pysgmcmc/samplers/sgld.py:SGLDSampler.__init__"]}
{"id": "C31", "title": "One SGHMC step is Equation 10", "statement": "One session run of SGHMC on finite state updates every coordinate by the published recurrences simultaneously (averaging rate from the old window, window and inverse mass matrix from the old averages, momentum from the new inverse mass matrix, position from the new momentum), and the result does not depend on the order in which the TensorFlow runtime executes operations that have no control dependency.", "quantifier": "every state, gradient, noise, stepsize and every execution order allowed by the control dependencies", "why_tests_cant": "execution orders are chosen by the runtime", "anchors": ["pysgmcmc/samplers/sghmc.py:SGHMCSampler.__init__"]}
{"id": "C32", "title": "SGHMC noise is well-defined and has the prescribed variance", "statement": "For every finite stepsize, decay, positive scale and inverse mass matrix the noise standard deviation is a positive finite number whose square is 2 e^2 a M - e^4 (e the scaled stepsize) whenever that exceeds 1e-16 and 1e-16 otherwise.", "quantifier": "all parameter values", "why_tests_cant": "all reals", "anchors": ["pysgmcmc/samplers/sghmc.py:SGHMCSampler.__init__"]}
{"id": "C33", "title": "Parameters and the sampler's working copy agree", "statement": "After the first successful step and forever after, every target parameter equals the sampler's own vectorized copy of it, whatever the order in which variable initializers ran, and even if the variables were re-initialized in between as long as one step has run since. The sample a step returns is what the parameters hold after it.", "quantifier": "every chain, every initializer schedule, every gradient and noise history", "why_tests_cant": "initializer races", "anchors": ["pysgmcmc/samplers/sghmc.py:SGHMCSampler.__init__", "pysgmcmc/samplers/sgld.py:SGLDSampler.__init__", "pysgmcmc/samplers/relativistic_sghmc.py:RelativisticSGHMCSampler.__init__", "pysgmcmc/tensor_utils.py:vectorize"]}
{"id": "C34", "title": "One SGLD step is preconditioned Langevin dynamics", "statement": "One session run of SGLD on finite state moves every coordinate by -e M A grad plus noise of standard deviation sqrt(2 e M A / scale) (up to the 3e-16 guard), M being the inverse mass matrix computed from the old averages; the noise term is always a finite non-negative multiple of the normal draw.", "quantifier": "every state, gradient, noise and stepsize", "why_tests_cant": "all reals", "anchors": ["pysgmcmc/samplers/sgld.py:SGLDSampler.__init__"]}
{"id": "C35", "title": "Relativistic SGHMC obeys the speed limit", "statement": "In every step of RelativisticSGHMCSampler each parameter moves by strictly less than stepsize * speed_of_light, whatever the gradient, noise and momentum; after n steps it has moved less than the sum of the stepsizes times speed_of_light.", "quantifier": "every gradient and noise history, every n", "why_tests_cant": "all histories", "anchors": ["pysgmcmc/samplers/relativistic_sghmc.py:RelativisticSGHMCSampler.__init__"]}
{"id": "C36", "title": "Relativistic SGHMC noise is defined exactly if e*Bhat <= 2 D", "statement": "For stepsize e > 0 and e*Bhat <= 2D the step keeps all state finite; if e*Bhat > 2D every parameter becomes NaN in that step and stays NaN.", "quantifier": "all parameter values, every history", "why_tests_cant": "all reals and histories", "anchors": ["pysgmcmc/samplers/relativistic_sghmc.py:RelativisticSGHMCSampler.__init__"]}
{"id": "C37", "title": "Relativistic SGHMC accepts parameters of any shape", "statement": "A RelativisticSGHMCSampler can be constructed for target parameters of every shape.", "quantifier": "every list of parameter shapes", "why_tests_cant": "all shapes", "anchors": ["pysgmcmc/samplers/relativistic_sghmc.py:RelativisticSGHMCSampler.__init__"]}
{"id": "C38", "title": "Seeding keeps the noise of different parameters distinct", "statement": "With a seed, different target parameters still receive different noise.", "quantifier": "every seed and every number of parameters", "why_tests_cant": "needs the semantics of op-level seeds for all seeds", "anchors": ["pysgmcmc/samplers/base_classes.py:MCMCSampler._draw_noise_sample", "pysgmcmc/samplers/relativistic_sghmc.py:RelativisticSGHMCSampler.__init__"]}
{"id": "C39", "title": "The relativistic momentum density is log-concave", "statement": "For m, c > 0 the log density handed to adaptive rejection sampling is concave, even, and strictly largest at 0 with value -m c^2, so the rejection sampler's precondition holds.", "quantifier": "all momenta, all m, c > 0", "why_tests_cant": "all reals", "anchors": ["pysgmcmc/samplers/relativistic_sghmc.py:_sample_relativistic_momentum"]}
{"id": "C40", "title": "A step is a deterministic function of the previous state", "statement": "Given the same state, batch, stepsize and noise, a step always produces the same result, whatever order the runtime chooses between parameters.", "quantifier": "every number of parameters and every runtime schedule", "why_tests_cant": "runtime schedules", "anchors": ["pysgmcmc/samplers/sghmc.py:SGHMCSampler.__init__", "pysgmcmc/samplers/sgld.py:SGLDSampler.__init__", "pysgmcmc/samplers/relativistic_sghmc.py:RelativisticSGHMCSampler.__init__"]}
{"id": "C41", "title": "The SVGD kernel matrix is a proper kernel matrix", "statement": "For at least two pairwise distinct particles the bandwidth is positive, the kernel matrix is symmetric with unit diagonal and entries in (0, 1], and all kernel gradients are finite and sum to zero over the particles.", "quantifier": "every number of particles, dimension and position", "why_tests_cant": "all inputs", "anchors": ["pysgmcmc/samplers/svgd.py:SVGDSampler.svgd_kernel", "pysgmcmc/tensor_utils.py:median", "pysgmcmc/tensor_utils.py:squareform", "pysgmcmc/tensor_utils.py:pdist"]}
{"id": "C42", "title": "SVGD particles repel each other", "statement": "With a flat cost function an SVGD step does not move particles towards each other (the kernel gradient acts as a repulsive force).", "quantifier": "every particle configuration with flat cost", "why_tests_cant": "all configurations", "anchors": ["pysgmcmc/samplers/svgd.py:SVGDSampler.__init__", "pysgmcmc/samplers/svgd.py:SVGDSampler.svgd_kernel"]}
{"id": "C43", "title": "SVGD steps are bounded and finite", "statement": "With 0 <= alpha < 1, fudge_factor > 0 and finite gradients, every SVGD step moves every coordinate of every particle by at most |stepsize| / sqrt(1 - alpha), the gradient history stays non-negative and finite for ever.", "quantifier": "every history of gradients and kernel terms", "why_tests_cant": "unbounded histories", "anchors": ["pysgmcmc/samplers/svgd.py:SVGDSampler.__init__"]}
{"id": "C44", "title": "SVGD works for particles of every dimension", "statement": "SVGDSampler can be constructed for every number n >= 1 of particles of every dimension d >= 1.", "quantifier": "every n and d", "why_tests_cant": "all shapes", "anchors": ["pysgmcmc/samplers/svgd.py:SVGDSampler.__init__"]}
{"id": "C45", "title": "SVGD treats particles symmetrically and depends only on relative positions", "statement": "Translating all particles translates nothing but the positions: kernel matrix and kernel gradients are unchanged; relabelling the particles relabels kernel matrix, kernel gradients and the update.", "quantifier": "every configuration, translation and permutation", "why_tests_cant": "all permutations", "anchors": ["pysgmcmc/samplers/svgd.py:SVGDSampler.svgd_kernel"]}
{"id": "C46", "title": "Trace lookup by name", "statement": "get_values(name, burn, thin) returns, for non-negative burn and positive thin, exactly the values of that parameter in samples burn, burn+thin, ... in chain order; an unknown name gives ValueError and thin=0 gives ValueError.", "quantifier": "every trace, name, burn, thin", "why_tests_cant": "all traces and arguments", "anchors": ["pysgmcmc/diagnostics/sample_chains.py:PYSGMCMCTrace.get_values"]}
{"id": "C47", "title": "Trace lookup by index", "statement": "trace[i] returns the samples of the i-th parameter; an index outside the range fails with AssertionError.", "quantifier": "every trace with pairwise distinct parameter names, every index", "why_tests_cant": "all traces", "anchors": ["pysgmcmc/diagnostics/sample_chains.py:PYSGMCMCTrace.__getitem__"]}
{"id": "C48", "title": "point agrees with get_values", "statement": "trace.point(i)[name] = trace.get_values(name)[i] for every sample i and parameter name.", "quantifier": "every trace with pairwise distinct parameter names, every sample (also counted from the end) and name", "why_tests_cant": "all traces", "anchors": ["pysgmcmc/diagnostics/sample_chains.py:PYSGMCMCTrace.point", "pysgmcmc/diagnostics/sample_chains.py:PYSGMCMCTrace.get_values"]}
{"id": "C49", "title": "from_sampler records the chain, thinned by keep_every", "statement": "PYSGMCMCTrace.from_sampler(n_samples=n, keep_every=k) records n samples, keeping every k-th sample of the chain.", "quantifier": "every sampler, n and k", "why_tests_cant": "all n, k", "anchors": ["pysgmcmc/diagnostics/sample_chains.py:PYSGMCMCTrace.from_sampler"]}
{"id": "C50", "title": "A recorded trace shows what the sampler produced", "statement": "For a trace recorded from a sampler, get_values(name of parameter j)[i] is the value of parameter j in the i-th sample drawn, also if the recording spans the burn-in boundary.", "quantifier": "every sampler, number of parameters and boundary position", "why_tests_cant": "boundary may lie anywhere", "anchors": ["pysgmcmc/diagnostics/sample_chains.py:PYSGMCMCTrace.from_sampler", "pysgmcmc/samplers/base_classes.py:BurnInMCMCSampler.__next__"]}
{"id": "C51", "title": "Slicing a trace keeps whole variables", "statement": "Slicing a trace yields a trace restricted to the sliced target parameters, as documented.", "quantifier": "every trace and slice", "why_tests_cant": "all slices", "anchors": ["pysgmcmc/diagnostics/sample_chains.py:PYSGMCMCTrace._slice"]}
{"id": "C52", "title": "Multi-chain extraction", "statement": "pymc3_multitrace(get_sampler, n_chains=m, samples_per_chain=n) returns exactly m traces with distinct ids 0..m-1, the i-th holding the first n samples of the i-th fresh sampler.", "quantifier": "every m, n and sampler factory", "why_tests_cant": "all m, n", "anchors": ["pysgmcmc/diagnostics/sample_chains.py:pymc3_multitrace"]}
{"id": "C53", "title": "Zero-mean/unit-variance normalization", "statement": "zero_mean_unit_var_normalization returns, for every non-constant column, values with mean 0 and variance 1, and zero_mean_unit_var_unnormalization with the returned mean and std recovers the data exactly; a constant column becomes NaN.", "quantifier": "every data matrix", "why_tests_cant": "all data", "anchors": ["pysgmcmc/models/base_model.py:zero_mean_unit_var_normalization", "pysgmcmc/models/base_model.py:zero_mean_unit_var_unnormalization"]}
{"id": "C54", "title": "Zero-one normalization", "statement": "zero_one_normalization maps every non-constant column into [0, 1] attaining both ends, order preserving, and zero_one_unnormalization inverts it; a constant column becomes NaN.", "quantifier": "every data matrix", "why_tests_cant": "all data", "anchors": ["pysgmcmc/models/base_model.py:zero_one_normalization", "pysgmcmc/models/base_model.py:zero_one_unnormalization"]}
{"id": "C55", "title": "The incumbent is the best observation", "statement": "get_incumbent returns a stored point with its own stored value, that value is minimal among all stored values and it is the first such point (if a NaN was observed, the first NaN observation is returned instead); it fails on an empty data set.", "quantifier": "every data set", "why_tests_cant": "all data sets", "anchors": ["pysgmcmc/models/base_model.py:BaseModel.get_incumbent"]}
{"id": "C56", "title": "update retrains on all data seen so far", "statement": "For every model class whose train stores the data it is given: after train(X0, y0) and any sequence of update(Xi, yi) the model is trained on the concatenation of all data in order. (C101 is about the BNN, which does not derive from BaseModel and whose train stores normalized data.)", "quantifier": "every sequence of updates", "why_tests_cant": "all histories", "anchors": ["pysgmcmc/models/base_model.py:BaseModel.update"]}
{"id": "C57", "title": "BNN constructor validation", "statement": "BayesianNeuralNetwork(...) succeeds exactly if n_nets, n_iters, sample_steps, batch_size are positive ints, burn_in_steps a non-negative int, dtype a DType, get_net and batch_generator callable, the schedule has update and __next__, and the sampling method is supported; argument errors give AssertionError, method errors ValueError.", "quantifier": "every argument combination", "why_tests_cant": "infinite argument space", "anchors": ["pysgmcmc/models/bayesian_neural_network.py:BayesianNeuralNetwork.__init__"]}
{"id": "C58", "title": "BNN training collects the intended networks", "statement": "train collects exactly the sampler outputs with index i, burn_in_steps < i < n_iters and i divisible by sample_steps, in order, stopping as soon as n_nets are collected; never more than n_nets; every collected network was drawn after burn-in.", "quantifier": "every n_nets, n_iters, burn_in_steps, sample_steps", "why_tests_cant": "off-by-one errors at every combination", "anchors": ["pysgmcmc/models/bayesian_neural_network.py:BayesianNeuralNetwork.train", "pysgmcmc/samplers/base_classes.py:BurnInMCMCSampler.is_burning_in"]}
{"id": "C59", "title": "A trained BNN has n_nets networks", "statement": "After train returns, the BNN holds n_nets sampled networks.", "quantifier": "every configuration", "why_tests_cant": "every configuration", "anchors": ["pysgmcmc/models/bayesian_neural_network.py:BayesianNeuralNetwork.train"]}
{"id": "C60", "title": "predict needs a successful training", "statement": "predict raises the ValueError about an untrained network exactly if no train call has ever completed; a failing first train call leaves the network untrained.", "quantifier": "every history of train/predict calls with failures at any point", "why_tests_cant": "failure points", "anchors": ["pysgmcmc/models/bayesian_neural_network.py:BayesianNeuralNetwork.predict", "pysgmcmc/models/bayesian_neural_network.py:BayesianNeuralNetwork.train"]}
{"id": "C61", "title": "Predictive mean and variance summarize the individual predictions", "statement": "predict's mean and variance are the mean and the (population) variance of the individual network means returned with return_individual_predictions=True, with or without output normalization; the variance is non-negative.", "quantifier": "every collection of networks, test set and normalization setting", "why_tests_cant": "all inputs", "anchors": ["pysgmcmc/models/bayesian_neural_network.py:BayesianNeuralNetwork.predict"]}
{"id": "C62", "title": "predict is pointwise", "statement": "Predicting a concatenation of test sets is the concatenation of the predictions.", "quantifier": "every pair of test sets, every network list", "why_tests_cant": "all inputs", "anchors": ["pysgmcmc/models/bayesian_neural_network.py:BayesianNeuralNetwork.predict", "pysgmcmc/models/bayesian_neural_network.py:get_default_net"]}
{"id": "C63", "title": "The predictive variance includes the networks' own noise estimate", "statement": "The variance returned by predict accounts for the predicted noise of the sampled networks (law of total variance).", "quantifier": "every collection of networks", "why_tests_cant": "all inputs", "anchors": ["pysgmcmc/models/bayesian_neural_network.py:BayesianNeuralNetwork.predict"]}
{"id": "C64", "title": "The training cost is a per-datapoint average", "statement": "The data part of negative_log_likelihood is the average negative Gaussian log likelihood (up to a constant) over the datapoints of the minibatch actually fed, and does not depend on their order.", "quantifier": "every batch, network output and dataset size", "why_tests_cant": "all inputs", "anchors": ["pysgmcmc/models/bayesian_neural_network.py:BayesianNeuralNetwork.negative_log_likelihood", "pysgmcmc/data_batches.py:generate_batches"]}
{"id": "C65", "title": "The priors are proper penalties", "statement": "weight_prior_log_like is <= 0, equals 0 exactly for all-zero weights (or none) and equals -wdecay/2 times the mean square of all weights up to the 3e-16 guard; log_variance_prior_log_like is maximal exactly where all log variances equal log(mean).", "quantifier": "every list of weights / log variances", "why_tests_cant": "all inputs", "anchors": ["pysgmcmc/models/bayesian_neural_network.py:weight_prior_log_like", "pysgmcmc/models/bayesian_neural_network.py:log_variance_prior_log_like"]}
{"id": "C66", "title": "The default network is bounded and homoscedastic", "statement": "For every input the default network returns one row per input; its log-variance output is the same number for all inputs; its mean output is bounded by the l1 norm of the last layer's weights plus its bias in absolute value.", "quantifier": "every input and every weight setting", "why_tests_cant": "all inputs", "anchors": ["pysgmcmc/models/bayesian_neural_network.py:get_default_net"]}
{"id": "C67", "title": "predict evaluates the stored networks", "statement": "compute_network_output evaluates the network with exactly the stored parameter values.", "quantifier": "every number of network parameters", "why_tests_cant": "every architecture", "anchors": ["pysgmcmc/models/bayesian_neural_network.py:BayesianNeuralNetwork.compute_network_output", "pysgmcmc/samplers/base_classes.py:MCMCSampler.__next__"]}
{"id": "C68", "title": "Stated optima of the polynomial benchmarks are global", "statement": "rosenbrock >= 0 with equality exactly at (1,1); banana_log_likelihood <= 0 with equality exactly at (0,10); goldstein_price >= 3 with value 3 at (0,-1).", "quantifier": "all real points", "why_tests_cant": "global statements over the reals", "anchors": ["pysgmcmc/diagnostics/objective_functions.py:rosenbrock", "pysgmcmc/diagnostics/objective_functions.py:banana_log_likelihood", "pysgmcmc/diagnostics/objective_functions.py:goldstein_price"]}
{"id": "C69", "title": "Stated optima of the trigonometric benchmarks are global", "statement": "bohachevski >= 0 with equality exactly at (0,0); levy >= 0 with equality exactly at 1; sin_one and sin_two take values in [0,1]; sinc is at most the dimension.", "quantifier": "all real points", "why_tests_cant": "global statements over the reals", "anchors": ["pysgmcmc/diagnostics/objective_functions.py:bohachevski", "pysgmcmc/diagnostics/objective_functions.py:levy", "pysgmcmc/diagnostics/objective_functions.py:sin_one", "pysgmcmc/diagnostics/objective_functions.py:sin_two", "pysgmcmc/diagnostics/objective_functions.py:sinc"]}
{"id": "C70", "title": "Gaussian mixture log likelihoods are normalized", "statement": "exp of gaussian_mixture_model_log_likelihood is the mixture density: it integrates to 1 for positive variances and weights summing to one; gmm1, gmm2, gmm3 are even functions; mismatched argument lengths are rejected.", "quantifier": "all real points and mixtures", "why_tests_cant": "integral over the reals", "anchors": ["pysgmcmc/diagnostics/objective_functions.py:gaussian_mixture_model_log_likelihood"]}
{"id": "C71", "title": "to_negative_log_likelihood negates", "statement": "The wrapped function returns the negative for all positional and keyword arguments, propagates failures and keeps the name; wrapping twice gives back the original values.", "quantifier": "all functions and arguments", "why_tests_cant": "all functions", "anchors": ["pysgmcmc/diagnostics/objective_functions.py:to_negative_log_likelihood"]}
{"id": "C72", "title": "Sampler constructors accept exactly the documented arguments", "statement": "The argument checks of the sampler constructors pass exactly if batch_generator is None or an iterator, seed None or an int, session a TensorFlow session, dtype a DType, cost_fun callable, the schedule has update, __next__ and initial_value, and (burn-in samplers) burn_in_steps an int; every rejection is an AssertionError.", "quantifier": "every argument combination", "why_tests_cant": "infinite argument space", "anchors": ["pysgmcmc/samplers/base_classes.py:MCMCSampler.__init__", "pysgmcmc/samplers/base_classes.py:BurnInMCMCSampler.__init__"]}
{"id": "C73", "title": "The cost returned with a sample belongs to the parameters before the step", "statement": "The cost value next(sampler) returns together with a sample is the cost function evaluated at the parameters before that step, for the batch of that step.", "quantifier": "every cost function, state and runtime schedule", "why_tests_cant": "runtime schedules", "anchors": ["pysgmcmc/samplers/base_classes.py:MCMCSampler.__next__", "pysgmcmc/samplers/sghmc.py:SGHMCSampler.__init__", "pysgmcmc/samplers/sgld.py:SGLDSampler.__init__"]}
{"id": "C74", "title": "A sampler seed fixes the noise independently of the rest of the graph", "statement": "With a seed, the noise a parameter receives in step k is fixed by the sampler seed, the graph-level seed, k and the parameter's number of elements; it does not depend on what else was added to the graph before, on the number of parameters or on the parameter's position.", "quantifier": "every seed, graph, number of parameters, step", "why_tests_cant": "needs the semantics of op-level seeds for all graphs", "anchors": ["pysgmcmc/samplers/base_classes.py:MCMCSampler._draw_noise_sample", "pysgmcmc/samplers/sghmc.py:SGHMCSampler.__init__", "pysgmcmc/samplers/sgld.py:SGLDSampler.__init__", "pysgmcmc/samplers/relativistic_sghmc.py:RelativisticSGHMCSampler.__init__"]}
{"id": "C75", "title": "A failed retraining keeps the previous predictions", "statement": "If, on a trained BNN, a further train call raises, predict still returns what it returned before.", "quantifier": "every trained BNN, every failing train call and failure point", "why_tests_cant": "failure points in the middle of train", "anchors": ["pysgmcmc/models/bayesian_neural_network.py:BayesianNeuralNetwork.train", "pysgmcmc/models/bayesian_neural_network.py:BayesianNeuralNetwork.predict", "pysgmcmc/models/bayesian_neural_network.py:BayesianNeuralNetwork.compute_network_output"]}
{"id": "C76", "title": "Branin optima are global", "statement": "branin is at least 10/(8 pi) and attains it exactly at the points ((2k+1) pi, 5.1 (2k+1)^2/4 - 5 (2k+1) + 6), k an integer; the three documented optima are among them (the third one exactly at x0 = 3 pi).", "quantifier": "all real points", "why_tests_cant": "global statement over the reals, infinitely many minimizers", "anchors": ["pysgmcmc/diagnostics/objective_functions.py:branin"]}
{"id": "C77", "title": "Camelback optima are global", "statement": "camelback is at least -1.03163 everywhere and at most -1.03162 at both documented optima, where it takes the same value.", "quantifier": "all real points", "why_tests_cant": "global statement over the reals", "anchors": ["pysgmcmc/diagnostics/objective_functions.py:camelback"]}
{"id": "C78", "title": "Hartmann functions match the literature and are negative and bounded", "statement": "hartmann3 and hartmann6 are the three- and six-dimensional Hartmann functions of the literature at every point with enough coordinates; they take values in [-8.4, 0) and reject points with too few coordinates with IndexError.", "quantifier": "all real points", "why_tests_cant": "global statement over the reals", "anchors": ["pysgmcmc/diagnostics/objective_functions.py:hartmann3", "pysgmcmc/diagnostics/objective_functions.py:hartmann6"]}
{"id": "C79", "title": "Traces without names number their variables", "statement": "A PYSGMCMCTrace built without varnames from samples with m entries has exactly the variables \"0\", ..., \"m-1\" (pairwise distinct for every m); variable \"j\" is the j-th entry of every sample; a chain of plain floats has the single variable \"0\"; every other name gives ValueError.", "quantifier": "every chain and number m of variables", "why_tests_cant": "all m, names of different lengths", "anchors": ["pysgmcmc/diagnostics/sample_chains.py:PYSGMCMCTrace.__init__", "pysgmcmc/diagnostics/sample_chains.py:PYSGMCMCTrace.get_values"]}
{"id": "C80", "title": "Sampler diagnostics are computed from the recorded chains", "statement": "effective_sample_sizes and gelman_rubin return what the corresponding pymc3 diagnostic computes from exactly n_chains traces of samples_per_chain samples with ids 0, 1, ... (2 and 100 by default); if recording a chain fails, the call fails with the same exception and no further chain is started.", "quantifier": "every sampler factory, number of chains, chain length and failure point", "why_tests_cant": "failure points, all sizes", "anchors": ["pysgmcmc/diagnostics/sampler_diagnostics.py:effective_sample_sizes", "pysgmcmc/diagnostics/sampler_diagnostics.py:gelman_rubin", "pysgmcmc/diagnostics/sampler_diagnostics.py:_pymc3_diagnostic"]}
{"id": "C81", "title": "Thinned extraction in the ESS experiment", "statement": "extract_samples(sampler, n_samples=n, keep_every=k) returns the results of steps 0, k, ..., (n-1)k and advances the sampler by exactly n*k steps; an exception of the sampler is passed on.", "quantifier": "every sampler, n, k >= 1", "why_tests_cant": "all n, k", "anchors": ["docs/source/experiments/compute_ess.py:extract_samples"]}
{"id": "C82", "title": "The ESS experiment thins by --keep-every", "statement": "For every stepsize, the chains evaluated are consecutive disjoint segments of one run of one new sampler; sample j of chain i is the result of step (i*n + j) * keep_every, with ids 0, 1, ... .", "quantifier": "every sampler, number of chains, chain length and --keep-every", "why_tests_cant": "all arguments", "anchors": ["docs/source/experiments/compute_ess.py:main"]}
{"id": "C83", "title": "Stepsizes of the ESS experiment", "statement": "Without --stepsize exactly the stepsizes min, min+inc, min+2inc, ... below max are tried (max itself never, nothing if min = max), in increasing order; with --stepsize only that one; a complete run reports exactly --n-iterations values for each stepsize tried and none for any other.", "quantifier": "every range, increment and number of iterations", "why_tests_cant": "all real ranges", "anchors": ["docs/source/experiments/compute_ess.py:main"]}
{"id": "C84", "title": "Argument validation of the ESS experiment", "statement": "The script starts sampling exactly if benchmark and sampler are known, n-iterations, samples-per-chain, keep-every >= 1, n-chains >= 2, 0 <= stepsize-min <= stepsize-max and the increment is positive; otherwise it raises (ValueError for the benchmark, AssertionError for the rest) before any sampler is built.", "quantifier": "every argument combination", "why_tests_cant": "infinite argument space", "anchors": ["docs/source/experiments/compute_ess.py:main"]}
{"id": "C85", "title": "Predictions do not depend on the units of the data", "statement": "With input and output normalization, replacing the training inputs by a_j x_j + b_j (a_j > 0) per column, the targets by c y + d (c > 0) and the test inputs likewise leaves the training result unchanged and changes the predictions exactly by mean -> c mean + d, variance -> c^2 variance; test points are normalized with the statistics of the training data.", "quantifier": "every data set, change of units, network and sampler behaviour", "why_tests_cant": "all affine changes of units and all data", "anchors": ["pysgmcmc/models/bayesian_neural_network.py:BayesianNeuralNetwork.train", "pysgmcmc/models/bayesian_neural_network.py:BayesianNeuralNetwork.predict", "pysgmcmc/models/base_model.py:zero_mean_unit_var_normalization"]}
{"id": "C86", "title": "The BNN's sampler gets the network's settings", "statement": "Each train call creates a sampler of the configured method whose params, cost, batches, session, seed, dtype, schedule, burn-in length and scale_grad (the current number of datapoints) are those of the network and the current data, whatever was passed as extra keyword and whatever earlier train calls used; other extra keywords reach the sampler, missing ones take the sampler's defaults; an unknown extra keyword gives ValueError in train.", "quantifier": "every extra keyword arguments, every history of train calls", "why_tests_cant": "all histories and keyword combinations", "anchors": ["pysgmcmc/models/bayesian_neural_network.py:BayesianNeuralNetwork.train", "pysgmcmc/models/bayesian_neural_network.py:BayesianNeuralNetwork.__init__"]}
{"id": "C87", "title": "The BNN's stepsize schedule governs training", "statement": "The sampler a train call creates takes its stepsizes from the network's stepsize_schedule, for every supported sampling method.", "quantifier": "every schedule, supported method and history of train calls", "why_tests_cant": "all configurations", "anchors": ["pysgmcmc/models/bayesian_neural_network.py:BayesianNeuralNetwork.train", "pysgmcmc/samplers/sgld.py:SGLDSampler.__init__"]}
{"id": "C88", "title": "A whole SGHMC chain is the published algorithm", "statement": "For every N, the N results of iterating over a new SGHMCSampler are the first N positions of scale-adapted SGHMC (Springenberg et al.) started at the initial parameters, for the stepsizes, batches and normal draws actually supplied: mass adapted during burn-in and frozen afterwards, gradients evaluated on the current batch at the parameter's own old value (other parameters old or already new); if each parameter's gradient depends on that parameter only the samples are a function of start, batches, stepsizes and draws.", "quantifier": "every N, burn-in length, cost function, batch generator, schedule, parameter shapes, noise and runtime order", "why_tests_cant": "whole chains of any length and any runtime order", "anchors": ["pysgmcmc/samplers/sghmc.py:SGHMCSampler.__init__", "pysgmcmc/samplers/base_classes.py:BurnInMCMCSampler.__next__", "pysgmcmc/samplers/base_classes.py:MCMCSampler.__next__"]}
{"id": "C89", "title": "A whole SGLD chain is preconditioned Langevin dynamics", "statement": "For every N, the N results of iterating over a new SGLDSampler are the first N positions of preconditioned stochastic gradient Langevin dynamics started at the initial parameters, for the stepsizes, batches and normal draws actually supplied: preconditioner adapted during burn-in and frozen afterwards, gradients evaluated on the current batch at the parameter's own old value; if each parameter's gradient depends on that parameter only the samples are a function of start, batches, stepsizes and draws.", "quantifier": "every N, burn-in length, cost function, batch generator, schedule, parameter shapes, noise and runtime order", "why_tests_cant": "whole chains of any length and any runtime order", "anchors": ["pysgmcmc/samplers/sgld.py:SGLDSampler.__init__", "pysgmcmc/samplers/base_classes.py:BurnInMCMCSampler.__next__", "pysgmcmc/samplers/base_classes.py:MCMCSampler.__next__"]}
{"id": "C90", "title": "A whole relativistic SGHMC chain is the published algorithm", "statement": "For every N, the N results of iterating over a new RelativisticSGHMCSampler (m, c > 0, non-negative noise variance) are the first N positions of relativistic SGHMC (Lu et al.) started at the initial parameters and the drawn momenta, for the stepsizes, batches and normal draws actually supplied; gradients are evaluated on the current batch at the parameter's own old value; if each parameter's gradient depends on that parameter only the samples are a function of start, momenta, batches, stepsizes and draws.", "quantifier": "every N, cost function, batch generator, schedule, number of parameters, noise and runtime order", "why_tests_cant": "whole chains of any length and any runtime order", "anchors": ["pysgmcmc/samplers/relativistic_sghmc.py:RelativisticSGHMCSampler.__init__", "pysgmcmc/samplers/base_classes.py:MCMCSampler.__next__"]}
{"id": "C91", "title": "A whole SVGD chain is a function of start, batches and stepsizes", "statement": "For every N, as long as the particles stay pairwise distinct (which is guaranteed if they start further apart than twice the summed stepsizes over sqrt(1-alpha)), the N results of iterating over a new SVGDSampler are the positions of the recurrence: direction = kernel-weighted mean of cost gradients plus kernel term with median bandwidth, divided by fudge factor plus root of the exponentially averaged squared direction, subtracted with the current stepsize; the costs returned are those of all particles before the step; the order chosen by the runtime never matters.", "quantifier": "every N, number of particles >= 2, dimension, cost function, batch generator, schedule and runtime order", "why_tests_cant": "whole chains of any length and any runtime order", "anchors": ["pysgmcmc/samplers/svgd.py:SVGDSampler.__init__", "pysgmcmc/samplers/svgd.py:SVGDSampler.svgd_kernel", "pysgmcmc/samplers/base_classes.py:MCMCSampler.__next__"]}
{"id": "C92", "title": "All orders of a shuffled batch are equally likely", "statement": "A batch of generate_shuffled_batches is a window of rows and the matching window of labels, both reordered with the same random draws. If the rows of a window are different, each of the b! orders of a batch of b rows results from exactly one of the b! possible sequences of draws, so with uniform draws all orders are equally likely; every generator's draws are among these, and two generators give the same order exactly if they make the same draws.", "quantifier": "every dataset, batch size, seed, batch number and random number generator", "why_tests_cant": "uniformity over all b! orders cannot be tested by sampling", "anchors": ["pysgmcmc/data_batches.py:generate_shuffled_batches"]}
{"id": "C93", "title": "SGLD samples from the posterior of a quadratic cost", "statement": "For a cost that is a sum of quadratics with curvatures h and minimum mu, independent standard normal draws after burn-in and a stepsize e that is constant after burn-in, for every realisation of burn-in: each element of the k-th sample after burn-in is normally distributed with mean mu + r^k (theta_B - mu), r = 1 - e m A h, and variance 2 e m A / (scale_grad + 3e-16) times the sum of r^(2j), j < k, where m is the preconditioner at the end of burn-in; different elements are independent; if e m A h < 2 the samples converge in distribution to the normal distribution with mean mu and variance 1 / ((scale_grad + 3e-16) h (1 - e m A h / 2)), i.e. to the posterior up to a stepsize-dependent factor.", "quantifier": "every k, number and size of parameters, curvatures, minimum, start, burn-in length >= 1, burn-in draws, scale_grad, A, stepsize and runtime order", "why_tests_cant": "a statement about the distribution of unboundedly many random samples", "anchors": ["pysgmcmc/samplers/sgld.py:SGLDSampler.__init__", "pysgmcmc/samplers/base_classes.py:BurnInMCMCSampler.__next__"]}
{"id": "C94", "title": "SGHMC samples from the posterior of a quadratic cost", "statement": "In the situation of C93, each element of the k-th SGHMC sample after burn-in is normally distributed, different elements are independent, and if e^2 m h < 2 (2 - mdecay) the samples converge in distribution to a normal distribution around the minimum; unless the noise is at its floor of 1e-16 its variance is 1 / (scale_grad h) times (1 - e^2 / (2 mdecay m scale_grad)) times (2 - mdecay) / (2 - mdecay - e^2 m h / 2), i.e. the posterior variance up to factors that tend to 1 with the stepsize.", "quantifier": "every k, number and size of parameters, curvatures, minimum, start, burn-in length >= 1, burn-in draws, scale_grad, mdecay > 0, stepsize and runtime order", "why_tests_cant": "a statement about the distribution of unboundedly many random samples", "anchors": ["pysgmcmc/samplers/sghmc.py:SGHMCSampler.__init__", "pysgmcmc/samplers/base_classes.py:BurnInMCMCSampler.__next__"]}
{"id": "C95", "title": "Training and prediction of a BNN, end to end", "statement": "For a new network with at least two variables trained with SGHMC on real data (non-constant where normalized): train succeeds; the stored networks are the positions after steps i, burn_in_steps < i < n_iters, i divisible by sample_steps (at most n_nets), of one SGHMC chain started, for each variable, at one of the two initial values that are drawn for it (when the sampler is constructed, and when all variables are initialized afterwards), with the configured stepsize, mdecay (0.05 if not passed) and burn-in length, the number of datapoints as scale, and in each step the exact gradient of the network's cost (in the first step at the second initial values) on a window of min(batch_size, N) consecutive normalized datapoints; predict returns, in the units of the targets, the outputs of exactly these networks at test points normalized with the training statistics, respectively their mean and population variance. After every training step the variables of the network hold the sample of that step.", "quantifier": "every network architecture with a differentiable output, weight shapes, data, configuration, stepsize, seed, noise, test set and runtime order", "why_tests_cant": "composition of batch generator, normalization, sampler construction, a whole chain and prediction, for all data and sizes", "anchors": ["pysgmcmc/models/bayesian_neural_network.py:BayesianNeuralNetwork.train", "pysgmcmc/models/bayesian_neural_network.py:BayesianNeuralNetwork.predict", "pysgmcmc/models/bayesian_neural_network.py:BayesianNeuralNetwork.negative_log_likelihood", "pysgmcmc/samplers/sghmc.py:SGHMCSampler.__init__", "pysgmcmc/data_batches.py:generate_batches"]}
{"id": "C96", "title": "The mass matrix is learnt from the gradients of burn-in", "statement": "In SGHMC and SGLD, the inverse mass of a parameter element used in a burn-in step after N earlier steps is 1 / (sqrt(v) + 3e-16), where v is a weighted average of the initial value 1 (weight at most 1/(N+1)) and the N squared gradients seen so far (the j-th with weight at most (j+2)/(2(N+1))); if the gradients converge to g during burn-in it converges to 1 / (|g| + 3e-16); all steps after a burn-in of B >= 1 steps use the inverse mass given by the first B-1 gradients.", "quantifier": "every gradient history, burn-in length, number of parameters and runtime order", "why_tests_cant": "limits and bounds for unboundedly many steps", "anchors": ["pysgmcmc/samplers/sghmc.py:SGHMCSampler.__init__", "pysgmcmc/samplers/sgld.py:SGLDSampler.__init__", "pysgmcmc/samplers/base_classes.py:BurnInMCMCSampler.__next__"]}
{"id": "C97", "title": "The SVGD kernel is positive semidefinite and comes with its gradient", "statement": "For at least two pairwise distinct particles svgd_kernel returns the matrix of a Gaussian kernel, which is positive semidefinite, and for each particle the sum over all particles of the partial derivatives of the kernel with respect to its other argument (at fixed bandwidth); hence the kernel-weighted cost gradients never point, summed over the particles, in a direction of decreasing cost (the step goes the opposite way).", "quantifier": "every number of particles, dimension and position", "why_tests_cant": "positive semidefiniteness and derivatives for all configurations", "anchors": ["pysgmcmc/samplers/svgd.py:SVGDSampler.svgd_kernel"]}
{"id": "C98", "title": "pymc3_multitrace continues burnt-in samplers", "statement": "If get_sampler returns a sampler that already made some steps (its documentation allows burnt-in samplers), the chain recorded by pymc3_multitrace consists of the samples this sampler yields from there on.", "quantifier": "every sampler, number of earlier steps, burn-in length, chain, number of samples and runtime order", "why_tests_cant": "needs the state of session and sampler over unboundedly many steps before and after the initializer runs", "anchors": ["pysgmcmc/diagnostics/sample_chains.py:pymc3_multitrace"]}
{"id": "C99", "title": "Initializing variables after constructing a sampler only sets the starting point", "statement": "Running tf.global_variables_initializer() between constructing a sampler and drawing samples (as the documented examples and BayesianNeuralNetwork.train do) sets the target parameters to their initial values, and the chain is the one of a sampler started there.", "quantifier": "every set of target parameters, initial values (also random ones), number of steps and execution order of the runtime", "why_tests_cant": "depends on the execution order of initializers, which tests cannot force, and on whole chains", "anchors": ["pysgmcmc/samplers/base_classes.py:MCMCSampler.__init__", "pysgmcmc/tensor_utils.py:vectorize", "pysgmcmc/models/bayesian_neural_network.py:BayesianNeuralNetwork.train"]}
{"id": "C100", "title": "get_incumbent of a BNN returns the best training point", "statement": "After train(X, y), get_incumbent of a BayesianNeuralNetwork returns the training input with the smallest label, and that label, in the units of the data handed to train; before training it fails.", "quantifier": "every training set, normalization setting and history of earlier calls; the network class itself and a class deriving from it and from BaseModel", "why_tests_cant": "ranges over all data and settings", "anchors": ["pysgmcmc/models/base_model.py:BaseModel.get_incumbent", "pysgmcmc/models/bayesian_neural_network.py:BayesianNeuralNetwork.train", "pysgmcmc/models/bayesian_neural_network.py:BayesianNeuralNetwork.__init__"]}
{"id": "C101", "title": "update of a BNN retrains on all data seen so far", "statement": "After train(X0, y0) and any sequence of update(Xi, yi) a BayesianNeuralNetwork is trained on the concatenation of all data in order.", "quantifier": "every sequence of updates, data and normalization setting; the network class itself and a class deriving from it and from BaseModel", "why_tests_cant": "all histories", "anchors": ["pysgmcmc/models/base_model.py:BaseModel.update", "pysgmcmc/models/bayesian_neural_network.py:BayesianNeuralNetwork.train"]}
{"id": "C102", "title": "Retraining a BNN starts afresh", "statement": "Every call of train on a BayesianNeuralNetwork samples exactly the variables of the network it just built, and predict afterwards feeds each variable its own sampled value, however often and with whatever networks training was called before in the same graph.", "quantifier": "every network builder, number of trainings and graph state", "why_tests_cant": "needs arbitrarily many retrainings; the test-suite trains each network once per graph", "anchors": ["pysgmcmc/models/bayesian_neural_network.py:BayesianNeuralNetwork.train", "pysgmcmc/models/bayesian_neural_network.py:get_default_net", "pysgmcmc/samplers/base_classes.py:MCMCSampler.__init__", "pysgmcmc/tensor_utils.py:vectorize"]}
{"id": "C103", "title": "SGLD samples the posterior up to the step-size error", "statement": "After burn-in, with the preconditioner fixed, an SGLD step of size eps applied to a draw from the density proportional to exp(-(scale_grad+3e-16)*cost) gives again a draw from it up to an error of order eps^(3/2), although the step itself moves the parameters by order eps^(1/2): expectations of smooth functions move by at most K*eps*sqrt(eps). This holds with minibatch gradients that are right on average, and whatever parameter values the gradients of a multi-parameter model see.", "quantifier": "every continuously differentiable cost whose minibatch gradients are Lipschitz or (with moments of the density) grow polynomially, number and shape of parameters, minibatch distribution, preconditioner, A >= 0, scale_grad > 0, step size, execution order and smooth test function", "why_tests_cant": "an integral over all states, minibatches and noise draws, and an asymptotic statement in eps; tests see a few seeded chains", "anchors": ["pysgmcmc/samplers/sgld.py:SGLDSampler.__init__", "pysgmcmc/samplers/base_classes.py:MCMCSampler.__next__", "pysgmcmc/samplers/base_classes.py:BurnInMCMCSampler.__next__"]}
{"id": "C104", "title": "Relativistic SGHMC samples the posterior up to the step-size error", "statement": "A step of the relativistic SGHMC sampler of size eps, applied to parameters and momenta drawn from the density proportional to exp(-cost(parameters)) times the relativistic momentum density (the one its constructor draws the initial momenta from), gives again such a draw up to an error of order eps^(3/2): expectations of smooth functions of parameters and momenta move by at most K*eps*sqrt(eps). This holds with minibatch gradients that are right on average, and whatever parameter values the gradients of a multi-parameter model see.", "quantifier": "every continuously differentiable cost with Lipschitz minibatch gradients, number of (one-element) parameters, minibatch distribution, mass, speed of light, D > 0, Bhat, step size with eps*Bhat <= 2D, execution order and smooth test function", "why_tests_cant": "an integral over all states, minibatches and noise draws, and an asymptotic statement in eps; tests see a few seeded chains", "anchors": ["pysgmcmc/samplers/relativistic_sghmc.py:RelativisticSGHMCSampler.__init__", "pysgmcmc/samplers/relativistic_sghmc.py:_sample_relativistic_momentum", "pysgmcmc/samplers/base_classes.py:MCMCSampler.__next__"]}
{"id": "C105", "title": "SGHMC samples the posterior up to the step-size error", "statement": "After burn-in, a step of the SGHMC sampler of size eps is neutral for the posterior exp(-scale_grad*cost): call the point where a parameter would come to rest if only friction acted (parameter + (1-mdecay)/mdecay * momentum) the resting point. If the resting point is distributed as the posterior and momenta have size of order eps, then after a step expectations of smooth functions of the resting point have changed by order eps^3 only, although the step itself moves it by order eps. This holds with minibatch gradients that are right on average, for any dependence between momentum and parameters, and for every order in which the runtime executes the step.", "quantifier": "every continuously differentiable cost whose minibatch gradients are Lipschitz or (with moments of the density) grow polynomially, number and shapes of parameters, minibatch distribution, mdecay > 0, scale_grad, frozen mass estimates, step size above the noise floor, execution order and smooth test function", "why_tests_cant": "an integral over all states, minibatches and noise draws, and an asymptotic statement in eps; tests see a few seeded chains", "anchors": ["pysgmcmc/samplers/sghmc.py:SGHMCSampler.__init__", "pysgmcmc/samplers/base_classes.py:BurnInMCMCSampler.__next__"]}
{"id": "C106", "title": "Minibatches of generate_batches are fair to all rows", "statement": "Gradients computed on minibatches of generate_batches are, on average over its draws, gradients of the average loss of the whole dataset, so that stochastic-gradient samplers fed with them target the posterior of the dataset.", "quantifier": "every dataset, batch size from 1 to the number of rows, and per-row loss", "why_tests_cant": "an average over all windows, for all datasets and losses; tests check shapes of batches of a few seeds", "anchors": ["pysgmcmc/data_batches.py:generate_batches", "pysgmcmc/samplers/sgld.py:SGLDSampler.__init__"]}
{"id": "C107", "title": "Shuffled batches are fair to all rows in the long run", "statement": "If the draws of the random generators are uniform, the expected mean of any per-row quantity (for example a gradient component) over the rows of the n-th batch of generate_shuffled_batches tends to its mean over the whole dataset as n grows, because the generator reorders the dataset in place. The first batch has the weights of generate_batches (C106).", "quantifier": "every dataset (rows and labels of any type), batch size, seed and per-row quantity; limit over the number of batches", "why_tests_cant": "a limit of averages over all sequences of draws; tests look at one seeded sequence of a few batches", "anchors": ["pysgmcmc/data_batches.py:generate_shuffled_batches", "pysgmcmc/data_batches.py:generate_batches"]}
{"id": "C108", "title": "Training a Bayesian neural network targets its posterior", "statement": "The stochastic gradients a BayesianNeuralNetwork trains with are, on average over the minibatches and after multiplication with the scale_grad it passes to its sampler, gradients of minus the log posterior: the Gaussian log likelihood of every datapoint counts once, the priors on weights and log variances count once. This density is proper: it has finite mass and moments for every network function and dataset, so there is something to sample from.", "quantifier": "every network function, dataset, batch size and parameter value", "why_tests_cant": "an identity between averages over all minibatches, and integrability over all of parameter space; tests train on one dataset and compare errors", "anchors": ["pysgmcmc/models/bayesian_neural_network.py:BayesianNeuralNetwork.negative_log_likelihood", "pysgmcmc/models/bayesian_neural_network.py:BayesianNeuralNetwork.train", "pysgmcmc/models/bayesian_neural_network.py:log_variance_prior_log_like", "pysgmcmc/models/bayesian_neural_network.py:weight_prior_log_like", "pysgmcmc/data_batches.py:generate_batches"]}
{"id": "C109", "title": "Training steps of a Bayesian neural network keep the density they target", "statement": "After burn-in, one training step of a BayesianNeuralNetwork with SGLD or SGHMC on a random minibatch leaves the density of C108 invariant up to the step-size error: expectations of smooth functions change by order eps*sqrt(eps) for SGLD and eps^3 for the resting point of SGHMC (see C103, C105). This includes the default network, whose gradients are not Lipschitz continuous.", "quantifier": "every network with smooth outputs whose derivatives grow polynomially in the weights (among them the default network for every input dimension), every dataset, batch size, step size, mdecay or A, burned-in preconditioner, and execution order of TensorFlow", "why_tests_cant": "a statement about a distribution over all weights, minibatches and noise; tests see a few sample paths", "anchors": ["pysgmcmc/models/bayesian_neural_network.py:BayesianNeuralNetwork.train", "pysgmcmc/models/bayesian_neural_network.py:get_default_net", "pysgmcmc/samplers/sghmc.py:SGHMCSampler.__init__", "pysgmcmc/samplers/sgld.py:SGLDSampler.__init__", "pysgmcmc/data_batches.py:generate_batches"]}
{"id": "C110", "title": "safe_divide and safe_sqrt are safe in floating point arithmetic", "statement": "Also with rounding, overflow and underflow, safe_divide of numbers never is NaN, is finite unless the quotient by the guarded denominator overflows, has the sign of the quotient and is at most as large as the correctly rounded |x| / max(|y|, small_constant); it is a correctly rounded division by a denominator close to y. safe_sqrt is finite, non-negative, zero for negative arguments, correctly rounded and monotone. This holds for every dtype the functions are used with.", "quantifier": "every binary floating point format with round-to-nearest (any tie rule), every representable argument and small_constant", "why_tests_cant": "there are 2^128 pairs of doubles; tests try a few; the guarantee depends on where intermediate results round or underflow", "anchors": ["pysgmcmc/tensor_utils.py:safe_divide", "pysgmcmc/tensor_utils.py:safe_sqrt"]}
{"id": "C111", "title": "median and squareform are right in floating point arithmetic", "statement": "In floating point arithmetic median returns a number of the format such that at least half of the elements are at most and at least half are at least that number, as long as doubling the elements does not overflow (if it does, the median of finite numbers may be infinite); squareform computes its matrix size through a rounded square root and still returns the exact matrix for every vector length below 2^98.", "quantifier": "every tensor of representable numbers in every binary format; every vector length", "why_tests_cant": "rounding of the averaged middle elements and of the square root can only be settled for all values; tests use short vectors", "anchors": ["pysgmcmc/tensor_utils.py:median", "pysgmcmc/tensor_utils.py:squareform"]}
{"id": "C112", "title": "Normalization works in floating point arithmetic", "statement": "In floating point arithmetic zero_one_normalization of a non-constant column whose range does not overflow gives numbers in [0, 1], attains exactly 0 and exactly 1, and keeps the order of the entries; un-standardizing a standardized number, if nothing overflows, gives it back up to a few units in the last place of the magnitudes involved.", "quantifier": "every array of representable numbers in every binary format", "why_tests_cant": "division of rounded differences might exceed 1 or swap neighbours by rounding; that is a statement about all pairs of floating point numbers", "anchors": ["pysgmcmc/models/base_model.py:zero_one_normalization", "pysgmcmc/models/base_model.py:zero_mean_unit_var_normalization", "pysgmcmc/models/base_model.py:zero_mean_unit_var_unnormalization"]}
{"id": "C113", "title": "The speed limit of relativistic SGHMC survives rounding and overflow", "statement": "In floating point arithmetic the displacement of a parameter in one step of relativistic SGHMC is a number, never NaN or infinite, has the direction of the momentum and is at most stepsize times speed of light (up to a few units in the last place and the underflow threshold), for every momentum whose product with the stepsize does not overflow; the rounded new position is at most twice that far away. If the square of the momentum overflows the parameter does not move at all. The noise of the momentum update never becomes NaN through rounding.", "quantifier": "every binary format with at least four digits, every momentum, stepsize, mass and speed of light whose squares stay in range", "why_tests_cant": "ranges over all floating point momenta including those whose square overflows or underflows", "anchors": ["pysgmcmc/samplers/relativistic_sghmc.py:RelativisticSGHMCSampler.__init__"]}
{"id": "C114", "title": "The adaptive statistics of SGHMC and SGLD stay well defined in floating point arithmetic", "statement": "In float32 and float64 arithmetic, with every operation rounded, the burn-in statistics are numbers after every step: the averaging window is at least 3/4 and at most the number of steps plus one, the averaging rate is in (0, 5/8] and accurate to three roundings, the second moment is non-negative and bounded, the squared first moment exceeds it by at most rounding error and guard, and the inverse mass is positive and at most 2^54. The condition on the gradients is needed: one gradient whose square overflows makes the second moment infinite, the next inverse mass zero, and everything after that NaN for good.", "quantifier": "all histories of gradients whose squares leave a factor 1/u to the largest number, up to 1/(64u) steps (260,000 in float32, 10^14 in float64), all rules to break ties, every binary format with at least 24 digits and enough range", "why_tests_cant": "an invariant of all histories under accumulating rounding errors; tests see a few trajectories", "anchors": ["pysgmcmc/samplers/sghmc.py:SGHMCSampler.__init__", "pysgmcmc/samplers/sgld.py:SGLDSampler.__init__", "pysgmcmc/tensor_utils.py:safe_divide", "pysgmcmc/tensor_utils.py:safe_sqrt"]}
{"id": "C115", "title": "Runs of SGHMC and SGLD do not overflow or become NaN in floating point arithmetic", "statement": "In float32 and float64 arithmetic, with every operation rounded: as long as stepsizes are in [0, 1], gradients and normal draws are of moderate size and scale_grad is at least 1, every parameter, momentum and statistic is a number after every step, during burn-in and after it. SGHMC's noise never vanishes (its standard deviation is at least 2^-27), the momentum grows at most linearly and the position at most quadratically in the number of steps; for SGLD the position grows at most linearly.", "quantifier": "all input histories of moderate size, up to 1/(64u) steps, all frictions in [0, 1], all start values that leave room to the largest number", "why_tests_cant": "ranges over all histories and all roundings", "anchors": ["pysgmcmc/samplers/sghmc.py:SGHMCSampler.__init__", "pysgmcmc/samplers/sgld.py:SGLDSampler.__init__", "pysgmcmc/samplers/base_classes.py:BurnInMCMCSampler.__next__"]}
{"id": "C116", "title": "SVGD steps stay bounded in floating point arithmetic, however large or small the gradients are", "statement": "In float32 and float64 arithmetic, with every operation rounded and the default alpha=0.9 and fudge_factor=1e-6: whatever numbers come out as gradients (tiny, huge, or so large that their square overflows), the scaled gradient is a number of absolute value at most 3.25 that points the way the gradient does; the gradient history is never NaN or negative; a coordinate that starts within n times a power of two that bounds 3.25 epsilon is within n + m times that power after m steps, so rounding errors do not accumulate. A gradient whose square overflows freezes its coordinate for good.", "quantifier": "all gradient sequences, all nonnegative stepsizes, all numbers of steps below 2^precision, any hyperparameters with tiny <= u * fudge^2, any rounding of ties", "why_tests_cant": "ranges over all gradient sequences and all formats; the worst cases are underflow and overflow", "anchors": ["pysgmcmc/samplers/svgd.py:SVGDSampler.__init__"]}
{"id": "C117", "title": "Standardization works in floating point arithmetic", "statement": "In float32 and float64 arithmetic, with every operation rounded and the additions in any order: zero_mean_unit_var_normalization of a column of moderate numbers returns a mean within the bounds of the column and close to the exact one and a standard deviation that is a number; if it is not zero all normalized entries are numbers in the order of the entries, and an entry that is not extremely close to the mean is at most about sqrt(n) standard deviations away; if it is zero all entries are extremely close to the mean and no normalized entry is a number. A constant column does not always give standard deviation zero: rounding of the mean can turn three equal values into three times 1 or three times -1.", "quantifier": "every column of fewer than 2^24 (float32) or 2^53 (float64) representable numbers up to 2^50 or 2^484, every order of additions, every rounding to nearest", "why_tests_cant": "all columns, summation orders and ways to break ties", "anchors": ["pysgmcmc/models/base_model.py:zero_mean_unit_var_normalization"]}
{"id": "C118", "title": "Predictions of a Bayesian neural network are well defined in floating point arithmetic", "statement": "In float32 and float64 arithmetic, with every operation rounded and the additions in any order: if the outputs of the sampled networks are of moderate size, predict returns a number as mean, within the bounds of the outputs and close to the exact mean, and a number that is never negative as variance, close to the exact variance plus the squared rounding error of the mean; with one network these are its output and exactly zero. Undoing the normalization of the labels keeps both numbers and the variance nonnegative.", "quantifier": "every number of networks below 2^24 (float32) or 2^53 (float64), all representable outputs, label statistics, orders of additions, roundings to nearest", "why_tests_cant": "all outputs, summation orders and ways to break ties", "anchors": ["pysgmcmc/models/bayesian_neural_network.py:BayesianNeuralNetwork.predict"]}
{"id": "C119", "title": "SGLD stays near the minimum of a strongly convex cost", "statement": "For costs whose minibatch gradients pull towards a point star as gradients of mu-strongly convex and L-smooth functions do (the gradient of each parameter depending on that parameter only; always so for a single parameter of any shape): after burn-in with inverse masses m between lo and hi, every SGLD step with e A hi L <= 1 multiplies the distance of the parameters from star, measured with the mass matrix, by at most sqrt(1 - e A mu lo), up to the noise of the step and the step along the batch gradient at star. With the full gradient, star its zero, constant stepsize and independent standard normal draws, the expected squared distance k steps after burn-in is at most (1 - e A mu lo)^k times its value at the end of burn-in plus 2 d / ((scale_grad + 3e-16) mu lo), d being the total number of parameter elements.", "quantifier": "every such cost (quadratic or not), number and shape of parameters, start, burn-in, burn-in draws, minibatches, stepsize, number of steps and runtime order", "why_tests_cant": "expectations over all noise sequences of any length", "anchors": ["pysgmcmc/samplers/sgld.py:SGLDSampler.__init__", "pysgmcmc/samplers/base_classes.py:BurnInMCMCSampler.__next__"]}
{"id": "C120", "title": "SGHMC stays near the minimum of a strongly convex cost", "statement": "In the situation of C119, with 0 < mdecay <= 1: consider for parameters theta and momenta v the point theta + (1-mdecay)/mdecay v where they would come to rest without forces, and the way there. After burn-in every SGHMC step with e^2 / mdecay * hi * L * (2 + 8 / (1 - (1-mdecay)^2)) <= 1 multiplies their joint distance from rest at star by at most sqrt(1 - e^2 mu lo / (2 mdecay)), up to the noise of the step and the batch gradient at star. With the full gradient, constant stepsize and independent standard normal draws the expected squared distance of the samples from the minimum decays geometrically to at most 4 (1 + (1-mdecay)^2) / (mdecay e^2 mu lo) times the (mass-weighted) noise variance of one step.", "quantifier": "every such cost (quadratic or not), number and shape of parameters, start, burn-in, burn-in draws, minibatches, mdecay, stepsize, number of steps and runtime order", "why_tests_cant": "expectations over all noise sequences of any length", "anchors": ["pysgmcmc/samplers/sghmc.py:SGHMCSampler.__init__", "pysgmcmc/samplers/base_classes.py:BurnInMCMCSampler.__next__"]}
{"id": "C121", "title": "Training and prediction of a BNN with SGLD, end to end", "statement": "For a new network with at least two variables trained with Sampler.SGLD on real data (non-constant where normalized): train succeeds; the stored networks are the positions after steps i, burn_in_steps < i < n_iters, i divisible by sample_steps (at most n_nets), of one SGLD chain started, for each variable, at one of the two initial values that are drawn for it, with the passed A (1 if not passed) and burn-in length, the number of datapoints as scale_grad, the constant stepsize 0.01 (whatever schedule the network was given, see C87), and as gradient of each step the gradient of the network's negative log posterior on a window of batch_size consecutive normalized datapoints; predict returns means and variances of these networks at the normalized test points, in the units of the labels. After every training step the variables of the network hold the sample of that step.", "quantifier": "every network differentiable in each weight, dataset, batch size, seed, iteration counts, A, normalization options, test points, runtime order, normal draws and numpy generator", "why_tests_cant": "composition of normalization, minibatch generation, sampler construction, chain, collection of networks and prediction over unbounded data and runs", "anchors": ["pysgmcmc/models/bayesian_neural_network.py:BayesianNeuralNetwork.train", "pysgmcmc/models/bayesian_neural_network.py:BayesianNeuralNetwork.predict", "pysgmcmc/samplers/sgld.py:SGLDSampler", "pysgmcmc/sampling.py:Sampler.get_sampler", "pysgmcmc/data_batches.py:generate_batches"]}
{"id": "C122", "title": "Malformed training data are rejected", "statement": "train and predict raise an AssertionError for inputs that are not two-dimensional arrays and leave network and session as they were; train raises an AssertionError unless there is one label per row, does not mark the network as trained and stores no networks, so that predict on it still raises a ValueError; an empty data set is rejected.", "quantifier": "every array shape, number of rows and labels, network, configuration with at least one iteration, sampler SGHMC or SGLD, normalization options", "why_tests_cant": "all shapes and lengths; the label check happens only in the first step of the sampler, after normalization, graph construction and initialization", "anchors": ["pysgmcmc/models/bayesian_neural_network.py:BayesianNeuralNetwork.train", "pysgmcmc/models/bayesian_neural_network.py:BayesianNeuralNetwork.predict", "pysgmcmc/models/base_model.py:BaseModel._check_shapes_predict", "pysgmcmc/data_batches.py:generate_batches"]}
{"id": "C123", "title": "SGLD converges to the posterior", "statement": "Let the costs of the minibatches be mu-strongly convex and L-smooth with Lipschitz second derivatives and let their gradients be right on average (the gradient of each parameter depending on that parameter only; always so for a single parameter of any shape). If after burn-in the minibatches are drawn independently, the normal draws are independent, the stepsize e is constant with e A hi L <= 1 and the inverse masses learned in burn-in are between lo and hi, then for every test function f with derivatives bounded by A1 and A2-Lipschitz, the expectation of f at the sample k steps after burn-in differs from the average of f over the density proportional to exp(-(scale_grad + 3e-16) U), U the full cost, by at most sqrt(hi d / lo) A1 sqrt(1 - e A mu lo)^k times the average distance of that density from the position after burn-in, plus K sqrt(e A) (A1 + A2), where K depends on cost, scale_grad, lo and hi only. So any accuracy is reached with a small enough stepsize and enough steps.", "quantifier": "every such cost (quadratic or not), number and shape of parameters, start, burn-in length, burn-in minibatches and draws, stepsizes during burn-in, stepsize after it, execution order, test function, number of steps", "why_tests_cant": "an asymptotic statement about expectations over infinitely many runs, for a continuum of costs", "anchors": ["pysgmcmc/samplers/sgld.py:SGLDSampler", "pysgmcmc/samplers/base_classes.py:BurnInMCMCSampler.__next__"]}
{"id": "C124", "title": "get_json_data holds exactly the stored data", "statement": "For a model whose train stores its data, get_json_data returns X and y as nested lists with every element at its index and nothing else; arrays without an empty axis can be recovered from it; before training both are None.", "quantifier": "every stored array of any shape, every element", "why_tests_cant": "ranges over all shapes", "anchors": ["pysgmcmc/models/base_model.py:BaseModel.get_json_data"]}
{"id": "C125", "title": "SGHMC converges to the posterior", "statement": "Let the costs of the minibatches be mu-strongly convex and L-smooth with Lipschitz second derivatives and let their gradients be right on average (the gradient of each parameter depending on that parameter only; always so for a single parameter of any shape). If after burn-in the minibatches are drawn independently, the normal draws are independent, the stepsize e is constant and small enough for mdecay and L, and the inverse masses learned in burn-in are between lo and hi, then for every test function f with derivatives bounded by A1 and A2-Lipschitz, the expectation of f at the sample k steps after burn-in differs from the average of f over the density proportional to exp(-scale_grad U), U the full cost, by at most a multiple of A1 sqrt(1 - e^2 mu lo / (2 mdecay))^k times the distance of position and momentum after burn-in from it, plus K e (A1 + A2), where K depends on cost, scale_grad, mdecay, lo and hi only. If the stepsize is so small that the floor 1e-16 under the noise variance is reached, K 1e-16 / e^2 (A1 + A2) is added.", "quantifier": "every such cost (quadratic or not), number and shape of parameters, start, burn-in length, burn-in minibatches and draws, stepsizes during burn-in, stepsize after it, mdecay in (0, 1], execution order, test function, number of steps", "why_tests_cant": "an asymptotic statement about expectations over infinitely many runs, for a continuum of costs", "anchors": ["pysgmcmc/samplers/sghmc.py:SGHMCSampler", "pysgmcmc/samplers/base_classes.py:BurnInMCMCSampler.__next__"]}
{"id": "C126", "title": "Averages over one run of SGLD estimate the posterior", "statement": "Under the conditions of C123, take any finite nonempty set of the first N samples after burn-in of one single run (all of them, or every tenth, or any other choice that does not look at the samples) and average a test function f, with derivatives bounded by A1 and A2-Lipschitz, over them. The expected square of the difference between this average and the average of f over the density proportional to exp(-(scale_grad + 3e-16) U) is at most N/n^2 times a multiple of A1^2/(e A), n being the number of samples used and A the sampler's A, plus the square of a multiple of A1/(n e A) + sqrt(e A) (A1 + A2); the constants do not depend on the stepsize e, on N or n. So for long runs it is at most the square of the error of C123 plus any delta > 0, although consecutive samples depend on each other.", "quantifier": "all strongly convex smooth costs with unbiased minibatch gradients, all numbers and shapes of parameters, all starts, burn-in phases, small stepsizes, test functions, run lengths and choices of samples, all execution orders within a step", "why_tests_cant": "An average over one run is a random number whose expected square error is an integral over all infinite sequences of minibatches and draws, and the samples are correlated; the bound has to hold for all run lengths at once", "anchors": ["pysgmcmc/samplers/sgld.py:SGLDSampler", "pysgmcmc/samplers/base_classes.py:BurnInMCMCSampler.__next__"]}
{"id": "C127", "title": "Averages over one run of SGHMC estimate the posterior", "statement": "Under the conditions of C125, take any finite nonempty set of the first N samples after burn-in of one single run and average a test function f, with derivatives bounded by A1 and A2-Lipschitz, over them. The expected square of the difference between this average and the average of f over the density proportional to exp(-scale_grad U) is at most N/n^2 times a multiple of A1^2/e^2, n being the number of samples used, plus the square of a multiple of A1/(n e^2) + e (A1 + A2); the constants do not depend on the stepsize e, on N or n. If the floor 1e-16 of the noise variance is reached, 1e-16/e^2 is added to e and to the first multiple.", "quantifier": "all strongly convex smooth costs with unbiased minibatch gradients, all numbers and shapes of parameters, all starts, momenta, burn-in phases, momentum decays in (0,1], small stepsizes, test functions, run lengths and choices of samples, all execution orders within a step", "why_tests_cant": "An average over one run is a random number whose expected square error is an integral over all infinite sequences of minibatches and draws, and the samples are correlated; the bound has to hold for all run lengths at once", "anchors": ["pysgmcmc/samplers/sghmc.py:SGHMCSampler", "pysgmcmc/samplers/base_classes.py:BurnInMCMCSampler.__next__"]}
{"id": "C128", "title": "SGLD forgets where it started, also when the cost is not convex", "statement": "Let the minibatch gradients grow at most linearly and, on average over minibatches, pull inwards at large distances (the gradient of each parameter depending on that parameter only; always so for a single parameter of any shape); the cost need not be convex and may have many minima. If the stepsize after burn-in is constant and small, there is one probability distribution, determined by the cost, scale_grad, stepsize, A and the masses at the end of burn-in, that does not depend on where the chain is at the end of burn-in, such that for every function growing at most quadratically the expectation over the k-th sample after burn-in differs from the average over that distribution by at most a constant times rho^k, rho < 1; and for every function growing at most linearly the expected squared difference between the average over any n samples of one run and the average over the distribution is at most a constant over n. The distribution is the one that a step of SGLD keeps.", "quantifier": "all costs with these gradients, distributions of minibatches, numbers and shapes of parameters, starts, burn-in phases, stepsizes below a bound, test functions, run lengths and choices of samples, all execution orders within a step", "why_tests_cant": "That every start leads to the same distribution is about all starts and the limit of infinitely long runs; a finite run that is stuck in one mode looks converged", "anchors": ["pysgmcmc/samplers/sgld.py:SGLDSampler", "pysgmcmc/samplers/base_classes.py:BurnInMCMCSampler.__next__"]}
{"id": "C129", "title": "SGLD forgets where it started on mixtures of Gaussians", "statement": "For every mixture of Gaussians with positive variances and nonnegative weights, not all zero, in particular gmm1, gmm2 and gmm3: the log likelihood the package computes is a differentiable function ll, and SGLD with cost -ll and a small constant stepsize after burn-in satisfies the conclusions of C128: the distribution of its samples approaches one limit geometrically fast, whichever mode it starts in, and averages over one run converge to averages over that limit.", "quantifier": "all mixtures, all starts, burn-in phases, stepsizes below a bound that depends on the mixture, scale_grad, masses, test functions, run lengths and choices of samples", "why_tests_cant": "Moving between far modes can take longer than any test runs, so a test cannot tell a chain that forgets its start from one that does not", "anchors": ["pysgmcmc/diagnostics/objective_functions.py:gaussian_mixture_model_log_likelihood", "pysgmcmc/diagnostics/objective_functions.py:gmm1_log_likelihood", "pysgmcmc/diagnostics/objective_functions.py:gmm2_log_likelihood", "pysgmcmc/diagnostics/objective_functions.py:gmm3_log_likelihood", "pysgmcmc/samplers/sgld.py:SGLDSampler"]}
{"id": "C130", "title": "SGHMC forgets where it started, also when the cost is not convex", "statement": "Let the minibatch gradients grow at most linearly and, on average over minibatches, pull inwards at large distances (the gradient of each parameter depending on that parameter only; always so for a single parameter of any shape); the cost need not be convex and may have many minima. If 0 < mdecay <= 1 and the stepsize after burn-in is constant and small, there is one probability distribution of position and momentum, determined by the cost, scale_grad, stepsize, mdecay and the masses at the end of burn-in, that does not depend on the position and momentum at the end of burn-in, such that for every function of the position growing at most quadratically the expectation over the k-th sample after burn-in differs from the average over that distribution by at most a constant times rho^k, rho < 1; and for every function growing at most linearly the expected squared difference between the average over any n samples of one run and the average over the distribution is at most a constant over n. The distribution is the one that a step of SGHMC keeps.", "quantifier": "all costs with these gradients, distributions of minibatches, numbers and shapes of parameters, starts, burn-in phases, stepsizes below a bound, momentum decays, test functions, run lengths and choices of samples, all execution orders within a step", "why_tests_cant": "That every start leads to the same distribution is about all starts and the limit of infinitely long runs; a finite run that is stuck in one mode looks converged", "anchors": ["pysgmcmc/samplers/sghmc.py:SGHMCSampler", "pysgmcmc/samplers/base_classes.py:BurnInMCMCSampler.__next__"]}
{"id": "C131", "title": "SGHMC forgets where it started on mixtures of Gaussians", "statement": "For every mixture of Gaussians with positive variances and nonnegative weights, not all zero, in particular gmm1, gmm2 and gmm3: the log likelihood the package computes is a differentiable function ll, and SGHMC with cost -ll, 0 < mdecay <= 1 and a small constant stepsize after burn-in satisfies the conclusions of C130: the distribution of its samples approaches one limit geometrically fast, whichever mode it starts in, and averages over one run converge to averages over that limit.", "quantifier": "all mixtures, all starts, burn-in phases, momentum decays, stepsizes below a bound that depends on the mixture and the momentum decay, scale_grad, masses, test functions, run lengths and choices of samples", "why_tests_cant": "Moving between far modes can take longer than any test runs, so a test cannot tell a chain that forgets its start from one that does not", "anchors": ["pysgmcmc/diagnostics/objective_functions.py:gaussian_mixture_model_log_likelihood", "pysgmcmc/diagnostics/objective_functions.py:gmm1_log_likelihood", "pysgmcmc/diagnostics/objective_functions.py:gmm2_log_likelihood", "pysgmcmc/diagnostics/objective_functions.py:gmm3_log_likelihood", "pysgmcmc/samplers/sghmc.py:SGHMCSampler"]}
{"id": "C132", "title": "SGLD samples the posterior of costs that are not convex, up to an error that vanishes with the stepsize", "statement": "Let the cost, averaged over minibatches, be a sum of one function U_q per parameter entry, each with bounded second derivative and a force that pulls inwards at large distances; no U_q need be convex, and each may have many minima. Let minibatch gradients be unbiased and grow at most linearly. Let the stepsize after burn-in be constant and small. Then there is a constant K, which does not depend on stepsize, A, masses, start or run length, such that for every differentiable function with derivative at most one of one entry of the parameters, its expectation over the k-th sample after burn-in differs from its average over the density proportional to exp(-(scale_grad + 3e-16) * U_q) by at most a constant times rho^k, rho < 1, plus K times the square root of stepsize * A * mass; and the expected squared difference between the average over any n samples of one run and that average is at most a constant over n plus 2 K^2 * stepsize * A * mass.", "quantifier": "all such costs, distributions of minibatches, numbers and shapes of parameters, starts, burn-in phases, stepsizes below a bound, masses, test functions, run lengths and choices of samples, all execution orders within a step", "why_tests_cant": "That the limit is the posterior, and how far it is from it, cannot be seen in finitely many samples of a multimodal chain; the constant holds for all stepsizes at once", "anchors": ["pysgmcmc/samplers/sgld.py:SGLDSampler", "pysgmcmc/samplers/base_classes.py:BurnInMCMCSampler.__next__"]}
{"id": "C133", "title": "SGLD samples mixtures of Gaussians with all their modes", "statement": "For every mixture of Gaussians with positive variances and nonnegative weights, not all zero, in particular gmm1, gmm2 and gmm3: the log likelihood the package computes is a differentiable function ll, and SGLD with cost -ll and a small constant stepsize after burn-in satisfies the conclusions of C132 with the density proportional to exp((scale_grad + 3e-16) * ll): whichever mode it starts in, expectations and averages over one run approach those of the density up to a multiple of the square root of the stepsize.", "quantifier": "all mixtures, all starts, burn-in phases, stepsizes below a bound that depends on the mixture, scale_grad, masses, test functions, run lengths and choices of samples", "why_tests_cant": "Whether every mode gets its share of the samples is a statement about the limit of infinitely long runs, for every stepsize", "anchors": ["pysgmcmc/diagnostics/objective_functions.py:gaussian_mixture_model_log_likelihood", "pysgmcmc/diagnostics/objective_functions.py:gmm1_log_likelihood", "pysgmcmc/diagnostics/objective_functions.py:gmm2_log_likelihood", "pysgmcmc/diagnostics/objective_functions.py:gmm3_log_likelihood", "pysgmcmc/samplers/sgld.py:SGLDSampler"]}
{"id": "C134", "title": "SGHMC samples the posterior of costs that are not convex, up to an error that vanishes with the stepsize", "statement": "Let the cost and the minibatch gradients be as in C132. Let 0 < mdecay <= 1, let the stepsize e after burn-in be constant and small, and let the variance of the noise be above its floor 1e-16. Then there is a constant K, which does not depend on stepsize, masses, start or run length, such that for every differentiable function with derivative at most one of one entry of the parameters, its expectation over the k-th sample after burn-in differs from its average over the density proportional to exp(-scale_grad * U_q) by at most a constant times rho^k, rho < 1, plus K * (e * sqrt(m) + e^2 / m) with m the mass of that entry; and the expected squared difference between the average over any n samples of one run and that average is at most a constant over n plus twice the square of that error.", "quantifier": "all such costs, distributions of minibatches, numbers and shapes of parameters, starts, burn-in phases, momentum decays, stepsizes below a bound, masses, test functions, run lengths and choices of samples, all execution orders within a step", "why_tests_cant": "That the limit is the posterior, and how far it is from it, cannot be seen in finitely many samples of a multimodal chain; the constant holds for all stepsizes at once", "anchors": ["pysgmcmc/samplers/sghmc.py:SGHMCSampler", "pysgmcmc/samplers/base_classes.py:BurnInMCMCSampler.__next__"]}
{"id": "C135", "title": "SGHMC samples mixtures of Gaussians with all their modes", "statement": "For every mixture of Gaussians with positive variances and nonnegative weights, not all zero, in particular gmm1, gmm2 and gmm3: the log likelihood the package computes is a differentiable function ll, and SGHMC with cost -ll, 0 < mdecay <= 1 and a small constant stepsize after burn-in for which the noise is above its floor satisfies the conclusions of C134 with the density proportional to exp(scale_grad * ll), which is the mixture itself if scale_grad is one: whichever mode it starts in, expectations and averages over one run approach those of the density up to a multiple of the stepsize.", "quantifier": "all mixtures, all starts, burn-in phases, momentum decays, stepsizes below a bound that depends on the mixture and the momentum decay, scale_grad, masses, test functions, run lengths and choices of samples", "why_tests_cant": "Whether every mode gets its share of the samples is a statement about the limit of infinitely long runs, for every stepsize", "anchors": ["pysgmcmc/diagnostics/objective_functions.py:gaussian_mixture_model_log_likelihood", "pysgmcmc/diagnostics/objective_functions.py:gmm1_log_likelihood", "pysgmcmc/diagnostics/objective_functions.py:gmm2_log_likelihood", "pysgmcmc/diagnostics/objective_functions.py:gmm3_log_likelihood", "pysgmcmc/samplers/sghmc.py:SGHMCSampler"]}
{"id": "C136", "title": "Samplers and networks work in every floating point type", "statement": "With numbers for all numeric arguments, an SGHMC, SGLD or relativistic SGHMC sampler can be constructed for a list of parameters exactly if the dtype argument is a floating point type and the type of every parameter; the same holds for SVGD with at least two particles and a cost of that type. Samples then have the types of the parameters. The training graph of a BayesianNeuralNetwork with the default network is accepted exactly if its dtype is a floating point type and the type of all trainable variables of the graph.", "quantifier": "all element types (float16, float32, float64, int32, int64, bool) for dtype, cost and parameters, all lists of parameters, integers and floats as arguments", "why_tests_cant": "TensorFlow rejects an operation on tensors of different types only when the line that builds it runs; one constant without its dtype argument breaks all users of the other precision, and tests use one or two types.", "anchors": ["pysgmcmc/samplers/sghmc.py:SGHMCSampler.__init__", "pysgmcmc/samplers/sgld.py:SGLDSampler.__init__", "pysgmcmc/samplers/relativistic_sghmc.py:RelativisticSGHMCSampler.__init__", "pysgmcmc/samplers/svgd.py:SVGDSampler.__init__", "pysgmcmc/samplers/base_classes.py:MCMCSampler.__init__", "pysgmcmc/models/bayesian_neural_network.py:negative_log_likelihood", "pysgmcmc/models/bayesian_neural_network.py:get_default_net"]}
{"id": "C137", "title": "Distances and medians keep the precision of their input", "statement": "pdist, squareform and median return tensors of the type of their input for all floating point types, so that they can be combined with it.", "quantifier": "all floating point types, numbers of rows and elements", "why_tests_cant": "Types of results matter where they meet other tensors; a test of the values does not show them.", "anchors": ["pysgmcmc/tensor_utils.py:pdist", "pysgmcmc/tensor_utils.py:squareform", "pysgmcmc/tensor_utils.py:median"]}
{"id": "C138", "title": "SGLD samples posteriors whose parameters depend on each other, and the probability of any event, at a rate that does not degrade", "statement": "Let the cost U, averaged over minibatches, be continuously differentiable, in general neither convex nor a sum over parameter entries. Let minibatch gradients be unbiased, Lipschitz and of at most linear growth, and pull inwards on average at large distances; the gradient of one parameter tensor may depend on all entries of that tensor, but not on other tensors (see C142). Fix positive bounds for the masses. Then there are constants C, K and l > 0, none of which depends on stepsize, A, masses, start or run length, such that for every constant stepsize after burn-in with t = stepsize * A small enough, the expectation over the k-th sample after burn-in of every measurable function f with |f(x)| <= 1 + |x| differs from its average over the density proportional to exp(-(scale_grad + 3e-16) * U) by at most C * (1 + |x0|) * exp(-l * t * k) + K * sqrt(t), with x0 the position at the end of burn-in. In particular this bounds the error of the probability of any event. The expected squared difference between the average of f over any n samples of one run and the posterior average is at most 2 * C^2 * (1 + |x0|)^2 / (n * t) + 2 * K^2 * t.", "quantifier": "all such costs and laws of minibatches, numbers and shapes of parameters, starts, burn-in phases, stepsizes below a bound, masses within the given bounds, measurable test functions of at most linear growth and events, run lengths and choices of samples, all execution orders within a step", "why_tests_cant": "How the error depends on the stepsize and how long a run must be are statements about all stepsizes and all events at once; no finite set of runs on one target shows that the probabilities of all events are right, or that smaller stepsizes need no more than proportionally longer runs", "anchors": ["pysgmcmc/samplers/sgld.py:SGLDSampler", "pysgmcmc/samplers/base_classes.py:BurnInMCMCSampler.__next__"]}
{"id": "C139", "title": "SGHMC samples posteriors whose parameters depend on each other", "statement": "Let the cost and its minibatch gradients be as in C138: the averaged cost U is continuously differentiable, in general neither convex nor a sum over parameter entries; minibatch gradients are unbiased, Lipschitz, of at most linear growth, and pull inwards on average at large distances. Fix positive bounds for the masses and a momentum decay alpha in (0, 1]. Then there is a constant K, which does not depend on stepsize, masses, start or run length, such that for every constant stepsize e after burn-in that is small enough, and large enough for the noise variance to exceed its floor of 1e-16, the expectation over the k-th sample after burn-in of every 1-Lipschitz function f of all entries together approaches, geometrically fast in k and from every start, a number within K * e of the average of f over the density proportional to exp(-scale_grad * U). The expected squared difference between the average of f over any n samples of one run and that posterior average is at most a constant over n plus 2 * K^2 * e^2.", "quantifier": "all such costs and laws of minibatches, numbers and shapes of parameters, starts, burn-in phases, momentum decays, stepsizes in a range, masses within the given bounds, Lipschitz test functions, run lengths and choices of samples, all execution orders within a step", "why_tests_cant": "Whether the joint law of all parameters is right, and how its error depends on the stepsize, is a statement about all stepsizes and all functions of many dependent entries; finitely many samples on one target do not show it", "anchors": ["pysgmcmc/samplers/sghmc.py:SGHMCSampler", "pysgmcmc/samplers/base_classes.py:BurnInMCMCSampler.__next__"]}
{"id": "C140", "title": "SGHMC approaches the posterior at a rate proportional to the square of its stepsize", "statement": "Let the cost and its minibatch gradients be as in C139, and fix positive bounds for the masses and a momentum decay alpha in (0, 1]. Then there are constants C, K and l > 0, none of which depends on stepsize, masses, start or run length, such that for every constant stepsize e after burn-in that is small enough, and large enough for the noise variance to exceed its floor of 1e-16, the expectation over the k-th sample after burn-in of every 1-Lipschitz function f of all entries together differs from its average over the density proportional to exp(-scale_grad * U) by at most C * (1 + s) * exp(-l * e^2 * k) + K * e, where s is the sum of squares of positions and momenta at the end of burn-in. If f is also bounded by 1, the mean squared error of the average of f over any N samples of one run is at most C * (1 + s) / (N * e^2) + K * e.", "quantifier": "all such costs, parameter shapes, batch laws, bounds for the masses, stepsizes, starts, Lipschitz test functions, step numbers and sets of samples", "why_tests_cant": "How many steps a smaller stepsize needs is a statement about all stepsizes and numbers of steps together, with constants that no run shows.", "anchors": ["pysgmcmc/samplers/sghmc.py:SGHMCSampler", "pysgmcmc/samplers/base_classes.py:BurnInMCMCSampler.__next__"]}
{"id": "C141", "title": "Assigning to a parameter between steps moves the chain", "statement": "If the target parameters are changed between two steps - by assigning to the variables, or because a second sampler with the same target parameters made a step - the next step continues from the values they hold.", "quantifier": "every state of a sampler, every assigned value, every chain with assignments before any of its steps, every execution order", "why_tests_cant": "A test with an assignment sees a plausible sample afterwards: the samplers evaluate the gradient at the assigned value and only then discard it.", "anchors": ["pysgmcmc/samplers/sghmc.py:SGHMCSampler", "pysgmcmc/samplers/sgld.py:SGLDSampler", "pysgmcmc/samplers/relativistic_sghmc.py:RelativisticSGHMCSampler", "pysgmcmc/samplers/svgd.py:SVGDSampler", "pysgmcmc/samplers/base_classes.py:MCMCSampler"]}
{"id": "C142", "title": "SGLD samples posteriors of interdependent parameters whatever order the runtime executes a step in", "statement": "Let the cost and its minibatch gradients be as in C138, except that the gradient of every parameter may depend on all parameters; which of the others it sees already updated is then up to the order in which the runtime executes the operations of a step. Let the runtime choose that order anew in each step, as it likes, knowing everything but draws yet to come. Then there are constants C, K and l > 0, none of which depends on stepsize, A, masses, start, orders or run length, such that for every constant stepsize after burn-in with t = stepsize * A small enough, the expectation over the k-th sample after burn-in of every 1-Lipschitz function f of all entries together differs from its average over the density proportional to exp(-(scale_grad + 3e-16) * U) by at most C * (1 + |x0|^2) * exp(-l * t * k) + K * sqrt(t), with x0 the position at the end of burn-in. If f is also bounded by D, the expected squared difference between the average of f over any n samples of one run and the posterior average is at most D * (C * (1 + |x0|^2) / (n * t) + K * sqrt(t)).", "quantifier": "all such costs and laws of minibatches, numbers and shapes of parameters, starts, burn-in phases, stepsizes below a bound, masses within the given bounds, Lipschitz test functions, run lengths and choices of samples, all rules by which the runtime picks an order for each step without foreseeing draws", "why_tests_cant": "The order in which a graph is executed is not under a test's control and differs between machines; that no choice of orders biases the samples by more than the stepsize does is a statement about all of them.", "anchors": ["pysgmcmc/samplers/sgld.py:SGLDSampler", "pysgmcmc/samplers/base_classes.py:BurnInMCMCSampler.__next__"]}
{"id": "C143", "title": "Samplers follow the derivative of the cost the user wrote", "statement": "For every cost function that builds a graph of elementwise differentiable functions, sums, products, reductions and rearrangements of elements of the parameters, constants and batches: SGHMC and SGLD samplers move every parameter along the partial derivatives of that cost on the current batch, and relativistic SGHMC samplers along those of the negative cost. A sampler can be constructed exactly if the cost is computed from every one of its parameters; otherwise the constructor raises a ValueError, and does not return a sampler that leaves a parameter alone.", "quantifier": "all graphs of any size and depth, also with nodes used several times, all numbers and sizes of parameters, points, data, chains and execution orders", "why_tests_cant": "Whether the direction of a step is the derivative of the cost is a statement about all graphs and points; finite differences in a test check one of them up to rounding.", "anchors": ["pysgmcmc/samplers/sghmc.py:SGHMCSampler.__init__", "pysgmcmc/samplers/sgld.py:SGLDSampler.__init__", "pysgmcmc/samplers/relativistic_sghmc.py:RelativisticSGHMCSampler.__init__", "pysgmcmc/tensor_utils.py:vectorize"]}
{"id": "C144", "title": "SGHMC samples posteriors of interdependent parameters whatever order the runtime executes a step in", "statement": "Let the cost and its minibatch gradients be as in C140, except that the gradient of every parameter may depend on all parameters; which of the others it sees already updated is then up to the order in which the runtime executes the operations of a step. Let the runtime choose that order anew in each step, as it likes, knowing everything but draws yet to come. Then there are constants C, K and l > 0, none of which depends on stepsize, masses, start, orders or run length, such that for every constant stepsize e after burn-in that is below an explicit bound and large enough for the noise not to be clipped, the expectation over the k-th sample after burn-in of every 1-Lipschitz function f of all entries together differs from its average over the density proportional to exp(-scale_grad * U) by at most C * (1 + |x0|^2 + |v0|^2) * exp(-l * e^2 * k) + K * e, with x0 and v0 position and momentum at the end of burn-in. If f is also bounded by D, the expected squared difference between the average of f over any n samples of one run and the posterior average is at most D * (C * (1 + |x0|^2 + |v0|^2) / (n * e^2) + K * e).", "quantifier": "all such costs and laws of minibatches, numbers and shapes of parameters, starts, burn-in phases, stepsizes within the given bounds, masses within the given bounds, Lipschitz test functions, run lengths and choices of samples, all rules by which the runtime picks an order for each step without foreseeing draws", "why_tests_cant": "The order in which a graph is executed is not under a test's control and differs between machines; that no choice of orders biases the samples by more than the stepsize does is a statement about all of them.", "anchors": ["pysgmcmc/samplers/sghmc.py:SGHMCSampler", "pysgmcmc/samplers/base_classes.py:BurnInMCMCSampler.__next__"]}
{"id": "C145", "title": "Training a network follows the derivative of its cost", "statement": "For every network whose graph computes its output row by row through differentiable operations, every minibatch with as many labels as rows and every value of the variables: the node that training minimizes has the value of the negative log likelihood with its priors; the gradients that are computed by going backwards through the graph are numbers, and they are the partial derivatives of that cost with respect to every element of every trainable variable. The sampler can always be constructed, also if the network's output does not depend on some of its variables, because the weight prior makes the cost depend on all of them. All this holds for the default network, which therefore can be trained on every dataset without constant columns.", "quantifier": "all networks given as graphs of differentiable operations (and the default network for every input dimension), all minibatch sizes, batch sizes, dataset sizes, numbers of variables and their shapes, all real values of variables, inputs and labels", "why_tests_cant": "a test can compare a gradient with finite differences at a few points of one network; a wrong derivative of one operation, a variable left out of the prior or a term scaled wrongly on the way back only shows for other networks, sizes or points", "anchors": ["pysgmcmc/models/bayesian_neural_network.py:BayesianNeuralNetwork.negative_log_likelihood", "pysgmcmc/models/bayesian_neural_network.py:get_default_net", "pysgmcmc/models/bayesian_neural_network.py:log_variance_prior_log_like", "pysgmcmc/models/bayesian_neural_network.py:weight_prior_log_like", "pysgmcmc/samplers/sghmc.py:SGHMCSampler.__init__"]}
{"id": "C146", "title": "Every SVGD particle follows the derivative of the cost at its own position", "statement": "For every cost function that builds a graph of differentiable operations from one particle, every number of particles and every value of the particles: the cost that the sampler reports for a particle is the cost function's value at that particle; the gradient that the constructor obtains, by differentiating all the costs at once with respect to the stacked particles, is a matrix of numbers whose row for a particle consists of the partial derivatives of the cost function at that particle, independent of where the other particles are. There is no gradient, and the constructor fails, exactly if the cost is not computed from the particle or there are no particles. A run of the sampler with such a cost function on any stream of minibatches therefore follows the SVGD recurrence with these derivatives as long as the particles stay pairwise distinct.", "quantifier": "all cost graphs, all numbers and dimensions of particles, all particle values, all minibatch streams, all execution orders within a step", "why_tests_cant": "A test compares gradients at a few particles for one cost function; that the derivative of a sum over the stack separates into rows, whatever the cost graph is and however many particles there are, cannot be enumerated.", "anchors": ["pysgmcmc/samplers/svgd.py:SVGDSampler.__init__", "pysgmcmc/samplers/base_classes.py:MCMCSampler.__next__"]}
{"id": "C147", "title": "Samplers with a cost the user wrote sample its posterior, for instance that of linear regression", "statement": "Let the cost function build a graph of operations that are differentiable everywhere, from all parameters, let its derivatives on every minibatch be Lipschitz continuous, and let it pull inwards at large distances on average. Let minibatches be drawn independently from finitely many, with any probabilities, and let the runtime choose the execution order of each step without foreseeing draws. Then SGLD and SGHMC with a small constant stepsize after burn-in sample the density proportional to exp(-scale_grad * U) (SGLD: scale_grad + 3e-16), U being the mean of the cost over the minibatches, with the errors of C142 and C144: the gradients that the constructor derives from the cost are right and unbiased, and nothing else needs to be known about them. In particular this holds for the cost c * sum((X w + b - y)^2) + lam * (|w|^2 + b^2) of Bayesian linear regression on minibatches of rows of any dataset, for which U is that cost with the mean sum of squares, so that with uniform windows the posterior of the weights is sampled.", "quantifier": "all such cost graphs, in particular linear regression with any data, dimension, batch size and distribution of minibatches, all c >= 0 and lam > 0, all starts, burn-in phases, stepsizes below a bound, Lipschitz test functions, run lengths, rules for execution orders", "why_tests_cant": "A test can compare sample means of one regression problem with the known posterior up to a tolerance; it cannot show that the chain built from a user's cost function samples the right density for every dataset, batch size and runtime behaviour.", "anchors": ["pysgmcmc/samplers/sgld.py:SGLDSampler.__init__", "pysgmcmc/samplers/sghmc.py:SGHMCSampler.__init__", "pysgmcmc/samplers/base_classes.py:BurnInMCMCSampler.__next__", "pysgmcmc/data_batches.py:generate_batches"]}
{"id": "C148", "title": "Runs of relativistic SGHMC obey the speed limit and stay finite in floating point arithmetic", "statement": "In float32 and float64 arithmetic, with every operation rounded: as long as stepsizes are in [0, 1], gradients and normal draws are of moderate size, the friction is at most 1 and the noise estimate between 0 and twice the friction, parameters and momenta of relativistic SGHMC are numbers after every step. The momentum grows at most linearly in the number of steps, and a parameter is never further from its start than twice the distance light travels in the elapsed time (the sum of the stepsizes), up to a few units in the last place and the underflow threshold, whatever the gradients and the noise were.", "quantifier": "all input histories of moderate size, up to 1/(64u) steps, all masses and speeds of light whose squares stay in range, all start values that leave room to the largest number", "why_tests_cant": "Overflow and NaN depend on the whole history of rounded operations; tests run a few steps of one chain.", "anchors": ["pysgmcmc/samplers/relativistic_sghmc.py:RelativisticSGHMCSampler.__init__", "pysgmcmc/samplers/base_classes.py:MCMCSampler.__next__"]}
{"id": "C149", "title": "The likelihood of a Bayesian neural network and its gradient are numbers in floating point arithmetic", "statement": "In float32 and float64 arithmetic, with every operation rounded: for every predicted log variance and every predicted mean whose distance to the label is moderate, the log likelihood of the label and the gradients of it that tf.gradients computes for the predicted mean and the predicted log variance are numbers, so that training does not turn into NaN.", "quantifier": "every adequate binary format, every label, predicted mean at distance up to 2^e (e = 9 for float32, 457 for float64), every log variance and every incoming gradient of size at most 1", "why_tests_cant": "exp overflows only for log variances above 88 (float32) or 709 (float64), which short tests never reach; whether the guard 1e-16 suffices depends on the rounding of every operation.", "anchors": ["pysgmcmc/models/bayesian_neural_network.py:BayesianNeuralNetwork.negative_log_likelihood", "pysgmcmc/models/bayesian_neural_network.py:BayesianNeuralNetwork.train"]}
{"id": "C150", "title": "The SVGD kernel matrix is a proper kernel matrix in floating point arithmetic", "statement": "In float32 and float64 arithmetic, with every operation rounded: for pairwise distinct particles the bandwidth is a positive number, every entry of the kernel matrix is a number between 0 and 1 even where squared distances or exponents overflow, the diagonal is exactly 1, and particles further apart never have the larger entry. The update direction of every coordinate is a number as long as positions and gradients are of moderate size and the bandwidth is not tiny, in whatever order the runtime adds.", "quantifier": "every number of particles below 2^24 (float32) or 2^53 (float64), every particle configuration", "why_tests_cant": "Underflow and overflow depend on the scale of the distances; tests use a few particles of moderate size.", "anchors": ["pysgmcmc/samplers/svgd.py:SVGDSampler.svgd_kernel", "pysgmcmc/samplers/svgd.py:SVGDSampler.__init__", "pysgmcmc/tensor_utils.py:median"]}
