# Formal model of pysgmcmc in Lean 4 — design

Source: `/repo` (MFreidank/pysgmcmc, pinned).  Properties: `properties.jsonl`.
Claims and theorem names: `MANIFEST.json`.  Lean sources: `lean/Verif/`.

## 1. Shape of the development

* `Verif/Py/*`      – the bits of Python/numpy/TensorFlow semantics the code relies on
  (exceptions as values, slices, dictionaries, iterators/`islice`, idealised IEEE numbers, RNG contract).
* `Verif/Model/*`   – the model, one file per source file, one definition per function, each citing file and lines.
* `Verif/Spec/*`    – small independent specifications used in theorem statements.
* `Verif/Props/*`   – the property theorems (`Cnn_…`) with a non-vacuity `example` beside each.
* helper lemmas live in `Verif/Lemmas/*` or, when short, directly above the theorem they serve.

### Numbers
Floating point is modelled by `Fl` = ℝ ∪ {+∞, −∞, NaN}: exact real arithmetic with the IEEE rules for
infinities and NaN (division by zero, sqrt/log of negatives, 0·∞, ∞−∞ …).  In this main model there is no rounding,
overflow, underflow or signed zero.  So "no NaN / no division by zero" is a real theorem of the model.

A second layer adds rounding.  `Py/Round` defines binary floating point formats (precision, exponent range; `float16`,
`float32`, `float64` are instances) and `Rounding f`: any function that rounds to nearest (ties as it likes, but
symmetric), overflows to ±∞ at IEEE's threshold and underflows gradually.  `Arith` has the arithmetic operations, each
rounded once.  `Model/Rounded` writes the scalar formulas of the code once more over an arbitrary `Arith`, with the
operations in the order of the source.  `Props/RoundedLink` proves that with exact arithmetic these are the
definitions of the main model, so that the two layers cannot drift apart.  C110 and later theorems about rounding hold
for every format and every `Rounding`.  Simplifications: a Python literal is converted by one rounding; an integer
power, `exp` and `log` are correctly rounded; there is one zero; no operations are fused, reordered or flushed to zero; means, sums and
gradients are inputs, since the order of their summation is TensorFlow's or numpy's.

### Exceptions
Python exceptions are values (`Except PyErr α`); operations that may fail half way return the state reached.

### Randomness
`numpy.random.RandomState` is an abstract state machine (`RNG`) with the contract "randint(0,n) < n";
every theorem is for all such machines.  Normal draws, initial parameter values and gradients are arbitrary inputs.

### TensorFlow
A session run is modelled as a state transition on the sampler's variables.  Ordering constraints are exactly
the control/data dependencies in the source; where the runtime is free the model takes a schedule argument
and theorems quantify over it.

## 2. Plan per property

| id | what is modelled | how proved |
|----|------------------|------------|
| C01–C04 | `generate_batches` as a lazily started generator over a two-array heap; batches are views | induction on the number of `next` calls; counting lemma for windows |
| C05–C06 | `generate_shuffled_batches` with in-place Fisher–Yates through views | permutation invariant on zipped heap; C06 is false → witness + what remains true |
| C07 | seed choice with numpy's global RNG in the state | frame argument |
| C08 | `ConstantStepsizeSchedule` object | induction over op sequences |
| C09–C12,C14–C16 | `MCMCSampler`/`BurnInMCMCSampler.__next__` over abstract batch source, schedule and session | invariants over histories with failures |
| C13 | the above + SGHMC/SGLD graph | false → witness |
| C17–C19 | signatures as tables, `get_sampler` keyword resolution | characterisation for all kwargs |
| C20 | constructor argument plumbing of the four samplers | case analysis; SGLD false → witness |
| C21–C27 | tensor utils on shaped tensors / `Fl` | list induction, order statistics, triangular index arithmetic |
| C28,C33 | variable store with initialisation flags and initializer schedules | case analysis over schedules, invariant |
| C29–C32,C34 | SGHMC/SGLD per-coordinate graph as a set of assign ops with dependencies | inductive invariant over gradient histories; linear-extension independence |
| C35–C40 | relativistic SGHMC, seeds, multi-parameter races | real analysis, counterexamples |
| C41–C45 | SVGD kernel and update | real analysis on the matrix model; C42, C44 false → witness |
| C46–C52 | `PYSGMCMCTrace`, `pymc3_multitrace` | list reasoning; several documented promises false → witness |
| C53–C56 | `base_model.py` | columnwise statistics over ℝ |
| C57–C67 | `BayesianNeuralNetwork` state machine | loop invariant for `train`; algebra for `predict` |
| C68–C71, C76–C78 | objective functions over ℝ | polynomial/trigonometric inequalities, Gaussian integral |
| C72–C75 | constructor checks; returned cost; noise seeds; failed retraining | case analysis; schedules; false ones → witness |
| C88–C91 | whole chains of all four samplers from construction, over any batch source and schedule | `Lemmas/Script` turns N `next` calls into N graph runs; induction against the recurrences in `Spec/FullChain` |
| C92 | the orders of a shuffled batch: bijection between draw sequences and orders | induction on Fisher–Yates; `Set.ncard` of the draw sequences |
| C93–C94 | distribution of SGLD and SGHMC samples on a sum of quadratics, as random variables over any probability space with independent standard normal draws | C88/C89 give the chain; the linear recurrence is solved; Mathlib's Gaussian measures and Lévy's theorem; a Lyapunov form for SGHMC |
| C95 | training and prediction of a BNN end to end (`Model/BNNSystem.lean` instantiates the outside world of `train` with the modelled batch generator, sampler construction and SGHMC sampler; left open: the network function, TensorFlow's gradient of its cost, initial values, normal draws, runtime order, numpy's generator) | composition of C01, C53, C58, C61, C64, C65, C67, C86 and C88; every network differentiable in each weight meets the assumptions (`realSetup_regular`) |
| C96 | burn-in statistics as weighted averages, their limits, and the frozen inverse mass of a whole chain | induction on the gradient history with explicit weights; rates of at least 1/(N+2) |
| C97 | SVGD kernel matrix positive semidefinite, kernel gradients are derivatives of the kernel | power series of exp and expansion of powers of inner products; calculus |
| C98 | chains recorded from samplers that were stepped before: what the second initializer run resets and what it keeps | whole-chain lemmas from an arbitrary state; witness on a linear cost |
| C99 | initializers run again after construction: which value the working copies get, and the chain from there | fold invariants over all initialization orders; whole-chain theorems from separate start values of parameters and working copies; witnesses |
| C100–C102 | `get_incumbent` and `update` on a BNN (the class has no such methods; in a class that takes them from `BaseModel` the stored data are normalized); which variables a retraining in the same graph samples | reduction to C55; induction over updates and trainings; closed form of the graph growth; witnesses |
| C103 | one SGLD step leaves the posterior of any smooth cost invariant up to `K ε√ε` | `Lemmas/Recipe`, `Lemmas/WeakError` (Taylor, integration by parts); `Lemmas/Mixed` for the execution orders |
| C104 | the same for relativistic SGHMC, jointly for parameters and momenta | `Lemmas/Kinetic` (energies with momenta); the velocity is the derivative of `-logPdf` and 1/m-Lipschitz |
| C105 | the same for SGHMC: its resting point keeps the posterior up to `K (1+W) ε³` | `SGHMC.order_grad`, `Invariance.rest_step`; the resting point moves by gradient and noise only |
| C106 | partial: minibatch gradients average to a weighted loss, `1/N` weights iff `b = 1` or `b = N` | double counting of windows (`sum_windows`); C103 with the uniform law on the windows |
| C107 | averages over batch `n` of `generate_shuffled_batches` tend to averages over the dataset; the first batch has the weights of C106 | `Lemmas/WindowMixing` (window means are projections, so the energy of the weights decreases until neighbours agree); draws are averaged exactly (`avgDraws`, `avgSteps`), uniform and independent draws are an idealisation of `RandomState` |
| C108 | partial: `N ×` average minibatch cost = powers × minus log likelihoods + priors; powers 1 iff `b = 1` or `b = N`; the target is proper | `BNNPosterior.scaled_windowLoss`, `row_bound` (the log-variance prior pays for `lv/2`), `Lemmas/QuadraticMoments` |
| C109 | one SGLD or SGHMC training step keeps that density up to the step-size error, default network included | `C103_sgld_polynomial`, `C105_sghmc_polynomial` (gradients of polynomial growth, `Lemmas/MixedPoly`), `Lemmas/Temperate` (`tanh` networks have temperate growth), `Model/BNNDefault` |
| C110–C113 | scalar formulas of `tensor_utils`, `base_model` and relativistic SGHMC with every operation rounded (`Model/Rounded`) | monotonicity and error bounds of round-to-nearest (`Py/Round`); C110 false for `float16` → witness |
| C114–C115 | whole runs of SGHMC and SGLD, per element, with every operation rounded (`Model/Rounded`) | invariant of the statistics under rounding errors (weighted Cauchy–Schwarz, drift of the window); growth bounds by induction on the steps |
| C116 | the update of one coordinate of a particle in SVGD with every operation rounded (`Model/Rounded`) | lower bound of the rounded history through underflow and overflow; monotone rounding between multiples of a power of two |
| C117 | `np.mean`, `np.std` and standardization of a column with every operation rounded and any tree of additions (`Model/Rounded.SumTree`) | induction over the tree: monotone rounding at multiples of a power of two, relative error of a sum; lower bound of the rounded root |
| C118 | mean and variance of `predict` for one row, likewise | as C117, error of squares and of the mean combined |
| C119 | a whole SGLD chain, draws jointly independent standard normal after burn-in | contraction of a gradient step in the mass norm (strong monotonicity, cocoercivity); the draws of a step are independent of the σ-algebra of earlier draws; induction over the steps |
| C120 | a whole SGHMC chain, likewise | contraction of resting point and momentum together, then as C119 |
| C121 | training and prediction of a BNN with SGLD (`Model/BNNSystemSGLD.lean`) | as C95, with C87 and the SGLD half of C99 |
| C122 | `train` / `predict` on arrays of any shape; label vectors of the wrong length; empty data | case analysis of shapes; failure of the first batch propagated through sampler and `train`; NaN propagation through a whole run |
| C123 | a whole SGLD chain with random minibatches and draws after burn-in, against the density `exp (-(scale + 3e-16) U)` | `Lemmas/Langevin` (one step moves the target by `O(ε√ε)` for functions with Lipschitz derivative: Taylor and integration by parts), `Lemmas/Ergodic` (derivatives of expectations contract along the chain; sum of one-step errors), `Lemmas/Convergence` (coordinates scaled by the masses, moments from strong convexity) |
| C124 | `get_json_data` and numpy's `tolist` (`Model/BaseModel`) | induction over the shape; injectivity by chunks |
| C125 | a whole SGHMC chain with random minibatches and draws after burn-in, against the density `exp (-scale U)` | `Lemmas/Underdamped` and `Lemmas/MomentumInvariant` (position and momentum are driven by one pair of normal vectors; the joint law of position and an independent normal momentum moves by `O(ε³)`), `Lemmas/GaussPair`, `Lemmas/MomentumStep` (contraction in `(x + (1-α)v/α, (1-α)v/α)`), `Lemmas/MomentumConvergence` |
| C126 | a whole SGLD chain with random minibatches and draws after burn-in; any choice of its samples | `Lemmas/TimeAverage` (the variance of a sum along a chain of contractions, conditioning on the past step by step, without covariances), `Lemmas/TimeAverageConvex` (size of one step, summing the error of C123 over the samples) |
| C127 | the same for SGHMC | the same in the coordinates of C125 |
| C128 | a whole SGLD chain with random minibatches and draws after burn-in, for costs that need not be convex | `Lemmas/Harris` (Harris' theorem: a drift condition and a minorization on a sublevel set give contraction of a weighted oscillation; the limit law is built from integrals of bounded functions), `Lemmas/HarrisAverage` (covariances of a chain decay geometrically), `Lemmas/HarrisForgets` (what follows for one run), `Lemmas/Confining` (the Gaussian noise of a Langevin step minorizes Lebesgue measure on a cube, the squared norm drifts down) |
| C129 | SGLD on the mixtures of `objective_functions.py` | the derivative of the negative log density is a weighted mean of `(x - μ) / v`, hence confining; C128 |
| C130 | a whole SGHMC chain with random minibatches and draws after burn-in, for costs that need not be convex | `Lemmas/ConfiningMomentum` (the position plus a multiple of the momentum makes a Langevin step, the momentum contracts; two steps together minorize Lebesgue measure on a sheared cube), `Lemmas/HarrisForgets` (Harris' theorem for a minorization of two steps) |
| C131 | SGHMC on the mixtures of `objective_functions.py` | the gradients of C129; C130 |
| C132 | a whole SGLD chain with random minibatches and draws after burn-in, for costs that are sums over the parameters and need not be convex | `Lemmas/Stein` (Stein's equation `g' - s g = φ - ∫ φ` on the line has a solution with bounded derivatives), `Lemmas/SteinBias` (Taylor expansion of the primitive of `g` along one stationary step), `Lemmas/SteinSteps` (second moments of the stationary law), C128 |
| C133 | SGLD on the mixtures of `objective_functions.py` | the second derivative of the negative log density is bounded: components with a smaller variance than the largest are negligible in the tails; C132 |
| C134 | a whole SGHMC chain with random minibatches and draws after burn-in, for costs that are sums over the parameters and need not be convex | `Lemmas/SteinMomentum` (the position plus a multiple of the momentum makes a Langevin step with the gradient at a nearby point; balances of second moments bound both), Stein's equation as in C132, C130 |
| C135 | SGHMC on the mixtures of `objective_functions.py` | the gradients of C133; C134 |
| C136 | element types of all graphs | every definition maps the types of the inputs to the type of the result; TensorFlow never converts tensors; induction over the parameters |
| C137 | element types of `pdist`, `squareform`, `median` | as C136; the list of distances is empty for one row only |
| C138 | a whole SGLD chain with random minibatches and draws after burn-in, for costs that are neither convex nor sums over entries | `Lemmas/Shift` and `Lemmas/Harnack` (a Harnack inequality for the discretized chain: two runs are coupled by shifting the draws, Cauchy-Schwarz pays for the shift; it bounds differences of averages over one unit of time uniformly in the stepsize), `Lemmas/HarrisPairs` (Harris's theorem from overlap of laws after some steps), `Lemmas/Balance` (a step with the full gradient nearly satisfies detailed balance: the defect is a trapezoid rule along the step), `Lemmas/BatchShift` (the noise of minibatches shifts a step; its mean is zero), `Lemmas/SgldUniform`, `Lemmas/SgldCoupled` (smoothing turns the defect of a step into an error of the order of the square root of the stepsize over one unit of time), `Lemmas/SgldError` (errors of units of time add up geometrically), C89 |
| C139 | a whole SGHMC chain with random minibatches and draws after burn-in, for costs that are neither convex nor sums over entries | `Lemmas/SghmcCoupled` (position plus (1 - alpha) / alpha times momentum makes a step of SGLD with the gradient at a nearby point; under the stationary law momenta are of the order of the stepsize, so that steps of SGLD nearly preserve it), `Lemmas/NearlyStationary` (a law that steps of SGLD nearly preserve is near their stationary law, by the smoothing and mixing of C138), C130, C138 |
| C140 | the same chain as C139, now with constants that do not depend on the stepsize | `Lemmas/SghmcUniform` (the difference between N steps of SGHMC and N steps of SGLD is a telescoping sum; averages of a Lipschitz function over j steps of SGLD vary ever more slowly with j; energies of positions and momenta along a run are bounded uniformly; covariances of bounded functions by the Markov property) |
| C141 | assignments to target parameters between steps (`Model/Assign.lean`), all samplers | one step written as an update of the copy (`run_par`), induction over chains with assignments before any step; the speed limit C35 |
| C142 | a whole SGLD chain whose parameters depend on each other, executed in random orders that do not foresee draws | `Chain.sgld_restart_sees` (which parameters each gradient sees updated, for every order), `settle` (the order determines the gradients, measurably), `Lemmas/SgldOrders` (a process that stays within a multiple of the stepsize times its own step of an SGLD step has nearly the law of SGLD, by telescoping over the steps and the smoothing of C138) |
| C143 | `tf.gradients` on graphs of tensors and its use in the samplers (`Model/Gradients.lean`) | the sum over all nodes of what arrived times the derivative is an invariant of the backward pass (`back_pair`), induction over the graph; `None` exactly for parameters that are not reached (`back_isSome`); the chains C88 and C89 for the problem a graph poses |
| C144 | a whole SGHMC chain whose parameters depend on each other, executed in random orders that do not foresee draws | `Chain.sghmc_restart_sees`, `settle`, `Lemmas/SghmcOrders` (the error of a step is a multiple of the step's own momentum; a Lyapunov function that adds the energy of the momentum, weighted with 1/stepsize, absorbs it; then C140's smoothing and telescoping) |
| C145 | the graph of `negative_log_likelihood` and of `get_default_net`, node by node (`Model/BNNCostGraph.lean`) | values of the nodes are those of `Model/BNNCost` by computation, induction over the loop of the weight prior; every node differentiable (`cost_sound`, `dense_sound`); C143; `regular_of_graph` derives what C95, C108 and C109 assume of TensorFlow's gradients |
| C146 | the graph of `tf.map_fn(cost_fun, particles)` and the gradient of all costs with respect to the stack (`Model/SVGDGraph.lean`) | induction over the particles: the values, soundness and uses of the stacked graph are those of the copies; C143 for the stacked graph; the derivative of a sum of functions of single rows; C91 for the chain |
| C147 | cost graphs of `Model/Gradients.lean` on minibatches from a finite collection; the graph of linear regression (`Props/GraphPosterior.lean`) | `Samplable` gives what C142 and C144 assume: finite averages commute with derivatives (unbiasedness), Lipschitz derivatives give growth and continuity; for regression the derivatives are computed from the value of the graph |
| C148 | whole runs of relativistic SGHMC, per parameter, with every operation rounded (`Model/Rounded`) | single-step bounds of C113; nearest rounding of a sum is at most twice the displacement away, so positions accumulate no relative error; growth bound of the momentum by induction |
| C149 | the likelihood of one label with every operation rounded, forwards and backwards (`Model/Rounded`: registered gradients of `Mul`, `Neg`, `Square`, `Sub`, `RealDiv`, `Exp`) | rounding is monotone and exact on powers of two; the error of the quotient times the variance is bounded by underflow times the largest number; false once `exp` overflows → `_partial` and witness |
| C150 | bandwidth, kernel entries, kernel gradients and `grad_theta` of SVGD with every operation rounded, additions in any order (`Model/Rounded`); Euclidean distances are inputs | monotonicity of rounding; error bounds along the root and the square; false where squared distances underflow → `_partial` and witness |
| C79 and later | appended as the model grows, see `properties.jsonl` | see `MANIFEST.json` |

A property that is false of the code is kept in `properties.jsonl` with its full statement.  The manifest lists it as
`partial`: a theorem `…_violated` proves that the code breaks it, theorems `…_partial` prove what is true instead.

## 3. Trusted base

* Lean's kernel (4.33.0) and Mathlib as installed.  Every theorem depends at most on the axioms `propext`,
  `Classical.choice` and `Quot.sound`.  There is no `sorry`, no axiom of our own, no `native_decide`, no `bv_decide`.
* The faithfulness of the model to `/repo`, definition by definition.  Each definition cites the lines it models.
* The following statements about the environment of the code, which are built into `Verif/Py` and `Verif/Model`:
  * numbers: exact arithmetic with IEEE special values (no rounding, overflow, underflow, signed zero), except in the
    theorems of `Props/Rounded*`, where every scalar operation rounds to nearest (see section 1);
  * numpy: basic slices are views; `RandomState(seed)` and `shuffle` are deterministic functions of the seed;
    draws lie in the documented ranges (any state machine with these ranges is allowed);
  * Python: `islice`, `enumerate`, `zip`, `dict.update`, `deque(maxlen)`, extended slices, generators that run to the
    first `yield` only when `next` is called;
  * TensorFlow 1: a session run executes each needed node once in an order that respects data and control
    dependencies; reading a variable sees its value when the reading node runs; feeding a tensor replaces its value and
    cuts the nodes behind it; `initialized_value()` is a conditional; op-level seeds as in `random_seed.get_seed`;
    `session.run` validates feeds before it executes anything;
  * pymc3: `MultiTrace` rejects duplicate chain ids; ARSpy's rejection sampler returns the requested number of values.

## 4. Modelled / not modelled

### Modelled (source file → module)

| source | model | what is left out |
|--------|-------|------------------|
| `data_batches.py` | `Model/DataBatches` | logging; arrays with more than one label column |
| `stepsize_schedules.py` | `Model/Schedules` | the abstract base class has no behaviour; `format` of a value is a parameter |
| `sampling.py` | `Model/Sampling` | the imports themselves; signatures are tables copied from the constructors |
| `tensor_utils.py` | `Model/TensorUtils`, `Model/Dtypes` | unknown static shapes; `median`, `pdist`, `squareform` on non-finite entries |
| `samplers/base_classes.py` | `Model/SamplerBase`, `Model/SamplerInit`, `Model/Seeds` | device placement, name scopes |
| `samplers/sghmc.py`, `samplers/sgld.py` | `Model/BurnInStats`, `Model/SGHMC`, `Model/SGLD`, `Model/Chain` | gradients are inputs, `Model/Gradients` computes them from the graph of the cost (without `tf.stop_gradient` and control flow); a gradient or cost node reads all its variables at one moment |
| `samplers/relativistic_sghmc.py` | `Model/Relativistic`, `Model/PlainChain` | the external rejection sampler (its log density is modelled) |
| `samplers/svgd.py` | `Model/SVGD`, `Model/PlainChain`, `Model/SVGDGraph` | `_duplicate_variables` (unused); kernel values at non-finite positions are unspecified |
| `diagnostics/sample_chains.py` | `Model/SampleChains`, `Model/MultiTrace` | the `np.asarray` around returned lists; pymc3 beyond the constructor of `MultiTrace` |
| `diagnostics/sampler_diagnostics.py` | `Model/SamplerDiagnostics` | pymc3's formulas (a diagnostic is any function of the traces) |
| `docs/source/experiments/compute_ess.py` | `Model/ComputeEss` | argparse, writing the output file, pymc3's formula, float rounding of `np.arange` |
| `diagnostics/objective_functions.py` | `Model/Objectives` | rounding |
| element types (`dtype`) of `tensor_utils.py`, all samplers and the network | `Model/Dtypes` | complex, quantized, `bfloat16` and small integer types; which of `TypeError` and `ValueError` is raised |
| `models/base_model.py` | `Model/BaseModel` | writing the dictionary as JSON text (no code of the package does it) |
| `models/bayesian_neural_network.py` | `Model/BNN`, `Model/BNNCost`, `Model/BNNSampler`, `Model/BNNSystem`, `Model/BNNSystemSGLD`, `Model/BNNGraph` (trainable variables and variable names of the graph; retraining), `Model/BNNCostGraph` (the graph of the cost and its gradients) | log messages; `_set_up_train_graph` (never called); random initial weights are inputs |

### Not modelled

`setup.py`, `docs/source/conf.py`, `__init__.py` files, `pysgmcmc/tests`, logging, wall clock times, rounding of gradients, memory and speed,
`pysgmcmc/diagnostics/model_diagnostics.py` (a comment only).

### Where the code breaks a property a user relies on

Each item is proved for the model (theorem names in `MANIFEST.json`).

* C06 `generate_shuffled_batches` reorders the caller's arrays.
* C13 with `burn_in_steps=0` the mass matrix keeps adapting.
* C14, C50, C67 samples of a single parameter change their form at the end of burn-in; traces and BNNs then fail.
* C15 after burn-in a caller's `feed_dict` is dropped.
* C18 `get_sampler(…, self=…)` is accepted.
* C19 two of the four enum members are reported as unsupported.
* C20 SGLD ignores the given stepsize schedule.
* C37 relativistic SGHMC only works for parameters with one element.
* C38 a seed gives all parameters of equal size the same noise.
* C40, C73 results depend on the order in which the runtime executes unordered nodes.
* C42 the kernel gradient of SVGD attracts instead of repelling.
* C44 SVGD rejects one particle and one-dimensional particles.
* C49 `keep_every` is ignored.
* C51 slicing a trace fails or mixes up names.
* C59 too few iterations give fewer networks (possibly none) without an error.
* C63 the predictive variance ignores the networks' noise estimate.
* C64 short minibatches are divided by `batch_size`.
* C75 a failed retraining loses or breaks the previous predictions.
* C82 `--keep-every` of the ESS experiment has no effect.
* C87 a network trained with SGLD ignores its `stepsize_schedule`.
* C98 `pymc3_multitrace` throws away the burn-in of the samplers it is given: momenta and running averages are reset, and the parameters too if the runtime initializes them before the sampler's working copies.
* C99 running `tf.global_variables_initializer()` after a sampler was constructed (documented examples, `BayesianNeuralNetwork.train`) races: the initializer of a working copy reads the parameter while it is being re-initialized, so with random initial values the chain may go on from the values drawn first while the first gradient is taken at those drawn second.
* C141 SGHMC, SGLD and relativistic SGHMC ignore values assigned to their parameters between steps: they continue from their own vectorized copy and overwrite the parameter with it. Two such samplers on the same parameters do not see each other's progress.
* C100 `BayesianNeuralNetwork` does not derive from `BaseModel` and has no `get_incumbent`; in a class deriving from both, it answers in normalized units (`train` stores the normalized data); with constant labels it returns the value NaN.
* C101 `BayesianNeuralNetwork` has no `update` either; in a class deriving from both, it concatenates raw new data to normalized old data.
* C102 `train` called again in the same graph samples stale variables as well: all trainable variables are sampled, among them the working copies of earlier samplers, so the number of sampled variables grows like 2^k; the default network, whose variables are named, cannot be trained twice in a graph at all.
* C106 `generate_batches` draws contiguous windows: rows near the ends of the dataset are drawn less often (the first and last row up to `b` times), so samplers target a reweighted posterior unless `b = 1` or `b = N`.
* C108 training a `BayesianNeuralNetwork` targets a density in which the likelihood of row `i` is raised to a power: `N` times its weight in C106, and `N / batch_size` for all rows if `batch_size` exceeds the number of rows.
* C110 in `float16` the constant 1e-16 of `safe_divide` is zero, so the division is not guarded.
* C122 training on an empty data set succeeds with SGHMC; all stored networks are NaN.
* C137 `pdist` of a single point is of type `float32`, also for `float64` input.
* C149 once the exponential of a predicted log variance overflows (above 88.7 in `float32`, 709.8 in `float64`), the gradient of the training cost is NaN although the cost is an ordinary number; the network's parameters are NaN from then on.
* C150 distinct SVGD particles whose squared distances underflow (closer than 2.6e-23 in `float32`) have a kernel matrix of NaN.
