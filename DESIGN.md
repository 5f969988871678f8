# Formal model of minaskar/pocomc — design

Lean 4.33.0 + Mathlib (single modules imported). Project in `lean/`, built with `lake build`.

## 1. Trusted base

* Lean's kernel. Axioms used by the theorems: at most `propext`, `Classical.choice`, `Quot.sound`
  (the three standard ones). No `sorry`, `admit`, own axioms, `native_decide`, `bv_decide`.
* The reading of the Python source: each definition under `lean/Verif/Model/` cites the file and lines it models.
  Nothing here runs the code; the tie to `/repo` is that reading.
* What numpy/scipy/torch calls mean. They are modelled by their documented meaning (see section 3).

## 2. Layout

| directory | content |
|---|---|
| `Verif/Model/` | the model: definitions only, one file per Python file, each citing its source lines |
| `Verif/Spec/` | small independent specifications used in theorem statements |
| `Verif/Lemmas/` | helper lemmas |
| `Verif/Props/` | the property theorems (one section per property id) with a satisfiability example beside each |

## 3. Modelling decisions

* **Floats.** `F = nan | -inf | +inf | fin r` with `r : ℝ`: IEEE special values with numpy's rules, but *exact* finite
  arithmetic. Rounding is modelled only for the claims listed in section 4. Not modelled: overflow of finite results, signed zeros.
* **Randomness.** Every `np.random` draw is an explicit argument (an oracle). Theorems quantify over all oracles
  (uniforms constrained to [0,1)). `Model/Stream.lean` repeats the run with global generators whose state is passed from
  call to call, and C116 says that every such run is one with oracles. Distributional claims are stated with Lebesgue measure over the uniform, or with densities.
* **Exceptions.** `Except PyErr`; `while True` loops either have a proved termination measure or a fuel argument
  with `.diverged` on exhaustion; termination theorems say that enough fuel exists.
* **User code.** likelihood: an arbitrary function from points to `LikeOut` (scalar, or tuple with blobs); prior: arbitrary
  `logpdf`/`rvs`; both assumed deterministic functions of the point. Flow: arbitrary functions `fwd`, `inv` with log-Jacobians; training returns an
  arbitrary new flow (oracle); invertibility is assumed only where a theorem says so.
* **Mutable arrays.** A function that mutates its argument in place returns the new array too
  (e.g. `effective_sample_size`). Elsewhere arrays are values; `Model/Memory.lean` repeats the run with
  references and views, and C112 says for which likelihood functions the two agree.
* **Points.** A row of an `(n, n_dim)` array is `Fin d → F`. Batches are lists.

## 4. What is modelled and what is not

Modelled, by file of `/repo/pocomc`:

| file | modelled in | scope |
|---|---|---|
| `tools.py` | Model/Tools, Model/Double and Model/DoubleTools (with rounding), Model/LogLike, Model/Flow | trimming, ESS, USS, evidence increments, systematic resampling, FunctionWrapper, flow wrapper |
| `particles.py` | Model/Particles, Model/DoubleLogw (with rounding) | the store, its `pop`, weights and evidence, results cache |
| `scaler.py`, `input_validation.py` | Model/Scaler, Model/ScalerFull, Model/ScalerArgs, Model/DoubleScaler (with rounding) | all transforms, masks, boundary conditions, fit, interval check |
| `prior.py` | Model/Prior | log-density, bounds, dimension, sampling by column |
| `mcmc.py` | Model/Mcmc, Model/Blobs (types of blob arrays), Model/DoubleMcmc (accept/reject with rounding) | the four kernels, one step and the loop |
| `student.py`, `geometry.py` | Model/Geometry | start values, EM loop, degrees of freedom, normal and t geometry; the solver is the matrix inverse |
| `parallel.py` | Model/Pool | MPIPool master and workers as a transition system |
| `flow.py` | Model/Flow | width, data split, batching, loss, noise scale, regularisation, early stopping |
| `sampler.py` | Model/Config, Model/Sampler, Model/Failure, Model/Search, Model/Posterior, Model/LogLike, Model/Files, Model/Stream | constructor, run (also with the state an exception or the user's interrupt leaves), reweight, train, resample, mutate, likelihood dispatch, evidence, posterior, save and load |

`Props/FloatSpec.lean` checks the arithmetic of `F` against limits of real sequences: where a result is not NaN it is the limit of the results.

Assumed rather than modelled:

- Arithmetic is exact on finite values, with `nan`, `-inf` and `+inf` added. C87, C94, C95, C104, C110, C122–C129, C131 and `C43_interior_infinite` alone model rounding, through the properties in `DoubleLike`, `ToSingle`, `Precise`, `NearestDouble`, `IsDouble`, `IsDoubleLog` and `IsDoubleErf` (each proved satisfiable).
- `np.linalg.cholesky`, `inv`, `slogdet` in `fit` with `diagonal=False` are parameters with their exact contract (`LinAlg.Exact`, proved satisfiable).
- The digamma function and the root finder in `student.py` are parameters (`FitEnv`).
- Network weights, gradients and the optimiser are parameters of the training loop. A flow is any bijection with its Jacobian.
- Random draws are arguments.
- MPI delivers messages between two ranks in order and loses none.
- The file system: a rename is atomic. A process may stop between any two system calls. After a loss of power a name not yet written out may stand for any file it stood for since, and content not yet written out is arbitrary.
- Pickling: loading a complete dump returns what was dumped.

Not modelled: zuko and torch internals, dtype conversion (except of blobs, C134 and C135), progress-bar drawing, printing, warnings,
the `multiprocess` library, thread configuration, pickling itself.

## 5. Properties: what is modelled and how it is proved

| id | plan |
|---|---|
| C01 | `effective_sample_size` on `F`; ESS = (Σw)²/Σw² on reals; Cauchy–Schwarz and Σw² ≤ (Σw)² |
| C02 | `unique_sample_size`; Bernoulli inequality; expectation as a finite sum over all k-tuples of indices |
| C03 C04 | log-sum-exp lemmas on `F`; shift lemmas |
| C05–C07 | `trim_weights` loop over the percentile grid incl. Python negative indices; induction on the remaining iterations; percentile lemmas (0 ↦ min, ≤ max); rearrangement inequality |
| C08–C11 | `systematic_resample` loop; invariant: position i lies in the cumulative interval of the index; counting; integral over the draw; witnesses for the two defects (C10: draw 0, C11: sum slightly below one) → partial |
| C12 | numpy `choice` as searchsorted of the cdf |
| C13 C14 | invariant of `update` lifted over the run loop |
| C15–C18 | `compute_logw_and_logz` on `F` refined to a real formula |
| C19 | cache model; negation by witness, partial: first access fresh |
| C20 | NaN propagation: the property is false; negation proved for every history containing a NaN |
| C21 C22 | `_reweight` with bisection (fuel); interval invariant; continuity of ESS/USS in beta for termination |
| C23 | decision logic |
| C24 | loop exit condition |
| C25 C26 C28 C30 | `mcmc.py` step on `F`; case analysis on special values; measure `n_max - i` |
| C27 | ghost counter of evaluated points; false across two runs (witness), proved within one run |
| C29 | invariant over the whole run |
| C31 C32 | measure-theoretic reversibility of the model step: the proposal map is an involution preserving a joint density (`Lemmas/Balance`), the t mixing draw is integrated in; densities in `Spec/Balance` |
| C33 C73 | simulation relation between the shifted and unshifted executions |
| C34–C37 C41–C43 | `scaler.py` on `F`, `erf` defined by the Gaussian integral, inverse by monotonicity; derivatives with Mathlib |
| C38 C39 | while loops with fuel; Archimedean argument; C39 false for far points (witness), exact characterisation proved |
| C40 | false: boundary step proved to be the identity on every `inverse` image, and whole kernel calls proved equal with and without the options (`Props/Bounds.lean`) |
| C44 C45 | list algebra |
| C46 C47 | warm-up batch function; C47 false (witness) |
| C48–C50 C82 | `Model/Pool`: transition system for master, workers and messages; inductive invariant; no deadlock; termination of fair executions by a decreasing measure; C82 false for non-buffering MPI (negation proved) |
| C83 | `Model/LogLike` `functionWrapper`, `LikeEnv.make`; every evaluation mode reduced to `f(x, *a, **k)` |
| C51 C52 | `_log_like`; C52 partial (uniform return shape), witness otherwise |
| C53 C84–C86 | `Model/Files`: system calls of `save_state` on a file system with page cache, unsynced data and unsynced directory entries; any number of processes, any interleaving, death/exception/power loss at any step; inductive invariant. C53 false if the path's own suffix is `.temp` (witness); C84 false: the directory is never synced (negation proved) |
| C54 | attribute dictionaries; false for a pool when the saved sampler had none (witness) |
| C55 | run loop; proved for states saved after warm-up; false for warm-up states (theorem: batches are duplicated) |
| C56 C57 | save events of the run loop; `pathlib` names as character lists, decimal numbers injective |
| C58 | false: iter is frozen after warm-up (theorem) |
| C59 | real formula; equality iff no draw dropped |
| C60 | decision logic |
| C61 C62 | posterior on histories; C62 false with trimming (constant offset proved) |
| C63–C65 C76 | constructor as a total function on arguments (`Model/Config`); C63 false for three documented defaults, C64 false for pool=1 (negations proved) |
| C66 C67 | `Model/Flow`: epoch loop over an arbitrary network; loop invariant; C66 false if the epochs run out (negation proved) |
| C68 C79 | data split and batches as lists, permutations; C68 false: `validation_split` is the training fraction |
| C69 C70 | arithmetic; chain rule for the inverse map |
| C77 C78 C81 | loss of a batch and noise scale; C78 false: distances from the last sample only (negation proved) |
| C80 | container laws of `Particles` for every key |
| C71 C87–C89 | `Model/Geometry`: EM loop, quadratic form of Σ; the equation for the degrees of freedom with a rounding after every operation, 53-bit rounding constructed; C87 false (negation proved) |
| C72 | invariant of the run loop |
| C90 | two-run argument: the step functions of two samplers that differ only in the unused component are equal; for preconditioning, an invariant on evaluated points |
| C91 | induction on the steps |
| C92 C93 | `Model/ScalerFull`: covariance as a matrix, `L⁻¹ C L⁻ᵀ = 1`; positive definite iff no linear combination is constant; C92 false for one parameter, C93 false for degenerate batches (negations proved) |
| C94 | `Model/ScalerArgs`: the kinds of argument as an inductive type, conversion to single precision as a nearest element of a finite set; false for None, lists, integer arrays and most pairs (negations proved) |
| C95 | inversion of the constructor; `n_prior` with rounding: relative error bound, one sample can be lost (witness 11, 15) |
| C96 | `bootstrapErr` as the population standard deviation of the logs of the replicate means (exact, also when it is NaN); bounds by the spread of the weights; refuted in general: a replicate of zero-likelihood draws gives NaN next to a finite evidence |
| C97 | inversion of one iteration; training set through C05/C23; trained flow at the end: invariant "untrained only at temperature 0" over all moves |
| C98 | same inversion; invariant for flow and geometry; false between trainings (reachable witness with train_frequency 2) |
| C99 | inversion of the constructor, closed form of the expected number of distinct draws |
| C100 | the epoch as a relation (batches, optimiser steps, losses); refinement by induction over batches and epochs |
| C101 | induction over the iterations of the fit (weighted means stay in range); C08 for the resampled particles; equal weights by computation |
| C102 | C15 gives the weights as a function of the point; expectation of each particle as an integral against its tempered posterior; sum over iterations cancels the mixture |
| C103 | C59 for the value, C35 for the Jacobian, change of variables formula of Mathlib for the integral over the box |
| C104 | `Model/Search`: the bisection with rounded sum and product; induction on the number of doubles in the interval; bound on the change of ESS and USS between neighbouring doubles; false without a bound on the spread (a history on which the loop never ends) |
| C105 | inversion of the constructor; false: every n_active ≠ 0 and n_effective ≥ 0 is accepted |
| C106 | invariant of the loop: best value and counter describe the last record of the observed history |
| C107 | Model/Failure: `run` again, statement by statement, in a monad that keeps the state on an exception (`runX`); a bisimulation lemma (`runX_spec`) shows it returns and raises exactly as `run` does and bounds what an exception can leave behind. Spec/Attempts: sessions with failing runs. Invariant `Kept` on all of them (weaker than `Inv`: `current_particles` may be half updated). |
| C108 | False as it stands; three refutations with reachable states: the retry stops at once because the termination test reads the temperature of the failed iteration, the warm-up is stored twice, and a failed training leaves a flow that counts as trained but has no geometry, so that a retry with everything working raises TypeError. Partial: one iteration of the main loop after any failures equals that iteration from the last stored particles, and returns if all components work. |
| C109 | Model/Failure carries a clock (the number of operations until the interrupt); each assignment and call is one tick, and the store of an iteration is fifteen ticks, one per key. Partial: as long as no interrupt falls inside the store or between drawing the prior samples and fitting the scaler, `posterior` returns what C61 says. False as it stands: for every model whose first run returns there is a moment inside the store after which `posterior()` raises in every later state (`C109_torn`, by an invariant over all later runs); a concrete run where the next `run` even returns as if complete (`Demo.C109_complete_but_unusable`); and an interrupt before the scaler is fitted, after which every later `run` raises TypeError (`C109_unscaled`). The time of the interrupt is found by a compositional lemma on timed programs (Lemmas/Clock). |
| C111 | Model/Mcmc (one step). Detailed balance (C31, C32) with one of the sets everything gives invariance for one walker; the walkers draw independently, so both joint laws are product measures and agree (uniqueness of product measures). Proposal scale and centre are those at the beginning of the step; that the code adapts them between steps, from the walkers themselves, is outside this claim. |
| C112 | Model/Memory: arrays live in a heap, the store holds references, basic slices are views; `Manners` says what the likelihood does to the memory it is given. Simulation proofs (Lemmas/Memory, Lemmas/MemoryRun) relate each function in memory to the value model: for likelihoods without side effects any sequence of runs shows what the value model computes (this justifies treating arrays as values elsewhere); in the main loop this holds for every likelihood. The full claim is refuted: in the warm-up the stored positions are views of the rows handed to the likelihood, and a vectorised likelihood's own array is stored. |
| C113 | Model/Sampler, Model/Mcmc. One iteration is inverted into its MCMC states (as in C106) and the columns appended are compared with them; the ranges are an invariant of the moves of a run, hence of sessions. |
| C114 | Spread: with log-likelihoods in [lo, hi] the mixture weights of any two stored particles differ by at most the factor exp(hi-lo), whatever the recorded evidences; hence ESS and USS at every temperature are at least a fixed share of the number of stored particles. Once that share exceeds the target, the temperature goes to 1; once it exceeds n_total, the loop stops. With dynamic, the target grows at most by n_active per iteration and stops growing once the share of distinct particles is guaranteed. Fuel: every loop that returns within a budget returns the same with a larger one, so one budget serves all iterations. |
| C115 | Props/Price: one MCMC step evaluates the selected sub-batch of one candidate per walker (`evaluate_cost`), the walkers keep their number (`step_walker`), resampling draws exactly n_active of them (`resampleStep_len`); summed over the recorded steps (`mcmc_cost`, `C115_iteration`) and over warm-up, loop and evidence (`C115_run`, for all user functions), bounded by the loop budget (`C115_total`) and, through C114, by an explicit number (`C115_bounded`). The flow's `sample(n)` is assumed to return at most n rows. |
| C116 | Model/Stream: the whole of `run` again, with the state of the generators passed from call to call in the order of the code (per step: gamma variates of all walkers, normal vectors of all walkers, one uniform each; flow fit, geometry fit, resampling, mutation; replacement of infinite likelihoods; flow samples, then bootstrap rows). `C116_every_generator`: for every generator, state and run there is an oracle, all of whose values the generator returned, with the same files and the same outcome; by simulation, patching the oracle iteration by iteration. `C116_sessions`: sessions with generators are sessions. `C116_reliable`: the condition of the theorems that runs return. |
| C117 | Model/Stream: `buildG` (seeding, initial weights of the flow) and `exec`, a process with samplers, global generators and other code that draws. Refuted: `C117_second_sampler`, `C117_interleaved` (a counting generator; both runs return). `C117_reproducible_partial`: after any two pasts, build with the same seed and run any number of times: same contents or same exception. |
| C110 | `chooseBetaInt`: the search with the temperature in a double and the `int(ess)` conversions; all sizes are NaN (C20), so the lower end climbs through the finitely many doubles to 1 and the conversion raises. Runs: invariant over moves that NaN is only stored by the warm-up (temperature 0); an iteration on such a history fails; MCMC does not accept NaN (C25); termination needs a temperature near 1. |
| C118 | the kept set is a threshold set, for which the share of squared weight is at least the share of weight; with the ESS target of C05 the kept share is at least `ess`; the rest is the triangle inequality; carried through the index arithmetic of `posterior`. |
| C119 | `computeLogwLogz` on histories whose particles are random variables, with the log-evidence column filled by `computeLogwLogz` itself on the history before each iteration. Strong law of large numbers for every prefix of the ladder, a uniform bound for replacing true by recorded evidences in the mixture, and strong induction over the iterations. Independence is needed only inside one iteration. Theorem C119_consistent (Props/Consistent). |
| C120 | `Model/Pool` with workers that die when the function raises; invariant of `map`; every execution stays in `map` (C120_mpi_never_returns), a stuck state is reached (C120_mpi_deadlock). `logLike` for the other modes: C120_error_reaches_caller_partial (Props/Raise). |
| C121 | The floats of the model have +inf and NaN with IEEE rules, so inf * 0 = NaN in the mixture denominator. Session invariant: as soon as there is an iteration there is one at temperature 0. Refuted by a complete run (random walk, likelihood infinite outside [0, 3]); `_partial`: evidence NaN, posterior raises or returns NaN weights; silent case proved as it is. |
| C122 | Model/Double.lean: tools.py with every operation followed by rounding (structure Arith); Spec/Double.lean: IsDouble (rounding monotone, idempotent, relative error 2^-53, sum in any order, exp within one ulp). Proof: relative-error calculus (Close) through sum, division, square, sum, reciprocal. Witness machine demoArith (53-bit rounding) in Props/DoubleDemo.lean. Overflow is left out (no value exceeds 2^53). |
| C123 | Model/Double.lean trimWeightsD; the 0-th percentile keeps everything and its computed ESS ratio is at least 1 - 3x with x = n*2^-46, so the loop stops; kept = filter by a threshold because rounding is monotone; renorm_close for the returned weights. Only the smallest and largest entry bounds of np.percentile are used. |
| C124 | Model/Double.lean systematicResampleD, multinomialResampleD. Proved: multinomial part in full; for systematic resampling the result or IndexError with u > 1 - size*n*2^-46. Refuted: six equal weights and u = 1 - 2^-53 raise IndexError (C124_index_error), because the weights' computed sum is 1 - 2^-53 while the last position rounds to 1. |
| C125 | `Model/DoubleLogw.lean`: the function with a rounding after every operation and `np.logaddexp` as in numpy's C code, reduced from left to right. The real log-sum-exp does not enlarge errors in the sup norm; each `logaddexp` adds at most `4·2⁻⁵³·K` where `K` bounds the numbers; induction over the reduction; composed with C122 for the normalised weights. Witness: correctly rounded logarithms. |
| C126 | `Model/DoubleScaler.lean`: the transforms for one coordinate, a rounding after every operation. Monotone rounding gives the lower bound and the one-sided cases exactly; with two bounds the result can exceed the upper one by `2⁻⁵¹(|low|+|high|)`. Refuted exactly: bounds −1 and 0.1, u = 64, with 53-bit rounding (`C126_overshoot`). |
| C127 | `Model/DoubleScaler.lean`. The error of the computed logit, measured after the logistic function (Lipschitz with constant 1/4, and relative near the bounds), is a few units in the last place; infinite values at the end points are treated separately. Witness machine `demoErf`. |
| C129 | `Model/DoubleScaler.lean`, loops by fuel. Partial: up to `2⁴⁷` widths away the periodic loops end (each round moves by a width up to `2⁻⁵⁰W ≤ width/8`); reflective always ends after one reflection per bound. Refuted: periodic on [0, 1] with x = 2⁶⁰ never ends because 2⁶⁰ − 1 rounds to 2⁶⁰. |
| C128 | `Props/DoubleJacobian.lean`: relative error of `p` (720 ulp), of `1 - p` (`16·2⁻⁵³(1+e^u)`), three logarithms; compared with Mathlib's `deriv` of the exact map. Partial for −700 ≤ u ≤ 30. Refuted at u = 64: the computed p is 1 and the result is −inf for all bounds. `C128_exact`: exact for parameters with one bound or none. |
| C130 | Model/Mcmc (one step), the kernels constructed for C31/C32 (`rw_kernel`, `pcn_kernel`). The proposal law has exactly the Lebesgue null sets as null sets, so one step reaches every set of positive mass; a general theorem (`Lemmas/Ergodic`: reversible kernel, one-step reachability, no jumps into null sets; L2 averages converge, densities after one step) gives total-variation convergence from every start. Scale and centre are fixed: that the code adapts them between steps is outside this claim. |
| C131 | Model/DoubleMcmc: the Metropolis exponent with a rounding after each operation, in Python's order; induction along the chain of additions, relative error of the logarithm in the t factor, Lipschitz bound of min(1, exp). The squared distances are taken as computed. |
| C132 | `computeLogwLogz` on histories whose particles are random variables and whose log-evidence column is filled by `computeLogwLogz` itself; new particles are conditionally independent given the earlier iterations, with conditional law `sum of weight * kernel(particle)`, weights as computed by the code (Spec/Smc: DrawnGiven, earlier, InProb). Variance of a conditionally independent average by pulling known factors out of conditional expectations, Chebyshev, stability of the mixture under errors of the recorded evidences, strong induction over the iterations (Lemmas/Smc). Temperatures and kernels are fixed (their adaptation is not covered) and resampling is multinomial. Partial: the code trims the weights before it picks (sampler.py:792); the theorem picks with the untrimmed weights, so it is about the algorithm without that step. Trimming discards up to one percent of the weight in every iteration, however many particles there are, so the full claim fails: C132_trimming_biased (Props/SmcTrim) is a two-point run with the code's trimming whose averages converge to 0 instead of 1/1001. Theorem C132_consistent_partial (Props/Smc), with a two-point example built from product kernels. C133 bounds the bias. |
| C133 | The history satisfies what the code computes at each iteration (`chooseBeta`, `weightsAt`, `trimWeights`); the draws given the past have the trimmed weighted mean of one invariant move. A cover of the compact set of temperatures and adaptation parameters gives laws of large numbers uniform over the temperatures the run may choose; the trimmed mass bound (C118) then gives a recursion for the error, solved by `pileUp`. Simplified: log-likelihood bounded, multinomial picks, kernels depend continuously on a temperature and a parameter from a totally bounded set. |
| C134 | `Model/Blobs`: entries with their Python types, `np.array(blob, dtype=…)` with the type of the first row, conversion of entries. Proved: values are kept exactly when that type can hold them (`Fits`), for every batch; false in general: an integer at the first point truncates floating-point blobs of the others, and the same batch in another order keeps them. Arrays of one type are concatenated unchanged. |
| C135 | The kernels of `Model/Mcmc` with the likelihood call replaced by `typedLike` (mcmc.py:113-115 with types). Proved for floating-point and truth-value blobs and for two or more texts: the call returns and gives what the untyped model gives. False: one text per particle always raises AttributeError (`blobs[0].dtype` on a str); integer blobs raise TypeError in a step without valid proposals (None is assigned to an integer array). |
| C136 | Functional equation: the run on the converted problem (`Spec/Units`) equals the converted course of the run. Float identities for `a x + b`, per-coordinate lemmas for the four kinds of bounds and both boundary conditions, the fitted mean and scale, then a simulation through the kernels, warm-up, iterations and evidence. Exact arithmetic: rounding is not modelled here. |
| C137 | Iterations do not read n_total, n_evidence, logz, logz_err, the call counter or the evaluated points (`strip`, simulation lemma for smcStep); the stopping test is monotone in n_total, so the longer loop passes through the end state of the shorter one (`smcLoop_passes`); blob flag unchanged by the evidence in every session (Inv). Chain by induction over the list of runs. |
| C138 | A run reads the likelihood only through `_log_like` (warm-up, kernels, evidence): congruence through all loops, then C51. Saving only adds state files to the trace. |
| C139 | Simulation of two runs (as C136): `Spec/PriorShift.lean` says what changes (`scaledSampler`, `evidenceChange`), every step commutes with it; the Metropolis exponent contains only differences of log-priors and the MCMC monitor moves by c. |
| C140 | `Reordered σ l l'` (place k of l' is place σ k of l) is preserved by map, mapIdx, zip and mapM; means are permutation invariant (exact addition), so the adaptation is the same; induction over the loop. |
| C141 | posterior and results written again over the memory model (Model/Returned), where concatenate, fancy indexing, arithmetic and np.array make new arrays. Every array returned is newer than everything the sampler holds, so writing to it keeps every held array (frame lemma of Lemmas/Memory). `C141_results_shared` proves the failing part. |
| C142 | `resultsR` (Model/Returned) returns the new cache also when it raises, because the dictionary is stored on the object before the log-weights are computed. Negation `C142_too_early` and positive part `C142_with_history_partial`. |
| C143 | The run written again with the bar (Model/Progress). Each step with the bar equals the step without it followed by a pure update; `int(ess)` cannot raise because on a history of numbers the effective size is a number. The loops by induction with the relation Advanced (new iterations and what was shown of them). Witnesses for the false parts: C143_not_always (Demo), C143_resumed_ignores, C143_resume_empty. |
| C144 | One update of the step size is computed on the reals (sigmaNext_real); its distance from the old one by cases on the minimum and the absolute value; for t-pCN the invariant is that the step size exceeds the largest allowed one by at most 0.766 times the next weight (it can exceed it: the sign of a negative update is dropped, so in more than about 290 dimensions a low acceptance gives a step size above 2.38/sqrt(d)). Lifted to runs along Moves (C144_run_partial). The aim is proved for step sizes that are not tiny (C144_aim_partial) and false otherwise: C144_not_always, default kernel, nothing accepted, step size rises. |
| C145 | Spec/ZeroRegion.lean states the evidence as an integral over a prior measure. Props/ZeroRegion.lean: C145_whole_run (every session with a 0/1 likelihood reports log 1 while the evidence is the prior probability of the region; induction over the moves of the session), C145_average (averaged over all donor choices a warm-up batch with m of n finite samples overestimates every power of the likelihood by n/m), Demo.C145_not_always (a complete run with evidence 3/4 that reports log 1), C145_nothing_replaced_partial (a batch without infinite log-likelihoods is stored unchanged, so C16 and C102 apply). |
| C146 | Spec/Single.lean defines numbers with a 24-bit significand and the assumption on the flow. Props/Single.lean: the walkers of an MCMC phase are where a walker started or where the inverse flow put them (`mcmc_from`); through resampling and the loop this gives C146_iteration and C146_run. C146_resolution composes the spacing of single-precision numbers with the stored affine scaling. Not modelled: rounding of the other quantities the flow returns. |
| C147 | Spec/Between.lean: the two bounds as predicates on the stored columns. Props/Between.lean: weight_within bounds every mixture weight (the temperatures of the history are lower and its evidences within bounds), so the average is within bounds; induction over the moves of a session gives C147_recorded, with C60 C147_reported; ess_within is the Kantorovich bound on the effective size, giving C147_effective and, with chooseBeta, C147_straight. |
| C148 | Spec/Cut.lean defines the cut. Props/Cut.lean: the reciprocal of a weight at inverse temperature 1 is a sum of exponentials that fall with the log-likelihood, as no recorded temperature exceeds 1 (weight_mono, weight_strict); with the threshold form of the trimming (C06) the kept rows are a filter of all rows by the weight (gather_filter), hence by the log-likelihood: C148_trim. C148_weights from the weights of C61. |
| C149 | Spec/Redraw.lean: mean over the rows of an output, weighted mean. Props/Redraw.lean: redraw_core writes the resampled output as a choice of rows of the weighted one by the indices drawn; with C08 and C09 (systematic) the mean is a sum over rows of how often each is drawn, integrated term by term; with C12 (multinomial) the draw of row k lies in the interval of the row it selects (mult_index, mult_unbiased). |
| C150 | Props/ErrorBound.lean, on the setting of C102: as one of the mixture components is the target itself, no importance weight exceeds T times the evidence (T iterations); the second moments are bounded by that times the first moment, which C102 gives; pairwise independence adds the variances (mean_variance). Chebyshev for the probability; the self-normalised average splits into the error of the sum and that of the evidence. Independence and exact evidences are assumptions: particles of a real run are coupled through resampling (C132 treats that case, without a rate). |
| C151 | Props/Enough.lean: compose the stopping test of `run` (C24, effective size at temperature one of all stored particles) with the weights `posterior` computes (they are a positive multiple of the weights the stopping test uses, and both sizes ignore the scale) and with the search of `trim_weights` (C05). No new model. |
| C152 | Model/DoubleTools.lean repeats the three functions with rounding; Spec/DoubleTools.lean says what is used of np.power. Each term of the unique sample size is followed through its four roundings (uss_term), the terms are summed against the exact probabilities of C122 (uss_close); compute_ess is the ESS of C122 with one more division; increment_logz uses the error bound of the reduction proved for C125 (lseD_close). -inf entries do not change the rounded maximum or reduction, so they are skipped (C152_increment_inf); overflow is left out. |
| C153 | model: `smcStep` (unchanged). The recorded temperatures do not exceed the new one, so the weight at the new temperature grows with the likelihood; trimming keeps the weights above a percentile (C06), hence the particles above one likelihood. Then follow the rows through `gatherCur`, `train`, `resampleStep` and into `mcmc`. |
| C154 | `Model/DoubleEvidence.lean` repeats the evidence, the bootstrap error and `np.mean`/`np.std` with a rounding after every operation. Proof: `-inf` entries do not change the rounded `np.logaddexp.reduce` (its accumulator is a double); the finite ones are handled by the bound of C125; the standard deviation is a seminorm, so errors of the entries carry over; the rounding of `np.std` is bounded by an error analysis of a sum of numbers of any sign. Theorems `C154_evidence`, `C154_error`, `C154_scale` in `Props/DoubleEvidence.lean`. |
| C155 | model: `run`, `finalEvidence`, `bootstrapErr` (unchanged). Sampling: the evidence is the mean of the importance weights (flow_values, shared with C103); variances of pairwise independent terms add. Error bar: averages over all index choices are finite sums; the variance of a replicate's mean is s^2/n, the mean population variance over R replicates is (1-1/R) times that of one, and log is Lipschitz with constants 1/hi and 1/lo on the range of the replicate means (variance as half the mean square difference of pairs). Theorems `C155_sampling`, `C155_error_bar` in `Props/ErrorSpread.lean`. |
| C156 | model: `rawWeightsD`, `effectiveSampleSizeD`, `trimWeightsD` of `Model/Double.lean` (unchanged). The specification `IsDoubleInRange` knows the machine only for results up to 2^1000. Proof: replace the machine by one that is exact above the range (`endless`); it satisfies the assumptions of C122-C123, and every result the functions compute stays in the range, so both machines return the same. Theorems `C156_weights`, `C156_trim` in `Props/DoubleRange.lean`; example: a machine that returns 0 above the range. |

## 6. How to read seeded/LOG.jsonl

One line per edit of the model (833 lines), generated from the build results. If an edit was built several times, the line shows the last build; earlier survival is noted in `edit` or `tightened`.

- `failed` lists the declarations in which Lean reported an error. The build was stopped shortly after the first error, so the list can be incomplete.
- `X (uses lemma)` was not observed as an error in X. It says that the proof of X in the unedited project depends on that lemma, which failed.
- In 287 lines a property theorem (a name beginning with C and a number) failed itself. In 519 lines only lemmas or examples failed. This is weaker evidence: a lemma can fail because its proof follows the text of the definition, and two edits marked as equivalent programs (T13, A28) failed in this way.
- In 27 lines nothing failed. Their notes say whether the edited program is equivalent, whether a theorem was tightened and the edit repeated, whether no property speaks of the change (W11, K39, V0159), or that the question is open (J21).
- Lines with `built` were checked only against the modules named there, the modules of the property that the edit breaks. "Nothing failed" is then a statement about those modules only.
- Edits after which the model itself did not compile are left out.
