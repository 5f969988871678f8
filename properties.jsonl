{"id": "C01", "title": "Effective sample size is a sample size", "statement": "effective_sample_size(w) lies between 1 and len(w), equals len(w) exactly when all weights are equal, equals 1 exactly when one particle carries all the weight, does not change when the weights are multiplied by a positive constant, and leaves the caller's array holding the normalised weights.", "quantifier": "every non-empty array of non-negative weights with a positive sum, every positive rescaling", "why_tests_cant": "the bound is an inequality over all weight vectors of all lengths; tests only sample some", "anchors": ["pocomc/tools.py: effective_sample_size"]}
{"id": "C02", "title": "Unique sample size is the expected number of distinct draws", "statement": "unique_sample_size(w, k) lies between 1 and min(k, len(w)) for k>=1, never decreases when k grows, is invariant under positive rescaling of the weights, and equals the expected number of distinct indices among k independent multinomial draws.", "quantifier": "every non-negative weight vector with positive sum and every k>=1", "why_tests_cant": "quantifies over all weight vectors and all k; the expectation cannot be sampled exactly", "anchors": ["pocomc/tools.py: unique_sample_size"]}
{"id": "C03", "title": "compute_ess is a fraction and ignores the weight offset", "statement": "compute_ess(logw) lies in [1/n, 1], is the effective sample size of the weights divided by their number (zero weights, whose log-weight is -inf, included), and does not change when the same constant is added to all log-weights; it raises ValueError on an empty array and returns NaN when all the weights are zero.", "quantifier": "every array of log-weights, finite or -inf, every additive constant", "why_tests_cant": "all lengths and all real values", "anchors": ["pocomc/tools.py: compute_ess"]}
{"id": "C04", "title": "increment_logz is the exact log of the total weight", "statement": "increment_logz(logw) equals log(sum(exp(logw))), zero weights (log-weight -inf) included, and shifts by exactly c when c is added to every log-weight; it is NaN when all the weights are zero.", "quantifier": "every non-empty array of log-weights, finite or -inf, every c", "why_tests_cant": "holds over all real arrays; max-subtraction must be transparent for each of them", "anchors": ["pocomc/tools.py: increment_logz"]}
{"id": "C05", "title": "Trimming terminates and keeps the requested effective sample size", "statement": "For any requested fraction ess<=1 and any bins>=1, trim_weights returns: the kept weights are non-negative, sum to one, are the original weights of the kept samples up to one common factor, and their ESS is at least ess times the ESS of all the weights.", "quantifier": "every array of samples, every non-negative weight vector with positive sum, every ess<=1, every bins>=1", "why_tests_cant": "termination of a while True loop and an inequality over all weight vectors", "anchors": ["pocomc/tools.py: trim_weights"]}
{"id": "C06", "title": "Trimming keeps exactly the heaviest samples, aligned and in order", "statement": "The samples trim_weights keeps are exactly those with weight at or above one threshold, in their original order, sample i still paired with weight i; at least one sample of maximal weight is always kept and no grid percentile above the one used would have met the ESS target.", "quantifier": "every samples/weights pair of equal length, every ess<=1, every bins>=1", "why_tests_cant": "a permutation or off-by-one misalignment only shows on particular weight patterns", "anchors": ["pocomc/tools.py: trim_weights"]}
{"id": "C07", "title": "Trimming cannot raise the effective sample size; an unreachable target is an error", "statement": "Dropping low-weight samples never increases the ESS, so trim_weights with ess>1 raises IndexError instead of returning a mislabelled subset (or looping forever), for every weight vector.", "quantifier": "every non-negative weight vector with positive sum, every ess>1, every bins", "why_tests_cant": "needs an inequality over all weight vectors and the end of an unbounded loop with Python negative indexing", "anchors": ["pocomc/tools.py: trim_weights"]}
{"id": "C08", "title": "Systematic resampling returns valid ordered indices with the right multiplicities", "statement": "systematic_resample(size, w) returns exactly size indices, all valid positions of w, in non-decreasing order, and index j occurs fewer than one time more or less than size*w[j] (normalised) for every non-zero uniform draw (at most one time for the draw exactly 0).", "quantifier": "every size, every non-negative weight vector with positive sum that the function renormalises or that sums to 1, every uniform draw in [0,1)", "why_tests_cant": "the stratification bound ranges over all draws and weight vectors", "anchors": ["pocomc/tools.py: systematic_resample"]}
{"id": "C09", "title": "Systematic resampling is unbiased", "statement": "Averaged over the single uniform draw, index j is returned exactly size*w[j] times.", "quantifier": "every weight vector summing to one, every size>=1, every index", "why_tests_cant": "an exact expectation over a continuous draw", "anchors": ["pocomc/tools.py: systematic_resample"]}
{"id": "C10", "title": "Systematic resampling never selects a zero-weight particle", "statement": "A particle with zero weight is never returned.", "quantifier": "every weight vector, size and draw", "why_tests_cant": "the failing draw has probability ~0 in tests", "anchors": ["pocomc/tools.py: systematic_resample"]}
{"id": "C11", "title": "Systematic resampling never runs off the weights", "statement": "systematic_resample never raises IndexError on a non-negative weight vector with positive sum.", "quantifier": "every weight vector, size and draw", "why_tests_cant": "the failing input is a sum within the 1.5e-8 tolerance below one together with a draw near one", "anchors": ["pocomc/tools.py: systematic_resample"]}
{"id": "C12", "title": "Multinomial resampling follows the weights", "statement": "The multinomial resampling used by the sampler returns valid indices, selects index j exactly when the uniform draw falls in an interval of length w[j], and never selects a zero-weight particle.", "quantifier": "every normalised weight vector, every draw in [0,1)", "why_tests_cant": "exact probabilities over a continuous draw", "anchors": ["pocomc/sampler.py: Sampler._resample, Sampler.posterior"]}
{"id": "C13", "title": "Particle history stays rectangular", "statement": "After any number of warm-up and sampling iterations all fifteen history columns of the particle store have the same length, and every stored per-particle array has n_active entries.", "quantifier": "every run of any length, every random outcome", "why_tests_cant": "an invariant over all iteration histories", "anchors": ["pocomc/particles.py: Particles.update", "pocomc/sampler.py: Sampler.run"]}
{"id": "C14", "title": "Particle history is append-only", "statement": "An iteration recorded in the particle store is never modified or removed by later iterations of run.", "quantifier": "every run, every later point in it", "why_tests_cant": "an invariant over histories; aliasing bugs show late", "anchors": ["pocomc/particles.py: Particles.update", "pocomc/sampler.py: Sampler.run, _reweight, _resample, _mutate"]}
{"id": "C15", "title": "Importance weights are the mixture (balance-heuristic) weights", "statement": "compute_logw_and_logz(beta) returns for every stored particle, in storage order, the log of L^beta divided by the average over stored iterations t of L^beta_t/Z_t, normalised so the weights sum to one, and its logz is the log of the average unnormalised weight.", "quantifier": "every non-empty rectangular history of finite values, every finite beta", "why_tests_cant": "the formula must hold for all histories and inputs", "anchors": ["pocomc/particles.py: Particles.compute_logw_and_logz"]}
{"id": "C16", "title": "Reweighting a pure-prior history", "statement": "If only prior (beta=0, logz=0) iterations are stored, the weights at beta are proportional to L^beta, at beta=0 they are uniform and logz is 0.", "quantifier": "every prior-only history, every beta", "why_tests_cant": "all histories", "anchors": ["pocomc/particles.py: Particles.compute_logw_and_logz"]}
{"id": "C17", "title": "Evidence is equivariant under rescaling of the likelihood", "statement": "Multiplying the likelihood by e^c (with the stored logz shifted by c*beta_t accordingly) leaves all normalised importance weights unchanged and shifts the returned log-evidence by exactly c*beta.", "quantifier": "every history, every c, every beta", "why_tests_cant": "metamorphic relation over all inputs", "anchors": ["pocomc/particles.py: Particles.compute_logw_and_logz"]}
{"id": "C18", "title": "Evidence does not depend on the order of iterations", "statement": "Permuting the stored iterations permutes the weights the same way and leaves logz unchanged.", "quantifier": "every history, every permutation of its iterations", "why_tests_cant": "all permutations of all histories", "anchors": ["pocomc/particles.py: Particles.compute_logw_and_logz"]}
{"id": "C19", "title": "results reflects the particles collected so far", "statement": "Sampler.results (Particles.compute_results) describes the current particle history.", "quantifier": "every interleaving of results accesses and further sampling", "why_tests_cant": "needs a history in which results is read and sampling continues", "anchors": ["pocomc/particles.py: Particles.compute_results", "pocomc/sampler.py: Sampler.results"]}
{"id": "C20", "title": "One bad likelihood value cannot corrupt the other weights", "statement": "A NaN log-likelihood stored for one particle does not affect the weights of the others or the evidence.", "quantifier": "every history with one NaN", "why_tests_cant": "needs a NaN at an arbitrary place", "anchors": ["pocomc/particles.py: Particles.compute_logw_and_logz", "pocomc/sampler.py: Sampler.run"]}
{"id": "C21", "title": "Inverse temperature is monotone and bounded", "statement": "The beta chosen at each iteration lies between the previous beta and 1; once beta is 1 it stays 1.", "quantifier": "every history with previous beta in [0,1], every metric, every n_effective", "why_tests_cant": "over all histories, and the whole beta sequence of a run", "anchors": ["pocomc/sampler.py: Sampler._reweight"]}
{"id": "C22", "title": "The beta search terminates and hits the ESS target", "statement": "For a history of finite log-likelihoods the bisection for beta terminates, and the beta it returns has |ESS(beta)-n_effective| < 1% of n_effective or is an end point allowed by the rule (previous beta if ESS there is already <= n_effective, 1 if ESS at 1 is >= n_effective).", "quantifier": "every finite history, both metrics, every positive n_effective", "why_tests_cant": "termination of an unbounded loop, by continuity of the ESS in beta", "anchors": ["pocomc/sampler.py: Sampler._reweight"]}
{"id": "C23", "title": "Dynamic n_effective moves in the right direction", "statement": "With dynamic=True the effective target never decreases when the expected number of unique active particles is below 95% of the reference ratio, never increases when it is above 105% of it, is unchanged in between, and without dynamic it never changes.", "quantifier": "every weight vector, n_active, n_effective and ratio", "why_tests_cant": "decision logic over all real inputs", "anchors": ["pocomc/sampler.py: Sampler._reweight"]}
{"id": "C24", "title": "run returns only when the posterior has been reached", "statement": "When run returns, the last beta is within 1e-4 of 1 and the ESS (or USS) of all stored particles at beta=1 is at least n_total.", "quantifier": "every run that returns, for every likelihood whose values are numbers or -inf, every history before it, both metrics, all draws", "why_tests_cant": "a postcondition over all executions", "anchors": ["pocomc/sampler.py: Sampler.run, Sampler._not_termination"]}
{"id": "C25", "title": "Invalid proposals are never accepted", "statement": "A proposal with a non-finite coordinate, non-finite Jacobian, non-finite log-prior, NaN log-likelihood, or log-likelihood -inf is never accepted: the walker keeps its complete previous state.", "quantifier": "all four MCMC kernels, every walker, every temperature in [0,1], every random draw", "why_tests_cant": "NaN/inf combinations are too many to sample; e.g. -inf*0 at beta=0", "anchors": ["pocomc/mcmc.py: preconditioned_pcn, preconditioned_rwm, pcn, rwm"]}
{"id": "C26", "title": "MCMC calls the likelihood only at valid points", "statement": "During MCMC the user's likelihood is evaluated only at points whose coordinates, Jacobian and log-prior are finite, once per such proposal.", "quantifier": "all four kernels, all steps, all draws", "why_tests_cant": "over all executions", "anchors": ["pocomc/mcmc.py: all kernels"]}
{"id": "C27", "title": "Likelihood call count is exact", "statement": "sampler.calls and the recorded calls column equal the number of points at which the likelihood was evaluated.", "quantifier": "every run, every later run on the same sampler", "why_tests_cant": "needs multi-run histories", "anchors": ["pocomc/sampler.py: Sampler.run, _mutate, _compute_evidence", "pocomc/mcmc.py: n_calls"]}
{"id": "C28", "title": "Each MCMC phase makes between one and max(1, n_max_steps) steps", "statement": "The MCMC loop always terminates, reporting a step count between 1 and max(1, n_max_steps).", "quantifier": "all four kernels, every plateau behaviour, every n_steps/n_max_steps", "why_tests_cant": "termination of while True under all acceptance histories", "anchors": ["pocomc/mcmc.py: all kernels"]}
{"id": "C29", "title": "Stored values always belong to the stored point", "statement": "For every particle ever stored by run: logl is the user's log-likelihood at x, logp is the log-prior at x, logdetj is the Jacobian term at u, x is the image of u, and the blob is the one the likelihood returned at x.", "quantifier": "every run, every iteration, every particle, all four kernels, all draws", "why_tests_cant": "an invariant through resampling, masking and acceptance over all histories", "anchors": ["pocomc/sampler.py: Sampler.run, _reweight, _resample, _mutate", "pocomc/mcmc.py: all kernels"]}
{"id": "C30", "title": "Proposal scale stays in its legal range", "statement": "The t-pCN proposal scale always stays in [0, 0.99] so sqrt(1-sigma^2) is real, and the reported efficiency is never negative for any kernel.", "quantifier": "every acceptance history, all kernels", "why_tests_cant": "all sequences of acceptance rates", "anchors": ["pocomc/mcmc.py: sigma updates in all kernels"]}
{"id": "C31", "title": "Random-walk acceptance satisfies detailed balance", "statement": "For rwm the probability of accepting u->u' times the tempered posterior density at u (in u-space, with Jacobian) equals the same with u and u' exchanged, and the proposal is symmetric.", "quantifier": "every pair of points with finite values, every beta", "why_tests_cant": "an identity over a continuum of pairs", "anchors": ["pocomc/mcmc.py: rwm, preconditioned_rwm"]}
{"id": "C32", "title": "t-pCN acceptance satisfies detailed balance", "statement": "For tpcn the proposal is reversible with respect to the multivariate t used, and the acceptance probability makes the step reversible with respect to the tempered posterior.", "quantifier": "every pair of points, every scale, every mixing variable, every beta", "why_tests_cant": "an identity over a continuum", "anchors": ["pocomc/mcmc.py: pcn, preconditioned_pcn"]}
{"id": "C33", "title": "MCMC steps are unaffected by likelihood normalisation", "statement": "Adding a constant to the log-likelihood changes no accept/reject decision, no proposal, no step count; only the stored logl shift by that constant.", "quantifier": "all four kernels, every constant, all draws", "why_tests_cant": "metamorphic relation over all executions", "anchors": ["pocomc/mcmc.py: all kernels"]}
{"id": "C34", "title": "Reparameterisation round-trips", "statement": "inverse(forward(x)) returns x for every x strictly inside the bounds, and forward(inverse(u)) returns u for every finite u.", "quantifier": "all dimensions, all bound types, logit and probit, every fitted scale", "why_tests_cant": "over all reals", "anchors": ["pocomc/scaler.py: Reparameterize.forward, inverse"]}
{"id": "C35", "title": "The reported Jacobian is the Jacobian", "statement": "The log-determinant returned by inverse(u) is the log of the absolute determinant of the derivative of the map u->x at u.", "quantifier": "every u, all bound types, both transforms, any number of dimensions", "why_tests_cant": "a derivative identity over a continuum", "anchors": ["pocomc/scaler.py: Reparameterize.inverse"]}
{"id": "C36", "title": "inverse always lands inside the bounds", "statement": "Every finite u is mapped to an x strictly inside the bounds in every dimension.", "quantifier": "every finite u, all bound types", "why_tests_cant": "all reals", "anchors": ["pocomc/scaler.py: Reparameterize.inverse"]}
{"id": "C37", "title": "Every parameter has exactly one bound type", "statement": "Each parameter is classified as exactly one of unbounded, lower-bounded, upper-bounded, doubly bounded, according to which bounds are finite (NaN and infinite both mean absent).", "quantifier": "all bounds arrays", "why_tests_cant": "all combinations in all dimensions", "anchors": ["pocomc/scaler.py: Reparameterize._create_masks"]}
{"id": "C38", "title": "Periodic wrapping", "statement": "Applying periodic boundary conditions terminates, puts every listed parameter inside its bounds, changes it by an integer number of periods, leaves all other parameters alone and is idempotent.", "quantifier": "every x with finite listed entries, every list of parameters with finite low<high", "why_tests_cant": "termination of while loops for arbitrarily distant x", "anchors": ["pocomc/scaler.py: Reparameterize._apply_periodic_boundary_conditions_x"]}
{"id": "C39", "title": "Reflective folding", "statement": "Applying reflective boundary conditions terminates and puts every listed parameter inside its bounds.", "quantifier": "every x, every list of parameters with finite low<high", "why_tests_cant": "fails only for x more than one width away on a side", "anchors": ["pocomc/scaler.py: Reparameterize._apply_reflective_boundary_conditions_x"]}
{"id": "C40", "title": "Periodic and reflective options influence the sampler's proposals", "statement": "Declaring a parameter periodic (or reflective) makes proposals that leave the domain re-enter it, i.e. changes the proposals the MCMC evaluates.", "quantifier": "every proposal", "why_tests_cant": "needs a proof that the wrap can never trigger after the inverse transform", "anchors": ["pocomc/mcmc.py: boundary-condition blocks", "pocomc/scaler.py: apply_boundary_conditions_x, inverse"]}
{"id": "C41", "title": "fit standardises its training data", "statement": "After fit(x), forward(x) has mean 0 and standard deviation 1 in every dimension (when the transformed data are not constant).", "quantifier": "every training array inside the bounds", "why_tests_cant": "all arrays", "anchors": ["pocomc/scaler.py: Reparameterize.fit, forward"]}
{"id": "C42", "title": "Out-of-bounds input is rejected and in-bounds input is accepted", "statement": "forward/fit raise ValueError exactly when some entry is outside its bounds (or NaN); missing bounds (None, NaN) exclude nothing.", "quantifier": "every x, every bounds value including None", "why_tests_cant": "over all inputs; bounds=None is never exercised by tests", "anchors": ["pocomc/scaler.py: Reparameterize.__init__, fit, forward", "pocomc/input_validation.py: assert_array_within_interval"]}
{"id": "C43", "title": "forward is finite on the closed domain", "statement": "forward(x) is finite for every x accepted by its bounds check.", "quantifier": "every accepted x, all bound types", "why_tests_cant": "fails only exactly on a bound", "anchors": ["pocomc/scaler.py: Reparameterize._forward_both, _forward_left, _forward_right"]}
{"id": "C44", "title": "Prior log-density is a row-wise sum", "statement": "Prior.logpdf(x)[j] is the sum over dimensions i of dists[i].logpdf(x[j,i]); in particular it does not depend on the other rows, and it is -inf if any coordinate has density zero and none is NaN or +inf.", "quantifier": "every list of distributions, every batch", "why_tests_cant": "all batches", "anchors": ["pocomc/prior.py: Prior.logpdf"]}
{"id": "C45", "title": "Prior samples have the right layout", "statement": "rvs(size) has size rows and dim columns and entry (j,i) is the j-th draw of distribution i; bounds row i is the support of distribution i; dim is the number of distributions.", "quantifier": "every list of distributions, every size", "why_tests_cant": "all sizes", "anchors": ["pocomc/prior.py: Prior.rvs, bounds, dim"]}
{"id": "C46", "title": "Warm-up replaces infinite likelihoods consistently", "statement": "After warm-up no stored batch contains an infinite log-likelihood; each replaced particle is a complete copy (x,u,logdetj,logp,logl,blob) of one finite particle of the same batch, all others are untouched; if a whole batch is infinite run raises ValueError.", "quantifier": "every prior sample, every likelihood, every random choice", "why_tests_cant": "all infinity patterns", "anchors": ["pocomc/sampler.py: Sampler.run warm-up loop"]}
{"id": "C47", "title": "Warm-up admits only usable likelihood values", "statement": "No NaN log-likelihood enters the particle history through warm-up.", "quantifier": "every likelihood", "why_tests_cant": "needs a likelihood returning NaN", "anchors": ["pocomc/sampler.py: Sampler.run warm-up loop"]}
{"id": "C48", "title": "MPIPool.map equals map under every schedule", "statement": "Whatever worker each task goes to and in whatever order results arrive, when MPIPool.map returns, element i of the result is worker(tasks[i]).", "quantifier": "all task lists, all numbers of workers >=1, all interleavings of master, workers and messages", "why_tests_cant": "schedules cannot be enumerated by tests", "anchors": ["pocomc/parallel.py: MPIPool.map, MPIPool.wait"]}
{"id": "C49", "title": "MPIPool.map runs every task exactly once and never deadlocks", "statement": "Each task is sent to exactly one worker once; no worker holds two tasks; as long as results are outstanding some process can move; when map returns nothing is in flight and all workers are idle; if a task raises, map never returns a partial result.", "quantifier": "all schedules", "why_tests_cant": "liveness over all interleavings", "anchors": ["pocomc/parallel.py: MPIPool.map, MPIPool.wait"]}
{"id": "C50", "title": "MPIPool.close stops every worker", "statement": "After close every worker has been sent exactly one quit message, and a worker that receives it stops.", "quantifier": "all numbers of workers, all delivery orders", "why_tests_cant": "all interleavings", "anchors": ["pocomc/parallel.py: MPIPool.close, MPIPool.wait"]}
{"id": "C51", "title": "Serial, pooled and vectorised likelihood evaluation agree", "statement": "The log-likelihoods (and blobs) are the same whether the likelihood is evaluated serially, through any order-preserving pool, or by a vectorised likelihood that agrees row by row.", "quantifier": "all batches, all likelihoods", "why_tests_cant": "all inputs", "anchors": ["pocomc/sampler.py: Sampler._log_like"]}
{"id": "C52", "title": "Blobs stay attached to their points", "statement": "Row i of the blobs returned with a batch is the blob of point i.", "quantifier": "all batches, all likelihood return shapes", "why_tests_cant": "fails only when some points return blobs and others do not", "anchors": ["pocomc/sampler.py: Sampler._log_like"]}
{"id": "C53", "title": "save_state is atomic under crashes", "statement": "At every crash point during save_state(path), path holds either its complete previous content or the complete new state.", "quantifier": "every crash point, every previous content, every path", "why_tests_cant": "crash points and write orders cannot be enumerated on a live system", "anchors": ["pocomc/sampler.py: Sampler.save_state"]}
{"id": "C54", "title": "save/load round-trip", "statement": "load_state(path) after save_state(path) restores every attribute except the progress bar and a live pool; a pool given to the loading sampler is kept.", "quantifier": "every sampler state, every loading sampler", "why_tests_cant": "all attribute dictionaries", "anchors": ["pocomc/sampler.py: Sampler.save_state, load_state, __getstate__"]}
{"id": "C55", "title": "Resuming continues the run", "statement": "Resuming from any saved state file and continuing with the same random draws produces the same particles and evidence as the uninterrupted run.", "quantifier": "every run, every saved state, all draws", "why_tests_cant": "needs all save points; tests only check it does not crash", "anchors": ["pocomc/sampler.py: Sampler.run, save_state, load_state"]}
{"id": "C56", "title": "State files are written on schedule", "statement": "With save_every=k the state files written are exactly those for iterations t with t0<t<t_end and (t-t0) divisible by k, each once, plus the final one.", "quantifier": "every run length, every k>=1", "why_tests_cant": "all run lengths", "anchors": ["pocomc/sampler.py: Sampler.run"]}
{"id": "C57", "title": "State files of a run never overwrite each other", "statement": "Different iterations of a run, and the final state, use different file names, and the temporary name used while writing never equals any state file name.", "quantifier": "all labels, all iteration numbers", "why_tests_cant": "all strings and integers", "anchors": ["pocomc/sampler.py: Sampler.run, save_state"]}
{"id": "C58", "title": "The recorded iteration number identifies the iteration", "statement": "The iter column of results gives for each stored iteration its iteration index.", "quantifier": "every run", "why_tests_cant": "only visible after warm-up", "anchors": ["pocomc/sampler.py: Sampler.run, _reweight"]}
{"id": "C59", "title": "The importance-sampling evidence is the average weight over all n_evidence draws", "statement": "With preconditioning the reported logz is log of (sum of likelihood*prior*Jacobian/flow density)/n over the n draws, draws outside the prior support counting zero.", "quantifier": "every set of draws", "why_tests_cant": "needs draws outside the support", "anchors": ["pocomc/sampler.py: Sampler._compute_evidence"]}
{"id": "C60", "title": "Which evidence estimate is reported", "statement": "run reports the importance-sampling estimate with an error bar exactly when preconditioning is on and n_evidence>0; otherwise the SMC estimate at beta=1 with error None.", "quantifier": "every configuration and run", "why_tests_cant": "all configurations", "anchors": ["pocomc/sampler.py: Sampler.run, Sampler.evidence"]}
{"id": "C61", "title": "posterior returns aligned, normalised samples", "statement": "posterior() returns arrays of equal length whose row i (sample, logl, logp, blob) all come from the same stored particle, with non-negative weights summing to one; with resample=True it returns as many rows as before resampling and every row is a stored particle.", "quantifier": "every history, every combination of options, all draws", "why_tests_cant": "all histories and options", "anchors": ["pocomc/sampler.py: Sampler.posterior"]}
{"id": "C62", "title": "Returned log-weights match returned weights", "statement": "With return_logw=True the log-weights posterior() returns are the logarithms of the weights it would return with return_logw=False.", "quantifier": "every history, trimming on or off", "why_tests_cant": "fails only when trimming removes something", "anchors": ["pocomc/sampler.py: Sampler.posterior"]}
{"id": "C63", "title": "Constructor validation and defaults", "statement": "Sampler(...) raises ValueError exactly for invalid transform/metric/sample/resample/flow, both n_active and n_effective missing, or vectorize with blobs_dtype (given sizes that make sense and a usable pool); otherwise n_active, n_effective, n_steps, n_max_steps, train_frequency and n_prior take the documented defaults.", "quantifier": "all argument combinations", "why_tests_cant": "combinatorial", "anchors": ["pocomc/sampler.py: Sampler.__init__"]}
{"id": "C64", "title": "Any pool argument is usable", "statement": "Sampler accepts pool=None, any positive integer, or an object with map.", "quantifier": "all pool arguments", "why_tests_cant": "pool=1 is never tested", "anchors": ["pocomc/sampler.py: Sampler.__init__"]}
{"id": "C65", "title": "Warm-up always happens and covers whole batches", "statement": "The number of warm-up iterations is at least one and all its batches are full: n_prior//n_active batches of exactly n_active prior samples.", "quantifier": "all n_prior, n_active>=1, n_effective", "why_tests_cant": "all integers", "anchors": ["pocomc/sampler.py: Sampler.__init__, Sampler.run"]}
{"id": "C66", "title": "Flow.fit returns the best model seen", "statement": "After Flow.fit the flow holds the parameters of the epoch with the lowest monitored loss.", "quantifier": "every loss history, patience and number of epochs", "why_tests_cant": "all loss histories", "anchors": ["pocomc/flow.py: Flow.fit"]}
{"id": "C67", "title": "Flow.fit stops when it should", "statement": "Training performs at most epochs epochs, at least one if epochs>=1, the loss history has one entry per epoch run, and stops early exactly when int(1.5*patience) epochs have passed since the best one.", "quantifier": "every loss history, patience, epochs", "why_tests_cant": "all loss histories", "anchors": ["pocomc/flow.py: Flow.fit"]}
{"id": "C68", "title": "Training and validation sets partition the data, weights aligned", "statement": "With a validation split, every sample goes to exactly one of the training and validation sets together with its own weight, and the validation set holds the requested fraction.", "quantifier": "every data set, split and shuffle permutation", "why_tests_cant": "all permutations and splits", "anchors": ["pocomc/flow.py: Flow.fit"]}
{"id": "C69", "title": "Flow width", "statement": "The hidden width of the built-in flows is a power of two, at least 32 and at least 3*n_dim, and it is the smallest such power of two.", "quantifier": "every n_dim", "why_tests_cant": "all integers", "anchors": ["pocomc/flow.py: Flow.__init__"]}
{"id": "C70", "title": "Flow Jacobians have one sign convention", "statement": "The log-Jacobian returned by the numpy flow wrapper for forward(u) equals the one returned by inverse(forward(u)): both are the log-Jacobian of latent->u.", "quantifier": "every invertible flow, every point", "why_tests_cant": "all flows", "anchors": ["pocomc/tools.py: flow_numpy_wrapper", "pocomc/flow.py: Flow.forward, Flow.inverse"]}
{"id": "C71", "title": "Student-t fit terminates with a valid shape matrix", "statement": "fit_mvstud performs at most max_iter iterations and returns a symmetric positive semi-definite Sigma of the right size; Geometry.fit always ends with a finite positive number of degrees of freedom.", "quantifier": "every data set, every root-finder outcome", "why_tests_cant": "all data", "anchors": ["pocomc/student.py: fit_mvstud", "pocomc/geometry.py: Geometry.fit"]}
{"id": "C72", "title": "The geometry used by MCMC has always been fitted", "statement": "Whenever MCMC runs, the geometry it reads (theta-space if preconditioned, u-space otherwise) has been fitted before, also after resuming from a saved state.", "quantifier": "every run, every train_frequency, every resume point", "why_tests_cant": "all histories", "anchors": ["pocomc/sampler.py: Sampler._train, _mutate"]}
{"id": "C73", "title": "A whole run is unaffected by likelihood normalisation", "statement": "Running the sampler with log-likelihood shifted by a constant c (same draws) gives the same particles, betas, weights and number of iterations, and shifts each recorded logz by c*beta and the final SMC evidence by c.", "quantifier": "every run, every c, all draws", "why_tests_cant": "whole-run metamorphic relation", "anchors": ["pocomc/sampler.py: Sampler.run", "pocomc/particles.py: compute_logw_and_logz", "pocomc/mcmc.py: all kernels"]}
{"id": "C74", "title": "Stored particles lie strictly inside the prior bounds", "statement": "Every particle stored by run has finite coordinates that lie strictly inside every bound of the prior.", "quantifier": "every run, every iteration, every particle, all kernels, all bound types, all draws, also after resuming", "why_tests_cant": "Proposals are unbounded random draws pushed through transforms and filters; only an invariant over all steps excludes an escape.", "anchors": ["pocomc/sampler.py:Sampler.run", "pocomc/scaler.py:Reparameterize.inverse", "pocomc/mcmc.py"]}
{"id": "C75", "title": "A run does not raise on well-behaved inputs", "statement": "If the likelihood returns finite or -inf values (each warm-up batch of prior samples containing at least one finite value), the linear-algebra and fitting routines succeed, and the settings are legal, then Sampler.run never raises an exception: it returns, or it keeps iterating. Each single iteration ends.", "quantifier": "all likelihoods, priors, legal settings, random draws, states reached by earlier runs, and run arguments", "why_tests_cant": "an exception may need a particular combination of settings, data and draws after any number of iterations", "anchors": ["pocomc/sampler.py: Sampler.run, _reweight, _train, _resample, _mutate, _not_termination, _compute_evidence"]}
{"id": "C76", "title": "Every accepted configuration is one a run can start from", "statement": "If Sampler(...) accepts its arguments and the requested sizes make sense (at least one active particle, positive n_effective, n_prior at least two if given), then the new sampler has at least one active particle, at least as many prior samples as active particles, an empty history, and with the default n_prior the warm-up batches cover the prior samples exactly.", "quantifier": "all argument combinations accepted by the constructor", "why_tests_cant": "all integers and floats for the sizes, all combinations of options", "anchors": ["pocomc/sampler.py: Sampler.__init__"]}
{"id": "C77", "title": "Training loss does not depend on weight normalisation", "statement": "The loss of a weighted training batch is unchanged when all sample weights are multiplied by the same positive constant, so Flow.fit may be given unnormalised weights.", "quantifier": "every network, every batch with non-zero total weight, every positive constant", "why_tests_cant": "all weights and networks", "anchors": ["pocomc/flow.py: Flow.fit"]}
{"id": "C78", "title": "Training noise follows the nearest-neighbour distance", "statement": "With noise switched on, the scale of the noise added to the training samples is the mean distance of a sample to its nearest different neighbour.", "quantifier": "every data set", "why_tests_cant": "all data sets", "anchors": ["pocomc/flow.py: Flow.fit"]}
{"id": "C79", "title": "Every epoch uses every training sample once", "statement": "In each epoch the batches partition the training set: each row appears exactly once, batches are non-empty and hold at most batch_size rows.", "quantifier": "every data set, every batch size, every shuffling order", "why_tests_cant": "all sizes and permutations", "anchors": ["pocomc/flow.py: Flow.fit"]}
{"id": "C80", "title": "The particle store is a faithful log", "statement": "For every key, update adds the given value as the last entry; index -1 and the entry's own index read it back, earlier entries stay readable under their index, pop removes exactly the last entry, and a flat read concatenates the entries in order. Reading or popping an empty key is an IndexError.", "quantifier": "every store content, every dictionary, all fifteen keys", "why_tests_cant": "all histories and keys", "anchors": ["pocomc/particles.py: Particles.update, Particles.pop, Particles.get"]}
{"id": "C81", "title": "Regularisation penalises as documented", "statement": "With a Laplace scale s and a Gaussian scale t the training loss is the plain loss plus |w|_1/s plus |w|_2^2/(2 t^2), and each term is present exactly when its scale is given.", "quantifier": "every network, every batch, all scales", "why_tests_cant": "all networks and batches", "anchors": ["pocomc/flow.py: Flow.fit, regularization_loss"]}
{"id": "C82", "title": "Closing the pool twice is harmless", "statement": "MPIPool.close may be called again (a with block closes the pool and the pool closes itself again at interpreter exit): each further call returns.", "quantifier": "all numbers of workers, all schedules, buffering or non-buffering MPI", "why_tests_cant": "needs MPI behaviour that differs between implementations", "anchors": ["pocomc/parallel.py: MPIPool.__init__, MPIPool.close, MPIPool.__exit__"]}
{"id": "C83", "title": "Extra likelihood arguments reach every call", "statement": "With likelihood_args=a and likelihood_kwargs=k the sampler evaluates the likelihood as f(x, *a, **k), at every point, in every evaluation mode (serial, pool, vectorised), and leaving an argument out is the same as passing an empty one.", "quantifier": "all likelihoods, argument lists and dictionaries (or None), batches of points, order-preserving pools", "why_tests_cant": "A test passes a few arguments in one evaluation mode; the claim ranges over every argument list and every mode.", "anchors": ["pocomc/tools.py: FunctionWrapper", "pocomc/sampler.py: Sampler.__init__, Sampler._log_like"]}
{"id": "C84", "title": "A saved state survives a crash", "statement": "Once save_state(path) has returned, path holds the saved state, also after the process dies or the machine loses power.", "quantifier": "every previous content of the disk, every state, every crash point after the return", "why_tests_cant": "Loss of power and the order in which a disk writes cannot be produced by a test.", "anchors": ["pocomc/sampler.py: Sampler.save_state"]}
{"id": "C85", "title": "Concurrent saves do not corrupt each other", "statement": "If several processes call save_state on one file system, with different temporary names, then at every moment every state file holds its initial content or all of what one of the calls wrote, whatever the interleaving and whichever of the processes die or raise.", "quantifier": "all interleavings, any number of processes and calls, all crash points and losses of power", "why_tests_cant": "Interleavings and crash points cannot be enumerated.", "anchors": ["pocomc/sampler.py: Sampler.save_state"]}
{"id": "C86", "title": "State files of runs with different labels stay complete", "statement": "Samplers with different output labels can run at the same time and save to the same directory: at every moment, and after a crash, each state file of each sampler holds its previous content or a complete state which this sampler saved under that name.", "quantifier": "any number of samplers, all labels without slashes, all sequences of saves, all interleavings and crash points", "why_tests_cant": "All labels, interleavings and crash points.", "anchors": ["pocomc/sampler.py: Sampler.run, Sampler.save_state"]}
{"id": "C87", "title": "The t proposal's degrees of freedom reflect the particles", "statement": "The number of degrees of freedom that Geometry.fit gives the t-preconditioned Crank-Nicolson kernels is estimated from the particles: it solves the maximum-likelihood equation of the Student-t model, the fallback 1e6 being used only when the estimate is infinite.", "quantifier": "every set of particles and weights, in double precision", "why_tests_cant": "a claim about all data; the sign of the equation at 1e300 is decided by rounding alone", "anchors": ["pocomc/student.py: fit_mvstud, opt_nu", "pocomc/geometry.py: Geometry.fit"]}
{"id": "C88", "title": "When fitting the geometry fails", "statement": "With at least two particles and valid weights, Geometry.fit raises (LinAlgError) exactly when the resampled particles all have the same value of some coordinate; otherwise it returns a positive definite scale matrix.", "quantifier": "every set of particles, weights and resampling draw", "why_tests_cant": "an if-and-only-if over all data sets", "anchors": ["pocomc/student.py: fit_mvstud", "pocomc/geometry.py: Geometry.fit"]}
{"id": "C89", "title": "The t fit does not depend on labels or units", "statement": "Permuting the particles leaves the Student-t fit unchanged; rescaling and translating each coordinate rescales and translates location and scale matrix accordingly and leaves the degrees of freedom unchanged.", "quantifier": "every data set, permutation, positive scale and offset", "why_tests_cant": "metamorphic relation over all inputs", "anchors": ["pocomc/student.py: fit_mvstud"]}
{"id": "C90", "title": "The options choose the kernel", "statement": "With precondition=False a run does not depend on the normalizing flow at all. With precondition=True every point at which the MCMC phase evaluates the likelihood is the image of a latent point under the flow. With sample='rwm' the MCMC phase uses only the covariance of the fitted geometry, with sample='tpcn' only its t distribution.", "quantifier": "every configuration, every flow, every run, all draws", "why_tests_cant": "independence of a component is a statement about all possible components; a test compares two", "anchors": ["pocomc/sampler.py: Sampler._mutate, _train, run", "pocomc/mcmc.py: all kernels"]}
{"id": "C91", "title": "The adapted centre of the proposals", "statement": "In preconditioned t-pCN the centre of the proposals after n steps is the average of the fitted location and the n ensemble means, so it never leaves a box containing the fitted location and the walkers. The other kernels keep the fitted location.", "quantifier": "every kernel call, every number of steps, all draws", "why_tests_cant": "a recursion over an unbounded number of random steps", "anchors": ["pocomc/mcmc.py: preconditioned_pcn, pcn, preconditioned_rwm, rwm"]}
{"id": "C92", "title": "Full-covariance rescaling whitens", "statement": "After Reparameterize(..., diagonal=False).fit(x), forward(x) has zero mean and identity sample covariance; fit raises LinAlgError exactly on batches in which some linear combination of the transformed coordinates is constant.", "quantifier": "every dimension, bounds, transform and batch of at least two points strictly inside the bounds", "why_tests_cant": "ranges over all batches and dimensions; the degenerate batches have measure zero", "anchors": ["pocomc/scaler.py: Reparameterize.fit, forward, _forward_affine"]}
{"id": "C93", "title": "A fit that raises leaves the transform as it was", "statement": "If Reparameterize.fit raises, the object keeps behaving as before the call: forward and inverse return the same values.", "quantifier": "every object, batch and point", "why_tests_cant": "needs every failing batch and every later query", "anchors": ["pocomc/scaler.py: Reparameterize.fit, forward, inverse"]}
{"id": "C94", "title": "The bounds argument means what it says", "statement": "Reparameterize(n_dim, bounds) accepts None (no bounds), one pair for all parameters, or one row per parameter as list or array; the object then has exactly these bounds: forward refuses a point iff it lies outside them.", "quantifier": "every dimension, every bounds argument of a documented kind, every point", "why_tests_cant": "ranges over all bounds; the rounding of a pair moves the bounds by a tiny amount", "anchors": ["pocomc/scaler.py: Reparameterize.__init__, forward, fit", "pocomc/input_validation.py: assert_array_float, assert_array_within_interval"]}
{"id": "C95", "title": "Options given are the options used", "statement": "n_active, n_effective, n_steps, n_max_steps, train_frequency, n_prior (if at least n_active), metric, sample, resample, transform, flow, precondition, dynamic, vectorize and pool given to Sampler(...) are the ones the run uses.", "quantifier": "all argument combinations accepted by the constructor", "why_tests_cant": "combinatorial; all integers for the sizes", "anchors": ["pocomc/sampler.py: Sampler.__init__", "pocomc/flow.py: Flow.__init__"]}
{"id": "C96", "title": "The error bar of the evidence is the bootstrap spread of the log evidence, a finite number", "statement": "After a run with preconditioning and n_evidence > 0, the second value of evidence() is the population standard deviation, over max(n_evidence, 1000) replicates, of the log of the mean importance weight of as many draws, taken with replacement, as lie in the support of the prior. It is a finite non-negative number, no larger than the spread of the log weights, and zero when all weights are equal.", "quantifier": "every session, likelihood, prior, flow draw and bootstrap draw", "why_tests_cant": "all weight patterns and all resampling draws; the failure (NaN) needs a replicate of zero-likelihood draws only", "anchors": ["pocomc/sampler.py: Sampler._compute_evidence", "pocomc/sampler.py: Sampler.evidence"]}
{"id": "C97", "title": "The flow is trained on schedule, on the weighted history", "statement": "With precondition=True an iteration of the main loop trains the flow (continuing from the flow it has) exactly when train_frequency divides the iteration number, or the new temperature is 1, or the flow has never been trained; otherwise, and always with precondition=False, the flow is unchanged. It is trained on the stored particles of all iterations with their importance weights at the new temperature, up to 1 % of the effective sample size. A run that returns leaves a trained flow, so the evidence is never estimated with an untrained one.", "quantifier": "every state reachable in any session of runs, saves and resumes, every draw, every train_frequency, every training result", "why_tests_cant": "all schedules and histories", "anchors": ["pocomc/sampler.py: Sampler._train, Sampler._reweight, Sampler.run"]}
{"id": "C98", "title": "MCMC uses the geometry of this iteration's particles", "statement": "The proposal geometry (mean, covariance, Student-t fit) used by the MCMC of an iteration is fitted in that iteration to that iteration's weighted particles, in the coordinates the MCMC uses; it never belongs to another flow than the one in use.", "quantifier": "every state reachable in any session, every draw, every train_frequency", "why_tests_cant": "all schedules and histories", "anchors": ["pocomc/sampler.py: Sampler._train, Sampler._mutate"]}
{"id": "C99", "title": "Starting values of the adaptation", "statement": "A new sampler starts MCMC with step size 2.38/sqrt(n_dim) (at most 0.99 for t-pCN); every later iteration starts with the step size the one before ended with. The share of distinct particles that dynamic=True aims at is the expected share of distinct values among n_active draws from n_effective equally likely ones; it lies in (0, 1].", "quantifier": "every accepted set of constructor arguments, every iteration", "why_tests_cant": "all settings", "anchors": ["pocomc/sampler.py: Sampler.__init__, Sampler._mutate", "pocomc/tools.py: unique_sample_size"]}
{"id": "C100", "title": "One epoch of training uses every row once, with its own noise and weight", "statement": "In every epoch of Flow.fit the optimiser makes one step per batch; the batches hold every training row exactly once, with its own weight and, if noise is given, its own displacement of noise times the noise scale; none is empty or larger than batch_size. The recorded training loss is the sum of the batch losses (each before its step) over the number of rows; the validation loss is that of the validation rows at the parameters after the epoch; the learning-rate schedule sees the validation loss if there is one. Without noise, fit returns whenever batch_size is positive and neither set is empty.", "quantifier": "every data set, weights, network, optimiser, noise, shuffle order, number of epochs", "why_tests_cant": "all data sets, orders and networks", "anchors": ["pocomc/flow.py: Flow.fit"]}
{"id": "C101", "title": "The proposal geometry is made of the particles, by weight", "statement": "The centre of the t fit and the weighted mean lie, in every coordinate, between two of the particles, whatever rounding and the root finder do. The t fit is made to n of the given particles, particle i being used n w_i / sum(w) times up to one. Equal weights give the same geometry as no weights.", "quantifier": "every set of particles and weights, resampling draw, rounding, root-finder outcome", "why_tests_cant": "all data sets and numerical outcomes", "anchors": ["pocomc/student.py: fit_mvstud", "pocomc/geometry.py: Geometry.fit"]}
{"id": "C102", "title": "Weights and evidence computed from the history are unbiased", "statement": "If every stored particle of iteration t follows the tempered posterior at its inverse temperature (particles may be dependent) and the stored evidences are the true ones, then for every beta the evidence computed from the history is the true evidence on average, and for every integrable f the weighted sum of f over all particles times that evidence is on average the integral of f L^beta over the prior.", "quantifier": "every prior, likelihood, temperature schedule, number of iterations and particles, joint law of the particles with the right marginals, beta, f", "why_tests_cant": "an identity between integrals for all laws", "anchors": ["pocomc/particles.py: Particles.compute_logw_and_logz"]}
{"id": "C103", "title": "The evidence estimated with the flow is unbiased", "statement": "After a run with preconditioning and n_evidence > 0, if each draw of the flow has the density the flow reports and the prior density is positive everywhere strictly inside the bounds, the evidence reported (not its logarithm) is on average the integral of likelihood times prior over the region inside the bounds.", "quantifier": "every session, likelihood, prior, bounds, transform, flow density, number of draws (draws may be dependent)", "why_tests_cant": "an identity between integrals for all densities; needs the change of variables through the fitted transform", "anchors": ["pocomc/sampler.py: Sampler._compute_evidence", "pocomc/scaler.py: Reparameterize.inverse"]}
{"id": "C104", "title": "The temperature search ends in double precision", "statement": "With the temperature held in a double and the midpoint rounded to a nearest double, the search for the next temperature ends for every history: it returns the last temperature, 1, or a temperature in between at which the effective size is within 1% of the target.", "quantifier": "every history of finite log-likelihoods, target, metric and rounding to nearest", "why_tests_cant": "the loop has no iteration limit; whether it ends depends on how the size varies between neighbouring doubles, for all histories", "anchors": ["pocomc/sampler.py: Sampler._reweight"]}
{"id": "C105", "title": "Sizes that cannot work are refused at construction", "statement": "Sampler(...) raises if n_active or n_effective is not a positive integer.", "quantifier": "every pair of integers given for n_active and n_effective, with every value of the other arguments", "why_tests_cant": "ranges over all integers and all other arguments", "anchors": ["pocomc/sampler.py: Sampler.__init__"]}
{"id": "C106", "title": "An MCMC phase ends at n_max_steps or after a plateau", "statement": "Each MCMC phase stops at the first step at which n_max_steps steps have been made, or at which the mean log-posterior of the walkers (with the log-Jacobian of the parameter scaling, for the random-walk kernels) has set no new record for at least n_steps*(2.38/sqrt(d)/sigma)^2 steps, sigma being the current proposal scale and the number being at most n_steps for the preconditioned random walk; it never stops before.", "quantifier": "every run of a kernel that returns: any walkers, likelihood, draws, n_steps, n_max_steps and kernel", "why_tests_cant": "ranges over all histories of the monitored mean, including records set after long plateaus", "anchors": ["pocomc/mcmc.py: preconditioned_pcn, preconditioned_rwm, pcn, rwm"]}
{"id": "C107", "title": "A run that raises leaves a whole history", "statement": "A call of Sampler.run may raise at any point: the likelihood, the training of the flow, the fit of a geometry or the linear algebra fails in any iteration. In every state a sampler reaches by any sequence of new, returned, failed, repeated and resumed runs, the stored history (what posterior(), evidence() and results read) consists of complete iterations only: n_active particles each, every particle with its own u, x, log-likelihood, log-prior, log-Jacobian and blobs, finite and strictly inside the prior's bounds, and temperatures in [0, 1] that do not decrease. The failed call removes and changes nothing that was stored before it; neither do the state files it wrote.", "quantifier": "all histories of runs that return or raise, all points of failure, all exceptions these components raise, all likelihoods that may fail intermittently, all random draws, all configurations, all numbers of particles, parameters and iterations", "why_tests_cant": "a test can inject an exception at a few chosen places; the claim is about every point of failure in every iteration and every sequence of failures and retries", "anchors": ["pocomc/sampler.py:Sampler.run", "pocomc/sampler.py:Sampler._reweight", "pocomc/sampler.py:Sampler._train", "pocomc/sampler.py:Sampler._resample", "pocomc/sampler.py:Sampler._mutate", "pocomc/particles.py:Particles.update"]}
{"id": "C108", "title": "A run that raised can be repeated", "statement": "After a call of Sampler.run raised (an intermittent failure of the likelihood, the flow or a fit), calling run again with everything working continues from the last complete iteration as if the failed iteration had not been attempted.", "quantifier": "all histories of runs that return or raise, all points of failure, all random draws, all configurations", "why_tests_cant": "depends on the point of failure and on the history before it; a test covers single points", "anchors": ["pocomc/sampler.py:Sampler.run", "pocomc/sampler.py:Sampler._not_termination", "pocomc/sampler.py:Sampler._train", "pocomc/sampler.py:Sampler._reweight"]}
{"id": "C109", "title": "A run can be interrupted at any moment without harm to the samples", "statement": "The user may interrupt Sampler.run (Ctrl-C, a KeyboardInterrupt raised between any two operations) at any moment, any number of times. Afterwards posterior() still returns the particles collected so far, each with its own log-likelihood, log-prior and weight, and run can be called again.", "quantifier": "all moments of interruption, all histories of runs that return, raise or are interrupted, all random draws, all configurations", "why_tests_cant": "the moment of an interrupt is arbitrary; the harmful moments are windows of a few bytecodes that no test hits by chance", "anchors": ["pocomc/sampler.py:Sampler.run", "pocomc/particles.py:Particles.update", "pocomc/sampler.py:Sampler.posterior", "pocomc/scaler.py:Reparameterize.fit"]}
{"id": "C110", "title": "A NaN log-likelihood never reaches a returned result", "statement": "Whatever values the log-likelihood returns, when run() returns, no stored log-likelihood is NaN. If a warm-up point has a NaN log-likelihood, the state holding it can never lead to a returned run, also not by resuming: the next iteration raises ValueError (the temperature search goes on to 1.0 and the NaN effective size cannot be converted to an integer).", "quantifier": "every likelihood (NaN anywhere), every session of runs and resumptions, all draws, all sizes; for the exception: every history holding a NaN whose last temperature is a double in [0, 1), every rounding to nearest with ties to even", "why_tests_cant": "NaN can arise at any evaluated point of any run; a test meets a few of them and cannot show that none gets through, or that every such run ends with the exception.", "anchors": ["pocomc/sampler.py:Sampler.run", "pocomc/sampler.py:Sampler._reweight", "pocomc/sampler.py:Sampler._not_termination", "pocomc/mcmc.py:preconditioned_pcn"]}
{"id": "C111", "title": "One MCMC step keeps an ensemble that is distributed as the tempered posterior so distributed", "statement": "If the walkers are independent draws from the tempered posterior (in the space in which the kernel moves) before an MCMC step, then after the step, whatever kernel is used and whatever the proposal scale, the centre and the covariance, the joint distribution of the ensemble is again that of independent draws from the tempered posterior: every measurable set of ensembles has the same probability before and after. The step is also a proper random step: its draws have a probability distribution and landing probabilities are measurable functions of the starting point.", "quantifier": "all dimensions and numbers of walkers, all four kernels, all finite likelihoods and priors of measurable tempered density, all temperatures, flows, scalers, covariances, centres and proposal scales, all measurable sets of ensembles", "why_tests_cant": "It is a statement about a probability distribution over uncountably many states; a simulation can only estimate a few moments up to sampling noise.", "anchors": ["pocomc/mcmc.py: preconditioned_pcn, preconditioned_rwm, pcn, rwm"]}
{"id": "C112", "title": "Nothing the likelihood does to the arrays it sees changes what the sampler has stored", "statement": "The stored positions, log-likelihoods, log-priors and blobs of every iteration are those the likelihood was evaluated at and returned, and they stay as they were stored, also if the user's likelihood function writes to the array it is called with or returns the same array object from every call. In particular the result of any sequence of runs is a function of the values the likelihood returns, not of how it treats memory.", "quantifier": "all likelihood functions, including those that write to their argument and those that return a preallocated array; serial, pool and vectorised evaluation; all settings, draws and sequences of runs", "why_tests_cant": "It concerns sharing between array objects: a test sees damage only if it happens to use a likelihood that mutates in the right phase and compares with an unshared computation; it must hold for every such function and every moment at which an array is shared.", "anchors": ["pocomc/sampler.py: Sampler.run, Sampler._log_like, Sampler._mutate, Sampler._resample", "pocomc/particles.py: Particles.update", "pocomc/mcmc.py: preconditioned_pcn, preconditioned_rwm, pcn, rwm"]}
{"id": "C113", "title": "The recorded diagnostics describe the iteration", "statement": "The diagnostics stored with an iteration (results: steps, accept, efficiency, calls) describe the MCMC phase that produced its particles: steps is the number of MCMC steps made, accept the mean acceptance probability of the last step, efficiency the final proposal scale divided by 2.38/sqrt(n_dim), calls the likelihood counter. In every reachable state steps is between 1 and max(1, n_max_steps), accept is a number in [0, 1], and efficiency is a number (with t-pCN between 0 and max(1, 0.99 sqrt(n_dim)/2.38), with the random walk without a flow not negative). Warm-up batches record one step, acceptance and efficiency one, temperature and log-evidence zero.", "quantifier": "all sequences of runs, resumes and loads, all settings, likelihoods, priors and random draws", "why_tests_cant": "A test can compare the numbers of one run; that no run ever records a value outside its range, or of another iteration or step, is a statement about all of them.", "anchors": ["pocomc/sampler.py: Sampler._mutate, Sampler.run", "pocomc/mcmc.py: preconditioned_pcn, preconditioned_rwm, pcn, rwm"]}
{"id": "C114", "title": "With a bounded likelihood a run ends, whatever the draws", "statement": "If the log-likelihood takes only the value -inf and values between two numbers inside the prior's bounds, then sampler.run(...) returns (under the conditions of C75 under which it does not raise), after a number of main-loop iterations that is bounded by an explicit number computed from the two bounds, the settings (n_active, n_effective, dynamic), and n_total: it does not depend on the random numbers, on the quality of the flow, or on whether any MCMC proposal is ever accepted.", "quantifier": "all likelihoods with values in {-inf} or [lo, hi], all draws, all flows and geometries the libraries may return, both effective-size metrics, both resampling schemes, dynamic on or off, new, resumed and continued sessions, all n_total", "why_tests_cant": "a test runs one stream of random numbers; that no stream, however unlucky, makes the two loops (temperature search and iterations) run forever needs a proof", "anchors": ["pocomc/sampler.py:run", "pocomc/sampler.py:_not_termination", "pocomc/sampler.py:_reweight", "pocomc/particles.py:compute_logw_and_logz"]}
{"id": "C115", "title": "What a run costs in likelihood evaluations", "statement": "The number of points at which run() evaluates the likelihood is at most n_active for each MCMC step it records in results['steps'] (each warm-up batch records one step, each later iteration between 1 and max(1, n_max_steps)), plus n_evidence when the evidence is estimated with the flow. So a run of at most n iterations evaluates at most n_prior + n * n_active * max(1, n_max_steps) + n_evidence points; and with a bounded log-likelihood the run ends and this total is below a number computed from the bounds, the settings and the arguments, whatever the random draws.", "quantifier": "all user functions, prior and likelihood values, states the run starts from, settings, arguments and random draws", "why_tests_cant": "the number of evaluations depends on the acceptance history, the plateau stopping rule, how many temperatures are used and which proposals have a finite prior; a budget has to hold for all of them", "anchors": ["pocomc/sampler.py:Sampler.run", "pocomc/sampler.py:Sampler._mutate", "pocomc/sampler.py:Sampler._compute_evidence", "pocomc/mcmc.py:preconditioned_pcn", "pocomc/mcmc.py:preconditioned_rwm", "pocomc/mcmc.py:pcn", "pocomc/mcmc.py:rwm"]}
{"id": "C116", "title": "Every guarantee holds for the numbers real generators return", "statement": "The random numbers of a run come from the process-wide numpy and torch generators, drawn one after the other; what a call returns may depend on everything drawn before and on the call's arguments. Whatever these generators are, and whatever their state when run() is called, the state files written and the sampler (or exception) obtained are those of a run whose every draw is a value the generators returned for the corresponding request (right number of values, in range). Hence every state reached by runs, loads of state files and other code drawing in between is one the other guarantees (stated for all admissible draws) cover.", "quantifier": "all generators whose calls return the requested number of values in the documented ranges, all generator states, all samplers, run arguments and iteration budgets, all histories of runs, loads and foreign draws", "why_tests_cant": "A test uses one generator and a few seeds; the claim is about any generator and any dependence of the draws on the history of the process.", "anchors": ["pocomc/sampler.py: Sampler.run, _mutate, _train, _resample, _compute_evidence", "pocomc/mcmc.py: preconditioned_pcn, preconditioned_rwm, pcn, rwm", "pocomc/tools.py: systematic_resample"]}
{"id": "C117", "title": "random_state makes the results reproducible", "statement": "A sampler built with random_state=n gives the same results whenever it is run with the same arguments, whatever else happens in the process. (False: the constructor seeds the process-wide generators once; two samplers built with the same random_state and run one after the other evaluate the likelihood at different points, and building an unrelated sampler between construction and run changes the results. True: built and run at once, any number of times, with nothing else drawing in between, the results depend on n only, whatever happened in the process before.)", "quantifier": "all programs that build and run samplers and draw random numbers, all generator states, seeds and arguments", "why_tests_cant": "A test runs one program from one initial state of the generators; the claim is about every program that ran before and every program that runs in between.", "anchors": ["pocomc/sampler.py: Sampler.__init__ (195-198, 286), Sampler.run"]}
{"id": "C118", "title": "Trimming discards little weight", "statement": "The samples trim_weights keeps hold at least the fraction ess of the total weight. Hence a weighted average of any function bounded by M over the samples posterior() returns with trimming differs from the one without trimming by at most 2 (1 - ess_trim) M (0.02 M with the defaults).", "quantifier": "all weight vectors, sample lists, targets ess <= 1 and numbers of bins; for posterior: every session state with particles, every bounded function", "why_tests_cant": "A test compares two averages for some weights and functions; the guarantee is a bound for every weight vector and every bounded function.", "anchors": ["pocomc/tools.py:trim_weights", "pocomc/sampler.py:Sampler.posterior"]}
{"id": "C119", "title": "With more particles per iteration the recorded evidences, the evidence and the posterior averages converge to the true values", "statement": "Take a fixed sequence of temperatures and let the particles of every iteration be independent draws from the tempered posterior of that iteration (what the Markov-chain steps aim at). Every recorded log-evidence is the one the sampler computes from the iterations before it (0 at temperature 0). Then, as the number of particles per iteration grows, with probability one every recorded log-evidence converges to the true log-evidence at its temperature, the log-evidence computed from the whole history at any temperature converges to the true one, and the weighted average of any integrable function over the returned samples converges to its posterior expectation: errors of early iterations do not accumulate.", "quantifier": "every prior, log-likelihood, sequence of temperatures, final temperature and integrable function; every realisation of the draws outside a set of probability zero", "why_tests_cant": "A statement about a limit in the number of particles and about almost every sequence of draws; a test sees finitely many of both.", "anchors": ["pocomc/particles.py: Particles.compute_logw_and_logz", "pocomc/sampler.py: Sampler._reweight, Sampler.posterior, Sampler.evidence"]}
{"id": "C120", "title": "An error in the likelihood reaches the caller of run", "statement": "If the likelihood raises for some point, the exception reaches the code that called the sampler, in every evaluation mode: one by one, vectorised, with a pool, with MPIPool. (False for MPIPool: the worker process dies with the exception, and map waits for its result for ever; it neither returns nor raises, and the other workers are never told to stop.)", "quantifier": "every likelihood, batch, evaluation mode; for MPIPool every number of workers and every schedule, whether or not MPI buffers messages", "why_tests_cant": "That a call never returns under any schedule cannot be observed by running it; which row fails, on which worker and when, varies.", "anchors": ["pocomc/parallel.py: MPIPool.wait, MPIPool.map", "pocomc/sampler.py: Sampler._log_like"]}
{"id": "C121", "title": "A log-likelihood of +inf never reaches a returned result", "statement": "A likelihood that overflows to +inf at some point of parameter space is either never accepted or reported: no call of run() returns with a particle of infinite likelihood in its history. (False of the code: an infinite likelihood always wins the Metropolis comparison, the effective sample size becomes NaN, NaN < n_total is False, and the run returns. What holds: the log-evidence is then NaN, posterior() raises IndexError with trimming, returns only NaN weights without it; but with resample=True, systematic resampling and no trimming it silently returns copies of the first particle.)", "quantifier": "every sampler configuration, every sequence of runs and loads, all random numbers, every likelihood; every argument of posterior()", "why_tests_cant": "The failure needs a proposal that hits the overflow at temperature 1; that nothing computed from such a history looks like a result has to hold for every history and every argument.", "anchors": ["pocomc/mcmc.py: preconditioned_pcn, preconditioned_rwm, pcn, rwm", "pocomc/sampler.py: Sampler._not_termination, Sampler.posterior, Sampler.evidence", "pocomc/particles.py: compute_logw_and_logz", "pocomc/tools.py: trim_weights, systematic_resample"]}
{"id": "C122", "title": "Importance weights and ESS are accurate in double precision", "statement": "In IEEE double precision, from n log-weights without NaN and +inf and not all -inf (n up to 2^40), and whatever the order in which numpy adds: exp(logw - max(logw)) are numbers in [0,1], one of them exactly 1; effective_sample_size normalises them in place to numbers in [0,1] that are the exact normalised weights up to a relative error n*2^-49 + 2^-36 (plus 2^-900), with exact sum within n*2^-49 of one; and it returns the exact effective sample size up to the relative error n*2^-45 + 2^-35.", "quantifier": "every list of log-weights (including -inf entries), every arithmetic with the properties of double rounding, every order of summation", "why_tests_cant": "accumulated rounding depends on the values, their number and numpy's summation order; a test sees a few lists on one machine", "anchors": ["pocomc/tools.py: effective_sample_size", "pocomc/sampler.py: Sampler.posterior, Sampler._resample, Sampler._reweight"]}
{"id": "C123", "title": "Trimming works in double precision", "statement": "In IEEE double precision, for n non-negative weights (n up to 2^40) whose sum is at least 2^-200, trim_weights returns for every target ess up to 1 - n*2^-44: it keeps exactly the (sample, weight) pairs of weight at least some t, at least one, in order; the returned weights are doubles in [0,1], the kept weights divided by their sum up to a relative error n*2^-47 (plus 2^-900), with sum within k*2^-49 of one for k kept pairs; and the effective sample size of the kept weights is at least ess - n*2^-44 times that of all the weights.", "quantifier": "every list of weights and samples, every target ess in the range, every number of bins, every arithmetic with the properties of double rounding", "why_tests_cant": "rounding in the loop's comparison could make the loop run off the grid or keep too little for some weights; a test sees a few lists", "anchors": ["pocomc/tools.py: trim_weights"]}
{"id": "C124", "title": "Resampling in double precision returns valid indices in the right proportions", "statement": "In IEEE double precision, for weights as trimming returns them (n up to 2^20) multinomial resampling (numpy.random.choice) never raises, every uniform draw selects a valid index of positive weight, and index j is selected on an interval of length w[j] up to n*2^-45; systematic_resample for every draw u in [0,1) returns size valid indices in non-decreasing order, index j within 1 + size*n*2^-46 of size*w[j] times.", "quantifier": "every weight vector within rounding of a probability vector, every size, every uniform draw, every arithmetic with the properties of double rounding", "why_tests_cant": "the failing draws have probability below size*n*2^-46 and depend on how the cumulative sum rounds", "anchors": ["pocomc/tools.py: systematic_resample", "pocomc/sampler.py: Sampler._resample, Sampler.posterior"]}
{"id": "C125", "title": "Importance weights and evidence in double precision", "statement": "In IEEE double precision, for a history of T iterations of n particles (N = T*n up to 2^40) with temperatures in [0,1] and log-likelihoods and log-evidences of absolute value at most M, compute_logw_and_logz returns finite numbers: the log-evidence is the exact one up to N*2^-46*(M+32), every log-weight is the logarithm of the exact normalised importance weight up to N*2^-45*(M+32) (with normalize=False, of the unnormalised one up to T*2^-47*(M+32)); and the weights that effective_sample_size makes from them are the exact normalised weights up to a relative error of N*2^-42*(M+32) + 2^-34.", "quantifier": "every history of any number of iterations and particles, every temperature asked for, every arithmetic with the properties of double rounding", "why_tests_cant": "rounding errors depend on all the numbers in the history; tests compare a few histories with a reference computed in the same arithmetic", "anchors": ["pocomc/particles.py: Particles.compute_logw_and_logz", "pocomc/tools.py: effective_sample_size"]}
{"id": "C126", "title": "The inverse transformation respects the bounds in double precision", "statement": "In IEEE double precision, Reparameterize.inverse maps every double and both infinities to a number between the bounds given by the user, for both transformations: never below a finite lower bound, never above a finite upper bound.", "quantifier": "every pair of double bounds, every unconstrained value (finite or infinite), both transformations, every arithmetic with the properties of double rounding", "why_tests_cant": "whether the bound is exceeded depends on the last bits of the bounds and of the value; random tests rarely meet such a pair", "anchors": ["pocomc/scaler.py: Reparameterize.inverse, _inverse_left, _inverse_right, _inverse_both"]}
{"id": "C127", "title": "inverse(forward(x)) returns to x in double precision", "statement": "In IEEE double precision, for a parameter with two finite bounds and the logit transformation, inverse(forward(x)) is within 2^-47*(1+|mu|)*(|low|+|high|) of x for every double x in the closed interval, end points included, where mu is the mean learned by fit.", "quantifier": "every pair of double bounds, every x in the interval, every fitted mean up to 2^30 and scale, every arithmetic with the properties of double rounding", "why_tests_cant": "the logit loses relative precision near the bounds; a test on a grid says nothing about the doubles next to a bound", "anchors": ["pocomc/scaler.py: Reparameterize.forward, inverse, _forward_both, _inverse_both, _forward_affine, _inverse_affine"]}
{"id": "C128", "title": "The reported log-Jacobian is accurate in double precision", "statement": "In IEEE double precision, for a parameter with two finite bounds and the logit transformation, the log-determinant that Reparameterize.inverse returns is finite and equals the logarithm of the derivative of the exact inverse transformation up to rounding, at every unconstrained value. For a parameter with one finite bound or none it is exact.", "quantifier": "every pair of double bounds, every double u, every arithmetic with the properties of double rounding", "why_tests_cant": "the cancellation in 1 - p grows like exp(u); tests at moderate values do not meet it", "anchors": ["pocomc/scaler.py: Reparameterize.inverse, _inverse_both"]}
{"id": "C129", "title": "Boundary conditions return in double precision", "statement": "In IEEE double precision, applying the periodic or reflective boundary conditions to a finite point returns; the result is within the bounds (up to rounding), is unchanged for a point inside, and for periodic parameters differs from the point by a whole number of widths (up to rounding).", "quantifier": "every pair of double bounds, every finite x, every arithmetic with the properties of double rounding", "why_tests_cant": "whether a loop ends on all doubles is not settled by points that a test tries", "anchors": ["pocomc/scaler.py: Reparameterize.apply_boundary_conditions_x, _apply_periodic_boundary_conditions_x, _apply_reflective_boundary_conditions_x"]}
{"id": "C130", "title": "Repeated MCMC steps converge to the tempered posterior", "statement": "Repeating one MCMC step of any of the four kernels at a fixed proposal scale (and centre) moves the distribution of a walker to the tempered posterior: from every point of positive density a step can reach every set of positive posterior mass, and from every starting distribution on such points the probability of every set converges, uniformly over sets, to its posterior probability.", "quantifier": "every likelihood, prior, flow and scaler with a proper posterior; every regular covariance; every non-zero scale; every starting distribution; every accuracy", "why_tests_cant": "a limit over infinitely many steps and all measurable sets cannot be observed; a chain that is stuck in one region looks converged", "anchors": ["pocomc/mcmc.py: preconditioned_pcn, preconditioned_rwm, pcn, rwm"]}
{"id": "C131", "title": "Accept/reject decisions in double precision", "statement": "In IEEE double precision the acceptance probability that an MCMC step computes is a number in [0, 1] and differs from the exact one only by rounding (at most 2^-43 times one plus the largest of the numbers that enter), so a proposal is accepted with its exact probability up to that error over the values np.random.rand can return; a proposal with NaN or -inf log-likelihood or log-prior is not accepted.", "quantifier": "every kernel, walker, proposal, temperature in [0,1], degrees of freedom; every arithmetic with the properties of double rounding", "why_tests_cant": "ten rounded operations with cancellation: the error depends on magnitudes a test does not reach", "anchors": ["pocomc/mcmc.py: preconditioned_pcn, preconditioned_rwm, pcn, rwm (Metropolis factors)"]}
{"id": "C132", "title": "The whole algorithm, resampling and moves included, converges to the true evidence and posterior averages as the number of particles grows", "statement": "Run the sampler with a fixed sequence of temperatures and multinomial resampling: the warm-up iterations draw from the prior; every later iteration computes weights and evidence from the whole history so far at its temperature, trims these weights, picks its particles from that history with the trimmed weights and moves each one by a Markov kernel that leaves the tempered posterior invariant (what the Metropolis steps do, see C111). The log-likelihood is bounded. Then, as the number of particles grows, in probability: every recorded log-evidence converges to the true one at its temperature, the plain average of any bounded function over the particles of an iteration converges to its expectation under the tempered posterior of that iteration, the log-evidence computed from the final history at any temperature converges to the true one, and the weighted average of any bounded function over the returned samples converges to its posterior expectation. No mixing of the moves is needed, and errors made in one iteration do not spoil the later ones.", "quantifier": "every prior, bounded log-likelihood, number of warm-up iterations, sequence of temperatures, sequence of invariant kernels, final temperature and bounded measurable function", "why_tests_cant": "A limit in the number of particles of probabilities over all runs; particles are dependent through the resampling, so no single run or finite set of runs shows it.", "anchors": ["pocomc/particles.py: Particles.compute_logw_and_logz", "pocomc/sampler.py: Sampler._reweight, Sampler._resample, Sampler._mutate, Sampler.posterior, Sampler.evidence"]}
{"id": "C133", "title": "With trimming and adaptive temperatures, the bias in the limit of many particles is bounded by the trimmed fraction", "statement": "In a run that picks each temperature from the weighted history, trims the normalised weights with parameter e (the code uses 0.99), picks particles with the trimmed weights and moves them by steps that leave the tempered posterior invariant, as the number of particles grows every evidence, every particle average and the final evidence and weighted averages are within an explicit multiple of 1 - e of the true values at the temperature the run itself chose, up to an error that vanishes in probability. The multiple depends only on the bound on the log-likelihood and the number of iterations after warm-up. With e = 1 the run is consistent.", "quantifier": "every prior, every bounded measurable log-likelihood, every number of warm-up and other iterations, every trimming parameter at most 1, every sequence of random temperatures and adaptation parameters the choice produces, every bounded measurable function", "why_tests_cant": "a limit over the number of particles, for every prior and likelihood, with temperatures that depend on the sample", "anchors": ["pocomc/sampler.py: Sampler._reweight, Sampler._resample, Sampler._mutate", "pocomc/tools.py: trim_weights, compute_ess", "pocomc/particles.py: Particles.compute_logw_and_logz"]}
{"id": "C134", "title": "Blobs are stored with the values the likelihood returned", "statement": "The blob stored with a point has the values the likelihood returned for that point.", "quantifier": "every likelihood returning one or more numbers, truth values or texts as blobs, every batch of points, every order of the points in it, blobs_dtype given or not", "why_tests_cant": "whether a value is changed depends on the type of the blob at whichever point happens to come first in a batch", "anchors": ["pocomc/sampler.py: Sampler._log_like", "pocomc/mcmc.py: blobs_prime", "pocomc/particles.py: Particles.get"]}
{"id": "C135", "title": "Any documented kind of blob can be used in a run", "statement": "If the likelihood returns numbers or strings as blobs, the MCMC phase works as it does without blobs: it does not raise because of the type of the blobs, and the blobs are carried along unchanged.", "quantifier": "every likelihood returning a fixed number of blobs of one type, every kernel, all random numbers and starting points", "why_tests_cant": "the exception depends on the type of the blob together with whether any proposal of a step is in the prior support", "anchors": ["pocomc/mcmc.py: preconditioned_pcn, preconditioned_rwm, pcn, rwm", "pocomc/sampler.py: Sampler._log_like"]}
{"id": "C136", "title": "A run does not depend on the units of the parameters", "statement": "Let every parameter be measured in other units, y = a x + b with a > 0 for each parameter on its own, with the bounds, the prior density, the likelihood and the prior draws expressed in the new units. With the same random numbers, the whole run is the same run in the new units: every saved state and the final state have the same weights, temperatures, unbounded coordinates, log-likelihoods, log-evidences, acceptance rates, step counts, likelihood calls, flow, geometry and blobs, the points are converted, and the stored log-priors and log-determinants change by the log-volume of the conversion with opposite signs; state files have the same names and an exception is the same exception. posterior() returns the converted samples with the same weights and evidence() the same numbers.", "quantifier": "every conversion of units, likelihood (vectorised or not, with or without blobs and an order-preserving pool), prior, set of bounds (none, one-sided, two-sided), periodic and reflective parameters, transformation, settings, random numbers, number of iterations, new or resumed run, finite or not", "why_tests_cant": "A test compares two runs for one conversion on one problem and sees rounding differences; the property is about every conversion, problem and random stream.", "anchors": ["pocomc/sampler.py:Sampler.run", "pocomc/sampler.py:Sampler._compute_evidence", "pocomc/scaler.py:Reparameterize.fit", "pocomc/scaler.py:Reparameterize.forward", "pocomc/scaler.py:Reparameterize.inverse", "pocomc/scaler.py:Reparameterize.apply_boundary_conditions_x", "pocomc/mcmc.py:preconditioned_pcn", "pocomc/sampler.py:Sampler.posterior"]}
{"id": "C137", "title": "Asking for more samples later equals asking for them at once", "statement": "Calling run(n_total=N1) and then run(n_total=N2) with N2 >= N1 (and so on, any number of times) on the same sampler ends with the same particles (every stored column), flow, geometry, iteration number, evidence, evidence error and posterior() output as a single run with the last call's arguments, provided each iteration uses the same random numbers; only the call counter and the list of evaluated points may differ, by the evidence computations of the earlier runs. A later call asking for no more samples than before makes no iteration and leaves the particles, the flow and the iteration number as they are; repeating the same call returns at once with the same evidence.", "quantifier": "every user function triple with consistent blobs, every configuration, every session state the first run starts from, every sequence of run arguments with non-decreasing n_total and any n_evidence and save_every != 0, every random draws", "why_tests_cant": "A statement about two histories of any length and all arguments; a test compares a few seeds and cannot fix the random numbers per iteration.", "anchors": ["pocomc/sampler.py:Sampler.run", "pocomc/sampler.py:Sampler._not_termination", "pocomc/sampler.py:Sampler._compute_evidence", "pocomc/sampler.py:Sampler._mutate"]}
{"id": "C138", "title": "Pools, vectorisation and saving do not change a run", "statement": "With a pool whose map keeps the order, with vectorize=True for a likelihood that agrees with itself row by row, or with neither, and with any save_every other than 0, a whole run does the same: it ends in the same final state (particles, evidence, call count, flow) or with the same exception; pools and vectorisation also leave the state files unchanged.", "quantifier": "every likelihood (with extra arguments; with blobs for the pool part), every order-preserving pool, every configuration, starting state, run arguments and random draws", "why_tests_cant": "It is an equality of two executions of any length for all likelihoods and draws.", "anchors": ["pocomc/sampler.py:Sampler._log_like", "pocomc/sampler.py:Sampler.run", "pocomc/sampler.py:Sampler.__init__", "pocomc/tools.py:FunctionWrapper"]}
{"id": "C139", "title": "The prior is needed only up to a constant, except by the flow's evidence estimate", "statement": "If the prior's log-density is changed by adding a constant c and the random numbers are the same, a whole run does the same: same points, weights, temperatures, log-likelihoods, acceptance rates, flow, blobs, state files and exceptions, only the stored log-priors change by c. The log-evidence reported without n_evidence (or without preconditioning) is unchanged; the one estimated with n_evidence draws from the flow changes by exactly c and its error not at all. posterior() returns the same samples and weights. So two ways of giving the evidence of an unnormalised prior disagree by the log of its normalising constant.", "quantifier": "every real c, likelihood, prior log-density, configuration, starting state (new or resumed), run arguments, random draws and posterior options; no finiteness assumed", "why_tests_cant": "An equality of two executions of any length for all priors, constants and draws; a test checks one constant on one seed and in floating point only approximately.", "anchors": ["pocomc/sampler.py:Sampler.run", "pocomc/sampler.py:Sampler._compute_evidence", "pocomc/mcmc.py:preconditioned_pcn", "pocomc/mcmc.py:rwm", "pocomc/sampler.py:Sampler.posterior"]}
{"id": "C140", "title": "The MCMC phase treats the walkers alike", "statement": "If the walkers of an MCMC phase are put in another order, each keeping its own random numbers, the phase returns the same walkers in that order, with the same number of steps and likelihood calls, the same mean acceptance, efficiency and adapted proposal scale, and it evaluates the likelihood at the same points as often. So no walker is favoured by its position, and the set of returned walkers does not depend on the order in which resampling left them.", "quantifier": "all four kernels, every number of walkers, every reordering, every prior and likelihood that judge each point by itself (with or without blobs), every scaler, bounds and boundary conditions, all random numbers, NaN and infinities included", "why_tests_cant": "It ranges over all orders, all random numbers and any number of steps; tests cannot hand each walker its own random numbers.", "anchors": ["pocomc/mcmc.py:preconditioned_pcn", "pocomc/mcmc.py:preconditioned_rwm", "pocomc/mcmc.py:pcn", "pocomc/mcmc.py:rwm", "pocomc/sampler.py:Sampler._mutate"]}
{"id": "C141", "title": "The arrays handed to the caller are the caller's to change", "statement": "Whatever the caller does in place with the arrays returned by posterior() or with the dictionary sampler.results (sorting, standardising, overwriting), the sampler does not notice: its stored history is unchanged, a second posterior() returns the same as it would have, further runs end as they would have, and the next access to results shows the run again. The last part is false of the code: results returns the cached dictionary itself, so what the caller wrote there is what every later access returns.", "quantifier": "every state reached by any number of finished runs in memory (arrays with identities, views and copies), every option of posterior, every content the caller may write into any of the returned arrays", "why_tests_cant": "It quantifies over everything a caller may write into any returned array and over all later calls; whether two arrays share memory is not visible in their values.", "anchors": ["pocomc/sampler.py:Sampler.posterior", "pocomc/sampler.py:Sampler.results", "pocomc/particles.py:Particles.get", "pocomc/particles.py:Particles.compute_results"]}
{"id": "C142", "title": "Looking at results does not spoil later results", "statement": "After any access to sampler.results, whether it succeeded or raised, an access after a run that stored iterations shows the iterations of that run together with their log-weights. False of the code when results is read before the first iteration is stored: the access raises ValueError, but leaves an empty dictionary in the cache, and from then on every access shows an empty history without log-weights, whatever was run in between. On a sampler with a history whose results were not read before, the access always succeeds and shows the whole history and the log-weights of temperature one.", "quantifier": "every sampler state without stored iterations, every state reached later; every state with a rectangular history", "why_tests_cant": "It concerns every history of calls in which an access to results comes too early; tests read results after a run.", "anchors": ["pocomc/particles.py:Particles.compute_results", "pocomc/sampler.py:Sampler.results"]}
{"id": "C143", "title": "The progress bar shows the iterations as they are recorded and does not matter for the run", "statement": "Whatever progress and resume_state_path are, keeping the progress bar changes nothing in a run: same final state or same exception. At the end of every iteration, warm-up included, the bar shows exactly what is recorded for it (calls, temperature, effective size rounded down, log-evidence, mean log-posterior, acceptance, steps, efficiency) and counts the iterations; progress=False hides it. Three parts are false of the code: in a later run of the same sampler the number of calls shown differs from the recorded one by the calls made for the evidence of the run before; a resumed run ignores the argument progress and shows or hides the bar as the run that wrote the file; and a state saved before the first iteration cannot be resumed, because the bar asks for the last iteration (IndexError).", "quantifier": "every session (new, continued, resumed), run arguments, draws, numbers of iterations; every likelihood with values in [-inf, inf) for the part on exceptions", "why_tests_cant": "It concerns every iteration of runs of any length and the agreement of two separately maintained sets of numbers; the bar is not tested.", "anchors": ["pocomc/tools.py:ProgressBar", "pocomc/sampler.py:Sampler.run", "pocomc/sampler.py:Sampler._reweight", "pocomc/mcmc.py"]}
{"id": "C144", "title": "The adaptation of the step size fades and aims at 23.4 % acceptance", "statement": "Within an MCMC phase the step size changes at step i by at most 0.766/(i+1)^0.75 for t-pCN and 0.766/(i+1) for the random walks, and the centre of preconditioned t-pCN by at most the extent of the ensemble over i+1, whatever is accepted. A step at which at least 23.4 % of the proposals is accepted does not lower the step size; one at which less is accepted does not raise it.", "quantifier": "every kernel, every number of steps, all likelihoods, walkers and draws, every iteration of every run", "why_tests_cant": "a random recursion over an unbounded number of steps; the exceptions are in rare corners (very small step sizes)", "anchors": ["pocomc/mcmc.py: preconditioned_pcn, preconditioned_rwm, pcn, rwm", "pocomc/sampler.py: Sampler._mutate"]}
{"id": "C145", "title": "Evidence when the likelihood is zero in part of the prior", "statement": "evidence() estimates the integral of the likelihood over the prior, also for a log-likelihood that is -inf in a region of positive prior probability: prior samples that fall in the region count as zeros. (False of the code: the warm-up replaces them by copies of samples with finite likelihood and records log-evidence 0 all the same, so the SMC estimate is that of the integral divided by the prior probability of the complement of the region. For a likelihood that is 1 or 0 the report is log 1 always.)", "quantifier": "All log-likelihoods with values 0 or -inf, all histories of runs and loads, all seeds and configurations for which evidence() is the SMC estimate; for a single batch all log-likelihoods, all powers of the likelihood and all choices of replacements.", "why_tests_cant": "The error is a constant factor that depends on the user's prior and likelihood; a test would need the true evidence, and a run shows nothing unusual.", "anchors": ["pocomc/sampler.py: Sampler.run (warm-up, replacement of infinite log-likelihoods)", "pocomc/sampler.py: Sampler.evidence", "pocomc/particles.py: Particles.compute_logw_and_logz"]}
{"id": "C146", "title": "The resolution of a preconditioned run is single precision", "statement": "The flow works in single precision. So with preconditioning (and no periodic or reflective parameters) every particle a run adds after the warm-up is, in the unconstrained and standardised coordinates, either a copy of a particle stored before or has coordinates in single precision (a significand of 24 bits). For a parameter without bounds whose prior samples have mean mu and standard deviation sigma, two different stored values of such particles that lie at least sigma*2^k above mu are at least sigma*2^(k-23) apart: a posterior narrower than that, relative to the prior, is represented by a single value.", "quantifier": "every flow that returns single-precision values, every run, every history, every random stream", "why_tests_cant": "tests use posteriors that are wide compared with the prior; the spacing must hold for every particle of every run", "anchors": ["pocomc/tools.py: flow_numpy_wrapper.inverse, numpy_to_torch", "pocomc/flow.py: Flow.inverse", "pocomc/mcmc.py: preconditioned_pcn, preconditioned_rwm", "pocomc/scaler.py: Reparameterize._inverse_affine"]}
{"id": "C147", "title": "The evidence lies between the extremes of the likelihood", "statement": "In every state a sampler can reach, if all log-likelihoods in the history are between m and M, the log-evidence recorded with an iteration at inverse temperature beta is between beta*m and beta*M; the log-evidence reported by a run that estimates it from its particles is between the smallest and the largest stored log-likelihood. With R = exp(M-m), the effective sample size of the history as a sample of the posterior is at least the fraction 4R/(1+R)^2 of the number of stored particles, and if that is at least n_effective (and the effective sample size at the current temperature exceeds it) the next iteration goes straight to inverse temperature 1.", "quantifier": "every likelihood that returns finite values or -inf, every session (runs, continued runs, loaded states), every random stream", "why_tests_cant": "each recorded evidence depends on all the earlier ones through the mixture weights; the bound must survive any number of iterations and any temperatures", "anchors": ["pocomc/particles.py: Particles.compute_logw_and_logz", "pocomc/sampler.py: Sampler._reweight, Sampler.run, Sampler.evidence"]}
{"id": "C148", "title": "Trimming the posterior cuts at one value of the likelihood", "statement": "In every state a sampler with stored particles can reach, posterior() with trimming and without resampling returns exactly the stored particles whose log-likelihood is at least some value t, which is the log-likelihood of one of them: no particle is dropped while a less likely or equally likely one is kept, so the most likely particle found is always returned. Trimmed or not, the weight (or log-weight) of a returned particle is never below that of a less likely one, and is strictly above it if some iteration was recorded below inverse temperature one.", "quantifier": "every likelihood that returns finite values or -inf, every session (runs, continued runs, loaded states), every random stream, every ess_trim <= 1 and number of bins", "why_tests_cant": "the weights depend on all recorded temperatures and evidences through the mixture; that the order of the weights is the order of the likelihoods must hold for any history", "anchors": ["pocomc/sampler.py: Sampler.posterior", "pocomc/tools.py: trim_weights", "pocomc/particles.py: Particles.compute_logw_and_logz"]}
{"id": "C149", "title": "Resampled posterior samples have the right averages", "statement": "In every state a sampler with stored particles can reach, posterior(resample=True) returns as many rows as posterior(resample=False) with the same trimming, each a row of it. With systematic resampling a row of weight w among N is returned N*w times rounded up or down, rows stay in order, and averaged over the uniform draw the plain mean of any quantity over the returned rows equals its weighted mean over the output without resampling. With multinomial resampling row k depends on draw k alone and averaged over that draw the value of any quantity at row k is that weighted mean.", "quantifier": "every likelihood that returns finite values or -inf, every session, every trimming, every quantity (function of sample, log-likelihood, log-prior), all uniform draws", "why_tests_cant": "the equality is between an average over all draws and a weighted sum, for arbitrary weights and functions", "anchors": ["pocomc/sampler.py: Sampler.posterior", "pocomc/tools.py: systematic_resample"]}
{"id": "C150", "title": "The error of the evidence and of posterior averages is at most one over the square root of the number of walkers", "statement": "If the stored particles follow the tempered posteriors of their iterations, any two of them independent, and the stored evidences are the true ones, then the evidence computed from the history at the inverse temperature of any recorded iteration (1 after a run) has a mean-square relative error of at most 1/n, n being the number of particles per iteration, and is off by a fraction e with probability at most 1/(n e^2); the weighted average of any function bounded by 1 has a mean-square error of at most 4/n. The bounds do not depend on the likelihood, the prior, the dimension or the number of iterations.", "quantifier": "every prior measure, every measurable likelihood with finite evidence, any temperatures, any number of iterations and particles, every bounded function", "why_tests_cant": "a bound on an expectation over all outcomes, uniform over all likelihoods; sampling can only estimate it for one of them", "anchors": ["pocomc/particles.py: Particles.compute_logw_and_logz"]}
{"id": "C151", "title": "posterior returns at least the effective samples that run was asked for", "statement": "When run(n_total) has returned, the weights posterior(trim_importance_weights=False) returns have an effective size (ESS or USS, whichever metric the sampler was built with) of at least n_total. With trimming, the default, and metric='ess', the ESS of the returned weights, and hence the number of returned samples, is at least ess_trim times n_total.", "quantifier": "every likelihood with values that are real numbers or -inf, every prior, configuration and random draws, every history of runs and resumes before, every n_total, every ess_trim in [0, 1] and bins_trim >= 1", "why_tests_cant": "a test inspects the weights of a few seeded runs of one problem; the bound must hold for every likelihood and every sequence of draws, and it combines the run's stopping test with the reweighting and the trimming search", "anchors": ["pocomc/sampler.py:Sampler.run", "pocomc/sampler.py:Sampler._not_termination", "pocomc/sampler.py:Sampler.posterior", "pocomc/tools.py:trim_weights", "pocomc/tools.py:effective_sample_size", "pocomc/tools.py:unique_sample_size"]}
{"id": "C152", "title": "Unique sample size, compute_ess and increment_logz are accurate in double precision", "statement": "In double precision and whatever order numpy adds in: the unique sample size that the sampler computes from n log-weights (none NaN or +inf, not all -inf) is the expected number of distinct indices among k draws up to an absolute error of (k+1)(n 2^-48 + 2^-36); compute_ess is the effective fraction up to a relative error of n 2^-44 + 2^-34; increment_logz of n log-weights that are -inf (not all) or of absolute value at most M is the logarithm of the total weight up to an absolute error of n 2^-47 (M + 16).", "quantifier": "all lists of at most 2^40 log-weights, all k, every rounding, exp, log1p and pow with the stated accuracy, every order of additions", "why_tests_cant": "rounding errors depend on every bit of every weight and on the order numpy adds in; the bound must hold for all of them", "anchors": ["pocomc/tools.py:unique_sample_size", "pocomc/tools.py:compute_ess", "pocomc/tools.py:increment_logz", "pocomc/sampler.py:Sampler._reweight"]}
{"id": "C153", "title": "Every iteration starts from the most likely stored particles", "statement": "In every iteration of the main loop there is one value t of the log-likelihood, attained by a stored particle, such that the particles the iteration works with are exactly the stored particles (of all iterations so far) whose log-likelihood is at least t. The flow, when it is trained, and otherwise the geometry of the proposal, is fitted to exactly these particles, each with a positive weight that does not decrease with its likelihood. Each of the n_active walkers starts at a copy of one of them, with its own likelihood, prior value and blob.", "quantifier": "every likelihood with values in the reals or -inf, every prior, every configuration and metric, every sequence of random numbers, every point of every session of run calls, saves and loads, every iteration", "why_tests_cant": "Whether trimming removes a likely particle while it keeps an unlikely one depends on the whole weighted history, on percentile interpolation and on ties; a test sees a few histories.", "anchors": ["pocomc/sampler.py: Sampler._reweight", "pocomc/sampler.py: Sampler._train", "pocomc/sampler.py: Sampler._resample", "pocomc/tools.py: trim_weights"]}
{"id": "C154", "title": "Evidence from flow draws and its error bar in double precision", "statement": "For draws of the normalizing flow whose log-likelihood, log-prior, log-Jacobian and log-density do not exceed M in absolute value (log-likelihoods may be -inf, but not all of them), the log-evidence which the sampler computes in double precision is a finite number, equal to the logarithm of the mean importance weight up to n 2^-47 (M+16). The bootstrap error bar is a finite non-negative number, equal to the standard deviation of the exact replicate values up to (n+R) 2^-44 (M+16), unless a replicate has only zero weights. The centre and scale learned by the reparameterisation are the mean and standard deviation of the samples up to n 2^-47 V + 2^-528.", "quantifier": "every machine arithmetic satisfying the IEEE double-precision bounds, every order of summation in np.sum, every number of draws up to 2^40, every values of the draws within the bound, every choice of bootstrap indices", "why_tests_cant": "Rounding depends on the data and on the order of summation; a test compares a few data sets with a reference that is itself rounded.", "anchors": ["pocomc/sampler.py:_compute_evidence", "pocomc/scaler.py:Reparameterize.fit"]}
{"id": "C155", "title": "The evidence scatters by its standard error, and the error bar estimates that", "statement": "Repeat a run with the same transform and new independent draws of the normalizing flow: the mean square error of the reported evidence is the variance of one importance weight divided by the number of draws. The bootstrap error bar of log-evidence computed from a given set of n weights in [lo, hi] with R replicates has, over the uniform index draws, a mean square between (1-1/R) s^2/(n hi^2) and (1-1/R) s^2/(n lo^2), where s is the standard deviation of these weights: up to the spread of the weights, the squared relative standard error of their mean.", "quantifier": "every problem whose prior is positive inside the bounds and whose importance weight has a finite second moment, every flow density, every number of draws; for the error bar every list of positive weights and every requested number of draws", "why_tests_cant": "Both are statements about the distribution over random draws; a test sees a few realisations of a noisy estimate.", "anchors": ["pocomc/sampler.py:_compute_evidence"]}
{"id": "C156", "title": "The weights never leave the range of double precision", "statement": "With log-weights of any spread up to 2^999 in absolute value, computing the weights of a run, their effective sample size and the trimmed weights never produces an intermediate result above the range of double precision: on a machine that computes correctly only up to 2^1000 and arbitrarily wrongly above it, the weights, the effective sample size and the result of trimming satisfy the same error bounds as on a machine without an upper end of the range.", "quantifier": "every machine whose rounding, exp, sum and percentile are correct on results up to 2^1000, every list of at most 2^40 log-weights without NaN and +inf and with at least one finite entry, every list of weights between 0 and 1, every trimming target up to 1 - n 2^-44 and every number of bins", "why_tests_cant": "Overflow shows up only for particular spreads of the log-weights and particular orders of additions; a test covers a few of them on one machine.", "anchors": ["pocomc/tools.py:effective_sample_size", "pocomc/tools.py:trim_weights", "pocomc/sampler.py:_reweight"]}
