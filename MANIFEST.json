{
 "claims": [
  {
   "property": "C01",
   "status": "proved",
   "theorems": [
    "Poco.C01_ess",
    "Poco.C01_ess_value"
   ],
   "note": "exact reals; weights non-negative with positive sum"
  },
  {
   "property": "C02",
   "status": "proved",
   "theorems": [
    "Poco.C02_uss"
   ],
   "note": "expectation stated over all k-tuples of independent draws"
  },
  {
   "property": "C03",
   "status": "proved",
   "theorems": [
    "Poco.C03_compute_ess",
    "Poco.C03_zero_weights",
    "Poco.C03_all_zero"
   ],
   "note": "offset invariance is stated for finite log-weights; values with zero weights in C03_zero_weights"
  },
  {
   "property": "C04",
   "status": "proved",
   "theorems": [
    "Poco.C04_increment_logz",
    "Poco.C03_zero_weights",
    "Poco.C03_all_zero"
   ],
   "note": "shift stated for finite log-weights; values with zero weights in C03_zero_weights"
  },
  {
   "property": "C05",
   "status": "proved",
   "theorems": [
    "Poco.C05_trim"
   ],
   "note": ""
  },
  {
   "property": "C06",
   "status": "proved",
   "theorems": [
    "Poco.C06_trim_threshold"
   ],
   "note": ""
  },
  {
   "property": "C07",
   "status": "proved",
   "theorems": [
    "Poco.C07_trim_unreachable"
   ],
   "note": ""
  },
  {
   "property": "C08",
   "status": "proved",
   "theorems": [
    "Poco.C08_systematic"
   ],
   "note": "difference < 1 for a non-zero draw, <= 1 for the draw 0"
  },
  {
   "property": "C09",
   "status": "proved",
   "theorems": [
    "Poco.C09_unbiased",
    "Poco.C09_unbiased_normalised"
   ],
   "note": "Also for weights that the function normalises."
  },
  {
   "property": "C10",
   "status": "partial",
   "theorems": [
    "Poco.C10_no_zero_weight_partial",
    "Poco.C10_zero_weight_selected"
   ],
   "note": "false as stated for the draw u=0 with a zero-weight first particle (refuted); proved for every other case"
  },
  {
   "property": "C11",
   "status": "partial",
   "theorems": [
    "Poco.C11_no_index_error_partial",
    "Poco.C11_index_error"
   ],
   "note": "false as stated for totals slightly below one within SQRTEPS (refuted); proved otherwise"
  },
  {
   "property": "C12",
   "status": "proved",
   "theorems": [
    "Poco.C12_multinomial"
   ],
   "note": ""
  },
  {
   "property": "C13",
   "status": "proved",
   "theorems": [
    "Poco.C13_rectangular"
   ],
   "note": "For every state of every session (fresh, after runs, loaded from any state file); user functions row-wise."
  },
  {
   "property": "C14",
   "status": "proved",
   "theorems": [
    "Poco.C14_append_only"
   ],
   "note": "No hypotheses on user functions, draws or starting state."
  },
  {
   "property": "C15",
   "status": "proved",
   "theorems": [
    "Poco.C15_mixture_weights"
   ],
   "note": "finite logl, beta, logz; rectangular history"
  },
  {
   "property": "C16",
   "status": "proved",
   "theorems": [
    "Poco.C16_prior_history"
   ],
   "note": ""
  },
  {
   "property": "C17",
   "status": "proved",
   "theorems": [
    "Poco.C17_rescale"
   ],
   "note": ""
  },
  {
   "property": "C18",
   "status": "proved",
   "theorems": [
    "Poco.C18_order_irrelevant"
   ],
   "note": ""
  },
  {
   "property": "C19",
   "status": "partial",
   "theorems": [
    "Poco.C19_first_access_partial",
    "Poco.C19_results_stale"
   ],
   "note": "false as stated: results are cached at first access; refutation C19_results_stale"
  },
  {
   "property": "C20",
   "status": "partial",
   "theorems": [
    "Poco.C20_raw_weights_local_partial",
    "Poco.C20_nan_poisons"
   ],
   "note": "false as stated: one NaN logl makes every normalised weight NaN; refutation C20_nan_poisons"
  },
  {
   "property": "C21",
   "status": "proved",
   "theorems": [
    "Poco.C21_beta_step",
    "Poco.C21_stays_one",
    "Poco.C21_session"
   ],
   "note": "One step for arbitrary histories, and the whole recorded column."
  },
  {
   "property": "C22",
   "status": "proved",
   "theorems": [
    "Poco.C22_beta_search"
   ],
   "note": "For every history and target"
  },
  {
   "property": "C23",
   "status": "proved",
   "theorems": [
    "Poco.C23_dynamic_target",
    "Poco.C23_reweight"
   ],
   "note": "For every weight vector"
  },
  {
   "property": "C24",
   "status": "proved",
   "theorems": [
    "Poco.C24_run_reached"
   ],
   "note": "For likelihoods with values in the reals or -inf; a NaN effective size would end the loop."
  },
  {
   "property": "C25",
   "status": "proved",
   "theorems": [
    "Poco.C25_step",
    "Poco.C25_invalid_rejected"
   ],
   "note": "All four kernels, any prior/likelihood/flow functions, any draws; one step and the whole MCMC phase."
  },
  {
   "property": "C26",
   "status": "proved",
   "theorems": [
    "Poco.C26_step",
    "Poco.C26_likelihood_calls"
   ],
   "note": "Row-wise prior and likelihood. The evaluated points are exactly the valid proposals, in walker order."
  },
  {
   "property": "C27",
   "status": "partial",
   "theorems": [
    "Poco.C27_first_run_partial",
    "Poco.C27_unpreconditioned_partial",
    "Poco.C27_later_run_undercounts",
    "Poco.Demo.C27_not_always"
   ],
   "note": "exact on the first run and for any unpreconditioned sampler; refuted for later runs of a preconditioned sampler with evidence draws"
  },
  {
   "property": "C28",
   "status": "proved",
   "theorems": [
    "Poco.C28_terminates"
   ],
   "note": "Existence of a result as well as the bound on the step count; includes the boundary loops."
  },
  {
   "property": "C29",
   "status": "proved",
   "theorems": [
    "Poco.C29_mcmc",
    "Poco.C29_run"
   ],
   "note": "MCMC level and all stored particles of every session."
  },
  {
   "property": "C30",
   "status": "partial",
   "theorems": [
    "Poco.C30_pcn_scale",
    "Poco.C30_rwm_scale",
    "Poco.C30_prwm_negative"
   ],
   "note": "Holds for the t-pCN kernels and rwm without a flow; for the flow random-walk kernel the scale can become negative (C30_prwm_negative)."
  },
  {
   "property": "C31",
   "status": "proved",
   "theorems": [
    "Poco.C31_detailed_balance"
   ],
   "note": "Measure-theoretic detailed balance of one random-walk step of the model, consuming the actual Gaussian and uniform draws; any likelihood/prior/bounds/flow, also with periodic or reflective coordinates (BoundaryMild)."
  },
  {
   "property": "C32",
   "status": "proved",
   "theorems": [
    "Poco.C32_detailed_balance"
   ],
   "note": "Same for the t-pCN kernels, including the inverse-gamma mixing draw with the parameters the model computes."
  },
  {
   "property": "C33",
   "status": "proved",
   "theorems": [
    "Poco.C33_shift_invariance"
   ],
   "note": "Equality of complete results including errors, for all kernels and all float values."
  },
  {
   "property": "C34",
   "status": "proved",
   "theorems": [
    "Poco.C34_round_trip"
   ],
   "note": "exact reals; fitted scaler given by Scaler.Ok, reached by C41"
  },
  {
   "property": "C35",
   "status": "proved",
   "theorems": [
    "Poco.C35_jacobian"
   ],
   "note": "Frechet derivative of the real map computed by inverse"
  },
  {
   "property": "C36",
   "status": "proved",
   "theorems": [
    "Poco.C36_inverse_inside"
   ],
   "note": "exact reals"
  },
  {
   "property": "C37",
   "status": "proved",
   "theorems": [
    "Poco.C37_masks"
   ],
   "note": ""
  },
  {
   "property": "C38",
   "status": "proved",
   "theorems": [
    "Poco.C38_periodic",
    "Poco.C38_periodic_inf_diverges"
   ],
   "note": "infinite entries never terminate"
  },
  {
   "property": "C39",
   "status": "partial",
   "theorems": [
    "Poco.C39_reflective_partial",
    "Poco.C39_boundary_partial",
    "Poco.C39_reflective_escapes"
   ],
   "note": "false as stated for far entries; exact characterisation proved, also when periodic and reflective parameters are combined"
  },
  {
   "property": "C40",
   "status": "partial",
   "theorems": [
    "Poco.C40_boundary_noop",
    "Poco.C40_kernel_ignores"
   ],
   "note": "false as stated: boundary conditions are the identity on every proposal, and every kernel call returns the same with and without them"
  },
  {
   "property": "C41",
   "status": "proved",
   "theorems": [
    "Poco.C41_fit_standardises"
   ],
   "note": "diagonal fit, the only one the sampler uses"
  },
  {
   "property": "C42",
   "status": "partial",
   "theorems": [
    "Poco.C42_bounds_check_partial",
    "Poco.C42_none_rejects"
   ],
   "note": "false for bounds=None"
  },
  {
   "property": "C43",
   "status": "partial",
   "theorems": [
    "Poco.C43_forward_finite_partial",
    "Poco.C43_bound_infinite",
    "Poco.C43_bound_infinite_fitted",
    "Poco.C43_interior_infinite"
   ],
   "note": "false at the bounds, with and without a fitted scale; in double precision also for interior points (bounds -1, 2^-60, x = 0)"
  },
  {
   "property": "C44",
   "status": "proved",
   "theorems": [
    "Poco.C44_prior_logpdf",
    "Poco.C44_prior_logpdf_finite"
   ],
   "note": ""
  },
  {
   "property": "C45",
   "status": "proved",
   "theorems": [
    "Poco.C45_prior_layout"
   ],
   "note": ""
  },
  {
   "property": "C46",
   "status": "proved",
   "theorems": [
    "Poco.C46_replace",
    "Poco.C46_run",
    "Poco.C46_session_finite"
   ],
   "note": "Replacement in one batch; whole runs (raises ValueError, or ends with no infinite value stored); whole sessions with a proper likelihood."
  },
  {
   "property": "C47",
   "status": "partial",
   "theorems": [
    "Poco.Demo.C47_not_always",
    "Poco.C47_from_likelihood_partial"
   ],
   "note": "False as stated: C47_not_always gives a reachable state whose history holds a NaN and whose weights are then all NaN. True part: a NaN in the history was returned by the likelihood for that stored particle."
  },
  {
   "property": "C48",
   "status": "proved",
   "theorems": [
    "Poco.Pool.C48_map"
   ],
   "note": ""
  },
  {
   "property": "C49",
   "status": "proved",
   "theorems": [
    "Poco.Pool.C49_once",
    "Poco.Pool.C49_one_task",
    "Poco.Pool.C49_returned_idle",
    "Poco.Pool.C49_no_deadlock",
    "Poco.Pool.C49_fair_returns"
   ],
   "note": ""
  },
  {
   "property": "C50",
   "status": "proved",
   "theorems": [
    "Poco.Pool.C50_close",
    "Poco.Pool.C50_fair_stops",
    "Poco.Pool.C50_fair_close_returns"
   ],
   "note": ""
  },
  {
   "property": "C51",
   "status": "proved",
   "theorems": [
    "Poco.C51_pool",
    "Poco.C51_vectorize"
   ],
   "note": "For every likelihood, batch and order-preserving pool; vectorised likelihood assumed to agree row by row."
  },
  {
   "property": "C52",
   "status": "partial",
   "theorems": [
    "Poco.C52_blobs_aligned_partial",
    "Poco.C52_mixed_misaligned"
   ],
   "note": "True when all points of a batch return the same shape; false when some return blobs and others do not (witness proved)."
  },
  {
   "property": "C53",
   "status": "partial",
   "theorems": [
    "Poco.C53_atomic_partial",
    "Poco.C53_temp_iff",
    "Poco.C53_temp_suffix_false"
   ],
   "note": "Every crash point, exception and loss of power; excluded are exactly the paths with suffix .temp, for which it is false."
  },
  {
   "property": "C54",
   "status": "partial",
   "theorems": [
    "Poco.C54_roundtrip_partial",
    "Poco.C54_pool_lost"
   ],
   "note": "All attribute dictionaries. False part: a state saved without a pool removes the pool of the loading sampler."
  },
  {
   "property": "C55",
   "status": "partial",
   "theorems": [
    "Poco.C55_resume_partial",
    "Poco.C55_warmup_restarts",
    "Poco.Demo.C55_not_always"
   ],
   "note": "Holds for state files written after the warm-up; false for those written during it (refuted for every such file)."
  },
  {
   "property": "C56",
   "status": "proved",
   "theorems": [
    "Poco.C56_schedule"
   ],
   "note": ""
  },
  {
   "property": "C57",
   "status": "proved",
   "theorems": [
    "Poco.C57_names"
   ],
   "note": "All labels, directories and iteration numbers, also across labels."
  },
  {
   "property": "C58",
   "status": "partial",
   "theorems": [
    "Poco.C58_warmup_partial",
    "Poco.C58_iter_column",
    "Poco.C58_iter_repeats",
    "Poco.Demo.C58_not_always"
   ],
   "note": "The property is false: exact content of the column and duplicates in every returning run."
  },
  {
   "property": "C59",
   "status": "partial",
   "theorems": [
    "Poco.C59_evidence",
    "Poco.C59_average_partial",
    "Poco.C59_overestimates",
    "Poco.Demo.C59_not_always"
   ],
   "note": "False as stated: the code divides by the number of draws inside the prior support. C59_evidence gives the exact value for every run; it is the claimed average when all draws are in the support (C59_average_partial), and larger by log(n/k) otherwise (C59_overestimates, with a concrete run in Demo.C59_not_always)."
  },
  {
   "property": "C60",
   "status": "proved",
   "theorems": [
    "Poco.C60_which_evidence",
    "Poco.C60_smc_value",
    "Poco.C60_is_error"
   ],
   "note": "C60_smc_value: value of the SMC estimate; C59_evidence gives the value of the other."
  },
  {
   "property": "C61",
   "status": "proved",
   "theorems": [
    "Poco.C61_posterior"
   ],
   "note": "For every reachable state with a history, all options, all draws."
  },
  {
   "property": "C62",
   "status": "partial",
   "theorems": [
    "Poco.C62_logw",
    "Poco.Demo.C62_not_always"
   ],
   "note": "False as stated when trimming drops a particle: C62_logw gives the exact relation for every reachable state and all options (log-weights are the logs of the weights up to a common factor c, c=1 iff nothing was dropped); Demo.C62_not_always is a reachable counterexample with the default arguments."
  },
  {
   "property": "C63",
   "status": "partial",
   "theorems": [
    "Poco.C63_validation",
    "Poco.C63_defaults_partial",
    "Poco.C63_steps_undocumented",
    "Poco.C63_frequency_undocumented",
    "Poco.C63_one_dimension",
    "Poco.C63_pcn_refused"
   ],
   "note": "Validation is proved in full. The documented defaults hold for n_active, n_effective and n_prior; those of n_steps, n_max_steps and train_frequency are not the documented ones (negations proved), in one dimension every MCMC call makes a single step, and the documented sample='pcn' is refused."
  },
  {
   "property": "C64",
   "status": "partial",
   "theorems": [
    "Poco.C64_pool_partial",
    "Poco.C64_pool_one"
   ],
   "note": "Exactly None, integers above one and objects with map are accepted; pool=1 raises AttributeError (negation proved)."
  },
  {
   "property": "C65",
   "status": "proved",
   "theorems": [
    "Poco.C65_warmup"
   ],
   "note": "every warm-up iteration evaluates its own consecutive block of the prior draws"
  },
  {
   "property": "C66",
   "status": "partial",
   "theorems": [
    "Poco.C66_best_partial",
    "Poco.C66_last_not_best"
   ],
   "note": "best parameters are restored only if early stopping triggered; otherwise the last epoch's are kept (negation proved)"
  },
  {
   "property": "C67",
   "status": "proved",
   "theorems": [
    "Poco.C67_stops"
   ],
   "note": ""
  },
  {
   "property": "C68",
   "status": "partial",
   "theorems": [
    "Poco.C68_partition_partial",
    "Poco.C68_unweighted_partial",
    "Poco.C68_fraction_swapped"
   ],
   "note": "partition proved; the fraction is false: validation_split is the training fraction (negation proved)"
  },
  {
   "property": "C69",
   "status": "proved",
   "theorems": [
    "Poco.C69_width"
   ],
   "note": ""
  },
  {
   "property": "C70",
   "status": "proved",
   "theorems": [
    "Poco.C70_jacobian"
   ],
   "note": ""
  },
  {
   "property": "C71",
   "status": "proved",
   "theorems": [
    "Poco.C71_fit",
    "Poco.C71_geometry",
    "Poco.C71_normal"
   ],
   "note": "Real-valued particles; root finder assumed to answer within its interval; rounding, psi and the root finder are otherwise arbitrary."
  },
  {
   "property": "C72",
   "status": "proved",
   "theorems": [
    "Poco.C72_geometry_fitted"
   ],
   "note": "geometry is fitted before a kernel uses it"
  },
  {
   "property": "C73",
   "status": "proved",
   "theorems": [
    "Poco.C73_run_shift",
    "Poco.C73_fresh",
    "Poco.C73_outputs",
    "Poco.C73_proper"
   ],
   "note": "Functional equation between the whole traces (all state files, final state, exceptions), for every float value incl. NaN and infinities; the pool's map is assumed order preserving. Posterior and evidence outputs included."
  },
  {
   "property": "C74",
   "status": "proved",
   "theorems": [
    "Poco.C74_inside"
   ],
   "note": ""
  },
  {
   "property": "C75",
   "status": "proved",
   "theorems": [
    "Poco.C75_no_exception",
    "Poco.C75_iteration_returns"
   ],
   "note": "run returns or keeps iterating; each iteration returns for enough bisection fuel"
  },
  {
   "property": "C76",
   "status": "proved",
   "theorems": [
    "Poco.C76_ready"
   ],
   "note": "Links the constructor to the hypotheses Configured and Fresh of the run theorems."
  },
  {
   "property": "C77",
   "status": "proved",
   "theorems": [
    "Poco.C77_weight_scale"
   ],
   "note": ""
  },
  {
   "property": "C78",
   "status": "partial",
   "theorems": [
    "Poco.C78_noise_scale_partial",
    "Poco.C78_noise_scale_false"
   ],
   "note": "false: the code averages the distances from the last sample; that is proved, and the negation"
  },
  {
   "property": "C79",
   "status": "proved",
   "theorems": [
    "Poco.C79_epoch_covers"
   ],
   "note": ""
  },
  {
   "property": "C80",
   "status": "proved",
   "theorems": [
    "Poco.C80_store",
    "Poco.C80_flat",
    "Poco.C80_empty"
   ],
   "note": ""
  },
  {
   "property": "C81",
   "status": "proved",
   "theorems": [
    "Poco.C81_regularised"
   ],
   "note": ""
  },
  {
   "property": "C82",
   "status": "partial",
   "theorems": [
    "Poco.Pool.C50_fair_close_returns",
    "Poco.Pool.C82_second_close_blocks"
   ],
   "note": "true if MPI buffers the message; false otherwise (negation proved)"
  },
  {
   "property": "C83",
   "status": "proved",
   "theorems": [
    "Poco.C83_extra_args"
   ],
   "note": "All argument lists; serial, order-preserving pool and vectorised evaluation."
  },
  {
   "property": "C84",
   "status": "partial",
   "theorems": [
    "Poco.C84_survives_partial",
    "Poco.C84_not_durable"
   ],
   "note": "Survives process death; false for loss of power (directory entry not synced)."
  },
  {
   "property": "C85",
   "status": "proved",
   "theorems": [
    "Poco.C85_concurrent_saves"
   ],
   "note": "Any number of processes, any interleaving, death and power loss at any step."
  },
  {
   "property": "C86",
   "status": "proved",
   "theorems": [
    "Poco.C86_run_files"
   ],
   "note": "All labels without slashes, all sequences of saves."
  },
  {
   "property": "C87",
   "status": "partial",
   "theorems": [
    "Poco.C87_nu_fixed",
    "Poco.C87_root_partial",
    "Poco.round53_double"
   ],
   "note": "The property is false: in double precision the equation is exactly zero at 1e300 for all data, so the fallback 1e6 is always used (C87_nu_fixed, for any rounding with the four stated properties; round53_double shows 53-bit rounding has them; assumes scipy's psi equals log at 5e299, as its large-argument formula gives). C87_root_partial: exact arithmetic only."
  },
  {
   "property": "C88",
   "status": "proved",
   "theorems": [
    "Poco.C88_fit",
    "Poco.C88_geometry"
   ],
   "note": "Exact arithmetic for means, covariances and the singularity test; double precision for the degrees of freedom."
  },
  {
   "property": "C89",
   "status": "proved",
   "theorems": [
    "Poco.C89_equivariant"
   ],
   "note": "Positive scales."
  },
  {
   "property": "C90",
   "status": "proved",
   "theorems": [
    "Poco.C90_unpreconditioned",
    "Poco.C90_preconditioned",
    "Poco.C90_rwm",
    "Poco.C90_tpcn"
   ],
   "note": "run level for precondition=False, mutation step for the others"
  },
  {
   "property": "C91",
   "status": "proved",
   "theorems": [
    "Poco.C91_centre",
    "Poco.C91_box",
    "Poco.C91_fixed"
   ],
   "note": "latent positions assumed real numbers"
  },
  {
   "property": "C92",
   "status": "partial",
   "theorems": [
    "Poco.C92_whitens_partial",
    "Poco.C92_degenerate_raises",
    "Poco.C92_one_parameter"
   ],
   "note": "whitening proved for every dimension except one and every batch whose transformed coordinates are not linearly dependent; degenerate batches proved to raise; in one dimension fit always raises, so the property is false there. Cholesky factor, inverse and log determinant enter through their exact contract (LinAlg.Exact), which is proved satisfiable"
  },
  {
   "property": "C93",
   "status": "partial",
   "theorems": [
    "Poco.C93_failed_fit_partial",
    "Poco.C93_failed_fit_moves",
    "Poco.C93_failure_reported"
   ],
   "note": "true if the batch leaves the bounds; false for degenerate batches with diagonal=False: the mean is replaced before the Cholesky factorisation raises (negation proved)"
  },
  {
   "property": "C94",
   "status": "partial",
   "theorems": [
    "Poco.C94_bounds_partial",
    "Poco.C94_none_refuses",
    "Poco.C94_lists_refused",
    "Poco.C94_integers_refused",
    "Poco.C94_pair_moved",
    "Poco.exists_toSingle"
   ],
   "note": "true for floating point arrays with a row per parameter and pairs that single precision can hold; false for None (every finite point refused), lists of pairs (AttributeError), integer arrays (ValueError, the documented example) and other pairs (bounds move)"
  },
  {
   "property": "C95",
   "status": "partial",
   "theorems": [
    "Poco.C95_given_partial",
    "Poco.C95_prior_rounded",
    "Poco.C95_prior_drops_one"
   ],
   "note": "proved in exact arithmetic for every option; in double precision n_prior can become one less, proved to be the only possibility and witnessed by n_active=11, n_prior=15"
  },
  {
   "property": "C96",
   "status": "partial",
   "theorems": [
    "Poco.C96_error",
    "Poco.C96_error_partial",
    "Poco.Demo.C96_not_always"
   ],
   "note": "Exact value proved (C96_error). Finiteness and bounds need a supported draw and no zero-likelihood draw in the support (C96_error_partial); otherwise a NaN error bar can accompany a finite evidence (Demo.C96_not_always)."
  },
  {
   "property": "C97",
   "status": "proved",
   "theorems": [
    "Poco.C97_schedule",
    "Poco.C97_training_set",
    "Poco.C97_trained_at_end",
    "Poco.C97_zero_raises"
   ],
   "note": "train_frequency = 0 with preconditioning: no iteration returns (ZeroDivisionError)."
  },
  {
   "property": "C98",
   "status": "partial",
   "theorems": [
    "Poco.C98_geometry_partial",
    "Poco.C98_flow_and_geometry",
    "Poco.Demo.C98_not_always"
   ],
   "note": "True without preconditioning and whenever the flow is trained, and flow and latent geometry never get out of step. False in the other iterations: the fit is then made in the other coordinates and not used; a reachable iteration whose MCMC uses a geometry that no fit of the iteration returned is exhibited."
  },
  {
   "property": "C99",
   "status": "proved",
   "theorems": [
    "Poco.C99_starting_values",
    "Poco.C99_carried"
   ],
   "note": "n_active and n_effective as the constructor arrives at them."
  },
  {
   "property": "C100",
   "status": "proved",
   "theorems": [
    "Poco.C100_epoch",
    "Poco.C100_fit",
    "Poco.C100_returns"
   ],
   "note": "The order in which a shuffling loader visits its rows is assumed to be a permutation. The contents of the loss of one batch: C77, C81; the noise scale: C78."
  },
  {
   "property": "C101",
   "status": "proved",
   "theorems": [
    "Poco.C101_centre",
    "Poco.C101_geometry",
    "Poco.C101_data",
    "Poco.C101_equal_weights"
   ],
   "note": "Real-valued particles; the resampling draw is strictly between 0 and 1 where stated."
  },
  {
   "property": "C102",
   "status": "proved",
   "theorems": [
    "Poco.C102_unbiased"
   ],
   "note": "Weights, evidence and weighted sums of the history."
  },
  {
   "property": "C103",
   "status": "proved",
   "theorems": [
    "Poco.C103_flow_unbiased"
   ],
   "note": "Expectation of the reported evidence over the draws of the flow; the transform is the same for all outcomes. With a prior that vanishes inside the bounds the estimate is too large (C59)."
  },
  {
   "property": "C104",
   "status": "partial",
   "theorems": [
    "Poco.C104_search_ends_partial",
    "Poco.Demo.C104_not_always"
   ],
   "note": "Ends, with the outcome of C22, if the log-likelihoods spread no further than 2^43 times target over number of particles. False without that: after a particle moves to a point of log-likelihood 2^64 the loop never ends, whatever the rounding to nearest. Sizes are computed exactly."
  },
  {
   "property": "C105",
   "status": "partial",
   "theorems": [
    "Poco.C105_refused_partial",
    "Poco.C105_not_always"
   ],
   "note": "n_active = 0 and n_effective < 0 are refused. False for negative n_active and for n_effective = 0, which are accepted."
  },
  {
   "property": "C106",
   "status": "proved",
   "theorems": [
    "Poco.C106_stop"
   ],
   "note": "for runs with a positive dimension, an initial mean that is not NaN and a non-zero scale"
  },
  {
   "property": "C107",
   "status": "proved",
   "theorems": [
    "Poco.C107_history_whole",
    "Poco.C107_nothing_lost"
   ],
   "note": "Runs may raise at any statement of the model and leave partial state; the likelihood may fail intermittently (Flaky). What a failed flow or geometry fit leaves in its object is arbitrary. The theorems also allow the user's interrupt before any operation except inside Particles.update and between prior.rvs and scaler.fit; those moments are the subject of C109."
  },
  {
   "property": "C108",
   "status": "partial",
   "theorems": [
    "Poco.C108_retry_partial",
    "Poco.Demo.C108_stops_early",
    "Poco.Demo.C108_warmup_repeated",
    "Poco.Demo.C108_retry_fails"
   ],
   "note": "The full claim is false of the code: three theorems refute it from reachable states (the retry returns with prior samples only; the warm-up is stored twice; after a failed training the retry raises TypeError although everything works). Proved instead: the next iteration of the main loop does not depend on anything the failed attempt left in current_particles, and returns when all components work and the flow is either untrained or has a geometry."
  },
  {
   "property": "C109",
   "status": "partial",
   "theorems": [
    "Poco.C109_interrupt_partial",
    "Poco.C109_torn",
    "Poco.Demo.C109_complete_but_unusable",
    "Poco.C109_unscaled"
   ],
   "note": "The full claim is false of the code, at two kinds of moments, and refuted for every model: inside Particles.update (posterior() raises for ever after) and between prior.rvs and scaler.fit (every later run raises TypeError). Proved: interrupts at all other moments do no harm to the history and to posterior(). One tick of the clock is one assignment or call of the model; interrupts inside numpy, torch, the user's functions or while a state file is written are outside."
  },
  {
   "property": "C110",
   "status": "proved",
   "theorems": [
    "Poco.C110_no_nan_returned",
    "Poco.C110_stuck",
    "Poco.C110_search_raises"
   ],
   "note": "Run-level theorems for the exact-number model; the exception for the double-temperature model of the search."
  },
  {
   "property": "C111",
   "status": "proved",
   "theorems": [
    "Poco.C111_random_walk",
    "Poco.C111_t_pcn"
   ],
   "note": "for the scale, centre and covariance held at the beginning of the step; the adaptation of scale and centre between steps is not covered by the claim"
  },
  {
   "property": "C112",
   "status": "partial",
   "theorems": [
    "Poco.C112_polite_partial",
    "Poco.C112_main_loop",
    "Poco.C112_stored_stay",
    "Poco.C112_stored_stay_main",
    "Poco.C112_overwritten",
    "Poco.C112_reused_array",
    "Poco.Demo.C112_not_always",
    "Poco.Demo.C112_not_always_reused"
   ],
   "note": "False as stated, refuted with concrete runs: in the warm-up a likelihood that writes to its argument changes the stored positions, and a vectorised one that returns the same array from every call overwrites the stored log-likelihoods of earlier batches. Proved: for likelihoods without such side effects (or with a pool) any sequence of runs in memory agrees with the value model; in the main loop this holds for every likelihood; with new result arrays, stored iterations never change later."
  },
  {
   "property": "C113",
   "status": "proved",
   "theorems": [
    "Poco.C113_iteration",
    "Poco.C113_warmup",
    "Poco.C113_ranges",
    "Poco.C113_efficiency"
   ],
   "note": "Columns appended by one iteration in terms of the states of its MCMC phase; ranges for all sessions; efficiency along any run that starts with a numeric scale (C99 gives the starting value)."
  },
  {
   "property": "C114",
   "status": "proved",
   "theorems": [
    "Poco.C114_ends",
    "Poco.C114_constructed"
   ],
   "note": "Real arithmetic: the temperature search is the exact bisection (C104 treats its double-precision version, which can fail to end). Geometry fit and flow training are library calls that return (C71 treats the loop of the Student-t fit)."
  },
  {
   "property": "C115",
   "status": "proved",
   "theorems": [
    "Poco.C115_iteration",
    "Poco.C115_run",
    "Poco.C115_total",
    "Poco.C115_bounded"
   ],
   "note": "Evaluations counted as the points handed to the likelihood in iterations and runs that return; flow sample(n) returns at most n rows."
  },
  {
   "property": "C116",
   "status": "proved",
   "theorems": [
    "Poco.C116_every_generator",
    "Poco.C116_sessions",
    "Poco.C116_reliable"
   ],
   "note": "The run with generator states passed from call to call (Model/Stream) has, for every generator and state, the outcome of the oracle run with values the generator returned. The likelihood and the prior density draw no random numbers. The number of main-loop turns is bounded by a budget in both models; theorems that say for some budget the run returns are about fixed draws."
  },
  {
   "property": "C117",
   "status": "partial",
   "theorems": [
    "Poco.C117_reproducible_partial",
    "Poco.C117_second_sampler",
    "Poco.C117_interleaved"
   ],
   "note": "False in full: the seed is given to the global generators at construction. Proved: reproducible when built and run with nothing else drawing in between."
  },
  {
   "property": "C118",
   "status": "proved",
   "theorems": [
    "Poco.C118_trim_mass",
    "Poco.C118_posterior"
   ],
   "note": ""
  },
  {
   "property": "C119",
   "status": "proved",
   "theorems": [
    "Poco.C119_consistent"
   ],
   "note": "Draws inside one iteration are assumed pairwise independent with the tempered law; real Markov-chain output is neither, and the sampler chooses temperatures adaptively: the theorem is about the estimator (weights, evidence recursion), for a fixed ladder."
  },
  {
   "property": "C120",
   "status": "partial",
   "theorems": [
    "Poco.Pool.C120_mpi_never_returns",
    "Poco.Pool.C120_mpi_deadlock",
    "Poco.C120_error_reaches_caller_partial"
   ],
   "note": "False for MPIPool (negation proved for every schedule); proved for the other evaluation modes."
  },
  {
   "property": "C121",
   "status": "partial",
   "theorems": [
    "Poco.Demo.C121_inf_returned",
    "Poco.C121_visible_partial",
    "Poco.C121_first_particle"
   ],
   "note": "False of the code: C121_inf_returned is a complete run that returns with +inf in its history. C121_visible_partial: then the evidence is NaN and posterior() raises (trimming) or returns NaN weights. C121_first_particle: with systematic resampling and no trimming it returns copies of the first particle."
  },
  {
   "property": "C122",
   "status": "proved",
   "theorems": [
    "Poco.C122_weights"
   ],
   "note": "examples in Props/DoubleDemo.lean; trusted: the fields of Spec.IsDouble describe the machine"
  },
  {
   "property": "C123",
   "status": "proved",
   "theorems": [
    "Poco.C123_trim"
   ],
   "note": "examples in Props/DoubleDemo.lean"
  },
  {
   "property": "C124",
   "status": "partial",
   "theorems": [
    "Poco.C124_systematic_partial",
    "Poco.C124_choice",
    "Poco.C124_draw",
    "Poco.C124_index_error"
   ],
   "note": "that systematic_resample always returns is false: C124_index_error (six equal weights, u = 1 - 2^-53)"
  },
  {
   "property": "C125",
   "status": "proved",
   "theorems": [
    "Poco.C125_logw",
    "Poco.C125_weights"
   ],
   "note": "Finite histories; overflow and infinite log-likelihoods are C121. Accuracy of log and log1p (one ulp) is assumed as in Spec/DoubleLogw.lean."
  },
  {
   "property": "C126",
   "status": "partial",
   "theorems": [
    "Poco.C126_bounds_partial",
    "Poco.C126_overshoot"
   ],
   "note": "lower bound and one-sided bounds hold exactly; two finite bounds: upper one exceeded by an ulp (bounds -1, 0.1, u = 64)"
  },
  {
   "property": "C127",
   "status": "proved",
   "theorems": [
    "Poco.C127_round_trip"
   ],
   "note": "two finite bounds, logit"
  },
  {
   "property": "C128",
   "status": "partial",
   "theorems": [
    "Poco.C128_jacobian_partial",
    "Poco.C128_upper_infinite",
    "Poco.C128_exact"
   ],
   "note": "Finite and accurate for -700 <= u <= 30. At u = 64 the reported log-Jacobian is -inf for all bounds. Exact for parameters with one bound or none."
  },
  {
   "property": "C129",
   "status": "partial",
   "theorems": [
    "Poco.C129_periodic_partial",
    "Poco.C129_reflective",
    "Poco.C129_never_returns"
   ],
   "note": "periodic wrapping of 2^60 on [0,1] never ends; proved up to 2^47 widths; reflective always ends"
  },
  {
   "property": "C130",
   "status": "proved",
   "theorems": [
    "Poco.C130_random_walk",
    "Poco.C130_t_pcn"
   ],
   "note": "Fixed proposal scale and centre (adaptation between steps not covered). Hypotheses: posterior density measurable with finite positive integral, regular covariance factor, scale not zero. Conclusion includes that mcmcStep of the model moves a walker at theta to next theta omega."
  },
  {
   "property": "C131",
   "status": "proved",
   "theorems": [
    "Poco.C131_decision",
    "Poco.C131_invalid",
    "Poco.C131_exact"
   ],
   "note": "The squared distances from the centre enter as computed numbers (rounding inside np.dot is not analysed); overflow of finite results is left out."
  },
  {
   "property": "C132",
   "status": "partial",
   "theorems": [
    "Poco.C132_consistent_partial",
    "Poco.C132_trimming_biased"
   ],
   "note": "Full claim refuted: C132_trimming_biased gives a run with the code's trimming (0.99) whose particle averages do not converge to the posterior expectation. C132_consistent_partial proves consistency when no weight is trimmed; C133 bounds the bias when weights are trimmed."
  },
  {
   "property": "C133",
   "status": "proved",
   "theorems": [
    "Poco.C133_adaptive"
   ],
   "note": "The full claim for a log-likelihood bounded by M, independent (multinomial) picks and move kernels that depend continuously on the temperature and on an adaptation parameter from a totally bounded set. The limit is over the number of particles with the number of iterations fixed. Real arithmetic. A concrete two-point run meeting every hypothesis is in Props/SmcTrim.lean."
  },
  {
   "property": "C134",
   "status": "partial",
   "theorems": [
    "Poco.C134_blob_values_partial",
    "Poco.C134_truncated",
    "Poco.concat_uniform"
   ],
   "note": "False as stated (C134_truncated). Exact condition proved for every batch. Entries are scalars; unbounded integers; structured dtypes not modelled."
  },
  {
   "property": "C135",
   "status": "partial",
   "theorems": [
    "Poco.C135_uniform_partial",
    "Poco.C135_text_raises",
    "Poco.C135_int_raises"
   ],
   "note": "False for single texts and for integers; proved for one kernel call with all other uniform types."
  },
  {
   "property": "C136",
   "status": "proved",
   "theorems": [
    "Poco.C136_run_units",
    "Poco.C136_fresh",
    "Poco.C136_outputs",
    "Poco.C136_diagonal"
   ],
   "note": "Exact real arithmetic with infinities and NaN; pool, if any, order preserving; scaler in the sampler's diagonal setting."
  },
  {
   "property": "C137",
   "status": "proved",
   "theorems": [
    "Poco.C137_extend",
    "Poco.C137_chain",
    "Poco.C137_fewer",
    "Poco.C137_again",
    "Poco.C137_outputs"
   ],
   "note": "Random numbers are keyed by iteration number, so both histories see the same numbers per iteration; likelihood call counter and evaluated points excepted (C27 says how the counter differs)."
  },
  {
   "property": "C138",
   "status": "proved",
   "theorems": [
    "Poco.C138_pool",
    "Poco.C138_vectorize",
    "Poco.C138_saving"
   ],
   "note": "Likelihoods and priors are deterministic functions of the point; a pool enters through its map (C48 proves the contract for MPIPool under every schedule)."
  },
  {
   "property": "C139",
   "status": "proved",
   "theorems": [
    "Poco.C139_prior_constant",
    "Poco.C139_fresh",
    "Poco.C139_outputs"
   ],
   "note": "Whole run commutes with adding a constant to the log-prior; only stored log-priors and the flow's evidence change by it."
  },
  {
   "property": "C140",
   "status": "proved",
   "theorems": [
    "Poco.C140_walkers_alike",
    "Poco.C140_same_set",
    "Poco.C140_exchange"
   ],
   "note": "For successful calls; exact addition in means (rounding is not modelled here)."
  },
  {
   "property": "C141",
   "status": "partial",
   "theorems": [
    "Poco.C141_posterior_partial",
    "Poco.C141_posterior_then_partial",
    "Poco.C141_results_partial",
    "Poco.C141_results_shared"
   ],
   "note": "Proved for posterior() in full and for results as regards the sampler's own data; the full statement is false because results hands out its cache (C141_results_shared)."
  },
  {
   "property": "C142",
   "status": "partial",
   "theorems": [
    "Poco.C142_too_early",
    "Poco.C142_with_history_partial"
   ],
   "note": "The full statement is false: a too early access fills the cache (C142_too_early). Proved when the first access comes after an iteration was stored."
  },
  {
   "property": "C143",
   "status": "partial",
   "theorems": [
    "Poco.C143_no_effect",
    "Poco.C143_shown_partial",
    "Poco.C143_resumed_ignores",
    "Poco.C143_resume_empty",
    "Poco.Demo.C143_not_always"
   ],
   "note": "Proved except the parts that are false of the code: the calls shown in later runs (C143_not_always), the argument progress when resuming (C143_resumed_ignores), resuming a state without iterations (C143_resume_empty)."
  },
  {
   "property": "C144",
   "status": "partial",
   "theorems": [
    "Poco.C144_scale_partial",
    "Poco.C144_run_partial",
    "Poco.C144_centre",
    "Poco.C144_usual",
    "Poco.C144_aim_partial",
    "Poco.C144_not_always"
   ],
   "note": "The bounds hold for every kernel and in every iteration of a run. Missing: the aim, which is false for tiny step sizes (C144_not_always: nothing accepted and the step size of the default kernel rises); C144_aim_partial proves it when the step size is at least 0.117 times the weight of the step."
  },
  {
   "property": "C145",
   "status": "partial",
   "theorems": [
    "Poco.C145_whole_run",
    "Poco.C145_average",
    "Poco.C145_nothing_replaced_partial",
    "Poco.Demo.C145_not_always"
   ],
   "note": "False of the code; refuted exactly for 0/1 likelihoods and in a complete run, the size of the error is proved per batch. What holds: batches without infinite log-likelihoods are stored unchanged."
  },
  {
   "property": "C146",
   "status": "proved",
   "theorems": [
    "Poco.C146_iteration",
    "Poco.C146_run",
    "Poco.C146_resolution"
   ],
   "note": "Assumes of the flow only that its inverse returns single-precision values (tools.py:279-292, 343-352); exponent range is ignored; rounding elsewhere is not modelled."
  },
  {
   "property": "C147",
   "status": "proved",
   "theorems": [
    "Poco.C147_recorded",
    "Poco.C147_reported",
    "Poco.C147_effective",
    "Poco.C147_straight"
   ],
   "note": "For the evidence from the particles; the flow's importance-sampling estimate (C59, C103) is not bounded this way. C147_straight is for metric='ess'. Exact real arithmetic."
  },
  {
   "property": "C148",
   "status": "proved",
   "theorems": [
    "Poco.C148_trim",
    "Poco.C148_weights"
   ],
   "note": "weights over the reals (no rounding); resampled output is drawn from these rows (C61)"
  },
  {
   "property": "C149",
   "status": "proved",
   "theorems": [
    "Poco.C149_systematic",
    "Poco.C149_multinomial"
   ],
   "note": "the draws are exact uniform numbers; rounding of the resampling itself is C124"
  },
  {
   "property": "C150",
   "status": "proved",
   "theorems": [
    "Poco.C150_error"
   ],
   "note": "idealised particles (independent, exact tempered posteriors, true stored evidences) as the statement says"
  },
  {
   "property": "C151",
   "status": "proved",
   "theorems": [
    "Poco.C151_all",
    "Poco.C151_trimmed"
   ],
   "note": "After run returns: effective size of the untrimmed posterior weights >= n_total (both metrics); trimmed, ESS and number of samples >= ess_trim * n_total (metric ess)."
  },
  {
   "property": "C152",
   "status": "proved",
   "theorems": [
    "Poco.C152_uss",
    "Poco.C152_compute_ess",
    "Poco.C152_increment",
    "Poco.C152_increment_inf"
   ],
   "note": "Rounding after every operation, any order of additions; a machine that meets the assumptions is given (demoPow)."
  },
  {
   "property": "C153",
   "status": "proved",
   "theorems": [
    "Poco.C153_step"
   ],
   "note": "at every point of every session"
  },
  {
   "property": "C154",
   "status": "proved",
   "theorems": [
    "Poco.C154_evidence",
    "Poco.C154_error",
    "Poco.C154_scale"
   ],
   "note": "For bounded numbers without overflow; accuracy of exp/log/log1p to one unit in the last place is assumed, sqrt correctly rounded."
  },
  {
   "property": "C155",
   "status": "proved",
   "theorems": [
    "Poco.C155_sampling",
    "Poco.C155_error_bar"
   ],
   "note": "C155_sampling: exact mean square error of the evidence over the flow draws. C155_error_bar: bounds on the mean square of the bootstrap error over the index draws; both in exact real arithmetic."
  },
  {
   "property": "C156",
   "status": "proved",
   "theorems": [
    "Poco.C156_weights",
    "Poco.C156_trim"
   ],
   "note": "the machine is assumed correct only up to 2^1000 (Spec.IsDoubleInRange); examples on a machine that returns 0 above it"
  }
 ]
}