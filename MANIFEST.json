{
 "claims": [
  {
   "property": "C01",
   "status": "proved",
   "theorems": [
    "Edward.C01_getAncestors_exact"
   ],
   "note": ""
  },
  {
   "property": "C02",
   "status": "proved",
   "theorems": [
    "Edward.C02_getDescendants_exact"
   ],
   "note": ""
  },
  {
   "property": "C03",
   "status": "proved",
   "theorems": [
    "Edward.C03_getParents_exact",
    "Edward.C03_getParents_direct"
   ],
   "note": ""
  },
  {
   "property": "C04",
   "status": "proved",
   "theorems": [
    "Edward.C04_getChildren_exact",
    "Edward.C04_getChildren_direct"
   ],
   "note": ""
  },
  {
   "property": "C05",
   "status": "proved",
   "theorems": [
    "Edward.C05_converse"
   ],
   "note": ""
  },
  {
   "property": "C06",
   "status": "proved",
   "theorems": [
    "Edward.C06_ancestors_transitive"
   ],
   "note": ""
  },
  {
   "property": "C07",
   "status": "proved",
   "theorems": [
    "Edward.C07_getSiblings_exact",
    "Edward.C07_getBlanket_exact",
    "Edward.C07_blanket_symmetric"
   ],
   "note": ""
  },
  {
   "property": "C08",
   "status": "proved",
   "theorems": [
    "Edward.C08_getVariables_exact"
   ],
   "note": ""
  },
  {
   "property": "C09",
   "status": "proved",
   "theorems": [
    "Edward.C09_queries_terminate"
   ],
   "note": "termination is also certified by Lean accepting wloop as a total function"
  },
  {
   "property": "C10",
   "status": "proved",
   "theorems": [
    "Edward.C10_isIndependent_iff_dSeparated"
   ],
   "note": "acyclic tensor graph, distinct sample tensors"
  },
  {
   "property": "C11",
   "status": "proved",
   "theorems": [
    "Edward.C11_isIndependent_symm"
   ],
   "note": "PointMass nodes and cyclic graphs included"
  },
  {
   "property": "C12",
   "status": "proved",
   "theorems": [
    "Edward.C12_isIndependent_det",
    "Edward.C12_order_independent"
   ],
   "note": ""
  },
  {
   "property": "C13",
   "status": "proved",
   "theorems": [
    "Edward.C13_conditioned",
    "Edward.C13_argument_shapes",
    "Edward.C13_singleton"
   ],
   "note": ""
  },
  {
   "property": "C14",
   "status": "proved",
   "theorems": [
    "Edward.C14_unchanged",
    "Edward.C14_values"
   ],
   "note": "All flags, scopes, swaps, name oracles and fuel. The graph left behind by a call that raises is not modelled."
  },
  {
   "property": "C15",
   "status": "partial",
   "theorems": [
    "Edward.C15_copy_partial",
    "Edward.C15_replace_partial",
    "Edward.C15_op_partial",
    "Edward.C15_value_unique",
    "Edward.C15_total_partial",
    "Edward.C15_fails"
   ],
   "note": "violated: a dict_swap key that is the tensor of a random variable which is another's argument is not replaced (C15_fails). Partial: copy_q=False, keys that do not overlap (KeysOk), names as TensorFlow makes them (Proper, UniqOk); on acyclic graphs the call returns and the copy has exactly the substituted value (C15_total_partial)."
  },
  {
   "property": "C16",
   "status": "partial",
   "theorems": [
    "Edward.C16_no_duplicates_partial",
    "Edward.C16_shared_partial",
    "Edward.C16_same_partial",
    "Edward.C16_placeholder_fails",
    "Edward.C16_control_fails",
    "Edward.C16_local_fails"
   ],
   "note": "violated: the Operation of a placeholder, a control dependency on one, and variables outside tf.global_variables() are duplicated (_fails). Partial: otherwise no variable, placeholder or queue op is added, for all flags and histories, and unreplaced inputs from them are the same tensors."
  },
  {
   "property": "C17",
   "status": "partial",
   "theorems": [
    "Edward.C17_ignored",
    "Edward.C17_fails"
   ],
   "note": "violated: once the scope has a copy of the node, dict_swap is ignored (C17_ignored, C17_fails). C15 is the positive statement for unused scopes."
  },
  {
   "property": "C18",
   "status": "partial",
   "theorems": [
    "Edward.C18_again_partial",
    "Edward.C18_copy_q_fails"
   ],
   "note": "violated with copy_q=True: two random variables of one name are made and the second call returns the other (C18_copy_q_fails). Partial: copy_q=False, scope unused before the first call, acyclic graph."
  },
  {
   "property": "C19",
   "status": "proved",
   "theorems": [
    "Edward.C19_terminates",
    "Edward.C19_any_order"
   ],
   "note": "Weight decreased by every rule; any rule order and rounding."
  },
  {
   "property": "C20",
   "status": "partial",
   "theorems": [
    "Edward.C20_exact",
    "Edward.C20_partial",
    "Edward.C20_fails_sum",
    "Edward.C20_fails_product",
    "Edward.C20_fails_exponent",
    "Edward.C20_fails_rounding",
    "Edward.C20_nearest",
    "Edward.C20_exponent_error",
    "Edward.C20_fails_cast",
    "Edward.C20_fails_onehot",
    "Edward.C20_onehot_arguments"
   ],
   "note": "Without constant pruning every rule is exactly sound on its domain, in any order. With pruning the simplifier is sound up to an additive constant for separated expressions with powers nested at most seven deep, casts that keep values and plain indicators as one-hot encodings. Outside that class the claim is false and counterexamples are proved: sums below other operations, products of sums, exponents, rounding, casts to integers (dropped), on_value of one-hot encodings (dropped)."
  },
  {
   "property": "C21",
   "status": "proved",
   "theorems": [
    "Edward.C21_normal_form",
    "Edward.C21_idempotent"
   ],
   "note": "All expressions on which the simplifier returns."
  },
  {
   "property": "C22",
   "status": "proved",
   "theorems": [
    "Edward.C22_splits",
    "Edward.C22_key_injective",
    "Edward.C22_same_key"
   ],
   "note": "For every expression that mentions the random variable."
  },
  {
   "property": "C23",
   "status": "partial",
   "theorems": [
    "Edward.C23_partial",
    "Edward.C23_chi2_fails",
    "Edward.C23_poisson_fails"
   ],
   "note": "All table entries except Chi2 (misses exp(-x/2)) and Poisson (misses 1/x!), for which the negation is proved."
  },
  {
   "property": "C24",
   "status": "partial",
   "theorems": [
    "Edward.C24_bernoulli",
    "Edward.C24_categorical",
    "Edward.C24_binomial",
    "Edward.C24_multinomial",
    "Edward.C24_poisson",
    "Edward.C24_normal",
    "Edward.C24_mvnDiag_partial",
    "Edward.C24_mvnDiag_fails",
    "Edward.C24_beta",
    "Edward.C24_dirichlet",
    "Edward.C24_gamma",
    "Edward.C24_inverseGamma",
    "Edward.C24_exponential",
    "Edward.C24_laplace",
    "Edward.C24_chi2_fails",
    "Edward.C24_chi2_fails_batch",
    "Edward.C24_chi2_fails_scalar",
    "Edward.C24_certain_fails",
    "Edward.C24_zero_class_fails",
    "Edward.C24_logits_fails"
   ],
   "note": "True of all families but Chi2 (exp(-x/2) for -x/2, sums over the batch, raises on scalars) and MultivariateNormalDiag (returns per-coordinate entries; only their sum is the log density). Discrete families raise when built from logits and are NaN at probabilities zero or one. Negations proved."
  },
  {
   "property": "C25",
   "status": "partial",
   "theorems": [
    "Edward.C25_partial",
    "Edward.C25_product_fails",
    "Edward.C25_broadcast_fails",
    "Edward.C25_shift_fails",
    "Edward.C25_broadcast"
   ],
   "note": "violated: complete_conditional returns a distribution that is not the conditional when two factors of a product depend on the variable (x*x), when a statistic is broadcast (log(x*a) with scalar x and vector a), and when a sum is inside a logarithm (log(x+a)); each is proved on a concrete log joint. Proved otherwise: log joints linear in the statistics found, no broadcasting of statistics, statistics in the domain of C20, valid parameters, family not Chi2 or Poisson (see C23)."
  },
  {
   "property": "C26",
   "status": "partial",
   "theorems": [
    "Edward.C26_returns_iff",
    "Edward.C26_terminates_partial",
    "Edward.C26_terminates_fails"
   ],
   "note": "violated: the first theorem says exactly when the call returns; it loops forever e.g. for [0.6, 0.2, 0.2] and two trials"
  },
  {
   "property": "C27",
   "status": "proved",
   "theorems": [
    "Edward.C27_sums_to_total"
   ],
   "note": ""
  },
  {
   "property": "C28",
   "status": "partial",
   "theorems": [
    "Edward.C28_caller_unchanged_iff",
    "Edward.C28_caller_fails"
   ],
   "note": "violated: exact condition proved"
  },
  {
   "property": "C29",
   "status": "partial",
   "theorems": [
    "Edward.C29_mode_partial",
    "Edward.C29_floor_partial",
    "Edward.C29_mode_fails"
   ],
   "note": "violated: holds for one trial and for whole expected counts; every class gets at least the integer part"
  },
  {
   "property": "C30",
   "status": "proved",
   "theorems": [
    "Edward.C30_bookkeeping",
    "Edward.C30_overrun_raises"
   ],
   "note": ""
  },
  {
   "property": "C31",
   "status": "partial",
   "theorems": [
    "Edward.C31_first_rate_fails",
    "Edward.C31_above_one_fails",
    "Edward.C31_rate_partial",
    "Edward.C31_rate_bound_partial",
    "Edward.C31_first_rate_value_fails"
   ],
   "note": "violated: the first rate divides by t = 0; a late read of n_accept can exceed one. The partial theorems give the exact value from the second update on."
  },
  {
   "property": "C32",
   "status": "proved",
   "theorems": [
    "Edward.C32_accept_prob",
    "Edward.C32_step",
    "Edward.C32_reject_zero",
    "Edward.C32_reversible",
    "Edward.C32_invariant"
   ],
   "note": "General measurable state spaces; latents without a proposal kept fixed. Data bound to random variables and proposals depending on other proposal variables not modelled."
  },
  {
   "property": "C33",
   "status": "proved",
   "theorems": [
    "Edward.C33_leapfrog_reversible"
   ],
   "note": "Per-key loops as in the code; any step count, step size and force field."
  },
  {
   "property": "C34",
   "status": "proved",
   "theorems": [
    "Edward.C34_leapfrog_volume"
   ],
   "note": "Any translation-invariant s-finite measure on the product of the variables' spaces."
  },
  {
   "property": "C35",
   "status": "proved",
   "theorems": [
    "Edward.C35_hmc_reversible",
    "Edward.C35_hmc_invariant"
   ],
   "note": "Unconstrained space, density p = exp(_log_joint_unconstrained). Data bound to random variables (redrawn per log_joint call) not modelled."
  },
  {
   "property": "C36",
   "status": "proved",
   "theorems": [
    "Edward.C36_exchange_permutes",
    "Edward.C36_multiset",
    "Edward.C36_frequency"
   ],
   "note": "All draws quantified."
  },
  {
   "property": "C37",
   "status": "partial",
   "theorems": [
    "Edward.C37_exchange_invariant",
    "Edward.C37_update_partial",
    "Edward.C37_fails"
   ],
   "note": "Exchange step preserves the target for all models; the replicas' own moves only for symmetric proposals. The claim is false for asymmetric proposals (C37_fails): ratio *= inverse_temperature tempers the proposal terms."
  },
  {
   "property": "C38",
   "status": "proved",
   "theorems": [
    "Edward.C38_gibbs_invariant",
    "Edward.C38_gibbs_random"
   ],
   "note": "Systematic or random scan over single variables with exact conditionals leaves the joint invariant (general sigma-finite spaces)."
  },
  {
   "property": "C39",
   "status": "partial",
   "theorems": [
    "Edward.C39_block_partial",
    "Edward.C39_fails"
   ],
   "note": "A block's variables are drawn independently given the old values, so blocks of two dependent variables break invariance (witness); invariance holds when the block conditional factorises."
  },
  {
   "property": "C40",
   "status": "partial",
   "theorems": [
    "Edward.C40_marginal_partial",
    "Edward.C40_fails"
   ],
   "note": "The stored row is a fresh draw from the conditionals: marginals are right, the joint of a stored row is not (witness)."
  },
  {
   "property": "C41",
   "status": "proved",
   "theorems": [
    "Edward.C41_robbins_monro",
    "Edward.C41_noise"
   ],
   "note": "Step sizes positive, strictly decreasing, non-summable, square-summable; noise variance equals the step size."
  },
  {
   "property": "C42",
   "status": "partial",
   "theorems": [
    "Edward.C42_schedule_partial",
    "Edward.C42_outcomes",
    "Edward.C42_fails"
   ],
   "note": "The velocity buffer is read and assigned without ordering: two valid schedules write different samples. With copying reads all schedules agree."
  },
  {
   "property": "C43",
   "status": "proved",
   "theorems": [
    "Edward.C43_run_updates",
    "Edward.C43_progress",
    "Edward.C43_default_silent"
   ],
   "note": ""
  },
  {
   "property": "C44",
   "status": "partial",
   "theorems": [
    "Edward.C44_normal_partial",
    "Edward.C44_exception_fails"
   ],
   "note": "violated: no try/finally around the loop; holds when no call raises"
  },
  {
   "property": "C45",
   "status": "partial",
   "theorems": [
    "Edward.C45_reset_mc",
    "Edward.C45_reset_vi_partial",
    "Edward.C45_reset_sghmc_fails",
    "Edward.C45_reset_globalStep_fails",
    "Edward.C45_reset_gan_fails",
    "Edward.C45_reset_other_fails"
   ],
   "note": "violated by SGHMC, default global_step, GAN optimisers"
  },
  {
   "property": "C46",
   "status": "proved",
   "theorems": [
    "Edward.C46_checkData_iff",
    "Edward.C46_checkLatentVars_iff",
    "Edward.C46_order_independent",
    "Edward.C46_pairwise"
   ],
   "note": ""
  },
  {
   "property": "C47",
   "status": "proved",
   "theorems": [
    "Edward.C47_all_bound",
    "Edward.C47_accepted_constructs"
   ],
   "note": "assumes host values convert to the key's dtype"
  },
  {
   "property": "C48",
   "status": "proved",
   "theorems": [
    "Edward.C48_real",
    "Edward.C48_bijection",
    "Edward.C48_errors",
    "Edward.C48_explicit",
    "Edward.C48_shape",
    "Edward.C48_user"
   ],
   "note": "Bijectivity is of the interior of the support; boundary points are sent to infinities."
  },
  {
   "property": "C49",
   "status": "partial",
   "theorems": [
    "Edward.C49_keeps_keys",
    "Edward.C49_left_alone",
    "Edward.C49_support",
    "Edward.C49_discrete_fails",
    "Edward.C49_error_fails",
    "Edward.C49_twice_partial",
    "Edward.C49_twice_fails"
   ],
   "note": "Pairs whose supports agree, point masses and variables without supports are left alone, keys are kept. Violated: a discrete latent variable with an approximation of another support raises; the error leaves latent_vars truncated; a second initialisation keeps latent_vars but works on constrained variables."
  },
  {
   "property": "C50",
   "status": "partial",
   "theorems": [
    "Edward.C50_bound",
    "Edward.C50_kl_partial",
    "Edward.C50_kl_fails"
   ],
   "note": "Proved for the reparameterised and score losses on any sigma-finite space. The analytic-KL loss is the bound when the penalty is the divergence to the joint prior; for hierarchical Normal priors the penalty uses prior draws of the parents and the claim fails."
  },
  {
   "property": "C51",
   "status": "partial",
   "theorems": [
    "Edward.C51_score",
    "Edward.C51_score_kl",
    "Edward.C51_score_entropy",
    "Edward.C51_model",
    "Edward.C51_score_general",
    "Edward.C51_score_kl_general",
    "Edward.C51_score_entropy_general",
    "Edward.C51_model_general",
    "Edward.C51_rb_partial",
    "Edward.C51_scale_fails",
    "Edward.C51_shared_fails",
    "Edward.C51_rb_general_partial",
    "Edward.C51_rb_blankets",
    "Edward.C51_rb_blankets_exist",
    "Edward.C51_rb_sets_exact"
   ],
   "note": "Proved for unit scales, any normed parameter space, any reference measure (domination conditions; none needed for finitely many values). The Rao-Blackwellised gradient is proved unbiased for factorised approximations (any measures), with the blankets computed by get_descendants and get_blanket on any graph. Fails when scale differs from one: the factor is applied twice. Fails for parameters shared by the approximation and the model: the gradient through the log joint density is left out."
  },
  {
   "property": "C52",
   "status": "partial",
   "theorems": [
    "Edward.C52_reparam",
    "Edward.C52_score",
    "Edward.C52_kl",
    "Edward.C52_entropy",
    "Edward.C52_rb_partial",
    "Edward.C52_rb_fails"
   ],
   "note": "Holds for all losses but the Rao-Blackwellised one, whose dictionaries are aliased: only the last draw counts."
  },
  {
   "property": "C53",
   "status": "proved",
   "theorems": [
    "Edward.C53_dispatch"
   ],
   "note": ""
  },
  {
   "property": "C54",
   "status": "partial",
   "theorems": [
    "Edward.C54_split",
    "Edward.C54_rb",
    "Edward.C54_gan_partial",
    "Edward.C54_bigan_partial",
    "Edward.C54_gan_fails",
    "Edward.C54_bigan_fails"
   ],
   "note": "KLqp, KLpq and WakeSleep proved. GANs: proved for the default lists; a list given may overlap the discriminator's variables, and BiGAN ignores the list."
  },
  {
   "property": "C55",
   "status": "proved",
   "theorems": [
    "Edward.C55_weights",
    "Edward.C55_ratio"
   ],
   "note": ""
  },
  {
   "property": "C56",
   "status": "partial",
   "theorems": [
    "Edward.C56_own_scale_partial",
    "Edward.C56_wake_partial",
    "Edward.C56_sleep_partial",
    "Edward.C56_order",
    "Edward.C56_sleep_fails",
    "Edward.C56_klpq_fails",
    "Edward.C56_wake_losses_partial",
    "Edward.C56_kl_fails",
    "Edward.C56_entropy_fails"
   ],
   "note": "Holds for KLqp without analytic terms, MAP and the wake phase of WakeSleep; fails in the sleep phase (stale loop variable), for KLpq (scale ignored), for KLqp with the analytic KL (factors of latent variables ignored; the default when priors and approximations are normal) and with the analytic entropy (entropy not scaled)."
  },
  {
   "property": "C57",
   "status": "partial",
   "theorems": [
    "Edward.C57_tril_partial",
    "Edward.C57_diag_partial",
    "Edward.C57_diag_sqrt",
    "Edward.C57_init",
    "Edward.C57_tril_fails",
    "Edward.C57_diag_fails"
   ],
   "note": "Characterised exactly: TriL is right iff the Hessian is diagonal, Normal and Diag (scale stored as such) iff the diagonal Hessian is the identity."
  },
  {
   "property": "C58",
   "status": "partial",
   "theorems": [
    "Edward.C58_players_partial",
    "Edward.C58_prefix_fails"
   ],
   "note": "holds when no generator variable's name merely starts with Disc; the second theorem shows a model where it fails"
  },
  {
   "property": "C59",
   "status": "proved",
   "theorems": [
    "Edward.C59_clipped",
    "Edward.C59_clip_frame"
   ],
   "note": "clip >= 0, var_list (if given) holds generator variables as documented"
  },
  {
   "property": "C60",
   "status": "proved",
   "theorems": [
    "Edward.C60_pointwise",
    "Edward.C60_ratio",
    "Edward.C60_hinge_fails",
    "Edward.C60_hinge_partial"
   ],
   "note": "The hinge loss (not the default) does not recover the ratio: its minimum at a point is the sign of the difference of the densities."
  },
  {
   "property": "C61",
   "status": "partial",
   "theorems": [
    "Edward.C61_averaging_partial",
    "Edward.C61_vector",
    "Edward.C61_fails",
    "Edward.C61_invalid_partial"
   ],
   "note": "macro = micro = overall mean, None = column means, for all shapes. The invalid-option branch raises NameError (undefined name average_options), not ValueError."
  },
  {
   "property": "C62",
   "status": "partial",
   "theorems": [
    "Edward.C62_errors",
    "Edward.C62_msle_partial",
    "Edward.C62_msle_fails",
    "Edward.C62_accuracy",
    "Edward.C62_categorical_accuracy",
    "Edward.C62_kl",
    "Edward.C62_cosine",
    "Edward.C62_cosine_self",
    "Edward.C62_poisson"
   ],
   "note": "All parts proved except that the squared logarithmic error clips below 1e-8, so it vanishes for different negative numbers (witness). The Poisson metric is the Poisson log-likelihood at rates 1e-8 above the predictions."
  },
  {
   "property": "C63",
   "status": "partial",
   "theorems": [
    "Edward.C63_names",
    "Edward.C63_values_partial",
    "Edward.C63_unknown",
    "Edward.C63_fails"
   ],
   "note": "Names, callables, lists proved; a (name, options) tuple outside a list raises TypeError although documented."
  },
  {
   "property": "C64",
   "status": "proved",
   "theorems": [
    "Edward.C64_jensen"
   ],
   "note": "Jensen's inequality in extended reals, zero likelihoods allowed."
  },
  {
   "property": "C65",
   "status": "partial",
   "theorems": [
    "Edward.C65_draws_partial",
    "Edward.C65_matching_partial",
    "Edward.C65_zero",
    "Edward.C65_fails"
   ],
   "note": "Lengths and draws proved; replicated and realised discrepancies use different session runs, hence different latent draws (witness)."
  },
  {
   "property": "C66",
   "status": "proved",
   "theorems": [
    "Edward.C66_to_simplex",
    "Edward.C66_surjective"
   ],
   "note": "Positive, sums to one, injective, onto the open simplex, zero goes to uniform, for every dimension."
  },
  {
   "property": "C67",
   "status": "proved",
   "theorems": [
    "Edward.C67_formula",
    "Edward.C67_kernel"
   ],
   "note": "Documented formula, symmetry, diagonal, bounds, positive semidefiniteness; raises for non-positive parameters."
  },
  {
   "property": "C68",
   "status": "proved",
   "theorems": [
    "Edward.C68_optimal"
   ],
   "note": "Unique minimiser of the sample variance."
  },
  {
   "property": "C69",
   "status": "proved",
   "theorems": [
    "Edward.C69_empirical",
    "Edward.C69_empirical_reach",
    "Edward.C69_point_mass"
   ],
   "note": "Moments stated with Mathlib's integral and variance for the uniform law on rows."
  },
  {
   "property": "C70",
   "status": "partial",
   "theorems": [
    "Edward.C70_moments",
    "Edward.C70_log_prob_partial",
    "Edward.C70_sample",
    "Edward.C70_marginal_partial",
    "Edward.C70_log_prob_fails_rank",
    "Edward.C70_log_prob_fails_support",
    "Edward.C70_marginal_fails",
    "Edward.C70_moments_tensor",
    "Edward.C70_missing_fails"
   ],
   "note": "Samples in full; moments for one vector of weights and events of any shape, as tensors with their broadcasting. With a batch of weights mean and variance raise NotImplementedError, also where the components have both: proved as a failure. log_prob and marginal_log_prob reduce over the wrong axis for events of positive rank, and log_prob is NaN when an unselected component has density zero: both proved as failures."
  },
  {
   "property": "C71",
   "status": "proved",
   "theorems": [
    "Edward.C71_sample",
    "Edward.C71_terminates",
    "Edward.C71_history",
    "Edward.C71_stick_breaking",
    "Edward.C71_new_atoms",
    "Edward.C71_history_atoms"
   ],
   "note": "All coin flips, base draws and histories; the loop finishes iff every sample sees heads."
  },
  {
   "property": "C72",
   "status": "proved",
   "theorems": [
    "Edward.C72_progbar",
    "Edward.C72_no_error",
    "Edward.C72_zero_target_fails",
    "Edward.C72_first"
   ],
   "note": "texts of bar and info are abstract; a zero target raises ZeroDivisionError"
  },
  {
   "property": "C73",
   "status": "partial",
   "theorems": [
    "Edward.C73_stderr_partial",
    "Edward.C73_return_partial",
    "Edward.C73_idempotent",
    "Edward.C73_stderr_fails",
    "Edward.C73_raises",
    "Edward.C73_keras"
   ],
   "note": "violated: exceptions other than ImportError leave stderr redirected"
  },
  {
   "property": "C74",
   "status": "partial",
   "theorems": [
    "Edward.C74_register_partial",
    "Edward.C74_rejects",
    "Edward.C74_expected",
    "Edward.C74_list_collection_fails",
    "Edward.C74_duplicate_fails"
   ],
   "note": "violated for list collections (as documented) and repeated collections"
  },
  {
   "property": "C75",
   "status": "partial",
   "theorems": [
    "Edward.C75_explicit_variables_fails",
    "Edward.C75_default_partial"
   ],
   "note": "violated: t is created inside run and never initialised"
  },
  {
   "property": "C76",
   "status": "partial",
   "theorems": [
    "Edward.C76_crossentropy_partial",
    "Edward.C76_bound",
    "Edward.C76_fails"
   ],
   "note": "evaluate passes rounded probabilities as logits: perfect predictions of zeros have loss log 2. The metric function itself is the cross entropy for logits."
  },
  {
   "property": "C77",
   "status": "partial",
   "theorems": [
    "Edward.C77_hinge_partial",
    "Edward.C77_fails"
   ],
   "note": "With documented labels 0/1 an observation 0 always contributes 1; holds for labels -1/1."
  },
  {
   "property": "C78",
   "status": "partial",
   "theorems": [
    "Edward.C78_fails",
    "Edward.C78_partial"
   ],
   "note": "Violated: the isinstance test is inverted."
  },
  {
   "property": "C79",
   "status": "partial",
   "theorems": [
    "Edward.C79_added_partial",
    "Edward.C79_klpq_fails",
    "Edward.C79_adversarial",
    "Edward.C79_bigan_fails",
    "Edward.C79_prefix_fails"
   ],
   "note": "Fails for the loss reported by KLpq, where the penalty is subtracted; its gradient for the approximation is right."
  },
  {
   "property": "C80",
   "status": "proved",
   "theorems": [
    "Edward.C80_reparam"
   ],
   "note": ""
  },
  {
   "property": "C81",
   "status": "partial",
   "theorems": [
    "Edward.C81_partial",
    "Edward.C81_multiplier",
    "Edward.C81_fails"
   ],
   "note": "reconstruct_expr unpacks the arguments of add_n and _mul_n, so every sum or product inside a multiplier raises; all other expressions with the right number of arguments are rebuilt with their value."
  },
  {
   "property": "C82",
   "status": "partial",
   "theorems": [
    "Edward.C82_shape_partial",
    "Edward.C82_simplex_fails"
   ],
   "note": "Holds unless a support is the simplex; for the simplex the approximation has one entry too many (proved)."
  },
  {
   "property": "C83",
   "status": "partial",
   "theorems": [
    "Edward.C83_hmc_target_partial",
    "Edward.C83_transformed_fails"
   ],
   "note": "Holds for variables of the library's families on [0,1], [0,inf) and the reals. Simplex variables have the wrong number of entries (C82). A transformed variable with a real support has its own bijector applied: negation proved."
  },
  {
   "property": "C84",
   "status": "partial",
   "theorems": [
    "Edward.C84_map_list_partial",
    "Edward.C84_simplex_fails",
    "Edward.C84_sample_shape_fails",
    "Edward.C84_transformed_fails"
   ],
   "note": "Holds without sample shape on [0,1], [0,inf) and the reals; simplex and sample shapes raise TypeError; transformed variables with real support are restricted (proved)."
  },
  {
   "property": "C85",
   "status": "partial",
   "theorems": [
    "Edward.C85_no_cycle_partial",
    "Edward.C85_copy_q_fails"
   ],
   "note": "violated with copy_q=True: replacing something a random variable depends on by that random variable makes its copy depend on itself (C85_copy_q_fails). Partial: copy_q=False."
  },
  {
   "property": "C86",
   "status": "partial",
   "theorems": [
    "Edward.C86_stored_partial",
    "Edward.C86_nonnegative_fails"
   ],
   "note": "violated: on a constrained support the update reads `qz.params` (constrained values) but scatters the new sample into the variable of unconstrained rows, so sample t is the softplus of the step's result, strictly greater in each entry (proved for every family on [0, inf), every step, state and draw). Proved: it holds for unconstrained supports. A sample is the vector along its last axis."
  },
  {
   "property": "C87",
   "status": "partial",
   "theorems": [
    "Edward.C87_partial",
    "Edward.C87_fails"
   ],
   "note": "violated: z is drawn from the prior but log q(z | x) is evaluated at the observed data instead of an x drawn with z, so the expected loss is least at the prior only (C87_fails, for every model whose posterior differs from the prior). Proved: the documented objective when q does not depend on x. Unit scale factors (see C56)."
  },
  {
   "property": "C88",
   "status": "partial",
   "theorems": [
    "Edward.C88_optimum_partial",
    "Edward.C88_partial",
    "Edward.C88_fails",
    "Edward.C88_continuous_fails"
   ],
   "note": "violated: x' is simulated given the sample of q(z), not the sample of p(z) it is paired with, so the minimiser is log p(z) m(x) - log q(x, z) with m the law of data simulated from the approximation (C88_optimum_partial). The documented ratio is the minimiser iff the likelihood does not depend on the local variables (C88_partial); otherwise another discriminator has smaller loss (C88_fails). Any local variables with positive densities, finitely many values of the data, at one value of the global variables. With data of a continuous distribution no discriminator is best: the expected loss has infimum zero and no run has loss zero (C88_continuous_fails)."
  },
  {
   "property": "C89",
   "status": "partial",
   "theorems": [
    "Edward.C89_partial",
    "Edward.C89_fails"
   ],
   "note": "violated: the key joins the sorted names by underscores, so {a, b_c, r} and {a_b, c, r} share a tensor and the second call returns the first's log joint (C89_fails). Proved: the claim for all histories when names follow a scheme telling where a name begins, such as TensorFlow's default names (tokenName_default)."
  },
  {
   "property": "C90",
   "status": "partial",
   "theorems": [
    "Edward.C90_sound",
    "Edward.C90_stored",
    "Edward.C90_partial",
    "Edward.C90_fails",
    "Edward.C90_mh_fails",
    "Edward.C90_draws_fails"
   ],
   "note": "violated: the checks are made before the loss, the gradients or the update are built, and run separately from the update with other random draws; NaN in the loss or in an acceptance ratio is not reported. Proved: no false alarms; NaN stored in a parameter or sample is reported by the same update; deterministic tensors of the model are checked."
  },
  {
   "property": "C91",
   "status": "partial",
   "theorems": [
    "Edward.Feeds.C91_used",
    "Edward.Feeds.C91_caller_partial",
    "Edward.Feeds.C91_caller_fails",
    "Edward.Feeds.C91_shared_partial",
    "Edward.Feeds.C91_shared_fails",
    "Edward.Feeds.C91_gibbs_partial",
    "Edward.Feeds.C91_gibbs_fails"
   ],
   "note": "violated: the caller's dictionary is overwritten with the data, so a dictionary shared by two inferences carries placeholders from one to the other; in Gibbs a fed value replaces the data and persists in all later calls. Proved: what every update other than Gibbs' uses; exactly when the caller's dictionary is unchanged; sequences of inferences binding the same placeholders; Gibbs when no bound placeholder is fed and feeding does not stop."
  },
  {
   "property": "C92",
   "status": "partial",
   "theorems": [
    "Edward.Feeds.C92_partial",
    "Edward.Feeds.C92_unfed_fails",
    "Edward.Feeds.C92_stale_fails"
   ],
   "note": "violated: data which are random variables, and data bound to tensors, are never fed; a tensor whose value changes is read once. Proved for placeholders and for tensors with a constant value."
  },
  {
   "property": "C93",
   "status": "partial",
   "theorems": [
    "Edward.C93_langevin",
    "Edward.C93_partial",
    "Edward.C93_fails"
   ],
   "note": "violated: HMC, MetropolisHastings and ReplicaExchangeMC do not read `scale`. Proved for SGLD and SGHMC, and for the others when all factors are one."
  },
  {
   "property": "C94",
   "status": "partial",
   "theorems": [
    "Edward.C94_mh",
    "Edward.C94_hmc_partial",
    "Edward.C94_hmc_fails"
   ],
   "note": "violated: HMC draws random data anew in each evaluation of the log joint. Proved for MetropolisHastings and ReplicaExchangeMC, and for HMC with data that are not random."
  },
  {
   "property": "C95",
   "status": "proved",
   "theorems": [
    "Edward.C95_terminates",
    "Edward.C95_marginal",
    "Edward.C95_ties",
    "Edward.C95_tie"
   ],
   "note": "Over the infinite product of the laws of the loop's draws (base, Beta(1, concentration), uniform numbers), for the first call of sample on an object; later calls reuse atoms as in C71."
  },
  {
   "property": "C96",
   "status": "partial",
   "theorems": [
    "Edward.C96_partial",
    "Edward.C96_value",
    "Edward.C96_fails",
    "Edward.C96_nested_fails"
   ],
   "note": "violated: DirichletProcess passes dtype=tf.int32 although its draws have the dtype of the base. Conversion to the true dtype raises, conversion to int32 returns a float tensor, float data and approximations are refused, and a hierarchical process (base itself a DirichletProcess) cannot be built. Proved for everything else."
  },
  {
   "property": "C97",
   "status": "partial",
   "theorems": [
    "Edward.C97_partial",
    "Edward.C97_int",
    "Edward.C97_fails",
    "Edward.C97_overflow_fails"
   ],
   "note": "violated: check_data compares dtypes only for tensors; a float array for an integer random variable is accepted and silently truncated towards zero, and 64 bit integers are reduced modulo 2^32. Proved: stored as given exactly when the key's dtype can hold every entry. Rounding of floats is not modelled."
  },
  {
   "property": "C98",
   "status": "partial",
   "theorems": [
    "Edward.C98_partial",
    "Edward.C98_fails",
    "Edward.C98_sample_fails",
    "Edward.C98_query_fails"
   ],
   "note": "violated: the loop body creates an edward Bernoulli with the default collections (the Beta next to it has collections=[]), so construction and every call of sample register one internal variable, which graph queries then report. Proved when a value is given, as then nothing is sampled."
  },
  {
   "property": "C99",
   "status": "partial",
   "theorems": [
    "Edward.C99_partial",
    "Edward.C99_fails"
   ],
   "note": "violated: event_shape is base.shape, which includes the base's sample_shape, but atoms come from base.sample(batch_shape), which does not: every base with a sample_shape raises ValueError. Proved for bases without one."
  },
  {
   "property": "C100",
   "status": "partial",
   "theorems": [
    "Edward.C100_partial",
    "Edward.C100_sample",
    "Edward.C100_one_fails",
    "Edward.C100_rank_fails"
   ],
   "note": "violated: at construction _sample_n uses cat and components, which already carry the sample shape, and Distribution.sample adds it again: sample_shape=1 gives shape (1, 1, ...), and sample shapes of two axes raise ValueError. Proved for sample_shape () and (n,) with n \u2260 1, and for all later samples."
  },
  {
   "property": "C101",
   "status": "proved",
   "theorems": [
    "Edward.C101_loss",
    "Edward.C101_gradient"
   ],
   "note": "Independent draws from q, factors of q without dependence on each other (see C104), densities positive, usual domination condition for the gradient."
  },
  {
   "property": "C102",
   "status": "partial",
   "theorems": [
    "Edward.C102_one_sample",
    "Edward.C102_fails",
    "Edward.C102_more_samples"
   ],
   "note": "violated: with n_samples=1, the default, the only normalised weight is one, so the function differentiated is -log q(z) and does not mention the model; its expected gradient is that of the regularisation alone, for every smooth family. With two or more samples (finitely many values) the expected update raises the probability of a value the more, the larger the ratio of joint density and approximation; it vanishes at the posterior, and only there if the family is unrestricted. C101 is the limit of many samples."
  },
  {
   "property": "C103",
   "status": "partial",
   "theorems": [
    "Edward.C103_gradient_partial",
    "Edward.C103_one_partial",
    "Edward.C103_fails"
   ],
   "note": "violated: the weights are not under stop_gradient, so draw s counts with weight w_s (1 + log w_s - mean log w); with two draws the result can have the opposite sign. The exact gradient is proved; it is the documented one for n_samples=1."
  },
  {
   "property": "C104",
   "status": "partial",
   "theorems": [
    "Edward.C104_independent_partial",
    "Edward.C104_gradient_partial",
    "Edward.C104_fails"
   ],
   "note": "violated: stop_gradient is put on a factor's own value only; the value of a parent enters log_prob of the child with its reparameterisation path, so the gradient has an extra term (exact form proved). Witness: a Normal factor and a Bernoulli whose logits are its value. Right when factors are independent."
  },
  {
   "property": "C105",
   "status": "partial",
   "theorems": [
    "Edward.C105_rates",
    "Edward.C105_travel",
    "Edward.C105_descent",
    "Edward.C105_fails",
    "Edward.C105_named_partial"
   ],
   "note": "violated: the default learning rates 0.1 * 0.9^(t // 100) add up to 100 over all iterations, so Adam moves a coordinate by less than 728 in total whatever the gradients; a minimum 1000 away is never approached within 272. optimizer='adam' without a counter has no such bound. Adam as in TensorFlow 1, real arithmetic."
  },
  {
   "property": "C106",
   "status": "partial",
   "theorems": [
    "Edward.C106_choice",
    "Edward.C106_counter_partial",
    "Edward.C106_fails",
    "Edward.C106_counted"
   ],
   "note": "violated: for all seven names the learning rate is 0.01 without a counter and 0.1 * 0.9^(step // 100) with one; for the default optimiser it depends on the value the counter starts from. Holds for optimiser objects and for the default with a counter from zero. The choice by name and the errors are proved in full."
  },
  {
   "property": "C107",
   "status": "proved",
   "theorems": [
    "Edward.C107_batch",
    "Edward.C107_bigan",
    "Edward.C107_expected",
    "Edward.C107_discriminator",
    "Edward.C107_equilibrium",
    "Edward.C107_generator"
   ],
   "note": "Any measurable space. For the generator's gradient the densities are differentiable in the parameter with dominated derivatives, and KL(q||p) is finite. Outputs of the discriminator form a vector (one number per data point)."
  },
  {
   "property": "C108",
   "status": "partial",
   "theorems": [
    "Edward.C108_scalar_partial",
    "Edward.C108_fails",
    "Edward.C108_losses"
   ],
   "note": "Holds for data points with one entry. Fails for three entries: eps is drawn per entry, so interpolates fill a box and a spike at a data point costs a bounded penalty while its depth is unbounded."
  },
  {
   "property": "C109",
   "status": "partial",
   "theorems": [
    "Edward.C109_derivative_partial",
    "Edward.C109_fails"
   ],
   "note": "Fails whenever the critic is flat at one interpolate: the square root is differentiated at zero and every weight receives NaN."
  },
  {
   "property": "C110",
   "status": "partial",
   "theorems": [
    "Edward.C110_first_partial",
    "Edward.C110_fails"
   ],
   "note": "The first item of data is used whatever it is; with a placeholder first, the placeholder is compared with its own value."
  },
  {
   "property": "C111",
   "status": "partial",
   "theorems": [
    "Edward.C111_binomial_partial",
    "Edward.C111_categorical",
    "Edward.C111_multinomial_partial",
    "Edward.C111_fails",
    "Edward.C111_accuracy_fails",
    "Edward.C111_tie"
   ],
   "note": "Holds for one trial and for categorical outputs. The prediction for a Binomial output is the rounded probability, zero or one, whatever the number of trials (exact condition proved); its accuracy is zero whenever all observations are at least two. Multinomial outputs: see C29."
  },
  {
   "property": "C112",
   "status": "partial",
   "theorems": [
    "Edward.C112_formula_partial",
    "Edward.C112_limit",
    "Edward.C112_fails"
   ],
   "note": "violated: the expectation is larger by the average predictive variance over n_samples, exactly; the bias vanishes as n_samples grows."
  },
  {
   "property": "C113",
   "status": "partial",
   "theorems": [
    "Edward.C113_unchanged_partial",
    "Edward.C113_fails"
   ],
   "note": "violated: compute_multinomial_mode subtracts from the array of probabilities before the metric reads it; with whole expected counts nothing is left and the metric is infinite for all observations. Right for one trial, or if no class is expected once."
  },
  {
   "property": "C114",
   "status": "partial",
   "theorems": [
    "Edward.C114_arrays_partial",
    "Edward.C114_fails"
   ],
   "note": "violated: for any metric but the log-likelihood a list or Python number raises AttributeError, though check_data accepts it. Arrays and tensors of known rank are accepted."
  },
  {
   "property": "C115",
   "status": "partial",
   "theorems": [
    "Edward.C115_law_partial",
    "Edward.C115_average_partial",
    "Edward.C115_run_partial",
    "Edward.C115_finite_partial",
    "Edward.C115_prior_partial",
    "Edward.C115_missing_proposal_fails",
    "Edward.C115_periodic_fails",
    "Edward.C115_flag"
   ],
   "note": "proved with a geometric rate, a 1/n mean square error and almost sure convergence when every proposal density is at least a fixed multiple of the posterior density (finite models with positive proposals; proposals from the prior with bounded likelihood), starting at positive density, for exact arithmetic and independent draws. Fails for a latent variable without a proposal (never moves, accepted silently) and for periodic proposals. Without a rate, proposals that are merely positive (random walks on unbounded spaces): C119."
  },
  {
   "property": "C116",
   "status": "partial",
   "theorems": [
    "Edward.C116_chain_partial",
    "Edward.C116_rows_partial",
    "Edward.C116_average_partial",
    "Edward.C116_run_partial",
    "Edward.C116_finite_partial",
    "Edward.C116_joint_fails",
    "Edward.C116_omitted_fails"
   ],
   "note": "proved with a geometric rate for the fed values and almost sure convergence for averages of functions of one latent variable, when the proposals are the complete conditionals, their densities are bounded below and the joint above (finite spaces with positive conditionals; bounded supports), the scan lists every variable singly, and every latent variable is stored; for exact arithmetic and independent draws. Fails for functions of several latent variables: rows are drawn from the conditionals once more, independently of each other, so joint frequencies converge to something else. Fails when scan_order leaves a variable out. Without a rate, any positive joint density: C120."
  },
  {
   "property": "C117",
   "status": "proved",
   "theorems": [
    "Edward.C117_law",
    "Edward.C117_average",
    "Edward.C117_run",
    "Edward.C117_mean"
   ],
   "note": "Proved for log joints that are quadratic in the latent variables (normal models with known variances, linear regression), every dimension and positive step size: convergence in law for continuous functions of polynomial growth, and in mean square for averages over the stored rows. Uses the step sizes of the source, step_size / (t + 1)^0.55. Exact arithmetic, independent standard normal draws, gradients by their definition. Other posteriors are not covered."
  },
  {
   "property": "C118",
   "status": "partial",
   "theorems": [
    "Edward.C118_old_velocity",
    "Edward.C118_new_velocity",
    "Edward.C118_small_step",
    "Edward.C118_too_wide_fails",
    "Edward.C118_diverges_fails",
    "Edward.C118_default_factor",
    "Edward.C118_run",
    "Edward.C118_new_diverges_fails",
    "Edward.C118_mixed_partial",
    "Edward.C118_varying_partial"
   ],
   "note": "The law the samples settle to is computed exactly for the two orders of ops of C42, when one of them is used for all variables and updates: normal, around the posterior mean, too wide by an explicit factor in every principal direction. Proved: the factor goes to 1 with the step size. Fails: since the step size is constant the samples never converge to the posterior; with the default parameters and the order that uses old velocities, the variance is more than doubled at precision 10, and samples leave every interval from precision 20 on; with the other order they do so exactly from precision 1560 on. If the order differs between variables and between updates in any way, and the variables are independent given the data, the mean of the samples converges to that of the posterior and the mean squared error stays bounded, below an explicit precision close to the first of these limits (19.75 for the default parameters); so they do along the principal directions of any normal posterior if all variables share the order, whatever it is at each update. The variance is not computed in these two cases."
  },
  {
   "property": "C119",
   "status": "proved",
   "theorems": [
    "Edward.C119_law",
    "Edward.C119_average",
    "Edward.C119_run"
   ],
   "note": "for exact arithmetic, independent draws, finite measurable densities and a proper posterior; no rate. The hypotheses are shown to hold for a normal random walk. Without the condition on proposals see C115."
  },
  {
   "property": "C120",
   "status": "proved",
   "theorems": [
    "Edward.C120_chain",
    "Edward.C120_law",
    "Edward.C120_average",
    "Edward.C120_run"
   ],
   "note": "for exact arithmetic, independent draws, a proper posterior, and every latent variable stored; no rate. The hypotheses are shown to hold for two correlated normal variables. For functions of several latent variables see C116_joint_fails."
  },
  {
   "property": "C121",
   "status": "proved",
   "theorems": [
    "Edward.C121_law",
    "Edward.C121_average",
    "Edward.C121_run",
    "Edward.C121_one_step",
    "Edward.C121_two_steps",
    "Edward.C121_short",
    "Edward.C121_alternates_fails",
    "Edward.C121_mean_iff"
   ],
   "note": "for exact arithmetic, independent draws, a finite measurable unconstrained density and a proper posterior; no rate. C121_run is for latent variables of one shape (as the bookkeeping model), C121_law and C121_average for any shapes. Whether the gradient is that of the density does not matter, as for C35."
  },
  {
   "property": "C122",
   "status": "proved",
   "theorems": [
    "Edward.C122_law",
    "Edward.C122_average",
    "Edward.C122_run",
    "Edward.C122_accepted"
   ],
   "note": "for exact arithmetic and independent draws; no rate. Symmetric proposals are needed (C37). C122_run is for latent variables of one shape (as the bookkeeping model), C122_law and C122_average for any shapes."
  },
  {
   "property": "C123",
   "status": "partial",
   "theorems": [
    "Edward.C123_kl_iff",
    "Edward.C123_kl_covers",
    "Edward.C123_kl_fails",
    "Edward.C123_monte_carlo_iff",
    "Edward.C123_monte_carlo_run",
    "Edward.C123_laplace_iff",
    "Edward.C123_laplace_scalar_fails"
   ],
   "note": "the _iff theorems say exactly which lists are accepted. Variables with a sample shape are rejected by all (TypeError), float64 variables by KLqp, KLpq and Laplace (TypeError, C123_kl_fails), scalars by Laplace (IndexError), and variables on the simplex by Laplace; for KLqp and KLpq their shape is off by one (C82)."
  },
  {
   "property": "C124",
   "status": "partial",
   "theorems": [
    "Edward.C124_stationary",
    "Edward.C124_infimum",
    "Edward.C124_minimum",
    "Edward.C124_klqp",
    "Edward.C124_klqp_best",
    "Edward.C124_normal",
    "Edward.C124_fixed_fails",
    "Edward.C124_decay_fails",
    "Edward.C124_score"
   ],
   "note": "holds for rates that satisfy Robbins and Monro's conditions, which the caller has to supply. Violated for both learning rates the library builds: with the fixed rate 0.01 the location fitted to any normal posterior almost surely does not converge; with a global_step the rates add up to 100, and for a posterior of variance 200 the expected parameter never gets further than half way to the posterior mean."
  },
  {
   "property": "C125",
   "status": "partial",
   "theorems": [
    "Edward.C125_stationary",
    "Edward.C125_mode",
    "Edward.C125_mean_iff",
    "Edward.C125_diverges_fails",
    "Edward.C125_decay_fails"
   ],
   "note": "holds when the Lipschitz constant is below 200 = 2 / 0.01. Violated beyond: for the mean of n unit normal observations it converges exactly when n is at most 198, and from 200 observations on the parameter leaves every bounded set. Violated with a global_step: the rates add up to 100 and the parameter can stop half way."
  },
  {
   "property": "C126",
   "status": "partial",
   "theorems": [
    "Edward.C126_adagrad",
    "Edward.C126_adagrad_mode",
    "Edward.C126_adagrad_mean",
    "Edward.C126_momentum",
    "Edward.C126_momentum_iff",
    "Edward.C126_rmsprop_partial",
    "Edward.C126_rmsprop_fails",
    "Edward.C126_adagrad_decay_fails",
    "Edward.C126_ftrl",
    "Edward.C126_ftrl_mode",
    "Edward.C126_ftrl_mean",
    "Edward.C126_ftrl_start_fails",
    "Edward.C126_ftrl_decay_fails",
    "Edward.C126_adadelta_partial",
    "Edward.C126_adadelta_fixed",
    "Edward.C126_adadelta_rule"
   ],
   "note": "adagrad and ftrl: proved for every Lipschitz constant. momentum: proved for constants below 20, and for the mean of n unit normal observations exactly for n up to 378. Violated by rmsprop: it can only converge to the mode by hitting it exactly, and from one start it alternates for ever. The same holds for adadelta from 200 observations on; its convergence for fewer is not treated. Violated by a single update of ftrl: started at the mode it sets the parameter to zero. Violated with a global_step: with adagrad no coordinate moves further than 100, and with ftrl every parameter tends to zero whatever the model."
  },
  {
   "property": "C127",
   "status": "partial",
   "theorems": [
    "Edward.Arguments.C127_optimization",
    "Edward.Arguments.C127_sampling_partial",
    "Edward.Arguments.C127_n_iter_fails",
    "Edward.Arguments.C127_auto_transform_fails",
    "Edward.Arguments.C127_run_positional_fails",
    "Edward.Arguments.C127_prettytensor_fails"
   ],
   "note": "holds for the 16 classes that optimize. Violated by the classes that sample: n_iter is accepted and ignored (the rows of the Empirical approximation are used), as is auto_transform in Gibbs, MetropolisHastings and ReplicaExchangeMC. run(500) takes 500 for variables, not n_iter. The GAN classes reject use_prettytensor."
  },
  {
   "property": "C128",
   "status": "partial",
   "theorems": [
    "Edward.Seeds.C128_set_seed",
    "Edward.Seeds.C128_reproducible",
    "Edward.Seeds.C128_distinct",
    "Edward.Seeds.C128_copy_partial",
    "Edward.Seeds.C128_copy_fails",
    "Edward.Seeds.C128_collision_fails",
    "Edward.Seeds.C128_keras_fails",
    "Edward.Seeds.C128_draws",
    "Edward.Seeds.C128_seeds",
    "Edward.Seeds.C128_unseeded",
    "Edward.Seeds.C128_truncated_fails"
   ],
   "note": "holds for programs that begin with set_seed and give no seed to an operation. Violated: without a graph seed, copy keeps the seed of an operation, though a new one is documented, and the copy draws the same numbers; seeds given to operations can coincide with those given out; the Keras placeholder that set_seed allows changes all numbers; seeds that agree modulo 2^31 - 1 make TensorFlow draw the same numbers."
  },
  {
   "property": "C129",
   "status": "partial",
   "theorems": [
    "Edward.Dot.C129_vector",
    "Edward.Dot.C129_matrix_partial",
    "Edward.Dot.C129_documented_fails",
    "Edward.Dot.C129_errors"
   ],
   "note": "the vector-matrix case holds as documented. The documented shapes of the matrix-vector case are wrong: with an M x N matrix y has to be an N-vector and the result has length M; an M-vector raises ValueError unless M = N."
  },
  {
   "property": "C130",
   "status": "partial",
   "theorems": [
    "Edward.PointShapes.C130_empirical_partial",
    "Edward.PointShapes.C130_point_mass_partial",
    "Edward.PointShapes.C130_scalar_fails",
    "Edward.PointShapes.C130_unknown_rank_fails",
    "Edward.PointShapes.C130_param_shapes_fails"
   ],
   "note": "holds for parameters of known rank. Violated: moments of Empirical with a scalar raise ValueError although the class provides for scalars; parameters of unknown rank cannot be used; param_shapes of Empirical lacks the dimension of points and that of PointMass is a matrix."
  },
  {
   "property": "C131",
   "status": "partial",
   "theorems": [
    "Edward.Expressions.C131_meaning_partial",
    "Edward.Expressions.C131_declared_fails",
    "Edward.Expressions.C131_identity"
   ],
   "note": "holds if every random variable declares the dtype of its samples. Violated otherwise, as for a DirichletProcess: r + s raises ValueError while s + r is accepted."
  },
  {
   "property": "C132",
   "status": "partial",
   "theorems": [
    "Edward.LiveList.C132_result_partial",
    "Edward.LiveList.C132_later_fails",
    "Edward.LiveList.C132_removed_fails",
    "Edward.LiveList.C132_loop_visits",
    "Edward.LiveList.C132_loop_ends",
    "Edward.LiveList.C132_loop_fails"
   ],
   "note": "holds right after the call if no result was changed. Violated: the result is the registry itself, so it grows with later variables; variables removed from it are missing from later results; a loop over it that builds a variable in every pass, such as one that copies, never ends."
  },
  {
   "property": "C133",
   "status": "partial",
   "theorems": [
    "Edward.C133_loss_partial",
    "Edward.C133_kl_partial",
    "Edward.C133_entropy_partial",
    "Edward.C133_mcmc_partial",
    "Edward.C133_gradient_partial",
    "Edward.C133_score_partial",
    "Edward.C133_descent_partial",
    "Edward.C133_best_partial",
    "Edward.C133_normal",
    "Edward.C133_generator",
    "Edward.C133_generator_fails",
    "Edward.C133_epoch",
    "Edward.C133_epoch_fails",
    "Edward.C133_klpq_fails",
    "Edward.C133_hmc_fails",
    "Edward.C133_kl_fails",
    "Edward.C133_entropy_fails",
    "Edward.C133_score_fails"
   ],
   "note": "holds for KLqp without analytic terms, with kl_scaling N/M, with score functions and global latent variables, for MAP, SGLD and SGHMC, and for batches no larger than the data. Violated: KLqp with the analytic KL (its choice for normal variables) or entropy ignores scale of local variables; score gradients of local variables carry N/M twice; KLpq and HMC ignore scale; the sum of the losses of an epoch is as many times the loss of the data as there are batches, contrary to the tutorial; with batches larger than the data the generator ends up with too few rows."
  },
  {
   "property": "C134",
   "status": "partial",
   "theorems": [
    "Edward.C134_loss",
    "Edward.C134_change",
    "Edward.C134_gradient",
    "Edward.C134_alternate",
    "Edward.C134_em_loss",
    "Edward.C134_em",
    "Edward.C134_em_exact",
    "Edward.C134_mixture",
    "Edward.C134_var_list_fails",
    "Edward.C134_message_passing_fails"
   ],
   "note": "holds for KLqp (both kinds of loss without analytic terms) of either block and for variational EM with MAP, where each inference trains the parameters of its own block. Violated with the parameters of the other block in var_list, as in examples/probabilistic_pca_subsampling.py: the scale of the approximation falls to zero and the divergence tends to infinity. Violated for the documented message passing: KLpq of parts of the data with a shared approximation leads away from the posterior given all data."
  },
  {
   "property": "C135",
   "status": "partial",
   "theorems": [
    "Edward.C135_default",
    "Edward.C135_compose",
    "Edward.C135_density_partial",
    "Edward.C135_value_fails",
    "Edward.C135_gan_fails",
    "Edward.C135_bigan_fails"
   ],
   "note": "the list is exact in terms of the graph; it holds the variables on which log densities depend if values are samples. Violated: parameters of a random variable made with the argument value are left out; GANInference takes all trainable variables outside the discriminator; BiGANInference ignores var_list."
  },
  {
   "property": "C136",
   "status": "partial",
   "theorems": [
    "Edward.C136_gradient_partial",
    "Edward.C136_unbiased_partial",
    "Edward.C136_prior_fails",
    "Edward.C136_normal_fails",
    "Edward.C136_model_fails"
   ],
   "note": "holds for the parameters of the approximations if the discriminator is the documented ratio, for scales that are not negative. Violated with the discriminator that minimises the loss of the code: the expected update is then the gradient of the divergence from the prior of the local variables, whatever the likelihood (C136_prior_fails; for normal local variables the approximation is drawn to the prior mean, C136_normal_fails). Violated for parameters of the likelihood: the loss differentiated for them does not depend on them (C136_model_fails)."
  },
  {
   "property": "C137",
   "status": "partial",
   "theorems": [
    "Edward.C137_losses",
    "Edward.C137_score_partial",
    "Edward.C137_rb_partial",
    "Edward.C137_difference_partial",
    "Edward.C137_rb_loss_fails",
    "Edward.C137_samples_fails",
    "Edward.C137_fails"
   ],
   "note": "holds for the losses of all other variants and for the score function gradient. Violated by the Rao-Blackwellised variant: its variance is that of one draw whatever n_samples (all samples share one dictionary), so with enough samples the plain gradient is less noisy (C137_samples_fails). Violated even with one sample: leaving terms out can raise the variance (C137_fails: a Bernoulli variable, variance (log 12)^2 against (log 3)^2); the exact difference is proved when the terms kept depend on the variables of the parameter only, and it is not negative if the terms left out have mean zero."
  },
  {
   "property": "C138",
   "status": "partial",
   "theorems": [
    "Edward.C138_unread_partial",
    "Edward.C138_law",
    "Edward.C138_logged_fails",
    "Edward.C138_seed_fails",
    "Edward.C138_queue_fails"
   ],
   "note": "holds if the extra runs take nothing from the sources of the training op; holds in law for independent draws. Violated: after the same ed.set_seed a run with logdir gives other results from the second update on; with a queue of an even number of batches and debug=True every second batch is never trained on; the summary of an update is evaluated at the new variables with other draws and data."
  },
  {
   "property": "C139",
   "status": "partial",
   "theorems": [
    "Edward.C139_objective_partial",
    "Edward.C139_fails",
    "Edward.C139_minimisers_fails",
    "Edward.C139_weights_fails",
    "Edward.C139_observed_partial",
    "Edward.C139_observed_fails",
    "Edward.C139_collapse_fails",
    "Edward.C139_data_ignored_fails",
    "Edward.C139_map_ignored_fails",
    "Edward.C139_bound_fails"
   ],
   "note": "what is minimised is proved; the property is violated, since log_prob is that given `cat` (as the class says) while reparameterization_type is that of the components. As an approximation: the expected loss is the weighted sum of the objectives of the single components, strictly above the documented one unless the components agree; each component is fitted on its own; the weights have gradient zero. Bound to data, with parameters that are tf.Variables: all means of a mixture of Normals go to the mean of the data. With parameters that are latent variables, or `cat` inferred: the loss depends on the approximations as if there were no data, since copy does not look into component_params and the copy has a new `cat`."
  },
  {
   "property": "C140",
   "status": "partial",
   "theorems": [
    "Edward.C140_partial",
    "Edward.C140_fails"
   ],
   "note": "exact condition proved (C140_partial). Violated: lists passed by position, and dicts passed either way, are handed to the copy as they are."
  },
  {
   "property": "C141",
   "status": "partial",
   "theorems": [
    "Edward.C141_klqp",
    "Edward.C141_unchecked_fails",
    "Edward.C141_reparam_fails",
    "Edward.C141_reparam_kl_fails",
    "Edward.C141_reparam_entropy_fails",
    "Edward.C141_fails"
   ],
   "note": "KLqp never takes a loss that needs reparameterizable approximations for others; the score function classes are unbiased (C51). Violated by the three Reparameterization classes: they accept e.g. a Bernoulli approximation without an error. ReparameterizationKLqp then has a gradient with mean zero whatever the model; the analytic variants only follow the divergence from the prior or the entropy, whatever the data."
  },
  {
   "property": "C142",
   "status": "partial",
   "theorems": [
    "Edward.C142_klqp_partial",
    "Edward.C142_klqp_minimiser_fails",
    "Edward.C142_bound",
    "Edward.C142_iff",
    "Edward.C142_fails",
    "Edward.C142_map_fails",
    "Edward.C142_mh_fails"
   ],
   "note": "KLqp and MAP use the geometric instead of the arithmetic mean over the other variables; minus the loss is still a lower bound of the log evidence, and the minimum is the posterior iff the means are proportional. MetropolisHastings draws the other variables afresh for the old and the new state, which does not preserve the posterior (example). Finite spaces."
  },
  {
   "property": "C143",
   "status": "partial",
   "theorems": [
    "Edward.C143_klqp",
    "Edward.C143_map",
    "Edward.C143_map_bound_partial",
    "Edward.C143_map_exact_fails",
    "Edward.C143_map_bound_fails",
    "Edward.C143_map_fails",
    "Edward.C143_sgld_partial",
    "Edward.C143_sgld_fails",
    "Edward.C143_mh_partial",
    "Edward.C143_mh_fails",
    "Edward.C143_hmc_partial",
    "Edward.C143_hmc_fails",
    "Edward.C143_hmc_invariant_fails",
    "Edward.C143_hmc_trajectory",
    "Edward.C143_sghmc_partial",
    "Edward.C143_sghmc_fails",
    "Edward.C143_klpq",
    "Edward.C143_klpq_partial",
    "Edward.C143_klpq_fails"
   ],
   "note": "KLqp and the objective of MAP are as documented. That objective is a lower bound if beta has finitely many values, but never exact if it has more than one; for continuous beta it need not be a bound; its maximum can lie where the density is smaller than elsewhere. SGLD and the velocity of SGHMC follow on average the gradient of the log marginal if qbeta is the law of beta given x and z; given the posterior of beta they can go against it. With many samples KLpq follows the divergence from the law with density proportional to E_qbeta p(x, z, beta), as the density of qbeta is not in its weights: that is the posterior of z if qbeta is uniform or z and beta are independent given x, but not in general if qbeta is the posterior of beta. MetropolisHastings preserves the posterior if that does not depend on beta; in general it does not, as old and new state share a draw that is not kept, which is not a pseudo-marginal method. HMC draws beta afresh in each call of _log_joint: with an independent beta the posterior is preserved if the density of beta is constant, otherwise detailed balance fails along every trajectory that changes the density, and for a standard normal posterior one update with one step makes every ball around the mean less likely."
  },
  {
   "property": "C144",
   "status": "partial",
   "theorems": [
    "Edward.C144_validated",
    "Edward.C144_error_partial",
    "Edward.C144_dict_fails",
    "Edward.C144_scalar_fails",
    "Edward.C144_static_fails",
    "Edward.C144_unvalidated",
    "Edward.C144_value",
    "Edward.C144_square_fails",
    "Edward.C144_sum_fails",
    "Edward.C144_single",
    "Edward.C144_mismatch",
    "Edward.C144_shared"
   ],
   "note": "With validate_args=True exactly the arguments that fit are accepted, and their value is that of the component named by cat. Violated: component_params without values raises AttributeError, as they are read before the test; scalar components raise IndexError; an unknown number of weights of known rank raises ValueError. Without validate_args, the default, K vectors of K weights with K components give component b for mixture b whatever the weights, and one weight with K components gives the sum of all components; one component with K weights is that component, a K x L array of weight vectors with shared components is right but mixtures share draws, other numbers raise ValueError."
  },
  {
   "property": "C145",
   "status": "partial",
   "theorems": [
    "Edward.C145_parameters",
    "Edward.C145_nothing",
    "Edward.C145_kind",
    "Edward.C145_default",
    "Edward.C145_tags",
    "Edward.C145_initialize",
    "Edward.C145_written",
    "Edward.C145_vector_fails",
    "Edward.C145_all_fails",
    "Edward.C145_gradient_fails",
    "Edward.C145_rank_fails",
    "Edward.C145_short_fails"
   ],
   "note": "By default exactly the variables which keys of data, latent variables or approximations depend on are logged, each once, with tags of their own; summaries are written at the first update and at multiples of a positive n_print. Violated: a vector of length one is shown as a scalar; variables of a distribution that is only a value in data are not logged; with logdir initialize raises if one variable has no gradient or an unknown rank; with the default n_print and less than 100 iterations no summary is written."
  },
  {
   "property": "C146",
   "status": "partial",
   "theorems": [
    "Edward.C146_constructor",
    "Edward.C146_absent",
    "Edward.C146_ratio_loss",
    "Edward.C146_partial",
    "Edward.C146_globals",
    "Edward.C146_transform_fails",
    "Edward.C146_unused_fails",
    "Edward.C146_scale_partial",
    "Edward.C146_scale_fails"
   ],
   "note": "The checks are exact. The claim on variables holds if the items of global_vars are items of latent_vars that auto_transform leaves alone, the one on scales if the discriminator returns a dictionary and scale has its keys, two or more. Violated: auto_transform has no effect on global variables, so a nonnegative one approximated by a real one gets negative draws; of a variable bound differently in both dictionaries the approximation in latent_vars is ignored; data variables without scale are dropped from the loss if there are two or more scales, and a discriminator returning a dictionary fails with fewer than two. That TensorFlow raises for a dictionary in place of a tensor is assumed."
  }
 ]
}