# Formal model of edward: design

The source under study is `/repo/edward` (Python, TensorFlow 1). It is read as
text, never run. The model is written in Lean 4 (4.33.0) under
`lean/Verif/`; Mathlib modules are imported one at a time.

## Layout

* `Verif/Model/*.lean`: executable (or, over the reals, noncomputable but
  definitional) transcriptions of the Python functions. Every definition cites
  the file and lines it models and says where it simplifies.
* `Verif/Spec/*.lean`: short specifications that do not mention the model.
* `Verif/Lemmas/*.lean`: helper lemmas.
* `Verif/Props/*.lean`: the property theorems, one file per area, named
  `Cnn_...`. Beside each theorem an `example` instantiates its hypotheses on a
  concrete non-trivial case. `_partial` marks a theorem weaker than the English
  claim; `_fails` marks a proved negation (the code violates the claim).

## Modelling conventions

* TensorFlow graphs are finite: ops are numbered, each op has a list of input
  tensors, a list of output tensors; `consumers` is the list of ops reading a
  tensor. Control-flow cycles are allowed except where stated (`copy`).
* Python `set.pop`, dict iteration order, `random_state.choice`, random draws
  and TensorFlow op scheduling are explicit arguments (schedules, oracles) and
  theorems quantify over all of them.
* Exceptions are values (`Except`/`Option`/outcome types).
* Real-valued arithmetic is over the reals (or any field). Floating point is
  not modelled, except where a claim is about NaN or infinity; there a
  small extended number type is used.
* Probability statements are over finite state spaces (sums) or Lebesgue
  measure (HMC).

## Plan per property

| id | model | proof |
|----|-------|-------|
| C01-C04 | work-list traversal with arbitrary pop order | invariant; result set = reachability spec |
| C05-C07 | composition of C01-C04 | path reversal, path splitting |
| C08 | the same work list keyed by names | as C01 |
| C09 | well-founded recursion on unvisited nodes | termination accepted by Lean plus visit-once lemma |
| C10-C13 | Bayes-ball with explicit schedule and pop order | marked sets = reachability in the ball automaton = active walks = d-connecting trails |
| C14-C18, C85 | append-only graph of named nodes; `copy` as a state transformer with fuel, name and parent oracles | big-step relation, invariant "every new operation is the copy of an old one", induction on rank for totality; witnesses for overlapping keys, scope reuse, `copy_q` |
| C19-C22 | expression trees; each rewrite rule as a partial function; the pass and the outer loop | polynomial interpretation for termination; rule-by-rule soundness over positive reals; C20 violated by `add_const_simplify` under `Log`: witness and partial theorem |
| C23, C24 | table rows as functions of natural parameters; log-density formulas | algebraic identities over the reals; Chi2 and Poisson violate: witnesses |
| C25 | log joint as a tree of tensors with shapes; linear-term search, symbolic form, placeholders, gradients as partial derivatives | the log joint is affine in the statistics found, so the gradients are its coefficients; with C20, C22, C23 and C81 this gives the density up to a constant; `x*x`, broadcasting and `log(x+a)` violate: witnesses |
| C26-C29 | loop with arbitrary choice of cold indices | invariant; non-termination witness (uniform, more classes than trials); aliasing modelled by returning the caller's array |
| C30, C31 | state machine over rows, `t`, `n_accept`, op order | induction over histories; first update divides by zero: witness |
| C32 | ratio accumulation as in the loops; kernel with uniform draw | measure of the accept set, detailed balance, stationarity |
| C33-C35 | leapfrog over product spaces | induction on steps; measure preservation of shears; involutive MH |
| C36, C37 | exchange loop | permutation invariant; detailed balance; tempered proposal ratio violates for asymmetric proposals |
| C38-C40 | sweep kernel; feed dictionary state machine | sums; witnesses for blocks and stored rows |
| C41 | the step size sequence | p-series |
| C42 | ops with reads/writes and data dependencies; all topological orders | two orders with different results |
| C43-C45 | run loop with fault injection; reset lists | induction; witnesses |
| C46-C49 | decision functions over kinds/shapes/supports | case analysis; witnesses |
| C50-C56 | loss accumulation loops | finite sums, derivatives; aliasing and stale-variable witnesses |
| C57 | assignments made in `finalize` | matrix algebra; witnesses |
| C58, C59 | update state machine | invariants |
| C60 | the loss | convexity/derivative-free inequality |
| C61-C65 | metrics, dispatch, sampling loop | sums, Gibbs' inequality, Jensen; witnesses |
| C66-C68 | formulas | real analysis |
| C69-C71 | sampling functions with oracles | invariants, identities |
| C72, C73 | output log / terminal; stderr variable | induction over histories |
| C74 | constructor as a state transformer | case analysis |
| C75 | initialisation of variables in `run` | the counter made by `initialize` is not in the caller's list |
| C76, C77 | metric formulas and the values `evaluate` passes to them | real analysis; witnesses |
| C78 | argument checks of the constructor | case analysis |
| C79 | regularisation terms in the losses | sums; KLpq violates |
| C80 | the reparameterised loss | derivative under the integral sign |
| C81 | `reconstruct_expr` on trees | induction; sums and products violate |
| C82 | shapes of the objects made by `initialize` | case analysis; simplex violates |
| C83 | the loop of `_log_joint_unconstrained` over the dictionaries made by `initialize` | dictionary lookups resolved, then change of variables for coordinatewise maps; transformed variables violate |
| C84 | `MAP.__init__` on a list, with the shape check | range of the parameterisation; simplex, sample shapes, transformed variables violate |
| C86 | rows of the Empirical, `qz.params` through the bijector, scatter update | lookups; softplus exceeds the identity, so nonnegative supports violate |
| C87 | values bound by `p_dict_swap` | integral of the loss; Kullback-Leibler divergence, the prior is the minimiser |
| C88 | the draws behind `loss_d` and its expectation | iterated integrals rearranged pointwise, then C60; the documented ratio is optimal iff data and local variables are independent |
| C89 | list of named tensors, the two cache lookups | invariant over all histories; names as tokens, unique decomposition; joined names can clash |
| C91 | dictionaries as functions; the loop over `data` writes into the caller's object; Gibbs' own dictionary | induction over the data and over sequences of calls with one object; the value used by Gibbs is the last one ever fed |
| C92 | same; data values as functions of the moment they are evaluated | invariant of Gibbs' dictionary over all updates |
| C90 | tensors built before and after the checks are made; two session runs per update | membership; a graph for every split of the tensors in which the unchecked one is always NaN |
| C93 | log joints and ratios as accumulated by the loops, with `scale` | loops equal sums; the models do not mention `scale` |
| C94 | same, with one draw of the data (MH) or one per evaluation (HMC) | algebra |
| C95 | `dpSample` of Model/Distributions.lean with its draws taken from an infinite product measure | moments of Beta(1, a) from ratios of Beta densities; geometric series over the first step with heads |
| C96, C98, C99, C100 | Model/DpObject.lean: dtypes by class, tensor conversion, registration while sampling, shapes of atoms and mixture values | case analysis; graph query instance through C04; list lengths and products |
| C97 | Model/StoreCast.lean: check and cast of host data | an entry survives the cast iff representable |
| C101-C103 | the KLpq losses of Model/Variational.lean | strong law of large numbers for the self-normalised sums; derivative under the integral; closed form of the gradient of the weights; witness with two draws |
| C104 | Model/StructuredApprox.lean: own value fixed, parents' values moving | chain rule in two arguments; Gaussian integral of the extra term |
| C105, C106 | Model/Optimizer.lean: choice of optimiser, learning rates, one coordinate of Adam with arbitrary gradients | telescoping sum of the rates; invariant m² ≤ C v; Bernoulli's inequality for the bias correction |
| C107, C109, C110, C79 | Model/GanLoss.lean: losses of a batch, interpolates, penalty, its back-propagation with NaN | pointwise minimum of cross entropy; `klDiv` from densities; derivative of the divergences under the integral |
| C108 | Model/GanLoss.lean; expectation over the uniform draws of `eps` | fundamental theorem along the segment for one entry; for three entries critics -(∣u∣²+δ)^(-1/8) with bounded energy |
| C111-C114, C62 | Model/Predict.lean: averaging over runs, predictions, what is left in the array of probabilities | ratio of successive binomial probabilities; variance of a sum of independent draws; invariant of the mode loop |
| C115 | Model/Convergence.lean: one update as a function of the state and its random numbers, average over the stored rows | Lemmas/Ergodic.lean: the update's law keeps the posterior (C32) and is at least a multiple of it, so oscillations contract; covariances decay geometrically; second moments along squares give almost sure convergence |
| C116 | Model/GibbsChain.lean: the update of Model/Gibbs.lean run on a stream of random numbers | averaging the program over the stream gives the scan in expectation (C38); a scan over all variables is at least a multiple of the product measure, so of the posterior; Lemmas/Ergodic.lean as in C115; the law of a stored row is computed for two correlated coins |
| C117 | Model/LangevinChain.lean: the update of C41 as a kernel of `MonteCarlo` | the chain is linear in the draws: Lemmas/GaussianChain.lean gives its law; Lemmas/DecreasingSteps.lean: along eigenvectors of the precision the mean decays and the variance follows a Robbins-Monro recursion; Lemmas/GaussianPosterior.lean: normal posteriors from their log densities, Cramér-Wold; averages by decaying correlations |
| C118 | Model/LangevinChain.lean: the op schedules of C42 as a kernel | along eigenvectors sample and velocity follow a plane map with a decreasing quadratic form (`Lyapunov`), which gives the settled variance; a conserved form shows divergence; a form decreasing under both orders for mixed ones |
| C119 | Model/Convergence.lean as for C115 | Lemmas/Positive.lean: a Markov kernel that keeps π and from almost everywhere reaches every set of positive π has K^n f → ∫f dπ in L² (a decreasing second moment whose limit has no spread); a start whose step is a part of staying put and a part absolutely continuous in π inherits it. Lemmas/ErgodicAverage.lean: averages converge almost surely for integrable functions, by a maximal inequality on the stationary stream. The flow form of the accept/reject step (Lemmas/MHKernel.lean) gives both hypotheses |
| C120 | Model/GibbsChain.lean as for C116 | a scan over all variables has the null sets of the product measure (induction over the scan with lmarginal); Lemmas/Positive.lean and ErgodicAverage.lean as for C119 |
| C121 | Model/HmcChain.lean: `hmcStep` (C35) as the update of the bookkeeping model | C35 gives invariance, C33/C34 measurability; the accepted part of a step has the null sets of the posterior when the end point has those of the momentum, so Lemmas/Positive.lean and ErgodicAverage.lean apply. Lemmas/Spread.lean: maps Lipschitz in both directions keep null sets (Hausdorff measure), and the end point is `n_steps * step_size` times the momentum plus a map with a smaller Lipschitz constant. For the mean of normal observations the end point is affine in the momentum, with slope zero exactly for 31 observations |
| C122 | Model/ReplicaChain.lean: move and exchange of Model/ReplicaExchange.lean with explicit draws; replicas as further rows of the bookkeeping model | an update is the product of the tempered chains followed by a random permutation. Lemmas/Fades.lean: the product of chains that reach everything, followed by any law-preserving random permutation, reaches everything, and the part of the start that is still present fades; Lemmas/PiMeasure.lean: densities and kernels on products; Lemmas/MHReach.lean: the part of C119 that depends only on density, proposal and ratio. C36 (permutes) and C37 (invariance, tempered ratio) give the hypotheses; the loop with fixed uniforms is averaged one uniform at a time |
| C123 | Model/ListInit.lean: the constructors of KLqp, KLpq, MonteCarlo and Laplace given a list, then check_latent_vars (C46) | induction over the list; C48/C49 for what initialize does to the approximations; C30 for the run |
| C124 | Model/Descent.lean: all parameters as one vector, updated with the gradient the inference builds, evaluated at independent draws; Spec/Descent.lean: Robbins and Monro's conditions | Lemmas/RobbinsMonro.lean: the theorem of Robbins and Siegmund from convergence of nonnegative supermartingales; descent lemma for Lipschitz gradients; C50 turns the expected loss into the divergence. Failures: second Borel-Cantelli lemma for the fixed rate; a product of factors bounded below for the decaying one |
| C125 | Model/Descent.lean: gradient of the MAP loss | descent lemma, sum of the decreases; closed form of the error for the mean of normal data |
| C126 | Model/NamedOptimizers.lean, Model/Ftrl.lean: Adagrad, momentum, RMSProp, Ftrl and Adadelta of TensorFlow with the arguments the library passes | Adagrad: the objective plus a root minus a logarithm of each accumulator never increases; momentum: the objective plus the squared accumulator never increases, and for normal data a quadratic form of two successive errors; RMSProp: near the mode every step overshoots |
| C127 | Model/Arguments.lean: the chain of initialize methods as a list of bindings and assignments | one induction over the chain gives the calls that are accepted and the value of each parameter; the documented names and defaults are listed in Spec/Arguments.lean and compared with the chain of each class |
| C128 | Model/Seeds.lean: programs that build a graph, with TensorFlow's rule for seeds, set_seed and copy | the second seeds given out increase with the number of operations; invariant of all programs |
| C129 | Model/Dot.lean: tensors with their shapes, finite or not | direct, with the row-major order of tf.reshape |
| C130 | Model/PointShapes.lean: static and dynamic shapes of parameters, samples, moments and param_shapes | direct, by cases on the static shape |
| C131 | Model/Expressions.lean: Python's choice of methods, conversion to tensors, sessions with feeds; dtypes and meanings of operations are parameters | induction on the expression |
| C132 | Model/LiveList.lean: the registry with references to its lists; loops over a list that grows | induction on the program and on the number of passes |
| C133 | Model/Batch.lean: the generator of batches, and the problem that an inference sees when a batch is fed; entries of log probabilities belong to data points or not | exchange of sums; a mixture of unbiased gradients is unbiased, then C124; periodicity of the generator |
| C134 | Model/Compose.lean: the problem of an inference in whose data other latent variables are bound to their approximations, cut out of the problem of all latent variables | product densities and klDiv_posterior; losses of blocks differ from the divergence by entropies; normal and Bernoulli examples computed |
| C135 | Model/VarList.lean: the default of var_list as a fold over latent variables and data with get_variables | exactness of get_variables (C08), folds of set updates |
| C136 | Model/Implicit.lean: both losses of a run from the draws, and the expected loss of the ratio estimation | documented objective less expected loss is a divergence, least at the current parameters, so the gradients agree; C88_optimum_partial for the ratio that is found |
| C137 | Model/Variational.lean as for C51, C52 | variance of an average of independent draws; exact gradients at given draws (C51) and independence of the variables inside and outside the blankets |
| C138 | Model/Observe.lean: the runs of the session of one update and what each takes from random operations and queues | closed form of the positions of the sources; for laws, reindexing a product measure along an injection |
| C139 | Model/MixtureInference.lean: value and log_prob of a ParamMixture, as approximation and bound to data; Model/CopyArgs.lean for its copies | integral over `cat` and components; Gibbs and Jensen inequalities with equality cases; exact minimisers for Normal components |
| C140 | Model/CopyArgs.lean: the copies of positional and keyword arguments | cases on the kinds of arguments |
| C141 | Model/KlqpVariants.lean: the checks of the classes and the loss each differentiates | derivatives at given draws; the scores have mean zero |
| C142 | Model/Nuisance.lean: draws of latent variables paired with those of variables that are not inferred | Gibbs' and Jensen's inequalities; explicit chain on two states |
| C143 | Model/Conditional.lean, Model/HmcConditional.lean: updates with a draw of qbeta, HMC with a draw per call; the losses of KLqp, KLpq and MAP with pairs as draws | invariance for each beta (C32) and Fubini; Fisher's identity; explicit examples |
| C144 | Model/MixtureArgs.lean: the tests of the constructor, and the tensors of _sample_n with broadcasting | cases on shapes; index arithmetic of broadcasting by induction on shapes |
| C145 | Model/Summaries.lean: summaries of variables, losses and gradients, with Model/Observe.lean for when they are written | C08 for the default list; induction on lists; prefixes of tags |
| C146 | Model/ImplicitArgs.lean: checks, loops over both dictionaries, scaled ratio; Model/Transform.lean for auto_transform | C49 for the transformed pairs; permutations of lists with distinct keys |

## Trusted base

1. Lean 4.33.0's kernel, and the statements of Mathlib used (integrals, measures, derivatives, `Real.log`,
   matrices, ...).
2. Axioms: see below. No axioms are declared in this project; no `sorry`, `native_decide` or `bv_decide`.
3. The reading of the Python source recorded in the comments of `Verif/Model`: that each definition says what
   the cited lines do. Simplifications are stated in the header of each file and beside the definitions.
4. The behaviour assumed of Python, NumPy and TensorFlow 1 (graph structure, `scatter_update`, bijector formulas,
   shapes, `tf.gradients` as derivative, op scheduling limited only by data and control dependencies, default names),
   stated in the same places. None of it could be run here.
5. The English statements in properties.jsonl being what the theorems and the specifications in `Verif/Spec` say.

### Axioms

<!-- axioms:begin -->
`#print axioms` was run on each of the 648 theorems named in MANIFEST.json. No theorem depends on
anything but `propext`, `Classical.choice` and `Quot.sound`.

* no axioms: `C73_stderr_partial`, `C78_fails`, `C78_partial`, `C90_sound`, `C90_stored`, `C90_partial`, `C99_fails`, `C110_first_partial`, `C110_fails`.
* propext only: `C16_placeholder_fails`, `C16_control_fails`, `C16_local_fails`, `C18_copy_q_fails`, `C22_key_injective`, `C44_normal_partial`, `C48_real`, `C48_errors`, `C48_shape`, `C54_bigan_partial`, `C65_zero`, `C73_return_partial`, `C73_idempotent`, `C73_stderr_fails`, `C73_raises`, `C73_keras`, `C74_expected`, `C74_duplicate_fails`, `C90_draws_fails`, `Feeds.C91_caller_fails`, `Feeds.C91_shared_fails`, `C96_partial`, `C96_value`, `C96_fails`, `C96_nested_fails`, `C100_partial`, `C100_sample`, `C100_rank_fails`, `C106_counted`, `C114_arrays_partial`, `C114_fails`, `C123_laplace_scalar_fails`, `Arguments.C127_run_positional_fails`, `Seeds.C128_set_seed`, `Seeds.C128_reproducible`, `Seeds.C128_copy_fails`, `Seeds.C128_seeds`, `Seeds.C128_unseeded`, `PointShapes.C130_point_mass_partial`, `PointShapes.C130_scalar_fails`, `PointShapes.C130_unknown_rank_fails`, `Expressions.C131_declared_fails`, `Expressions.C131_identity`, `LiveList.C132_result_partial`, `LiveList.C132_later_fails`, `C140_fails`, `C141_unchecked_fails`, `C144_dict_fails`, `C144_scalar_fails`, `C144_static_fails`, `C144_unvalidated`, `C146_constructor`, `C146_absent`, `C146_globals`.
* propext, Quot.sound only: `C15_value_unique`, `C15_fails`, `C17_ignored`, `C17_fails`, `C43_run_updates`, `C47_accepted_constructs`, `C49_keeps_keys`, `C54_split`, `C54_rb`, `C54_gan_partial`, `C57_init`, `C65_draws_partial`, `C65_matching_partial`, `C74_list_collection_fails`, `C75_explicit_variables_fails`, `C75_default_partial`, `C82_simplex_fails`, `C84_sample_shape_fails`, `Feeds.C91_used`, `Feeds.C91_shared_partial`, `Feeds.C91_gibbs_partial`, `Feeds.C91_gibbs_fails`, `Feeds.C92_partial`, `Feeds.C92_unfed_fails`, `Feeds.C92_stale_fails`, `C98_sample_fails`, `C99_partial`, `C100_one_fails`, `C123_kl_iff`, `C123_kl_fails`, `C123_monte_carlo_iff`, `Seeds.C128_copy_partial`, `Seeds.C128_collision_fails`, `Seeds.C128_keras_fails`, `Seeds.C128_truncated_fails`, `LiveList.C132_loop_visits`, `LiveList.C132_loop_fails`, `C133_generator_fails`, `C140_partial`, `C144_validated`, `C144_error_partial`, `C145_short_fails`, `C146_unused_fails`.
* all three: the other 542 theorems (everything not listed above).
<!-- axioms:end -->

### What is modelled

| source | modelled | not modelled |
|--------|----------|--------------|
| util/random_variables.py | `check_data`, `check_latent_vars`, `copy`, all graph queries, `is_independent`, `transform`, `compute_multinomial_mode` | `_get_context_copy`, `_copy_context` (while-loop contexts); seeds, devices, original ops and the retry under a relative name in `copy` |
| util/tensorflow.py | all | tensors of rank three and more in `dot` |
| util/graphs.py | all | |
| util/metrics.py, util/progbar.py | all (texts of bar and info abstract) | |
| models/random_variable.py | `__init__`, `__hash__`, `__eq__`, conversion to tensors, operators, `eval`, session conversion functions | printing |
| models/random_variables.py | the table of supports (in `Transform`, `NaturalParams`) | the generation of classes |
| models/empirical.py, point_mass.py, param_mixture.py, dirichlet_process.py | moments, sampling and its law, log probabilities, dtypes and shapes of values; static shapes and `_param_shapes` of Empirical and PointMass | argument validation, static shapes of the other two |
| inferences/inference.py | `__init__`, `run`, `initialize` (counter, scale check, transformations, numeric checks), `update` and its feed dictionary, `print_progress`, `finalize` | coordinator threads, TensorBoard logging |
| inferences/variational_inference.py | splitting of parameters, choice of optimiser, Adam, gradient descent, Adagrad, momentum and RMSProp, update loop, reset | Adadelta and Ftrl |
| inferences/klqp.py, klpq.py, wake_sleep.py, map.py, implicit_klqp.py | choice of loss, all losses and the gradients they imply, list forms | |
| inferences/laplace.py | all, Cholesky by contract | |
| inferences/gan_inference.py, wgan_inference.py, bigan_inference.py | parameter lists, update schedule, clipping, losses, gradient penalty and its back-propagation | summaries; outputs of the discriminator with more than one axis |
| inferences/monte_carlo.py, metropolis_hastings.py, hmc.py, sgld.py, sghmc.py, gibbs.py, replica_exchange_mc.py | transition kernels, log joints with `scale` and random data, feed dictionary of Gibbs, list form, storing of samples, acceptance rates, transformations | summaries |
| inferences/conjugacy/* | simplification rules and driver, tables, conjugate log probabilities, `get_log_joint` and its cache, `complete_conditional` from the log joint tensor on | the swapping of log probabilities of user-defined classes |
| criticisms/evaluate.py, ppc.py | metrics, dispatch, predictions, sampling loops | `log_lik` seeds |
| criticisms/ppc_plots.py | nothing (plots) | all |

Floating-point rounding is not modelled anywhere except in the simplifier's number formatting (C20) and where a
claim is about NaN or infinity.

## Findings

Properties the code violates, with the theorems proving the negation.

<!-- findings:begin -->
* **C15** copy substitutes. violated: a dict_swap key that is the tensor of a random variable which is another's argument is not replaced (C15_fails). Partial: copy_q=False, keys that do not overlap (KeysOk), names as TensorFlow makes them (Proper, UniqOk); on acyclic graphs the call returns and the copy has exactly the substituted value (C15_total_partial). Negations: `C15_fails`.
* **C16** copy shares variables, placeholders and queues. violated: the Operation of a placeholder, a control dependency on one, and variables outside tf.global_variables() are duplicated (_fails). Partial: otherwise no variable, placeholder or queue op is added, for all flags and histories, and unreplaced inputs from them are the same tensors. Negations: `C16_placeholder_fails`, `C16_control_fails`, `C16_local_fails`.
* **C17** copy reflects the dict_swap it is given. violated: once the scope has a copy of the node, dict_swap is ignored (C17_ignored, C17_fails). C15 is the positive statement for unused scopes. Negations: `C17_fails`.
* **C18** copy memoises within a scope. violated with copy_q=True: two random variables of one name are made and the second call returns the other (C18_copy_q_fails). Partial: copy_q=False, scope unused before the first call, acyclic graph. Negations: `C18_copy_q_fails`.
* **C23** Natural parameter tables invert the exponential families. All table entries except Chi2 (misses exp(-x/2)) and Poisson (misses 1/x!), for which the negation is proved. Negations: `C23_chi2_fails`, `C23_poisson_fails`.
* **C24** Conjugate log probabilities are the log densities. True of all families but Chi2 (exp(-x/2) for -x/2, sums over the batch, raises on scalars) and MultivariateNormalDiag (returns per-coordinate entries; only their sum is the log density). Discrete families raise when built from logits and are NaN at probabilities zero or one. Negations proved. Negations: `C24_mvnDiag_fails`, `C24_chi2_fails`, `C24_certain_fails`, `C24_zero_class_fails`, `C24_logits_fails`.
* **C25** complete_conditional returns the conditional. violated: complete_conditional returns a distribution that is not the conditional when two factors of a product depend on the variable (x*x), when a statistic is broadcast (log(x*a) with scalar x and vector a), and when a sum is inside a logarithm (log(x+a)); each is proved on a concrete log joint. Proved otherwise: log joints linear in the statistics found, no broadcasting of statistics, statistics in the domain of C20, valid parameters, family not Chi2 or Poisson (see C23). Negations: `C25_product_fails`, `C25_broadcast_fails`, `C25_shift_fails`.
* **C26** compute_multinomial_mode terminates. violated: the first theorem says exactly when the call returns; it loops forever e.g. for [0.6, 0.2, 0.2] and two trials Negations: `C26_terminates_fails`.
* **C28** compute_multinomial_mode leaves its argument alone. violated: exact condition proved Negations: `C28_caller_fails`.
* **C29** compute_multinomial_mode returns a mode. violated: holds for one trial and for whole expected counts; every class gets at least the integer part Negations: `C29_mode_fails`.
* **C31** Reported acceptance rate is a rate. violated: the first rate divides by t = 0; a late read of n_accept can exceed one. The partial theorems give the exact value from the second update on. Negations: `C31_first_rate_fails`, `C31_above_one_fails`, `C31_first_rate_value_fails`.
* **C37** Replica exchange preserves the joint target. Exchange step preserves the target for all models; the replicas' own moves only for symmetric proposals. The claim is false for asymmetric proposals (C37_fails): ratio *= inverse_temperature tempers the proposal terms. Negations: `C37_fails`.
* **C39** Blocked Gibbs draws blocks jointly. A block's variables are drawn independently given the old values, so blocks of two dependent variables break invariance (witness); invariance holds when the block conditional factorises. Negations: `C39_fails`.
* **C40** Stored Gibbs samples are the chain. The stored row is a fresh draw from the conditionals: marginals are right, the joint of a stored row is not (witness). Negations: `C40_fails`.
* **C42** SGHMC update is schedule independent. The velocity buffer is read and assigned without ordering: two valid schedules write different samples. With copying reads all schedules agree. Negations: `C42_fails`.
* **C44** run releases its resources on every exit. violated: no try/finally around the loop; holds when no call raises Negations: `C44_exception_fails`.
* **C45** reset starts over. violated by SGHMC, default global_step, GAN optimisers Negations: `C45_reset_sghmc_fails`, `C45_reset_globalStep_fails`, `C45_reset_gan_fails`, `C45_reset_other_fails`.
* **C49** auto_transform only touches continuous pairs with different supports. Pairs whose supports agree, point masses and variables without supports are left alone, keys are kept. Violated: a discrete latent variable with an approximation of another support raises; the error leaves latent_vars truncated; a second initialisation keeps latent_vars but works on constrained variables. Negations: `C49_discrete_fails`, `C49_error_fails`, `C49_twice_fails`.
* **C50** KLqp minimises a bound on the evidence. Proved for the reparameterised and score losses on any sigma-finite space. The analytic-KL loss is the bound when the penalty is the divergence to the joint prior; for hierarchical Normal priors the penalty uses prior draws of the parents and the claim fails. Negations: `C50_kl_fails`.
* **C51** The score-function gradient is unbiased. Proved for unit scales, any normed parameter space, any reference measure (domination conditions; none needed for finitely many values). The Rao-Blackwellised gradient is proved unbiased for factorised approximations (any measures), with the blankets computed by get_descendants and get_blanket on any graph. Fails when scale differs from one: the factor is applied twice. Fails for parameters shared by the approximation and the model: the gradient through the log joint density is left out. Negations: `C51_scale_fails`, `C51_shared_fails`.
* **C52** n_samples averages independent samples. Holds for all losses but the Rao-Blackwellised one, whose dictionaries are aliased: only the last draw counts. Negations: `C52_rb_fails`.
* **C54** Every trainable parameter gets its gradient once. KLqp, KLpq and WakeSleep proved. GANs: proved for the default lists; a list given may overlap the discriminator's variables, and BiGAN ignores the list. Negations: `C54_gan_fails`, `C54_bigan_fails`.
* **C56** scale multiplies the terms of its own variable. Holds for KLqp without analytic terms, MAP and the wake phase of WakeSleep; fails in the sleep phase (stale loop variable), for KLpq (scale ignored), for KLqp with the analytic KL (factors of latent variables ignored; the default when priors and approximations are normal) and with the analytic entropy (entropy not scaled). Negations: `C56_sleep_fails`, `C56_klpq_fails`, `C56_kl_fails`, `C56_entropy_fails`.
* **C57** Laplace covariance is the inverse Hessian. Characterised exactly: TriL is right iff the Hessian is diagonal, Normal and Diag (scale stored as such) iff the diagonal Hessian is the identity. Negations: `C57_tril_fails`, `C57_diag_fails`.
* **C58** GAN updates touch only their own player. holds when no generator variable's name merely starts with Disc; the second theorem shows a model where it fails Negations: `C58_prefix_fails`.
* **C60** Ratio loss recovers the log density ratio. The hinge loss (not the default) does not recover the ratio: its minimum at a point is the sign of the difference of the densities. Negations: `C60_hinge_fails`.
* **C61** Metric averaging. macro = micro = overall mean, None = column means, for all shapes. The invalid-option branch raises NameError (undefined name average_options), not ValueError. Negations: `C61_fails`.
* **C62** Error metrics are distances. All parts proved except that the squared logarithmic error clips below 1e-8, so it vanishes for different negative numbers (witness). The Poisson metric is the Poisson log-likelihood at rates 1e-8 above the predictions. Negations: `C62_msle_fails`.
* **C63** evaluate dispatch. Names, callables, lists proved; a (name, options) tuple outside a list raises TypeError although documented. Negations: `C63_fails`.
* **C65** ppc uses matching draws. Lengths and draws proved; replicated and realised discrepancies use different session runs, hence different latent draws (witness). Negations: `C65_fails`.
* **C70** ParamMixture moments and densities. Samples in full; moments for one vector of weights and events of any shape, as tensors with their broadcasting. With a batch of weights mean and variance raise NotImplementedError, also where the components have both: proved as a failure. log_prob and marginal_log_prob reduce over the wrong axis for events of positive rank, and log_prob is NaN when an unselected component has density zero: both proved as failures. Negations: `C70_marginal_fails`, `C70_missing_fails`.
* **C72** Progress bar erases what it wrote. texts of bar and info are abstract; a zero target raises ZeroDivisionError Negations: `C72_zero_target_fails`.
* **C73** get_session restores standard error. violated: exceptions other than ImportError leave stderr redirected Negations: `C73_stderr_fails`.
* **C74** RandomVariable registration and round trip. violated for list collections (as documented) and repeated collections Negations: `C74_list_collection_fails`, `C74_duplicate_fails`.
* **C75** run with an explicit variable list. violated: t is created inside run and never initialised Negations: `C75_explicit_variables_fails`.
* **C76** Cross entropy metric uses predicted probabilities. evaluate passes rounded probabilities as logits: perfect predictions of zeros have loss log 2. The metric function itself is the cross entropy for logits. Negations: `C76_fails`.
* **C77** Hinge loss vanishes on confident correct predictions. With documented labels 0/1 an observation 0 always contributes 1; holds for labels -1/1. Negations: `C77_fails`.
* **C78** DirichletProcess validates its base. Violated: the isinstance test is inverted. Negations: `C78_fails`.
* **C79** Regularisation penalties are added to the loss. Fails for the loss reported by KLpq, where the penalty is subtracted; its gradient for the approximation is right. Negations: `C79_klpq_fails`, `C79_bigan_fails`, `C79_prefix_fails`.
* **C81** Multipliers are rebuilt with their value. reconstruct_expr unpacks the arguments of add_n and _mul_n, so every sum or product inside a multiplier raises; all other expressions with the right number of arguments are rebuilt with their value. Negations: `C81_fails`.
* **C82** Automatic transformation keeps shapes. Holds unless a support is the simplex; for the simplex the approximation has one entry too many (proved). Negations: `C82_simplex_fails`.
* **C83** HMC on the unconstrained space targets the model's posterior. Holds for variables of the library's families on [0,1], [0,inf) and the reals. Simplex variables have the wrong number of entries (C82). A transformed variable with a real support has its own bijector applied: negation proved. Negations: `C83_transformed_fails`.
* **C84** MAP from a list of variables. Holds without sample shape on [0,1], [0,inf) and the reals; simplex and sample shapes raise TypeError; transformed variables with real support are restricted (proved). Negations: `C84_simplex_fails`, `C84_sample_shape_fails`, `C84_transformed_fails`.
* **C85** copy makes no cycles. violated with copy_q=True: replacing something a random variable depends on by that random variable makes its copy depend on itself (C85_copy_q_fails). Partial: copy_q=False. Negations: `C85_copy_q_fails`.
* **C86** SGLD and SGHMC store the sample their step computes. violated: on a constrained support the update reads `qz.params` (constrained values) but scatters the new sample into the variable of unconstrained rows, so sample t is the softplus of the step's result, strictly greater in each entry (proved for every family on [0, inf), every step, state and draw). Proved: it holds for unconstrained supports. A sample is the vector along its last axis. Negations: `C86_nonnegative_fails`.
* **C87** The sleep phase learns from fantasies of the model. violated: z is drawn from the prior but log q(z | x) is evaluated at the observed data instead of an x drawn with z, so the expected loss is least at the prior only (C87_fails, for every model whose posterior differs from the prior). Proved: the documented objective when q does not depend on x. Unit scale factors (see C56). Negations: `C87_fails`.
* **C88** ImplicitKLqp estimates the documented ratio. violated: x' is simulated given the sample of q(z), not the sample of p(z) it is paired with, so the minimiser is log p(z) m(x) - log q(x, z) with m the law of data simulated from the approximation (C88_optimum_partial). The documented ratio is the minimiser iff the likelihood does not depend on the local variables (C88_partial); otherwise another discriminator has smaller loss (C88_fails). Any local variables with positive densities, finitely many values of the data, at one value of the global variables. With data of a continuous distribution no discriminator is best: the expected loss has infimum zero and no run has loss zero (C88_continuous_fails). Negations: `C88_fails`, `C88_continuous_fails`.
* **C89** complete_conditional uses the log joint of its own conditioning set. violated: the key joins the sorted names by underscores, so {a, b_c, r} and {a_b, c, r} share a tensor and the second call returns the first's log joint (C89_fails). Proved: the claim for all histories when names follow a scheme telling where a name begins, such as TensorFlow's default names (tokenName_default). Negations: `C89_fails`.
* **C90** debug=True reports NaN and Inf. violated: the checks are made before the loss, the gradients or the update are built, and run separately from the update with other random draws; NaN in the loss or in an acceptance ratio is not reported. Proved: no false alarms; NaN stored in a parameter or sample is reported by the same update; deterministic tensors of the model are checked. Negations: `C90_fails`, `C90_mh_fails`, `C90_draws_fails`.
* **C91** An update feeds what its call says. violated: the caller's dictionary is overwritten with the data, so a dictionary shared by two inferences carries placeholders from one to the other; in Gibbs a fed value replaces the data and persists in all later calls. Proved: what every update other than Gibbs' uses; exactly when the caller's dictionary is unchanged; sequences of inferences binding the same placeholders; Gibbs when no bound placeholder is fed and feeding does not stop. Negations: `Feeds.C91_caller_fails`, `Feeds.C91_shared_fails`, `Feeds.C91_gibbs_fails`.
* **C92** Gibbs conditions on the current data. violated: data which are random variables, and data bound to tensors, are never fed; a tensor whose value changes is read once. Proved for placeholders and for tensors with a constant value. Negations: `Feeds.C92_unfed_fails`, `Feeds.C92_stale_fails`.
* **C93** scale is used by the Monte Carlo algorithms. violated: HMC, MetropolisHastings and ReplicaExchangeMC do not read `scale`. Proved for SGLD and SGHMC, and for the others when all factors are one. Negations: `C93_fails`.
* **C94** An acceptance ratio compares densities of the same data. violated: HMC draws random data anew in each evaluation of the log joint. Proved for MetropolisHastings and ReplicaExchangeMC, and for HMC with data that are not random. Negations: `C94_hmc_fails`.
* **C96** A random variable has the dtype it declares. violated: DirichletProcess passes dtype=tf.int32 although its draws have the dtype of the base. Conversion to the true dtype raises, conversion to int32 returns a float tensor, float data and approximations are refused, and a hierarchical process (base itself a DirichletProcess) cannot be built. Proved for everything else. Negations: `C96_fails`, `C96_nested_fails`.
* **C97** Inference uses the data it was given. violated: check_data compares dtypes only for tensors; a float array for an integer random variable is accepted and silently truncated towards zero, and 64 bit integers are reduced modulo 2^32. Proved: stored as given exactly when the key's dtype can hold every entry. Rounding of floats is not modelled. Negations: `C97_fails`, `C97_overflow_fails`.
* **C98** Creating a random variable registers that variable only. violated: the loop body creates an edward Bernoulli with the default collections (the Beta next to it has collections=[]), so construction and every call of sample register one internal variable, which graph queries then report. Proved when a value is given, as then nothing is sampled. Negations: `C98_fails`, `C98_sample_fails`, `C98_query_fails`.
* **C99** The base of a DirichletProcess determines its event shape. violated: event_shape is base.shape, which includes the base's sample_shape, but atoms come from base.sample(batch_shape), which does not: every base with a sample_shape raises ValueError. Proved for bases without one. Negations: `C99_fails`.
* **C100** Shape of a ParamMixture. violated: at construction _sample_n uses cat and components, which already carry the sample shape, and Distribution.sample adds it again: sample_shape=1 gives shape (1, 1, ...), and sample shapes of two axes raise ValueError. Proved for sample_shape () and (n,) with n ≠ 1, and for all later samples. Negations: `C100_one_fails`, `C100_rank_fails`.
* **C102** The expected KLpq update depends on the model. violated: with n_samples=1, the default, the only normalised weight is one, so the function differentiated is -log q(z) and does not mention the model; its expected gradient is that of the regularisation alone, for every smooth family. With two or more samples (finitely many values) the expected update raises the probability of a value the more, the larger the ratio of joint density and approximation; it vanishes at the posterior, and only there if the family is unrestricted. C101 is the limit of many samples. Negations: `C102_fails`.
* **C103** KLpq maximises the documented objective over model parameters. violated: the weights are not under stop_gradient, so draw s counts with weight w_s (1 + log w_s - mean log w); with two draws the result can have the opposite sign. The exact gradient is proved; it is the documented one for n_samples=1. Negations: `C103_fails`.
* **C104** Score-function gradients are right for approximations with dependent factors. violated: stop_gradient is put on a factor's own value only; the value of a parent enters log_prob of the child with its reparameterisation path, so the gradient has an extra term (exact form proved). Witness: a Normal factor and a Bernoulli whose logits are its value. Right when factors are independent. Negations: `C104_fails`.
* **C105** Enough iterations reach any parameter value. violated: the default learning rates 0.1 * 0.9^(t // 100) add up to 100 over all iterations, so Adam moves a coordinate by less than 728 in total whatever the gradients; a minimum 1000 away is never approached within 272. optimizer='adam' without a counter has no such bound. Adam as in TensorFlow 1, real arithmetic. Negations: `C105_fails`.
* **C106** global_step only counts. violated: for all seven names the learning rate is 0.01 without a counter and 0.1 * 0.9^(step // 100) with one; for the default optimiser it depends on the value the counter starts from. Holds for optimiser objects and for the default with a counter from zero. The choice by name and the errors are proved in full. Negations: `C106_fails`.
* **C108** The gradient penalty bounds the critic's loss. Holds for data points with one entry. Fails for three entries: eps is drawn per entry, so interpolates fill a box and a spike at a data point costs a bounded penalty while its depth is unbounded. Negations: `C108_fails`.
* **C109** The gradient of the penalty is a number. Fails whenever the critic is flat at one interpolate: the square root is differentiated at zero and every weight receives NaN. Negations: `C109_fails`.
* **C110** The discriminator is given the observed variable and its data. The first item of data is used whatever it is; with a placeholder first, the placeholder is compared with its own value. Negations: `C110_fails`.
* **C111** Predictions are most probable values. Holds for one trial and for categorical outputs. The prediction for a Binomial output is the rounded probability, zero or one, whatever the number of trials (exact condition proved); its accuracy is zero whenever all observations are at least two. Multinomial outputs: see C29. Negations: `C111_fails`, `C111_accuracy_fails`.
* **C112** The squared error metric measures the predictive mean. violated: the expectation is larger by the average predictive variance over n_samples, exactly; the bias vanishes as n_samples grows. Negations: `C112_fails`.
* **C113** The divergence metric uses the predicted probabilities. violated: compute_multinomial_mode subtracts from the array of probabilities before the metric reads it; with whole expected counts nothing is left and the metric is infinite for all observations. Right for one trial, or if no class is expected once. Negations: `C113_fails`.
* **C114** evaluate accepts the data formats it checks for. violated: for any metric but the log-likelihood a list or Python number raises AttributeError, though check_data accepts it. Arrays and tensors of known rank are accepted. Negations: `C114_fails`.
* **C115** Enough Metropolis-Hastings samples approximate the posterior. proved with a geometric rate, a 1/n mean square error and almost sure convergence when every proposal density is at least a fixed multiple of the posterior density (finite models with positive proposals; proposals from the prior with bounded likelihood), starting at positive density, for exact arithmetic and independent draws. Fails for a latent variable without a proposal (never moves, accepted silently) and for periodic proposals. Without a rate, proposals that are merely positive (random walks on unbounded spaces): C119. Negations: `C115_missing_proposal_fails`, `C115_periodic_fails`.
* **C116** Enough Gibbs samples approximate the posterior. proved with a geometric rate for the fed values and almost sure convergence for averages of functions of one latent variable, when the proposals are the complete conditionals, their densities are bounded below and the joint above (finite spaces with positive conditionals; bounded supports), the scan lists every variable singly, and every latent variable is stored; for exact arithmetic and independent draws. Fails for functions of several latent variables: rows are drawn from the conditionals once more, independently of each other, so joint frequencies converge to something else. Fails when scan_order leaves a variable out. Without a rate, any positive joint density: C120. Negations: `C116_joint_fails`, `C116_omitted_fails`.
* **C118** SGHMC samples approximate a normal posterior. The law the samples settle to is computed exactly for the two orders of ops of C42, when one of them is used for all variables and updates: normal, around the posterior mean, too wide by an explicit factor in every principal direction. Proved: the factor goes to 1 with the step size. Fails: since the step size is constant the samples never converge to the posterior; with the default parameters and the order that uses old velocities, the variance is more than doubled at precision 10, and samples leave every interval from precision 20 on; with the other order they do so exactly from precision 1560 on. If the order differs between variables and between updates in any way, and the variables are independent given the data, the mean of the samples converges to that of the posterior and the mean squared error stays bounded, below an explicit precision close to the first of these limits (19.75 for the default parameters); so they do along the principal directions of any normal posterior if all variables share the order, whatever it is at each update. The variance is not computed in these two cases. Negations: `C118_too_wide_fails`, `C118_diverges_fails`, `C118_new_diverges_fails`.
* **C121** HMC converges when the end point of the integrator spreads the momentum. for exact arithmetic, independent draws, a finite measurable unconstrained density and a proper posterior; no rate. C121_run is for latent variables of one shape (as the bookkeeping model), C121_law and C121_average for any shapes. Whether the gradient is that of the density does not matter, as for C35. Negations: `C121_alternates_fails`.
* **C123** Inference from a list of latent variables. the _iff theorems say exactly which lists are accepted. Variables with a sample shape are rejected by all (TypeError), float64 variables by KLqp, KLpq and Laplace (TypeError, C123_kl_fails), scalars by Laplace (IndexError), and variables on the simplex by Laplace; for KLqp and KLpq their shape is off by one (C82). Negations: `C123_kl_fails`, `C123_laplace_scalar_fails`.
* **C124** Variational inference by gradient descent converges. holds for rates that satisfy Robbins and Monro's conditions, which the caller has to supply. Violated for both learning rates the library builds: with the fixed rate 0.01 the location fitted to any normal posterior almost surely does not converge; with a global_step the rates add up to 100, and for a posterior of variance 200 the expected parameter never gets further than half way to the posterior mean. Negations: `C124_fixed_fails`, `C124_decay_fails`.
* **C125** MAP by gradient descent climbs to the mode. holds when the Lipschitz constant is below 200 = 2 / 0.01. Violated beyond: for the mean of n unit normal observations it converges exactly when n is at most 198, and from 200 observations on the parameter leaves every bounded set. Violated with a global_step: the rates add up to 100 and the parameter can stop half way. Negations: `C125_diverges_fails`, `C125_decay_fails`.
* **C126** The named optimisers bring MAP to the mode. adagrad and ftrl: proved for every Lipschitz constant. momentum: proved for constants below 20, and for the mean of n unit normal observations exactly for n up to 378. Violated by rmsprop: it can only converge to the mode by hitting it exactly, and from one start it alternates for ever. The same holds for adadelta from 200 observations on; its convergence for fewer is not treated. Violated by a single update of ftrl: started at the mode it sets the parameter to zero. Violated with a global_step: with adagrad no coordinate moves further than 100, and with ftrl every parameter tends to zero whatever the model. Negations: `C126_rmsprop_fails`, `C126_adagrad_decay_fails`, `C126_ftrl_start_fails`, `C126_ftrl_decay_fails`.
* **C127** Arguments of run take effect. holds for the 16 classes that optimize. Violated by the classes that sample: n_iter is accepted and ignored (the rows of the Empirical approximation are used), as is auto_transform in Gibbs, MetropolisHastings and ReplicaExchangeMC. run(500) takes 500 for variables, not n_iter. The GAN classes reject use_prettytensor. Negations: `Arguments.C127_n_iter_fails`, `Arguments.C127_auto_transform_fails`, `Arguments.C127_run_positional_fails`, `Arguments.C127_prettytensor_fails`.
* **C128** Seeds make programs reproducible and operations independent. holds for programs that begin with set_seed and give no seed to an operation. Violated: without a graph seed, copy keeps the seed of an operation, though a new one is documented, and the copy draws the same numbers; seeds given to operations can coincide with those given out; the Keras placeholder that set_seed allows changes all numbers; seeds that agree modulo 2^31 - 1 make TensorFlow draw the same numbers. Negations: `Seeds.C128_copy_fails`, `Seeds.C128_collision_fails`, `Seeds.C128_keras_fails`, `Seeds.C128_truncated_fails`.
* **C129** dot multiplies vectors and matrices. the vector-matrix case holds as documented. The documented shapes of the matrix-vector case are wrong: with an M x N matrix y has to be an N-vector and the result has length M; an M-vector raises ValueError unless M = N. Negations: `Dot.C129_documented_fails`.
* **C130** Shapes of Empirical and PointMass agree. holds for parameters of known rank. Violated: moments of Empirical with a scalar raise ValueError although the class provides for scalars; parameters of unknown rank cannot be used; param_shapes of Empirical lacks the dimension of points and that of PointMass is a matrix. Negations: `PointShapes.C130_scalar_fails`, `PointShapes.C130_unknown_rank_fails`, `PointShapes.C130_param_shapes_fails`.
* **C131** Expressions with random variables mean expressions of their samples. holds if every random variable declares the dtype of its samples. Violated otherwise, as for a DirichletProcess: r + s raises ValueError while s + r is accepted. Negations: `Expressions.C131_declared_fails`.
* **C132** random_variables returns the random variables of a graph. holds right after the call if no result was changed. Violated: the result is the registry itself, so it grows with later variables; variables removed from it are missing from later results; a loop over it that builds a variable in every pass, such as one that copies, never ends. Negations: `LiveList.C132_later_fails`, `LiveList.C132_removed_fails`, `LiveList.C132_loop_fails`.
* **C133** Training on batches with scale N/M estimates the objective of all data. holds for KLqp without analytic terms, with kl_scaling N/M, with score functions and global latent variables, for MAP, SGLD and SGHMC, and for batches no larger than the data. Violated: KLqp with the analytic KL (its choice for normal variables) or entropy ignores scale of local variables; score gradients of local variables carry N/M twice; KLpq and HMC ignore scale; the sum of the losses of an epoch is as many times the loss of the data as there are batches, contrary to the tutorial; with batches larger than the data the generator ends up with too few rows. Negations: `C133_generator_fails`, `C133_epoch_fails`, `C133_klpq_fails`, `C133_hmc_fails`, `C133_kl_fails`, `C133_entropy_fails`, `C133_score_fails`.
* **C134** Composed inferences minimise one common objective. holds for KLqp (both kinds of loss without analytic terms) of either block and for variational EM with MAP, where each inference trains the parameters of its own block. Violated with the parameters of the other block in var_list, as in examples/probabilistic_pca_subsampling.py: the scale of the approximation falls to zero and the divergence tends to infinity. Violated for the documented message passing: KLpq of parts of the data with a shared approximation leads away from the posterior given all data. Negations: `C134_var_list_fails`, `C134_message_passing_fails`.
* **C135** Variables trained by default. the list is exact in terms of the graph; it holds the variables on which log densities depend if values are samples. Violated: parameters of a random variable made with the argument value are left out; GANInference takes all trainable variables outside the discriminator; BiGANInference ignores var_list. Negations: `C135_value_fails`, `C135_gan_fails`, `C135_bigan_fails`.
* **C136** ImplicitKLqp follows the gradient of its documented objective. holds for the parameters of the approximations if the discriminator is the documented ratio, for scales that are not negative. Violated with the discriminator that minimises the loss of the code: the expected update is then the gradient of the divergence from the prior of the local variables, whatever the likelihood (C136_prior_fails; for normal local variables the approximation is drawn to the prior mean, C136_normal_fails). Violated for parameters of the likelihood: the loss differentiated for them does not depend on them (C136_model_fails). Negations: `C136_prior_fails`, `C136_normal_fails`, `C136_model_fails`.
* **C137** More samples and Rao-Blackwellisation make KLqp less noisy. holds for the losses of all other variants and for the score function gradient. Violated by the Rao-Blackwellised variant: its variance is that of one draw whatever n_samples (all samples share one dictionary), so with enough samples the plain gradient is less noisy (C137_samples_fails). Violated even with one sample: leaving terms out can raise the variance (C137_fails: a Bernoulli variable, variance (log 12)^2 against (log 3)^2); the exact difference is proved when the terms kept depend on the variables of the parameter only, and it is not negative if the terms left out have mean zero. Negations: `C137_rb_loss_fails`, `C137_samples_fails`, `C137_fails`.
* **C138** debug and logdir only observe. holds if the extra runs take nothing from the sources of the training op; holds in law for independent draws. Violated: after the same ed.set_seed a run with logdir gives other results from the second update on; with a queue of an even number of batches and debug=True every second batch is never trained on; the summary of an update is evaluated at the new variables with other draws and data. Negations: `C138_logged_fails`, `C138_seed_fails`, `C138_queue_fails`.
* **C139** A ParamMixture in inference stands for the mixture. what is minimised is proved; the property is violated, since log_prob is that given `cat` (as the class says) while reparameterization_type is that of the components. As an approximation: the expected loss is the weighted sum of the objectives of the single components, strictly above the documented one unless the components agree; each component is fitted on its own; the weights have gradient zero. Bound to data, with parameters that are tf.Variables: all means of a mixture of Normals go to the mean of the data. With parameters that are latent variables, or `cat` inferred: the loss depends on the approximations as if there were no data, since copy does not look into component_params and the copy has a new `cat`. Negations: `C139_fails`, `C139_minimisers_fails`, `C139_weights_fails`, `C139_observed_fails`, `C139_collapse_fails`, `C139_data_ignored_fails`, `C139_map_ignored_fails`, `C139_bound_fails`.
* **C140** copy replaces nodes in every argument. exact condition proved (C140_partial). Violated: lists passed by position, and dicts passed either way, are handed to the copy as they are. Negations: `C140_fails`.
* **C141** Every KLqp class fits the approximations it accepts. KLqp never takes a loss that needs reparameterizable approximations for others; the score function classes are unbiased (C51). Violated by the three Reparameterization classes: they accept e.g. a Bernoulli approximation without an error. ReparameterizationKLqp then has a gradient with mean zero whatever the model; the analytic variants only follow the divergence from the prior or the entropy, whatever the data. Negations: `C141_unchecked_fails`, `C141_reparam_fails`, `C141_reparam_kl_fails`, `C141_reparam_entropy_fails`, `C141_fails`.
* **C142** Random variables that are not inferred are integrated out. KLqp and MAP use the geometric instead of the arithmetic mean over the other variables; minus the loss is still a lower bound of the log evidence, and the minimum is the posterior iff the means are proportional. MetropolisHastings draws the other variables afresh for the old and the new state, which does not preserve the posterior (example). Finite spaces. Negations: `C142_klqp_minimiser_fails`, `C142_fails`, `C142_map_fails`, `C142_mh_fails`.
* **C143** Conditional inference. KLqp and the objective of MAP are as documented. That objective is a lower bound if beta has finitely many values, but never exact if it has more than one; for continuous beta it need not be a bound; its maximum can lie where the density is smaller than elsewhere. SGLD and the velocity of SGHMC follow on average the gradient of the log marginal if qbeta is the law of beta given x and z; given the posterior of beta they can go against it. With many samples KLpq follows the divergence from the law with density proportional to E_qbeta p(x, z, beta), as the density of qbeta is not in its weights: that is the posterior of z if qbeta is uniform or z and beta are independent given x, but not in general if qbeta is the posterior of beta. MetropolisHastings preserves the posterior if that does not depend on beta; in general it does not, as old and new state share a draw that is not kept, which is not a pseudo-marginal method. HMC draws beta afresh in each call of _log_joint: with an independent beta the posterior is preserved if the density of beta is constant, otherwise detailed balance fails along every trajectory that changes the density, and for a standard normal posterior one update with one step makes every ball around the mean less likely. Negations: `C143_map_exact_fails`, `C143_map_bound_fails`, `C143_map_fails`, `C143_sgld_fails`, `C143_mh_fails`, `C143_hmc_fails`, `C143_hmc_invariant_fails`, `C143_sghmc_fails`, `C143_klpq_fails`.
* **C144** A ParamMixture is built from arguments that fit together. With validate_args=True exactly the arguments that fit are accepted, and their value is that of the component named by cat. Violated: component_params without values raises AttributeError, as they are read before the test; scalar components raise IndexError; an unknown number of weights of known rank raises ValueError. Without validate_args, the default, K vectors of K weights with K components give component b for mixture b whatever the weights, and one weight with K components gives the sum of all components; one component with K weights is that component, a K x L array of weight vectors with shared components is right but mixtures share draws, other numbers raise ValueError. Negations: `C144_dict_fails`, `C144_scalar_fails`, `C144_static_fails`, `C144_square_fails`, `C144_sum_fails`.
* **C145** logdir writes the summaries it promises. By default exactly the variables which keys of data, latent variables or approximations depend on are logged, each once, with tags of their own; summaries are written at the first update and at multiples of a positive n_print. Violated: a vector of length one is shown as a scalar; variables of a distribution that is only a value in data are not logged; with logdir initialize raises if one variable has no gradient or an unknown rank; with the default n_print and less than 100 iterations no summary is written. Negations: `C145_vector_fails`, `C145_all_fails`, `C145_gradient_fails`, `C145_rank_fails`, `C145_short_fails`.
* **C146** ImplicitKLqp uses its arguments as documented. The checks are exact. The claim on variables holds if the items of global_vars are items of latent_vars that auto_transform leaves alone, the one on scales if the discriminator returns a dictionary and scale has its keys, two or more. Violated: auto_transform has no effect on global variables, so a nonnegative one approximated by a real one gets negative draws; of a variable bound differently in both dictionaries the approximation in latent_vars is ignored; data variables without scale are dropped from the loss if there are two or more scales, and a discriminator returning a dictionary fails with fewer than two. That TensorFlow raises for a dictionary in place of a tensor is assumed. Negations: `C146_transform_fails`, `C146_unused_fails`, `C146_scale_fails`.
<!-- findings:end -->
