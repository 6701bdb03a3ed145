{"id": "C01", "title": "get_ancestors is exact", "statement": "ed.get_ancestors(x, collection) returns, without duplicates, exactly the random variables of `collection` other than x whose sample tensor is x's tensor or can be reached from it by walking backwards through op inputs (when several members share a sample tensor, the last one stands for all).", "quantifier": "every finite TensorFlow graph (cyclic control-flow graphs included), every query node, every collection, every order in which Python's set.pop yields nodes", "why_tests_cant": "the pop order of a Python set of TF objects depends on memory addresses, so a test sees one order on a few graphs; correctness needs a reachability invariant", "anchors": ["edward/util/random_variables.py: get_ancestors"]}
{"id": "C02", "title": "get_descendants is exact", "statement": "ed.get_descendants(x, collection) returns, without duplicates, exactly the random variables of `collection` other than x whose sample tensor is x's tensor or can be reached from it by walking forwards through consumers and their outputs.", "quantifier": "every finite graph, query node, collection and set.pop order", "why_tests_cant": "same as C01: a reachability statement over all graphs and all pop orders", "anchors": ["edward/util/random_variables.py: get_descendants"]}
{"id": "C03", "title": "get_parents is exact", "statement": "ed.get_parents(x, collection) returns exactly the members of `collection` other than x reachable backwards from x along a path with no other member of `collection` strictly in between: the nearest random ancestors, none missed and none shadowed by a member in between.", "quantifier": "every finite graph, query node, collection and set.pop order", "why_tests_cant": "whether a blocked path hides a node which another path exposes depends on the exploration order in naive implementations; only an invariant covers every order", "anchors": ["edward/util/random_variables.py: get_parents"]}
{"id": "C04", "title": "get_children is exact", "statement": "ed.get_children(x, collection) returns exactly the members of `collection` other than x reachable forwards from x along a path with no other member of `collection` strictly in between.", "quantifier": "every finite graph, query node, collection and set.pop order", "why_tests_cant": "as C03", "anchors": ["edward/util/random_variables.py: get_children"]}
{"id": "C05", "title": "Parents and children are converse", "statement": "For random variables a and b of a collection with pairwise distinct sample tensors, a is in ed.get_parents(b, collection) iff b is in ed.get_children(a, collection); likewise ancestors and descendants are converse.", "quantifier": "every finite graph whose consumer lists and input lists agree, every collection with distinct sample tensors, all pop orders in both calls", "why_tests_cant": "relates two independent traversals over all graphs and schedules; tests only compare a handful of hand-drawn structures", "anchors": ["edward/util/random_variables.py: get_parents", "edward/util/random_variables.py: get_children", "edward/util/random_variables.py: get_ancestors", "edward/util/random_variables.py: get_descendants"]}
{"id": "C06", "title": "Ancestors are the transitive closure of parents", "statement": "For random variables of the collection, the ancestors reported by ed.get_ancestors are exactly the ones obtained by iterating ed.get_parents, and descendants are the ones obtained by iterating ed.get_children (x itself excluded).", "quantifier": "every finite graph and every collection with distinct sample tensors that contains the query node", "why_tests_cant": "needs path splitting at every intermediate random variable, over unbounded path lengths", "anchors": ["edward/util/random_variables.py: get_ancestors", "edward/util/random_variables.py: get_parents", "edward/util/random_variables.py: get_descendants", "edward/util/random_variables.py: get_children"]}
{"id": "C07", "title": "Siblings and Markov blanket are exact", "statement": "ed.get_siblings(x) is the set of other children of x's parents; ed.get_blanket(x) is the union of x's parents, x's children and the parents of x's children, without x. Blanket membership is symmetric.", "quantifier": "every finite graph, query node, collection, and pop order of every inner query", "why_tests_cant": "compositional statement over all graphs and schedules", "anchors": ["edward/util/random_variables.py: get_siblings", "edward/util/random_variables.py: get_blanket"]}
{"id": "C08", "title": "get_variables is exact", "statement": "ed.get_variables(x, collection) returns exactly the variables of the collection whose ref-tensor name equals the name of a tensor that x depends on (x's own tensor included).", "quantifier": "every finite graph, query node, collection of variables and pop order", "why_tests_cant": "as C01, and matching is by name rather than by identity", "anchors": ["edward/util/random_variables.py: get_variables"]}
{"id": "C09", "title": "Graph queries terminate", "statement": "Every graph query (ancestors, descendants, parents, children, variables, blanket, siblings) terminates on every finite graph, including graphs with control-flow cycles, visiting each node at most once.", "quantifier": "all finite graphs, all pop orders", "why_tests_cant": "non-termination cannot be shown absent by finitely many runs", "anchors": ["edward/util/random_variables.py: get_ancestors", "edward/util/random_variables.py: get_descendants", "edward/util/random_variables.py: get_parents", "edward/util/random_variables.py: get_children", "edward/util/random_variables.py: get_variables"]}
{"id": "C10", "title": "is_independent decides d-separation", "statement": "When no PointMass is involved, ed.is_independent(a, b, condition) is True iff a and b are d-separated by condition in the DAG of random variables: there is no trail between a member of b and a member of a on which every collider has itself or a descendant in condition and every other node is outside condition.", "quantifier": "every finite directed graph of random variables, all query and condition sets (overlapping ones included), every iteration order of the sets involved", "why_tests_cant": "the number of graphs, trails and exploration orders is unbounded; unit tests check three small DAGs", "anchors": ["edward/util/random_variables.py: is_independent"]}
{"id": "C11", "title": "is_independent is symmetric", "statement": "ed.is_independent(a, b, condition) == ed.is_independent(b, a, condition), PointMass nodes included.", "quantifier": "all finite graphs, all sets a, b, condition, all exploration orders of the two runs", "why_tests_cant": "the algorithm is asymmetric (it starts at b and looks for a); equality must hold for all graphs", "anchors": ["edward/util/random_variables.py: is_independent"]}
{"id": "C12", "title": "is_independent with deterministic nodes", "statement": "With PointMass nodes, ed.is_independent returns False iff some active walk joins b to a on which no PointMass is a common cause and a PointMass at an end is reached through one of its parents (a PointMass is a function of its parents and transmits nothing of its own). In particular the result does not depend on iteration order and the call terminates.", "quantifier": "all finite graphs with any subset of deterministic nodes, all queries, all exploration orders", "why_tests_cant": "termination and schedule independence quantify over all runs", "anchors": ["edward/util/random_variables.py: is_independent"]}
{"id": "C13", "title": "Conditioning set members never count as dependent", "statement": "If every member of a (or every member of b) is in condition, ed.is_independent returns True; and passing a single random variable is the same as passing a singleton list, condition=None the same as [].", "quantifier": "all finite graphs and argument shapes", "why_tests_cant": "quantifies over all graphs", "anchors": ["edward/util/random_variables.py: is_independent"]}
{"id": "C14", "title": "copy leaves the existing graph unchanged", "statement": "ed.copy never changes an existing node: every op, tensor and random variable present before the call has the same name, type and inputs after it, hence evaluates to the same value; copies are only appended.", "quantifier": "every acyclic graph, instance, dict_swap, scope and flag combination", "why_tests_cant": "frame property over unbounded graphs and all nodes not mentioned in the call", "anchors": ["edward/util/random_variables.py: copy", "edward/util/random_variables.py: _copy_default"]}
{"id": "C15", "title": "copy substitutes", "statement": "In a scope not used before, the node returned by ed.copy(x, dict_swap) evaluates to what x would evaluate to if every node in dict_swap were replaced by its value, all other nodes keeping their operation.", "quantifier": "every finite acyclic graph, every dict_swap, every assignment of values to variables, placeholders and random ops", "why_tests_cant": "a substitution lemma over all graphs; tests check products of two constants", "anchors": ["edward/util/random_variables.py: copy"]}
{"id": "C16", "title": "copy shares variables, placeholders and queues", "statement": "ed.copy never duplicates a tf.Variable, a placeholder or a queue op: the copy refers to the very same node.", "quantifier": "all graphs, all swaps, all scopes", "why_tests_cant": "must hold for any node at any depth", "anchors": ["edward/util/random_variables.py: copy"]}
{"id": "C17", "title": "copy reflects the dict_swap it is given", "statement": "The result of ed.copy(x, dict_swap, scope) depends on dict_swap as documented also when the scope was used by an earlier copy.", "quantifier": "all histories of copy calls on one graph", "why_tests_cant": "a history property: it fails only for particular sequences of calls with equal scope and different swaps", "anchors": ["edward/util/random_variables.py: copy"]}
{"id": "C18", "title": "copy memoises within a scope", "statement": "Copying the same node twice in one scope returns the same node and adds nothing to the graph the second time.", "quantifier": "all graphs, nodes, swaps and scopes", "why_tests_cant": "history property over all graphs", "anchors": ["edward/util/random_variables.py: copy"]}
{"id": "C19", "title": "Expression simplification terminates", "statement": "The algebraic simplifier behind ed.complete_conditional terminates on every expression.", "quantifier": "all expressions over the operators the simplifier knows, of any size and nesting", "why_tests_cant": "a rewriting system with distribution rules: termination needs a well-founded measure, not examples", "anchors": ["edward/inferences/conjugacy/simplify.py: full_simplify", "edward/inferences/conjugacy/simplify.py: _register_simplify_fn"]}
{"id": "C20", "title": "Expression simplification preserves meaning", "statement": "Simplifying an expression never changes it as a function of the random variable other than by an additive constant, on the positive domain where logarithms and powers are defined.", "quantifier": "all expressions, all positive environments", "why_tests_cant": "soundness of every rewrite for all operands; a rule that is wrong only inside a particular context survives any example-based test", "anchors": ["edward/inferences/conjugacy/simplify.py: full_simplify", "edward/inferences/conjugacy/simplify.py: add_const_simplify", "edward/inferences/conjugacy/simplify.py: pow_simplify", "edward/inferences/conjugacy/simplify.py: mul_add_simplify", "edward/inferences/conjugacy/simplify.py: log_mul_simplify"]}
{"id": "C21", "title": "Simplified expressions are normal forms", "statement": "When the simplifier returns, no rule applies any more: simplifying the result again returns it unchanged.", "quantifier": "all expressions on which the simplifier returns", "why_tests_cant": "fixpoint property of an iterated rewriting loop for all inputs", "anchors": ["edward/inferences/conjugacy/simplify.py: full_simplify"]}
{"id": "C22", "title": "Sufficient statistics and multipliers factor the term", "statement": "Splitting a simplified product into multipliers and sufficient statistic loses nothing: the product of the multipliers times the product of the statistic factors equals the term, multipliers do not mention the random variable, and two terms get equal keys only if their statistic factors are equal.", "quantifier": "all simplified expressions and environments", "why_tests_cant": "quantifies over all nested products", "anchors": ["edward/inferences/conjugacy/conjugacy.py: extract_s_stat_multipliers", "edward/inferences/conjugacy/conjugacy.py: reconstruct_multiplier"]}
{"id": "C23", "title": "Natural parameter tables invert the exponential families", "statement": "For each support and sufficient statistics that ed.complete_conditional recognises, the distribution it returns has a log density equal to eta . t(x) plus a constant not depending on x.", "quantifier": "all natural parameters in the valid domain and all x in the support, for every row of the table", "why_tests_cant": "real-analysis identity over uncountably many parameters", "anchors": ["edward/inferences/conjugacy/conjugacy.py: _suff_stat_to_dist"]}
{"id": "C24", "title": "Conjugate log probabilities are the log densities", "statement": "The reformulated conjugate_log_prob of each supported family (Bernoulli, Categorical, Binomial, Poisson, Multinomial, Normal, MultivariateNormalDiag, Beta, Dirichlet, Gamma, InverseGamma, Exponential, Laplace, Chi2) equals the family's log density.", "quantifier": "all parameter values and all points of the support", "why_tests_cant": "identity over the reals; samples with tolerance can miss a wrong term", "anchors": ["edward/inferences/conjugacy/conjugate_log_probs.py"]}
{"id": "C25", "title": "complete_conditional returns the conditional", "statement": "When ed.complete_conditional(rv, cond_set) returns a distribution, its density in rv is proportional to the joint density of cond_set with everything else held fixed.", "quantifier": "all models (log-joint expressions) for which a distribution is returned", "why_tests_cant": "correctness of recognising an exponential family for every expression; a product of two rv-dependent terms is a case no unit test has", "anchors": ["edward/inferences/conjugacy/conjugacy.py: complete_conditional", "edward/inferences/conjugacy/conjugacy.py: suff_stat_nodes"]}
{"id": "C26", "title": "compute_multinomial_mode terminates", "statement": "compute_multinomial_mode returns for every probability vector and every total_count >= 1.", "quantifier": "all vectors, all counts, all outcomes of the internal random choices", "why_tests_cant": "non-termination on a class of inputs cannot be established by running tests", "anchors": ["edward/util/random_variables.py: compute_multinomial_mode"]}
{"id": "C27", "title": "compute_multinomial_mode allocates exactly total_count", "statement": "Whenever it returns, the entries are non-negative and sum to total_count, with one entry per class.", "quantifier": "all inputs, all random choices, all iteration counts", "why_tests_cant": "loop invariant over every iteration and every random tie break", "anchors": ["edward/util/random_variables.py: compute_multinomial_mode"]}
{"id": "C28", "title": "compute_multinomial_mode leaves its argument alone", "statement": "The caller's probability array is unchanged by computing the mode, so that ed.evaluate can go on using the averaged probabilities for the metrics that need them.", "quantifier": "all inputs", "why_tests_cant": "aliasing property: depends on whether a rebinding happened before the first in-place write", "anchors": ["edward/util/random_variables.py: compute_multinomial_mode", "edward/criticisms/evaluate.py: evaluate"]}
{"id": "C29", "title": "compute_multinomial_mode returns a mode", "statement": "The returned counts maximise the Multinomial(total_count, probs) probability.", "quantifier": "all probability vectors, counts and tie breaks", "why_tests_cant": "optimality over all count vectors and all internal random choices", "anchors": ["edward/util/random_variables.py: compute_multinomial_mode"]}
{"id": "C30", "title": "MCMC sample bookkeeping", "statement": "After k <= n_iter updates the Empirical approximations hold samples 1..k in rows 0..k-1, later rows are untouched, t equals k, and each new sample was produced from the previous row (row 0 for the first update). Row indices never leave the Empirical's range when at most n_iter (the smallest Empirical size) updates are run.", "quantifier": "all histories of updates, all numbers of latent variables and Empirical sizes, all transition kernels", "why_tests_cant": "invariant over histories of any length", "anchors": ["edward/inferences/monte_carlo.py: MonteCarlo.initialize", "edward/inferences/monte_carlo.py: MonteCarlo.update", "edward/inferences/metropolis_hastings.py: build_update"]}
{"id": "C31", "title": "Reported acceptance rate is a rate", "statement": "The acceptance rate returned by each update is a number in [0, 1]: accepted samples over samples drawn so far.", "quantifier": "all histories of accept/reject outcomes and all execution orders of the ops in one session run", "why_tests_cant": "depends on the order in which TF executes a read and a write in one session run, and on the history", "anchors": ["edward/inferences/monte_carlo.py: MonteCarlo.initialize", "edward/inferences/monte_carlo.py: MonteCarlo.update"]}
{"id": "C32", "title": "Metropolis-Hastings leaves the posterior invariant", "statement": "One update of ed.MetropolisHastings draws from the proposals given the current state and accepts with probability min(1, p(x,z')g(z|z') / (p(x,z)g(z'|z))), so the transition is reversible with respect to, and preserves, the posterior.", "quantifier": "every model with finitely many states, any number of latent variables, every proposal (asymmetric ones included)", "why_tests_cant": "stationarity is an equality of sums over the entire state space", "anchors": ["edward/inferences/metropolis_hastings.py: MetropolisHastings.build_update"]}
{"id": "C33", "title": "Leapfrog is reversible", "statement": "The leapfrog integrator of ed.HMC run for any number of steps, followed by a momentum flip and the same number of steps, returns to the start with the momentum flipped.", "quantifier": "all step sizes, step counts, dimensions, numbers of latent variables and gradient fields", "why_tests_cant": "exact reversibility for every gradient field and step count; floating point tests see it approximately for a few", "anchors": ["edward/inferences/hmc.py: leapfrog"]}
{"id": "C34", "title": "Leapfrog preserves volume", "statement": "The leapfrog map preserves Lebesgue measure on position-momentum space, so the acceptance ratio needs no Jacobian.", "quantifier": "all step sizes, step counts, dimensions and measurable gradient fields", "why_tests_cant": "a statement on all measurable sets", "anchors": ["edward/inferences/hmc.py: leapfrog"]}
{"id": "C35", "title": "HMC leaves the posterior invariant", "statement": "With momentum drawn from a standard normal and the acceptance test of ed.HMC, the extended target exp(log joint - |r|^2/2) is preserved.", "quantifier": "all measurable log joints, gradient fields, step sizes and counts", "why_tests_cant": "invariance of a measure", "anchors": ["edward/inferences/hmc.py: HMC.build_update"]}
{"id": "C36", "title": "Replica exchange permutes replicas", "statement": "The exchange move of ed.ReplicaExchangeMC only permutes the replicas' states: no state is lost or duplicated, each moves by at most one temperature, applying the move twice is the identity.", "quantifier": "any number of replicas, any outcome of the random choices", "why_tests_cant": "must hold for each of exponentially many swap patterns and any number of replicas", "anchors": ["edward/inferences/replica_exchange_mc.py: _replica_exchange", "edward/inferences/replica_exchange_mc.py: build_update"]}
{"id": "C37", "title": "Replica exchange preserves the joint target", "statement": "Each exchange is accepted so that the product of tempered densities is preserved, and each replica's own move preserves its tempered density.", "quantifier": "all log densities, temperature ladders and proposals", "why_tests_cant": "invariance over all states and all proposals", "anchors": ["edward/inferences/replica_exchange_mc.py: _mh_sample", "edward/inferences/replica_exchange_mc.py: _replica_exchange", "edward/inferences/replica_exchange_mc.py: _replica_ratio"]}
{"id": "C38", "title": "Gibbs updates preserve the joint", "statement": "One sweep of ed.Gibbs, which redraws every latent variable once from its complete conditional given the most recent values of all others, preserves the joint posterior, for any scan order.", "quantifier": "any finite family of variables with finite state spaces, any joint with positive mass where conditioned, any order", "why_tests_cant": "stationarity for any number of variables and any order", "anchors": ["edward/inferences/gibbs.py: Gibbs.update"]}
{"id": "C39", "title": "Blocked Gibbs draws blocks jointly", "statement": "A scan_order entry that is a list of random variables is redrawn as a block so that the sweep still preserves the joint posterior.", "quantifier": "all joints and block structures", "why_tests_cant": "a block of dependent variables must be drawn from its joint conditional; fails only for dependent variables within a block", "anchors": ["edward/inferences/gibbs.py: Gibbs.update"]}
{"id": "C40", "title": "Stored Gibbs samples are the chain", "statement": "The row written to the Empirical approximations by an update is the state of the chain, i.e. the values the next update conditions on.", "quantifier": "all histories and random draws", "why_tests_cant": "relation between two pieces of state across session runs", "anchors": ["edward/inferences/gibbs.py: Gibbs.update", "edward/inferences/gibbs.py: Gibbs.build_update"]}
{"id": "C41", "title": "SGLD step sizes satisfy the Robbins-Monro conditions", "statement": "The step sizes used by ed.SGLD are positive and decreasing, their sum diverges and the sum of their squares converges.", "quantifier": "the infinite sequence of iterations, all initial step sizes", "why_tests_cant": "infinite series", "anchors": ["edward/inferences/sgld.py: SGLD.build_update"]}
{"id": "C42", "title": "SGHMC update is schedule independent", "statement": "The sample written by one ed.SGHMC update does not depend on the order in which TensorFlow executes the ops of the session run.", "quantifier": "all topological execution orders of the update's ops", "why_tests_cant": "tests observe one schedule chosen by the runtime", "anchors": ["edward/inferences/sghmc.py: SGHMC.build_update"]}
{"id": "C43", "title": "run performs exactly n_iter updates", "statement": "inference.run() performs exactly n_iter updates, each followed by a progress report, and leaves t at n_iter; progress is shown exactly at t = 1 and at multiples of n_print when n_print > 0 and never when it is 0.", "quantifier": "all n_iter, n_print and inference algorithms", "why_tests_cant": "loop invariant for every iteration count", "anchors": ["edward/inferences/inference.py: Inference.run", "edward/inferences/inference.py: Inference.print_progress", "edward/inferences/inference.py: Inference.initialize"]}
{"id": "C44", "title": "run releases its resources on every exit", "statement": "However inference.run() ends, normally or by an exception in some iteration, the queue-runner threads it started are stopped and the log writer is closed.", "quantifier": "every crash point (any call in any iteration)", "why_tests_cant": "crash points: an exception must be injected at each call", "anchors": ["edward/inferences/inference.py: Inference.run", "edward/inferences/inference.py: Inference.finalize"]}
{"id": "C45", "title": "reset starts over", "statement": "Running inference.reset puts the algorithm's own state (iteration counter, acceptance counter, optimizer state, learning-rate step, momenta) back to its state right after initialisation.", "quantifier": "all histories of updates before the reset, all algorithms", "why_tests_cant": "state must be equal after any history; a forgotten variable shows up only in later trajectories", "anchors": ["edward/inferences/inference.py: Inference.initialize", "edward/inferences/monte_carlo.py: MonteCarlo.initialize", "edward/inferences/variational_inference.py: initialize", "edward/inferences/sghmc.py"]}
{"id": "C46", "title": "check_data and check_latent_vars accept exactly the valid dictionaries", "statement": "check_data (check_latent_vars) raises TypeError iff some pair is invalid by the documented rules, independently of the dictionary's iteration order; a dictionary is accepted iff each of its pairs is accepted on its own.", "quantifier": "all dictionaries of any size, all shapes (partially unknown ones included), all iteration orders", "why_tests_cant": "all combinations of key and value kinds, shapes and orders", "anchors": ["edward/util/random_variables.py: check_data", "edward/util/random_variables.py: check_latent_vars"]}
{"id": "C47", "title": "No accepted data is dropped", "statement": "Every key of an accepted data dictionary is bound in the inference object after construction, to the given value or to a variable or tensor holding it.", "quantifier": "all accepted dictionaries", "why_tests_cant": "case analysis over all kinds of pairs", "anchors": ["edward/inferences/inference.py: Inference.__init__"]}
{"id": "C48", "title": "transform maps each continuous support onto an unconstrained one", "statement": "ed.transform returns the variable itself for real supports, a variable on an unconstrained support for [0,1], nonnegative and simplex supports through a bijection from the support's interior, and raises otherwise.", "quantifier": "all supports; all points of the support for the bijections", "why_tests_cant": "bijectivity over the reals", "anchors": ["edward/util/random_variables.py: transform"]}
{"id": "C49", "title": "auto_transform only touches continuous pairs with different supports", "statement": "With auto_transform, latent variables whose supports agree or are not continuous are left as they are, every latent variable keeps an approximation, and initialising twice gives the same result as once.", "quantifier": "all collections of latent variables, approximations and supports", "why_tests_cant": "all combinations of supports, and a history (second initialisation)", "anchors": ["edward/inferences/inference.py: Inference.initialize"]}
{"id": "C50", "title": "KLqp minimises a bound on the evidence", "statement": "The expectation of the loss used by ed.KLqp (no regularisation, unit scales) equals KL(q || posterior) - log evidence; hence it is at least -log evidence with equality iff q is the posterior.", "quantifier": "all sigma-finite reference measures, joint densities and approximations, any n_samples", "why_tests_cant": "inequality over all q", "anchors": ["edward/inferences/klqp.py: build_reparam_loss_and_gradients", "edward/inferences/klqp.py: build_score_loss_and_gradients"]}
{"id": "C51", "title": "The score-function gradient is unbiased", "statement": "The gradient estimator of the score-function KLqp losses has expectation equal to the gradient of the expected loss.", "quantifier": "all smooth parametric families (any reference measure), all joints, any n_samples", "why_tests_cant": "expectation over all outcomes of random draws", "anchors": ["edward/inferences/klqp.py: build_score_loss_and_gradients"]}
{"id": "C52", "title": "n_samples averages independent samples", "statement": "In every KLqp variant the loss is the average over the n_samples draws of the per-draw loss.", "quantifier": "all n_samples, all draws", "why_tests_cant": "aliasing of accumulators is visible only with n_samples > 1 and distinct draws", "anchors": ["edward/inferences/klqp.py: build_score_rb_loss_and_gradients", "edward/inferences/klqp.py: build_reparam_loss_and_gradients", "edward/inferences/klqp.py: build_score_loss_and_gradients"]}
{"id": "C53", "title": "KLqp dispatch", "statement": "With n_samples > 0, ed.KLqp uses the analytic KL with the reparameterised gradient iff every approximation is reparameterisable and every pair of prior and approximation is Normal, the plain reparameterised gradient iff every approximation is reparameterisable otherwise, the Rao-Blackwellised score gradient when some approximation is not reparameterisable; a non-empty kl_scaling raises TypeError unless every pair is Normal, and n_samples <= 0 raises ValueError.", "quantifier": "all collections of latent variables and option values", "why_tests_cant": "all combinations of flags for any number of variables", "anchors": ["edward/inferences/klqp.py: KLqp.build_loss_and_gradients", "edward/inferences/klqp.py: KLqp.initialize"]}
{"id": "C54", "title": "Every trainable parameter gets its gradient once", "statement": "In the algorithms that split parameters between model and approximation (KLpq, WakeSleep, score-function KLqp, GANs), each trainable variable of the list appears in exactly one update with exactly one gradient.", "quantifier": "all variable lists and dependency graphs", "why_tests_cant": "partition property for all graphs", "anchors": ["edward/inferences/klqp.py", "edward/inferences/klpq.py", "edward/inferences/wake_sleep.py", "edward/inferences/gan_inference.py"]}
{"id": "C55", "title": "KLpq importance weights", "statement": "The self-normalised weights used by ed.KLpq are positive and sum to one, are invariant to adding a constant to all log weights, and their mean equals 1/n_samples.", "quantifier": "all real log weights, all n_samples >= 1", "why_tests_cant": "real arithmetic over all inputs", "anchors": ["edward/inferences/klpq.py: KLpq.build_loss_and_gradients"]}
{"id": "C56", "title": "scale multiplies the terms of its own variable", "statement": "The `scale` dictionary multiplies each random variable's log probability by that variable's own factor in every algorithm.", "quantifier": "all latent variable collections, scales and iteration orders", "why_tests_cant": "a stale loop variable shows only with several latent variables having different scales", "anchors": ["edward/inferences/wake_sleep.py: WakeSleep.build_loss_and_gradients", "edward/inferences/klqp.py"]}
{"id": "C57", "title": "Laplace covariance is the inverse Hessian", "statement": "After ed.Laplace finishes, the covariance of each approximation equals the inverse of the Hessian of the negative log joint at the mode.", "quantifier": "all positive definite Hessians and all supported approximation families", "why_tests_cant": "matrix identity for all matrices; identity-like test Hessians hide the error", "anchors": ["edward/inferences/laplace.py: Laplace.finalize"]}
{"id": "C58", "title": "GAN updates touch only their own player", "statement": "update(variables='Gen') changes only generator parameters, update(variables='Disc') only discriminator parameters, the default both, any other value raises without changing anything; t increases by exactly one on each successful update.", "quantifier": "all histories of update calls and argument values", "why_tests_cant": "history property", "anchors": ["edward/inferences/gan_inference.py: GANInference.update", "edward/inferences/wgan_inference.py: WGANInference.update"]}
{"id": "C59", "title": "WGAN weight clipping", "statement": "With clipping enabled, all discriminator weights lie in [-clip, clip] after every update that trained the discriminator, and stay there through generator updates.", "quantifier": "all histories of updates and gradients", "why_tests_cant": "invariant over histories", "anchors": ["edward/inferences/wgan_inference.py"]}
{"id": "C60", "title": "Ratio loss recovers the log density ratio", "statement": "The default ratio loss of ed.ImplicitKLqp is minimised pointwise exactly at the log ratio of the two densities.", "quantifier": "all pairs of positive densities", "why_tests_cant": "optimisation over the reals", "anchors": ["edward/inferences/implicit_klqp.py: log_loss"]}
{"id": "C61", "title": "Metric averaging", "statement": "For every averaged metric, average='macro' and average='micro' both give the overall mean and average=None the per-column means; an invalid value of average raises ValueError.", "quantifier": "all matrices of any size", "why_tests_cant": "sums over arbitrary dimensions; the error branch is never exercised by tests", "anchors": ["edward/util/metrics.py: with_binary_averaging", "edward/criticisms/evaluate.py"]}
{"id": "C62", "title": "Error metrics are distances", "statement": "Mean squared, absolute and squared-logarithmic errors are non-negative and zero exactly when predictions equal targets; accuracies lie in [0,1] and are 1 exactly when all predictions agree; KL divergence of distributions is non-negative and zero exactly when equal; per-row cosine proximity lies in [-1,1].", "quantifier": "all real inputs of any size", "why_tests_cant": "inequalities over the reals", "anchors": ["edward/criticisms/evaluate.py"]}
{"id": "C63", "title": "evaluate dispatch", "statement": "ed.evaluate accepts a metric name, a callable, a (name, options) pair or a list of these, returns one value for one metric and a list in the given order for several, and raises NotImplementedError for unknown names.", "quantifier": "all metric arguments", "why_tests_cant": "all argument combinations", "anchors": ["edward/criticisms/evaluate.py: evaluate"]}
{"id": "C64", "title": "log_lik estimates the predictive density", "statement": "The log-likelihood metric never exceeds the log of the averaged predictive likelihood over the same draws.", "quantifier": "all n_samples and all likelihood values", "why_tests_cant": "Jensen's inequality over all inputs", "anchors": ["edward/criticisms/evaluate.py: evaluate"]}
{"id": "C65", "title": "ppc uses matching draws", "statement": "ed.ppc returns n_samples replicated and n_samples realised discrepancies, the s-th of each computed with the same draw of the latent variables.", "quantifier": "all models, draws and n_samples", "why_tests_cant": "randomness consumption across separate session runs", "anchors": ["edward/criticisms/ppc.py: ppc"]}
{"id": "C66", "title": "to_simplex lands on the simplex", "statement": "ed.to_simplex maps every real vector of length K-1 to K strictly positive numbers summing to one, maps zero to the uniform vector, and is injective.", "quantifier": "all dimensions and all real vectors", "why_tests_cant": "real analysis with induction on the dimension", "anchors": ["edward/util/tensorflow.py: to_simplex"]}
{"id": "C67", "title": "rbf is a valid kernel", "statement": "ed.rbf(X) is symmetric, has the variance on its diagonal, entries in (0, variance], equals the documented formula, and is positive semidefinite.", "quantifier": "all inputs, dimensions, lengthscales and variances", "why_tests_cant": "real analysis for all matrices", "anchors": ["edward/util/tensorflow.py: rbf"]}
{"id": "C68", "title": "Control variate coefficient is optimal", "statement": "The coefficient returned by get_control_variate_coef minimises the empirical variance of f - a h over all a.", "quantifier": "all samples with non-constant h", "why_tests_cant": "optimisation over the reals", "anchors": ["edward/util/tensorflow.py: get_control_variate_coef"]}
{"id": "C69", "title": "Empirical and PointMass distributions", "statement": "Samples of Empirical are rows of its parameters; its mean, variance and standard deviation are those of the uniform distribution on the rows. Samples of PointMass all equal its parameter and its variance is zero.", "quantifier": "all parameter arrays, sample sizes and random index draws", "why_tests_cant": "all draws", "anchors": ["edward/models/empirical.py", "edward/models/point_mass.py"]}
{"id": "C70", "title": "ParamMixture moments and densities", "statement": "ParamMixture's mean and variance are those of the mixture (law of total variance, never negative); its conditional log_prob is the selected component's; marginal_log_prob is the log of the weighted sum of component densities.", "quantifier": "all weights, component moments and densities", "why_tests_cant": "identities over the reals and finite sums of any size", "anchors": ["edward/models/param_mixture.py"]}
{"id": "C71", "title": "Dirichlet process memoisation", "statement": "Sampling a DirichletProcess only ever appends atoms: atoms and stick probabilities drawn before keep their position and value, their numbers agree, and each returned sample is the atom at which its sequence of coin flips first came up heads, that is the stick-breaking construction.", "quantifier": "all outcomes of the coin flips and base draws, any number of samples, any history of earlier sampling", "why_tests_cant": "unbounded while loop with random exits", "anchors": ["edward/models/dirichlet_process.py: _sample_n"]}
{"id": "C72", "title": "Progress bar erases what it wrote", "statement": "After each visible update the terminal line shows exactly the latest bar and info (no leftovers of an earlier, longer line), nothing is written with verbose=0, and a line is terminated exactly when current >= target.", "quantifier": "all sequences of updates, values and clock readings", "why_tests_cant": "history property on terminal contents", "anchors": ["edward/util/progbar.py: Progbar.update"]}
{"id": "C73", "title": "get_session restores standard error", "statement": "ed.get_session leaves sys.stderr as it found it whatever happens while importing optional packages.", "quantifier": "every outcome of the import", "why_tests_cant": "crash points", "anchors": ["edward/util/graphs.py: get_session"]}
{"id": "C74", "title": "RandomVariable registration and round trip", "statement": "Creating a random variable registers it exactly once in each requested collection of its graph, rejects a value of incompatible shape, and its shape is sample_shape + batch_shape + event_shape.", "quantifier": "all argument combinations", "why_tests_cant": "all shapes, partially unknown ones included", "anchors": ["edward/models/random_variable.py: RandomVariable.__init__"]}
{"id": "C75", "title": "run with an explicit variable list", "statement": "inference.run(variables=L) performs its n_iter updates for an explicit list L of variables to initialise (the documentation says to pass an empty list to avoid initialising any).", "quantifier": "all lists L of variables that exist before run is called, all n_iter", "why_tests_cant": "tests call run without the argument; the failure depends on which variables are created inside run", "anchors": ["edward/inferences/inference.py: Inference.run, Inference.initialize"]}
{"id": "C76", "title": "Cross entropy metric uses predicted probabilities", "statement": "The 'binary_crossentropy' ('log_loss') metric of a Bernoulli or Binomial output is the cross entropy of the observations under the predicted probabilities; a model giving every observation probability one has loss zero.", "quantifier": "all outputs, probabilities and observations of any size", "why_tests_cant": "tests feed logits directly to the metric function; the composition with evaluate's predictions is never compared with a reference", "anchors": ["edward/criticisms/evaluate.py: evaluate, binary_crossentropy"]}
{"id": "C77", "title": "Hinge loss vanishes on confident correct predictions", "statement": "The hinge and squared hinge metrics are non-negative and vanish exactly when every prediction is on the right side with margin one, for the documented labels 0 and 1.", "quantifier": "all real predictions of any size", "why_tests_cant": "inequalities over the reals; tests compare single numbers", "anchors": ["edward/criticisms/evaluate.py: hinge, squared_hinge"]}
{"id": "C78", "title": "DirichletProcess validates its base", "statement": "With validate_args=True a DirichletProcess accepts a base that is a RandomVariable and raises TypeError for any other base.", "quantifier": "all base arguments", "why_tests_cant": "the tests never construct the process with validation switched on", "anchors": ["edward/models/dirichlet_process.py: __init__"]}
{"id": "C79", "title": "Regularisation penalties are added to the loss", "statement": "In every variational algorithm the regularisation losses of the graph are added to the reported loss and to the function whose gradient is taken.", "quantifier": "all draws, losses and penalties", "why_tests_cant": "no test registers a regularisation loss; the sign is invisible without one", "anchors": ["edward/inferences/klqp.py", "edward/inferences/klpq.py: KLpq.build_loss_and_gradients", "edward/inferences/map.py", "edward/inferences/wake_sleep.py"]}
{"id": "C80", "title": "The reparameterised gradient is unbiased", "statement": "When the draws of the approximation are a fixed noise pushed through a differentiable function of the parameters, the expectation of the gradient of the KLqp loss is the gradient of the expected loss.", "quantifier": "all noise laws, differentiable losses with integrable bound on the derivative, any n_samples", "why_tests_cant": "exchange of derivative and integral over all draws", "anchors": ["edward/inferences/klqp.py: build_reparam_loss_and_gradients"]}
{"id": "C81", "title": "Multipliers are rebuilt with their value", "statement": "Rebuilding an expression that does not mention the random variable gives a tensor with the value of the expression, and the rebuilt multiplier is the product of the values of the multipliers.", "quantifier": "all expressions without the random variable, all environments", "why_tests_cant": "quantifies over all nested expressions and operation kinds", "anchors": ["edward/inferences/conjugacy/simplify.py: reconstruct_expr", "edward/inferences/conjugacy/conjugacy.py: reconstruct_multiplier"]}
{"id": "C82", "title": "Automatic transformation keeps shapes", "statement": "After initialising with auto_transform, the approximation recorded for a latent variable has the shape of the latent variable.", "quantifier": "all latent variables, approximations of the same shape, and supports", "why_tests_cant": "must hold for every support and shape; it fails only for some supports", "anchors": ["edward/inferences/inference.py: Inference.initialize", "edward/util/random_variables.py: transform"]}
{"id": "C83", "title": "HMC on the unconstrained space targets the model's posterior", "statement": "If the unconstrained chain of ed.HMC has the density it works with, the approximation it fills in, on the original space, has density proportional to the model's joint density.", "quantifier": "all numbers, shapes and supports of latent variables; all joint densities", "why_tests_cant": "equality of two measures; a wrong Jacobian term shifts every expectation slightly", "anchors": ["edward/inferences/hmc.py: HMC._log_joint_unconstrained", "edward/inferences/inference.py: Inference.initialize"]}
{"id": "C84", "title": "MAP from a list of variables", "statement": "ed.MAP([z]) gives z a point mass of the shape of z which, as its free parameters vary, ranges over exactly the support of z.", "quantifier": "all latent variables: supports, shapes, sample shapes, transformed variables", "why_tests_cant": "range over all parameter values and all supports", "anchors": ["edward/inferences/map.py: MAP.__init__"]}
{"id": "C85", "title": "copy makes no cycles", "statement": "If no operation of the graph depends on itself, none does after ed.copy.", "quantifier": "every acyclic graph, instance, dict_swap, scope and flag combination", "why_tests_cant": "the cycle needs a particular combination of dict_swap and copy_q at arbitrary depth", "anchors": ["edward/util/random_variables.py: copy"]}
{"id": "C86", "title": "SGLD and SGHMC store the sample their step computes", "statement": "After an update of `SGLD` or `SGHMC` with counter `t`, with the default `auto_transform=True`, sample `t` of the approximation of each latent variable, as read from `inference.latent_vars`, is the value the step computed from the samples at index `max(t - 1, 0)`, and every other sample is unchanged.", "quantifier": "for all models, numbers of latent variables, supports, step sizes, states of the chain and random draws", "why_tests_cant": "The result depends on random draws and on unbounded real states; on a constrained support the stored value is still in the support, so tests which look at shapes, supports or rough moments pass.", "anchors": ["edward/inferences/sgld.py:SGLD.build_update", "edward/inferences/sghmc.py:SGHMC.build_update", "edward/inferences/inference.py:Inference.initialize"]}
{"id": "C87", "title": "The sleep phase learns from fantasies of the model", "statement": "With `phase_q='sleep'`, the expectation of the loss `WakeSleep` minimises over the parameters of the approximation is `-E log q(z | x)` over samples `(x, z)` from the model, as documented; so the model's conditional distribution is optimal.", "quantifier": "for all models (joint laws of data and latent variables on arbitrary measurable spaces), data, approximations and numbers of samples", "why_tests_cant": "The claim is about an expectation over all draws and its minimiser over all approximations; a run only shows noisy losses, which decrease in either case.", "anchors": ["edward/inferences/wake_sleep.py:WakeSleep.build_loss_and_gradients"]}
{"id": "C88", "title": "ImplicitKLqp estimates the documented ratio", "statement": "With the log loss, the discriminator minimising the expectation of `loss_d` is `log p(x, z | beta) - log q(x, z | beta)`, where q(x) is the empirical distribution of the data.", "quantifier": "for all models, data sets, approximations (also with inference networks) and discriminators", "why_tests_cant": "The minimiser over all functions of an expectation over all draws is not observable in a run.", "anchors": ["edward/inferences/implicit_klqp.py:ImplicitKLqp.build_loss_and_gradients", "edward/inferences/implicit_klqp.py:log_loss"]}
{"id": "C89", "title": "complete_conditional uses the log joint of its own conditioning set", "statement": "`get_log_joint(cond_set)`, on which `ed.complete_conditional` is built, returns the sum of the log probabilities of the variables in `cond_set`, whatever sets it was called with before in the same graph; it raises NotImplementedError if a variable has no `conjugate_log_prob`.", "quantifier": "for all sequences of calls, sets of variables and variable names", "why_tests_cant": "The tensors kept in the graph are found by name; a clash needs a particular combination of names in a particular order of calls, which no test enumerates.", "anchors": ["edward/inferences/conjugacy/conjugacy.py:get_log_joint", "edward/inferences/conjugacy/conjugacy.py:complete_conditional"]}
{"id": "C90", "title": "debug=True reports NaN and Inf", "statement": "With `debug=True`, an `update` during which a floating-point tensor of the graph (also the loss, its gradients, a proposal or an acceptance ratio) is NaN or Inf raises, and an update without any does not.", "quantifier": "for all graphs, states of the variables and random draws", "why_tests_cant": "That a check is missing shows only in runs where NaN occurs in the tensor that is not checked.", "anchors": ["edward/inferences/inference.py:Inference.initialize", "edward/inferences/variational_inference.py:VariationalInference.update", "edward/inferences/monte_carlo.py:MonteCarlo.update"]}
{"id": "C91", "title": "An update feeds what its call says", "statement": "An `update(feed_dict)` runs the graph with the data for the placeholders bound in `data` and the caller's values for the others, whatever other updates, of this or another inference, were called before; the caller's dictionary is left as it was.", "quantifier": "for all data dictionaries, feed dictionaries, and sequences of calls of several inferences", "why_tests_cant": "The values used depend on the history of a mutable object shared between calls; tests build a new dictionary for each call.", "anchors": ["edward/inferences/inference.py:Inference.update", "edward/inferences/variational_inference.py:VariationalInference.update", "edward/inferences/monte_carlo.py:MonteCarlo.update", "edward/inferences/gan_inference.py:GANInference.update", "edward/inferences/gibbs.py:Gibbs.update", "edward/inferences/laplace.py:Laplace.finalize"]}
{"id": "C92", "title": "Gibbs conditions on the current data", "statement": "Every update of Gibbs evaluates the complete conditionals with each observed variable at the current value of what it is bound to in `data`: an array, a placeholder, a tensor or a random variable.", "quantifier": "for all data dictionaries, at every update, whatever the draws", "why_tests_cant": "What a conditional was evaluated at is not visible in the draws, which are random.", "anchors": ["edward/inferences/gibbs.py:Gibbs.update"]}
{"id": "C93", "title": "scale is used by the Monte Carlo algorithms", "statement": "In HMC, Metropolis-Hastings, replica exchange, SGLD and SGHMC the log probability of each variable is multiplied by its factor in `scale`, in the density whose gradient is followed and in the acceptance ratio.", "quantifier": "for all models, data, states, proposals and scale dictionaries", "why_tests_cant": "The density targeted is visible only in the long-run distribution of the samples.", "anchors": ["edward/inferences/hmc.py:HMC._log_joint", "edward/inferences/metropolis_hastings.py:MetropolisHastings.build_update", "edward/inferences/replica_exchange_mc.py:ReplicaExchangeMC", "edward/inferences/sgld.py:SGLD._log_joint", "edward/inferences/sghmc.py:SGHMC._log_joint"]}
{"id": "C94", "title": "An acceptance ratio compares densities of the same data", "statement": "In one update of Metropolis-Hastings, replica exchange or HMC the densities of the current and of the proposed state are those of the same values of the data, also if the data are random variables; so a proposal equal to the current state has ratio zero.", "quantifier": "for all models, data, states and draws of random data", "why_tests_cant": "The two draws are internal to the graph; with constant data they cannot differ.", "anchors": ["edward/inferences/hmc.py:HMC._log_joint", "edward/inferences/metropolis_hastings.py:MetropolisHastings.build_update", "edward/inferences/replica_exchange_mc.py:ReplicaExchangeMC._mh_sample"]}
{"id": "C95", "title": "Law of DirichletProcess samples", "statement": "Sampling a DirichletProcess with positive concentration terminates with probability one, every sample has the law of the base distribution, and for a base without atoms k samples of one process all coincide with probability 1·2⋯(k-1)/((a+1)⋯(a+k-1)), a the concentration (1/(1+a) for two).", "quantifier": "all numbers of samples, batch shapes, positive concentrations and base distributions", "why_tests_cant": "a statement about probabilities over an unbounded loop", "anchors": ["edward/models/dirichlet_process.py: _sample_n, _sample_n_body"]}
{"id": "C96", "title": "A random variable has the dtype it declares", "statement": "`rv.dtype` is the dtype of `rv.value()`; tf.convert_to_tensor(rv, d) succeeds exactly for that dtype and returns a tensor of dtype d; data and approximations of the variable's own dtype pass the checks of Inference.", "quantifier": "all random variables built from TensorFlow's distributions, Empirical, PointMass, ParamMixture and DirichletProcess, nested in any way", "why_tests_cant": "tests sample from each class but compare only shapes", "anchors": ["edward/models/random_variable.py: _tensor_conversion_function", "edward/models/dirichlet_process.py: __init__", "edward/models/param_mixture.py: __init__", "edward/util/random_variables.py: check_data, check_latent_vars"]}
{"id": "C97", "title": "Inference uses the data it was given", "statement": "Data given as Python or NumPy values are stored unchanged or refused.", "quantifier": "all keys, dtypes, shapes and values", "why_tests_cant": "tests pass data of the key's own dtype", "anchors": ["edward/inferences/inference.py: Inference.__init__", "edward/util/random_variables.py: check_data"]}
{"id": "C98", "title": "Creating a random variable registers that variable only", "statement": "Creating or sampling a DirichletProcess adds to ed.random_variables() the process itself (if asked to) and nothing else.", "quantifier": "all constructor arguments, collections, registries and numbers of sample calls", "why_tests_cant": "tests do not look at the registry after sampling", "anchors": ["edward/models/dirichlet_process.py: _sample_n_body", "edward/models/random_variable.py: __init__"]}
{"id": "C99", "title": "The base of a DirichletProcess determines its event shape", "statement": "A DirichletProcess over any base random variable has atoms of shape batch_shape + base.shape.", "quantifier": "all bases: sample, batch and event shapes; all concentrations' shapes", "why_tests_cant": "tests use bases without sample_shape", "anchors": ["edward/models/dirichlet_process.py: _event_shape, _sample_n_body"]}
{"id": "C100", "title": "Shape of a ParamMixture", "statement": "The value of ParamMixture(..., sample_shape=s) has shape s + batch_shape + event_shape, and so have samples of shape s drawn later.", "quantifier": "all sample, batch and event shapes", "why_tests_cant": "tests construct with no sample_shape or a large one-dimensional one", "anchors": ["edward/models/param_mixture.py: _sample_n"]}
{"id": "C101", "title": "KLpq estimates the divergence from the posterior and its gradient", "statement": "As n_samples grows, the loss of KLpq converges almost surely to KL(p(z|x) || q) plus the log evidence minus the regularisation, and the gradient applied to the parameters of q converges almost surely to the gradient of KL(p(z|x) || q) plus that of the regularisation.", "quantifier": "all approximations and joint densities (any sigma-finite reference measure, positive densities, integrable log ratio), any normed parameter space, almost all sequences of draws", "why_tests_cant": "a limit over infinitely many random draws", "anchors": ["edward/inferences/klpq.py: build_loss_and_gradients"]}
{"id": "C102", "title": "The expected KLpq update depends on the model", "statement": "For every n_samples, including the default of one, the gradient KLpq applies to q has an expectation that vanishes only where the gradient of KL(p(z|x) || q) does.", "quantifier": "all models, all n_samples >= 1", "why_tests_cant": "the default setting runs without an error and the parameters do move; only the expectation shows that the model has no part in it", "anchors": ["edward/inferences/klpq.py: initialize, build_loss_and_gradients"]}
{"id": "C103", "title": "KLpq maximises the documented objective over model parameters", "statement": "The gradient KLpq applies to parameters of the model is the self-normalised importance sampling estimate of the gradient of -E_{p(z|x)}[log p(x, z)].", "quantifier": "all models, draws and n_samples", "why_tests_cant": "the difference is a term of the gradient that vanishes for one sample", "anchors": ["edward/inferences/klpq.py: build_loss_and_gradients"]}
{"id": "C104", "title": "Score-function gradients are right for approximations with dependent factors", "statement": "The score-function gradient has the expectation of the gradient of the loss also when the parameters of one factor of the approximation are computed from the value of another.", "quantifier": "all structured approximations", "why_tests_cant": "expectation over all outcomes; the tests of the library use independent factors", "anchors": ["edward/inferences/klqp.py: build_score_loss_and_gradients", "edward/inferences/klpq.py: build_loss_and_gradients"]}
{"id": "C105", "title": "Enough iterations reach any parameter value", "statement": "With the default optimiser, a parameter of a variational inference can get to any value, whatever its distance from the initial value, given enough iterations.", "quantifier": "all models, losses, gradients, draws and n_iter", "why_tests_cant": "a bound over infinitely many iterations and all models", "anchors": ["edward/inferences/variational_inference.py: initialize", "edward/inferences/gan_inference.py: _build_optimizer"]}
{"id": "C106", "title": "global_step only counts", "statement": "Which optimiser is used follows from the optimizer argument; passing a global_step variable makes it count the updates and does not change the updates.", "quantifier": "all optimizer and global_step arguments", "why_tests_cant": "needs a comparison over all names and all iterations", "anchors": ["edward/inferences/variational_inference.py: initialize", "edward/inferences/gan_inference.py: _build_optimizer"]}
{"id": "C107", "title": "What adversarial training optimises", "statement": "The discriminator loss of GANInference is the cross entropy of telling true from generated data; over all discriminators its expectation is least exactly at the log ratio of the two densities, where it is 2 log 2 minus the divergences of both laws from their average, hence 2 log 2 exactly when the laws agree. The generator follows, for the best discriminator, the gradient of KL(q||p) minus those divergences. BiGANInference uses the same losses on joint pairs with exchanged labels for the encoder and decoder.", "quantifier": "all laws with positive densities on any measurable space, all discriminators, batch sizes and penalties; for the generator, all families of densities with dominated derivatives", "why_tests_cant": "tests check that a GAN runs; the optimal discriminator and the divergence are properties of expectations over all functions", "anchors": ["edward/inferences/gan_inference.py: GANInference.build_loss_and_gradients", "edward/inferences/bigan_inference.py: BiGANInference.build_loss_and_gradients"]}
{"id": "C108", "title": "The gradient penalty bounds the critic's loss", "statement": "With a positive penalty the expected critic loss of WGANInference is bounded below over all smooth critics, for each batch of true and generated data points.", "quantifier": "all continuously differentiable critics, batches and penalties", "why_tests_cant": "the infimum over all critics is not observable; a test runs one network for a few steps", "anchors": ["edward/inferences/wgan_inference.py: WGANInference.build_loss_and_gradients"]}
{"id": "C109", "title": "The gradient of the penalty is a number", "statement": "The gradient of the gradient penalty that WGANInference applies to the critic's weights is finite and is the derivative of the penalty.", "quantifier": "all critics, interpolates and penalties", "why_tests_cant": "needs a critic with zero gradient at an interpolate; the tests use random dense layers", "anchors": ["edward/inferences/wgan_inference.py: WGANInference.build_loss_and_gradients"]}
{"id": "C110", "title": "The discriminator is given the observed variable and its data", "statement": "For every data dictionary that binds one observed variable and any placeholders, the adversarial algorithms compare the observed variable with its data.", "quantifier": "all data dictionaries with one observed variable", "why_tests_cant": "all tests and examples pass one item", "anchors": ["edward/inferences/gan_inference.py: GANInference.build_loss_and_gradients", "edward/inferences/wgan_inference.py: WGANInference.build_loss_and_gradients", "edward/inferences/bigan_inference.py: BiGANInference.build_loss_and_gradients"]}
{"id": "C111", "title": "Predictions are most probable values", "statement": "For a discrete output (Bernoulli, Binomial, Categorical, Multinomial) the prediction which ed.evaluate compares with the observations is a most probable value of the output under the averaged probabilities.", "quantifier": "all probabilities, numbers of trials, numbers of session runs and random tie breaks", "why_tests_cant": "optimality among all values of the output; tests only use outputs with one trial", "anchors": ["edward/criticisms/evaluate.py: evaluate"]}
{"id": "C112", "title": "The squared error metric measures the predictive mean", "statement": "The expected value of the mean squared error reported by ed.evaluate for a continuous output is the squared error of the posterior predictive mean, for every n_samples.", "quantifier": "all predictive distributions with finite variance, all observations, all n_samples", "why_tests_cant": "a statement about an expectation over draws", "anchors": ["edward/criticisms/evaluate.py: evaluate, mean_squared_error"]}
{"id": "C113", "title": "The divergence metric uses the predicted probabilities", "statement": "The kl_divergence metric of a multinomial output is the divergence of the observed proportions from the predicted probabilities; it is zero when they agree.", "quantifier": "all probability vectors, numbers of trials, observations and random choices", "why_tests_cant": "the array of probabilities is changed by the computation of another value; infinite for whole families of inputs", "anchors": ["edward/criticisms/evaluate.py: evaluate", "edward/util/random_variables.py: compute_multinomial_mode"]}
{"id": "C114", "title": "evaluate accepts the data formats it checks for", "statement": "ed.evaluate computes its metrics for every observation format which check_data accepts (tensors, arrays, lists, Python numbers).", "quantifier": "all observation formats and metrics", "why_tests_cant": "formats times metrics; tests pass NumPy arrays", "anchors": ["edward/criticisms/evaluate.py: evaluate", "edward/util/random_variables.py: check_data"]}
{"id": "C115", "title": "Enough Metropolis-Hastings samples approximate the posterior", "statement": "As the number of samples grows, the distribution of the last MetropolisHastings sample converges to the posterior, and the average over the rows of the Empirical converges to the posterior expectation almost surely.", "quantifier": "all models, data, proposals, starting points, bounded functions and sequences of independent draws", "why_tests_cant": "a limit over the number of iterations and a statement about almost all draws; tests check a few moments with a tolerance", "anchors": ["edward/inferences/metropolis_hastings.py: MetropolisHastings.build_update", "edward/inferences/monte_carlo.py: MonteCarlo.update", "edward/models/empirical.py: Empirical._mean"]}
{"id": "C116", "title": "Enough Gibbs samples approximate the posterior", "statement": "As the number of updates grows, the distribution of the values Gibbs feeds converges to the posterior whatever was fed first, and the average over the rows of an Empirical converges to the posterior expectation almost surely.", "quantifier": "all models, data, scan orders, starting values, bounded functions and sequences of independent draws", "why_tests_cant": "a limit over the number of iterations and a statement about almost all draws; tests check the mean of a single latent variable with a tolerance", "anchors": ["edward/inferences/gibbs.py: Gibbs.update, Gibbs.build_update", "edward/models/empirical.py: Empirical._mean"]}
{"id": "C117", "title": "SGLD samples approximate a normal posterior", "statement": "When the posterior is normal, the distribution of the samples of SGLD converges to the posterior whatever row the Empirical starts with, and averages over the stored rows (such as qz.mean()) converge to posterior expectations.", "quantifier": "all dimensions, means, precision matrices, step sizes, starting rows, functions that vary at most quadratically, and sequences of independent normal draws", "why_tests_cant": "a limit over the number of iterations; tests run one chain with a tolerance", "anchors": ["edward/inferences/sgld.py: SGLD.build_update", "edward/inferences/monte_carlo.py: MonteCarlo.update", "edward/models/empirical.py: Empirical._mean"]}
{"id": "C118", "title": "SGHMC samples approximate a normal posterior", "statement": "When the posterior is normal, the samples of SGHMC settle to a distribution whose error goes to zero with the learning rate, as the docstring of build_update says.", "quantifier": "all dimensions, means, precision matrices, step sizes, frictions, starting rows and velocities, bounded continuous functions, and sequences of independent normal draws", "why_tests_cant": "a limit over the number of iterations and over step sizes; tests run one chain with a tolerance", "anchors": ["edward/inferences/sghmc.py: SGHMC.build_update", "edward/inferences/monte_carlo.py: MonteCarlo.update"]}
{"id": "C119", "title": "Metropolis-Hastings converges when every state can be proposed from every other", "statement": "When every state of positive density can be proposed from every other, the distribution of the last MetropolisHastings sample converges to the posterior, and qz.mean(), like the average of any function with a posterior expectation, converges to the posterior expectation almost surely.", "quantifier": "all models, data, proposal densities positive between states of positive density (random walks included), starting points of positive density, or of density zero from which states of positive density can be proposed, functions with a posterior expectation (unbounded ones included) and sequences of independent draws", "why_tests_cant": "a limit over the number of iterations and a statement about almost all draws and all models; tests check a few moments with a tolerance", "anchors": ["edward/inferences/metropolis_hastings.py: MetropolisHastings.build_update", "edward/inferences/monte_carlo.py: MonteCarlo.update", "edward/models/empirical.py: Empirical._mean"]}
{"id": "C120", "title": "Gibbs sampling converges when the joint density is positive", "statement": "When the joint density is positive everywhere and the proposals are its complete conditionals, the distribution of the values Gibbs feeds converges to the posterior whatever was fed first, the distribution of a stored sample of a latent variable converges to its posterior, and qz.mean(), like the average of any function of a latent variable with a posterior expectation, converges to the posterior expectation almost surely.", "quantifier": "all models with positive joint density, data, scan orders (fixed or random) listing every variable singly, starting values, functions of a latent variable with a posterior expectation (unbounded ones included) and sequences of independent draws", "why_tests_cant": "a limit over the number of iterations and a statement about almost all draws and all models; tests check the mean of a single latent variable with a tolerance", "anchors": ["edward/inferences/gibbs.py: Gibbs.update, Gibbs.build_update", "edward/inferences/monte_carlo.py: MonteCarlo.initialize", "edward/models/empirical.py: Empirical._mean"]}
{"id": "C121", "title": "HMC converges when the end point of the integrator spreads the momentum", "statement": "When the position the leapfrog integrator ends at covers, as the momentum varies, the same sets of positive volume as the momentum, the distribution of the last HMC sample converges to the posterior, and qz.mean(), like the average of any function with a posterior expectation, converges to the posterior expectation almost surely. The condition holds for gradients with a Lipschitz constant L (in any norm) when n_steps is 1, when n_steps is 2 and step_size squared times L is less than 2, and when (n_steps * step_size) squared times L is at most 3. The condition cannot be dropped: on the mean of N normal observations the default settings converge if and only if N is not 31; with 31 observations all samples are the starting point and its mirror image.", "quantifier": "all joint densities, data, gradient functions, step sizes and numbers of steps meeting the condition, starting points of positive density, functions with a posterior expectation (unbounded ones included) and sequences of independent draws; the default settings on N observations: all N, data, starting points and bounded functions", "why_tests_cant": "a limit over the number of iterations and a statement about almost all draws and all models; tests check a few moments with a tolerance, and an exact coincidence of step size and curvature is not met by a few models", "anchors": ["edward/inferences/hmc.py: HMC.initialize, HMC.build_update, leapfrog", "edward/inferences/monte_carlo.py: MonteCarlo.update", "edward/models/empirical.py: Empirical._mean"]}
{"id": "C122", "title": "Replica exchange converges to the posterior", "statement": "When every state of positive density can be proposed from every other and proposals are symmetric, the joint distribution of the replicas of ed.ReplicaExchangeMC converges to that of independent draws, one from each tempered posterior, and qz.mean(), like the average of any function with a posterior expectation, converges to the posterior expectation almost surely. What qz.params held before does not matter: the replicas start at zero, and converge even when zero has density zero, as long as states of positive density can be proposed from there.", "quantifier": "all models, data, numbers of replicas, positive inverse temperatures with proper tempered posteriors, exchange frequencies, symmetric proposal densities positive between states of positive density, functions with a posterior expectation (unbounded ones included), initial contents of qz and sequences of independent draws", "why_tests_cant": "a limit over the number of iterations and a statement about almost all draws and all models; tests check a few moments with a tolerance", "anchors": ["edward/inferences/replica_exchange_mc.py: ReplicaExchangeMC.__init__", "edward/inferences/replica_exchange_mc.py: ReplicaExchangeMC.build_update", "edward/inferences/replica_exchange_mc.py: _mh_sample, _replica_exchange", "edward/inferences/monte_carlo.py: MonteCarlo.update", "edward/models/empirical.py: Empirical._mean"]}
{"id": "C123", "title": "Inference from a list of latent variables", "statement": "An inference algorithm given a list of latent variables makes an approximation for each. KLqp (all variants) and KLpq accept the list when all variables are continuous, and after initialize every approximation covers exactly the interior of its variable's support and has its shape. Monte Carlo algorithms accept every list, with 10000 rows of zeros each, so that run performs 10000 updates of a chain starting at zero. Laplace accepts lists of variables with a continuous support.", "quantifier": "all lists of latent variables, of all supports, shapes, sample shapes and dtypes", "why_tests_cant": "acceptance depends on the combination of support, sample shape, rank and dtype; tests use a list of one float32 variable or none at all", "anchors": ["edward/inferences/klqp.py: KLqp.__init__", "edward/inferences/klpq.py: KLpq.__init__", "edward/inferences/monte_carlo.py: MonteCarlo.__init__", "edward/inferences/laplace.py: Laplace.__init__", "edward/util/random_variables.py: check_latent_vars"]}
{"id": "C124", "title": "Variational inference by gradient descent converges", "statement": "With optimizer='gradientdescent' or a tf.train.GradientDescentOptimizer, from every starting point, almost surely, the divergence from the approximation to the posterior converges along the updates of KLqp and its gradient comes as close to zero as one likes; when the divergence is strongly convex in the parameters, the parameters converge to those of the best approximation.", "quantifier": "all models and approximations, reparameterised or with score functions, with a Lipschitz gradient whose mean square grows at most like the divergence, starting points, n_samples and sequences of independent draws; learning rates with infinite sum and finite sum of squares", "why_tests_cant": "almost sure limits over infinitely many updates; tests run a few hundred updates of a conjugate model and compare with a tolerance", "anchors": ["edward/inferences/variational_inference.py: VariationalInference.initialize, VariationalInference.update", "edward/inferences/klqp.py: build_reparam_loss_and_gradients", "edward/inferences/klqp.py: build_score_loss_and_gradients"]}
{"id": "C125", "title": "MAP by gradient descent climbs to the mode", "statement": "MAP with optimizer='gradientdescent' never lowers the log joint density, its gradient tends to zero along the updates, and when the density is strongly log-concave the point masses converge to the mode of the posterior from every starting point.", "quantifier": "all models and parameterisations of the point masses with a log density that is bounded above and has a Lipschitz gradient; all starting points; numbers of updates without bound", "why_tests_cant": "limits over infinitely many updates and a threshold in the amount of data; tests fit 50 observations with Adam and compare with a tolerance", "anchors": ["edward/inferences/map.py: MAP.build_loss_and_gradients", "edward/inferences/variational_inference.py: VariationalInference.initialize, VariationalInference.update"]}
{"id": "C126", "title": "The named optimisers bring MAP to the mode", "statement": "MAP with optimizer='adagrad', 'momentum', 'rmsprop', 'ftrl' or 'adadelta' brings the log joint density to a limit and its gradient to zero, and for the mean of normal data the point mass to the mode, from every starting point and whatever the scale of the density.", "quantifier": "all models and parameterisations of the point masses with a log density that is bounded above and has a Lipschitz gradient; all starting points and amounts of data; numbers of updates without bound", "why_tests_cant": "limits over infinitely many updates; tests run one optimiser on one small data set", "anchors": ["edward/inferences/variational_inference.py: VariationalInference.initialize", "edward/inferences/map.py: MAP.build_loss_and_gradients"]}
{"id": "C127", "title": "Arguments of run take effect", "statement": "For every inference class, run(*args, **kwargs) and initialize(*args, **kwargs) accept exactly the documented parameters, each at most once, and raise TypeError otherwise; every positional argument, keyword and default reaches the parameter it belongs to.", "quantifier": "all 22 classes that can be instantiated; all lists of positional arguments and keyword dictionaries, of any length and with any values", "why_tests_cant": "the combinations of arguments across three or four levels of super().initialize are unbounded; tests use a handful of keyword calls and do not look at arguments that are ignored", "anchors": ["edward/inferences/inference.py: Inference.run", "edward/inferences/inference.py: Inference.initialize", "edward/inferences/variational_inference.py: VariationalInference.initialize", "edward/inferences/monte_carlo.py: MonteCarlo.initialize", "edward/inferences/gan_inference.py: GANInference.initialize", "edward/inferences/klqp.py: KLqp.initialize", "edward/inferences/gibbs.py: Gibbs.initialize", "edward/inferences/hmc.py: HMC.initialize"]}
{"id": "C128", "title": "Seeds make programs reproducible and operations independent", "statement": "set_seed seeds NumPy and TensorFlow or raises and changes nothing. After set_seed on a new graph a program builds the same seeds whatever happened before, and no two random operations, copies made by copy included, are given the same seeds.", "quantifier": "all seeds; all programs of any length that build operations, random operations with or without a seed, copies and seeds, up to 2^31 - 1 operations", "why_tests_cant": "seeds depend on the number of operations created so far, in any order of commands; tests look at one or two programs with one seed", "anchors": ["edward/util/graphs.py: set_seed", "edward/util/random_variables.py: copy"]}
{"id": "C129", "title": "dot multiplies vectors and matrices", "statement": "dot(x, y) of an M-vector and an M x N matrix is the N-vector of products with the columns, and of a matrix and a vector the vector of products with the rows, with the documented shapes; it raises ValueError exactly when the shapes do not fit, and InvalidArgumentError exactly when an entry is Inf or NaN.", "quantifier": "all dimensions, zero included; all real entries; all pairs of tensors of rank up to two with finite or other entries", "why_tests_cant": "dimensions and entries are unbounded; the test uses one square diagonal matrix, for which all readings of the documentation agree", "anchors": ["edward/util/tensorflow.py: dot"]}
{"id": "C130", "title": "Shapes of Empirical and PointMass agree", "statement": "Samples of Empirical and PointMass have the sample shape followed by the event shape, statically and dynamically; the number of points is that of the rows of the parameters, one for a scalar; moments have the shape of an event; param_shapes(s) is the shape of parameters whose samples have shape s.", "quantifier": "all parameters of any rank with known, partly known or unknown static shape; all sample shapes", "why_tests_cant": "ranks, dimensions and what is known of them at construction are unbounded; tests use a few fully known shapes and never moments of scalars, unknown ranks or param_shapes", "anchors": ["edward/models/empirical.py: distributions_Empirical", "edward/models/point_mass.py: distributions_PointMass"]}
{"id": "C131", "title": "Expressions with random variables mean expressions of their samples", "statement": "A Python expression of random variables, tensors, numbers and arrays builds a tensor exactly if its operands have matching dtypes, and raises ValueError or TypeError otherwise; in a session it has the value of the expression at one sample per random variable, or the value fed for it, with the operands in the order written. == compares identity and random variables have no truth value.", "quantifier": "all expressions of any depth with binary, reflected, comparison and unary operators; all classes and subclasses of random variables; all dtypes, samples, fed values and meanings of operations", "why_tests_cant": "expressions nest without bound and Python chooses between methods of both operands; tests apply single operators to one class", "anchors": ["edward/models/random_variable.py: RandomVariable._overload_operator", "edward/models/random_variable.py: RandomVariable._tensor_conversion_function", "edward/models/random_variable.py: RandomVariable._session_run_conversion_fetch_function", "edward/models/random_variable.py: RandomVariable._session_run_conversion_feed_function", "edward/models/random_variable.py: RandomVariable.__eq__", "edward/models/random_variable.py: RandomVariable.__bool__"]}
{"id": "C132", "title": "random_variables returns the random variables of a graph", "statement": "random_variables(graph) returns the random variables built in the graph so far, in order; the result stays the same afterwards, changing it has no effect on later results, and loops over it visit the variables there were and end.", "quantifier": "all programs of any length over any number of graphs that build variables, call random_variables and change results; all loops over a result, whatever each pass builds", "why_tests_cant": "the returned list is shared with the registry, so results depend on all later commands, and a loop may not end; tests compare one result right after the call", "anchors": ["edward/util/graphs.py: random_variables", "edward/models/random_variable.py: RandomVariable.__init__"]}
{"id": "C133", "title": "Training on batches with scale N/M estimates the objective of all data", "statement": "If placeholders are fed batches in which every data point has the same share, and scale is N/M for the variables of the plate, the losses and gradients of the batches average to those of all data, and gradient descent on random batches approaches the posterior given all data; the generator of batches in the examples gives such batches; the reported losses of an epoch sum to the loss of the data set.", "quantifier": "all models with variables inside and outside the plate, all numbers of data points, batch sizes, families of batches with equal shares (with or without replacement, by turns), draws, numbers of samples and parameters", "why_tests_cant": "an average over all batches of all sizes, and a limit over infinitely many random updates; tests run a few updates and compare with loose tolerances", "anchors": ["docs/tex/api/inference-data-subsampling.tex", "docs/tex/tutorials/batch-training.tex", "edward/inferences/inference.py: Inference.initialize", "edward/inferences/klqp.py: build_reparam_loss_and_gradients", "edward/inferences/klqp.py: build_score_loss_and_gradients", "edward/inferences/map.py: MAP.build_loss_and_gradients", "edward/inferences/sgld.py: SGLD._log_joint", "examples/bayesian_linear_regression_implicitklqp.py: generator"]}
{"id": "C134", "title": "Composed inferences minimise one common objective", "statement": "Inferences of two blocks of latent variables, each with the other block bound to its approximation in data, have the divergence of the whole approximation from the posterior as expected loss, up to the entropy of the other block, so that updates in any order that do not raise the loss of the inference they belong to lower that divergence; likewise variational EM lowers one free energy, and with an exact E-step each M-step raises the density of the point and the data.", "quantifier": "all models, splits into two blocks, densities, reference measures, parameters, numbers of samples and infinite schedules of updates", "why_tests_cant": "expectations over all draws and infinite schedules; tests only check that an inference with random data runs", "anchors": ["docs/tex/api/inference-compositionality.tex", "edward/inferences/klqp.py: build_reparam_loss_and_gradients", "edward/inferences/klqp.py: build_score_loss_and_gradients", "edward/inferences/map.py: MAP.build_loss_and_gradients", "edward/inferences/klpq.py: KLpq.build_loss_and_gradients", "examples/probabilistic_pca_subsampling.py: main"]}
{"id": "C135", "title": "Variables trained by default", "statement": "If var_list is not given, an inference trains exactly the trainable variables which the latent variables, their approximations, or the random variables bound to data that is not random, depend on, each once; the parameters of an approximation that appears only as a value in data are not trained.", "quantifier": "all graphs, names, orders of traversal and of the set, latent variables, data and trainable variables", "why_tests_cant": "graphs and traversal orders are unbounded; tests use one graph each", "anchors": ["edward/inferences/variational_inference.py: VariationalInference.initialize", "edward/util/random_variables.py: get_variables", "edward/inferences/gan_inference.py: GANInference.build_loss_and_gradients", "edward/inferences/bigan_inference.py: BiGANInference.build_loss_and_gradients"]}
{"id": "C136", "title": "ImplicitKLqp follows the gradient of its documented objective", "statement": "If the discriminator of ed.ImplicitKLqp is the best one for the current parameters, then the expected gradient of a run is the gradient of the documented objective, for the parameters of the approximations and for those of the model.", "quantifier": "all models, approximations with or without global variables and inference networks, noise laws, data, scales and parameter values", "why_tests_cant": "an expectation over all draws at the minimiser of another expectation over all functions", "anchors": ["edward/inferences/implicit_klqp.py: ImplicitKLqp.build_loss_and_gradients", "edward/inferences/implicit_klqp.py: log_loss"]}
{"id": "C137", "title": "More samples and Rao-Blackwellisation make KLqp less noisy", "statement": "With n_samples=n the loss and the gradient of every KLqp variant vary n times less than with one sample, and the Rao-Blackwellised gradient of ed.KLqp varies no more than the plain score function gradient.", "quantifier": "all models, approximations with independent factors, directions, draws with finite second moments and n_samples", "why_tests_cant": "a statement on variances over all draws; the mean of the estimates is right in every variant", "anchors": ["edward/inferences/klqp.py: build_score_rb_loss_and_gradients", "edward/inferences/klqp.py: build_score_loss_and_gradients", "edward/inferences/klqp.py: build_reparam_loss_and_gradients"]}
{"id": "C138", "title": "debug and logdir only observe", "statement": "Passing debug=True or logdir to an inference does not change the values that its updates compute nor the data they are trained on, and a summary shows the loss and gradients of the update it is written for.", "quantifier": "all training ops, sources with a state (random operations, queue readers), n_print, numbers of updates and starting values", "why_tests_cant": "needs two runs compared element by element, or the laws of two runs; the difference is in which elements were taken before", "anchors": ["edward/inferences/variational_inference.py: VariationalInference.update", "edward/inferences/monte_carlo.py: MonteCarlo.update", "edward/inferences/inference.py: Inference.update"]}
{"id": "C139", "title": "A ParamMixture in inference stands for the mixture", "statement": "Used as an approximation in ed.KLqp, a ParamMixture is fitted, weights included, by the documented objective E_q[log q - log p] of the mixture; bound to data in KLqp or MAP, its likelihood is that of the mixture, or given the values inferred for the parameters of its components and for its `cat`.", "quantifier": "all numbers of components, weights, component densities, models, data, n_samples and draws", "why_tests_cant": "tests check shapes and moments of ParamMixture and never infer with it; losses do decrease", "anchors": ["edward/models/param_mixture.py: distributions_ParamMixture._log_prob", "edward/models/param_mixture.py: distributions_ParamMixture._sample_n", "edward/inferences/klqp.py: build_reparam_loss_and_gradients", "edward/inferences/map.py: MAP.build_loss_and_gradients"]}
{"id": "C140", "title": "copy replaces nodes in every argument", "statement": "ed.copy(rv, dict_swap) constructs the new random variable from arguments in which every node is replaced by its copy or by its value in dict_swap, however the argument is passed.", "quantifier": "all random variables, positional and keyword arguments that are nodes, lists or dicts of nodes, and dictionaries", "why_tests_cant": "tests pass the components of Mixture by keyword only and never copy a ParamMixture", "anchors": ["edward/util/random_variables.py: copy", "edward/util/random_variables.py: _copy_default", "edward/models/param_mixture.py: distributions_ParamMixture.__init__"]}
{"id": "C141", "title": "Every KLqp class fits the approximations it accepts", "statement": "Each class in klqp.py either raises an error for the approximations it is given or trains them by an unbiased gradient of E_q[log q - log p].", "quantifier": "all classes, n_samples, kl_scaling, models, differentiable families of approximations with finitely many values and draws", "why_tests_cant": "the loss of the wrong class is an unbiased estimate and its values look right; only the mean of the gradient is off", "anchors": ["edward/inferences/klqp.py: ReparameterizationKLqp", "edward/inferences/klqp.py: ReparameterizationKLKLqp", "edward/inferences/klqp.py: ReparameterizationEntropyKLqp", "edward/inferences/klqp.py: KLqp.build_loss_and_gradients"]}
{"id": "C142", "title": "Random variables that are not inferred are integrated out", "statement": "If the model has random variables that are neither in latent_vars nor in data, inference targets the posterior of the latent variables with the others integrated out.", "quantifier": "all models with finitely many values of the latent and of the other variables, laws, n_samples, regularization losses", "why_tests_cant": "the run is normal and each sampled term is a correct log density; only the target is another distribution", "anchors": ["edward/util/random_variables.py: copy", "edward/inferences/klqp.py: build_reparam_loss_and_gradients", "edward/inferences/map.py: MAP.build_loss_and_gradients", "edward/inferences/metropolis_hastings.py: MetropolisHastings.build_update"]}
{"id": "C143", "title": "Conditional inference", "statement": "If data binds a random variable beta of the model to another random variable qbeta, inference on the other latent variables z behaves as documented: KLqp averages log p(x, z, beta) over draws of qbeta; MAP maximises a lower bound of log p(x, z) that is exact if qbeta is the posterior of beta; with many samples KLpq fits the posterior of z if qbeta is the posterior of beta; MetropolisHastings, HMC, SGLD and SGHMC are asymptotically exact if qbeta is the posterior of beta.", "quantifier": "all models, laws of qbeta, n_samples, regularization losses; MetropolisHastings on arbitrary measurable spaces, the others with finitely many values of beta", "why_tests_cant": "each draw gives the right log density; the claims concern averages over draws of qbeta and the limit of the chain", "anchors": ["edward/inferences/map.py: MAP", "edward/inferences/metropolis_hastings.py: MetropolisHastings", "edward/inferences/hmc.py: HMC", "edward/inferences/sgld.py: SGLD", "edward/inferences/sghmc.py: SGHMC", "edward/inferences/klqp.py: KLqp", "edward/inferences/klpq.py: KLpq"]}
{"id": "C144", "title": "A ParamMixture is built from arguments that fit together", "statement": "ParamMixture(mixing_weights, component_params, component_dist) with validate_args=True is built exactly if component_params is a dict, component_dist a RandomVariable class, the last axis of the weights as long as the first batch axis of the components and the other axes agree; otherwise TypeError is raised, or NotImplementedError if the number of components is not known. With or without validate_args, the value of a mixture that is built is the value of the component that cat names.", "quantifier": "all static shapes of any rank, partly or fully unknown; all values of cat and of the components, batch and event shapes of any rank", "why_tests_cant": "tests build mixtures with shapes that fit; broadcasting makes other shapes work by accident, with values of the right shape", "anchors": ["edward/models/param_mixture.py: ParamMixture.__init__, ParamMixture._sample_n"]}
{"id": "C145", "title": "logdir writes the summaries it promises", "statement": "With logdir, an inference logs every variable in log_vars under its own name, as a scalar if its shape is scalar and as a histogram otherwise; if log_vars is None it logs all variables, each once, and if it is [] none. No two summaries share a tag. initialize accepts with logdir what it accepts without, and summaries are written at the first update and every n_print updates.", "quantifier": "all graphs, traversal orders, names, shapes (partly or fully unknown), lists of variables, gradients, n_print and numbers of updates", "why_tests_cant": "no test passes logdir to a model with variables of unknown shape or without gradient; the set of variables depends on graphs and orders without bound", "anchors": ["edward/inferences/inference.py: Inference._set_log_variables", "edward/inferences/variational_inference.py: VariationalInference.initialize", "edward/inferences/monte_carlo.py: MonteCarlo.initialize", "edward/util/random_variables.py: get_variables"]}
{"id": "C146", "title": "ImplicitKLqp uses its arguments as documented", "statement": "ed.ImplicitKLqp(latent_vars, data, discriminator, global_vars) is built exactly from a callable discriminator and dictionaries of matching shapes and dtypes, and initialize accepts exactly callables, 'log' and 'hinge' as ratio_loss. global_vars says which latent variables are global: every variable of latent_vars is used once in the loss, with the approximation that auto_transform makes for it. Each data variable's log ratio enters the loss with the scale it is bound to, or 1.", "quantifier": "all collections of latent and global variables, supports, approximations, scales and discriminator outputs, auto_transform on or off", "why_tests_cant": "all combinations of two dictionaries, supports and scales; the test uses one local variable, no data and no scales", "anchors": ["edward/inferences/implicit_klqp.py: ImplicitKLqp.__init__", "edward/inferences/implicit_klqp.py: ImplicitKLqp.initialize", "edward/inferences/implicit_klqp.py: ImplicitKLqp.build_loss_and_gradients", "edward/inferences/inference.py: Inference.initialize"]}
