"""Writes /verif/properties.jsonl. One P(...) call per property."""
import json, os
out = []
def P(id, title, statement, quantifier, why, anchors):
    out.append(dict(id=id, title=title, statement=statement, quantifier=quantifier, why_tests_cant=why, anchors=anchors))

P("C01", "soft_thresholding is the exact proximal map of the l1 norm",
  "For every real array a of any size and every lamda >= 0, the array returned by soft_thresholding(a, lamda) is the one and only minimiser x of lamda*sum|x| + 1/2*sum (x-a)^2.",
  "all finite index sets, all real arrays a, all lamda >= 0, all competitors x",
  "Minimality compares the result with a continuum of competitors; a test can only try finitely many inputs and competitors.",
  ["regain/prox.py:soft_thresholding"])
P("C02", "soft_thresholding shrinks, keeps signs, is odd, and never expands distances",
  "Entrywise: an output entry is zero exactly when |entry| <= lamda, otherwise it has the input's sign and magnitude |entry| - lamda; the map is odd, and |out(a)-out(b)| <= |a-b| for any two inputs. For lamda < 0 the sign rule breaks only through enlarging magnitudes, zero stays zero.",
  "all reals a, b, all lamda >= 0 (and the lamda < 0 branch separately)",
  "Statement over all pairs of reals including ties at the threshold.",
  ["regain/prox.py:soft_thresholding"])
P("C03", "soft_thresholding_off_diagonal is the exact proximal map of the off-diagonal l1 norm",
  "The result keeps the diagonal of a untouched, keeps symmetric matrices symmetric, and is the unique minimiser of lamda*l1_od_norm(X) + 1/2*||X-a||_F^2.",
  "all n, all n x n real matrices, all lamda >= 0, all competitors X",
  "Minimality over a continuum of matrices of unbounded size.",
  ["regain/prox.py:soft_thresholding_off_diagonal", "regain/norm.py:l1_od_norm", "regain/math.py:fill_diagonal", "regain/math.py:get_diagonal"])
P("C04", "blockwise_soft_thresholding is the exact column-group proximal map and never produces NaN",
  "For every matrix and every lamda >= 0, blockwise_soft_thresholding(a, lamda) consists of finite numbers and is the unique minimiser of lamda*sum_j ||X[:,j]||_2 + 1/2*||X-a||_F^2.",
  "all shapes, all real matrices including those with zero columns, all lamda >= 0",
  "Zero columns meet 0/0 only when lamda = 0; the minimality claim ranges over all competitors.",
  ["regain/prox.py:soft_thresholding_vector", "regain/prox.py:blockwise_soft_thresholding"])
P("C05", "blockwise_soft_thresholding_symmetric agrees with the column-group proximal map",
  "For every real square matrix and every lamda >= 0, blockwise_soft_thresholding_symmetric(a, lamda) equals the column-group proximal map of a and contains no NaN.",
  "all n x n real matrices, including matrices with zero columns, all lamda >= 0",
  "The failure needs an exactly zero column, which random test data never has.",
  ["regain/prox.py:blockwise_soft_thresholding_symmetric", "regain/math.py:create_from_diagonal"])
P("C06", "prox_logdet returns the unique positive definite minimiser of its subproblem",
  "For every symmetric matrix A and lamda > 0, prox_logdet(A, lamda) is symmetric positive definite, solves A - X^{-1} + X/lamda = 0, and is the unique minimiser of tr(A X) - logdet X + ||X||_F^2/(2 lamda) over symmetric positive definite X, whichever orthonormal eigenbasis the eigensolver returns.",
  "all n, all symmetric A (singular and indefinite included), all lamda > 0, every valid eigendecomposition, all PD competitors",
  "Ranges over all eigen-decompositions and all PD matrices.",
  ["regain/prox.py:prox_logdet"])
P("C07", "prox_trace_indicator returns the unique PSD minimiser of trace-regularised projection",
  "For every symmetric A and every lamda, prox_trace_indicator(A, lamda) is symmetric positive semidefinite and is the unique minimiser of lamda*tr X + 1/2||X-A||_F^2 over PSD X, whichever eigenbasis is returned.",
  "all n, all symmetric A, all real lamda, every valid eigendecomposition, all PSD competitors",
  "Ranges over all eigen-decompositions (degenerate eigenvalues included) and competitors.",
  ["regain/prox.py:prox_trace_indicator"])
P("C08", "prox_laplacian is the exact proximal map of the squared Frobenius norm",
  "For lamda >= 0, prox_laplacian(a, lamda) is the unique minimiser of lamda*||x||^2 + 1/2||x-a||^2, and it is linear, odd and a contraction.",
  "all finite arrays, all lamda >= 0",
  "Minimality over all competitors.",
  ["regain/prox.py:prox_laplacian"])
P("C09", "prox_logdet_ala_ma and prox_logdet solve the same family of subproblems",
  "For symmetric A and lamda > 0, prox_logdet_ala_ma(A, lamda) is the unique PD minimiser of 1/2||X + A||_F^2 - lamda*logdet X, and prox_logdet(A, lamda) = prox_logdet_ala_ma(lamda*A, lamda).",
  "all n, all symmetric A, all lamda > 0",
  "Identity between two spectral functions for all spectra.",
  ["regain/prox.py:prox_logdet_ala_ma", "regain/prox.py:prox_logdet"])
P("C10", "the fused-lasso proximal map (TV step, then soft-thresholding) is exact off the diagonal",
  "If the external TV solver returns the exact minimiser y of beta*sum|y_{t+1}-y_t| + 1/2||y-a||^2, then prox_FL's off-diagonal output (soft-thresholding of y by lamda) is the minimiser of beta*TV(x) + lamda*sum|x| + 1/2||x-a||^2 for each off-diagonal entry's time series, and the diagonal series is the plain TV minimiser.",
  "all series lengths, all real series, all beta, lamda >= 0",
  "The order of the two proximal steps matters in general; only a proof shows the composition is exact for every series.",
  ["regain/prox.py:prox_FL"])
P("C11", "update_rho balances residuals, keeps the penalty positive and changes it by bounded factors",
  "With the default options and any non-negative residuals, a positive rho stays positive; it is doubled exactly when rnorm > 10*snorm, halved exactly when snorm > 10*rnorm and otherwise unchanged; the two branches never both apply, so over k calls rho stays within [rho/2^k, rho*2^k].",
  "all rho > 0, all rnorm, snorm >= 0, all sequences of calls",
  "A statement about every history of residual pairs.",
  ["regain/update_rules.py:update_rho"])
P("C12", "changing the ADMM penalty leaves the unscaled dual variables unchanged",
  "Whenever a solver changes rho to rho_new and rescales its dual U by rho/rho_new, the product rho*U (the true dual variable) is unchanged, at every iteration of every run, as long as rho stays nonzero.",
  "all runs, all residual histories, all dual matrices",
  "Invariant over every iteration of every history.",
  ["regain/covariance/graphical_lasso_.py:graphical_lasso", "regain/update_rules.py:update_rho"])
P("C13", "update_gamma never drops below its floor and never increases the step",
  "For gamma >= eps, the new gamma lies between eps and gamma, halving (down to the floor) exactly on iterations divisible by 20; from any starting gamma the result is >= eps.",
  "all gamma, eps > 0, all iteration indices, all call histories",
  "History-quantified bound.",
  ["regain/update_rules.py:update_gamma"])
P("C14", "graphical_lasso reports the number of iterations it performed and warns exactly when it did not converge",
  "A call with max_iter = m performs between 1 and m iterations, stops at the first iteration whose residuals satisfy both tolerances, warns exactly if no iteration did, and (return_n_iter=True) returns the number of iterations performed.",
  "all inputs, all m >= 0, every sequence of residuals",
  "Quantifies over all executions of the loop, including max_iter = 0 and convergence on the last allowed iteration.",
  ["regain/covariance/graphical_lasso_.py:graphical_lasso"])
P("C15", "graphical_lasso iterates stay symmetric and the primal iterate positive definite",
  "With symmetric emp_cov and a symmetric start, after any number of iterations and any penalty updates the returned precision is symmetric, and the log-det iterate is positive definite at every iteration.",
  "all n, all symmetric inputs, all rho > 0, all iteration counts",
  "Invariant over unboundedly many iterations.",
  ["regain/covariance/graphical_lasso_.py:graphical_lasso"])
P("C16", "a stationary state of graphical_lasso is the global optimum of the graphical lasso problem",
  "With over_relax = 1, if one iteration leaves the state (Z, U) unchanged then Z is symmetric positive definite and is the unique minimiser over PD matrices of -logdet X + tr(S X) + alpha*||X||_{1,od}; conversely the optimum yields a stationary state.",
  "all n, all symmetric S, alpha >= 0, rho > 0",
  "Global optimality over a continuum.",
  ["regain/covariance/graphical_lasso_.py:graphical_lasso", "regain/covariance/graphical_lasso_.py:objective"])
P("C17", "over-relaxation does not change the solution graphical_lasso converges to",
  "For every over_relax in (0,2), a stationary state of graphical_lasso is the optimum of the same problem.",
  "all over_relax, all inputs",
  "Tests only exercise the default over_relax = 1.",
  ["regain/covariance/graphical_lasso_.py:graphical_lasso"])
P("C18", "graphical_lasso with a constant penalty converges from every start",
  "With over_relax = 1 and rho kept constant, for every symmetric S and start for which an optimum exists, the distance of (Z, U) to the optimum never increases, both residuals tend to 0, hence with tol > 0 and max_iter large enough the call stops without a convergence warning.",
  "all n, all S, alpha, rho > 0, all starts, all tol > 0",
  "Termination and convergence quantify over unbounded executions.",
  ["regain/covariance/graphical_lasso_.py:graphical_lasso"])
P("C19", "latent_ returned by latent_graphical_lasso is symmetric PSD after any number of iterations",
  "latent_ is symmetric positive semidefinite whatever the data, tolerances and number of iterations, so get_precision() = precision_ - latent_ only subtracts a PSD matrix.",
  "all inputs, all iteration counts >= 1",
  "Invariant for all executions, including runs cut by max_iter.",
  ["regain/covariance/latent_graphical_lasso_.py:latent_graphical_lasso", "regain/covariance/latent_graphical_lasso_.py:LatentGraphicalLasso.get_precision"])
P("C20", "a stationary state of latent_graphical_lasso solves the documented sparse + low-rank problem",
  "If an iteration leaves (K, L, U) unchanged, then R = K - L is PD, L is PSD and (K, L) minimises -logdet(K-L) + tr(S(K-L)) + alpha*||K||_{1,od} + tau*tr(L) over K - L PD, L PSD, as in the documentation and objective function.",
  "all n, all symmetric S, alpha, tau >= 0, rho > 0",
  "Global optimality; the code soft-thresholds the diagonal as well, which needs a proof or a counterexample to judge.",
  ["regain/covariance/latent_graphical_lasso_.py:latent_graphical_lasso", "regain/covariance/latent_graphical_lasso_.py:objective"])
P("C21", "a stationary state of time_graphical_lasso solves the documented time-varying problem",
  "If an iteration of time_graphical_lasso leaves its state unchanged then K = Z_0 and the sequence minimises sum_t n_t*(tr(S_t K_t) - logdet K_t) + alpha*sum_t||K_t||_{1,od} + beta*sum_t psi(K_t - K_{t-1}).",
  "all numbers of time points T >= 1, all n, all symmetric S_t, all weights, all convex psi whose prox is used",
  "Global optimality over sequences of matrices of unbounded length.",
  ["regain/covariance/time_graphical_lasso_.py:time_graphical_lasso", "regain/covariance/time_graphical_lasso_.py:objective"])
P("C22", "the (Z_1, Z_2) consensus update is the exact joint proximal step",
  "Whenever prox(., lamda) is the proximal map of lamda*psi for every lamda >= 0, the pair Z_1 = (A_1+A_2-prox(A_2-A_1, 2 beta/rho))/2, Z_2 = (A_1+A_2+prox(...))/2 is the unique minimiser of beta*psi(Z_2-Z_1) + rho/2(||Z_1-A_1||^2+||Z_2-A_2||^2).",
  "all psi, all pairs of arrays, beta >= 0, rho > 0",
  "Holds for every temporal penalty at once.",
  ["regain/covariance/time_graphical_lasso_.py:time_graphical_lasso"])
P("C23", "time_graphical_lasso's history and iteration count are consistent",
  "With return_history the history has one entry more than the number of iterations performed, n_iter equals the number of iterations performed and lies in 1..max_iter, and the run stops early only at an iteration satisfying the stopping rule (residual tolerances or stop_at); otherwise it warns.",
  "all inputs, all residual/objective histories",
  "Quantifies over all executions of the loop.",
  ["regain/covariance/time_graphical_lasso_.py:time_graphical_lasso"])
P("C24", "check_norm_prox returns a penalty together with its own proximal map",
  "For every accepted name, the returned prox applied with parameter lamda to a matrix minimises lamda*norm(X) + 1/2||X-A||_F^2; any other name raises ValueError.",
  "all strings, all matrices, all lamda >= 0",
  "Pairs are compared as functions over all matrices.",
  ["regain/validation.py:check_norm_prox", "regain/prox.py:prox_laplacian", "regain/prox.py:blockwise_soft_thresholding"])
P("C25", "check_array_dimensions accepts exactly the documented shapes and never loses data",
  "Lists are returned unchanged; an array with one dimension too few gets a leading axis of length 1; any other wrong number of dimensions raises ValueError; time_on_axis='last' moves the last axis to the front so that out[t,i,j] = in[i,j,t].",
  "all arrays, all dimension counts",
  "All shapes.",
  ["regain/validation.py:check_array_dimensions", "regain/validation.py:check_input"])
P("C26", "init_precision never modifies the caller's covariance and returns a symmetric start",
  "init_precision leaves emp_cov unmodified for every mode; for 'zeros' the start is zero; a user matrix is returned as is.",
  "all matrices, all modes",
  "Aliasing holds or fails for all inputs.",
  ["regain/covariance/graphical_lasso_.py:init_precision"])
P("C27", "l1_od_norm is the sum of absolute off-diagonal entries",
  "l1_od_norm(A) = sum_{i != j} |A_ij|; it is non-negative, absolutely homogeneous, satisfies the triangle inequality, ignores the diagonal and is zero exactly for diagonal matrices.",
  "all n, all real matrices",
  "The code computes it as a difference of sums; equality must hold for all matrices.",
  ["regain/norm.py:l1_od_norm", "regain/norm.py:matrix_l1_norm", "regain/norm.py:l1_norm"])
P("C28", "error_norm is a squared distance restricted to the entries the caller selects",
  "With defaults, error_norm(A,B) >= 0, is symmetric, is 0 exactly when A = B, and squared=False returns the square root; with nonzero=True it measures the error on the entries where the reference is nonzero.",
  "all matrices, all flag combinations",
  "Metric laws quantify over all matrices; the selection flag needs a reference with zero entries.",
  ["regain/utils.py:error_norm", "regain/utils.py:error_norm_time"])
P("C29", "structure_error's confusion counts partition all entries and every rate lies in [0,1]",
  "For every pair of same-shape matrices, tp+fp+fn+tn equals the number of entries (minus the diagonal when no_diagonal), tp+fn is the number of true edges, every returned rate is in [0,1], precision+fdr = 1, npv+false_omission_rate = 1, recall+miss_rate = 1 and specificity+fall_out = 1; a call on a truth without edges is reported and not silently wrong.",
  "all n, all real matrices, both diagonal modes, thresholded or not",
  "Identities over all matrices including degenerate ones (no true edges, no predicted edges, complete graphs).",
  ["regain/utils.py:structure_error"])
P("C30", "mean_structure_error returns a summary for every non-empty list of predictions",
  "For every truth with at least one off-diagonal edge and every non-empty list of predictions mean_structure_error returns a dictionary of summaries.",
  "all inputs",
  "A universally failing call shows only if the function is exercised; the claim is about all inputs.",
  ["regain/utils.py:mean_structure_error"])
P("C31", "ensure_posdef makes every symmetric matrix positive definite and leaves PD matrices unchanged",
  "After ensure_posdef(X), X is symmetric positive definite for every symmetric real X; off-diagonal entries never change, and a PD input is left as it was; batches are treated matrix by matrix.",
  "all n, all symmetric matrices, all batch sizes",
  "Diagonal dominance argument for all matrices.",
  ["regain/utils.py:ensure_posdef", "regain/utils.py:is_pos_def", "regain/utils.py:positive_definite"])
P("C32", "threshold replaces exactly the out-of-range entries and is idempotent for an in-range newval",
  "threshold(a, lo, hi, newval) replaces exactly the entries < lo or > hi by newval and keeps all others; applying it twice changes nothing more when newval is itself in range; the input array is not modified.",
  "all arrays, all optional bounds, all newval",
  "All combinations of missing bounds and reversed bounds.",
  ["regain/utils.py:threshold"])
P("C33", "upper_to_full inverts taking the upper triangle",
  "For every symmetric n x n matrix, upper_to_full applied to its row-major upper triangle (diagonal included) gives the matrix back; the output is always symmetric and for a vector whose length is not triangular the call fails.",
  "all n, all symmetric matrices, all vector lengths",
  "Size recovery by a square root must be right for every n.",
  ["regain/utils.py:upper_to_full"])
P("C34", "convert_data_to_2d stacks samples losslessly with their labels",
  "For every list of equally sized per-class samples, X is the concatenation in order, y has the same length, and selecting rows of X with label i returns exactly the i-th block; the estimators' regrouping by label recovers the original data.",
  "all numbers of classes and samples",
  "Round trip over all block structures.",
  ["regain/utils.py:convert_data_to_2d", "regain/covariance/time_graphical_lasso_.py:TimeGraphicalLasso.fit"])
P("C35", "compose and flatten obey their laws",
  "compose(f1,...,fk)(x) = f1(...fk(x)), compose() is the identity, compose of concatenated argument lists is the composition; flatten returns the leaves of arbitrarily nested lists in order, is idempotent and distributes over concatenation.",
  "all function lists, all nested lists of any depth",
  "Unbounded nesting and unbounded argument lists.",
  ["regain/utils.py:compose", "regain/utils.py:flatten"])
P("C36", "load_pickle(f) after save_pickle(obj, f) returns obj",
  "For every file name, saving and then loading under the same name returns the object.",
  "all file names, all file-system states",
  "Only names lacking the extension fail, and the wrong file may be read.",
  ["regain/utils.py:save_pickle", "regain/utils.py:load_pickle", "regain/utils.py:_ensure_filename_ending"])
P("C37", "suppress_stdout always restores the previous stdout",
  "Whatever the body does (returns, raises, nests another suppress_stdout, reassigns sys.stdout), after the block sys.stdout is the object it was before.",
  "all bodies, all nestings, all exceptions",
  "Quantifies over all programs run inside the block.",
  ["regain/utils.py:suppress_stdout"])
P("C38", "retain_top_n keeps exactly n entries, all at least as large in magnitude as every dropped one",
  "For 1 <= n <= size, the result agrees with arr on n positions and is 0 elsewhere, and every kept |value| >= every dropped |value|, whichever order argpartition uses; n = 0 keeps nothing.",
  "all matrices, all n, every valid argpartition outcome",
  "Ties and every legal partition order.",
  ["regain/utils.py:retain_top_n", "regain/utils.py:top_n_indexes"])
P("C39", "BIC, EBIC and EBIC_m are penalised log-likelihoods that do not depend on the order of the variables",
  "For positive definite precisions the scores equal the Gaussian log-likelihood minus, per connected pair, 1 (BIC), (log n + 4 epsilon log p)/n (EBIC) or the same with log(p(p-1)/2) (EBIC_m); relabelling the variables changes no score; a larger epsilon never improves the score; BIC_t is the sum of the per-time BIC scores.",
  "all data sizes, all precision matrices, all epsilon, all permutations, all T",
  "Algebraic identities over all inputs.",
  ["regain/scores.py:BIC", "regain/scores.py:EBIC", "regain/scores.py:EBIC_m", "regain/scores.py:BIC_t", "regain/math.py:batch_logdet"])
P("C40", "build_adjacency_matrix returns a symmetric graph that treats both directions alike",
  "For 'union' the weight of an edge is the average of the two directed estimates (so swapping the direction does not matter) and an edge is present iff either estimate is nonzero; for 'intersection' it is present iff both are nonzero; the diagonal is 1.",
  "all n, all neighbourhood estimates, both rules",
  "The in-loop symmetrisation makes the weight depend on variable order; tests only look at shapes or support.",
  ["regain/generalized_linear_model/base.py:build_adjacency_matrix"])
P("C41", "the Ising gradient uses every sample",
  "_gradient_ising returns the gradient of the Ising pseudo-likelihood of all samples given.",
  "all sample sizes, all thetas",
  "Gradient identity over all inputs.",
  ["regain/generalized_linear_model/glm_ising.py:_gradient_ising", "regain/generalized_linear_model/glm_ising.py:loss"])
P("C42", "Poisson estimators reject data with negative entries",
  "fit on data with any negative entry raises an error.",
  "all data arrays",
  "Input validation over all arrays.",
  ["regain/generalized_linear_model/glm_time_poisson.py:TemporalPoissonModel.fit"])
P("C43", "backtracking in choose_gamma stops only at an admissible step",
  "choose_gamma returns gamma0*eps^k for some k <= max_iter; whenever one of the first max_iter trials is admissible (sufficient decrease, or positive definiteness) it returns the first such trial, and the returned point is the proximal point of the returned gamma.",
  "all functions, all criteria, all max_iter",
  "Loop over arbitrary oracle answers.",
  ["regain/forward_backward/forward_backward.py:choose_gamma"])
P("C44", "every documented choose option of tgl_forward_backward is usable",
  "choose in {'gamma','lamda','fixed','both'} runs; anything else raises ValueError.",
  "all choose strings, all inputs",
  "An option failing for all inputs.",
  ["regain/forward_backward/time_graphical_lasso_.py:tgl_forward_backward", "regain/forward_backward/forward_backward.py:choose_lamda"])
P("C45", "forward-backward steps keep every precision positive definite",
  "If all K_t and the proposals y_t are PD then K + clip(lamda,0,1)*(y-K) is PD, for any lamda.",
  "all lamda (also NaN-free out-of-range values), all T, all PD sequences",
  "Invariant over all iterations.",
  ["regain/forward_backward/time_graphical_lasso_.py:tgl_forward_backward"])
P("C46", "lasso's stationary states solve the lasso problem for every over-relaxation",
  "If one iteration leaves (z, u) unchanged then z minimises 1/2||Ax-b||^2 + lamda||x||_1, for every relaxation alpha and rho > 0; return value is z alone unless return_history.",
  "all data, all alpha, rho",
  "Global optimality; return shape for all calls.",
  ["regain/linear_model/lasso_.py:lasso"])
P("C47", "group_lasso accepts exactly the partitions of the features and monitors both residuals",
  "group_lasso raises ValueError exactly when groups is not a partition of range(n_features), its dual residual measures the change of z, and its group step is the group (l2) proximal map.",
  "all group lists, all histories",
  "All partitions; the aliasing bug is invisible in output values.",
  ["regain/linear_model/group_lasso_.py:group_lasso"])
P("C48", "the overlapping group average is the consensus mean",
  "For every cover of the features by groups, P_star_x_bar_function expands, for each group entry, the average over all groups containing that feature; D_function counts the groups containing each feature.",
  "all covers, all local copies",
  "All overlap patterns.",
  ["regain/linear_model/group_lasso_overlap_.py:D_function", "regain/linear_model/group_lasso_overlap_.py:P_star_x_bar_function"])
P("C49", "global_instability lies in [0, 1/2], is 0 exactly when all graphs agree, and ignores the order of estimators",
  "For non-empty lists of estimators on p >= 2 variables.",
  "all numbers of estimators, all p, all T",
  "All graph collections.",
  ["regain/model_selection/stability_optimization.py:global_instability"])
P("C50", "stability selection chooses a parameter whose instability is at most 0.05 when one exists",
  "In 'stars' mode, if at least one candidate has instability <= 0.05 in the monotonised sense, the selected candidate's own instability is <= 0.05 and the monotonised curve dominates the raw curve.",
  "all instability sequences",
  "All sequences of instabilities.",
  ["regain/model_selection/stability_optimization.py:GraphicalModelStabilitySelection._format_results"])
P("C51", "Metropolis-Hastings Ising samples only contain responses and honour constraints",
  "Every coordinate of every sample is one of the two responses or the imposed constraint, for every random stream; constrained coordinates never change.",
  "all graphs, all random streams, all iteration counts",
  "All random streams.",
  ["regain/datasets/ising.py:ising_metropolis_hastings"])
P("C52", "the Metropolis-Hastings and direct Ising samplers target the same distribution",
  "p_plus(i, ...) is the conditional probability of state i under the distribution proportional to exp(-beta*hamiltonian).",
  "all symmetric graphs, thresholds, states, beta",
  "Identity for all states.",
  ["regain/datasets/ising.py:hamiltonian", "regain/datasets/ising.py:p_plus"])
P("C53", "generated Ising/Poisson graphs stay symmetric with zero diagonal",
  "Starting from a symmetric zero-diagonal graph, update_ising_l1 and update_l1 return a symmetric graph with zero diagonal differing in at most `no` edges, for every random stream.",
  "all graphs, all random streams on which the loop stops",
  "All random streams, in particular those in which an index pair repeats.",
  ["regain/datasets/ising.py:update_ising_l1", "regain/datasets/poisson.py:update_l1"])
P("C54", "get_representative is the common subgraph and compute_distances a graph metric",
  "get_representative returns the 0/1 indicator of edges present in all graphs; compute_distances is symmetric, satisfies the triangle inequality, and is zero exactly for graphs with the same support.",
  "all graph lists",
  "Metric laws for all graphs.",
  ["regain/clustering.py:get_representative", "regain/clustering.py:compute_distances"])
P("C55", "elliptical_slice only moves to points above the slice threshold and otherwise leaves the state unchanged",
  "For every random stream and likelihood, the returned state is either the original one or has log-likelihood above the drawn threshold; the angle bracket always contains 0 and shrinks.",
  "all random streams, likelihoods, max_iter",
  "All random streams and black-box likelihoods.",
  ["regain/bayesian/sampling.py:elliptical_slice"])
P("C56", "Normal-inverse-Wishart posterior updates are order independent",
  "posterior(X1).posterior(X2) has the same parameters as posterior of the stacked data, so batches can be processed in any order.",
  "all data splits",
  "Algebraic identity for all data.",
  ["regain/bayesian/wishart_distribution_.py:NormalInverseWishartDistribution.posterior"])
P("C57", "lognstat inverts the lognormal mean and variance",
  "For mean > 0 and variance > 0 the returned (mu, sigma) satisfy exp(mu + sigma^2/2) = mean and (exp(sigma^2)-1)*exp(2mu+sigma^2) = variance.",
  "all positive means and variances",
  "Analytic identity.",
  ["regain/bayesian/stats.py:lognstat"])
P("C58", "KernelTimeGraphicalLasso accepts a precomputed kernel matrix",
  "fit with an ndarray kernel of shape (n_times, n_times) uses it; with a wrong shape raises ValueError.",
  "all kernels",
  "A call failing for all matrix kernels.",
  ["regain/covariance/kernel_time_graphical_lasso_.py:KernelTimeGraphicalLasso.fit"])
P("C59", "KernelLatentTimeGraphicalLasso uses the latent penalty phi it is given",
  "Two estimators differing only in phi run with different latent temporal penalties.",
  "all phi",
  "Parameter plumbing.",
  ["regain/covariance/kernel_latent_time_graphical_lasso_.py:KernelLatentTimeGraphicalLasso._fit"])
P("C60", "missing-data imputation never changes observed entries",
  "In complete_data_matrix_ every observed entry equals the input entry and every missing entry equals its conditional mean given the observed ones under the current precision.",
  "all missing patterns, all precisions",
  "All missing patterns.",
  ["regain/covariance/missing_graphical_lasso_.py:compute_cs", "regain/covariance/missing_graphical_lasso_.py:missing_graphical_lasso"])
P("C61", "EBIC and EBIC_m penalise at least as much as BIC, as documented",
  "EBIC(S, K) <= BIC(S, K) and EBIC_m(S, K) <= EBIC(S, K) for every precision, sample size and non-negative epsilon.",
  "all matrices, all sample sizes, all epsilon >= 0",
  "An inequality between two scores; tests compare single numbers.",
  ["regain/scores.py:EBIC", "regain/scores.py:EBIC_m", "regain/scores.py:BIC"])
P("C62", "EBIC_t is the sum of the per-time EBIC scores",
  "EBIC_t of a batch equals the sum over time of EBIC, as BIC_t is the sum of BIC.",
  "all T, all batches, all epsilon and n",
  "The two differ by a term that depends on T.",
  ["regain/scores.py:EBIC_t", "regain/scores.py:EBIC"])
P("C63", "Gaussian_GLM_GM uses the tol, max_iter and gamma it is given",
  "The tolerance, iteration limit and step size set by the user are the ones the neighbourhood fits run with.",
  "all option values",
  "Parameter plumbing; results look plausible with the defaults.",
  ["regain/generalized_linear_model/glm_gaussian.py:Gaussian_GLM_GM.fit", "regain/generalized_linear_model/glm_gaussian.py:fit_each_variable"])
P("C64", "Gaussian neighbourhood selection solves the lasso of each variable on the others",
  "A parameter vector is stationary for the iteration iff it minimises 1/(2n)||x_r - X theta||^2 + alpha||theta||_1; for a step size at most the inverse curvature the objective never increases and the gap after K iterations is at most ||theta_0 - theta*||^2/(2 gamma K); the loop returns an iterate, after max_iter steps or with the last step below tol.",
  "all data, all alpha >= 0, all step sizes, all numbers of iterations",
  "Optimality and rate for all data.",
  ["regain/generalized_linear_model/glm_gaussian.py:fit_each_variable", "regain/generalized_linear_model/glm_gaussian.py:objective"])
P("C65", "the Poisson line search accepts a proximal gradient step of sufficient decrease",
  "When the line search ends with step size gamma, the accepted point is the proximal gradient step of length gamma from the previous iterate and satisfies the quadratic upper bound, so the penalised loss does not increase.",
  "all losses, gradients, step sizes and shrink factors",
  "The state carried between rejected trials matters only after a rejection.",
  ["regain/generalized_linear_model/glm_poisson.py:fit_each_variable"])
P("C66", "Poisson neighbourhood selection: correct gradient and optimal fixed points",
  "The gradient used is the derivative of the loss in every direction, and a parameter vector unchanged by a proximal gradient step minimises the l1-penalised Poisson loss.",
  "all data, all alpha >= 0, all step sizes",
  "Analytic identity and global optimality.",
  ["regain/generalized_linear_model/glm_poisson.py:fit_each_variable", "regain/generalized_linear_model/glm_poisson.py:loss_single_variable"])
P("C67", "the forward-backward gradient is the gradient of the loss",
  "At every sequence of positive definite matrices the array computed by grad_loss / grad_loss_laplacian is the derivative, in every direction, of the loss (log-likelihood, jitter and Laplacian coupling) the solver evaluates.",
  "all T >= 1, all covariances, sample counts, jitter and beta, all directions",
  "Analytic identity over all directions; finite differences sample a few.",
  ["regain/forward_backward/time_graphical_lasso_.py:grad_loss", "regain/forward_backward/time_graphical_lasso_.py:grad_loss_laplacian", "regain/forward_backward/time_graphical_lasso_.py:loss_laplacian"])
P("C68", "an accepted forward-backward step decreases the objective by the guaranteed amount",
  "With choose='gamma', 0 <= lamda <= 1 and positive sample counts, an accepted step of length gamma gives a finite objective at most the old one minus lamda (1-delta)/gamma ||y - x||^2, so iterations with a successful search never increase the objective.",
  "all data, all penalties alpha, beta >= 0, both penalty modes, all iterates with finite objective",
  "Inequality for all iterates; tests look at single runs.",
  ["regain/forward_backward/forward_backward.py:choose_gamma", "regain/forward_backward/time_graphical_lasso_.py:tgl_forward_backward"])
P("C69", "forward-backward fixed points are exactly the optimal precisions",
  "A sequence of positive definite precisions is unchanged by an iteration (any gamma > 0, any lamda > 0) iff it is the unique minimiser of the documented objective over positive definite sequences.",
  "all data, all alpha, beta, vareps >= 0, both penalty modes",
  "Global optimality over an infinite set.",
  ["regain/forward_backward/time_graphical_lasso_.py:tgl_forward_backward"])
P("C70", "tgl_forward_backward returns positive definite precisions",
  "Started from any documented init, every returned precision matrix is positive definite.",
  "all data, all options",
  "The accepted step depends on determinants only; benign data never shows it.",
  ["regain/forward_backward/time_graphical_lasso_.py:tgl_forward_backward", "regain/forward_backward/forward_backward.py:choose_gamma"])
P("C71", "tgl_forward_backward handles a single time point",
  "With one time point the problem is the static graphical lasso and the solver returns its iterate.",
  "all data with one time point, both penalty modes",
  "Boundary size for all option combinations.",
  ["regain/forward_backward/time_graphical_lasso_.py:grad_loss_laplacian", "regain/norm.py:vector_p_norm"])
P("C72", "tgl_forward_backward's history and iteration count describe the run",
  "The history has one entry more than the reported number of iterations, its last entry is the objective of the returned precision, the number of iterations is between 1 and max_iter and equals max_iter when the solver did not converge, and the returned covariance is the pseudo-inverse of the returned precision.",
  "all runs that return",
  "Loop bookkeeping over all executions.",
  ["regain/forward_backward/time_graphical_lasso_.py:tgl_forward_backward"])

P("C73", "the forward-backward step-size search terminates",
  "At positive definite iterates, with choose='gamma', delta > 0, 0 < eps < 1 and 0 <= lamda <= 1, every sufficiently small step is admissible and keeps the iterates positive definite, so for every initial step the backtracking search returns an admissible step once its iteration limit is large enough.",
  "all data, all penalties alpha, beta >= 0, both penalty modes, all positive definite iterates",
  "Existence of a threshold for every iterate; a test can only watch single searches succeed.",
  ["regain/forward_backward/forward_backward.py:choose_gamma"])

P("C74", "group_lasso_overlap's stationary states solve the documented problem",
  "A state of local copies, consensus and multipliers that an iteration of group_lasso_overlap leaves unchanged has a consensus z minimising 1/2||Az-b||^2 + lamda sum_g ||z_g||_2.",
  "all data, all covers by groups, all rho > 0, lamda >= 0",
  "Global optimality for all data and overlap patterns.",
  ["regain/linear_model/group_lasso_overlap_.py:group_lasso_overlap"])
P("C75", "upper_bound bounds the global instability",
  "For a non-empty list of estimators on at least two variables, the G-StARS upper bound lies in [0, 1], is at least the global instability of the same estimators, and is zero exactly when all graphs agree.",
  "all numbers of estimators, all p, all T",
  "Inequality over all graph collections.",
  ["regain/model_selection/stability_optimization.py:upper_bound"])
P("C76", "gstars mode selects the smallest graphlet instability between the two bounds",
  "In 'gstars' mode the selected candidate lies between the upper and lower StARS bounds and minimises the graphlet instability among the candidates between them (first one on ties).",
  "all sequences of instabilities, upper bounds and graphlet instabilities",
  "All sequences; the slicing with infinities hides off-by-one errors.",
  ["regain/model_selection/stability_optimization.py:GraphicalModelStabilitySelection._format_results"])
P("C77", "ordering the parameter grid preserves the candidates",
  "GraphicalModelStabilitySelection explores exactly the candidates of the given grid or list of grids, each parameter in descending order.",
  "all grids and lists of grids",
  "All shapes of the grid argument.",
  ["regain/model_selection/stability_optimization.py:_check_param_order"])

P("C78", "Ising samples come back as a matrix of shape (n, n_dim_obs)",
  "ising_sampler returns a two-dimensional array with n rows and one column per variable, for every method and every n >= 1.",
  "all n, all graph sizes, all random streams",
  "Shape for every n and every number of variables, in particular n = 1 and graphs without ten nodes.",
  ["regain/datasets/ising.py:ising_sampler", "regain/datasets/ising.py:direct_sampling"])
P("C79", "Metropolis-Hastings Ising sweeps leave the Ising distribution invariant",
  "With independent uniform draws, a sweep (or any number of sweeps) maps the Ising distribution of the graph to itself.",
  "all symmetric graphs, thresholds, temperatures, responses, all numbers of sweeps",
  "A statement about a distribution over all states and all random numbers.",
  ["regain/datasets/ising.py:ising_metropolis_hastings", "regain/datasets/ising.py:p_plus"])
P("C80", "the bounds used by coupling from the past bracket the conditional probability",
  "For a partly determined state the two numbers of p_plus_minmax are a lower and an upper bound of p_plus over all completions.",
  "all graphs, partial states, completions",
  "All completions of all partial states.",
  ["regain/datasets/ising.py:p_plus_minmax"])
P("C81", "coupling from the past returns a state that does not depend on the start",
  "When ising_exact returns, every initial state is driven to the returned state by the random numbers drawn; the returned state consists of responses.",
  "all graphs, all random streams, all initial states",
  "All initial states and streams.",
  ["regain/datasets/ising.py:ising_exact"])
P("C82", "constraints are honoured by coupling from the past",
  "ising_sampler with method CFTP returns samples whose constrained coordinates have the constrained values.",
  "all constraints, all random streams",
  "All constraints and streams.",
  ["regain/datasets/ising.py:ising_exact", "regain/datasets/ising.py:ising_sampler"])
P("C83", "graph sequences are symmetric and use the given responses",
  "ising_theta_generator and poisson_theta_generator return one symmetric graph per time; weights of new edges are among the given responses.",
  "all numbers of times, all random streams",
  "All streams and lengths.",
  ["regain/datasets/ising.py:ising_theta_generator", "regain/datasets/poisson.py:poisson_theta_generator"])
P("C84", "the local Poisson sampler sums the counts of a node, its edges and the noise",
  "poisson_sampler with type LPGM returns, for each variable, its own count plus one shared count per incident edge plus noise, for every graph and rate.",
  "all graphs, rates, counts",
  "All graphs; sizes must match for each of them.",
  ["regain/datasets/poisson.py:poisson_sampler", "regain/datasets/poisson.py:_adjacency_to_A"])
P("C85", "graph_k_means returns a finite similarity kernel",
  "The kernel has one row and column per graph and its entries are finite nonnegative symmetric similarities.",
  "all lists of graphs, all shuffles, all iteration counts",
  "All lists of graphs, in particular identical ones.",
  ["regain/clustering.py:graph_k_means"])
P("C86", "the slice threshold implements the likelihood ratio",
  "In elliptical_slice a proposed point passes the threshold with probability min(1, likelihood ratio) over the slice draw, as required for the stated invariant distribution.",
  "all likelihoods and states",
  "A probability over a continuous draw.",
  ["regain/bayesian/sampling.py:elliptical_slice"])
P("C87", "the Wishart process chain can reach states outside a line",
  "The samples of u in WishartProcess.fit are not confined to the multiples of the Gaussian process draw.",
  "all runs",
  "All runs of a Markov chain.",
  ["regain/bayesian/wishart_process_.py:fit"])
P("C88", "t_mvn_logpdf is the log-density of the data",
  "t_mvn_logpdf(X, Cov) equals the sum over times and samples of the Gaussian log-density.",
  "all data",
  "All data shapes.",
  ["regain/bayesian/stats.py:t_mvn_logpdf"])
P("C89", "GWP_construct returns positive semidefinite matrices",
  "Every matrix returned by GWP_construct is symmetric positive semidefinite and equals L U^T U L^T.",
  "all u and L",
  "All matrices.",
  ["regain/bayesian/sampling.py:GWP_construct"])
P("C90", "Metropolis-Hastings acceptance of the Wishart process satisfies detailed balance",
  "sample_hyper_kernel and _sample_ell_comp accept with the probability that makes the posterior reversible, and otherwise keep the current value.",
  "all posteriors, proposals, values",
  "All values and densities; probability over a continuous draw.",
  ["regain/bayesian/sampling.py:sample_hyper_kernel", "regain/bayesian/sampling.py:_sample_ell_comp"])
P("C91", "the history of L holds the values of the iterations",
  "The list of L returned by wishart_process_.fit contains the value of each iteration, so that L of the best sample can be selected.",
  "all runs with at least one change",
  "Aliasing over all runs.",
  ["regain/bayesian/wishart_process_.py:fit"])

P("C92", "covariance_ of MissingGraphicalLasso is the empirical covariance of the completed data",
  "After fit, covariance_ is (1/n) times the cross product of the completed data (plus the conditional covariance of the missing entries); in particular data in other units gives a covariance in those units.",
  "all incomplete data sets and iteration numbers",
  "The hidden division by the largest entry only shows as a relation between runs on scaled data.",
  ["regain/covariance/missing_graphical_lasso_.py:compute_empirical_covariance", "regain/covariance/missing_graphical_lasso_.py:missing_graphical_lasso"])
P("C93", "MissingGraphicalLasso's iteration count, history and warning describe the run",
  "The outer loop stops at the first iteration whose change is below tol, n_iter is the number of iterations, the history contains one entry per iteration, and a warning is emitted exactly when the budget is exhausted.",
  "all data, max_iter (including 0), tolerances",
  "Loop exits depend on the data; the count is only wrong by one.",
  ["regain/covariance/missing_graphical_lasso_.py:missing_graphical_lasso"])

P("C94", "Kernel time-varying graphical lasso: a fixed point solves the documented problem",
  "If one iteration of kernel_time_graphical_lasso leaves the state unchanged, the returned sequence of precision matrices minimises sum_t n_t (tr(S_t K_t) - log det K_t) + alpha sum_t ||K_t||_{od,1} + sum_{s<t} kernel[s,t] psi(K_t - K_s) over all sequences of positive definite matrices, and is the only minimiser.",
  "for all numbers of time points and variables, all symmetric covariances, all kernels with entries >= 0, all convex penalties with an exact prox, all penalty parameters",
  "A test sees finitely many kernels and data sets and compares against another solver up to a tolerance; optimality against every competitor sequence is a statement over an infinite set.",
  ["regain/covariance/kernel_time_graphical_lasso_.py:77-315"])
P("C95", "Kernel time-varying graphical lasso: the kernel alone decides which times are coupled",
  "With kernel=None every time point is fitted independently of the others; with a kernel that has beta on the first super-diagonal and zeros above it, the problem is exactly the one of the time-varying graphical lasso with weight beta.",
  "for all numbers of time points, data and penalties",
  "Independence of the other time points quantifies over all data at the other times.",
  ["regain/covariance/kernel_time_graphical_lasso_.py:139-140", "regain/covariance/kernel_time_graphical_lasso_.py:199-222"])
P("C96", "Latent variable time-varying graphical lasso: a fixed point solves the documented problem",
  "If one iteration of latent_time_graphical_lasso leaves the state unchanged, the returned pair (K, L) minimises the documented objective (log-likelihood of K_t - L_t, off-diagonal l1 of K_t, nuclear norm of L_t, temporal penalties on both) over all sequences with K_t - L_t positive definite and L_t positive semidefinite.",
  "for all numbers of time points and variables, all symmetric covariances, all weights >= 0, all convex penalties with an exact prox",
  "Optimality against every feasible pair of sequences cannot be enumerated.",
  ["regain/covariance/latent_time_graphical_lasso_.py:66-348"])
P("C97", "Latent variable kernel time-varying graphical lasso: a fixed point solves the documented problem",
  "If one iteration of kernel_latent_time_graphical_lasso leaves the state unchanged, the returned pair (K, L) minimises the documented objective with kernel-weighted temporal penalties on both sequences; the dimension in its stopping thresholds is the root of the number of residual entries.",
  "for all numbers of time points and variables, all symmetric covariances, all kernels with entries >= 0, all convex penalties with an exact prox",
  "Optimality against every feasible pair of sequences cannot be enumerated.",
  ["regain/covariance/kernel_latent_time_graphical_lasso_.py:75-392"])
P("C98", "Latent temporal solvers: the latent part is positive semidefinite whenever the solver stops",
  "latent_time_graphical_lasso, kernel_latent_time_graphical_lasso and latent_time_matrix_decomposition return a latent matrix that is positive semidefinite at every time point, converged or not.",
  "for all inputs, iteration limits and tolerances",
  "Tests look at converged runs on a few data sets; the claim is about every iterate.",
  ["regain/covariance/latent_time_graphical_lasso_.py:207-215", "regain/covariance/kernel_latent_time_graphical_lasso_.py:204-215", "regain/covariance/latent_time_matrix_decomposition.py:174-186"])
P("C99", "Latent temporal matrix decomposition: a fixed point solves the documented problem",
  "If one iteration of latent_time_matrix_decomposition leaves the state unchanged, the returned pair minimises sum_t ||S_t - (K_t - L_t)||^2 + alpha ||K_t||_{od,1} + tau ||L_t||_* plus the temporal penalties over all sequences with L_t positive semidefinite.",
  "for all numbers of time points and variables, all data, all weights >= 0, all convex penalties with an exact prox",
  "Optimality against every feasible pair of sequences cannot be enumerated.",
  ["regain/covariance/latent_time_matrix_decomposition.py:57-317"])
P("C100", "Infimal convolution solves the problem its documentation announces",
  "If one iteration of infimal_convolution leaves the state unchanged, the returned pair (K, L) minimises -log_likelihood(S, K-L) + alpha ||K||_{od,1} + tau ||L||_*, and L is positive semidefinite in every call.",
  "for all symmetric S, all alpha, tau, rho",
  "Optimality is a statement over all feasible pairs; the wrong objective also converges.",
  ["regain/covariance/infimal_convolution_.py:54-172"])
P("C101", "Temporal solvers: history, iteration count and warning agree",
  "With return_history and return_n_iter the kernel and latent temporal solvers return one history entry per iteration performed and the number of iterations performed; only the last entry can satisfy the stopping rule; a warning is issued exactly when no entry does, and then max_iter iterations ran.",
  "for all inputs and all max_iter >= 1",
  "The relation must hold for every run length and every data-dependent stopping time.",
  ["regain/covariance/kernel_time_graphical_lasso_.py:309-315", "regain/covariance/latent_time_graphical_lasso_.py:342-348", "regain/covariance/kernel_latent_time_graphical_lasso_.py:386-392", "regain/covariance/latent_time_matrix_decomposition.py:312-317"])

P("C102", "Kernel time-varying solver converges to the optimum",
  "With a constant penalty parameter (update_rho_options with tau_inc = tau_dec = 1), positive semidefinite covariances, alpha > 0, a kernel with entries >= 0 and a convex penalty >= 0 with exact prox, the problem solved by kernel_time_graphical_lasso has exactly one optimum; from every start and for every rho > 0 a call with positive tol ends without the convergence warning once max_iter is large enough; and for every accuracy there are tolerances below which every call with enough iterations returns a precision within that accuracy of the optimum.",
  "for all data, starts, kernels, penalties, all rho > 0, all accuracies",
  "Convergence and its limit are statements about unbounded runs over all data.",
  ["regain/covariance/kernel_time_graphical_lasso_.py:77-315"])
P("C103", "Time-varying solver converges to the optimum",
  "With a constant penalty parameter, positive semidefinite covariances, alpha > 0, beta >= 0 and a convex penalty >= 0 with exact prox, the problem solved by time_graphical_lasso has exactly one optimum; from every start and for every rho > 0 a call with positive tol ends without the convergence warning once max_iter is large enough; and for every accuracy there are tolerances below which every call with enough iterations returns a precision within that accuracy of the optimum.",
  "for all data, starts, penalties, all rho > 0, all accuracies",
  "Convergence and its limit are statements about unbounded runs over all data.",
  ["regain/covariance/time_graphical_lasso_.py:86-301"])
P("C104", "Graphical lasso: when the problem has a solution, and that it is found",
  "For a positive semidefinite empirical covariance and alpha > 0 the graphical lasso problem has an optimum if and only if all variances are positive, and then it is unique; with a constant penalty parameter and over_relax = 1 graphical_lasso ends without a warning once max_iter is large enough, and for tolerances small enough its result is as close to the optimum as desired.",
  "for all positive semidefinite covariances, alpha > 0, rho > 0, symmetric starts, accuracies",
  "Existence of an optimum and convergence to it are statements over all matrices and unbounded runs.",
  ["regain/covariance/graphical_lasso_.py:81-203"])

P("C105", "Meinshausen-Yuan generator yields valid models",
  "Every precision produced by data_Meinshausen_Yuan is symmetric, has unit diagonal, at most four neighbours per variable with the same coupling, and is positive definite, so the internal assertion never fails; for h*p <= 396 (the default is h=2, p=198) and latent loadings drawn from [0, 0.01] the observed precision stays positive definite at every time.",
  "for all node locations, random draws, orders and shuffles",
  "The draws range over a continuum; a seed only tests one of them.",
  ["regain/datasets/gaussian.py:69-151"])
P("C106", "make_covariance returns a consistent, positive definite sequence",
  "make_covariance returns triples (theta, theta_observed, ell), one per time, with theta symmetric, theta_observed = theta - ell and ell symmetric; unknown update rules raise ValueError; every observed precision should be positive definite.",
  "for all sizes, degrees, epsilons, update rules, draws",
  "Positive definiteness of every element of a random sequence cannot be sampled exhaustively.",
  ["regain/datasets/gaussian.py:270-442"])
P("C107", "make_fixed_sparsity keeps the matrices valid and the sparsity fixed",
  "Every observed precision returned by make_fixed_sparsity is symmetric positive definite and the internal assertion never fails after the start; the zero pattern should be the same at all times.",
  "for all noises, epsilons, times, starts",
  "Noise is continuous and the number of times unbounded.",
  ["regain/datasets/gaussian.py:445-480"])
P("C108", "make_sin returns periodic positive definite precisions",
  "make_sin returns symmetric positive definite matrices with off-diagonal entries max(curve, 0), observed equal to full precisions and zero latent matrices; with normalize=True the diagonal should be one.",
  "for all curves, sizes, numbers of times, values of normalize",
  "The curves are arbitrary reals.",
  ["regain/datasets/gaussian.py:483-514"])
P("C109", "make_sin_cos returns one observed precision per time",
  "When make_sin_cos returns, there is one symmetric positive definite precision with unit diagonal per time, each positive definite after removing the latent part, and one observed precision per time.",
  "for all phases, clip masks, eps <= 1, latent matrices, numbers of times",
  "Quantifies over all phases and times.",
  ["regain/datasets/gaussian.py:517-556"])
P("C110", "make_fede returns positive definite observed precisions",
  "make_fede returns, for every time, a symmetric precision with no nonzero entry below epsilon, a positive semidefinite latent part, and their difference, which should be positive definite.",
  "for all orthogonal factors, draws in [0,1), numbers of times",
  "The invariant on eigenvalues holds along unbounded sequences of random draws.",
  ["regain/datasets/gaussian.py:559-593"])
P("C111", "Ma-Xue-Zou generators return marginals of a Gaussian with the requested latent variables",
  "make_ma_xue_zou returns the observed block of a positive definite precision, its marginal precision (the inverse of the covariance of the observed variables) and the positive semidefinite difference with rank equal to the number of latent variables asked for; make_ma_xue_zou_rand_k returns positive definite precisions.",
  "for all draws, sizes, numbers of latent variables and times",
  "All random matrices of all sizes.",
  ["regain/datasets/gaussian.py:621-691"])

P("C112", "make_ticc returns a block Toeplitz precision",
  "make_ticc returns, for every random draw, a symmetric matrix whose (i, j) block depends on i - j only and whose eigenvalues are at least 0.1; latent variables are rejected with ValueError.",
  "all numbers of blocks and of variables, all random draws",
  "Positive definiteness and the Toeplitz structure must hold for every random matrix, and the shift of the eigenvalues has to cover every one of them.",
  ["regain/datasets/kernels.py:135-207"])
P("C113", "make_dataset offers the documented modes and returns consistently laid out data",
  "make_dataset accepts the documented modes and parameters; the samples of time t are drawn from the t-th observed precision, X stacks the times in order, y labels each row with its time, and data has the time on the requested axis. Unknown modes and distributions raise ValueError.",
  "all modes, distributions, keyword arguments, numbers of times and samples",
  "A test fixes one mode and one size; the claim concerns every mode of the table, every keyword and every size.",
  ["regain/datasets/base.py:56-243"])
P("C114", "make_exp_sine_squared returns positive definite precisions",
  "make_exp_sine_squared returns, for every sample of the Gaussian process and every number of latent variables, symmetric positive definite precisions with positive definite observed part; with sparse no off-diagonal entry below epsilon survives.",
  "all samples of the process, all epsilon, all latent parts",
  "The Gaussian process sample is unbounded; only a proof covers all of them, and the failing ones are rare.",
  ["regain/datasets/kernels.py:46-77"])
P("C115", "make_RBF returns marginals of a joint Gaussian",
  "make_RBF never fails; at each time the observed precision is the inverse of the covariance of the observed variables in the joint model, is positive definite and equals the observed block minus a positive semidefinite latent part; the links between latent and observed variables do not change in time.",
  "all samples of the process, times and numbers of latent and observed variables",
  "The code reads the links from the matrix of the last time; that this is harmless needs an invariant of the loop over times.",
  ["regain/datasets/kernels.py:80-132"])
P("C116", "multi-class networks are valid graphs",
  "The networks generated for the classes are symmetric 0/1 adjacency matrices without self-loops that change the selected share of positions, and the Gaussian networks are positive definite so that their inverses are covariances.",
  "all random graphs, draws and numbers of classes",
  "The positions changed depend on the class index, so that the error only shows for some classes and draws.",
  ["regain/datasets/multi_class.py:103-190"])
P("C117", "make_cluster_representative returns T symmetric precisions",
  "make_cluster_representative returns one symmetric precision per time, T in total, for every T and number of clusters.",
  "all T, numbers of clusters, graphs and random draws",
  "The count depends on divisibility of T - 1 by the distance between representatives; the default values happen to work.",
  ["regain/datasets/kernels.py:594-691"])
P("C118", "make_ticc_dataset labels times and clusters consistently",
  "make_ticc_dataset succeeds when len(clusters) * n_samples is a multiple of T (which it checks), in particular with its default arguments; every row gets its time and the cluster of its segment, and all rows of one time share the cluster reported for that time.",
  "all cluster lists, numbers of samples and of times",
  "Divisibility conditions over all sizes; a test with one lucky size does not settle them.",
  ["regain/datasets/kernels.py:218-310", "regain/datasets/kernels.py:313-453"])
P("C119", "make_ticc_dataset reports conditional precisions",
  "The precision attached to each sample by make_ticc_dataset is the inverse of the conditional covariance of the sample given the previous samples in the window; it is positive definite, and from the w_size-th sample on it is the last diagonal block of the precision of the cluster.",
  "all positive definite precisions, window sizes and sample indices",
  "An identity between block inverses for all matrices and windows.",
  ["regain/datasets/kernels.py:210-215", "regain/datasets/kernels.py:260-293"])

P("C120", "What the time-varying estimators learn does not depend on how the samples are presented",
  "Fitting TimeGraphicalLasso on (X, y) groups the rows by label: the classes are the distinct labels in increasing order, every class is non-empty and the sample counts add up to the number of rows. Permuting the rows of X and y together gives the same fit; replacing the labels by any others in the same order gives the same matrices; the covariance of each class is symmetric positive semidefinite, equals the mean of products minus product of means, and is unchanged when a class is shifted by a vector of its own (unless assume_centered).",
  "all data matrices, label vectors over any ordered type, permutations, order-preserving relabellings, shifts and solvers",
  "tests use a handful of label vectors, nearly always sorted integers starting at zero; the claim is about every order and every labelling",
  ["regain/covariance/time_graphical_lasso_.py:461-500"])
P("C121", "The score of a time-varying estimator is the Gaussian log-likelihood",
  "TimeGraphicalLasso.score(X, y) is the log-likelihood of the test rows, each under the mean and precision fitted for its label. (True up to a factor two and a constant per row when all fitted classes occur in the test set and the precisions are positive definite, so that it ranks fits correctly; with a class missing from the test set the result is not a number, and indefinite matrices can get a finite, better score.)",
  "all test sets, fitted classes, means and positive definite precisions",
  "tests check a score on fixed data; that it is the log-likelihood for every data set, and what happens with an absent class, is not settled by samples",
  ["regain/covariance/time_graphical_lasso_.py:502-550", "regain/scores.py:36-38"])
P("C122", "DiscriminantAnalysis applies the Bayes rule of the fitted Gaussians",
  "After fit, means, priors and covariances are aligned with the sorted classes, default priors are the class frequencies and add up to one, and predict returns the class maximising prior times Gaussian density (the first one among ties), whatever singular value decomposition is used. fit raises ValueError exactly if there are fewer than two classes or a class with a single sample. With ensure_posdef the covariances are inverses of positive definite precisions. Fitting does not otherwise change the estimator it wraps and uses the law of the observed variables (both false: with ensure_posdef the estimator's precision_ is overwritten and its covariance_ becomes stale; around a latent variable estimator the decision function uses the inverse of precision_ instead of the inverse of the observed precision).",
  "all data, labels, estimators (as functions of the class covariances and counts), priors, positive definite covariances and singular value decompositions",
  "tests check accuracy on one data set; the identity with the Bayes rule is for all matrices and points",
  ["regain/discriminant_analysis.py:93-168"])

P("C123", "Time-varying network estimates are valid undirected graphs",
  "Whatever the data and the number of iterations, every matrix returned by the time-varying Ising estimator is symmetric, with zero diagonal (no self-loops) for the penalties laplacian, l1, l2 and linf with exact proximal maps, and every matrix returned by the time-varying Poisson estimator after at least one iteration is symmetric with unit diagonal and has no edge without a neighbourhood estimate in one of the two directions.",
  "all data, times, kernels, penalties, tolerances and iteration counts",
  "Tests look at a few data sets; the claim covers every iterate of an iterative solver with an inner iterative fit.",
  ["regain/generalized_linear_model/glm_time_ising.py:72-308", "regain/generalized_linear_model/glm_time_poisson.py:70-293", "regain/generalized_linear_model/glm_ising.py:68-173"])
P("C124", "Time-varying network estimators solve the documented problem",
  "A run of the time-varying Ising/Poisson solver that has reached a fixed point returns the minimiser of the sum of the penalised losses and the kernel-weighted temporal coupling; in particular the result does not depend on the ADMM parameter rho.",
  "all numbers of times, kernels, penalties, values of rho",
  "A test compares with a reference on a few inputs; that a solver parameter acts as a hidden ridge penalty is only visible from the optimality conditions.",
  ["regain/generalized_linear_model/glm_time_ising.py:159-216", "regain/generalized_linear_model/glm_ising.py:68-123"])
P("C125", "Options of the time-varying network estimators",
  "fit accepts exactly the data and options that the documentation allows: binary data (0/1 or -1/1), a kernel array with one row per time, a kernel class with a parameter or with ker_param='auto'; the similarity variants can be constructed; score measures the fit on the given data.",
  "all data, labels, kernel arguments",
  "The decision logic has to be checked on every combination of argument kinds and data shapes.",
  ["regain/generalized_linear_model/glm_time_ising.py:411-564", "regain/generalized_linear_model/glm_time_poisson.py:371-560", "regain/generalized_linear_model/glm_time_poisson.py:649-663"])
P("C126", "Reported objective of the time-varying Ising model",
  "The objective recorded in the history is the documented objective of the estimates (negative log pseudo-likelihood plus penalties), so a smaller value means a better network sequence.",
  "all data and network sequences",
  "Tests can only evaluate single points; that the loss has the wrong sign everywhere is a statement about all sequences.",
  ["regain/generalized_linear_model/glm_time_ising.py:48-69", "regain/generalized_linear_model/glm_ising.py:46-59"])

P("C127", "The learned similarity table is a similarity",
  "The table of similarities between networks at different times has finite values between 0 and 1, is symmetric, is 1 on the diagonal and 0 for the most distant pair, and ranks pairs in the reverse order of their distance, whatever the networks and the penalty.",
  "all numbers of times, all networks, the penalties laplacian, l1, l2 and linf",
  "A test checks a few tables; degenerate inputs (equal networks, one time) and networks that differ only on the diagonal are easily missed.",
  ["regain/covariance/kernel_time_graphical_lasso_.py:349-362", "regain/generalized_linear_model/glm_time_ising.py:567-576"])
P("C128", "The similarity estimators return networks and clusters that agree with the similarity they expose",
  "After fit, similarity_matrix_ (also returned by transform) is the similarity table of the returned networks, the networks were fitted for the clusters found in that table, clusters group similar networks, and this holds for every initialisation, number of rounds and given kernel.",
  "all data, solvers, numbers of rounds, thresholds, initial networks and given kernels",
  "A test fixes one data set on which the loop stops by itself; the value left when the rounds run out and the orientation of the clustering are not visible there.",
  ["regain/covariance/kernel_time_graphical_lasso_.py:688-820", "regain/generalized_linear_model/glm_time_ising.py:675-786"])

P("C129", "Estimators keep the parameters they were constructed with",
  "get_params() of an estimator returns, for every constructor parameter, the value that was passed; so clone, grid search and set_params work on every estimator of the package.",
  "all estimator classes, all parameter values, all default values",
  "A test passes a few values to one class; a parameter dropped on the way to a parent constructor shows only for that parameter and a non-default value.",
  ["regain/covariance/kernel_time_graphical_lasso_.py:645-686", "regain/generalized_linear_model/glm_time_ising.py:636-673", "regain/generalized_linear_model/glm_time_poisson.py:627-670", "regain/bayesian/wishart_process_.py:225-262", "regain/linear_model/group_lasso_overlap_.py:184-237"])
P("C130", "Options given to an estimator reach its solver",
  "Every option of an estimator that has the name of a parameter of the solver it calls is handed to the solver, and every option of an estimator can change what the solver receives.",
  "all estimator classes with a solver call, all option values",
  "A test compares two runs for one option; an option silently replaced by the default of the solver gives a valid looking result.",
  ["regain/covariance/kernel_latent_time_graphical_lasso_.py:565-585", "regain/covariance/graphical_lasso_.py:303-317", "regain/generalized_linear_model/glm_ising.py:273-280"])
P("C131", "fit leaves the constructor parameters as they are",
  "Calling fit, any number of times and on any data, does not change what get_params() returns, so that refitting on other data gives what a fresh estimator gives.",
  "all estimator classes, all sequences of fits, all data sets",
  "Tests fit each estimator once; state leaking from the first data set to the second needs two fits on data of different sizes.",
  ["regain/covariance/kernel_time_graphical_lasso_.py:700-701", "regain/forward_backward/time_graphical_lasso_.py:525-526", "regain/model_selection/stability_optimization.py:325-341"])

P("C132", "The objective values in the history are those of the documented problem",
  "With return_history the entry obj of a pass whose primal residual is 0 is the value of the documented objective (log-likelihood, off-diagonal l1 penalty, trace of the latent part, temporal penalties) at the estimate that this pass produces; at a constant penalty parameter the entries converge to the optimal value. Off consensus the entry is off by at most the penalty times the residual (graphical lasso).",
  "all covariances, penalties, kernels, numbers of time points, and all states of the iteration",
  "A test compares the last entry with a tolerance for one data set; a term evaluated at the wrong copy of the variable or with the wrong weight vanishes at convergence on easy data.",
  ["regain/covariance/graphical_lasso_.py:50-56", "regain/covariance/graphical_lasso_.py:168-169", "regain/covariance/latent_graphical_lasso_.py:48-52", "regain/covariance/infimal_convolution_.py:46-51", "regain/covariance/time_graphical_lasso_.py:54-83", "regain/covariance/kernel_time_graphical_lasso_.py:60-74", "regain/covariance/latent_time_graphical_lasso_.py:48-63", "regain/covariance/kernel_latent_time_graphical_lasso_.py:56-72", "regain/covariance/latent_time_matrix_decomposition.py:47-54"])

P("C133", "The residuals in the history bound the distance to the optimum",
  "For graphical_lasso (over_relax=1), time_graphical_lasso and kernel_time_graphical_lasso with return_history=True, whatever the rule for the penalty parameter does during the run: after at least two passes there is a positive definite estimate within the reported primal residual of the returned precision whose objective exceeds that of every competitor X by at most 2 C rnorm + d snorm |K - X|, where rnorm and snorm are the residuals in the last entry of the history, C = alpha p (graphical_lasso), alpha p T + 2 L beta (T-1) (chain) or alpha p T + 2 L sum of kernel entries above the diagonal (kernel), L is a Lipschitz constant of the temporal penalty and d = 1, sqrt 3, sqrt T. Without a warning (and without stop_at) the residuals are at most the tolerances.",
  "all symmetric covariances, alpha and beta and kernels >= 0, starting matrices, rho > 0, tolerances, update_rho_options with positive factors, convex Lipschitz penalties with exact prox, and max_iter",
  "The statement compares with every positive definite competitor and covers every path the adaptive penalty can take; a test sees one optimum approximation on one path.",
  ["regain/covariance/graphical_lasso_.py:155-194", "regain/covariance/time_graphical_lasso_.py:184-289", "regain/covariance/kernel_time_graphical_lasso_.py:171-305"])

P("C134", "With the default adaptive penalty the solvers converge unless the penalty changes forever",
  "For graphical_lasso (over_relax=1), time_graphical_lasso and kernel_time_graphical_lasso with any update_rho_options with positive factors (the default rule included): the problem has exactly one optimum, and unless the penalty parameter changes in infinitely many passes, (i) for tol > 0 every call with max_iter large enough ends without the convergence warning, and (ii) for tol = rtol = 0 the returned precision converges to that optimum as max_iter grows (a stop with zero tolerances happens at the optimum only).",
  "all positive semidefinite covariances (with positive variances for graphical_lasso), alpha > 0, beta and kernels >= 0, convex penalties >= 0 with exact prox, starting matrices, rho > 0 and penalty rules",
  "The claim is about limits of runs of unbounded length, for every start and every path of the adaptive rule.",
  ["regain/covariance/graphical_lasso_.py:155-203", "regain/covariance/time_graphical_lasso_.py:184-310", "regain/covariance/kernel_time_graphical_lasso_.py:171-315", "regain/update_rules.py:35-46"])

P("C135", "normalize_matrix turns a covariance matrix into its correlation matrix in place",
  "After normalize_matrix(x) on a float array with positive diagonal, x has ones on the diagonal and x_ij/(sqrt(x_ii) sqrt(x_jj)) elsewhere; a positive (semi)definite input becomes a positive (semi)definite correlation matrix with entries in [-1, 1]; units of the variables do not matter and a second call changes nothing. The array stays free of inf and nan exactly when every diagonal entry is positive.",
  "all square matrices",
  "A test samples matrices; definiteness and the entry bound are statements about all of them.",
  ["regain/utils.py:309-314"])
P("C136", "read_network returns a symmetric non-negative matrix made of the heaviest rows",
  "For every parsed file, threshold >= 0 and order of ties: two nodes get 0 if no kept row with positive weight joins them, otherwise the least positive weight among the kept rows joining them; no dropped row outweighs a kept one; the matrix is symmetric, non-negative and with fill_diagonal positive semidefinite. It is not positive definite, as the docstring promises, for any bipartite network, and with the default arguments an odd number of rows loses its last row. The separator follows the extension, an unknown extension with 'auto' is refused.",
  "all row lists, thresholds, flags and tie orders",
  "Definiteness and the selection rule quantify over all networks and all tie orders of an unstable sort.",
  ["regain/utils.py:193-244"])
P("C137", "The definiteness checks decide definiteness up to the tolerance",
  "On symmetric matrices is_pos_semidef(x, tol) is True exactly when x + tol*I is positive definite (tol > 0) resp. x is positive semidefinite (tol <= 0); is_pos_def is True exactly when x is positive definite (Cholesky) resp. x - tol*I is positive semidefinite (chol=False, tol > 0); positive_definite answers for one matrix or all matrices of a stack and ignores tol. On asymmetric input only the lower triangle is looked at, so True says nothing about the matrix.",
  "all matrices and tolerances, any eigensolver meeting its contract",
  "An equivalence with positive definiteness over all matrices; tests sample a few.",
  ["regain/utils.py:590-614"])
P("C138", "logentropy_normalize damps counts without losing or reordering them",
  "For non-negative counts each result lies in [0, log(1+count)], is zero exactly for zero counts and preserves the order of the counts of one term; a term found in one document keeps log(1+count). A term spread evenly over all documents is never weighted to zero (the divisor is log(1+n), not log n).",
  "all non-negative count matrices",
  "The bound is the maximum-entropy inequality over all count vectors.",
  ["regain/utils.py:74-80"])
P("C139", "error_norm_time and error_rank measure the difference of two sequences",
  "For sequences of equal positive length error_norm_time (defaults) is the mean over time of the squared Frobenius distance divided by the number of features, non-negative and zero exactly for equal sequences, and number-of-features times error_norm of the stacked arrays. Sequences of different lengths are cut to the shorter one without an error, so zero error does not mean equal sequences. error_rank is a pseudo-distance with values in [0, p], zero exactly when the ranks agree at every time.",
  "all sequences of matrices",
  "Zero-iff-equal, triangle inequality and the silent truncation range over all sequences.",
  ["regain/utils.py:398-432", "regain/utils.py:295-306"])
P("C140", "alpha_heuristic depends on the largest variance, squared",
  "For n_samples >= 3 and non-negative variances the value is t v^2/sqrt(n-2+t^2) with v the largest variance and t twice the Student density at gamma; a stack of covariances gets the largest of the single values. Consequently the value scales with the square of the units of the covariance although the penalty it is meant for scales linearly.",
  "all covariance matrices and stacks, sample sizes >= 3, gamma, any density",
  "The scaling law quantifies over all matrices and scales.",
  ["regain/utils.py:646-667"])

P("C141", "Wishart and inverse Wishart: mode maximises the density, and the two are related by inversion",
  "For a positive definite scale, WishartDistribution.mode() is the only maximiser of its log_likelihood over positive definite matrices when nu > D+1 and None otherwise; the inverse Wishart mode is the only maximiser of its log_likelihood; and the inverse Wishart log-density is the Wishart one of the inverse matrix plus the log-Jacobian -(D+1) log det X.",
  "all dimensions, positive definite scales, degrees of freedom",
  "Maximality ranges over the whole cone of positive definite matrices.",
  ["regain/bayesian/wishart_distribution_.py:42-116"])
P("C142", "The normal-inverse-Wishart posterior is Bayes' rule",
  "log_likelihood of posterior(X) equals log_likelihood of the prior plus the Gaussian log-likelihood of X up to a constant not depending on the parameters; mode() is the only maximiser of log_likelihood; marginal mu and the predictive law are the multivariate Student laws obtained from the same joint density. The object returned by posterior(X) itself cannot evaluate log_likelihood in more than one dimension because its mean has shape 1 x D.",
  "all priors, data sets and parameters",
  "Conjugacy is an identity of functions over all parameters and data.",
  ["regain/bayesian/wishart_distribution_.py:146-234"])
P("C143", "The likelihood helpers are the stated densities",
  "log_lik_frob(S, D, variance) is the sum of the log-densities of independent Gaussian errors of that variance, strictly largest at D = S; lognormal_logpdf is the density of the exponential of a Gaussian.",
  "all arrays and positive variances",
  "Identities over all real arrays.",
  ["regain/bayesian/stats.py:49-69"])
P("C144", "Wishart process prediction yields covariances and interpolates the training points",
  "Predicted matrices are positive semidefinite for all inputs, and predicting at the training points with the exact inverse kernel returns the training matrices. The squared-exponential kernel is symmetric, positive and largest exactly on equal inputs.",
  "all kernels, samples and scale factors",
  "Positive semidefiniteness and interpolation for all real inputs.",
  ["regain/bayesian/wishart_process_.py:166-217"])

P("C145", "mk_all_ugs enumerates every undirected graph once",
  "mk_all_ugs(n) returns 2^(n choose 2) boolean matrices: each symmetric without loops, every such graph exactly once, in non-decreasing order of the number of edges, whatever order the (unstable) sort gives ties.",
  "all numbers of nodes and all tie orders",
  "Completeness over all n; the list grows doubly exponentially.",
  ["regain/bayesian/gwishart_inference.py:50-69"])
P("C146", "Markov blankets are thresholded neighbourhoods and resampled graphs are undirected combinations of them",
  "j is in the blanket of i exactly when j differs from i and the entry is at least tol in absolute value and non-zero; whatever is drawn, a resampled graph is symmetric without loops, joins two nodes exactly when each is in the blanket drawn for the other, never contains an edge absent from all inputs and always contains an edge present in all; normalised scores are positive probabilities in the order of the scores.",
  "all input graphs, tolerances and random draws",
  "Quantifies over all draws of the generator.",
  ["regain/bayesian/gwishart_inference.py:72-79", "regain/bayesian/gwishart_inference.py:111-128"])
P("C147", "covsel returns the gradient of its value and its stationary points are maximum likelihood precisions",
  "At positive definite points the returned gradient is the derivative of the returned value along every direction; it vanishes exactly when the inverse matches the covariance on edges and diagonal, exactly when no other positive definite matrix on the graph has a value as small. The value is not a barrier: outside the positive definite cone it can be finite and unbounded below.",
  "all graphs, symmetric covariances and parameters",
  "Optimality over all matrices supported on the graph.",
  ["regain/bayesian/gwishart_inference.py:131-165"])
P("C148", "The bic score is penalised Gaussian log-likelihood",
  "For a positive definite precision and at least one sample the score is the Gaussian log-likelihood of the samples at their mean minus (edges + nodes)/2 log n; graphs with equal precision differ by log n / 2 per edge; without samples it is 0. The covariance given to the optimiser makes its stationary points the modes of the posterior: prior density times likelihood on the graph.",
  "all data, graphs and positive definite precisions",
  "An identity over all real data.",
  ["regain/bayesian/gwishart_inference.py:178-185", "regain/bayesian/gwishart_inference.py:224-227", "regain/bayesian/gwishart_inference.py:254-255"])
P("C149", "The Laplace approximation uses the derivatives of the log-density",
  "first_derivative_h is the gradient of h and version2 its derivative along symmetric coordinate directions; the Hessian entries are the mixed second derivatives for edges; the negative Hessian is positive definite, so its Cholesky factor exists; the diagonal variant uses its diagonal; logh is h at the fitted precision.",
  "all positive definite precisions, degrees of freedom above 2 and parameter lists",
  "Derivatives and definiteness over all matrices.",
  ["regain/bayesian/gwishart_inference.py:233-234", "regain/bayesian/gwishart_inference.py:257-309", "regain/bayesian/_laplace_approximation.py:35-95"])
P("C150", "Scoring a graph works with the default prior, and the average of the best graphs is a precision",
  "GWishartScore(X, G) with default arguments scores any data set; with a p x p positive definite scale and d0 > 2 the covariance that is fitted is positive definite for any data; bayesian_graphical_lasso averages top_n results none of which is outscored by an omitted one, and the average is positive definite when the fitted precisions are.",
  "all data sets, score lists and top_n",
  "Quantifies over all data and all score lists.",
  ["regain/bayesian/gwishart_inference.py:168-185", "regain/bayesian/gwishart_inference.py:323-347", "regain/bayesian/gwishart_inference.py:394-395"])

P("C151", "The forward-backward solver converges to the optimum and stops",
  "With choose='gamma', parameters in their documented ranges and a positive jitter, a run whose iterates stay positive definite and whose step searches succeed converges to the unique minimiser of the documented objective, the objective values converge to the minimum, and for a positive tolerance the stopping rule interrupts the run, so that for every large enough max_iter the call returns and reports convergence.",
  "all covariances, sample counts, penalties, starting points and both couplings (l1 and Laplacian)",
  "A limit statement about infinitely many iterations.",
  ["regain/forward_backward/time_graphical_lasso_.py:139-390", "regain/forward_backward/forward_backward.py:54-98"])

P("C152", "Gaussian neighbourhood selection converges when the step size fits the data",
  "If gamma times the largest eigenvalue of X'X/n (predictor columns) is below 2, the iterates of every neighbourhood fit converge, from any start, to a solution of the lasso of the variable on the others; with tol > 0 the fit stops by the tolerance after an iteration that does not depend on max_iter, and the objective at the returned vector exceeds that of any other vector by at most tol/gamma times their distance. The step size used by the estimator is adequate.",
  "all data matrices, penalties alpha >= 0, step sizes, tolerances and starting vectors",
  "A limit statement about infinitely many iterations and all data.",
  ["regain/generalized_linear_model/glm_gaussian.py:48-100", "regain/generalized_linear_model/glm_gaussian.py:184-201"])
P("C153", "The Ising fit converges to the penalised pseudo-likelihood estimate",
  "For data in [-1, 1], alpha > 0 and a step size below twice the inverse curvature, the iterates of the Ising fit (also with the quadratic term around A used by the temporal model) converge to a minimiser over the symmetric matrices of the penalised negative log pseudo-likelihood, and with tol > 0 the fit stops by the tolerance for every large enough max_iter.",
  "all data, penalties, step sizes, anchors A, symmetric starting points",
  "A limit statement about infinitely many iterations and all data.",
  ["regain/generalized_linear_model/glm_ising.py:68-173"])

P("C154", "The solver of the time-varying Ising and Poisson models converges, and its history certifies the result",
  "With inner fits that solve their regularised problems exactly and a convex temporal penalty, at a constant penalty parameter rho the fit converges to the unique optimum (over symmetric sequences) of the documented problem plus rho/2 times the squared norm of the networks, ends by the tolerance for every large enough max_iter, and comes as close to the optimum as desired for small tolerances; with any penalty schedule the residuals in the last history entry bound the excess of the objective and the distance of the returned networks from the optimum.",
  "all numbers of times and variables, convex losses, kernels, penalties, tolerances, initial rho and numbers of iterations",
  "A limit statement about infinitely many iterations, and an error bound against the unknown optimum.",
  ["regain/generalized_linear_model/glm_time_ising.py:72-308", "regain/generalized_linear_model/glm_time_poisson.py:70-293"])

P("C155", "infimal_convolution converges to a solution at a constant penalty below 2",
  "infimal_convolution, run with update_rho_options leaving the penalty constant, 0 < rho < 2, alpha > 0, tau >= 0 and a symmetric input, solves its problem: there is a minimiser (K*, L*) of 1/2||S-(K-L)||^2 + alpha||K||_1 + tau tr(L) over positive semidefinite L, every minimiser has the same K-L, for tol > 0 every call with max_iter large enough returns without the convergence warning, every call that ran long enough returns matrices as close to (K*, L*) as desired whatever its tolerances, and with tolerances small enough a call runs that long unless it recorded a pass whose two residuals are exactly zero. With the default adaptive penalty, or any rule with positive factors, calls also end without the warning and approach a minimiser, unless the penalty changes infinitely often or settles at 2 or more.",
  "for all symmetric inputs of any size, all alpha > 0, tau >= 0, 0 < rho < 2, all tolerances, all max_iter and every exact eigensolver",
  "convergence of a three-block splitting is a statement about infinitely many passes for uncountably many inputs; three-block ADMM can diverge, so no number of runs settles it",
  ["regain/covariance/infimal_convolution_.py:54-172"])
P("C156", "latent_time_matrix_decomposition converges to a solution at a constant penalty below 4",
  "latent_time_matrix_decomposition, run with a constant penalty 0 < rho < 4, alpha > 0, tau, beta, eta >= 0 and convex nonnegative couplings with exact proximal maps, solves its problem: there is a minimiser (K*, L*) of sum ||S_t-(K_t-L_t)||^2 + alpha sum||K_t||_1 + tau sum tr(L_t) + couplings over sequences with positive semidefinite L_t, every minimiser has the same K_t-L_t, for tol > 0 every call with max_iter large enough returns without the warning, every call that ran long enough returns sequences as close to (K*, L*) as desired whatever its tolerances, and with tolerances small enough a call runs that long unless it recorded a pass whose two residuals are exactly zero. With the default adaptive penalty, or any rule with positive factors, calls also end without the warning and approach a minimiser, unless the penalty changes infinitely often or settles at 4 or more.",
  "for all sequences of input matrices of any length and size, all weights, all convex couplings, all 0 < rho < 4, all tolerances and max_iter, every exact eigensolver",
  "the solver alternates over five blocks, for which the splitting is not convergent in general; only an energy argument over all passes shows that it is here",
  ["regain/covariance/latent_time_matrix_decomposition.py:57-317"])

P("C157", "The latent variable problems have a solution",
  "For positive semidefinite covariances, positive sample sizes, alpha > 0, non-negative tau, beta, eta (or kernel entries) and convex non-negative penalties psi, phi with value 0 at 0, the problems latent_graphical_lasso, latent_time_graphical_lasso and kernel_latent_time_graphical_lasso are written to solve (with the l1 norm of all entries, which is what they threshold) have a minimiser (K, L). All minimisers have the same observed precision K - L, and its traces sum to at most d * sum(n_samples) / alpha.",
  "all dimensions, numbers of time points, covariances, penalties, kernels",
  "A test can run the solver and look at what it returns; it cannot tell whether the infimum is attained (L ranges over an unbounded cone and tau may be 0) nor that no other minimiser gives a different precision.",
  ["regain/covariance/latent_graphical_lasso_.py:48-112", "regain/covariance/latent_time_graphical_lasso_.py:42-138", "regain/covariance/kernel_latent_time_graphical_lasso_.py:50-138"])
P("C158", "The temporal latent variable solvers converge while their R stays bounded",
  "With a constant penalty rho, alpha > 0, non-negative tau, beta, eta (or kernels), convex penalties with exact prox, and sample sizes at least m: if from some pass on the matrices R computed by latent_time_graphical_lasso or kernel_latent_time_graphical_lasso have eigenvalues at most c, the optimal K - L has eigenvalues at most b, and rho*c*b < 2*m, then a call with positive tol and max_iter large enough ends without warning, long runs return a pair as close as desired to one fixed minimiser, and small tolerances force such long runs (unless a pass with both residuals exactly zero was recorded). The same holds, with nothing assumed about R, for every rho small enough when the penalties are small against the data: 2*sqrt(T)*(d*alpha + 4*kpsi*sum(beta) + 2*kphi*sum(eta)) at most m times the smallest eigenvalue of the covariances.",
  "all inputs, starts, tolerances, iteration budgets and eigensolvers",
  "Convergence of this three-block scheme is not covered by the standard theory; any finite set of runs only shows that some inputs converge.",
  ["regain/covariance/latent_time_graphical_lasso_.py:139-348", "regain/covariance/kernel_latent_time_graphical_lasso_.py:139-392"])
P("C159", "On one time point the temporal latent solvers are the static one",
  "latent_time_graphical_lasso and kernel_latent_time_graphical_lasso called with one covariance and n_samples = [1] return exactly what latent_graphical_lasso returns for that covariance: the same precision, latent matrix, iteration count, residual history and warning (or the same exception), whatever beta, eta, psi, phi and the kernels, also when the penalty adapts.",
  "all inputs, starts, penalties, penalty rules, iteration budgets",
  "The three files implement the pass independently; agreement on samples does not show that no branch (stopping test, rescaling of the duals, empty slices for the missing pairs) differs.",
  ["regain/covariance/latent_graphical_lasso_.py:121-182", "regain/covariance/latent_time_graphical_lasso_.py:139-348", "regain/covariance/kernel_latent_time_graphical_lasso_.py:139-392"])
P("C160", "A trace penalty of at least d * alpha switches the latent part off",
  "If tau >= d * alpha for d features, the latent matrix returned by latent_graphical_lasso and by infimal_convolution is exactly zero, whatever the data, start, tolerances, iteration budget and rule for the penalty; and this is right: every minimiser of the latent problem has L = 0 when tau > d * alpha, and dropping L from a minimiser leaves a minimiser when tau >= d * alpha.",
  "all inputs, starts, tolerances, iteration budgets",
  "A grid of tau values can suggest a threshold but not that it holds for every covariance, iteration and penalty rule.",
  ["regain/covariance/latent_graphical_lasso_.py:121-172", "regain/covariance/infimal_convolution_.py:54-172"])
P("C161", "latent_graphical_lasso converges at a constant penalty",
  "With a constant penalty rho, positive semidefinite covariance and alpha > 0: if tau >= d * alpha, then for every rho the calls converge to (X, 0), X the unique minimiser of the l1-penalised likelihood (positive tol and enough iterations end without warning; long runs are as close as desired; small tolerances force long runs unless both residuals were exactly zero in some pass). For other tau >= 0 the same holds for some minimiser provided that from some pass on the computed R have eigenvalues at most c and rho*c*d/alpha < 2, and for every rho small enough when 2*d*alpha is at most the smallest eigenvalue of the covariance.",
  "all inputs, starts, tolerances, iteration budgets and eigensolvers",
  "Convergence is a statement about infinitely many passes; the three-block scheme is not covered by the usual two-block theory.",
  ["regain/covariance/latent_graphical_lasso_.py:121-182"])

P("C162", "The proximal step of the group lasso with overlap always returns",
  "glo_prox with a linalg.pinv that computes the pseudo-inverse, 0 < beta < 1, s_beta > 0, 0 <= sigma < 1, epsilon >= 0 (the defaults qualify), non-zero radii weights*tau and non-negative starting multipliers that the code accepts returns for every w0, every choice of overlapping blocks, tolerance and iteration budget: its unbounded `while test` line search ends in every iteration.",
  "all w0, blocks, weights, tau, starts, tolerances, budgets",
  "The line search has no iteration limit; no finite set of runs excludes an input on which it does not end.",
  ["regain/wrapper/paspal/glopridu.py:15-149"])
P("C163", "The proximal step shrinks and its multipliers descend",
  "The multipliers returned by glo_prox started without lamda0 are non-negative and their dual objective is at most that of zero; every iteration that moves the multipliers decreases the dual objective strictly (sigma > 0). The returned vector has the signs of w0, is no larger in absolute value coordinate by coordinate, and is zero at features that belong to no block.",
  "all w0, blocks, weights, tau, tolerances, budgets",
  "A property of every iterate for every block structure.",
  ["regain/wrapper/paspal/glopridu.py:15-149"])
P("C164", "Settled multipliers of glo_prox give the proximal point",
  "If the multipliers returned by glo_prox are left unchanged by its own step, the returned vector is the proximal point of w0 for the group lasso with overlap penalty (infimum over the splittings of the vector along the blocks), and the only one.",
  "all w0, blocks, weights, tau",
  "Needs duality between the multipliers and all splittings of all vectors. It fails as stated: blocks are filtered by comparing their norm with the square of the radius, and nested blocks make the pseudo-inverse step settle elsewhere.",
  ["regain/wrapper/paspal/glopridu.py:32-54", "regain/wrapper/paspal/glopridu.py:60-149"])
P("C165", "The stopping test of glo_prox bounds the distance to the proximal point",
  "When glo_prox stops before max_iter, the returned vector is close to the proximal point for small tol. A returned pair (w, lamda) whose blocks of w0 - w are within their radii satisfies 1/2 ||w - prox||^2 <= sum_g lamda_g (r_g ||(w0-w)_g|| - ||(w0-w)_g||^2).",
  "all w0, blocks, weights, tau, starts, tolerances, budgets",
  "Refers to the exact proximal point, which no test has. The first half fails: the test looks at the gradient before the update.",
  ["regain/wrapper/paspal/glopridu.py:140-149"])
P("C166", "GroupLassoOverlap(mode='paspal') fits any number of groups",
  "glopridu_algorithm, as GroupLassoOverlap.fit calls it, returns coefficients that vanish at features outside the groups, for any groups, data, tolerances and budgets.",
  "all data, groups, tolerances, budgets",
  "Quantifies over every data set and group structure. It holds for one group and fails for every input with two groups or more (ValueError from `not lamda0`).",
  ["regain/wrapper/paspal/glopridu.py:35-36", "regain/wrapper/paspal/glopridu.py:152-251", "regain/linear_model/group_lasso_overlap_.py:344-353"])
P("C167", "The points glopridu_algorithm leaves unchanged solve the group lasso with overlap",
  "At every state of the outer loop X h is tracked exactly, and h is its own exact proximal gradient step iff it minimises 1/(2n) ||X b - Y||^2 + mu/2 ||b||^2 + tau * sum_g ||z_g|| over all vectors and their splittings along the groups, mu = smooth_par * sigma0.",
  "all data, groups, tau, smoothing parameters",
  "An equivalence between a fixed point and a minimum over all vectors and splittings.",
  ["regain/wrapper/paspal/glopridu.py:187-251"])

P("C168", "group_lasso_overlap depends on the groups only through how many contain each feature",
  "Two calls of group_lasso_overlap that differ only in the list of groups, where every feature lies in the same number of groups, return the same coefficients, the same pass number and histories with the same residuals and tolerances; in particular [[0, 1], [2, 3]] and [[0], [1], [2], [3]] are the same problem to the solver.",
  "all data, parameters, groups and runs that return",
  "Equality of whole runs for all data and all pairs of group lists.",
  ["regain/linear_model/group_lasso_overlap_.py:group_lasso_overlap"])
P("C169", "Return value and early stop of group_lasso_overlap",
  "A returning call records one history entry per pass, at most max_iter of them, with the returned pass number the index of the last; a call that stops before max_iter has at least twelve passes and its last twelve entries all meet both tolerances; max_iter = 0 raises.",
  "all data, parameters and runs",
  "The counter of good passes must hold on every execution, including those where good and bad passes alternate.",
  ["regain/linear_model/group_lasso_overlap_.py:group_lasso_overlap"])
P("C170", "The residuals recorded by group_lasso_overlap certify the returned coefficients",
  "For a call with at least two passes, rho > 0, lamda >= 0 and an exact inverse, with every feature in at most C groups, F(z) <= F(w) + C (2 lamda sqrt(p) r_k + q r_k + q (|w - z| + r_k)) for every w, where F is the lasso objective that weights each feature by its number of groups, r and s are the recorded residuals and q = rho r_(k-1) + s_k.",
  "all data, groups, parameters, runs and competitors w",
  "An optimality gap over all competitors and all data.",
  ["regain/linear_model/group_lasso_overlap_.py:group_lasso_overlap"])
P("C171", "The objective recorded by group_lasso_overlap is that of the documented problem",
  "The objective in the history is at least the minimum of 1/2||Az-b||^2 + lamda sum_g ||z_g||_2, and equals it at the returned coefficients once the copies agree with them.",
  "all data, groups and runs",
  "A relation to the minimum over all coefficients, on every run.",
  ["regain/linear_model/group_lasso_overlap_.py:objective", "regain/linear_model/group_lasso_overlap_.py:group_lasso_overlap"])

P("C172", "The Poisson node fit always returns and never makes the objective worse",
  "fit_each_variable without a coupling matrix returns for every data set, every alpha >= 0, positive step size and shrink factor in (0,1); the objectives recorded in its history never increase, the last one is that of the returned coefficients, and it is at most that of the zero vector.",
  "all data (of any sign), penalties, step sizes, tolerances and pass limits",
  "The inner loop is `while True`; ending and descent are statements about every data set and every pass.",
  ["regain/generalized_linear_model/glm_poisson.py:fit_each_variable"])
P("C173", "The Poisson node fit converges to a minimiser and stops by itself",
  "For non-negative responses and alpha > 0 the coefficients returned with tol = 0 tend, as max_iter grows, to a minimiser of the penalised Poisson loss; for every tol > 0 there is a number of passes after which the call stops whatever max_iter is, with a last step shorter than tol.",
  "all predictors, non-negative responses, penalties > 0, step sizes and shrink factors",
  "A limit over unbounded runs for all data.",
  ["regain/generalized_linear_model/glm_poisson.py:fit_each_variable"])
P("C174", "The coupled Poisson node fit returns a solution of the coupled problem",
  "With a coupling matrix A the call returns, and a point that its step leaves in place minimises the loss plus rho T / (2n) times the squared distance to the row of A plus the penalty.",
  "all data, coupling rows and weights with rho T >= 0",
  "Optimality against all competitors; ending of an unbounded loop.",
  ["regain/generalized_linear_model/glm_poisson.py:fit_each_variable"])
P("C175", "PoissonGraphicalModel.fit returns a symmetric matrix with one row per variable",
  "fit in the default mode returns for every data set and alpha >= 0; precision_ has one row per variable, is symmetric with unit diagonal and has no edge between variables whose two regressions both give zero; other modes raise ValueError; the constructor's max_iter and gamma take part.",
  "all data, penalties and both reconstruction rules",
  "Ending and symmetry for all data; independence of an argument is a statement about all pairs of calls.",
  ["regain/generalized_linear_model/glm_poisson.py:PoissonGraphicalModel.fit"])

P("C176", "The group lasso with overlap converges when its penalty parameter is large or small enough",
  "Let every feature belong to at least one group, lamda >= 0, and let rho either exceed half of the largest curvature of the quadratic loss relative to the group counts (it suffices that 2*rho exceeds the sum of the squared entries of A) or be at most the smallest such curvature (the columns of A are then independent). Then there is a minimiser w of the lasso in which each feature is weighted by its number of groups such that every call of group_lasso_overlap that makes enough passes, whatever tol, rtol and max_iter, returns coefficients as close to w as desired; and with tol > 0 the loop stops by its own test after a number of passes that does not depend on max_iter.",
  "for all A, b, lamda >= 0, groups covering the features, rho with 2*rho*count > A'A or rho*count <= A'A, and all tol, rtol, max_iter",
  "Convergence is a statement about infinitely many iterations on arbitrary real data; the loop is not the standard ADMM (the local step starts from the previous copies instead of the consensus), so the textbook theorem does not cover it and no finite number of runs shows it.",
  ["regain/linear_model/group_lasso_overlap_.py:group_lasso_overlap"])

P("C177", "Graphlet instability is the mean distance between the graphs of different repetitions",
  "graphlet_instability of at least two precisions is the mean, over all ordered pairs of different estimators, of the graphlet distance of their graphs (averaged over time for three dimensional precisions), so that it does not depend on the order of the estimators, on the diagonal or on the size of the non-zero entries, lies between the bounds of the distance, and reduces to the two dimensional value for one time point. One estimator gives a value too.",
  "for all lists of precisions and every symmetric distance between graphs that vanishes on equal graphs",
  "The factor 2/(n(n-1)) and the loop over j > i agree with the mean over pairs only by symmetry of the distance; invariance under all orders and all values of the entries is a statement about infinitely many inputs.",
  ["regain/model_selection/stability_optimization.py:graphlet_instability"])
P("C178", "The default subsample size of stability selection is usable",
  "Without an explicit sampling size, GraphicalModelStabilitySelection.fit draws the greatest number of samples that is at most 10*sqrt(n) and leaves at least ten out, and with class labels the greatest multiple of the number of classes below that; the size is positive and smaller than the number of samples.",
  "for all numbers of samples and classes and explicit sizes",
  "A test picks a few sizes; the rounding towards zero of a minimum of an irrational and an integer, and of negative values, has to be right for every n.",
  ["regain/model_selection/stability_optimization.py:GraphicalModelStabilitySelection.fit"])
P("C179", "Chords of circular plots join their nodes inside the circle",
  "Every edge of a circular plot is a Bezier curve that starts in one node, ends in the other and stays in the unit disc when the nodes are on the circle; more generally the evaluated curve is the Bernstein polynomial of its control points and stays in every convex region containing them. The class of a chord is the interval of the distance table that contains its length.",
  "for all control points (at least two), numbers of points on the curve (at least two), node positions and lengths",
  "The curve is computed by an in-place recursion whose update order matters; equality with the Bernstein form holds for every degree and parameter, which only induction shows.",
  ["regain/plotting/plotly.py:_deCasteljau", "regain/plotting/plotly.py:_BezierCv", "regain/plotting/plotly.py:_get_idx_interv", "regain/plotting/plotly.py:lines_chord"])
P("C180", "Rows, labels and networks of multi-class data belong together",
  "In the data returned by make_multiclass_dataset (and sample), X and y have the same length, the row c*n_samples + i carries label c, and it was drawn from the network reported for class c, which is the network the generator made (or the caller gave to sample).",
  "for all numbers of classes, samples and variables, all networks, generators and random draws",
  "The samplers draw random data, so a test sees only one seed, and the alignment of the stacked rows with repeated labels must hold for all numbers of classes; that a sampler overwrites its argument is invisible in the data.",
  ["regain/datasets/multi_class.py:make_multiclass_dataset", "regain/datasets/multi_class.py:sample", "regain/datasets/ising.py:ising_sampler"])

P("C181", "The Gibbs sampler of Poisson data draws from the Poisson graphical model of the given matrix",
  "With the Gibbs method poisson_sampler lets every sample evolve as its own Markov chain whose visits draw one variable from its conditional distribution under the Poisson graphical model with the given coefficients and variances, so that this model is an invariant distribution of the chain; the call returns for every graph and uses the variances it is given.",
  "for all symmetric coefficient matrices, variances, numbers of variables, samples and passes, starting states and draws",
  "A test sees finitely many draws of one seed; that a distribution is conditional or invariant, and that none exists, are statements about infinite sums over all states.",
  ["regain/datasets/poisson.py:poisson_sampler"])
P("C182", "ising_sampler returns samples of the requested graph for each of its methods",
  "ising_sampler succeeds for every symmetric graph with two responses and one of the three methods, returns one row per sample, leaves the matrix of the caller as it was, and the direct method draws independent samples of the model.",
  "for all graphs, numbers of variables and samples, response values, methods and retry numbers, and all random draws",
  "Whether a call terminates for all draws, and whether two samples can ever coincide, is not visible in finitely many runs.",
  ["regain/datasets/ising.py:ising_sampler", "regain/datasets/ising.py:direct_sampling", "regain/datasets/ising.py:ising_exact"])

P("C183", "The order and the signs of the variables do not matter to any of the covariance solvers",
  "If the columns of the data are put in another order and some of them are multiplied by minus one, graphical_lasso, latent_graphical_lasso, infimal_convolution, time_graphical_lasso, kernel_time_graphical_lasso, latent_time_graphical_lasso, kernel_latent_time_graphical_lasso and matrix decomposition return exactly the matrices they return for the original data, with rows and columns in the new order and entries with the corresponding signs. The number of iterations, the recorded history, the convergence warning and any error are the same. The eigenvectors that the linear algebra library picks for repeated eigenvalues do not matter either.",
  "for all symmetric covariance matrices (sequences of them for the time-varying solvers), all permutations and signs, all penalties, penalty parameters (adaptive ones included), tolerances, iteration limits and starting matrices, any two valid eigensolvers, and every penalty on differences whose proximal map commutes with relabelling (l1, laplacian, and the prox of every invariant penalty)",
  "A test can permute one data set; it cannot settle that every branch (stopping rule, penalty update, exceptions) is the same for every permutation, nor that the arbitrary choice of eigenvectors never leaks into the result.",
  ["regain/covariance/graphical_lasso_.py:81-203", "regain/covariance/latent_graphical_lasso_.py:55-182", "regain/covariance/infimal_convolution_.py:54-172", "regain/covariance/time_graphical_lasso_.py:86-301", "regain/covariance/kernel_time_graphical_lasso_.py:77-315", "regain/covariance/latent_time_graphical_lasso_.py:66-348", "regain/covariance/kernel_latent_time_graphical_lasso_.py:75-392", "regain/covariance/latent_time_matrix_decomposition.py:57-317"])
P("C184", "The direction of time does not matter",
  "If the time points are read in the opposite order, time_graphical_lasso, latent_time_graphical_lasso and matrix decomposition return the same matrices in the opposite order, with the same number of iterations, history, warning and errors. The kernel versions allow every reordering of the time points when the kernel is symmetric and reordered in the same way.",
  "for all sequences of symmetric covariance matrices and sample sizes, all penalties, tolerances, iteration limits and starting matrices, any valid eigensolver, and every penalty on differences with odd proximal map (l1 and laplacian included)",
  "The code treats the first and the last time point specially and computes the proximal maps of the two auxiliary variables of each pair of time points from their difference in one direction; a test with one data set cannot exclude that an index shift makes one direction of time preferred.",
  ["regain/covariance/time_graphical_lasso_.py:86-301", "regain/covariance/kernel_time_graphical_lasso_.py:77-315", "regain/covariance/latent_time_graphical_lasso_.py:66-348", "regain/covariance/kernel_latent_time_graphical_lasso_.py:75-392", "regain/covariance/latent_time_matrix_decomposition.py:57-317"])

P("C185", "Screening: groups of variables with weak covariances are separated, and nothing else is",
  "For graphical_lasso with covariance S and penalty alpha, the optimal precision has no entry between the groups of a grouping of the variables exactly when every covariance between different groups is at most alpha in absolute value. In particular the optimal network is empty exactly when alpha is at least the largest absolute covariance of two variables, and the optimal precision is then the diagonal matrix of inverse variances. If the covariances between groups are smaller than alpha, the precision returned for small tolerances is exactly zero there. For time_graphical_lasso and kernel_time_graphical_lasso the condition n_t |S_t,ij| <= alpha at all time points is sufficient.",
  "for all positive semidefinite covariances, all groupings, all alpha > 0, all starting matrices; for the time-varying solvers all convex penalties on differences that do not depend on signs of variables (l1, sum of column norms, laplacian) and all beta or kernels >= 0",
  "Tests compare one estimate with one threshold; the equivalence concerns every data set and every grouping, and the exact zeros are a statement about a limit of iterations.",
  ["regain/covariance/graphical_lasso_.py:81-203", "regain/covariance/time_graphical_lasso_.py:86-301", "regain/covariance/kernel_time_graphical_lasso_.py:77-315", "regain/prox.py:49-58"])
P("C186", "graphical_lasso returns the network of the optimum",
  "Every edge of the optimal precision is an edge of the matrix that graphical_lasso returns, with the same sign, once tolerances are small and max_iter is large. If every missing edge of the optimum is missing strictly (its optimality condition is not on the boundary), the zeros are exact: the returned network is the network of the optimum. The number of decimals at which a user reads the precision then does not matter.",
  "for all symmetric covariances with an optimum, all alpha >= 0, all constant penalty parameters rho > 0, all symmetric starting matrices, all tolerances below a positive bound and all iteration limits above a bound",
  "Convergence of values does not give convergence of supports; a test sees one run with one tolerance, and cannot tell an exact zero of every run from one that is an accident.",
  ["regain/covariance/graphical_lasso_.py:81-203", "regain/prox.py:49-58"])
P("C187", "When the time-varying problem has one network for all time points",
  "If all time points have the same covariance and sample size, the optimum of the time-varying problem is constant in time and equals the optimum of a single time point, whatever beta, the kernel and the penalty are. With beta = 0 every time point of the optimum is its own single optimum. For norm penalties on differences (l1, sum of column norms) every beta above a value given by the data makes the optimum constant: the optimum of the pooled problem; time_graphical_lasso converges to it. With squared differences (laplacian, the default) no beta has this effect unless the time points agree already.",
  "for all sequences of positive semidefinite covariances, sample sizes > 0, alpha > 0, all penalties on differences with the stated bound, all beta above the bound, all starting matrices",
  "These are the two ends of the scale of beta that users tune; a test can only try some values of beta on some data and compare up to a tolerance.",
  ["regain/covariance/time_graphical_lasso_.py:69-301", "regain/covariance/kernel_time_graphical_lasso_.py:60-315", "regain/validation.py:44-63"])

P("C188", "The smallest penalty at which a neighbourhood regression selects nothing",
  "For Gaussian data zero coefficients are optimal, and are what the fit returns, exactly when alpha is at least the largest absolute mean product of the response with a predictor; for counts exactly when alpha is at least the largest absolute mean of predictor times (response - 1). PoissonGraphicalModel.fit then returns exactly the identity. Below the threshold some coefficient is non-zero.",
  "all data, numbers of samples and variables, alpha >= 0, step sizes, tolerances, numbers of iterations",
  "An exact equivalence at a boundary value of alpha for all data; a test sees single values of alpha and cannot tell an exact zero from a small number for all step sizes.",
  ["regain/generalized_linear_model/glm_gaussian.py:42-100", "regain/generalized_linear_model/glm_poisson.py:73-155", "regain/generalized_linear_model/glm_poisson.py:250-285"])
P("C189", "IsingGraphicalModel selects which pairs of variables interact",
  "On binary data in {-1, 1} the network returned by IsingGraphicalModel.fit is sparse: alpha selects a subset of the pairs, smaller for larger alpha and depending on the data.",
  "all binary data, numbers of samples and variables, alpha, step sizes, tolerances, numbers of iterations",
  "That no input and no option whatever leads to a network that is neither empty nor complete is a statement about all runs.",
  ["regain/generalized_linear_model/glm_ising.py:68-172", "regain/generalized_linear_model/glm_ising.py:227-324", "regain/generalized_linear_model/glm_time_ising.py:72-308"])
P("C190", "The fit of the time-varying Poisson model returns",
  "_fit_time_poisson_model (TemporalPoissonModel.fit) returns for all count data, alpha, rho, kernels and max_iter; when alpha is above the threshold of every variable at every time the networks are exactly empty.",
  "all count data, numbers of times and samples, alpha, rho, kernels, penalties, tolerances, max_iter",
  "Non-termination of an unbounded line search cannot be observed by a test, only suspected.",
  ["regain/generalized_linear_model/glm_time_poisson.py:70-293", "regain/generalized_linear_model/glm_poisson.py:95-126"])

P("C191", "The pair update of the node penalty is the proximal step it stands for",
  "With psi='node' the two networks produced for each pair of consecutive times are the ones minimising beta * (node penalty of their difference) + rho/2 * (squared distances to the inputs), up to the tolerance; in particular the result is a number, and the two networks are joined exactly when the columns of the input difference are short compared with beta/rho.",
  "all numbers of variables and pairs, symmetric inputs, beta >= 0, rho > 0, tolerances, numbers of passes",
  "The wrong limit differs from the right one by a fixed factor in the threshold and by a small ridge term: a test on one data set sees a plausible pair of networks. NaN appears only when a column is exactly zero.",
  ["regain/prox.py:158-241", "regain/covariance/time_graphical_lasso_.py:208-221"])
P("C192", "The recorded value of the node penalty is the node penalty",
  "node_penalty(X), the term that the objective and the iteration history use for psi='node', is the smallest total column norm of a V with V + V^T = X; in particular it vanishes only for X = 0.",
  "all numbers of variables and all symmetric X; the optimiser inside is assumed to find the minimum of the problem it is given",
  "The function returns a positive number for nearly all X; that the problem posed to the optimiser constrains only one number is visible from the minimum value for all X, not from samples.",
  ["regain/norm.py:58-80", "regain/validation.py:58-60"])

P("C193", "The fitted covariance has the sample variances and stays within alpha of the sample covariances",
  "The inverse of the fitted precision has the variances of the data on its diagonal; off the diagonal it differs from the sample covariance by at most alpha, and by exactly alpha in the direction of each edge. For networks over time the same holds for the averages over the times weighted by sample size, whatever penalty joins the times. With latent variables it holds for the precision of the observed variables, and the fitted variance in any direction falls short by at most tau.",
  "all numbers of variables and times, all symmetric covariances, all alpha, tau, beta, eta >= 0, all penalties of differences and kernels; for graphical_lasso every call that makes at least two passes, with the recorded residuals as error",
  "The excess of the variances in the time-varying estimators is alpha times the number of times over the sample size, which is small next to the sampling error in any example.",
  ["regain/covariance/graphical_lasso_.py:81-203", "regain/covariance/time_graphical_lasso_.py:86-301", "regain/covariance/kernel_time_graphical_lasso_.py:77-315"])
P("C194", "Small changes of the data change the fitted networks little",
  "Two fits with the same options on two sets of covariances differ by at most a constant times the difference of the covariances. The constant depends on the number of variables, the sample sizes and alpha only (for graphical_lasso: also the smallest variance), not on the starting point, the coupling of the times or beta.",
  "all pairs of positive semidefinite covariances, alpha > 0, every convex penalty of the differences, chains and kernels, latent and not",
  "A Lipschitz bound speaks about all pairs of data sets; sampling perturbations can only show that it was not violated.",
  ["regain/covariance/graphical_lasso_.py:81-203", "regain/covariance/time_graphical_lasso_.py:86-301", "regain/covariance/kernel_time_graphical_lasso_.py:77-315", "regain/covariance/latent_time_graphical_lasso_.py:66-348"])
P("C195", "More penalty never gives more of what is penalised",
  "Raising alpha never increases the l1 norm of the fitted network (and strictly decreases it when the graphical lasso network changes) nor improves the likelihood; raising beta never increases the variation over time; raising tau never increases the trace of the latent part; raising eta never increases its variation over time.",
  "all data, all pairs of penalty values, every penalty function; for graphical_lasso also whole calls with small tolerances",
  "A grid of penalties can look monotone by chance; monotonicity speaks of all pairs.",
  ["regain/covariance/graphical_lasso_.py:81-203", "regain/covariance/time_graphical_lasso_.py:86-301", "regain/covariance/kernel_time_graphical_lasso_.py:77-315", "regain/covariance/latent_time_graphical_lasso_.py:66-348"])
P("C196", "Changing the units of the data only changes the units of the network",
  "Multiplying the covariances by c and alpha, tau by c (beta, eta by c for norms, by c squared for the Laplacian penalty) divides the fitted precisions and latent parts by c, so the edges are the same.",
  "all c > 0, all covariances and penalties; for graphical_lasso also whole calls with small tolerances, from any starts and penalty parameters",
  "Each c is one test; the statement is about all of them and about the exact optimum.",
  ["regain/covariance/graphical_lasso_.py:81-203", "regain/covariance/time_graphical_lasso_.py:86-301", "regain/covariance/kernel_time_graphical_lasso_.py:77-315", "regain/covariance/latent_time_graphical_lasso_.py:66-348"])

P("C197", "The reported objective of the Poisson models is the documented objective",
  "The objective recorded for a sequence of Poisson networks is the negative log-likelihood of the counts plus the l1 penalties plus the penalties on the differences; so a smaller value means a better fit and it is bounded below.",
  "all numbers of times, samples and variables, all data, penalties, kernels and penalty functions; for unboundedness all data of counts with one positive count",
  "The value is only recorded, so every test of the networks passes; an unbounded value only shows far from the sampled networks.",
  ["regain/generalized_linear_model/glm_time_poisson.py:49-67", "regain/generalized_linear_model/glm_poisson.py:44-70", "regain/generalized_linear_model/glm_poisson.py:153-160"])
P("C198", "The Bayesian search returns the best parameters it evaluated",
  "Whatever points the optimiser evaluates, best_params_ is the evaluated point with the best mean cross-validation score, best_score_ is that score, the refitted estimator is the user's estimator with exactly these parameters, and the estimator passed to the search is not changed.",
  "all parameter names, all sequences of evaluated points, all score functions including infinite and nan scores, all estimators",
  "The optimiser is random and the sequence of points unbounded; the tests of the package never run this class because its dependency is optional.",
  ["regain/model_selection/_bayesian_optimization.py:197-261", "regain/model_selection/_bayesian_optimization.py:273-280"])

P("C199", "The forward-backward solver solves the documented problem for every time_norm",
  "For every time_norm p the proximal step of the forward-backward solver is the exact proximal map of beta times the p-norms of the changes over time plus alpha times the l1 norm, so that the networks left unchanged by a step are optimal.",
  "all denoisers that are exact for the chosen norm, all numbers of times and variables; counterexample for the Euclidean norm and three times against every exact denoiser and relaxation",
  "A fixed point that is not optimal looks like convergence; the repository's tests only use the default norm.",
  ["regain/prox.py:242-285", "regain/norm.py:36-39", "regain/forward_backward/time_graphical_lasso_.py:255-303"])

P("C200", "A matrix of penalties, and the graph-constrained fit built on it, is solved",
  "Called with a symmetric matrix of penalties per entry, zero and infinite ones included, the graphical lasso solves the problem with those penalties: entries with an infinite penalty are exactly zero in every result, and without over-relaxation the results converge to the unique optimum unless the penalty parameter keeps changing. The G-Wishart fit in its graphical-lasso mode therefore converges to the maximum likelihood precision of the graph, whose inverse equals the covariance on the edges and the diagonal, the same matrix the other mode looks for.",
  "all positive definite covariances, symmetric penalty matrices with entries in [0, inf], graphs, starts, tolerances, penalty rules, eigensolvers correct on symmetric input",
  "Infinite penalties are never tested; the answer of one optimiser can only be compared with another on examples, and limits cannot be observed.",
  ["regain/bayesian/gwishart_inference.py:168-198", "regain/covariance/graphical_lasso_.py:149-203", "regain/prox.py:49-58"])

P("C201", "Without a penalty the graphical lasso returns the inverse covariance at a geometric rate, with a penalty parameter that never settles",
  "With alpha zero, no over-relaxation and a positive definite covariance, graphical_lasso run with the adaptive rule comes geometrically close to the inverse covariance: after m passes with tolerances zero the squared distance is at most q^m times that of the start, for some q below one fixed in advance. With a positive tolerance it ends without a warning. The adaptive rule never settles in these runs: unless the start is already the answer, the penalty parameter is divided by tau_dec at every pass, tending to zero.",
  "all positive definite covariances, starts, penalty parameters, adaptive options with mu >= 0 and tau_dec > 1, eigensolvers correct on symmetric input, numbers of passes",
  "Whether an adaptive run converges at all is not visible from a finite run; the vanishing penalty parameter is only seen after hundreds of passes.",
  ["regain/covariance/graphical_lasso_.py:149-203", "regain/update_rules.py:33-45", "regain/prox.py:127-136"])
P("C202", "At a constant penalty parameter the graphical lasso converges at a geometric rate",
  "With the penalty parameter kept constant and no over-relaxation, each pass of graphical_lasso multiplies the squared distance to the optimum (precision and multiplier together) by at most an explicit q below one, from the first pass on and from any symmetric start. A call with tolerances zero and m passes is within q^m of the optimum; with a positive tolerance the number of passes needed grows only with the logarithm of the tolerance.",
  "all symmetric covariances for which an optimum exists, alpha >= 0, symmetric starts, positive penalty parameters, tolerances, eigensolvers correct on symmetric input",
  "A rate is a statement about all passes and all data; tests can only time examples.",
  ["regain/covariance/graphical_lasso_.py:149-203", "regain/prox.py:49-58", "regain/prox.py:127-136"])

P("C203", "The Bayesian graphical lasso only keeps edges that a penalised fit had",
  "Whatever is drawn at random, whichever solver is used and however the graphs are scored, the precision returned by bayesian_graphical_lasso is symmetric and is exactly zero at every pair of variables that no graphical lasso fit of the grid of penalties joins (entry zero or below the tolerance in every fit, in one direction at least). With at least one graph drawn and top_n at least one a matrix is returned.",
  "all data, grids of fits, tolerances, random draws, scores, solver outcomes, numbers of resamples and of averaged graphs",
  "The result averages random graphs; a test sees one draw.",
  ["regain/bayesian/gwishart_inference.py:350-395", "regain/bayesian/gwishart_inference.py:117-128", "regain/bayesian/gwishart_inference.py:154-198"])

P("C204", "ker_param='auto' selects a kernel parameter from the data",
  "With ker_param='auto' the parameter of the temporal kernel is chosen to fit the precisions. (It is not: what is minimised is the coupling penalty alone, which for the squared exponential kernel decreases with the length scale and for the constant kernel with the constant, for all data that vary in time. The best length scale does not exist, a search limited from below returns its limit, the kernel tends to no coupling at all, and the alternating procedure is a single fit with that kernel; the periodic kernel with its default period is one at all integer times whatever the parameter.)",
  "all numbers of times, sequences of precisions, non-negative penalties, distinct times, solvers, numbers of outer passes",
  "A test sees a number come out of a scalar optimiser; that it is the end of the interval for every data set cannot be read off examples.",
  ["regain/covariance/kernel_time_graphical_lasso_.py:318-332", "regain/covariance/kernel_time_graphical_lasso_.py:468-531", "regain/generalized_linear_model/glm_time_ising.py:433-490", "regain/generalized_linear_model/glm_time_poisson.py:428-485"])

P("C205", "A time-varying fit without coupling is the separate fit of every time point",
  "With beta = 0, or a kernel that is zero between different times, time_graphical_lasso and kernel_time_graphical_lasso give for every time point what graphical_lasso gives for the data of that time. (They do not: the result is, time by time, exactly the graphical lasso of the covariance with alpha / n_t added to its diagonal and penalty alpha / n_t, and the two calls agree up to any distance; the fitted variances exceed the sample variances by exactly alpha / n_t, so no penalty makes graphical_lasso on the data of that time return it. Under the documented off-diagonal penalty it would be graphical_lasso with penalty alpha / n_t.)",
  "all numbers of times, variables, positive semidefinite covariances, sample sizes > 0, alpha > 0, penalties on differences, starting matrices and penalty parameters",
  "An identity between two different solvers for all inputs; a test compares two runs on one data set up to a tolerance and takes the difference for an effect of the solver.",
  ["regain/covariance/time_graphical_lasso_.py:69-301", "regain/covariance/kernel_time_graphical_lasso_.py:60-315", "regain/covariance/graphical_lasso_.py:81-203"])

P("C206", "make_ticc_dataset_new samples from the precision it returns",
  "For every list of clusters, number of samples, window and draws: the returned inv is symmetric, has no entry between rows more than w_size apart, and all its eigenvalues are at least 0.1; all rows of the data together have exactly the covariance inv^-1, although each row is drawn given the w_size rows before it only; precs[i] is positive definite, at most sparse_precs[i], and equal to it for the last row; sparse_precs of all rows of one label are that label's block plus a common shift of the diagonal. (The dependence between two rows of one label is not a function of their distance: where two segments of one label meet some blocks are transposed.)",
  "all lists of clusters, numbers of samples, dimensions, windows, random draws, factors of the conditional covariances, contents of the uninitialised array",
  "The joint law of a sequential sampler is a statement about the product of all conditional laws; a test on simulated data has sampling error and fixed sizes.",
  ["regain/datasets/kernels.py:152-160", "regain/datasets/kernels.py:313-453"])
P("C207", "Windows of rows of make_ticc_dataset have the covariance returned for their cluster",
  "Within one cluster, the rows of any window of w_size consecutive rows have the covariance covs[cluster]. (This holds exactly for the first window. Later rows follow the autoregression given by the last block row of the cluster's precision, with innovations uncorrelated with the past and of covariance equal to its last diagonal block; but the covariance of later windows is another one: with the block Toeplitz precision [2 1 0; 1 2 1; 0 1 2] the fourth row has variance 11/16 instead of 3/4.)",
  "all windows, dimensions, positive definite precisions, factors of the conditional covariances, numbers of rows; the counterexample for all noise",
  "The covariance of simulated data is only estimated by a test, with an error of the size of the difference.",
  ["regain/datasets/kernels.py:218-310", "regain/datasets/kernels.py:210-215"])
P("C208", "make_ticc_dataset_v3 generates data that depend on the past through the window",
  "Times at most w_size apart are dependent. (They never are: inv has no entry between different times for any window, clusters and draws, so that the mean of every draw is zero whatever was drawn before, and precs equals sparse_precs.)",
  "all windows, lists of clusters, dimensions, random draws, arrays of earlier rows",
  "That a whole family of parameters has no effect for any draw cannot be concluded from examples.",
  ["regain/datasets/kernels.py:456-591"])

P("C209", "The Metropolis-Hastings steps of the Wishart process leave their posterior invariant",
  "If the entries of the lower Cholesky factor are distributed with density proportional to the likelihood times independent priors, then so are the entries returned by sample_ell, for every likelihood and prior and all positive proposal variances. Likewise sample_hyper_kernel leaves the distribution with the log density it evaluates invariant on the positive numbers, with its lognormal proposals.",
  "all dimensions, all measurable likelihoods and priors, all positive proposal variances; normal and uniform draws as measures",
  "Invariance is an identity between distributions: a test sees finitely many draws and can only compare histograms.",
  ["regain/bayesian/sampling.py:156-252"])
P("C210", "The kernel parameter is sampled from its posterior given the latent series",
  "The distribution that sample_hyper_kernel leaves invariant is the posterior of the kernel parameter given the latent series under the zero-mean Gaussian process they are drawn from.",
  "all numbers of series and times, all kernels with positive definite values, all priors",
  "The two densities differ by a term in the mean of the series that no assertion on the type or sign of the result shows.",
  ["regain/bayesian/sampling.py:177-183", "regain/bayesian/gaussian_process_.py:33-55"])

P("C211", "The graphical lasso is consistent when alpha goes to zero",
  "For rows drawn independently from one distribution with finite second moments and nonsingular covariance, and penalties alpha that go to zero, almost surely the estimate from the first N rows is eventually as close to the population precision as desired and contains every edge of it with the right sign; this holds for the optimum and for what graphical_lasso returns at a constant rho with small enough tolerances and enough iterations, from any initial matrix. Before the limit: the error is at most 2 tr(precision)^2 times the error of the sample covariance plus d alpha, once this is small; the same for K - L of the latent variable version for every tau. With alpha fixed the limit is not the population precision if this has an edge.",
  "all distributions with finite second moments and positive definite covariance, all dimensions, all penalty sequences, all initial matrices, centered or not",
  "A statement about almost every infinite data set and all distributions; a test draws one sample of one size from one distribution.",
  ["regain/covariance/graphical_lasso_.py:60-240", "regain/covariance/graphical_lasso_.py:318-338", "regain/covariance/latent_graphical_lasso_.py:49-230"])
P("C212", "Time-varying estimates are consistent at fixed penalties when the numbers of samples grow",
  "When the number of rows of every time point grows without bound, each drawn from the distribution of its time point, almost surely the precisions of the time-varying graphical lasso with fixed alpha and beta approach the population precision of every time point, no matter how these change in time and for every convex coupling (for the optimum: every continuous non-negative one, also with an l2 or squared penalty). The same holds for the optimum of the kernel version with a fixed kernel and for K - L of the latent variable version for every tau and eta. Before the limit the error of each time point is bounded by the error of its sample covariance and the penalty of the sample precisions over its own number of samples.",
  "all numbers of time points and variables, all distributions with finite second moments and positive definite covariances, all fixed penalties, all sample sizes growing without bound at any relative speed",
  "A limit over infinite data sets; no finite run distinguishes a vanishing bias from a small one.",
  ["regain/covariance/time_graphical_lasso_.py:54-100", "regain/covariance/time_graphical_lasso_.py:103-330", "regain/covariance/time_graphical_lasso_.py:461-520", "regain/covariance/kernel_time_graphical_lasso_.py:53-120", "regain/covariance/latent_time_graphical_lasso_.py:53-90"])

P("C213", "The groups of dependent variables are recovered",
  "If every sample covariance is within alpha of the population covariance and alpha is below an explicit bound given by the population precision, the graphical lasso optimum has exactly the connected components of the population graph, and all of its edges with their signs. For rows drawn independently with finite fourth moments, penalties alpha that go to zero while N alpha^2 goes to infinity, the probability of this goes to one.",
  "all populations with positive definite covariance and finite fourth moments, all dimensions and graphs, all penalty sequences of that kind, centered or not",
  "Recovery of an unknown graph with probability tending to one is a statement about distributions; simulations only show frequencies for one of them.",
  ["regain/covariance/graphical_lasso_.py:60-240", "regain/covariance/graphical_lasso_.py:318-338"])

P("C214", "How often the Bayesian graphical lasso resamples an edge",
  "Each blanket's score is a sum of training coefficients of determination, so it lies between 0 and the number q of penalties, and the empty blanket of a non-constant variable scores exactly 0. Hence, however many samples there are, no blanket of a node is more than e^q (about 20 by default) times as likely to be drawn as another, each of m blankets has probability between e^-q/m and e^q/m, and an edge in at least one blanket of each end is resampled with probability at least (e^-q/m)^2. A resampled graph joins two nodes with exactly the product of the total weights of the blankets of either end that contain the other, and at least one of R resamples does with probability 1-(1-that)^R.",
  "all data sets, blankets, non-negative penalties, solutions of the regressions, numbers of resamples",
  "Probabilities of random draws and bounds over all data sets; a test sees a few draws for one data set.",
  ["regain/bayesian/gwishart_inference.py:87-114", "regain/bayesian/gwishart_inference.py:117-128"])

P("C215", "With enough data Gaussian neighbourhood selection finds every edge, and precision_ approaches the precision matrix",
  "When the second moments of the rows approach those of the population and alpha goes to zero, the coefficients of each regression approach -K[r,j]/K[r,r], K the inverse of the second-moment matrix, with an explicit error bound for every sample; almost surely so for rows drawn independently. Every edge of K is eventually selected, with union and with intersection. The values do not approach the precision matrix: every non-zero off-diagonal entry of precision_ eventually has the sign opposite to that of K, and the diagonal is 1. The regressions have no intercept, so uncorrelated variables whose means are not zero are eventually joined.",
  "all populations with finite second moments and invertible second-moment matrix, all penalty sequences going to zero, all solutions of the regressions, both reconstruction rules",
  "A limit over sample sizes for unknown distributions; tests see finitely many samples of one distribution.",
  ["regain/generalized_linear_model/glm_gaussian.py:42-105", "regain/generalized_linear_model/glm_gaussian.py:179-202", "regain/generalized_linear_model/base.py:18-36"])

P("C216", "The curve drawn for a covariance matrix is the set of points at the given number of standard deviations",
  "For an invertible covariance the outline drawn by plot_cov_ellipse and the curve drawn by plot_cov_2d are exactly the points x with (x - centre)^T cov^-1 (x - centre) equal to the squared number of standard deviations, whichever eigenvectors the decomposition returns; the hundred points of plot_cov_2d lie on it and close the curve. The axes set by plot_cov_ellipse contain the ellipse, npts sets the number of points, and plot_cov_2d returns the correlation: all three are false.",
  "all invertible 2x2 covariances, all centres, all positive numbers of standard deviations, all valid eigendecompositions",
  "Plots are compared with stored images for one covariance, if at all; the set of points is a statement about all matrices and all choices of eigenvector signs.",
  ["regain/plotting/covariance.py:37-64", "regain/plotting/covariance.py:67-111"])

P("C217", "A Poisson graphical model does not join independent counts",
  "With more and more rows, PoissonGraphicalModel leaves two independent variables unconnected. In fact what it compares with alpha approaches mean(k) * (mean(r) - 1) for independent variables: above all of these values precision_ is eventually exactly the identity, below one of them every solution has an edge. Independent Poisson counts of any rate other than one are joined, and with intercept=True counts of rate above one still are, because the coefficient of the column of ones is penalised too.",
  "all laws with finite second moments, almost all sequences of pairwise independent rows, all alpha, both reconstruction rules",
  "A test sees one data set of one size; the claim is about the limit of all data sets of a law, where edges between independent variables do not disappear.",
  ["regain/generalized_linear_model/glm_poisson.py:44-144", "regain/generalized_linear_model/glm_poisson.py:250-285"])

P("C218", "The generator with sparse latent variables always returns proper models",
  "data_Meinshausen_Yuan_sparse_latent(p, h, n, T) returns for every random state: at each time the observed precision, the latent precision and the connections form a positive definite joint precision, the samples are drawn with the covariance of the observed variables in that joint model, the returned observed precision is its inverse, and each latent variable is connected to the observed variables nearest to it. The first parts hold for the defaults and whenever there are at least ten nodes and few latent variables; with few nodes the call raises TypeError, and the connections are shifted: the variable that is connected is h places before the near one.",
  "all rankings and shuffles a random state can produce, all T, all p and h with p + h at least 10 and 2 h^2 v^2 < 0.02 (1 - (h-1) v) for v = 1.96/(p+h)",
  "A test runs a few seeds; whether an assertion can fail for some seed or at some later time is a statement about all of them, and the shift leaves matrices that look equally plausible.",
  ["regain/datasets/gaussian.py:141-248"])

P("C219", "The Meinshausen-Yuan generator only joins nodes whose probability passed its threshold",
  "In the graphs of the Meinshausen-Yuan generator an edge joins two nodes only if their probability of being joined, as the generator computes it from the locations and its random thresholds, is positive. This holds for the edges a node draws to later nodes when at least four nodes from that one on have a positive probability; in general it does not: the four best nodes are taken even when their entry is zero, so a graph with two or more nodes always has an edge.",
  "all locations, all thresholds, all orders of the ranking on ties",
  "A test sees graphs for a few seeds; whether an edge can appear between nodes that were ruled out is a question about all thresholds and rankings.",
  ["regain/datasets/gaussian.py:43-55", "regain/datasets/gaussian.py:68-93"])
P("C220", "The nodes of the Meinshausen-Yuan generator stay in the unit square",
  "The generator places nodes in the unit square and moves them by at most 0.03 in each coordinate from one time to the next. The bound on the moves holds, and coordinates never become negative; but they can pass 1, because the new locations are only cut off below. After t times a coordinate is at most 1 + 0.03 t.",
  "all starting locations in the unit square, all draws, all numbers of times",
  "Leaving the square needs particular draws near its upper border; a test with a few seeds and times may never see it.",
  ["regain/datasets/gaussian.py:58-65"])
P("C221", "The mean of the Wishart distributions is the expectation under their likelihood",
  "For the Wishart and the inverse Wishart distribution, the value of the likelihood is the density of a probability distribution and the mean is its expectation. Proved in one dimension, for the inverse Wishart when the degrees of freedom exceed two; with fewer degrees of freedom the expectation is infinite and the returned mean is a negative number.",
  "all positive scales and degrees of freedom, in one dimension",
  "That a function integrates to one and that its first moment equals a formula is a statement about an integral over all matrices; a test can only compare sampled values.",
  ["regain/bayesian/wishart_distribution_.py:50-52", "regain/bayesian/wishart_distribution_.py:76-77", "regain/bayesian/wishart_distribution_.py:91-94"])
P("C222", "The similarity learned between times is a positive semidefinite kernel",
  "The estimators that learn the similarity between times return a table that is a kernel (positive semidefinite), so that it can be passed on to methods that expect one. True for two times (it is the identity) and for three times when the penalty satisfies the triangle inequality; false for three networks in a straight line with the default penalty, and for the Ising estimator already with six small networks.",
  "all sequences of networks of any size",
  "Definiteness is about all vectors, and the failing tables come from particular configurations of estimated networks that a test on data does not meet on purpose.",
  ["regain/covariance/kernel_time_graphical_lasso_.py:349-362", "regain/generalized_linear_model/glm_time_ising.py:567-576"])
P("C223", "The bisection of the group update finds the minimiser",
  "The update of one group in the solver by feature splitting returns the minimiser of the squared error plus the penalty times the Euclidean norm: zero exactly when the correlation with the target is at most the penalty, otherwise the solution of the shifted linear system whose shift is within 1e-6 of the right one. The second part holds when the right shift is at most 1e10; for larger ones (columns of large scale) the result is far from the minimiser.",
  "all matrices, targets and penalties, with an orthonormal eigendecomposition of the Gram matrix",
  "That 100 halvings always suffice, that the comparison is monotone and that singular matrices do no harm concern all inputs; the failing scale is outside what tests use.",
  ["regain/linear_model/_group_lasso_overlap_old_.py:151-170"])

P("C224", "WishartProcess estimates invertible covariances",
  "After fit, WishartProcess has for each time a positive definite covariance and its inverse as precision, from which the network of the variables can be read. False for all data and draws with two or more variables: covariances are built from a single replicate of the process, so each one is the outer product of one vector, all correlations are 1 or -1, the precision is not an inverse, and every estimated network is a complete graph on the variables with positive variance; the predicted covariances are singular as well.",
  "all states the sampler can select, all factors, all numbers of times and variables",
  "A test checks shapes and that fit runs; that no run can give an invertible matrix is a statement about all states of the chain.",
  ["regain/bayesian/wishart_process_.py:305", "regain/bayesian/wishart_process_.py:351-355", "regain/bayesian/sampling.py:39-42", "regain/bayesian/wishart_process_.py:166-209"])
P("C225", "WishartProcess returns the most likely sample after the burn-in",
  "The covariances returned by WishartProcess.fit are those of an iteration after the burn-in and have the largest likelihood of all of them; ValueError is raised exactly when no iteration is left. True with learn_ell=False; with learned factors (the default) the state of the best iteration is combined with the factor of the last one, a pair the chain need not have visited and whose likelihood can be below that of every iteration.",
  "all runs of the chain: all proposals, acceptances, lengths and burn-ins",
  "The recorded likelihood looks right in every run; whether it belongs to the returned covariances depends on which arrays are shared over the whole run.",
  ["regain/bayesian/wishart_process_.py:95-159", "regain/bayesian/wishart_process_.py:332-351", "regain/bayesian/sampling.py:146-155"])

P("C226", "The intercept of GroupLassoOverlap is free and not penalised",
  "With fit_intercept=True, if the solver minimises squared error plus penalty on the centred data, then coef_ and intercept_ together minimise squared error plus penalty over all coefficients and all intercepts; the residuals of every target add up to zero whatever the solver returns; moving the origins of features and targets leaves coef_ unchanged and moves predictions by the same amount. The shapes of coef_, intercept_ and predictions are those of the targets for two or more features. False for a single feature with several targets: fit raises ValueError, since the squeezed coefficients look like those of one target.",
  "all data, penalties, solvers, numbers of samples, features and targets",
  "Tests compare a few fitted coefficients on data that is already centred; the joint minimum is a statement about all coefficients and intercepts.",
  ["regain/linear_model/group_lasso_overlap_.py:291-301", "regain/linear_model/group_lasso_overlap_.py:317-358", "regain/linear_model/group_lasso_overlap_.py:416-423"])

P("C227", "GroupLassoOverlapClassifier predicts the class of largest decision value, whatever the classes are called",
  "A predicted label is one of the labels of the training data; it is the one with the largest decision value for any number of classes, including one and two, when that value is attained once; renaming the classes, in any order, renames the predictions; with a penalty that leaves no coefficient a most frequent class is predicted. The default solver treats targets of opposite sign alike, which the case of two classes rests on. False at ties, where the first name in order wins, and for a single feature with three or more classes, where fit raises ValueError.",
  "all data, labels of any ordered type, solvers that treat opposite targets alike, rows to predict, renamings",
  "A test classifies a few data sets with fixed names; that names and their order play no part is a statement about all labelings and renamings.",
  ["regain/linear_model/group_lasso_overlap_.py:469-493", "regain/linear_model/group_lasso_overlap_.py:91-180", "regain/linear_model/group_lasso_overlap_.py:419-420"])

P("C228", "Features in no group, and the default of no groups, are fitted with the penalty and stop like others",
  "GroupLassoOverlap penalises with alpha and stops by its tolerances for any list of groups, including the default groups=None. False: with the default the coefficients are those of ordinary least squares for every alpha and rho, and although they are found in the first pass, all max_iter passes are run unless the coefficients are tiny; for any list of groups, a call that stops by its own test has coefficients below the primal tolerance on all features that lie in no group.",
  "all data, penalties, parameters, groups, numbers of passes",
  "A test with some alpha returns finite coefficients; that alpha never matters and that the test never fires are statements about all values and all passes.",
  ["regain/linear_model/group_lasso_overlap_.py:91-180", "regain/linear_model/group_lasso_overlap_.py:218", "regain/linear_model/group_lasso_overlap_.py:65-88"])

P("C229", "Fitting GroupLassoOverlap again with warm_start=True gives the model of the new data",
  "With warm_start=True a second fit returns the coefficients a fresh fit would return, with one row per target of the new data. True for as many targets and features as before. False otherwise: with fewer targets the rows of the previous fit stay in coef_, with more targets fit raises IndexError, with another number of features ValueError.",
  "all previous and new coefficients, numbers of targets and features",
  "A test fits twice on data of one shape; the rows left over only show for other shapes.",
  ["regain/linear_model/group_lasso_overlap_.py:306-311", "regain/linear_model/group_lasso_overlap_.py:317-358"])

P("C230", "A network written with write_network is read back by read_network",
  "read_network(f) after write_network(df, f) returns the network df. False with pandas 0.24 and later for every network: the file has a header line with empty labels, and read_network raises TypeError. With older releases a symmetric network with non-negative entries comes back off the diagonal for every number of nodes and every order of ties; negative entries come back as 0; the diagonal comes back for an even number of nodes with fill_diagonal=False and is replaced by row sums by default.",
  "all networks, numbers of nodes, orders in which equal weights are sorted",
  "A test reads one small file written by hand; what the pair of functions loses depends on signs, parity and ties of all networks.",
  ["regain/utils.py:188-190", "regain/utils.py:229-244"])

P("C231", "display_topics lists the heaviest words and documents",
  "For every topic display_topics lists min(n_top_words, number of words) distinct words, heaviest first, and no word left out is heavier than a listed one; the printed documents are the min(n_top_documents, number of documents) heaviest in the same sense. This includes asking for no words and for more words than there are.",
  "all topics, weights (with ties), requested numbers, orders argsort chooses among equal weights",
  "A test sees one matrix; the boundary cases of the backward slice [: -n - 1 : -1] (n = 0, n >= length) and ties need all lengths.",
  ["regain/utils.py:51-71"])

P("C232", "Time points may have different numbers of samples",
  "The latent time matrix decomposition accepts a list with one data matrix per time point if there is at least one, all have the same d >= 2 variables and each has at least two samples, and reports the numbers of samples, d and the number of time points; any other list is a ValueError. True with numpy before 1.24. False with numpy 1.24 and later: a list whose time points differ in their numbers of samples is rejected with ValueError. Arrays of shape (T, n, d) are accepted for T >= 1, n, d >= 2; without time points they raise IndexError instead of ValueError.",
  "all lists of blocks and all array shapes, both numpy generations",
  "A test calls fit with one array of one shape under one numpy release; the outcome depends on all combinations of shapes and on the release.",
  ["regain/validation.py:88-105", "regain/covariance/latent_time_matrix_decomposition.py:485"])

P("C233", "Random blocks of the TICC generators have the requested couplings and sparsity",
  "The blocks drawn by make_ticc and make_ticc_dataset: the first is symmetric with zero diagonal, has min(int(n(n-1)s/2), n(n-1)/2) couplings for sparsity_inv_matrix = s, and every coupling of every block has size between 0.3 and 0.6 (low and upper). The parameter called sparsity is a density: with s = 1 no off-diagonal entry is zero, with s = 0 all are, for every size and all draws.",
  "all sizes, random graphs, draws, ranges 0 < low <= upper",
  "A test sees some draws of one size; that a size never leaves the range and that the parameter acts as density needs all draws.",
  ["regain/datasets/kernels.py:135-149", "regain/datasets/kernels.py:152-160", "regain/datasets/kernels.py:171-180"])

with open(os.path.join(os.path.dirname(__file__), "..", "properties.jsonl"), "w") as f:
    for o in out:
        f.write(json.dumps(o) + "\n")
print(len(out))
