{
"C01": {
"note": "Unique minimiser for every finite index type, vector and matrix form."
},
"C02": {
"note": "All clauses, including the behaviour for negative lamda."
},
"C03": {
"note": "Unique minimiser; diagonal untouched; symmetry preserved."
},
"C04": {
"note": "Code disagrees: lamda = 0 with a zero column gives NaN. Exact for lamda > 0 or no zero column."
},
"C05": {
"note": "Code disagrees: any zero column turns the whole result into NaN. Exact when no column is zero."
},
"C06": {
"note": "For every eigendecomposition the solver may return."
},
"C07": {
"note": "For every eigendecomposition and every real lamda."
},
"C08": {
"note": "Unique minimiser, linear, odd, contraction."
},
"C09": {
"note": "Both clauses, for every eigendecomposition."
},
"C10": {
"note": "For every exact total-variation solver (contract proved satisfiable)."
},
"C100": {
"note": "The fixed points solve the squared-loss problem with the full l1 norm; the log-likelihood problem of the docstring is refuted, and so is the off-diagonal norm. The returned iteration count is one too small (C100_call). Convergence of the runs is C155."
},
"C101": {
"note": "History and warning proved; the returned count of the three latent solvers is one too small in every call (C101_count_false); the kernel solver without latent variables is right (C101_kernel)."
},
"C102": {
"note": "Constant penalty only (tau_inc = tau_dec = 1): with the adaptive rule no convergence is claimed. The problem is the one with the full l1 norm (see C94)."
},
"C103": {
"note": "Constant penalty only (tau_inc = tau_dec = 1). The problem is the one with the full l1 norm (see C21)."
},
"C104": {
"note": "Constant penalty, over_relax = 1. A feature with zero variance leaves the problem without an optimum."
},
"C105": {
"note": "The ranking of the neighbours and the shuffle are arbitrary (any permutation). The bound on h * p is needed for the latent part and is met by the defaults. Real arithmetic."
},
"C106": {
"note": "The shape of the result is proved. Positive definiteness of the observed precisions after the first time is false: the only repair, adding epsilon plus the diagonal of the latent part, is not enough (C106_posdef_false)."
},
"C107": {
"note": "Validity is proved. The pattern is not fixed: nonzeros is computed from theta - np.diag(theta), which subtracts the diagonal from every row, so zero entries receive noise (C107_sparsity_false)."
},
"C108": {
"note": "Validity is proved for every input; normalize=True is ignored because map is lazy in Python 3 (C108_normalize_false)."
},
"C109": {
"note": "Validity is proved; thetas_obs is reassigned inside the loop, so only the last observed precision is returned (C109_observed_false), and T=0 raises NameError."
},
"C11": {
"note": "Decision rule, positivity, bound over any number of calls."
},
"C110": {
"note": "Positive definiteness is proved when the threshold is off (epsilon <= 0); with the default epsilon=1e-3 it fails for some draws (C110_posdef_false). The orthogonal factors are any orthogonal matrices."
},
"C111": {
"note": "The marginal statement is proved for every draw. The argument n_latent is not used: below 20 observed variables there is no latent variable at all (C111_latent_count_false). make_ma_xue_zou_rand_k overwrites the positive definite matrix with A, which is never positive definite once an observed pair is chosen (C111_rand_k_false)."
},
"C112": {
"note": "The smallest eigenvalue is an oracle specified by IsMinEig. Random blocks are arbitrary; sparsity of the draws is not used. Real arithmetic."
},
"C113": {
"note": "The layout and the rejections are proved. False: documented modes evolving, fixed, l1, l1l2 raise ValueError; offered modes my, mys, ticc never return; degree is ignored for Ising and Poisson data."
},
"C114": {
"note": "Proved for the joint precision and without latent variables; false with latent variables (AssertionError for some samples)."
},
"C115": {
"note": "The sampled functions are arbitrary numbers, so nothing is said about their distribution. Real arithmetic."
},
"C116": {
"note": "Symmetry proved; at most two pairs change per class; self-loops and indefinite Gaussian networks occur."
},
"C117": {
"note": "Count proved: T or T + 1; the precisions are not symmetric; too few times raise ZeroDivisionError."
},
"C118": {
"note": "Proved when T is a multiple of len(clusters) and each segment is cut evenly; false for the default arguments (ValueError; AssertionError in make_ticc_dataset_new)."
},
"C119": {
"note": "For every positive definite precision of the cluster; the draws themselves are not modelled here. Real arithmetic."
},
"C12": {
"note": "At every iteration of every run of graphical_lasso."
},
"C120": {
"note": "Input validation (check_X_y) is not modelled."
},
"C121": {
"note": "Partial: the returned number is 2*loglik + N*p*log(2*pi), not the log-likelihood; counterexamples for absent classes (nan; ValueError with scikit-learn releases that validate the empty block) and indefinite matrices."
},
"C122": {
"note": "The decision rule, alignment and error cases are proved; two counterexamples: the wrapped estimator is modified in place with ensure_posdef, and latent variable estimators are used with the covariance of precision_ rather than of the observed precision."
},
"C123": {
"note": "C123_ising assumes that the proximal map keeps zero diagonals; C123_exact derives this for exact proximal maps of penalties that do not depend on signs, and C123_penalties shows that laplacian, l1, l2 and linf are such penalties. The node penalty, whose map is an inner iteration, is not covered. The neighbourhood fits of the Poisson estimator are arbitrary functions."
},
"C124": {
"note": "False as documented: A is divided by n_times although only n_times - 1 consensus terms are summed (there is no Z_0 here), so the fixed points carry an extra ridge penalty rho/2 * sum ||K_t||^2. C124_stationary_partial proves the corrected statement for an exact inner fit; C124_inner_partial proves the inner contract for fixed points of the Ising step on one sample (several samples: see C41)."
},
"C125": {
"note": "False in several places: any two values are accepted and constant spin data rejected; array kernels and ker_param='auto' never work; SimilarityTemporalPoissonModel cannot be constructed; score is a constant."
},
"C126": {
"note": "False: the loss enters the reported objective with the wrong sign (it differs from the documented objective by twice the loss)."
},
"C127": {
"note": "The property holds as soon as two networks differ (`_partial`). If all networks are equal, or with a single time, every entry is nan (0/0), also on the diagonal. The Ising version ignores `psi` and the diagonals."
},
"C128": {
"note": "When the loop breaks, the exposed table is the similarity of the returned networks, which are a fixed point of the alternation. When the rounds run out, `similarity_matrix_` is the kernel of the last fit (diagonal 2). The similarity table is passed to the clustering as a table of distances, so the most different networks are merged first and equal networks are separated. `init=\"zeros\"` (or any init with equal networks) raises ValueError for all data. With a given kernel `transform` raises NotFittedError. The inner solver and the linkage are arguments of the model (see C-claims on the solver for the former)."
},
"C129": {
"note": "Holds for 17 classes. `ker_param` of SimilarityTimeGraphicalLasso and SimilarityTemporalIsingModel is not handed to the parent: the stored value is always the default. get_params of WishartProcess (four priors) and PrecomputedDiscriminantAnalysis raises AttributeError. SimilarityTemporalPoissonModel cannot be constructed (TypeError). burn_in, groups, priors, cv and param_grid are rewritten by the constructors; a given cv is ignored."
},
"C13": {
"note": "Both clauses, single call and sequences."
},
"C130": {
"note": "Holds for 15 solver calls. `phi` of the kernel-based latent estimators never reaches the solver. A list of options has no effect at all on what the solver receives (mode, suppress_warn_list, beta of KernelTimeGraphicalLasso, assume_centered in three classes, and others). Local expressions are assumed to read only the attributes that the text of the class reads."
},
"C131": {
"note": "Holds for 18 classes. n_clusters of the similarity estimators, alpha=\"max\" of the forward-backward estimator, alphas of BayesianGraphicalLasso, and sampling_size and cv of the stability selection are overwritten by the first fit. Methods inherited from scikit-learn are assumed not to assign constructor parameters."
},
"C132": {
"note": "Values at consensus for all eight solvers, and limits for all of them at a constant penalty parameter: unconditional for graphical_lasso, the two time-varying solvers, infimal_convolution (penalty below 2), latent_time_matrix_decomposition (penalty below 4) and latent_graphical_lasso with tau >= d alpha; for the latent solvers with small penalties and small penalty parameter (C132_*_small_penalties); otherwise under the hypotheses of C158 and C161. The limit is the documented objective at the limit of the estimates, which minimises the problem with the full l1 norm (C94, C99), hence not always the documented one. C132_domain_false: the domain is only tested through the sign of the determinant, so an indefinite matrix with positive determinant gets a finite value instead of inf (first entry with init=-I and two variables)."
},
"C133": {
"note": "The objectives carry the full l1 norm for the temporal solvers, which is what these solvers minimise (see C21, C94)."
},
"C134": {
"note": "The alternative 'changes forever' is not excluded: with fixed factors different from 1 that is the only way the adaptive rule can prevent convergence."
},
"C135": {
"note": "zero or negative variances give NaN (C135_finite_iff)"
},
"C136": {
"note": "partial because the docstring's positive definiteness fails (C136_posdef_false) and an odd row count loses a row (C136_odd_false); files with targets missing from the first column and negative thresholds are not modelled"
},
"C137": {
"note": "partial because asymmetric input is judged by its lower triangle (C137_asymmetric_false)"
},
"C138": {
"note": "partial because evenly spread terms keep a positive weight (C138_uniform_false)"
},
"C139": {
"note": "partial because different lengths are cut silently (C139_length_false)"
},
"C14": {
"note": "Code disagrees: n_iter is one less than the iterations performed when the loop breaks or ends; max_iter = 0 raises NameError. All other clauses proved."
},
"C140": {
"note": "partial because of the quadratic scaling (C140_units_false)"
},
"C141": {
"note": "multigammaln and fast_logdet are trusted (log det on positive definite matrices). sample() is not covered."
},
"C142": {
"note": "Conjugacy, mode, marginal and predictive are proved for the parameters; C142_posterior_object_false: posterior stores the mean as a 1 x D array, which scipy's multivariate_normal refuses, so log_likelihood of a returned posterior raises unless D = 1. Proportionality constants of the Student laws are not computed."
},
"C143": {
"note": "Floating point not modelled."
},
"C144": {
"note": "Prediction given samples; the sampler itself is C89 and not repeated. The kernel inverse is an argument."
},
"C145": {
"note": "Proved for every n; argsort is any sorting permutation."
},
"C146": {
"note": "LassoLars scores are arbitrary reals."
},
"C147": {
"note": "C147_unbounded_false: covsel accepts indefinite matrices with positive determinant and its value is unbounded below there, so the optimiser is trusted to stay in the cone. The optimiser itself is not modelled."
},
"C148": {
"note": "P is whatever the optimiser returned."
},
"C149": {
"note": "C149_diagonal_false: diagonal parameters are counted twice per direction (Hessian entry 4 times too large; the constant cancels in the score). C149_logh_false: logh has + n_dim where h has - n_dim, so Laplace scores are too large by n*p for every graph (the ranking is not affected)."
},
"C15": {
"note": "Invariant for every number of iterations and every penalty update."
},
"C150": {
"note": "C150_default_prior_false: np.cov(X) takes rows as variables, so the default S0 is n x n and GWishartScore raises ValueError unless n = p. The behaviour of laplace scoring on the empty data set depends on the sklearn version and is not modelled."
},
"C151": {
"note": "Partial: runs that leave the positive definite cone (possible, C70) or exhaust the 200 trials of the search are excluded by hypothesis; convergence, optimality of the limit and termination are proved for all other runs."
},
"C152": {
"note": "Convergence, termination and accuracy are proved; the last sentence is false: with the fixed step size 1/1000 of the estimator the iterates diverge on data with entries 100 (C152_default_diverges_false)."
},
"C153": {
"note": "Partial: proved for the problem built from the first sample alone (divided by the number of samples), which is what the gradient of the code uses; C153_first_sample_false shows that all other samples are ignored."
},
"C154": {
"note": "partial: the inner fits are assumed exact (C153 proves that they converge, for one sample); convergence is for a constant penalty. The limit solves the problem with the extra term rho/2 sum of squares, see C124. C154_certificate has no restriction on the penalty schedule."
},
"C155": {
"note": "At a constant penalty below 2 (C155_infimal_converges), and for every penalty rule, the default one included, unless the penalty changes forever or settles at 2 or more (C155_infimal_adaptive). The stopping rule does not monitor the change of K and L, so the accuracy statement excludes a pass whose recorded residuals are both exactly zero."
},
"C156": {
"note": "At a constant penalty below 4 (C156_decomposition_converges), and for every penalty rule, the default one included, unless the penalty changes forever or settles at 4 or more (C156_decomposition_adaptive). Same remark on the stopping rule as C155."
},
"C157": {
"note": "About the problems, not the iterations: minimisers of the objective over feasible pairs. Uniqueness is for K - L only."
},
"C158": {
"note": "For every constant rho small enough the conclusion holds with no assumption on the iterates when the penalties are small against the data (C158_*_small_penalties: 2 sqrt(T) (d alpha + 4 kpsi sum(beta) + 2 kphi sum(eta)) <= min(n_samples) * smallest eigenvalue of the covariances, kpsi and kphi the Lipschitz constants of the couplings); the proof bootstraps the first pass: it bounds the energy, the energy bounds the next R, and while R is bounded the energy decreases. Outside that regime the partial theorems assume that the computed R are eventually bounded by c with rho*c*b < 2*min(n_samples)."
},
"C159": {
"note": "Equality is up to the type of the record (the static one also carries the objective flag, which is never raised for a symmetric covariance)."
},
"C16": {
"note": "Both directions, any dimension."
},
"C160": {
"note": "Eigendecompositions are an oracle (IsEighOracle); alpha >= 0, rho > 0 and positive factors of the penalty rule are assumed. Real arithmetic."
},
"C161": {
"note": "Full for tau >= d*alpha, and for every tau >= 0 and every rho small enough when 2 d alpha is at most the smallest eigenvalue of S (C161_small_penalties); otherwise the boundedness of the computed R is a hypothesis."
},
"C162": {
"note": "linalg.pinv is taken to compute the pseudo-inverse in exact arithmetic."
},
"C163": {
"note": "linalg.pinv is taken to compute the pseudo-inverse in exact arithmetic."
},
"C164": {
"note": "Proved when the blocks are linearly independent on the support of w0 and radii are at most 1; both exclusions are necessary (C164_nested_false, C164_radius_false)."
},
"C165": {
"note": "The certificate is proved; the stopping test itself is refuted (C165_stale_false)."
},
"C166": {
"note": "Holds for one group, refuted for every input with two or more."
},
"C167": {
"note": "Exactness of the inner steps and convergence of the accelerated loop are not claimed."
},
"C168": {
"note": "Covers coefficients, pass number, residuals and tolerances; the recorded objective depends on the groups (C171). The finding behind it: the x-update shrinks every copy separately, so the group structure is lost."
},
"C169": {
"note": "Both numpy behaviours for groups of different lengths are covered by the flag `ragged`."
},
"C17": {
"note": "Code disagrees for over_relax other than 1; exact relation at stationary states proved, witness in dimension 1."
},
"C170": {
"note": "F is the objective the loop in fact minimises (C74), not the documented one; `np.linalg.inv` enters as an exact inverse. Convergence of the loop is C176."
},
"C171": {
"note": "Counterexample at run level. The agreement theorem is for groups without repeated entries."
},
"C172": {
"note": "In exact arithmetic: the tests for inf and nan on the loss never fire in the model. Strengthens C65, whose counterexample shows that accepted points need not be proximal gradient steps."
},
"C173": {
"note": "The limit is proved for the run without early stop; the early stop ends with a short step, which does not bound the distance to the minimiser."
},
"C174": {
"note": "False: the acceptance test leaves out the coupling term, so for one sample with predictor 1, response 0, alpha = 0 and coupling value 2 every trial is rejected and the loop does not end in exact arithmetic (in floating point it ends when the step underflows, with zero progress). regain/generalized_linear_model/glm_time_poisson.py:172 calls this function with a coupling matrix."
},
"C175": {
"note": "False with intercept=True (the matrix has one row more than the data has variables, for every data set); `C175_arguments_ignored` shows that gamma and max_iter of the constructor have no effect. The data is taken as already accepted by check_array."
},
"C176": {
"note": "Partial: proved when 2*rho exceeds the largest curvature of the loss relative to the group counts, and when rho is at most the smallest one (exact arithmetic, exact inverse). For rho between these bounds, possible when the largest curvature is more than twice the smallest one, neither convergence nor a diverging run is known. The theorems about large and small rho are separate (C176_converges_partial, C176_small_rho_partial)."
},
"C177": {
"note": "Partial: one estimator raises ZeroDivisionError (C177_single_false). The graphlet distance of netanalytics is an arbitrary symmetric function vanishing on the diagonal."
},
"C178": {
"note": "Partial: with at most ten samples the default is zero or negative, and with more classes than drawn samples the size is rounded down to zero."
},
"C179": {
"note": "Partial: nodes in the same place (self-loops) get the index -1 and hence the class of the longest chords (C179_self_loop_false). Drawing itself is not modelled."
},
"C18": {
"note": "Monotone distance, vanishing residuals, convergence of Z to the optimum, explicit iteration bound for termination without warning."
},
"C180": {
"note": "Partial: rows, labels and networks are aligned for all three distributions, but the Ising sampler zeroes the diagonals of the networks in place, so the networks returned are not the generated ones (whose diagonals are 1), and n_classes=0 yields rows without labels. The distribution of the draws is not modelled."
},
"C181": {
"note": "Partial: conditional distributions, invariance and independence of the samples are proved for symmetric theta (and balance fails for every other theta), but with a positive coefficient no such distribution exists, the call can raise ValueError from some starting state, one variable raises IndexError, and variances of another size are silently replaced by zeros. Convergence of the chain to the invariant distribution is not proved."
},
"C182": {
"note": "Partial: success is characterised, but theta loses its diagonal in place, CFTP_retry <= 1 raises UnboundLocalError, CFTP with max_iter=0 never returns, and the direct method draws without replacement."
},
"C183": {
"note": "Exact equality of the whole return value (exceptions, history, iteration number, warning). Spec/Relabel.lean defines the relabelling; C183_covariance shows it is what relabelled data give."
},
"C184": {
"note": "Exact equality of the whole return value; the recorded objectives are sums in the natural model, where the order of summation does not matter (floats: up to rounding)."
},
"C185": {
"note": "The returned-result statements are for a constant penalty parameter; for the time-varying solvers they say the entries between groups are as small as wanted (not exactly zero). The latent variable versions are not covered: they have no l1 penalty on the low-rank part."
},
"C186": {
"note": "Constant penalty parameter (tau_inc = tau_dec = 1), over_relax = 1."
},
"C187": {
"note": "`pull` in the bound on beta is written out in Props/TimeConst.lean."
},
"C188": {
"note": "C188_gauss_optimal_iff, C188_gauss_empty, C188_gauss_empty_iff, C188_poisson_optimal_iff, C188_poisson_empty, C188_poisson_nonempty (small tolerance, many iterations), C188_poisson_model."
},
"C189": {
"note": "False. C189_selects_false: for binary data every network the default mode can return has no edge or all edges, all of equal strength, whatever the data and options. C189_empty / C189_complete: which of the two (alpha * n_samples >= 1 or < 1). C189_default_false: empty for every data set of at least 100 samples with the default options. C189_time_empty: the same threshold empties the time-varying estimator. C189_mode: 'coordinate_descent' always raises."
},
"C19": {
"note": "Invariant for every number of iterations: returned latent part PSD, returned sparse estimate as documented."
},
"C190": {
"note": "False. C190_returns_false: with constant counts the call never returns once rho * n_times >= 2 * n_samples, for alpha <= 1/4 and all other options. C190_empty_partial: above the threshold it returns identities; missing: conditions for returning below the threshold."
},
"C191": {
"note": "False. C191_converges / C191_accuracy: while the penalty of the inner loop stays constant, the passes converge at rate 4/5 to the unique minimiser of another problem, with weight 2/3 beta on the node penalty and an extra rho/6 ||V - V^T||^2, and the residual the code records bounds the distance. C191_fuses_iff / C191_exact_fuses: so consecutive networks are joined for column norms up to 2/3 beta/rho instead of beta/rho. C191_exact_false: a run that returns at least 9.18 where the exact answer is 9, for all tolerances up to 0.01 and budgets of three passes or more. C191_nan_false: inputs that differ by a constant in all entries give NaN."
},
"C192": {
"note": "False. C192_value: the minimum of the posed problem is |sum of X| / (2 sqrt(n)). C192_zero_false: zero for every nonzero symmetric X with zero sum, where the penalty is positive. C192_le_true_partial: never above the node penalty."
},
"C193": {
"note": "True for graphical_lasso (C193_optimum_iff, C193_every_call) and for the documented time-varying problem (C193_documented). False for time_graphical_lasso and kernel_time_graphical_lasso, which also penalise the diagonal: the weighted sums of the fitted variances exceed those of the data by exactly alpha times the number of times (C193_variance_false, C193_kernel_variance_false, C193_time_call_false). C193_latent_pooled / C193_latent: latent versions, with the diagonal weight e as a parameter (e = 1 is what the code does)."
},
"C194": {
"note": "Exact optima; C194_time_calls adds the calls of time_graphical_lasso at a constant penalty parameter."
},
"C195": {
"note": "Exact optima; C195_calls adds the calls of graphical_lasso at a constant penalty parameter."
},
"C196": {
"note": "Exact optima; C196_calls adds the calls of graphical_lasso at a constant penalty parameter."
},
"C197": {
"note": "True for the static model (C197_static). False for the time-varying one: `loss_poisson` negates a loss that is already the negative log-likelihood (C197_value_partial gives the exact difference), so without penalties better networks get larger values (C197_sign_false) and the reported value is unbounded below whatever alpha is (C197_unbounded_false) although the documented one is bounded (C197_documented_bounded)."
},
"C198": {
"note": "The selection and the refit are right when no score is nan (C198_best_partial). best_score_ has the opposite sign (C198_score_false), one nan score (scikit-learn's default for a failing fit) is selected as best (C198_nan_false), and the user's estimator is left with the parameters of the last evaluated point (C198_mutates_false). GPyOpt and the cross-validation are arbitrary functions here; that GPyOpt goes on after a nan is assumed."
},
"C199": {
"note": "Exact for p = 1 (C10, C69), for two times (C199_two_times) and without the l1 penalty (C199_no_l1). False for p = 2 and three times: thresholding after denoising is not the proximal map (C199_prox_false) and the solver has fixed points that are not optimal (C199_fixed_false). `tvgen` is taken to be exact for the chosen norm."
},
"C20": {
"note": "Code soft-thresholds the diagonal too: optimality proved for the full l1 norm, the documented off-diagonal objective refuted by a witness."
},
"C200": {
"note": "C200_pattern holds for every call with at least one pass. C200_converges and C200_graph_fit need a positive definite covariance (the prior scale matrix makes it so in GWishartFit), no over-relaxation and a penalty parameter that stops changing; the real call has tolerances 1e-4 and 100 passes, and the limit is stated for tolerances zero. C200_one_number ties the matrix version to the scalar one. The recorded objective of such a call is nan once a penalty is infinite (inf times the zero it leaves); it is not modelled as it does not influence the result."
},
"C201": {
"note": "Exact real arithmetic: in double precision the penalty parameter of such a run would underflow to zero after about 1075 passes with the default tau_dec = 2 (and prox_logdet then divides by zero); the default limit of 100 passes keeps a call away from that. C201_penalty_vanishes shows that the alternative left open in C134 (the penalty parameter changes forever) really occurs."
},
"C202": {
"note": "The constant is explicit but pessimistic (it bounds the condition numbers by traces). Assumes an optimum X exists, which C104 provides for alpha > 0 with positive variances or a positive definite covariance."
},
"C203": {
"note": "The scores (LassoLars, Laplace approximations) and the optimiser of covsel are arbitrary values here; np.unique is any list whose elements are blankets of the fits. Positive definiteness of the mean is C150_mean, for positive definite fits."
},
"C204": {
"note": "scipy's bounded search is not modelled: the theorems say what an exact minimiser is (or that there is none). In double precision the objective is exactly zero for small length scales, and any of those may be returned: the kernel is then the identity. If the precisions become constant in time the objective is zero for every parameter and the answer is arbitrary."
},
"C205": {
"note": "The calls are compared at constant penalty parameter rho; for the kernel solver the optimum is compared (its convergence is C102)."
},
"C206": {
"note": "numpy's multivariate_normal is any factor of the covariance times white noise; that the noise is normal is not used. The smallest eigenvalue is that of a symmetric matrix (np.linalg.eig of a floating point matrix may return complex numbers). The labels and the assertion at the end are C118."
},
"C207": {
"note": "The failure of pinvh on an empty array for w_size = 1 is not modelled."
},
"C208": {
"note": "The loop order and the array of samples are arguments of the means: the theorem says they do not matter."
},
"C209": {
"note": "Invariance of the target, not convergence to it. Draws are independent standard normal and uniform numbers; likelihood and prior are measurable functions."
},
"C21": {
"note": "Any number of time points, any convex temporal penalty with exact prox. Diagonal is penalised by the code: optimality for the full l1 norm proved, off-diagonal objective refuted for every T."
},
"C210": {
"note": "The log posterior used by sample_hyper_kernel centres the series at their empirical mean although the Gaussian process has mean zero: the term N/2 m' K^-1 m is missing, a common trend of all series has no influence on the kernel parameter, and the sampled distribution is not the posterior."
},
"C211": {
"note": "With alpha fixed the graphical lasso keeps a bias as the data grow (C211_fixed_alpha), while the time-varying estimators weight the likelihood by the number of samples, so that the same alpha vanishes there (C212): alpha does not mean the same in the two families."
},
"C212": {
"note": "C212_calls is at constant penalty rho (factors 1) with tolerances small enough and iterations enough; how small and how many is not given. Rows are independent and identically distributed within a time point, with positive definite population covariance."
},
"C213": {
"note": "About the optimum of the graphical lasso, not a finite run. Edges within a component that the population lacks may be present. Bounds are explicit but not sharp."
},
"C214": {
"note": "Each regression is assumed to return a minimiser of its lasso problem (IsLassoFit) with penalties >= 0; the draws are independent with the probabilities passed to the generator."
},
"C215": {
"note": "The edges and the limits are proved. That precision_ approaches the precision matrix is false (C215_sign_false, for every edge), and that only dependent variables are joined is false without centring (C215_uncentered_false). The theorems are about exact solutions of the regressions; when the loop reaches them is C152."
},
"C216": {
"note": "The curves are proved. False: the returned value is the covariance and not the correlation (C216_correlation_false), npts is ignored (C216_npts_false), and the axis limits cut off the ellipse or its centre (C216_limits_false, C216_centre_false)."
},
"C217": {
"note": "False as stated: C217_false for every Poisson rate other than one, C217_intercept_false and C217_poisson_intercept_false for the variant with a column of ones. Proved: the exact limit of the statistic, and when nothing (C217_empty) or something (C217_selected) is selected."
},
"C218": {
"note": "C218_defaults has no hypothesis on the draws beyond shuffles being permutations. False for few nodes (C218_few_nodes_false: edges[:-to_put] with a float) and for which variables are connected (C218_shift_false: columns of latent are taken from h on, while node numbers count observed variables first)."
},
"C219": {
"note": "C219_positive_partial needs four positive entries; C219_zero_probability_false gives the general failure (the top four of the ranking are used without a look at their entries)."
},
"C22": {
"note": "Any psi whose prox is exact."
},
"C220": {
"note": "C220_leaves_square_false: locations are clipped below at zero only."
},
"C221": {
"note": "Missing: more than one dimension. C221_mean_false: for nu < 2 the first moment of the inverse Wishart diverges, while the code returns a negative number."
},
"C222": {
"note": "C222_laplacian_false covers every straight line of three distinct networks, equally spaced, with the default penalty; C222_ising_false uses six networks."
},
"C223": {
"note": "The only caller allocates arrays with a float length (TypeError in Python 3) and is not modelled. C223_range_false: shift above 1e10."
},
"C224": {
"note": "C224_positive_definite_false and C224_predict_false hold for every run with at least two variables (nu_ is fixed to 1); C224_one_direction and C224_complete_network say what is returned instead."
},
"C225": {
"note": "Full for learn_ell=False (C225_best_partial); C225_mixed_false is the failure for learned factors, a consequence of C91."
},
"C226": {
"note": "The minimum, the residuals and the shifts are full (sklearn's _pre_fit and _set_intercept for dense data, normalize=False, precompute=False, trusted as transcribed); C226_shapes_partial needs two features, C226_single_feature_false is the failure for one feature and several targets."
},
"C227": {
"note": "C227_largest holds for every solver that is odd in the targets (C227_odd proves it for mode='admm') and two or more features; C227_names_partial excludes ties, where C227_tie_false is the failure; C227_single_feature_false is the ValueError for one feature. LabelBinarizer and LinearClassifierMixin are trusted as transcribed."
},
"C228": {
"note": "C228_least_squares and C228_uncovered_stop say what holds; C228_alpha_false and C228_all_passes_false are the failures (mode='admm'; singular A.T A raises LinAlgError in the code and is excluded by the exact inverse)."
},
"C229": {
"note": "C229_same_shape_partial is the part that holds; the three _false theorems cover fewer targets, more targets and other features (n_jobs=1, previous fits with at least two features). The solvers never see the previous coefficients, so warm_start saves no passes."
},
"C23": {
"note": "All runs; max_iter=0 covered separately."
},
"C230": {
"note": "C230_header_false is the failure for current pandas; C230_edges_partial and C230_diagonal_partial describe releases without a header, C230_negative_false the loss of signs. What pandas writes and parses is trusted as transcribed; labels are those read_network expects (G1, G2, ...)."
},
"C231": {
"note": "The text of the entries is not modelled: positions are. Real weights: no NaN. argsort is any permutation that sorts."
},
"C232": {
"note": "C232_unequal_false is the failure for current numpy, C232_list_current what is left there; C232_list_partial is the full claim for older releases. What np.array does with unequal shapes is trusted as transcribed; data are finite numbers."
},
"C233": {
"note": "C233_first_block and C233_other_blocks are the claim about couplings; C233_sparsity_false shows that sparsity_inv_matrix acts as a density. gnm_random_graph is trusted to return the documented number of distinct edges, listed with the smaller node first. Real arithmetic in the number of edges."
},
"C24": {
"note": "Code disagrees: l2 norm pairs with a different prox, linf prox is not the prox of the max norm. Proved for l1, laplacian and the group case."
},
"C25": {
"note": "Acceptance condition and axis handling, all shapes."
},
"C26": {
"note": "All init modes; covariance never modified."
},
"C27": {
"note": "All clauses."
},
"C28": {
"note": "Code disagrees: nonzero=True is not a norm of the difference on nonzero entries. Other options proved."
},
"C29": {
"note": "Confusion counts and every rate, including zero denominators; single and batch."
},
"C30": {
"note": "Code disagrees: every non-empty call raises KeyError; only the empty call succeeds."
},
"C31": {
"note": "All symmetric matrices and batches."
},
"C32": {
"note": "All arrays of IEEE values, including NaN."
},
"C33": {
"note": "All sizes; exact square root in the side computation."
},
"C34": {
"note": "All equally sized data; ragged data fails."
},
"C35": {
"note": "Against an inductive leaf relation."
},
"C36": {
"note": "Code disagrees: save appends .pkl, load does not; true exactly for names ending in .pkl."
},
"C37": {
"note": "All bodies built from print, rebind, raise, sequence, try and nested blocks."
},
"C38": {
"note": "Every argpartition outcome for 1 <= n <= size; the n = 0 clause is false (raises or keeps everything)."
},
"C39": {
"note": "Values, relabelling, monotonicity in epsilon, BIC_t; plus nan of EBIC_m for one variable."
},
"C40": {
"note": "Code disagrees: union weight is a_ij/4 + a_ji/2 and estimates may cancel."
},
"C41": {
"note": "Code disagrees: only the first sample is used; correct for one sample."
},
"C42": {
"note": "Code disagrees: no data is ever rejected."
},
"C43": {
"note": "First admissible trial returned with its own proximal point; on exhaustion the point belongs to the previous step size (C43_exhausted_false); max_iter=0 raises NameError."
},
"C44": {
"note": "'gamma' and 'fixed' return for all inputs with T>=2; 'lamda' and 'both' always raise TypeError (unknown keyword vareps); the documented spelling 'lambda' raises ValueError; the default n_samples=None raises TypeError."
},
"C45": {
"note": "Convex combination for every real lamda after clipping."
},
"C46": {
"note": "Fixed points, existence, convergence for relaxation in (0,2) and termination are proved. The return-shape clause fails for every call: lasso returns a pair even without return_history, and only the last history entry with it."
},
"C47": {
"note": "All three clauses fail: valid partitions in another order are rejected (and two degenerate non-partitions accepted), the dual residual is always 0 because zold aliases z, and the group step is entrywise soft-thresholding, so the solver provably returns the plain lasso solution."
},
"C48": {
"note": "Proved for all inputs of the modelled functions."
},
"C49": {
"note": "Proved for all inputs of the modelled functions."
},
"C50": {
"note": "The monotonised curve excludes the candidate itself, so the selected candidate may have any instability. What holds is proved: every earlier candidate has instability at most 0.05; the second candidate is never selected."
},
"C51": {
"note": "Proved for all streams, graphs, constraints and numbers of sweeps."
},
"C52": {
"note": "p_plus is the conditional probability of the Ising model counting each pair once; hamiltonian counts every pair twice, so the two samplers target different distributions (counterexample)."
},
"C53": {
"note": "Symmetry for all streams; zero diagonal and the bound on the number of changed edges fail when a round containing an equal pair is rejected, since its edits are kept (counterexamples); both hold when the first round is accepted. The Poisson update keeps the zero diagonal and only removes edges."
},
"C54": {
"note": "All graph lists; the empty list raises."
},
"C55": {
"note": "All streams and likelihoods. The prior is taken as a sample (the Cholesky form draws one)."
},
"C56": {
"note": "kappa > 0 and nonempty batches."
},
"C57": {
"note": "Positive mean and variance."
},
"C58": {
"note": "False in the code: kernel or np.identity(..) evaluates the truth value of an array and raises ValueError for every kernel with two or more times (C58_array_false). None, callables, 1x1 arrays and the similarity class behave as documented."
},
"C59": {
"note": "False in the code: phi is stored but never passed to the solver; in the similarity class eta is ignored too (C59_phi_false, C59_eta_false)."
},
"C60": {
"note": "Observed entries are kept and imputed values are conditional means divided by a common c>=1; the claim that they are the conditional means is false (C60_imputation_false): compute_cs divides by max(max|cs|,1), and compute_mean returns the column sums."
},
"C61": {
"note": "Code disagrees with its docstring: EBIC penalises less than BIC for all practical sizes."
},
"C62": {
"note": "Code disagrees: log(T p) is used instead of log p."
},
"C63": {
"note": "Code disagrees: only alpha reaches the fit."
},
"C64": {
"note": "Fixed points iff minimisers, descent, O(1/K) rate, loop outcome."
},
"C65": {
"note": "Code disagrees: after a rejection the accepted point is two stale steps from the old iterate."
},
"C66": {
"note": "Derivative and global optimality."
},
"C67": {
"note": "pinvh is assumed to invert the given positive definite matrices. Both modes."
},
"C68": {
"note": "Exact TV solver assumed for the fused mode. The iteration theorem assumes one of the 200 trials is admissible."
},
"C69": {
"note": "Exact TV solver, symmetric covariances, positive sample counts, pinvh inverts the iterate."
},
"C70": {
"note": "False: mode 'gamma' accepts negative definite points with positive determinant; witnesses for an identity start and for the documented init='zero'."
},
"C71": {
"note": "False: AxisError in the l1 mode, IndexError in the Laplacian mode."
},
"C72": {
"note": "return_n_iter=True (the default)."
},
"C73": {
"note": "Positive definiteness of the current iterate is a hypothesis; C70 shows the solver itself does not guarantee it for iterates accepted at larger steps."
},
"C74": {
"note": "The documented problem is not solved; the stationary states solve the lasso weighted by the number of groups containing each feature."
},
"C75": {
"note": "Proved for all inputs of the modelled functions."
},
"C76": {
"note": "Proved for all inputs of the modelled functions."
},
"C77": {
"note": "True for a single grid; lists of grids are merged into one grid, losing or inventing candidates."
},
"C78": {
"note": "MH with n >= 2 proved; n = 1 gives a vector; the direct method gives rows of length 10 for every graph."
},
"C79": {
"note": "Exact real arithmetic; uniform draws on [0,1]."
},
"C80": {
"note": "Second response positive (both documented choices); fails for nonpositive second response."
},
"C81": {
"note": "Same condition on the responses; at least one variable."
},
"C82": {
"note": "The argument is not read."
},
"C83": {
"note": "Symmetry and length proved; responses are not passed to the update (counterexample)."
},
"C84": {
"note": "Symmetric 0/1 graphs and nonzero rate; otherwise ValueError (counterexamples)."
},
"C85": {
"note": "nan for identical graphs."
},
"C86": {
"note": "The threshold uses 0.001 log u: the ratio enters to the power 1000."
},
"C87": {
"note": "The negation is proved for all runs."
},
"C88": {
"note": "Each time is weighted by its number of samples."
},
"C89": {
"note": "Proved for all inputs of the modelled functions."
},
"C90": {
"note": "Proved for all inputs of the modelled functions."
},
"C91": {
"note": "The negation is proved for all runs in which L changes."
},
"C92": {
"note": "False as stated: the returned matrix is divided by its largest entry, so it does not change when the data are rescaled (C92_scale_false). The normal form that does hold is C92_covariance_partial."
},
"C93": {
"note": "Stopping index and warning hold; the reported count is one less than the number of iterations and max_iter=0 raises UnboundLocalError; history stores the log-likelihood function instead of values."
},
"C94": {
"note": "Proved for the full l1 norm (diagonal included), which is what the code thresholds; the documented off-diagonal norm is refuted for every number of time points and every kernel. Convergence of the runs is C102."
},
"C95": {
"note": "Fixed points of the kernel solver with kernel=None solve the single-time problems one by one; the tridiagonal kernel problem equals the time-varying problem."
},
"C96": {
"note": "Proved for the full l1 norm; the off-diagonal norm is refuted. Fixed points only; runs are treated in C158."
},
"C97": {
"note": "Proved for the full l1 norm; the off-diagonal norm is refuted. Fixed points only; runs are treated in C158."
},
"C98": {
"note": "Loop invariant; no assumption on the eigenvalue routine beyond returning numbers, because the matrix is recomposed from clipped eigenvalues."
},
"C99": {
"note": "Proved for the full l1 norm; the off-diagonal norm is refuted. Fixed points only; runs are treated in C156."
}
}