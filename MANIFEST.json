{
 "claims": [
  {
   "property": "C01",
   "status": "proved",
   "theorems": [
    "Verif.Props.C01_soft_thresholding_prox",
    "Verif.Props.C01_soft_thresholding_prox_matrix"
   ],
   "note": "Unique minimiser for every finite index type, vector and matrix form."
  },
  {
   "property": "C02",
   "status": "proved",
   "theorems": [
    "Verif.Props.C02_soft_thresholding_pointwise",
    "Verif.Props.C02_soft_thresholding_nonexpansive",
    "Verif.Props.C02_soft_thresholding_negative_lam"
   ],
   "note": "All clauses, including the behaviour for negative lamda."
  },
  {
   "property": "C03",
   "status": "proved",
   "theorems": [
    "Verif.Props.C03_soft_thresholding_off_diagonal_prox",
    "Verif.Props.C03_soft_thresholding_off_diagonal_shape"
   ],
   "note": "Unique minimiser; diagonal untouched; symmetry preserved."
  },
  {
   "property": "C04",
   "status": "partial",
   "theorems": [
    "Verif.Props.C04_blockwise_soft_thresholding_partial",
    "Verif.Props.C04_blockwise_soft_thresholding_nan_false",
    "Verif.Props.C04_full_statement_false"
   ],
   "note": "Code disagrees: lamda = 0 with a zero column gives NaN. Exact for lamda > 0 or no zero column."
  },
  {
   "property": "C05",
   "status": "partial",
   "theorems": [
    "Verif.Props.C05_blockwise_symmetric_entry",
    "Verif.Props.C05_blockwise_symmetric_partial",
    "Verif.Props.C05_full_statement_false"
   ],
   "note": "Code disagrees: any zero column turns the whole result into NaN. Exact when no column is zero."
  },
  {
   "property": "C06",
   "status": "proved",
   "theorems": [
    "Verif.Props.C06_prox_logdet",
    "Verif.Props.C06_prox_logdet_stationary",
    "Verif.Props.C06_prox_logdet_basis_free",
    "Verif.Props.C06_hypothesis_always_met"
   ],
   "note": "For every eigendecomposition the solver may return."
  },
  {
   "property": "C07",
   "status": "proved",
   "theorems": [
    "Verif.Props.C07_prox_trace_indicator",
    "Verif.Props.C07_prox_trace_indicator_shape"
   ],
   "note": "For every eigendecomposition and every real lamda."
  },
  {
   "property": "C08",
   "status": "proved",
   "theorems": [
    "Verif.Props.C08_prox_laplacian_prox",
    "Verif.Props.C08_prox_laplacian_linear"
   ],
   "note": "Unique minimiser, linear, odd, contraction."
  },
  {
   "property": "C09",
   "status": "proved",
   "theorems": [
    "Verif.Props.C09_ala_ma_relation",
    "Verif.Props.C09_ala_ma_prox"
   ],
   "note": "Both clauses, for every eigendecomposition."
  },
  {
   "property": "C10",
   "status": "proved",
   "theorems": [
    "Verif.Props.C10_prox_FL_exact",
    "Verif.Props.C10_prox_FL_symm"
   ],
   "note": "For every exact total-variation solver (contract proved satisfiable)."
  },
  {
   "property": "C11",
   "status": "proved",
   "theorems": [
    "Verif.Props.C11_update_rho",
    "Verif.Props.C11_update_rho_sequence"
   ],
   "note": "Decision rule, positivity, bound over any number of calls."
  },
  {
   "property": "C12",
   "status": "proved",
   "theorems": [
    "Verif.Props.C12_dual_rescaling"
   ],
   "note": "At every iteration of every run of graphical_lasso."
  },
  {
   "property": "C13",
   "status": "proved",
   "theorems": [
    "Verif.Props.C13_update_gamma",
    "Verif.Props.C13_update_gamma_sequence"
   ],
   "note": "Both clauses, single call and sequences."
  },
  {
   "property": "C14",
   "status": "partial",
   "theorems": [
    "Verif.Props.C14_outcome_partial",
    "Verif.Props.C14_max_iter_zero",
    "Verif.Props.C14_n_iter_false"
   ],
   "note": "Code disagrees: n_iter is one less than the iterations performed when the loop breaks or ends; max_iter = 0 raises NameError. All other clauses proved."
  },
  {
   "property": "C15",
   "status": "proved",
   "theorems": [
    "Verif.Props.C15_symmetric_posdef_iterates"
   ],
   "note": "Invariant for every number of iterations and every penalty update."
  },
  {
   "property": "C16",
   "status": "proved",
   "theorems": [
    "Verif.Props.C16_stationary_is_optimal",
    "Verif.Props.C16_optimal_is_stationary"
   ],
   "note": "Both directions, any dimension."
  },
  {
   "property": "C17",
   "status": "partial",
   "theorems": [
    "Verif.Props.C17_stationary_relation",
    "Verif.Props.C17_over_relax_partial",
    "Verif.Props.C17_over_relax_false"
   ],
   "note": "Code disagrees for over_relax other than 1; exact relation at stationary states proved, witness in dimension 1."
  },
  {
   "property": "C18",
   "status": "proved",
   "theorems": [
    "Verif.Props.C18_distance_never_increases",
    "Verif.Props.C18_converges",
    "Verif.Props.C18_terminates"
   ],
   "note": "Monotone distance, vanishing residuals, convergence of Z to the optimum, explicit iteration bound for termination without warning."
  },
  {
   "property": "C19",
   "status": "proved",
   "theorems": [
    "Verif.Props.C19_latent_psd"
   ],
   "note": "Invariant for every number of iterations: returned latent part PSD, returned sparse estimate as documented."
  },
  {
   "property": "C20",
   "status": "partial",
   "theorems": [
    "Verif.Props.C20_stationary_partial",
    "Verif.Props.C20_diagonal_false"
   ],
   "note": "Code soft-thresholds the diagonal too: optimality proved for the full l1 norm, the documented off-diagonal objective refuted by a witness."
  },
  {
   "property": "C21",
   "status": "partial",
   "theorems": [
    "Verif.Props.C21_stationary_partial",
    "Verif.Props.C21_diagonal_false"
   ],
   "note": "Any number of time points, any convex temporal penalty with exact prox. Diagonal is penalised by the code: optimality for the full l1 norm proved, off-diagonal objective refuted for every T."
  },
  {
   "property": "C22",
   "status": "proved",
   "theorems": [
    "Verif.Props.C22_pair_update"
   ],
   "note": "Any psi whose prox is exact."
  },
  {
   "property": "C23",
   "status": "proved",
   "theorems": [
    "Verif.Props.C23_history",
    "Verif.Props.C23_max_iter_zero"
   ],
   "note": "All runs; max_iter=0 covered separately."
  },
  {
   "property": "C24",
   "status": "partial",
   "theorems": [
    "Verif.Props.C24_accepted_names",
    "Verif.Props.C24_matching_partial",
    "Verif.Props.C24_l2_false",
    "Verif.Props.C24_linf_false"
   ],
   "note": "Code disagrees: l2 norm pairs with a different prox, linf prox is not the prox of the max norm. Proved for l1, laplacian and the group case."
  },
  {
   "property": "C25",
   "status": "proved",
   "theorems": [
    "Verif.Props.C25_list_unchanged",
    "Verif.Props.C25_accepts_iff",
    "Verif.Props.C25_leading_axis",
    "Verif.Props.C25_time_last",
    "Verif.Props.C25_unchanged"
   ],
   "note": "Acceptance condition and axis handling, all shapes."
  },
  {
   "property": "C26",
   "status": "proved",
   "theorems": [
    "Verif.Props.C26_init_precision",
    "Verif.Props.C26_start_symmetric",
    "Verif.Props.C26_shrunk_posDef",
    "Verif.Props.C26_empirical_inverse"
   ],
   "note": "All init modes; covariance never modified."
  },
  {
   "property": "C27",
   "status": "proved",
   "theorems": [
    "Verif.Props.C27_l1_od_norm"
   ],
   "note": "All clauses."
  },
  {
   "property": "C28",
   "status": "partial",
   "theorems": [
    "Verif.Props.C28_default_value",
    "Verif.Props.C28_default_distance",
    "Verif.Props.C28_selected",
    "Verif.Props.C28_squared_flag",
    "Verif.Props.C28_batch",
    "Verif.Props.C28_unknown_norm",
    "Verif.Props.C28_nonzero_false",
    "Verif.Props.C28_nonzero_counterexample"
   ],
   "note": "Code disagrees: nonzero=True is not a norm of the difference on nonzero entries. Other options proved."
  },
  {
   "property": "C29",
   "status": "proved",
   "theorems": [
    "Verif.Props.C29_structure_error",
    "Verif.Props.C29_structure_error_batch"
   ],
   "note": "Confusion counts and every rate, including zero denominators; single and batch."
  },
  {
   "property": "C30",
   "status": "partial",
   "theorems": [
    "Verif.Props.C30_mean_structure_error_false",
    "Verif.Props.C30_empty_partial"
   ],
   "note": "Code disagrees: every non-empty call raises KeyError; only the empty call succeeds."
  },
  {
   "property": "C31",
   "status": "proved",
   "theorems": [
    "Verif.Props.C31_ensure_posdef",
    "Verif.Props.C31_ensure_posdef_batch",
    "Verif.Props.C31_idempotent",
    "Verif.Props.C31_not_inplace"
   ],
   "note": "All symmetric matrices and batches."
  },
  {
   "property": "C32",
   "status": "proved",
   "theorems": [
    "Verif.Props.C32_threshold",
    "Verif.Props.C32_idempotent",
    "Verif.Props.C32_in_range"
   ],
   "note": "All arrays of IEEE values, including NaN."
  },
  {
   "property": "C33",
   "status": "proved",
   "theorems": [
    "Verif.Props.C33_roundtrip",
    "Verif.Props.C33_symmetric",
    "Verif.Props.C33_fails_iff"
   ],
   "note": "All sizes; exact square root in the side computation."
  },
  {
   "property": "C34",
   "status": "proved",
   "theorems": [
    "Verif.Props.C34_lossless",
    "Verif.Props.C34_ragged_fails"
   ],
   "note": "All equally sized data; ragged data fails."
  },
  {
   "property": "C35",
   "status": "proved",
   "theorems": [
    "Verif.Props.C35_compose",
    "Verif.Props.C35_compose_append",
    "Verif.Props.C35_flatten_leaves",
    "Verif.Props.C35_flatten_unique",
    "Verif.Props.C35_flatten_laws"
   ],
   "note": "Against an inductive leaf relation."
  },
  {
   "property": "C36",
   "status": "partial",
   "theorems": [
    "Verif.Props.C36_roundtrip_partial",
    "Verif.Props.C36_roundtrip_false",
    "Verif.Props.C36_counterexample"
   ],
   "note": "Code disagrees: save appends .pkl, load does not; true exactly for names ending in .pkl."
  },
  {
   "property": "C37",
   "status": "proved",
   "theorems": [
    "Verif.Props.C37_restores",
    "Verif.Props.C37_propagates",
    "Verif.Props.C37_silent"
   ],
   "note": "All bodies built from print, rebind, raise, sequence, try and nested blocks."
  },
  {
   "property": "C38",
   "status": "partial",
   "theorems": [
    "Verif.Props.C38_retain_top_n",
    "Verif.Props.C38_zero_false"
   ],
   "note": "Every argpartition outcome for 1 <= n <= size; the n = 0 clause is false (raises or keeps everything)."
  },
  {
   "property": "C39",
   "status": "proved",
   "theorems": [
    "Verif.Props.C39_bic_value",
    "Verif.Props.C39_ebic_value",
    "Verif.Props.C39_ebicM_value",
    "Verif.Props.C39_ebicM_single",
    "Verif.Props.C39_ebic_antitone",
    "Verif.Props.C39_relabel",
    "Verif.Props.C39_bicT_sum"
   ],
   "note": "Values, relabelling, monotonicity in epsilon, BIC_t; plus nan of EBIC_m for one variable."
  },
  {
   "property": "C40",
   "status": "partial",
   "theorems": [
    "Verif.Props.C40_union_partial",
    "Verif.Props.C40_union_value",
    "Verif.Props.C40_union_direction_false",
    "Verif.Props.C40_union_cancel_false",
    "Verif.Props.C40_intersection_value",
    "Verif.Props.C40_intersection_partial",
    "Verif.Props.C40_intersection_cancel_false",
    "Verif.Props.C40_unknown_rule"
   ],
   "note": "Code disagrees: union weight is a_ij/4 + a_ji/2 and estimates may cancel."
  },
  {
   "property": "C41",
   "status": "partial",
   "theorems": [
    "Verif.Props.C41_single_sample_partial",
    "Verif.Props.C41_first_sample_false",
    "Verif.Props.C41_counterexample",
    "Verif.Props.C41_no_samples"
   ],
   "note": "Code disagrees: only the first sample is used; correct for one sample."
  },
  {
   "property": "C42",
   "status": "partial",
   "theorems": [
    "Verif.Props.C42_never_rejects_false",
    "Verif.Props.C42_counterexample"
   ],
   "note": "Code disagrees: no data is ever rejected."
  },
  {
   "property": "C43",
   "status": "partial",
   "theorems": [
    "Verif.Props.C43_first_admissible",
    "Verif.Props.C43_zero",
    "Verif.Props.C43_returned_partial",
    "Verif.Props.C43_exhausted_false"
   ],
   "note": "First admissible trial returned with its own proximal point; on exhaustion the point belongs to the previous step size (C43_exhausted_false); max_iter=0 raises NameError."
  },
  {
   "property": "C44",
   "status": "partial",
   "theorems": [
    "Verif.Props.C44_unknown",
    "Verif.Props.C44_documented_lambda_false",
    "Verif.Props.C44_lamda_false",
    "Verif.Props.C44_default_samples_false",
    "Verif.Props.C44_usable_partial"
   ],
   "note": "'gamma' and 'fixed' return for all inputs with T>=2; 'lamda' and 'both' always raise TypeError (unknown keyword vareps); the documented spelling 'lambda' raises ValueError; the default n_samples=None raises TypeError."
  },
  {
   "property": "C45",
   "status": "proved",
   "theorems": [
    "Verif.Props.C45_posDef",
    "Verif.Props.C45_clip"
   ],
   "note": "Convex combination for every real lamda after clipping."
  },
  {
   "property": "C46",
   "status": "partial",
   "theorems": [
    "Verif.Props.C46_solution_exists",
    "Verif.Props.C46_fixed_iff_optimal",
    "Verif.Props.C46_converges",
    "Verif.Props.C46_terminates",
    "Verif.Props.C46_return_false",
    "Verif.Props.C46_history_false"
   ],
   "note": "Fixed points, existence, convergence for relaxation in (0,2) and termination are proved. The return-shape clause fails for every call: lasso returns a pair even without return_history, and only the last history entry with it."
  },
  {
   "property": "C47",
   "status": "partial",
   "theorems": [
    "Verif.Props.C47_accepts_partial",
    "Verif.Props.C47_accepted_are_partitions",
    "Verif.Props.C47_guard_false",
    "Verif.Props.C47_dual_residual_false",
    "Verif.Props.C47_dual_residual_counterexample",
    "Verif.Props.C47_group_step",
    "Verif.Props.C47_group_step_false",
    "Verif.Props.C47_same_iterates_as_lasso",
    "Verif.Props.C47_solves_plain_lasso",
    "Verif.Props.C47_default_groups"
   ],
   "note": "All three clauses fail: valid partitions in another order are rejected (and two degenerate non-partitions accepted), the dual residual is always 0 because zold aliases z, and the group step is entrywise soft-thresholding, so the solver provably returns the plain lasso solution."
  },
  {
   "property": "C48",
   "status": "proved",
   "theorems": [
    "Verif.Props.C48_D_function",
    "Verif.Props.C48_consensus_mean",
    "Verif.Props.C48_agreement"
   ],
   "note": "Proved for all inputs of the modelled functions."
  },
  {
   "property": "C49",
   "status": "proved",
   "theorems": [
    "Verif.Props.C49_global_instability",
    "Verif.Props.C49_order",
    "Verif.Props.C49_degenerate"
   ],
   "note": "Proved for all inputs of the modelled functions."
  },
  {
   "property": "C50",
   "status": "partial",
   "theorems": [
    "Verif.Props.C50_monotonized_partial",
    "Verif.Props.C50_selected_partial",
    "Verif.Props.C50_second_never_selected",
    "Verif.Props.C50_one_past",
    "Verif.Props.C50_stars_false"
   ],
   "note": "The monotonised curve excludes the candidate itself, so the selected candidate may have any instability. What holds is proved: every earlier candidate has instability at most 0.05; the second candidate is never selected."
  },
  {
   "property": "C51",
   "status": "proved",
   "theorems": [
    "Verif.Props.C51_state_values",
    "Verif.Props.C51_visit"
   ],
   "note": "Proved for all streams, graphs, constraints and numbers of sweeps."
  },
  {
   "property": "C52",
   "status": "partial",
   "theorems": [
    "Verif.Props.C52_p_plus_conditional",
    "Verif.Props.C52_hamiltonian_partial",
    "Verif.Props.C52_hamiltonian_false"
   ],
   "note": "p_plus is the conditional probability of the Ising model counting each pair once; hamiltonian counts every pair twice, so the two samplers target different distributions (counterexample)."
  },
  {
   "property": "C53",
   "status": "partial",
   "theorems": [
    "Verif.Props.C53_symmetric",
    "Verif.Props.C53_assertion_holds",
    "Verif.Props.C53_changes_partial",
    "Verif.Props.C53_first_round_partial",
    "Verif.Props.C53_poisson_removes",
    "Verif.Props.C53_ising_false",
    "Verif.Props.C53_poisson_false"
   ],
   "note": "Symmetry for all streams; zero diagonal and the bound on the number of changed edges fail when a round containing an equal pair is rejected, since its edits are kept (counterexamples); both hold when the first round is accepted. The Poisson update keeps the zero diagonal and only removes edges."
  },
  {
   "property": "C54",
   "status": "proved",
   "theorems": [
    "Verif.Props.C54_representative",
    "Verif.Props.C54_representative_empty",
    "Verif.Props.C54_metric",
    "Verif.Props.C54_counts_edges"
   ],
   "note": "All graph lists; the empty list raises."
  },
  {
   "property": "C55",
   "status": "proved",
   "theorems": [
    "Verif.Props.C55_returned_state",
    "Verif.Props.C55_first_bracket",
    "Verif.Props.C55_shrinks",
    "Verif.Props.C55_never_raises"
   ],
   "note": "All streams and likelihoods. The prior is taken as a sample (the Cholesky form draws one)."
  },
  {
   "property": "C56",
   "status": "proved",
   "theorems": [
    "Verif.Props.C56_sequential",
    "Verif.Props.C56_order",
    "Verif.Props.C56_textbook"
   ],
   "note": "kappa > 0 and nonempty batches."
  },
  {
   "property": "C57",
   "status": "proved",
   "theorems": [
    "Verif.Props.C57_lognstat"
   ],
   "note": "Positive mean and variance."
  },
  {
   "property": "C58",
   "status": "partial",
   "theorems": [
    "Verif.Props.C58_kernel_partial",
    "Verif.Props.C58_array_false",
    "Verif.Props.C58_similarity"
   ],
   "note": "False in the code: kernel or np.identity(..) evaluates the truth value of an array and raises ValueError for every kernel with two or more times (C58_array_false). None, callables, 1x1 arrays and the similarity class behave as documented."
  },
  {
   "property": "C59",
   "status": "partial",
   "theorems": [
    "Verif.Props.C59_plumbing_partial",
    "Verif.Props.C59_phi_false",
    "Verif.Props.C59_eta_false"
   ],
   "note": "False in the code: phi is stored but never passed to the solver; in the similarity class eta is ignored too (C59_phi_false, C59_eta_false)."
  },
  {
   "property": "C60",
   "status": "partial",
   "theorems": [
    "Verif.Props.C60_observed_kept",
    "Verif.Props.C60_conditional_mean_partial",
    "Verif.Props.C60_imputation_false"
   ],
   "note": "Observed entries are kept and imputed values are conditional means divided by a common c>=1; the claim that they are the conditional means is false (C60_imputation_false): compute_cs divides by max(max|cs|,1), and compute_mean returns the column sums."
  },
  {
   "property": "C61",
   "status": "partial",
   "theorems": [
    "Verif.Props.C61_ebic_false",
    "Verif.Props.C61_ebic_zero_false",
    "Verif.Props.C61_ebicM_partial"
   ],
   "note": "Code disagrees with its docstring: EBIC penalises less than BIC for all practical sizes."
  },
  {
   "property": "C62",
   "status": "partial",
   "theorems": [
    "Verif.Props.C62_ebicT_value",
    "Verif.Props.C62_ebicT_false",
    "Verif.Props.C62_ebicT_one_partial"
   ],
   "note": "Code disagrees: log(T p) is used instead of log p."
  },
  {
   "property": "C63",
   "status": "partial",
   "theorems": [
    "Verif.Props.C63_options_ignored_false",
    "Verif.Props.C63_counterexample",
    "Verif.Props.C63_alpha_partial"
   ],
   "note": "Code disagrees: only alpha reaches the fit."
  },
  {
   "property": "C64",
   "status": "proved",
   "theorems": [
    "Verif.Props.C64_stationary_iff",
    "Verif.Props.C64_rate",
    "Verif.Props.C64_loop"
   ],
   "note": "Fixed points iff minimisers, descent, O(1/K) rate, loop outcome."
  },
  {
   "property": "C65",
   "status": "partial",
   "theorems": [
    "Verif.Props.C65_line_search_partial",
    "Verif.Props.C65_first_trial_partial",
    "Verif.Props.C65_line_search_false"
   ],
   "note": "Code disagrees: after a rejection the accepted point is two stale steps from the old iterate."
  },
  {
   "property": "C66",
   "status": "proved",
   "theorems": [
    "Verif.Props.C66_gradient",
    "Verif.Props.C66_stationary"
   ],
   "note": "Derivative and global optimality."
  },
  {
   "property": "C67",
   "status": "proved",
   "theorems": [
    "Verif.Props.C67_loss_value",
    "Verif.Props.C67_gradient"
   ],
   "note": "pinvh is assumed to invert the given positive definite matrices. Both modes."
  },
  {
   "property": "C68",
   "status": "proved",
   "theorems": [
    "Verif.Props.C68_descent",
    "Verif.Props.C68_iteration"
   ],
   "note": "Exact TV solver assumed for the fused mode. The iteration theorem assumes one of the 200 trials is admissible."
  },
  {
   "property": "C69",
   "status": "proved",
   "theorems": [
    "Verif.Props.C69_fixed_iff_optimal"
   ],
   "note": "Exact TV solver, symmetric covariances, positive sample counts, pinvh inverts the iterate."
  },
  {
   "property": "C70",
   "status": "partial",
   "theorems": [
    "Verif.Props.C70_identity_start_false",
    "Verif.Props.C70_zero_start_false"
   ],
   "note": "False: mode 'gamma' accepts negative definite points with positive determinant; witnesses for an identity start and for the documented init='zero'."
  },
  {
   "property": "C71",
   "status": "partial",
   "theorems": [
    "Verif.Props.C71_single_time_false"
   ],
   "note": "False: AxisError in the l1 mode, IndexError in the Laplacian mode."
  },
  {
   "property": "C72",
   "status": "proved",
   "theorems": [
    "Verif.Props.C72_history"
   ],
   "note": "return_n_iter=True (the default)."
  },
  {
   "property": "C73",
   "status": "proved",
   "theorems": [
    "Verif.Props.C73_small_steps",
    "Verif.Props.C73_terminates"
   ],
   "note": "Positive definiteness of the current iterate is a hypothesis; C70 shows the solver itself does not guarantee it for iterates accepted at larger steps."
  },
  {
   "property": "C74",
   "status": "partial",
   "theorems": [
    "Verif.Props.C74_weighted_lasso_partial",
    "Verif.Props.C74_overlap_false"
   ],
   "note": "The documented problem is not solved; the stationary states solve the lasso weighted by the number of groups containing each feature."
  },
  {
   "property": "C75",
   "status": "proved",
   "theorems": [
    "Verif.Props.C75_upper_bound"
   ],
   "note": "Proved for all inputs of the modelled functions."
  },
  {
   "property": "C76",
   "status": "proved",
   "theorems": [
    "Verif.Props.C76_gstars"
   ],
   "note": "Proved for all inputs of the modelled functions."
  },
  {
   "property": "C77",
   "status": "partial",
   "theorems": [
    "Verif.Props.C77_single_grid",
    "Verif.Props.C77_grids_false"
   ],
   "note": "True for a single grid; lists of grids are merged into one grid, losing or inventing candidates."
  },
  {
   "property": "C78",
   "status": "partial",
   "theorems": [
    "Verif.Props.C78_mh_shape_partial",
    "Verif.Props.C78_single_false",
    "Verif.Props.C78_direct_false"
   ],
   "note": "MH with n >= 2 proved; n = 1 gives a vector; the direct method gives rows of length 10 for every graph."
  },
  {
   "property": "C79",
   "status": "proved",
   "theorems": [
    "Verif.Props.C79_sweeps_invariant"
   ],
   "note": "Exact real arithmetic; uniform draws on [0,1]."
  },
  {
   "property": "C80",
   "status": "partial",
   "theorems": [
    "Verif.Props.C80_bracket",
    "Verif.Props.C80_tight",
    "Verif.Props.C80_determined",
    "Verif.Props.C80_nonpositive_response_false"
   ],
   "note": "Second response positive (both documented choices); fails for nonpositive second response."
  },
  {
   "property": "C81",
   "status": "proved",
   "theorems": [
    "Verif.Props.C81_coalescence",
    "Verif.Props.C81_values"
   ],
   "note": "Same condition on the responses; at least one variable."
  },
  {
   "property": "C82",
   "status": "partial",
   "theorems": [
    "Verif.Props.C82_cftp_constraints_false"
   ],
   "note": "The argument is not read."
  },
  {
   "property": "C83",
   "status": "partial",
   "theorems": [
    "Verif.Props.C83_symmetric_sequence",
    "Verif.Props.C83_poisson_sequence",
    "Verif.Props.C83_responses_false"
   ],
   "note": "Symmetry and length proved; responses are not passed to the update (counterexample)."
  },
  {
   "property": "C84",
   "status": "partial",
   "theorems": [
    "Verif.Props.C84_lpgm",
    "Verif.Props.C84_mismatch_false"
   ],
   "note": "Symmetric 0/1 graphs and nonzero rate; otherwise ValueError (counterexamples)."
  },
  {
   "property": "C85",
   "status": "partial",
   "theorems": [
    "Verif.Props.C85_returns",
    "Verif.Props.C85_no_iterations",
    "Verif.Props.C85_identical_false",
    "Verif.Props.C85_finite_partial"
   ],
   "note": "nan for identical graphs."
  },
  {
   "property": "C86",
   "status": "partial",
   "theorems": [
    "Verif.Props.C86_acceptance_partial",
    "Verif.Props.C86_acceptance_false"
   ],
   "note": "The threshold uses 0.001 log u: the ratio enters to the power 1000."
  },
  {
   "property": "C87",
   "status": "partial",
   "theorems": [
    "Verif.Props.C87_always_multiple_false"
   ],
   "note": "The negation is proved for all runs."
  },
  {
   "property": "C88",
   "status": "partial",
   "theorems": [
    "Verif.Props.C88_weighted_partial",
    "Verif.Props.C88_weighted_false"
   ],
   "note": "Each time is weighted by its number of samples."
  },
  {
   "property": "C89",
   "status": "proved",
   "theorems": [
    "Verif.Props.C89_gwp_posSemidef"
   ],
   "note": "Proved for all inputs of the modelled functions."
  },
  {
   "property": "C90",
   "status": "proved",
   "theorems": [
    "Verif.Props.C90_detailed_balance",
    "Verif.Props.C90_selection"
   ],
   "note": "Proved for all inputs of the modelled functions."
  },
  {
   "property": "C91",
   "status": "partial",
   "theorems": [
    "Verif.Props.C91_history_false"
   ],
   "note": "The negation is proved for all runs in which L changes."
  },
  {
   "property": "C92",
   "status": "partial",
   "theorems": [
    "Verif.Props.C92_covariance_partial",
    "Verif.Props.C92_scale_false"
   ],
   "note": "False as stated: the returned matrix is divided by its largest entry, so it does not change when the data are rescaled (C92_scale_false). The normal form that does hold is C92_covariance_partial."
  },
  {
   "property": "C93",
   "status": "partial",
   "theorems": [
    "Verif.Props.C93_outcome_partial",
    "Verif.Props.C93_n_iter_false"
   ],
   "note": "Stopping index and warning hold; the reported count is one less than the number of iterations and max_iter=0 raises UnboundLocalError; history stores the log-likelihood function instead of values."
  },
  {
   "property": "C94",
   "status": "partial",
   "theorems": [
    "Verif.Props.C94_stationary_partial",
    "Verif.Props.C94_diagonal_false"
   ],
   "note": "Proved for the full l1 norm (diagonal included), which is what the code thresholds; the documented off-diagonal norm is refuted for every number of time points and every kernel. Convergence of the runs is C102."
  },
  {
   "property": "C95",
   "status": "proved",
   "theorems": [
    "Verif.Props.C95_none_independent",
    "Verif.Props.C95_tridiagonal"
   ],
   "note": "Fixed points of the kernel solver with kernel=None solve the single-time problems one by one; the tridiagonal kernel problem equals the time-varying problem."
  },
  {
   "property": "C96",
   "status": "partial",
   "theorems": [
    "Verif.Props.C96_stationary_partial",
    "Verif.Props.C96_diagonal_false"
   ],
   "note": "Proved for the full l1 norm; the off-diagonal norm is refuted. Fixed points only; runs are treated in C158."
  },
  {
   "property": "C97",
   "status": "partial",
   "theorems": [
    "Verif.Props.C97_stationary_partial",
    "Verif.Props.C97_dimension",
    "Verif.Props.C97_diagonal_false"
   ],
   "note": "Proved for the full l1 norm; the off-diagonal norm is refuted. Fixed points only; runs are treated in C158."
  },
  {
   "property": "C98",
   "status": "proved",
   "theorems": [
    "Verif.Props.C98_latent_psd"
   ],
   "note": "Loop invariant; no assumption on the eigenvalue routine beyond returning numbers, because the matrix is recomposed from clipped eigenvalues."
  },
  {
   "property": "C99",
   "status": "partial",
   "theorems": [
    "Verif.Props.C99_stationary_partial",
    "Verif.Props.C99_diagonal_false"
   ],
   "note": "Proved for the full l1 norm; the off-diagonal norm is refuted. Fixed points only; runs are treated in C156."
  },
  {
   "property": "C100",
   "status": "partial",
   "theorems": [
    "Verif.Props.C100_stationary_partial",
    "Verif.Props.C100_loglik_false",
    "Verif.Props.C100_diagonal_false",
    "Verif.Props.C100_call"
   ],
   "note": "The fixed points solve the squared-loss problem with the full l1 norm; the log-likelihood problem of the docstring is refuted, and so is the off-diagonal norm. The returned iteration count is one too small (C100_call). Convergence of the runs is C155."
  },
  {
   "property": "C101",
   "status": "partial",
   "theorems": [
    "Verif.Props.C101_history_partial",
    "Verif.Props.C101_count_false",
    "Verif.Props.C101_kernel"
   ],
   "note": "History and warning proved; the returned count of the three latent solvers is one too small in every call (C101_count_false); the kernel solver without latent variables is right (C101_kernel)."
  },
  {
   "property": "C102",
   "status": "proved",
   "theorems": [
    "Verif.Props.C102_kernel_converges"
   ],
   "note": "Constant penalty only (tau_inc = tau_dec = 1): with the adaptive rule no convergence is claimed. The problem is the one with the full l1 norm (see C94)."
  },
  {
   "property": "C103",
   "status": "proved",
   "theorems": [
    "Verif.Props.C103_time_converges"
   ],
   "note": "Constant penalty only (tau_inc = tau_dec = 1). The problem is the one with the full l1 norm (see C21)."
  },
  {
   "property": "C104",
   "status": "proved",
   "theorems": [
    "Verif.Props.C104_optimum_iff",
    "Verif.Props.C104_solves"
   ],
   "note": "Constant penalty, over_relax = 1. A feature with zero variance leaves the problem without an optimum."
  },
  {
   "property": "C105",
   "status": "proved",
   "theorems": [
    "Verif.Props.C105_precision",
    "Verif.Props.C105_observed"
   ],
   "note": "The ranking of the neighbours and the shuffle are arbitrary (any permutation). The bound on h * p is needed for the latent part and is met by the defaults. Real arithmetic."
  },
  {
   "property": "C106",
   "status": "partial",
   "theorems": [
    "Verif.Props.C106_structure_partial",
    "Verif.Props.C106_unknown_update",
    "Verif.Props.C106_posdef_false"
   ],
   "note": "The shape of the result is proved. Positive definiteness of the observed precisions after the first time is false: the only repair, adding epsilon plus the diagonal of the latent part, is not enough (C106_posdef_false)."
  },
  {
   "property": "C107",
   "status": "partial",
   "theorems": [
    "Verif.Props.C107_valid_partial",
    "Verif.Props.C107_sparsity_false"
   ],
   "note": "Validity is proved. The pattern is not fixed: nonzeros is computed from theta - np.diag(theta), which subtracts the diagonal from every row, so zero entries receive noise (C107_sparsity_false)."
  },
  {
   "property": "C108",
   "status": "partial",
   "theorems": [
    "Verif.Props.C108_valid_partial",
    "Verif.Props.C108_normalize_false",
    "Verif.Props.C108_normalize_ignored_false"
   ],
   "note": "Validity is proved for every input; normalize=True is ignored because map is lazy in Python 3 (C108_normalize_false)."
  },
  {
   "property": "C109",
   "status": "partial",
   "theorems": [
    "Verif.Props.C109_valid_partial",
    "Verif.Props.C109_observed_false",
    "Verif.Props.C109_observed_count_false"
   ],
   "note": "Validity is proved; thetas_obs is reassigned inside the loop, so only the last observed precision is returned (C109_observed_false), and T=0 raises NameError."
  },
  {
   "property": "C110",
   "status": "partial",
   "theorems": [
    "Verif.Props.C110_valid_partial",
    "Verif.Props.C110_posdef_false"
   ],
   "note": "Positive definiteness is proved when the threshold is off (epsilon <= 0); with the default epsilon=1e-3 it fails for some draws (C110_posdef_false). The orthogonal factors are any orthogonal matrices."
  },
  {
   "property": "C111",
   "status": "partial",
   "theorems": [
    "Verif.Props.C111_marginal_partial",
    "Verif.Props.C111_latent_count_false",
    "Verif.Props.C111_rand_k_false"
   ],
   "note": "The marginal statement is proved for every draw. The argument n_latent is not used: below 20 observed variables there is no latent variable at all (C111_latent_count_false). make_ma_xue_zou_rand_k overwrites the positive definite matrix with A, which is never positive definite once an observed pair is chosen (C111_rand_k_false)."
  },
  {
   "property": "C112",
   "status": "proved",
   "theorems": [
    "Verif.Props.C112_valid"
   ],
   "note": "The smallest eigenvalue is an oracle specified by IsMinEig. Random blocks are arbitrary; sparsity of the draws is not used. Real arithmetic."
  },
  {
   "property": "C113",
   "status": "partial",
   "theorems": [
    "Verif.Props.C113_layout_partial",
    "Verif.Props.C113_dispatch_partial",
    "Verif.Props.C113_documented_modes_false",
    "Verif.Props.C113_offered_modes_false",
    "Verif.Props.C113_degree_false",
    "Verif.Props.C113_graph_layout_partial"
   ],
   "note": "The layout and the rejections are proved. False: documented modes evolving, fixed, l1, l1l2 raise ValueError; offered modes my, mys, ticc never return; degree is ignored for Ising and Poisson data."
  },
  {
   "property": "C114",
   "status": "partial",
   "theorems": [
    "Verif.Props.C114_valid_partial",
    "Verif.Props.C114_latent_false"
   ],
   "note": "Proved for the joint precision and without latent variables; false with latent variables (AssertionError for some samples)."
  },
  {
   "property": "C115",
   "status": "proved",
   "theorems": [
    "Verif.Props.C115_marginal"
   ],
   "note": "The sampled functions are arbitrary numbers, so nothing is said about their distribution. Real arithmetic."
  },
  {
   "property": "C116",
   "status": "partial",
   "theorems": [
    "Verif.Props.C116_classes_partial",
    "Verif.Props.C116_selfloop_false",
    "Verif.Props.C116_gauss_partial",
    "Verif.Props.C116_posdef_false"
   ],
   "note": "Symmetry proved; at most two pairs change per class; self-loops and indefinite Gaussian networks occur."
  },
  {
   "property": "C117",
   "status": "partial",
   "theorems": [
    "Verif.Props.C117_count_partial",
    "Verif.Props.C117_symmetry_false"
   ],
   "note": "Count proved: T or T + 1; the precisions are not symmetric; too few times raise ZeroDivisionError."
  },
  {
   "property": "C118",
   "status": "partial",
   "theorems": [
    "Verif.Props.C118_labels_partial",
    "Verif.Props.C118_default_false",
    "Verif.Props.C118_condition_false",
    "Verif.Props.C118_new_default_false"
   ],
   "note": "Proved when T is a multiple of len(clusters) and each segment is cut evenly; false for the default arguments (ValueError; AssertionError in make_ticc_dataset_new)."
  },
  {
   "property": "C119",
   "status": "proved",
   "theorems": [
    "Verif.Props.C119_conditional"
   ],
   "note": "For every positive definite precision of the cluster; the draws themselves are not modelled here. Real arithmetic."
  },
  {
   "property": "C120",
   "status": "proved",
   "theorems": [
    "Verif.Props.C120_classes",
    "Verif.Props.C120_row_order",
    "Verif.Props.C120_relabel",
    "Verif.Props.C120_covariance"
   ],
   "note": "Input validation (check_X_y) is not modelled."
  },
  {
   "property": "C121",
   "status": "partial",
   "theorems": [
    "Verif.Props.C121_score_partial",
    "Verif.Props.C121_ranking",
    "Verif.Props.C121_absent_class_false",
    "Verif.Props.C121_indefinite_false"
   ],
   "note": "Partial: the returned number is 2*loglik + N*p*log(2*pi), not the log-likelihood; counterexamples for absent classes (nan; ValueError with scikit-learn releases that validate the empty block) and indefinite matrices."
  },
  {
   "property": "C122",
   "status": "partial",
   "theorems": [
    "Verif.Props.C122_decision",
    "Verif.Props.C122_predict",
    "Verif.Props.C122_errors",
    "Verif.Props.C122_fit",
    "Verif.Props.C122_posdef",
    "Verif.Props.C122_estimator_modified_false",
    "Verif.Props.C122_latent_false"
   ],
   "note": "The decision rule, alignment and error cases are proved; two counterexamples: the wrapped estimator is modified in place with ensure_posdef, and latent variable estimators are used with the covariance of precision_ rather than of the observed precision."
  },
  {
   "property": "C123",
   "status": "proved",
   "theorems": [
    "Verif.Props.C123_ising",
    "Verif.Props.C123_poisson",
    "Verif.Props.C123_exact",
    "Verif.Props.C123_penalties"
   ],
   "note": "C123_ising assumes that the proximal map keeps zero diagonals; C123_exact derives this for exact proximal maps of penalties that do not depend on signs, and C123_penalties shows that laplacian, l1, l2 and linf are such penalties. The node penalty, whose map is an inner iteration, is not covered. The neighbourhood fits of the Poisson estimator are arbitrary functions."
  },
  {
   "property": "C124",
   "status": "partial",
   "theorems": [
    "Verif.Props.C124_stationary_partial",
    "Verif.Props.C124_inner_partial",
    "Verif.Props.C124_rho_unique",
    "Verif.Props.C124_single_time",
    "Verif.Props.C124_rho_false"
   ],
   "note": "False as documented: A is divided by n_times although only n_times - 1 consensus terms are summed (there is no Z_0 here), so the fixed points carry an extra ridge penalty rho/2 * sum ||K_t||^2. C124_stationary_partial proves the corrected statement for an exact inner fit; C124_inner_partial proves the inner contract for fixed points of the Ising step on one sample (several samples: see C41)."
  },
  {
   "property": "C125",
   "status": "partial",
   "theorems": [
    "Verif.Props.C125_ising",
    "Verif.Props.C125_values_false",
    "Verif.Props.C125_options_false",
    "Verif.Props.C125_similarity_false",
    "Verif.Props.C125_score_false"
   ],
   "note": "False in several places: any two values are accepted and constant spin data rejected; array kernels and ker_param='auto' never work; SimilarityTemporalPoissonModel cannot be constructed; score is a constant."
  },
  {
   "property": "C126",
   "status": "partial",
   "theorems": [
    "Verif.Props.C126_value_partial",
    "Verif.Props.C126_sign_false"
   ],
   "note": "False: the loss enters the reported objective with the wrong sign (it differs from the documented objective by twice the loss)."
  },
  {
   "property": "C127",
   "status": "partial",
   "theorems": [
    "Verif.Props.C127_gaussian_partial",
    "Verif.Props.C127_ising_partial",
    "Verif.Props.C127_equal_false",
    "Verif.Props.C127_ising_psi_false",
    "Verif.Props.C127_penalties"
   ],
   "note": "The property holds as soon as two networks differ (`_partial`). If all networks are equal, or with a single time, every entry is nan (0/0), also on the diagonal. The Ising version ignores `psi` and the diagonals."
  },
  {
   "property": "C128",
   "status": "partial",
   "theorems": [
    "Verif.Props.C128_converged_partial",
    "Verif.Props.C128_ising_converged_partial",
    "Verif.Props.C128_unconverged_false",
    "Verif.Props.C128_equal_init_false",
    "Verif.Props.C128_given_kernel_false",
    "Verif.Props.C128_transform",
    "Verif.Props.C128_clusters_false"
   ],
   "note": "When the loop breaks, the exposed table is the similarity of the returned networks, which are a fixed point of the alternation. When the rounds run out, `similarity_matrix_` is the kernel of the last fit (diagonal 2). The similarity table is passed to the clustering as a table of distances, so the most different networks are merged first and equal networks are separated. `init=\"zeros\"` (or any init with equal networks) raises ValueError for all data. With a given kernel `transform` raises NotFittedError. The inner solver and the linkage are arguments of the model (see C-claims on the solver for the former)."
  },
  {
   "property": "C129",
   "status": "partial",
   "theorems": [
    "Verif.Props.C129_kept_partial",
    "Verif.Props.C129_ker_param_false",
    "Verif.Props.C129_get_params_false",
    "Verif.Props.C129_poisson_false",
    "Verif.Props.C129_rewritten_false"
   ],
   "note": "Holds for 17 classes. `ker_param` of SimilarityTimeGraphicalLasso and SimilarityTemporalIsingModel is not handed to the parent: the stored value is always the default. get_params of WishartProcess (four priors) and PrecomputedDiscriminantAnalysis raises AttributeError. SimilarityTemporalPoissonModel cannot be constructed (TypeError). burn_in, groups, priors, cv and param_grid are rewritten by the constructors; a given cv is ignored."
  },
  {
   "property": "C130",
   "status": "partial",
   "theorems": [
    "Verif.Props.C130_reached_partial",
    "Verif.Props.C130_phi_false",
    "Verif.Props.C130_ignored_false"
   ],
   "note": "Holds for 15 solver calls. `phi` of the kernel-based latent estimators never reaches the solver. A list of options has no effect at all on what the solver receives (mode, suppress_warn_list, beta of KernelTimeGraphicalLasso, assume_centered in three classes, and others). Local expressions are assumed to read only the attributes that the text of the class reads."
  },
  {
   "property": "C131",
   "status": "partial",
   "theorems": [
    "Verif.Props.C131_stable_partial",
    "Verif.Props.C131_assigned_false",
    "Verif.Props.C131_clusters_false",
    "Verif.Props.C131_sampling_false",
    "Verif.Props.C131_alpha_max_false",
    "Verif.Props.C131_sampling_rounded"
   ],
   "note": "Holds for 18 classes. n_clusters of the similarity estimators, alpha=\"max\" of the forward-backward estimator, alphas of BayesianGraphicalLasso, and sampling_size and cv of the stability selection are overwritten by the first fit. Methods inherited from scikit-learn are assumed not to assign constructor parameters."
  },
  {
   "property": "C132",
   "status": "partial",
   "theorems": [
    "Verif.Props.C132_latent_time_small_penalties",
    "Verif.Props.C132_kernel_latent_small_penalties",
    "Verif.Props.C132_latent_small_penalties",
    "Verif.Props.C132_graphical_lasso",
    "Verif.Props.C132_graphical_lasso_limit",
    "Verif.Props.C132_latent",
    "Verif.Props.C132_infimal",
    "Verif.Props.C132_time",
    "Verif.Props.C132_kernel_time",
    "Verif.Props.C132_time_limit",
    "Verif.Props.C132_kernel_time_limit",
    "Verif.Props.C132_latent_time",
    "Verif.Props.C132_kernel_latent",
    "Verif.Props.C132_decomposition",
    "Verif.Props.C132_domain_false",
    "Verif.Props.C132_latent_limit",
    "Verif.Props.C132_latent_limit_partial",
    "Verif.Props.C132_infimal_limit",
    "Verif.Props.C132_latent_time_limit_partial",
    "Verif.Props.C132_kernel_latent_limit_partial",
    "Verif.Props.C132_decomposition_limit"
   ],
   "note": "Values at consensus for all eight solvers, and limits for all of them at a constant penalty parameter: unconditional for graphical_lasso, the two time-varying solvers, infimal_convolution (penalty below 2), latent_time_matrix_decomposition (penalty below 4) and latent_graphical_lasso with tau >= d alpha; for the latent solvers with small penalties and small penalty parameter (C132_*_small_penalties); otherwise under the hypotheses of C158 and C161. The limit is the documented objective at the limit of the estimates, which minimises the problem with the full l1 norm (C94, C99), hence not always the documented one. C132_domain_false: the domain is only tested through the sign of the determinant, so an indefinite matrix with positive determinant gets a finite value instead of inf (first entry with init=-I and two variables)."
  },
  {
   "property": "C133",
   "status": "proved",
   "theorems": [
    "Verif.Props.C133_graphical_lasso",
    "Verif.Props.C133_time",
    "Verif.Props.C133_kernel"
   ],
   "note": "The objectives carry the full l1 norm for the temporal solvers, which is what these solvers minimise (see C21, C94)."
  },
  {
   "property": "C134",
   "status": "proved",
   "theorems": [
    "Verif.Props.C134_time",
    "Verif.Props.C134_kernel",
    "Verif.Props.C134_graphical_lasso"
   ],
   "note": "The alternative 'changes forever' is not excluded: with fixed factors different from 1 that is the only way the adaptive rule can prevent convergence."
  },
  {
   "property": "C135",
   "status": "proved",
   "theorems": [
    "Verif.Props.C135_value",
    "Verif.Props.C135_finite_iff",
    "Verif.Props.C135_correlation",
    "Verif.Props.C135_invariant"
   ],
   "note": "zero or negative variances give NaN (C135_finite_iff)"
  },
  {
   "property": "C136",
   "status": "partial",
   "theorems": [
    "Verif.Props.C136_entries",
    "Verif.Props.C136_top",
    "Verif.Props.C136_psd",
    "Verif.Props.C136_posdef_false",
    "Verif.Props.C136_all_rows",
    "Verif.Props.C136_odd_false",
    "Verif.Props.C136_delimiter"
   ],
   "note": "partial because the docstring's positive definiteness fails (C136_posdef_false) and an odd row count loses a row (C136_odd_false); files with targets missing from the first column and negative thresholds are not modelled"
  },
  {
   "property": "C137",
   "status": "partial",
   "theorems": [
    "Verif.Props.C137_psd",
    "Verif.Props.C137_posdef",
    "Verif.Props.C137_positive_definite",
    "Verif.Props.C137_asymmetric_false"
   ],
   "note": "partial because asymmetric input is judged by its lower triangle (C137_asymmetric_false)"
  },
  {
   "property": "C138",
   "status": "partial",
   "theorems": [
    "Verif.Props.C138_bounds",
    "Verif.Props.C138_single",
    "Verif.Props.C138_uniform_false"
   ],
   "note": "partial because evenly spread terms keep a positive weight (C138_uniform_false)"
  },
  {
   "property": "C139",
   "status": "partial",
   "theorems": [
    "Verif.Props.C139_value",
    "Verif.Props.C139_zero_iff",
    "Verif.Props.C139_length_false",
    "Verif.Props.C139_versus_batch",
    "Verif.Props.C139_rank"
   ],
   "note": "partial because different lengths are cut silently (C139_length_false)"
  },
  {
   "property": "C140",
   "status": "partial",
   "theorems": [
    "Verif.Props.C140_value",
    "Verif.Props.C140_units_false",
    "Verif.Props.C140_time"
   ],
   "note": "partial because of the quadratic scaling (C140_units_false)"
  },
  {
   "property": "C141",
   "status": "proved",
   "theorems": [
    "Verif.Props.C141_wishart_mode",
    "Verif.Props.C141_inverse_wishart",
    "Verif.Props.C141_inverse_mode"
   ],
   "note": "multigammaln and fast_logdet are trusted (log det on positive definite matrices). sample() is not covered."
  },
  {
   "property": "C142",
   "status": "partial",
   "theorems": [
    "Verif.Props.C142_bayes",
    "Verif.Props.C142_mode",
    "Verif.Props.C142_marginal",
    "Verif.Props.C142_predictive",
    "Verif.Props.C142_posterior_object_false"
   ],
   "note": "Conjugacy, mode, marginal and predictive are proved for the parameters; C142_posterior_object_false: posterior stores the mean as a 1 x D array, which scipy's multivariate_normal refuses, so log_likelihood of a returned posterior raises unless D = 1. Proportionality constants of the Student laws are not computed."
  },
  {
   "property": "C143",
   "status": "proved",
   "theorems": [
    "Verif.Props.C143_frob",
    "Verif.Props.C143_frob_max",
    "Verif.Props.C143_lognormal"
   ],
   "note": "Floating point not modelled."
  },
  {
   "property": "C144",
   "status": "proved",
   "theorems": [
    "Verif.Props.C144_predict",
    "Verif.Props.C144_rbf"
   ],
   "note": "Prediction given samples; the sampler itself is C89 and not repeated. The kernel inverse is an argument."
  },
  {
   "property": "C145",
   "status": "proved",
   "theorems": [
    "Verif.Props.C145_all",
    "Verif.Props.C145_sorted"
   ],
   "note": "Proved for every n; argsort is any sorting permutation."
  },
  {
   "property": "C146",
   "status": "proved",
   "theorems": [
    "Verif.Props.C146_blanket",
    "Verif.Props.C146_resampled",
    "Verif.Props.C146_scores"
   ],
   "note": "LassoLars scores are arbitrary reals."
  },
  {
   "property": "C147",
   "status": "partial",
   "theorems": [
    "Verif.Props.C147_gradient",
    "Verif.Props.C147_optimum",
    "Verif.Props.C147_unbounded_false"
   ],
   "note": "C147_unbounded_false: covsel accepts indefinite matrices with positive determinant and its value is unbounded below there, so the optimiser is trusted to stay in the cone. The optimiser itself is not modelled."
  },
  {
   "property": "C148",
   "status": "proved",
   "theorems": [
    "Verif.Props.C148_bic",
    "Verif.Props.C148_fit",
    "Verif.Props.C148_penalty",
    "Verif.Props.C148_empty"
   ],
   "note": "P is whatever the optimiser returned."
  },
  {
   "property": "C149",
   "status": "partial",
   "theorems": [
    "Verif.Props.C149_first",
    "Verif.Props.C149_hessian_partial",
    "Verif.Props.C149_diagonal_false",
    "Verif.Props.C149_posDef",
    "Verif.Props.C149_logh_false"
   ],
   "note": "C149_diagonal_false: diagonal parameters are counted twice per direction (Hessian entry 4 times too large; the constant cancels in the score). C149_logh_false: logh has + n_dim where h has - n_dim, so Laplace scores are too large by n*p for every graph (the ranking is not affected)."
  },
  {
   "property": "C150",
   "status": "partial",
   "theorems": [
    "Verif.Props.C150_default_prior_false",
    "Verif.Props.C150_fit_cov",
    "Verif.Props.C150_top",
    "Verif.Props.C150_mean"
   ],
   "note": "C150_default_prior_false: np.cov(X) takes rows as variables, so the default S0 is n x n and GWishartScore raises ValueError unless n = p. The behaviour of laplace scoring on the empty data set depends on the sklearn version and is not modelled."
  },
  {
   "property": "C151",
   "status": "partial",
   "theorems": [
    "Verif.Props.C151_converges_partial",
    "Verif.Props.C151_stops_partial"
   ],
   "note": "Partial: runs that leave the positive definite cone (possible, C70) or exhaust the 200 trials of the search are excluded by hypothesis; convergence, optimality of the limit and termination are proved for all other runs."
  },
  {
   "property": "C152",
   "status": "partial",
   "theorems": [
    "Verif.Props.C152_converges",
    "Verif.Props.C152_stops",
    "Verif.Props.C152_accuracy",
    "Verif.Props.C152_default_diverges_false"
   ],
   "note": "Convergence, termination and accuracy are proved; the last sentence is false: with the fixed step size 1/1000 of the estimator the iterates diverge on data with entries 100 (C152_default_diverges_false)."
  },
  {
   "property": "C153",
   "status": "partial",
   "theorems": [
    "Verif.Props.C153_converges_partial",
    "Verif.Props.C153_stops_partial",
    "Verif.Props.C153_first_sample_false"
   ],
   "note": "Partial: proved for the problem built from the first sample alone (divided by the number of samples), which is what the gradient of the code uses; C153_first_sample_false shows that all other samples are ignored."
  },
  {
   "property": "C154",
   "status": "partial",
   "theorems": [
    "Verif.Props.C154_certificate",
    "Verif.Props.C154_converges_partial"
   ],
   "note": "partial: the inner fits are assumed exact (C153 proves that they converge, for one sample); convergence is for a constant penalty. The limit solves the problem with the extra term rho/2 sum of squares, see C124. C154_certificate has no restriction on the penalty schedule."
  },
  {
   "property": "C155",
   "status": "proved",
   "theorems": [
    "Verif.Props.C155_infimal_adaptive",
    "Verif.Props.C155_infimal_converges"
   ],
   "note": "At a constant penalty below 2 (C155_infimal_converges), and for every penalty rule, the default one included, unless the penalty changes forever or settles at 2 or more (C155_infimal_adaptive). The stopping rule does not monitor the change of K and L, so the accuracy statement excludes a pass whose recorded residuals are both exactly zero."
  },
  {
   "property": "C156",
   "status": "proved",
   "theorems": [
    "Verif.Props.C156_decomposition_adaptive",
    "Verif.Props.C156_decomposition_converges"
   ],
   "note": "At a constant penalty below 4 (C156_decomposition_converges), and for every penalty rule, the default one included, unless the penalty changes forever or settles at 4 or more (C156_decomposition_adaptive). Same remark on the stopping rule as C155."
  },
  {
   "property": "C157",
   "status": "proved",
   "theorems": [
    "Verif.Props.C157_chain",
    "Verif.Props.C157_kernel",
    "Verif.Props.C157_single"
   ],
   "note": "About the problems, not the iterations: minimisers of the objective over feasible pairs. Uniqueness is for K - L only."
  },
  {
   "property": "C158",
   "status": "partial",
   "theorems": [
    "Verif.Props.C158_chain_small_penalties",
    "Verif.Props.C158_kernel_small_penalties",
    "Verif.Props.C158_chain_partial",
    "Verif.Props.C158_kernel_partial"
   ],
   "note": "For every constant rho small enough the conclusion holds with no assumption on the iterates when the penalties are small against the data (C158_*_small_penalties: 2 sqrt(T) (d alpha + 4 kpsi sum(beta) + 2 kphi sum(eta)) <= min(n_samples) * smallest eigenvalue of the covariances, kpsi and kphi the Lipschitz constants of the couplings); the proof bootstraps the first pass: it bounds the energy, the energy bounds the next R, and while R is bounded the energy decreases. Outside that regime the partial theorems assume that the computed R are eventually bounded by c with rho*c*b < 2*min(n_samples)."
  },
  {
   "property": "C159",
   "status": "proved",
   "theorems": [
    "Verif.Props.C159_chain",
    "Verif.Props.C159_kernel"
   ],
   "note": "Equality is up to the type of the record (the static one also carries the objective flag, which is never raised for a symmetric covariance)."
  },
  {
   "property": "C160",
   "status": "proved",
   "theorems": [
    "Verif.Props.C160_no_latent",
    "Verif.Props.C160_infimal_no_latent",
    "Verif.Props.C160_optimum_no_latent"
   ],
   "note": "Eigendecompositions are an oracle (IsEighOracle); alpha >= 0, rho > 0 and positive factors of the penalty rule are assumed. Real arithmetic."
  },
  {
   "property": "C161",
   "status": "partial",
   "theorems": [
    "Verif.Props.C161_small_penalties",
    "Verif.Props.C161_converges_partial",
    "Verif.Props.C161_no_latent_converges"
   ],
   "note": "Full for tau >= d*alpha, and for every tau >= 0 and every rho small enough when 2 d alpha is at most the smallest eigenvalue of S (C161_small_penalties); otherwise the boundedness of the computed R is a hypothesis."
  },
  {
   "property": "C162",
   "status": "proved",
   "theorems": [
    "Verif.Props.C162_search_ends"
   ],
   "note": "linalg.pinv is taken to compute the pseudo-inverse in exact arithmetic."
  },
  {
   "property": "C163",
   "status": "proved",
   "theorems": [
    "Verif.Props.C163_shrinks",
    "Verif.Props.C163_strict"
   ],
   "note": "linalg.pinv is taken to compute the pseudo-inverse in exact arithmetic."
  },
  {
   "property": "C164",
   "status": "partial",
   "theorems": [
    "Verif.Props.C164_settled_partial",
    "Verif.Props.C164_radius_false",
    "Verif.Props.C164_nested_false"
   ],
   "note": "Proved when the blocks are linearly independent on the support of w0 and radii are at most 1; both exclusions are necessary (C164_nested_false, C164_radius_false)."
  },
  {
   "property": "C165",
   "status": "partial",
   "theorems": [
    "Verif.Props.C165_certificate_partial",
    "Verif.Props.C165_stale_false"
   ],
   "note": "The certificate is proved; the stopping test itself is refuted (C165_stale_false)."
  },
  {
   "property": "C166",
   "status": "partial",
   "theorems": [
    "Verif.Props.C166_groups_false",
    "Verif.Props.C166_one_group"
   ],
   "note": "Holds for one group, refuted for every input with two or more."
  },
  {
   "property": "C167",
   "status": "partial",
   "theorems": [
    "Verif.Props.C167_fixed_partial",
    "Verif.Props.C167_states"
   ],
   "note": "Exactness of the inner steps and convergence of the accelerated loop are not claimed."
  },
  {
   "property": "C168",
   "status": "proved",
   "theorems": [
    "Verif.Props.C168_counts_only"
   ],
   "note": "Covers coefficients, pass number, residuals and tolerances; the recorded objective depends on the groups (C171). The finding behind it: the x-update shrinks every copy separately, so the group structure is lost."
  },
  {
   "property": "C169",
   "status": "proved",
   "theorems": [
    "Verif.Props.C169_outcome",
    "Verif.Props.C169_no_pass"
   ],
   "note": "Both numpy behaviours for groups of different lengths are covered by the flag `ragged`."
  },
  {
   "property": "C170",
   "status": "proved",
   "theorems": [
    "Verif.Props.C170_certificate"
   ],
   "note": "F is the objective the loop in fact minimises (C74), not the documented one; `np.linalg.inv` enters as an exact inverse. Convergence of the loop is C176."
  },
  {
   "property": "C171",
   "status": "partial",
   "theorems": [
    "Verif.Props.C171_objective_false",
    "Verif.Props.C171_agreement_partial"
   ],
   "note": "Counterexample at run level. The agreement theorem is for groups without repeated entries."
  },
  {
   "property": "C172",
   "status": "proved",
   "theorems": [
    "Verif.Props.C172_search_ends",
    "Verif.Props.C172_descent"
   ],
   "note": "In exact arithmetic: the tests for inf and nan on the loss never fire in the model. Strengthens C65, whose counterexample shows that accepted points need not be proximal gradient steps."
  },
  {
   "property": "C173",
   "status": "proved",
   "theorems": [
    "Verif.Props.C173_converges"
   ],
   "note": "The limit is proved for the run without early stop; the early stop ends with a short step, which does not bound the distance to the minimiser."
  },
  {
   "property": "C174",
   "status": "partial",
   "theorems": [
    "Verif.Props.C174_fixed_point_optimal",
    "Verif.Props.C174_returns_false",
    "Verif.Props.C174_stalls"
   ],
   "note": "False: the acceptance test leaves out the coupling term, so for one sample with predictor 1, response 0, alpha = 0 and coupling value 2 every trial is rejected and the loop does not end in exact arithmetic (in floating point it ends when the step underflows, with zero progress). regain/generalized_linear_model/glm_time_poisson.py:172 calls this function with a coupling matrix."
  },
  {
   "property": "C175",
   "status": "partial",
   "theorems": [
    "Verif.Props.C175_fit",
    "Verif.Props.C175_intercept_false",
    "Verif.Props.C175_arguments_ignored",
    "Verif.Props.C175_mode"
   ],
   "note": "False with intercept=True (the matrix has one row more than the data has variables, for every data set); `C175_arguments_ignored` shows that gamma and max_iter of the constructor have no effect. The data is taken as already accepted by check_array."
  },
  {
   "property": "C176",
   "status": "partial",
   "theorems": [
    "Verif.Props.C176_converges_partial",
    "Verif.Props.C176_stops_partial",
    "Verif.Props.C176_small_rho_partial",
    "Verif.Props.C176_small_rho_stops_partial"
   ],
   "note": "Partial: proved when 2*rho exceeds the largest curvature of the loss relative to the group counts, and when rho is at most the smallest one (exact arithmetic, exact inverse). For rho between these bounds, possible when the largest curvature is more than twice the smallest one, neither convergence nor a diverging run is known. The theorems about large and small rho are separate (C176_converges_partial, C176_small_rho_partial)."
  },
  {
   "property": "C177",
   "status": "partial",
   "theorems": [
    "Verif.Props.C177_mean",
    "Verif.Props.C177_invariance",
    "Verif.Props.C177_one_time",
    "Verif.Props.C177_single_false"
   ],
   "note": "Partial: one estimator raises ZeroDivisionError (C177_single_false). The graphlet distance of netanalytics is an arbitrary symmetric function vanishing on the diagonal."
  },
  {
   "property": "C178",
   "status": "partial",
   "theorems": [
    "Verif.Props.C178_default_partial",
    "Verif.Props.C178_few_samples_false",
    "Verif.Props.C178_classes_partial",
    "Verif.Props.C178_many_classes_false"
   ],
   "note": "Partial: with at most ten samples the default is zero or negative, and with more classes than drawn samples the size is rounded down to zero."
  },
  {
   "property": "C179",
   "status": "partial",
   "theorems": [
    "Verif.Props.C179_bezier",
    "Verif.Props.C179_curve",
    "Verif.Props.C179_interval",
    "Verif.Props.C179_chord",
    "Verif.Props.C179_self_loop_false"
   ],
   "note": "Partial: nodes in the same place (self-loops) get the index -1 and hence the class of the longest chords (C179_self_loop_false). Drawing itself is not modelled."
  },
  {
   "property": "C180",
   "status": "partial",
   "theorems": [
    "Verif.Props.C180_rows",
    "Verif.Props.C180_gaussian",
    "Verif.Props.C180_ising",
    "Verif.Props.C180_ising_diagonal_false",
    "Verif.Props.C180_generated_false",
    "Verif.Props.C180_no_classes_false",
    "Verif.Props.C180_ising_refuses",
    "Verif.Props.C180_generated_accepted"
   ],
   "note": "Partial: rows, labels and networks are aligned for all three distributions, but the Ising sampler zeroes the diagonals of the networks in place, so the networks returned are not the generated ones (whose diagonals are 1), and n_classes=0 yields rows without labels. The distribution of the draws is not modelled."
  },
  {
   "property": "C181",
   "status": "partial",
   "theorems": [
    "Verif.Props.C181_conditional",
    "Verif.Props.C181_invariant",
    "Verif.Props.C181_balance_iff",
    "Verif.Props.C181_no_distribution_false",
    "Verif.Props.C181_rows",
    "Verif.Props.C181_raises_false",
    "Verif.Props.C181_variances_false"
   ],
   "note": "Partial: conditional distributions, invariance and independence of the samples are proved for symmetric theta (and balance fails for every other theta), but with a positive coefficient no such distribution exists, the call can raise ValueError from some starting state, one variable raises IndexError, and variances of another size are silently replaced by zeros. Convergence of the chain to the invariant distribution is not proved."
  },
  {
   "property": "C182",
   "status": "partial",
   "theorems": [
    "Verif.Props.C182_returns_iff",
    "Verif.Props.C182_theta_false",
    "Verif.Props.C182_cftp",
    "Verif.Props.C182_retry_false",
    "Verif.Props.C182_cftp_max_iter_false",
    "Verif.Props.C182_direct_false"
   ],
   "note": "Partial: success is characterised, but theta loses its diagonal in place, CFTP_retry <= 1 raises UnboundLocalError, CFTP with max_iter=0 never returns, and the direct method draws without replacement."
  },
  {
   "property": "C183",
   "status": "proved",
   "theorems": [
    "Verif.Props.C183_graphical_lasso",
    "Verif.Props.C183_latent_graphical_lasso",
    "Verif.Props.C183_infimal_convolution",
    "Verif.Props.C183_kernel_time_graphical_lasso",
    "Verif.Props.C183_time_graphical_lasso",
    "Verif.Props.C183_latent_time_graphical_lasso",
    "Verif.Props.C183_kernel_latent_time_graphical_lasso",
    "Verif.Props.C183_matrix_decomposition",
    "Verif.Props.C183_covariance",
    "Verif.Props.C183_initial_precision",
    "Verif.Props.C183_prox",
    "Verif.Props.C183_psi_l1",
    "Verif.Props.C183_psi_laplacian"
   ],
   "note": "Exact equality of the whole return value (exceptions, history, iteration number, warning). Spec/Relabel.lean defines the relabelling; C183_covariance shows it is what relabelled data give."
  },
  {
   "property": "C184",
   "status": "proved",
   "theorems": [
    "Verif.Props.C184_kernel_time_graphical_lasso",
    "Verif.Props.C184_kernel_latent_time_graphical_lasso",
    "Verif.Props.C184_latent_time_graphical_lasso",
    "Verif.Props.C184_matrix_decomposition",
    "Verif.Props.C184_time_graphical_lasso",
    "Verif.Props.C184_psi_l1",
    "Verif.Props.C184_psi_laplacian"
   ],
   "note": "Exact equality of the whole return value; the recorded objectives are sums in the natural model, where the order of summation does not matter (floats: up to rounding)."
  },
  {
   "property": "C185",
   "status": "proved",
   "theorems": [
    "Verif.Props.C185_groups_iff",
    "Verif.Props.C185_alpha_max",
    "Verif.Props.C185_time",
    "Verif.Props.C185_kernel",
    "Verif.Props.C185_time_returned",
    "Verif.Props.C185_kernel_returned",
    "Verif.Props.C185_psi_l1",
    "Verif.Props.C185_psi_laplacian",
    "Verif.Props.C185_psi_l2",
    "Verif.Props.C185_returned",
    "Verif.Props.C185_returned_empty"
   ],
   "note": "The returned-result statements are for a constant penalty parameter; for the time-varying solvers they say the entries between groups are as small as wanted (not exactly zero). The latent variable versions are not covered: they have no l1 penalty on the low-rank part."
  },
  {
   "property": "C186",
   "status": "proved",
   "theorems": [
    "Verif.Props.C186_network",
    "Verif.Props.C186_edges_found"
   ],
   "note": "Constant penalty parameter (tau_inc = tau_dec = 1), over_relax = 1."
  },
  {
   "property": "C187",
   "status": "proved",
   "theorems": [
    "Verif.Props.C187_equal_data",
    "Verif.Props.C187_equal_data_kernel",
    "Verif.Props.C187_beta_zero",
    "Verif.Props.C187_beta_large",
    "Verif.Props.C187_kernel_large",
    "Verif.Props.C187_pooled_exists",
    "Verif.Props.C187_solver",
    "Verif.Props.C187_psi_l1",
    "Verif.Props.C187_psi_l2",
    "Verif.Props.C187_laplacian"
   ],
   "note": "`pull` in the bound on beta is written out in Props/TimeConst.lean."
  },
  {
   "property": "C188",
   "status": "proved",
   "theorems": [
    "Verif.Props.C188_gauss_optimal_iff",
    "Verif.Props.C188_gauss_empty",
    "Verif.Props.C188_gauss_empty_iff",
    "Verif.Props.C188_poisson_optimal_iff",
    "Verif.Props.C188_poisson_empty",
    "Verif.Props.C188_poisson_nonempty",
    "Verif.Props.C188_poisson_model"
   ],
   "note": "C188_gauss_optimal_iff, C188_gauss_empty, C188_gauss_empty_iff, C188_poisson_optimal_iff, C188_poisson_empty, C188_poisson_nonempty (small tolerance, many iterations), C188_poisson_model."
  },
  {
   "property": "C189",
   "status": "partial",
   "theorems": [
    "Verif.Props.C189_selects_false",
    "Verif.Props.C189_empty",
    "Verif.Props.C189_complete",
    "Verif.Props.C189_default_false",
    "Verif.Props.C189_mode",
    "Verif.Props.C189_time_empty"
   ],
   "note": "False. C189_selects_false: for binary data every network the default mode can return has no edge or all edges, all of equal strength, whatever the data and options. C189_empty / C189_complete: which of the two (alpha * n_samples >= 1 or < 1). C189_default_false: empty for every data set of at least 100 samples with the default options. C189_time_empty: the same threshold empties the time-varying estimator. C189_mode: 'coordinate_descent' always raises."
  },
  {
   "property": "C190",
   "status": "partial",
   "theorems": [
    "Verif.Props.C190_empty_partial",
    "Verif.Props.C190_returns_false"
   ],
   "note": "False. C190_returns_false: with constant counts the call never returns once rho * n_times >= 2 * n_samples, for alpha <= 1/4 and all other options. C190_empty_partial: above the threshold it returns identities; missing: conditions for returning below the threshold."
  },
  {
   "property": "C191",
   "status": "partial",
   "theorems": [
    "Verif.Props.C191_converges",
    "Verif.Props.C191_accuracy",
    "Verif.Props.C191_fuses_iff",
    "Verif.Props.C191_exact_fuses",
    "Verif.Props.C191_exact_false",
    "Verif.Props.C191_nan_false"
   ],
   "note": "False. C191_converges / C191_accuracy: while the penalty of the inner loop stays constant, the passes converge at rate 4/5 to the unique minimiser of another problem, with weight 2/3 beta on the node penalty and an extra rho/6 ||V - V^T||^2, and the residual the code records bounds the distance. C191_fuses_iff / C191_exact_fuses: so consecutive networks are joined for column norms up to 2/3 beta/rho instead of beta/rho. C191_exact_false: a run that returns at least 9.18 where the exact answer is 9, for all tolerances up to 0.01 and budgets of three passes or more. C191_nan_false: inputs that differ by a constant in all entries give NaN."
  },
  {
   "property": "C192",
   "status": "partial",
   "theorems": [
    "Verif.Props.C192_value",
    "Verif.Props.C192_le_true_partial",
    "Verif.Props.C192_zero_false"
   ],
   "note": "False. C192_value: the minimum of the posed problem is |sum of X| / (2 sqrt(n)). C192_zero_false: zero for every nonzero symmetric X with zero sum, where the penalty is positive. C192_le_true_partial: never above the node penalty."
  },
  {
   "property": "C193",
   "status": "partial",
   "theorems": [
    "Verif.Props.C193_optimum_iff",
    "Verif.Props.C193_every_call",
    "Verif.Props.C193_pooled",
    "Verif.Props.C193_variance_false",
    "Verif.Props.C193_documented",
    "Verif.Props.C193_kernel_variance_false",
    "Verif.Props.C193_time_call_false",
    "Verif.Props.C193_latent_pooled",
    "Verif.Props.C193_latent"
   ],
   "note": "True for graphical_lasso (C193_optimum_iff, C193_every_call) and for the documented time-varying problem (C193_documented). False for time_graphical_lasso and kernel_time_graphical_lasso, which also penalise the diagonal: the weighted sums of the fitted variances exceed those of the data by exactly alpha times the number of times (C193_variance_false, C193_kernel_variance_false, C193_time_call_false). C193_latent_pooled / C193_latent: latent versions, with the diagonal weight e as a parameter (e = 1 is what the code does)."
  },
  {
   "property": "C194",
   "status": "proved",
   "theorems": [
    "Verif.Props.C194_graphical_lasso",
    "Verif.Props.C194_trace",
    "Verif.Props.C194_pooled",
    "Verif.Props.C194_time_calls",
    "Verif.Props.C194_kernel",
    "Verif.Props.C194_latent"
   ],
   "note": "Exact optima; C194_time_calls adds the calls of time_graphical_lasso at a constant penalty parameter."
  },
  {
   "property": "C195",
   "status": "proved",
   "theorems": [
    "Verif.Props.C195_graphical_lasso",
    "Verif.Props.C195_time",
    "Verif.Props.C195_latent",
    "Verif.Props.C195_calls"
   ],
   "note": "Exact optima; C195_calls adds the calls of graphical_lasso at a constant penalty parameter."
  },
  {
   "property": "C196",
   "status": "proved",
   "theorems": [
    "Verif.Props.C196_graphical_lasso",
    "Verif.Props.C196_time",
    "Verif.Props.C196_latent",
    "Verif.Props.C196_norm",
    "Verif.Props.C196_square",
    "Verif.Props.C196_calls"
   ],
   "note": "Exact optima; C196_calls adds the calls of graphical_lasso at a constant penalty parameter."
  },
  {
   "property": "C197",
   "status": "partial",
   "theorems": [
    "Verif.Props.C197_static",
    "Verif.Props.C197_value_partial",
    "Verif.Props.C197_sign_false",
    "Verif.Props.C197_documented_bounded",
    "Verif.Props.C197_unbounded_false"
   ],
   "note": "True for the static model (C197_static). False for the time-varying one: `loss_poisson` negates a loss that is already the negative log-likelihood (C197_value_partial gives the exact difference), so without penalties better networks get larger values (C197_sign_false) and the reported value is unbounded below whatever alpha is (C197_unbounded_false) although the documented one is bounded (C197_documented_bounded)."
  },
  {
   "property": "C198",
   "status": "partial",
   "theorems": [
    "Verif.Props.C198_best_partial",
    "Verif.Props.C198_score_false",
    "Verif.Props.C198_nan_false",
    "Verif.Props.C198_mutates_false"
   ],
   "note": "The selection and the refit are right when no score is nan (C198_best_partial). best_score_ has the opposite sign (C198_score_false), one nan score (scikit-learn's default for a failing fit) is selected as best (C198_nan_false), and the user's estimator is left with the parameters of the last evaluated point (C198_mutates_false). GPyOpt and the cross-validation are arbitrary functions here; that GPyOpt goes on after a nan is assumed."
  },
  {
   "property": "C199",
   "status": "partial",
   "theorems": [
    "Verif.Props.C199_no_l1",
    "Verif.Props.C199_two_times",
    "Verif.Props.C199_prox_false",
    "Verif.Props.C199_fixed_false"
   ],
   "note": "Exact for p = 1 (C10, C69), for two times (C199_two_times) and without the l1 penalty (C199_no_l1). False for p = 2 and three times: thresholding after denoising is not the proximal map (C199_prox_false) and the solver has fixed points that are not optimal (C199_fixed_false). `tvgen` is taken to be exact for the chosen norm."
  },
  {
   "property": "C200",
   "status": "proved",
   "theorems": [
    "Verif.Props.C200_one_number",
    "Verif.Props.C200_pattern",
    "Verif.Props.C200_converges",
    "Verif.Props.C200_matches",
    "Verif.Props.C200_graph_fit",
    "Verif.Props.C200_modes_agree"
   ],
   "note": "C200_pattern holds for every call with at least one pass. C200_converges and C200_graph_fit need a positive definite covariance (the prior scale matrix makes it so in GWishartFit), no over-relaxation and a penalty parameter that stops changing; the real call has tolerances 1e-4 and 100 passes, and the limit is stated for tolerances zero. C200_one_number ties the matrix version to the scalar one. The recorded objective of such a call is nan once a penalty is infinite (inf times the zero it leaves); it is not modelled as it does not influence the result."
  },
  {
   "property": "C201",
   "status": "proved",
   "theorems": [
    "Verif.Props.C201_inverse_covariance",
    "Verif.Props.C201_penalty_vanishes",
    "Verif.Props.C201_terminates"
   ],
   "note": "Exact real arithmetic: in double precision the penalty parameter of such a run would underflow to zero after about 1075 passes with the default tau_dec = 2 (and prox_logdet then divides by zero); the default limit of 100 passes keeps a call away from that. C201_penalty_vanishes shows that the alternative left open in C134 (the penalty parameter changes forever) really occurs."
  },
  {
   "property": "C202",
   "status": "proved",
   "theorems": [
    "Verif.Props.C202_linear_rate",
    "Verif.Props.C202_call_rate",
    "Verif.Props.C202_passes",
    "Verif.Props.C202_passes_exist"
   ],
   "note": "The constant is explicit but pessimistic (it bounds the condition numbers by traces). Assumes an optimum X exists, which C104 provides for alpha > 0 with positive variances or a positive definite covariance."
  },
  {
   "property": "C203",
   "status": "proved",
   "theorems": [
    "Verif.Props.C203_covsel_entries",
    "Verif.Props.C203_support",
    "Verif.Props.C203_symmetric",
    "Verif.Props.C203_returns"
   ],
   "note": "The scores (LassoLars, Laplace approximations) and the optimiser of covsel are arbitrary values here; np.unique is any list whose elements are blankets of the fits. Positive definiteness of the mean is C150_mean, for positive definite fits."
  },
  {
   "property": "C204",
   "status": "partial",
   "theorems": [
    "Verif.Props.C204_objective",
    "Verif.Props.C204_smaller_is_better",
    "Verif.Props.C204_best_length_scale_false",
    "Verif.Props.C204_returns_limit",
    "Verif.Props.C204_limit_is_no_coupling",
    "Verif.Props.C204_constant_zero",
    "Verif.Props.C204_periodic_ignores",
    "Verif.Props.C204_single_fit",
    "Verif.Props.C204_self_consistent"
   ],
   "note": "scipy's bounded search is not modelled: the theorems say what an exact minimiser is (or that there is none). In double precision the objective is exactly zero for small length scales, and any of those may be returned: the kernel is then the identity. If the precisions become constant in time the objective is zero for every parameter and the answer is arbitrary."
  },
  {
   "property": "C205",
   "status": "partial",
   "theorems": [
    "Verif.Props.C205_uncoupled",
    "Verif.Props.C205_uncoupled_kernel",
    "Verif.Props.C205_calls_agree",
    "Verif.Props.C205_variances",
    "Verif.Props.C205_separate_fits_false",
    "Verif.Props.C205_documented"
   ],
   "note": "The calls are compared at constant penalty parameter rho; for the kernel solver the optimum is compared (its convergence is C102)."
  },
  {
   "property": "C206",
   "status": "partial",
   "theorems": [
    "Verif.Props.C206_precision",
    "Verif.Props.C206_joint_covariance",
    "Verif.Props.C206_precs",
    "Verif.Props.C206_sparse_precs",
    "Verif.Props.C206_dataset",
    "Verif.Props.C206_stationary_false"
   ],
   "note": "numpy's multivariate_normal is any factor of the covariance times white noise; that the noise is normal is not used. The smallest eigenvalue is that of a symmetric matrix (np.linalg.eig of a floating point matrix may return complex numbers). The labels and the assertion at the end are C118."
  },
  {
   "property": "C207",
   "status": "partial",
   "theorems": [
    "Verif.Props.C207_first_window",
    "Verif.Props.C207_autoregression",
    "Verif.Props.C207_innovation",
    "Verif.Props.C207_later_window_false"
   ],
   "note": "The failure of pinvh on an empty array for w_size = 1 is not modelled."
  },
  {
   "property": "C208",
   "status": "partial",
   "theorems": [
    "Verif.Props.C208_dependence_false",
    "Verif.Props.C208_no_past"
   ],
   "note": "The loop order and the array of samples are arguments of the means: the theorem says they do not matter."
  },
  {
   "property": "C209",
   "status": "proved",
   "theorems": [
    "Verif.Props.C209_ell",
    "Verif.Props.C209_hyper"
   ],
   "note": "Invariance of the target, not convergence to it. Draws are independent standard normal and uniform numbers; likelihood and prior are measurable functions."
  },
  {
   "property": "C210",
   "status": "partial",
   "theorems": [
    "Verif.Props.C210_target_partial",
    "Verif.Props.C210_trend_ignored",
    "Verif.Props.C210_posterior_false"
   ],
   "note": "The log posterior used by sample_hyper_kernel centres the series at their empirical mean although the Gaussian process has mean zero: the term N/2 m' K^-1 m is missing, a common trend of all series has no influence on the kernel parameter, and the sampled distribution is not the posterior."
  },
  {
   "property": "C211",
   "status": "proved",
   "theorems": [
    "Verif.Props.C211_error_bound",
    "Verif.Props.C211_edges",
    "Verif.Props.C211_latent",
    "Verif.Props.C211_limit",
    "Verif.Props.C211_fixed_alpha",
    "Verif.Props.C211_data",
    "Verif.Props.C211_consistent",
    "Verif.Props.C211_calls"
   ],
   "note": "With alpha fixed the graphical lasso keeps a bias as the data grow (C211_fixed_alpha), while the time-varying estimators weight the likelihood by the number of samples, so that the same alpha vanishes there (C212): alpha does not mean the same in the two families."
  },
  {
   "property": "C212",
   "status": "proved",
   "theorems": [
    "Verif.Props.C212_error_bound",
    "Verif.Props.C212_limit",
    "Verif.Props.C212_kernel",
    "Verif.Props.C212_latent",
    "Verif.Props.C212_calls"
   ],
   "note": "C212_calls is at constant penalty rho (factors 1) with tolerances small enough and iterations enough; how small and how many is not given. Rows are independent and identically distributed within a time point, with positive definite population covariance."
  },
  {
   "property": "C213",
   "status": "proved",
   "theorems": [
    "Verif.Props.C213_groups",
    "Verif.Props.C213_probability"
   ],
   "note": "About the optimum of the graphical lasso, not a finite run. Edges within a component that the population lacks may be present. Bounds are explicit but not sharp."
  },
  {
   "property": "C214",
   "status": "proved",
   "theorems": [
    "Verif.Props.C214_score_range",
    "Verif.Props.C214_empty_score",
    "Verif.Props.C214_no_concentration",
    "Verif.Props.C214_sampling_probabilities",
    "Verif.Props.C214_edge_probability",
    "Verif.Props.C214_some_graph",
    "Verif.Props.C214_edge_bounds"
   ],
   "note": "Each regression is assumed to return a minimiser of its lasso problem (IsLassoFit) with penalties >= 0; the draws are independent with the probabilities passed to the generator."
  },
  {
   "property": "C215",
   "status": "partial",
   "theorems": [
    "Verif.Props.C215_error_bound",
    "Verif.Props.C215_limit",
    "Verif.Props.C215_returned",
    "Verif.Props.C215_edges",
    "Verif.Props.C215_sign_false",
    "Verif.Props.C215_consistent",
    "Verif.Props.C215_uncentered_false"
   ],
   "note": "The edges and the limits are proved. That precision_ approaches the precision matrix is false (C215_sign_false, for every edge), and that only dependent variables are joined is false without centring (C215_uncentered_false). The theorems are about exact solutions of the regressions; when the loop reaches them is C152."
  },
  {
   "property": "C216",
   "status": "partial",
   "theorems": [
    "Verif.Props.C216_ellipse",
    "Verif.Props.C216_curve",
    "Verif.Props.C216_degenerate",
    "Verif.Props.C216_npts_false",
    "Verif.Props.C216_correlation_false",
    "Verif.Props.C216_limits_false",
    "Verif.Props.C216_centre_false"
   ],
   "note": "The curves are proved. False: the returned value is the covariance and not the correlation (C216_correlation_false), npts is ignored (C216_npts_false), and the axis limits cut off the ellipse or its centre (C216_limits_false, C216_centre_false)."
  },
  {
   "property": "C217",
   "status": "partial",
   "theorems": [
    "Verif.Props.C217_empty",
    "Verif.Props.C217_selected",
    "Verif.Props.C217_independent",
    "Verif.Props.C217_intercept_sample",
    "Verif.Props.C217_intercept_false",
    "Verif.Props.C217_false",
    "Verif.Props.C217_poisson_intercept_false"
   ],
   "note": "False as stated: C217_false for every Poisson rate other than one, C217_intercept_false and C217_poisson_intercept_false for the variant with a column of ones. Proved: the exact limit of the statistic, and when nothing (C217_empty) or something (C217_selected) is selected."
  },
  {
   "property": "C218",
   "status": "partial",
   "theorems": [
    "Verif.Props.C218_generator",
    "Verif.Props.C218_defaults",
    "Verif.Props.C218_connections",
    "Verif.Props.C218_shift_false",
    "Verif.Props.C218_few_nodes_false"
   ],
   "note": "C218_defaults has no hypothesis on the draws beyond shuffles being permutations. False for few nodes (C218_few_nodes_false: edges[:-to_put] with a float) and for which variables are connected (C218_shift_false: columns of latent are taken from h on, while node numbers count observed variables first)."
  },
  {
   "property": "C219",
   "status": "partial",
   "theorems": [
    "Verif.Props.C219_positive_partial",
    "Verif.Props.C219_probability",
    "Verif.Props.C219_zero_probability_false"
   ],
   "note": "C219_positive_partial needs four positive entries; C219_zero_probability_false gives the general failure (the top four of the ranking are used without a look at their entries)."
  },
  {
   "property": "C220",
   "status": "partial",
   "theorems": [
    "Verif.Props.C220_moves",
    "Verif.Props.C220_bound",
    "Verif.Props.C220_leaves_square_false"
   ],
   "note": "C220_leaves_square_false: locations are clipped below at zero only."
  },
  {
   "property": "C221",
   "status": "partial",
   "theorems": [
    "Verif.Props.C221_wishart_partial",
    "Verif.Props.C221_inverse_partial",
    "Verif.Props.C221_mean_false"
   ],
   "note": "Missing: more than one dimension. C221_mean_false: for nu < 2 the first moment of the inverse Wishart diverges, while the code returns a negative number."
  },
  {
   "property": "C222",
   "status": "partial",
   "theorems": [
    "Verif.Props.C222_two_times",
    "Verif.Props.C222_three_times_partial",
    "Verif.Props.C222_laplacian_false",
    "Verif.Props.C222_ising_false"
   ],
   "note": "C222_laplacian_false covers every straight line of three distinct networks, equally spaced, with the default penalty; C222_ising_false uses six networks."
  },
  {
   "property": "C223",
   "status": "partial",
   "theorems": [
    "Verif.Props.C223_zero",
    "Verif.Props.C223_bisection",
    "Verif.Props.C223_range_false"
   ],
   "note": "The only caller allocates arrays with a float length (TypeError in Python 3) and is not modelled. C223_range_false: shift above 1e10."
  },
  {
   "property": "C224",
   "status": "partial",
   "theorems": [
    "Verif.Props.C224_one_direction",
    "Verif.Props.C224_complete_network",
    "Verif.Props.C224_positive_definite_false",
    "Verif.Props.C224_predict_false"
   ],
   "note": "C224_positive_definite_false and C224_predict_false hold for every run with at least two variables (nu_ is fixed to 1); C224_one_direction and C224_complete_network say what is returned instead."
  },
  {
   "property": "C225",
   "status": "partial",
   "theorems": [
    "Verif.Props.C225_best_partial",
    "Verif.Props.C225_mixed_false"
   ],
   "note": "Full for learn_ell=False (C225_best_partial); C225_mixed_false is the failure for learned factors, a consequence of C91."
  },
  {
   "property": "C226",
   "status": "partial",
   "theorems": [
    "Verif.Props.C226_joint",
    "Verif.Props.C226_residuals",
    "Verif.Props.C226_shift",
    "Verif.Props.C226_shapes_partial",
    "Verif.Props.C226_single_feature_false"
   ],
   "note": "The minimum, the residuals and the shifts are full (sklearn's _pre_fit and _set_intercept for dense data, normalize=False, precompute=False, trusted as transcribed); C226_shapes_partial needs two features, C226_single_feature_false is the failure for one feature and several targets."
  },
  {
   "property": "C227",
   "status": "partial",
   "theorems": [
    "Verif.Props.C227_known",
    "Verif.Props.C227_largest",
    "Verif.Props.C227_names_partial",
    "Verif.Props.C227_null",
    "Verif.Props.C227_tie_false",
    "Verif.Props.C227_single_feature_false",
    "Verif.Props.C227_odd"
   ],
   "note": "C227_largest holds for every solver that is odd in the targets (C227_odd proves it for mode='admm') and two or more features; C227_names_partial excludes ties, where C227_tie_false is the failure; C227_single_feature_false is the ValueError for one feature. LabelBinarizer and LinearClassifierMixin are trusted as transcribed."
  },
  {
   "property": "C228",
   "status": "partial",
   "theorems": [
    "Verif.Props.C228_uncovered_stop",
    "Verif.Props.C228_least_squares",
    "Verif.Props.C228_alpha_false",
    "Verif.Props.C228_all_passes_false"
   ],
   "note": "C228_least_squares and C228_uncovered_stop say what holds; C228_alpha_false and C228_all_passes_false are the failures (mode='admm'; singular A.T A raises LinAlgError in the code and is excluded by the exact inverse)."
  },
  {
   "property": "C229",
   "status": "partial",
   "theorems": [
    "Verif.Props.C229_cold",
    "Verif.Props.C229_same_shape_partial",
    "Verif.Props.C229_fewer_targets_false",
    "Verif.Props.C229_more_targets_false",
    "Verif.Props.C229_features_false"
   ],
   "note": "C229_same_shape_partial is the part that holds; the three _false theorems cover fewer targets, more targets and other features (n_jobs=1, previous fits with at least two features). The solvers never see the previous coefficients, so warm_start saves no passes."
  },
  {
   "property": "C230",
   "status": "partial",
   "theorems": [
    "Verif.Props.C230_edges_partial",
    "Verif.Props.C230_header_false",
    "Verif.Props.C230_negative_false",
    "Verif.Props.C230_diagonal_partial"
   ],
   "note": "C230_header_false is the failure for current pandas; C230_edges_partial and C230_diagonal_partial describe releases without a header, C230_negative_false the loss of signs. What pandas writes and parses is trusted as transcribed; labels are those read_network expects (G1, G2, ...)."
  },
  {
   "property": "C231",
   "status": "proved",
   "theorems": [
    "Verif.Props.C231_words",
    "Verif.Props.C231_documents"
   ],
   "note": "The text of the entries is not modelled: positions are. Real weights: no NaN. argsort is any permutation that sorts."
  },
  {
   "property": "C232",
   "status": "partial",
   "theorems": [
    "Verif.Props.C232_list_partial",
    "Verif.Props.C232_list_current",
    "Verif.Props.C232_unequal_false",
    "Verif.Props.C232_array"
   ],
   "note": "C232_unequal_false is the failure for current numpy, C232_list_current what is left there; C232_list_partial is the full claim for older releases. What np.array does with unequal shapes is trusted as transcribed; data are finite numbers."
  },
  {
   "property": "C233",
   "status": "partial",
   "theorems": [
    "Verif.Props.C233_first_block",
    "Verif.Props.C233_other_blocks",
    "Verif.Props.C233_sparsity_false"
   ],
   "note": "C233_first_block and C233_other_blocks are the claim about couplings; C233_sparsity_false shows that sparsity_inv_matrix acts as a density. gnm_random_graph is trusted to return the documented number of distinct edges, listed with the smaller node first. Real arithmetic in the number of edges."
  }
 ]
}