import Verif.Props.Adaptive
import Verif.Props.AdaptiveLatent
import Verif.Props.AutoKernel
import Verif.Props.Bayes
import Verif.Props.BayesGL
import Verif.Props.BayesSearch
import Verif.Props.Blankets
import Verif.Props.Certificate
import Verif.Props.Clustering
import Verif.Props.Components
import Verif.Props.Consistency
import Verif.Props.Datasets
import Verif.Props.EllSampler
import Verif.Props.Ellipse
import Verif.Props.ErrorNorm
import Verif.Props.Estimators
import Verif.Props.FB
import Verif.Props.FBConv
import Verif.Props.FBSearch
import Verif.Props.FL
import Verif.Props.GLConv
import Verif.Props.GLExist
import Verif.Props.GLLoop
import Verif.Props.GLM
import Verif.Props.GLMConv
import Verif.Props.GLMEmpty
import Verif.Props.GLOpt
import Verif.Props.GLRate
import Verif.Props.GLWeights
import Verif.Props.GWishart
import Verif.Props.GWishartGraphs
import Verif.Props.GaussCov
import Verif.Props.GaussGen
import Verif.Props.GaussMY
import Verif.Props.Glopridu
import Verif.Props.GlopriduFit
import Verif.Props.GraphUpdate
import Verif.Props.Group
import Verif.Props.GroupClassifier
import Verif.Props.GroupFit
import Verif.Props.GroupLasso
import Verif.Props.GroupOld
import Verif.Props.Infimal
import Verif.Props.Init
import Verif.Props.Input3d
import Verif.Props.InvCov
import Verif.Props.Ising
import Verif.Props.IsingAll
import Verif.Props.IsingConv
import Verif.Props.IsingSampler
import Verif.Props.IsingTop
import Verif.Props.KTGL
import Verif.Props.KernelArgs
import Verif.Props.Kernels
import Verif.Props.LGL
import Verif.Props.LTGL
import Verif.Props.Lasso
import Verif.Props.LatentConv
import Verif.Props.LatentLocal
import Verif.Props.LatentLogdet
import Verif.Props.LatentOne
import Verif.Props.LatentStatic
import Verif.Props.MYNodes
import Verif.Props.Missing
import Verif.Props.Moments
import Verif.Props.MultiClass
import Verif.Props.NetworkFile
import Verif.Props.Node
import Verif.Props.NodeConsistency
import Verif.Props.Objective
import Verif.Props.ObjectiveLimit
import Verif.Props.Options
import Verif.Props.Overlap
import Verif.Props.OverlapConv
import Verif.Props.OverlapRun
import Verif.Props.OverlapSmall
import Verif.Props.Plotting
import Verif.Props.Poisson
import Verif.Props.PoissonConsistency
import Verif.Props.PoissonGibbs
import Verif.Props.PoissonObjective
import Verif.Props.PoissonTime
import Verif.Props.PosDefUtils
import Verif.Props.Relabel
import Verif.Props.Scores
import Verif.Props.Screen
import Verif.Props.Sensitivity
import Verif.Props.Similarity
import Verif.Props.SimilarityKernel
import Verif.Props.Soft
import Verif.Props.SparseLatent
import Verif.Props.Spectral
import Verif.Props.Stability
import Verif.Props.StabilityMore
import Verif.Props.StructError
import Verif.Props.TGL
import Verif.Props.TiccNew
import Verif.Props.TiccOld
import Verif.Props.TimeConst
import Verif.Props.TimeConv
import Verif.Props.TimeGLM
import Verif.Props.TimeGLMConv
import Verif.Props.TimeGLMDiag
import Verif.Props.TimeNorm
import Verif.Props.TimeRelabel
import Verif.Props.TimeSeparate
import Verif.Props.Topics
import Verif.Props.Ungrouped
import Verif.Props.Unpenalised
import Verif.Props.Update
import Verif.Props.Utils
import Verif.Props.UtilsMore
import Verif.Props.Validation
import Verif.Props.WPFit
import Verif.Props.WarmStart
import Verif.Props.Wishart
import Verif.Props.WishartMean

/-! Axiom audit: every property theorem may depend on `propext`, `Classical.choice` and
`Quot.sound` only. Generated by tools/regen.py. -/

#print axioms Verif.Props.C134_time
#print axioms Verif.Props.C134_kernel
#print axioms Verif.Props.C134_graphical_lasso
#print axioms Verif.Props.C155_infimal_adaptive
#print axioms Verif.Props.C156_decomposition_adaptive
#print axioms Verif.Props.C204_objective
#print axioms Verif.Props.C204_smaller_is_better
#print axioms Verif.Props.C204_best_length_scale_false
#print axioms Verif.Props.C204_returns_limit
#print axioms Verif.Props.C204_limit_is_no_coupling
#print axioms Verif.Props.C204_constant_zero
#print axioms Verif.Props.C204_periodic_ignores
#print axioms Verif.Props.C204_single_fit
#print axioms Verif.Props.C204_self_consistent
#print axioms Verif.Props.C55_returned_state
#print axioms Verif.Props.C55_first_bracket
#print axioms Verif.Props.C55_shrinks
#print axioms Verif.Props.C55_never_raises
#print axioms Verif.Props.C86_acceptance_partial
#print axioms Verif.Props.C86_acceptance_false
#print axioms Verif.Props.C87_always_multiple_false
#print axioms Verif.Props.C91_history_false
#print axioms Verif.Props.C88_weighted_partial
#print axioms Verif.Props.C88_weighted_false
#print axioms Verif.Props.C89_gwp_posSemidef
#print axioms Verif.Props.C90_detailed_balance
#print axioms Verif.Props.C90_selection
#print axioms Verif.Props.C57_lognstat
#print axioms Verif.Props.C56_sequential
#print axioms Verif.Props.C56_order
#print axioms Verif.Props.C56_textbook
#print axioms Verif.Props.C203_covsel_entries
#print axioms Verif.Props.C203_support
#print axioms Verif.Props.C203_symmetric
#print axioms Verif.Props.C203_returns
#print axioms Verif.Props.C198_best_partial
#print axioms Verif.Props.C198_score_false
#print axioms Verif.Props.C198_nan_false
#print axioms Verif.Props.C198_mutates_false
#print axioms Verif.Props.C214_score_range
#print axioms Verif.Props.C214_empty_score
#print axioms Verif.Props.C214_no_concentration
#print axioms Verif.Props.C214_sampling_probabilities
#print axioms Verif.Props.C214_edge_probability
#print axioms Verif.Props.C214_some_graph
#print axioms Verif.Props.C214_edge_bounds
#print axioms Verif.Props.C133_graphical_lasso
#print axioms Verif.Props.C133_time
#print axioms Verif.Props.C133_kernel
#print axioms Verif.Props.C54_representative
#print axioms Verif.Props.C54_representative_empty
#print axioms Verif.Props.C54_metric
#print axioms Verif.Props.C54_counts_edges
#print axioms Verif.Props.C85_returns
#print axioms Verif.Props.C85_no_iterations
#print axioms Verif.Props.C85_identical_false
#print axioms Verif.Props.C85_finite_partial
#print axioms Verif.Props.C213_groups
#print axioms Verif.Props.C213_probability
#print axioms Verif.Props.C211_error_bound
#print axioms Verif.Props.C211_edges
#print axioms Verif.Props.C211_latent
#print axioms Verif.Props.C211_limit
#print axioms Verif.Props.C211_fixed_alpha
#print axioms Verif.Props.C211_data
#print axioms Verif.Props.C211_consistent
#print axioms Verif.Props.C211_calls
#print axioms Verif.Props.C212_error_bound
#print axioms Verif.Props.C212_limit
#print axioms Verif.Props.C212_kernel
#print axioms Verif.Props.C212_latent
#print axioms Verif.Props.C212_calls
#print axioms Verif.Props.C113_layout_partial
#print axioms Verif.Props.C113_dispatch_partial
#print axioms Verif.Props.C113_documented_modes_false
#print axioms Verif.Props.C113_offered_modes_false
#print axioms Verif.Props.C113_degree_false
#print axioms Verif.Props.C113_graph_layout_partial
#print axioms Verif.Props.C116_classes_partial
#print axioms Verif.Props.C116_selfloop_false
#print axioms Verif.Props.C116_gauss_partial
#print axioms Verif.Props.C116_posdef_false
#print axioms Verif.Props.C209_ell
#print axioms Verif.Props.C209_hyper
#print axioms Verif.Props.C210_target_partial
#print axioms Verif.Props.C210_trend_ignored
#print axioms Verif.Props.C210_posterior_false
#print axioms Verif.Props.C216_ellipse
#print axioms Verif.Props.C216_curve
#print axioms Verif.Props.C216_degenerate
#print axioms Verif.Props.C216_npts_false
#print axioms Verif.Props.C216_correlation_false
#print axioms Verif.Props.C216_limits_false
#print axioms Verif.Props.C216_centre_false
#print axioms Verif.Props.C28_default_value
#print axioms Verif.Props.C28_default_distance
#print axioms Verif.Props.C28_selected
#print axioms Verif.Props.C28_squared_flag
#print axioms Verif.Props.C28_batch
#print axioms Verif.Props.C28_unknown_norm
#print axioms Verif.Props.C28_nonzero_false
#print axioms Verif.Props.C28_nonzero_counterexample
#print axioms Verif.Props.C120_classes
#print axioms Verif.Props.C120_row_order
#print axioms Verif.Props.C120_relabel
#print axioms Verif.Props.C120_covariance
#print axioms Verif.Props.C121_score_partial
#print axioms Verif.Props.C121_ranking
#print axioms Verif.Props.C121_absent_class_false
#print axioms Verif.Props.C121_indefinite_false
#print axioms Verif.Props.C122_decision
#print axioms Verif.Props.C122_predict
#print axioms Verif.Props.C122_errors
#print axioms Verif.Props.C122_fit
#print axioms Verif.Props.C122_posdef
#print axioms Verif.Props.C122_estimator_modified_false
#print axioms Verif.Props.C122_latent_false
#print axioms Verif.Props.C43_first_admissible
#print axioms Verif.Props.C43_zero
#print axioms Verif.Props.C43_returned_partial
#print axioms Verif.Props.C43_exhausted_false
#print axioms Verif.Props.C44_unknown
#print axioms Verif.Props.C44_documented_lambda_false
#print axioms Verif.Props.C44_lamda_false
#print axioms Verif.Props.C44_default_samples_false
#print axioms Verif.Props.C44_usable_partial
#print axioms Verif.Props.C71_single_time_false
#print axioms Verif.Props.C72_history
#print axioms Verif.Props.C45_posDef
#print axioms Verif.Props.C45_clip
#print axioms Verif.Props.C67_loss_value
#print axioms Verif.Props.C67_gradient
#print axioms Verif.Props.C68_descent
#print axioms Verif.Props.C68_iteration
#print axioms Verif.Props.C69_fixed_iff_optimal
#print axioms Verif.Props.C70_identity_start_false
#print axioms Verif.Props.C70_zero_start_false
#print axioms Verif.Props.C151_converges_partial
#print axioms Verif.Props.C151_stops_partial
#print axioms Verif.Props.C73_small_steps
#print axioms Verif.Props.C73_terminates
#print axioms Verif.Props.C10_prox_FL_exact
#print axioms Verif.Props.C10_prox_FL_symm
#print axioms Verif.Props.C18_distance_never_increases
#print axioms Verif.Props.C18_converges
#print axioms Verif.Props.C18_terminates
#print axioms Verif.Props.C104_optimum_iff
#print axioms Verif.Props.C104_solves
#print axioms Verif.Props.C12_dual_rescaling
#print axioms Verif.Props.C14_outcome_partial
#print axioms Verif.Props.C14_max_iter_zero
#print axioms Verif.Props.C14_n_iter_false
#print axioms Verif.Props.C15_symmetric_posdef_iterates
#print axioms Verif.Props.C40_union_partial
#print axioms Verif.Props.C40_union_value
#print axioms Verif.Props.C40_union_direction_false
#print axioms Verif.Props.C40_union_cancel_false
#print axioms Verif.Props.C40_intersection_value
#print axioms Verif.Props.C40_intersection_partial
#print axioms Verif.Props.C40_intersection_cancel_false
#print axioms Verif.Props.C40_unknown_rule
#print axioms Verif.Props.C41_single_sample_partial
#print axioms Verif.Props.C41_first_sample_false
#print axioms Verif.Props.C41_counterexample
#print axioms Verif.Props.C41_no_samples
#print axioms Verif.Props.C42_never_rejects_false
#print axioms Verif.Props.C42_counterexample
#print axioms Verif.Props.C63_options_ignored_false
#print axioms Verif.Props.C63_counterexample
#print axioms Verif.Props.C63_alpha_partial
#print axioms Verif.Props.C64_stationary_iff
#print axioms Verif.Props.C64_rate
#print axioms Verif.Props.C64_loop
#print axioms Verif.Props.C65_line_search_partial
#print axioms Verif.Props.C65_first_trial_partial
#print axioms Verif.Props.C65_line_search_false
#print axioms Verif.Props.C66_gradient
#print axioms Verif.Props.C66_stationary
#print axioms Verif.Props.C152_converges
#print axioms Verif.Props.C152_stops
#print axioms Verif.Props.C152_accuracy
#print axioms Verif.Props.C152_default_diverges_false
#print axioms Verif.Props.C188_gauss_optimal_iff
#print axioms Verif.Props.C188_gauss_empty
#print axioms Verif.Props.C188_gauss_empty_iff
#print axioms Verif.Props.C188_poisson_optimal_iff
#print axioms Verif.Props.C188_poisson_empty
#print axioms Verif.Props.C188_poisson_nonempty
#print axioms Verif.Props.C188_poisson_model
#print axioms Verif.Props.C16_stationary_is_optimal
#print axioms Verif.Props.C16_optimal_is_stationary
#print axioms Verif.Props.C17_stationary_relation
#print axioms Verif.Props.C17_over_relax_partial
#print axioms Verif.Props.C17_over_relax_false
#print axioms Verif.Props.C202_linear_rate
#print axioms Verif.Props.C202_call_rate
#print axioms Verif.Props.C202_passes
#print axioms Verif.Props.C202_passes_exist
#print axioms Verif.Props.C200_one_number
#print axioms Verif.Props.C200_pattern
#print axioms Verif.Props.C200_converges
#print axioms Verif.Props.C200_matches
#print axioms Verif.Props.C200_graph_fit
#print axioms Verif.Props.C200_modes_agree
#print axioms Verif.Props.C147_gradient
#print axioms Verif.Props.C147_optimum
#print axioms Verif.Props.C147_unbounded_false
#print axioms Verif.Props.C148_bic
#print axioms Verif.Props.C148_fit
#print axioms Verif.Props.C148_penalty
#print axioms Verif.Props.C148_empty
#print axioms Verif.Props.C149_first
#print axioms Verif.Props.C149_hessian_partial
#print axioms Verif.Props.C149_diagonal_false
#print axioms Verif.Props.C149_posDef
#print axioms Verif.Props.C149_logh_false
#print axioms Verif.Props.C150_default_prior_false
#print axioms Verif.Props.C150_fit_cov
#print axioms Verif.Props.C150_top
#print axioms Verif.Props.C150_mean
#print axioms Verif.Props.C145_all
#print axioms Verif.Props.C145_sorted
#print axioms Verif.Props.C146_blanket
#print axioms Verif.Props.C146_resampled
#print axioms Verif.Props.C146_scores
#print axioms Verif.Props.C106_structure_partial
#print axioms Verif.Props.C106_unknown_update
#print axioms Verif.Props.C106_posdef_false
#print axioms Verif.Props.C107_valid_partial
#print axioms Verif.Props.C107_sparsity_false
#print axioms Verif.Props.C108_valid_partial
#print axioms Verif.Props.C108_normalize_false
#print axioms Verif.Props.C108_normalize_ignored_false
#print axioms Verif.Props.C109_valid_partial
#print axioms Verif.Props.C109_observed_false
#print axioms Verif.Props.C109_observed_count_false
#print axioms Verif.Props.C110_valid_partial
#print axioms Verif.Props.C110_posdef_false
#print axioms Verif.Props.C111_marginal_partial
#print axioms Verif.Props.C111_latent_count_false
#print axioms Verif.Props.C111_rand_k_false
#print axioms Verif.Props.C105_precision
#print axioms Verif.Props.C105_observed
#print axioms Verif.Props.C162_search_ends
#print axioms Verif.Props.C163_shrinks
#print axioms Verif.Props.C163_strict
#print axioms Verif.Props.C164_settled_partial
#print axioms Verif.Props.C164_radius_false
#print axioms Verif.Props.C164_nested_false
#print axioms Verif.Props.C165_certificate_partial
#print axioms Verif.Props.C165_stale_false
#print axioms Verif.Props.C166_groups_false
#print axioms Verif.Props.C166_one_group
#print axioms Verif.Props.C167_fixed_partial
#print axioms Verif.Props.C167_states
#print axioms Verif.Props.C53_symmetric
#print axioms Verif.Props.C53_assertion_holds
#print axioms Verif.Props.C53_changes_partial
#print axioms Verif.Props.C53_first_round_partial
#print axioms Verif.Props.C53_poisson_removes
#print axioms Verif.Props.C53_ising_false
#print axioms Verif.Props.C53_poisson_false
#print axioms Verif.Props.C83_symmetric_sequence
#print axioms Verif.Props.C83_poisson_sequence
#print axioms Verif.Props.C83_responses_false
#print axioms Verif.Props.C84_lpgm
#print axioms Verif.Props.C84_mismatch_false
#print axioms Verif.Props.C04_blockwise_soft_thresholding_partial
#print axioms Verif.Props.C04_blockwise_soft_thresholding_nan_false
#print axioms Verif.Props.C04_full_statement_false
#print axioms Verif.Props.C05_blockwise_symmetric_entry
#print axioms Verif.Props.C05_blockwise_symmetric_partial
#print axioms Verif.Props.C05_full_statement_false
#print axioms Verif.Props.C227_known
#print axioms Verif.Props.C227_largest
#print axioms Verif.Props.C227_names_partial
#print axioms Verif.Props.C227_null
#print axioms Verif.Props.C227_tie_false
#print axioms Verif.Props.C227_single_feature_false
#print axioms Verif.Props.C227_odd
#print axioms Verif.Props.C226_joint
#print axioms Verif.Props.C226_residuals
#print axioms Verif.Props.C226_shift
#print axioms Verif.Props.C226_shapes_partial
#print axioms Verif.Props.C226_single_feature_false
#print axioms Verif.Props.C47_accepts_partial
#print axioms Verif.Props.C47_accepted_are_partitions
#print axioms Verif.Props.C47_guard_false
#print axioms Verif.Props.C47_dual_residual_false
#print axioms Verif.Props.C47_dual_residual_counterexample
#print axioms Verif.Props.C47_group_step
#print axioms Verif.Props.C47_group_step_false
#print axioms Verif.Props.C47_same_iterates_as_lasso
#print axioms Verif.Props.C47_solves_plain_lasso
#print axioms Verif.Props.C47_default_groups
#print axioms Verif.Props.C223_zero
#print axioms Verif.Props.C223_bisection
#print axioms Verif.Props.C223_range_false
#print axioms Verif.Props.C100_stationary_partial
#print axioms Verif.Props.C100_loglik_false
#print axioms Verif.Props.C100_diagonal_false
#print axioms Verif.Props.C100_call
#print axioms Verif.Props.C26_init_precision
#print axioms Verif.Props.C26_start_symmetric
#print axioms Verif.Props.C26_shrunk_posDef
#print axioms Verif.Props.C26_empirical_inverse
#print axioms Verif.Props.C232_list_partial
#print axioms Verif.Props.C232_list_current
#print axioms Verif.Props.C232_unequal_false
#print axioms Verif.Props.C232_array
#print axioms Verif.Props.C233_first_block
#print axioms Verif.Props.C233_other_blocks
#print axioms Verif.Props.C233_sparsity_false
#print axioms Verif.Props.C51_state_values
#print axioms Verif.Props.C51_visit
#print axioms Verif.Props.C52_p_plus_conditional
#print axioms Verif.Props.C52_hamiltonian_partial
#print axioms Verif.Props.C52_hamiltonian_false
#print axioms Verif.Props.C79_sweeps_invariant
#print axioms Verif.Props.C189_selects_false
#print axioms Verif.Props.C189_empty
#print axioms Verif.Props.C189_complete
#print axioms Verif.Props.C189_default_false
#print axioms Verif.Props.C189_mode
#print axioms Verif.Props.C189_time_empty
#print axioms Verif.Props.C153_converges_partial
#print axioms Verif.Props.C153_stops_partial
#print axioms Verif.Props.C153_first_sample_false
#print axioms Verif.Props.C80_bracket
#print axioms Verif.Props.C80_tight
#print axioms Verif.Props.C80_determined
#print axioms Verif.Props.C80_nonpositive_response_false
#print axioms Verif.Props.C81_coalescence
#print axioms Verif.Props.C81_values
#print axioms Verif.Props.C82_cftp_constraints_false
#print axioms Verif.Props.C78_mh_shape_partial
#print axioms Verif.Props.C78_single_false
#print axioms Verif.Props.C78_direct_false
#print axioms Verif.Props.C182_returns_iff
#print axioms Verif.Props.C182_theta_false
#print axioms Verif.Props.C182_cftp
#print axioms Verif.Props.C182_retry_false
#print axioms Verif.Props.C182_cftp_max_iter_false
#print axioms Verif.Props.C182_direct_false
#print axioms Verif.Props.C94_stationary_partial
#print axioms Verif.Props.C94_diagonal_false
#print axioms Verif.Props.C95_none_independent
#print axioms Verif.Props.C95_tridiagonal
#print axioms Verif.Props.C58_kernel_partial
#print axioms Verif.Props.C58_array_false
#print axioms Verif.Props.C58_similarity
#print axioms Verif.Props.C59_plumbing_partial
#print axioms Verif.Props.C59_phi_false
#print axioms Verif.Props.C59_eta_false
#print axioms Verif.Props.C114_valid_partial
#print axioms Verif.Props.C114_latent_false
#print axioms Verif.Props.C115_marginal
#print axioms Verif.Props.C112_valid
#print axioms Verif.Props.C119_conditional
#print axioms Verif.Props.C118_labels_partial
#print axioms Verif.Props.C118_default_false
#print axioms Verif.Props.C118_condition_false
#print axioms Verif.Props.C118_new_default_false
#print axioms Verif.Props.C117_count_partial
#print axioms Verif.Props.C117_symmetry_false
#print axioms Verif.Props.C19_latent_psd
#print axioms Verif.Props.C20_stationary_partial
#print axioms Verif.Props.C20_diagonal_false
#print axioms Verif.Props.C96_stationary_partial
#print axioms Verif.Props.C97_stationary_partial
#print axioms Verif.Props.C97_dimension
#print axioms Verif.Props.C98_latent_psd
#print axioms Verif.Props.C99_stationary_partial
#print axioms Verif.Props.C96_diagonal_false
#print axioms Verif.Props.C97_diagonal_false
#print axioms Verif.Props.C99_diagonal_false
#print axioms Verif.Props.C101_history_partial
#print axioms Verif.Props.C101_count_false
#print axioms Verif.Props.C101_kernel
#print axioms Verif.Props.C46_solution_exists
#print axioms Verif.Props.C46_fixed_iff_optimal
#print axioms Verif.Props.C46_converges
#print axioms Verif.Props.C46_terminates
#print axioms Verif.Props.C46_return_false
#print axioms Verif.Props.C46_history_false
#print axioms Verif.Props.C156_decomposition_converges
#print axioms Verif.Props.C155_infimal_converges
#print axioms Verif.Props.C158_chain_small_penalties
#print axioms Verif.Props.C158_kernel_small_penalties
#print axioms Verif.Props.C161_small_penalties
#print axioms Verif.Props.C132_latent_time_small_penalties
#print axioms Verif.Props.C132_kernel_latent_small_penalties
#print axioms Verif.Props.C132_latent_small_penalties
#print axioms Verif.Props.C157_chain
#print axioms Verif.Props.C157_kernel
#print axioms Verif.Props.C157_single
#print axioms Verif.Props.C158_chain_partial
#print axioms Verif.Props.C158_kernel_partial
#print axioms Verif.Props.C159_chain
#print axioms Verif.Props.C159_kernel
#print axioms Verif.Props.C160_no_latent
#print axioms Verif.Props.C160_infimal_no_latent
#print axioms Verif.Props.C160_optimum_no_latent
#print axioms Verif.Props.C161_converges_partial
#print axioms Verif.Props.C161_no_latent_converges
#print axioms Verif.Props.C219_positive_partial
#print axioms Verif.Props.C219_probability
#print axioms Verif.Props.C219_zero_probability_false
#print axioms Verif.Props.C220_moves
#print axioms Verif.Props.C220_bound
#print axioms Verif.Props.C220_leaves_square_false
#print axioms Verif.Props.C60_observed_kept
#print axioms Verif.Props.C60_conditional_mean_partial
#print axioms Verif.Props.C60_imputation_false
#print axioms Verif.Props.C92_covariance_partial
#print axioms Verif.Props.C92_scale_false
#print axioms Verif.Props.C93_outcome_partial
#print axioms Verif.Props.C93_n_iter_false
#print axioms Verif.Props.C193_optimum_iff
#print axioms Verif.Props.C193_every_call
#print axioms Verif.Props.C193_pooled
#print axioms Verif.Props.C193_variance_false
#print axioms Verif.Props.C193_documented
#print axioms Verif.Props.C193_kernel_variance_false
#print axioms Verif.Props.C193_time_call_false
#print axioms Verif.Props.C193_latent_pooled
#print axioms Verif.Props.C193_latent
#print axioms Verif.Props.C180_rows
#print axioms Verif.Props.C180_gaussian
#print axioms Verif.Props.C180_ising
#print axioms Verif.Props.C180_ising_diagonal_false
#print axioms Verif.Props.C180_generated_false
#print axioms Verif.Props.C180_no_classes_false
#print axioms Verif.Props.C180_ising_refuses
#print axioms Verif.Props.C180_generated_accepted
#print axioms Verif.Props.C230_edges_partial
#print axioms Verif.Props.C230_header_false
#print axioms Verif.Props.C230_negative_false
#print axioms Verif.Props.C230_diagonal_partial
#print axioms Verif.Props.C191_converges
#print axioms Verif.Props.C191_accuracy
#print axioms Verif.Props.C191_fuses_iff
#print axioms Verif.Props.C191_exact_fuses
#print axioms Verif.Props.C191_exact_false
#print axioms Verif.Props.C191_nan_false
#print axioms Verif.Props.C192_value
#print axioms Verif.Props.C192_le_true_partial
#print axioms Verif.Props.C192_zero_false
#print axioms Verif.Props.C215_error_bound
#print axioms Verif.Props.C215_limit
#print axioms Verif.Props.C215_returned
#print axioms Verif.Props.C215_edges
#print axioms Verif.Props.C215_sign_false
#print axioms Verif.Props.C215_consistent
#print axioms Verif.Props.C215_uncentered_false
#print axioms Verif.Props.C132_graphical_lasso
#print axioms Verif.Props.C132_graphical_lasso_limit
#print axioms Verif.Props.C132_latent
#print axioms Verif.Props.C132_infimal
#print axioms Verif.Props.C132_time
#print axioms Verif.Props.C132_kernel_time
#print axioms Verif.Props.C132_time_limit
#print axioms Verif.Props.C132_kernel_time_limit
#print axioms Verif.Props.C132_latent_time
#print axioms Verif.Props.C132_kernel_latent
#print axioms Verif.Props.C132_decomposition
#print axioms Verif.Props.C132_domain_false
#print axioms Verif.Props.C132_latent_limit
#print axioms Verif.Props.C132_latent_limit_partial
#print axioms Verif.Props.C132_infimal_limit
#print axioms Verif.Props.C132_latent_time_limit_partial
#print axioms Verif.Props.C132_kernel_latent_limit_partial
#print axioms Verif.Props.C132_decomposition_limit
#print axioms Verif.Props.C129_kept_partial
#print axioms Verif.Props.C129_ker_param_false
#print axioms Verif.Props.C129_get_params_false
#print axioms Verif.Props.C129_poisson_false
#print axioms Verif.Props.C129_rewritten_false
#print axioms Verif.Props.C130_reached_partial
#print axioms Verif.Props.C130_phi_false
#print axioms Verif.Props.C130_ignored_false
#print axioms Verif.Props.C131_stable_partial
#print axioms Verif.Props.C131_assigned_false
#print axioms Verif.Props.C131_clusters_false
#print axioms Verif.Props.C131_sampling_false
#print axioms Verif.Props.C131_alpha_max_false
#print axioms Verif.Props.C131_sampling_rounded
#print axioms Verif.Props.C48_D_function
#print axioms Verif.Props.C48_consensus_mean
#print axioms Verif.Props.C48_agreement
#print axioms Verif.Props.C74_weighted_lasso_partial
#print axioms Verif.Props.C74_overlap_false
#print axioms Verif.Props.C176_converges_partial
#print axioms Verif.Props.C176_stops_partial
#print axioms Verif.Props.C168_counts_only
#print axioms Verif.Props.C169_outcome
#print axioms Verif.Props.C170_certificate
#print axioms Verif.Props.C169_no_pass
#print axioms Verif.Props.C171_objective_false
#print axioms Verif.Props.C171_agreement_partial
#print axioms Verif.Props.C176_small_rho_partial
#print axioms Verif.Props.C176_small_rho_stops_partial
#print axioms Verif.Props.C179_bezier
#print axioms Verif.Props.C179_curve
#print axioms Verif.Props.C179_interval
#print axioms Verif.Props.C179_chord
#print axioms Verif.Props.C179_self_loop_false
#print axioms Verif.Props.C172_search_ends
#print axioms Verif.Props.C172_descent
#print axioms Verif.Props.C173_converges
#print axioms Verif.Props.C174_fixed_point_optimal
#print axioms Verif.Props.C174_returns_false
#print axioms Verif.Props.C174_stalls
#print axioms Verif.Props.C175_fit
#print axioms Verif.Props.C175_intercept_false
#print axioms Verif.Props.C175_arguments_ignored
#print axioms Verif.Props.C175_mode
#print axioms Verif.Props.C217_empty
#print axioms Verif.Props.C217_selected
#print axioms Verif.Props.C217_independent
#print axioms Verif.Props.C217_intercept_sample
#print axioms Verif.Props.C217_intercept_false
#print axioms Verif.Props.C217_false
#print axioms Verif.Props.C217_poisson_intercept_false
#print axioms Verif.Props.C181_conditional
#print axioms Verif.Props.C181_invariant
#print axioms Verif.Props.C181_balance_iff
#print axioms Verif.Props.C181_no_distribution_false
#print axioms Verif.Props.C181_rows
#print axioms Verif.Props.C181_raises_false
#print axioms Verif.Props.C181_variances_false
#print axioms Verif.Props.C197_static
#print axioms Verif.Props.C197_value_partial
#print axioms Verif.Props.C197_sign_false
#print axioms Verif.Props.C197_documented_bounded
#print axioms Verif.Props.C197_unbounded_false
#print axioms Verif.Props.C190_empty_partial
#print axioms Verif.Props.C190_returns_false
#print axioms Verif.Props.C31_ensure_posdef
#print axioms Verif.Props.C31_ensure_posdef_batch
#print axioms Verif.Props.C31_idempotent
#print axioms Verif.Props.C31_not_inplace
#print axioms Verif.Props.C32_threshold
#print axioms Verif.Props.C32_idempotent
#print axioms Verif.Props.C32_in_range
#print axioms Verif.Props.C183_graphical_lasso
#print axioms Verif.Props.C183_latent_graphical_lasso
#print axioms Verif.Props.C183_infimal_convolution
#print axioms Verif.Props.C183_kernel_time_graphical_lasso
#print axioms Verif.Props.C183_time_graphical_lasso
#print axioms Verif.Props.C183_latent_time_graphical_lasso
#print axioms Verif.Props.C183_kernel_latent_time_graphical_lasso
#print axioms Verif.Props.C183_matrix_decomposition
#print axioms Verif.Props.C183_covariance
#print axioms Verif.Props.C183_initial_precision
#print axioms Verif.Props.C183_prox
#print axioms Verif.Props.C183_psi_l1
#print axioms Verif.Props.C183_psi_laplacian
#print axioms Verif.Props.C39_bic_value
#print axioms Verif.Props.C39_ebic_value
#print axioms Verif.Props.C39_ebicM_value
#print axioms Verif.Props.C39_ebicM_single
#print axioms Verif.Props.C39_ebic_antitone
#print axioms Verif.Props.C39_relabel
#print axioms Verif.Props.C39_bicT_sum
#print axioms Verif.Props.C61_ebic_false
#print axioms Verif.Props.C61_ebic_zero_false
#print axioms Verif.Props.C61_ebicM_partial
#print axioms Verif.Props.C62_ebicT_value
#print axioms Verif.Props.C62_ebicT_false
#print axioms Verif.Props.C62_ebicT_one_partial
#print axioms Verif.Props.C185_groups_iff
#print axioms Verif.Props.C185_alpha_max
#print axioms Verif.Props.C185_time
#print axioms Verif.Props.C185_kernel
#print axioms Verif.Props.C185_time_returned
#print axioms Verif.Props.C185_kernel_returned
#print axioms Verif.Props.C185_psi_l1
#print axioms Verif.Props.C185_psi_laplacian
#print axioms Verif.Props.C185_psi_l2
#print axioms Verif.Props.C186_network
#print axioms Verif.Props.C186_edges_found
#print axioms Verif.Props.C185_returned
#print axioms Verif.Props.C185_returned_empty
#print axioms Verif.Props.C194_graphical_lasso
#print axioms Verif.Props.C194_trace
#print axioms Verif.Props.C194_pooled
#print axioms Verif.Props.C194_time_calls
#print axioms Verif.Props.C194_kernel
#print axioms Verif.Props.C194_latent
#print axioms Verif.Props.C195_graphical_lasso
#print axioms Verif.Props.C195_time
#print axioms Verif.Props.C195_latent
#print axioms Verif.Props.C195_calls
#print axioms Verif.Props.C196_graphical_lasso
#print axioms Verif.Props.C196_time
#print axioms Verif.Props.C196_latent
#print axioms Verif.Props.C196_norm
#print axioms Verif.Props.C196_square
#print axioms Verif.Props.C196_calls
#print axioms Verif.Props.C127_gaussian_partial
#print axioms Verif.Props.C127_ising_partial
#print axioms Verif.Props.C127_equal_false
#print axioms Verif.Props.C127_ising_psi_false
#print axioms Verif.Props.C127_penalties
#print axioms Verif.Props.C128_converged_partial
#print axioms Verif.Props.C128_ising_converged_partial
#print axioms Verif.Props.C128_unconverged_false
#print axioms Verif.Props.C128_equal_init_false
#print axioms Verif.Props.C128_given_kernel_false
#print axioms Verif.Props.C128_transform
#print axioms Verif.Props.C128_clusters_false
#print axioms Verif.Props.C222_two_times
#print axioms Verif.Props.C222_three_times_partial
#print axioms Verif.Props.C222_laplacian_false
#print axioms Verif.Props.C222_ising_false
#print axioms Verif.Props.C01_soft_thresholding_prox
#print axioms Verif.Props.C01_soft_thresholding_prox_matrix
#print axioms Verif.Props.C02_soft_thresholding_pointwise
#print axioms Verif.Props.C02_soft_thresholding_nonexpansive
#print axioms Verif.Props.C02_soft_thresholding_negative_lam
#print axioms Verif.Props.C27_l1_od_norm
#print axioms Verif.Props.C03_soft_thresholding_off_diagonal_prox
#print axioms Verif.Props.C03_soft_thresholding_off_diagonal_shape
#print axioms Verif.Props.C08_prox_laplacian_prox
#print axioms Verif.Props.C08_prox_laplacian_linear
#print axioms Verif.Props.C218_generator
#print axioms Verif.Props.C218_defaults
#print axioms Verif.Props.C218_connections
#print axioms Verif.Props.C218_shift_false
#print axioms Verif.Props.C218_few_nodes_false
#print axioms Verif.Props.C06_prox_logdet
#print axioms Verif.Props.C06_prox_logdet_stationary
#print axioms Verif.Props.C06_prox_logdet_basis_free
#print axioms Verif.Props.C06_hypothesis_always_met
#print axioms Verif.Props.C07_prox_trace_indicator
#print axioms Verif.Props.C07_prox_trace_indicator_shape
#print axioms Verif.Props.C09_ala_ma_relation
#print axioms Verif.Props.C09_ala_ma_prox
#print axioms Verif.Props.C49_global_instability
#print axioms Verif.Props.C49_order
#print axioms Verif.Props.C49_degenerate
#print axioms Verif.Props.C75_upper_bound
#print axioms Verif.Props.C50_monotonized_partial
#print axioms Verif.Props.C50_selected_partial
#print axioms Verif.Props.C50_second_never_selected
#print axioms Verif.Props.C50_one_past
#print axioms Verif.Props.C50_stars_false
#print axioms Verif.Props.C76_gstars
#print axioms Verif.Props.C77_single_grid
#print axioms Verif.Props.C77_grids_false
#print axioms Verif.Props.C177_mean
#print axioms Verif.Props.C177_invariance
#print axioms Verif.Props.C177_one_time
#print axioms Verif.Props.C177_single_false
#print axioms Verif.Props.C178_default_partial
#print axioms Verif.Props.C178_few_samples_false
#print axioms Verif.Props.C178_classes_partial
#print axioms Verif.Props.C178_many_classes_false
#print axioms Verif.Props.C29_structure_error
#print axioms Verif.Props.C29_structure_error_batch
#print axioms Verif.Props.C30_mean_structure_error_false
#print axioms Verif.Props.C30_empty_partial
#print axioms Verif.Props.C22_pair_update
#print axioms Verif.Props.C21_stationary_partial
#print axioms Verif.Props.C21_diagonal_false
#print axioms Verif.Props.C23_history
#print axioms Verif.Props.C23_max_iter_zero
#print axioms Verif.Props.C206_precision
#print axioms Verif.Props.C206_joint_covariance
#print axioms Verif.Props.C206_precs
#print axioms Verif.Props.C206_sparse_precs
#print axioms Verif.Props.C206_dataset
#print axioms Verif.Props.C206_stationary_false
#print axioms Verif.Props.C207_first_window
#print axioms Verif.Props.C207_autoregression
#print axioms Verif.Props.C207_innovation
#print axioms Verif.Props.C207_later_window_false
#print axioms Verif.Props.C208_dependence_false
#print axioms Verif.Props.C208_no_past
#print axioms Verif.Props.C187_equal_data
#print axioms Verif.Props.C187_equal_data_kernel
#print axioms Verif.Props.C187_beta_zero
#print axioms Verif.Props.C187_beta_large
#print axioms Verif.Props.C187_kernel_large
#print axioms Verif.Props.C187_pooled_exists
#print axioms Verif.Props.C187_solver
#print axioms Verif.Props.C187_psi_l1
#print axioms Verif.Props.C187_psi_l2
#print axioms Verif.Props.C187_laplacian
#print axioms Verif.Props.C102_kernel_converges
#print axioms Verif.Props.C103_time_converges
#print axioms Verif.Props.C123_ising
#print axioms Verif.Props.C123_poisson
#print axioms Verif.Props.C124_stationary_partial
#print axioms Verif.Props.C124_inner_partial
#print axioms Verif.Props.C124_rho_unique
#print axioms Verif.Props.C124_single_time
#print axioms Verif.Props.C124_rho_false
#print axioms Verif.Props.C125_ising
#print axioms Verif.Props.C125_values_false
#print axioms Verif.Props.C125_options_false
#print axioms Verif.Props.C125_similarity_false
#print axioms Verif.Props.C125_score_false
#print axioms Verif.Props.C126_value_partial
#print axioms Verif.Props.C126_sign_false
#print axioms Verif.Props.C154_certificate
#print axioms Verif.Props.C154_converges_partial
#print axioms Verif.Props.C123_exact
#print axioms Verif.Props.C123_penalties
#print axioms Verif.Props.C199_no_l1
#print axioms Verif.Props.C199_two_times
#print axioms Verif.Props.C199_prox_false
#print axioms Verif.Props.C199_fixed_false
#print axioms Verif.Props.C184_kernel_time_graphical_lasso
#print axioms Verif.Props.C184_kernel_latent_time_graphical_lasso
#print axioms Verif.Props.C184_latent_time_graphical_lasso
#print axioms Verif.Props.C184_matrix_decomposition
#print axioms Verif.Props.C184_time_graphical_lasso
#print axioms Verif.Props.C184_psi_l1
#print axioms Verif.Props.C184_psi_laplacian
#print axioms Verif.Props.C205_uncoupled
#print axioms Verif.Props.C205_uncoupled_kernel
#print axioms Verif.Props.C205_calls_agree
#print axioms Verif.Props.C205_variances
#print axioms Verif.Props.C205_separate_fits_false
#print axioms Verif.Props.C205_documented
#print axioms Verif.Props.C231_words
#print axioms Verif.Props.C231_documents
#print axioms Verif.Props.C228_uncovered_stop
#print axioms Verif.Props.C228_least_squares
#print axioms Verif.Props.C228_alpha_false
#print axioms Verif.Props.C228_all_passes_false
#print axioms Verif.Props.C201_inverse_covariance
#print axioms Verif.Props.C201_penalty_vanishes
#print axioms Verif.Props.C201_terminates
#print axioms Verif.Props.C11_update_rho
#print axioms Verif.Props.C11_update_rho_sequence
#print axioms Verif.Props.C13_update_gamma
#print axioms Verif.Props.C13_update_gamma_sequence
#print axioms Verif.Props.C33_roundtrip
#print axioms Verif.Props.C33_symmetric
#print axioms Verif.Props.C33_fails_iff
#print axioms Verif.Props.C34_lossless
#print axioms Verif.Props.C34_ragged_fails
#print axioms Verif.Props.C35_compose
#print axioms Verif.Props.C35_compose_append
#print axioms Verif.Props.C35_flatten_leaves
#print axioms Verif.Props.C35_flatten_unique
#print axioms Verif.Props.C35_flatten_laws
#print axioms Verif.Props.C36_roundtrip_partial
#print axioms Verif.Props.C36_roundtrip_false
#print axioms Verif.Props.C36_counterexample
#print axioms Verif.Props.C37_restores
#print axioms Verif.Props.C37_propagates
#print axioms Verif.Props.C37_silent
#print axioms Verif.Props.C38_retain_top_n
#print axioms Verif.Props.C38_zero_false
#print axioms Verif.Props.C135_value
#print axioms Verif.Props.C135_finite_iff
#print axioms Verif.Props.C135_correlation
#print axioms Verif.Props.C135_invariant
#print axioms Verif.Props.C136_entries
#print axioms Verif.Props.C136_top
#print axioms Verif.Props.C136_psd
#print axioms Verif.Props.C136_posdef_false
#print axioms Verif.Props.C136_all_rows
#print axioms Verif.Props.C136_odd_false
#print axioms Verif.Props.C136_delimiter
#print axioms Verif.Props.C137_psd
#print axioms Verif.Props.C137_posdef
#print axioms Verif.Props.C137_positive_definite
#print axioms Verif.Props.C137_asymmetric_false
#print axioms Verif.Props.C138_bounds
#print axioms Verif.Props.C138_single
#print axioms Verif.Props.C138_uniform_false
#print axioms Verif.Props.C139_value
#print axioms Verif.Props.C139_zero_iff
#print axioms Verif.Props.C139_length_false
#print axioms Verif.Props.C139_versus_batch
#print axioms Verif.Props.C139_rank
#print axioms Verif.Props.C140_value
#print axioms Verif.Props.C140_units_false
#print axioms Verif.Props.C140_time
#print axioms Verif.Props.C24_accepted_names
#print axioms Verif.Props.C24_matching_partial
#print axioms Verif.Props.C24_l2_false
#print axioms Verif.Props.C24_linf_false
#print axioms Verif.Props.C25_list_unchanged
#print axioms Verif.Props.C25_accepts_iff
#print axioms Verif.Props.C25_leading_axis
#print axioms Verif.Props.C25_time_last
#print axioms Verif.Props.C25_unchanged
#print axioms Verif.Props.C224_one_direction
#print axioms Verif.Props.C224_complete_network
#print axioms Verif.Props.C224_positive_definite_false
#print axioms Verif.Props.C224_predict_false
#print axioms Verif.Props.C225_best_partial
#print axioms Verif.Props.C225_mixed_false
#print axioms Verif.Props.C229_cold
#print axioms Verif.Props.C229_same_shape_partial
#print axioms Verif.Props.C229_fewer_targets_false
#print axioms Verif.Props.C229_more_targets_false
#print axioms Verif.Props.C229_features_false
#print axioms Verif.Props.C141_wishart_mode
#print axioms Verif.Props.C141_inverse_wishart
#print axioms Verif.Props.C141_inverse_mode
#print axioms Verif.Props.C142_bayes
#print axioms Verif.Props.C142_mode
#print axioms Verif.Props.C142_marginal
#print axioms Verif.Props.C142_predictive
#print axioms Verif.Props.C142_posterior_object_false
#print axioms Verif.Props.C143_frob
#print axioms Verif.Props.C143_frob_max
#print axioms Verif.Props.C143_lognormal
#print axioms Verif.Props.C144_predict
#print axioms Verif.Props.C144_rbf
#print axioms Verif.Props.C221_wishart_partial
#print axioms Verif.Props.C221_inverse_partial
#print axioms Verif.Props.C221_mean_false
