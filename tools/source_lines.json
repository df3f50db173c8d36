{
"regain/__init__.py": 31,
"regain/bayesian/__init__.py": 29,
"regain/bayesian/_laplace_approximation.py": 95,
"regain/bayesian/gaussian_process_.py": 55,
"regain/bayesian/gwishart_inference.py": 509,
"regain/bayesian/sampling.py": 252,
"regain/bayesian/stats.py": 87,
"regain/bayesian/wishart_distribution_.py": 261,
"regain/bayesian/wishart_process_.py": 394,
"regain/clustering.py": 79,
"regain/covariance/__init__.py": 33,
"regain/covariance/graphical_lasso_.py": 338,
"regain/covariance/infimal_convolution_.py": 172,
"regain/covariance/kernel_latent_time_graphical_lasso_.py": 901,
"regain/covariance/kernel_time_graphical_lasso_.py": 820,
"regain/covariance/latent_graphical_lasso_.py": 321,
"regain/covariance/latent_time_graphical_lasso_.py": 518,
"regain/covariance/latent_time_matrix_decomposition.py": 487,
"regain/covariance/missing_graphical_lasso_.py": 322,
"regain/covariance/time_graphical_lasso_.py": 584,
"regain/data/__init__.py": 29,
"regain/data/base.py": 44,
"regain/datasets/__init__.py": 30,
"regain/datasets/base.py": 243,
"regain/datasets/gaussian.py": 691,
"regain/datasets/ising.py": 350,
"regain/datasets/kernels.py": 691,
"regain/datasets/multi_class.py": 256,
"regain/datasets/poisson.py": 207,
"regain/discriminant_analysis.py": 205,
"regain/forward_backward/__init__.py": 38,
"regain/forward_backward/forward_backward.py": 166,
"regain/forward_backward/time_graphical_lasso_.py": 576,
"regain/generalized_linear_model/__init__.py": 0,
"regain/generalized_linear_model/base.py": 62,
"regain/generalized_linear_model/glm_gaussian.py": 201,
"regain/generalized_linear_model/glm_ising.py": 327,
"regain/generalized_linear_model/glm_poisson.py": 288,
"regain/generalized_linear_model/glm_time_ising.py": 786,
"regain/generalized_linear_model/glm_time_poisson.py": 787,
"regain/linear_model/__init__.py": 31,
"regain/linear_model/_group_lasso_overlap_old_.py": 170,
"regain/linear_model/group_lasso_.py": 144,
"regain/linear_model/group_lasso_overlap_.py": 564,
"regain/linear_model/lasso_.py": 134,
"regain/math.py": 27,
"regain/model_selection/__init__.py": 29,
"regain/model_selection/_bayesian_optimization.py": 280,
"regain/model_selection/stability_optimization.py": 690,
"regain/norm.py": 78,
"regain/plotting/__init__.py": 29,
"regain/plotting/covariance.py": 111,
"regain/plotting/graph.py": 82,
"regain/plotting/plotly.py": 359,
"regain/plotting/results.py": 255,
"regain/prox.py": 304,
"regain/scores.py": 122,
"regain/tests/__init__.py": 29,
"regain/tests/test_datasets.py": 127,
"regain/tests/test_generalized_linear_model.py": 104,
"regain/tests/test_graphical_lasso.py": 45,
"regain/tests/test_group_lasso_overlap.py": 53,
"regain/tests/test_kernel_latent_time_graphical_lasso.py": 56,
"regain/tests/test_kernel_time_graphical_lasso.py": 53,
"regain/tests/test_latent_graphical_lasso.py": 51,
"regain/tests/test_latent_time_graphical_lasso.py": 72,
"regain/tests/test_norm.py": 56,
"regain/tests/test_prox.py": 136,
"regain/tests/test_scores.py": 61,
"regain/tests/test_time_graphical_lasso.py": 73,
"regain/tests/test_update_rules.py": 46,
"regain/tests/test_utils.py": 138,
"regain/update_rules.py": 53,
"regain/utils.py": 667,
"regain/validation.py": 117,
"regain/wrapper/__init__.py": 161,
"regain/wrapper/paspal/__init__.py": 0,
"regain/wrapper/paspal/glopridu.py": 251
}