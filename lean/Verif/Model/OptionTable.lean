import Verif.Model.Options

/-! Generated by tools/gen_options.py from the text of /repo: the constructors of the estimators and the solver calls in
their `fit` and `_fit` methods. -/

namespace Verif.Model.OptionTable

open Verif.Model

set_option autoImplicit false

/-- The external class `GraphicalLasso` of scikit-learn: its constructor stores every parameter under its name. -/
def skGraphLasso : Cls := .ext "GraphLasso" ["alpha", "mode", "tol", "max_iter", "verbose", "assume_centered"]

/-- The external class `GridSearchCV` of scikit-learn: its constructor stores every parameter under its name. -/
def skGridSearchCV : Cls := .ext "GridSearchCV" ["estimator", "param_grid", "scoring", "n_jobs", "iid", "refit", "cv", "verbose", "pre_dispatch", "error_score",
    "return_train_score"]

/-- `GraphicalLasso.__init__`, regain/covariance/graphical_lasso_.py:264-292. -/
def cGraphicalLasso : Cls := .sub "GraphicalLasso" skGraphLasso
    ["alpha", "rho", "over_relax", "max_iter", "mode", "tol", "rtol", "verbose", "assume_centered",
     "update_rho_options", "compute_objective", "init"]
    [("alpha", .param "alpha"), ("tol", .param "tol"), ("max_iter", .param "max_iter"),
     ("verbose", .param "verbose"), ("assume_centered", .param "assume_centered"), ("mode", .param "mode")]
    [("rho", .param "rho"), ("rtol", .param "rtol"), ("over_relax", .param "over_relax"),
     ("update_rho_options", .param "update_rho_options"), ("compute_objective", .param "compute_objective"),
     ("init", .param "init")]

/-- `LatentGraphicalLasso.__init__`, regain/covariance/latent_graphical_lasso_.py:250-278. -/
def cLatentGraphicalLasso : Cls := .sub "LatentGraphicalLasso" cGraphicalLasso
    ["alpha", "tau", "rho", "tol", "rtol", "max_iter", "verbose", "assume_centered", "mode", "update_rho_options",
     "compute_objective", "init"]
    [("alpha", .param "alpha"), ("rho", .param "rho"), ("tol", .param "tol"), ("rtol", .param "rtol"),
     ("max_iter", .param "max_iter"), ("verbose", .param "verbose"), ("assume_centered", .param "assume_centered"),
     ("mode", .param "mode"), ("update_rho_options", .param "update_rho_options"),
     ("compute_objective", .param "compute_objective"), ("init", .param "init")]
    [("tau", .param "tau")]

/-- `MissingGraphicalLasso.__init__`, regain/covariance/missing_graphical_lasso_.py:258-286. -/
def cMissingGraphicalLasso : Cls := .sub "MissingGraphicalLasso" cGraphicalLasso
    ["alpha", "rho", "over_relax", "max_iter", "mode", "tol", "rtol", "verbose", "assume_centered",
     "update_rho_options", "compute_objective", "init"]
    [("alpha", .param "alpha"), ("tol", .param "tol"), ("max_iter", .param "max_iter"),
     ("verbose", .param "verbose"), ("assume_centered", .param "assume_centered"), ("mode", .param "mode"),
     ("rho", .param "rho"), ("rtol", .param "rtol"), ("over_relax", .param "over_relax"),
     ("update_rho_options", .param "update_rho_options"), ("compute_objective", .param "compute_objective"),
     ("init", .param "init")]
    []

/-- `BayesianGraphicalLasso.__init__`, regain/bayesian/gwishart_inference.py:456-480. -/
def cBayesianGraphicalLasso : Cls := .sub "BayesianGraphicalLasso" skGraphLasso
    ["alpha", "max_iter", "alphas", "n_resampling", "tol", "verbose", "assume_centered", "mode", "scoring", "top_n"]
    [("alpha", .param "alpha"), ("tol", .param "tol"), ("max_iter", .param "max_iter"),
     ("verbose", .param "verbose"), ("assume_centered", .param "assume_centered"), ("mode", .param "mode")]
    [("alphas", .param "alphas"), ("n_resampling", .param "n_resampling"), ("scoring", .param "scoring"),
     ("top_n", .param "top_n")]

/-- `TimeGraphicalLasso.__init__`, regain/covariance/time_graphical_lasso_.py:374-412. -/
def cTimeGraphicalLasso : Cls := .sub "TimeGraphicalLasso" cGraphicalLasso
    ["alpha", "beta", "mode", "rho", "tol", "rtol", "psi", "max_iter", "verbose", "assume_centered",
     "return_history", "update_rho_options", "compute_objective", "stop_at", "stop_when", "suppress_warn_list",
     "init"]
    [("alpha", .param "alpha"), ("rho", .param "rho"), ("tol", .param "tol"), ("rtol", .param "rtol"),
     ("max_iter", .param "max_iter"), ("verbose", .param "verbose"), ("assume_centered", .param "assume_centered"),
     ("mode", .param "mode"), ("update_rho_options", .param "update_rho_options"),
     ("compute_objective", .param "compute_objective"), ("init", .param "init")]
    [("beta", .param "beta"), ("psi", .param "psi"), ("return_history", .param "return_history"),
     ("stop_at", .param "stop_at"), ("stop_when", .param "stop_when"),
     ("suppress_warn_list", .param "suppress_warn_list")]

/-- `LatentTimeGraphicalLasso.__init__`, regain/covariance/latent_time_graphical_lasso_.py:433-469. -/
def cLatentTimeGraphicalLasso : Cls := .sub "LatentTimeGraphicalLasso" cTimeGraphicalLasso
    ["alpha", "tau", "beta", "eta", "mode", "rho", "tol", "rtol", "psi", "phi", "max_iter", "verbose",
     "assume_centered", "update_rho_options", "compute_objective", "init"]
    [("alpha", .param "alpha"), ("beta", .param "beta"), ("mode", .param "mode"), ("rho", .param "rho"),
     ("tol", .param "tol"), ("rtol", .param "rtol"), ("psi", .param "psi"), ("max_iter", .param "max_iter"),
     ("verbose", .param "verbose"), ("assume_centered", .param "assume_centered"),
     ("update_rho_options", .param "update_rho_options"), ("compute_objective", .param "compute_objective"),
     ("init", .param "init")]
    [("tau", .param "tau"), ("eta", .param "eta"), ("phi", .param "phi")]

/-- `LatentTimeMatrixDecomposition.__init__`, regain/covariance/latent_time_matrix_decomposition.py:402-438. -/
def cLatentTimeMatrixDecomposition : Cls := .sub "LatentTimeMatrixDecomposition" cLatentTimeGraphicalLasso
    ["alpha", "tau", "beta", "eta", "mode", "rho", "time_on_axis", "tol", "rtol", "psi", "phi", "max_iter",
     "verbose", "assume_centered", "update_rho_options", "compute_objective"]
    [("alpha", .param "alpha"), ("beta", .param "beta"), ("tau", .param "tau"), ("eta", .param "eta"),
     ("mode", .param "mode"), ("rho", .param "rho"), ("tol", .param "tol"), ("rtol", .param "rtol"),
     ("psi", .param "psi"), ("phi", .param "phi"), ("max_iter", .param "max_iter"), ("verbose", .param "verbose"),
     ("assume_centered", .param "assume_centered"), ("update_rho_options", .param "update_rho_options"),
     ("compute_objective", .param "compute_objective")]
    [("time_on_axis", .param "time_on_axis")]

/-- `KernelTimeGraphicalLasso.__init__`, regain/covariance/kernel_time_graphical_lasso_.py:429-465. -/
def cKernelTimeGraphicalLasso : Cls := .sub "KernelTimeGraphicalLasso" cTimeGraphicalLasso
    ["alpha", "beta", "kernel", "rho", "tol", "rtol", "psi", "max_iter", "verbose", "assume_centered",
     "return_history", "update_rho_options", "compute_objective", "ker_param", "max_iter_ext", "init"]
    [("alpha", .param "alpha"), ("beta", .param "beta"), ("rho", .param "rho"), ("tol", .param "tol"),
     ("rtol", .param "rtol"), ("max_iter", .param "max_iter"), ("verbose", .param "verbose"),
     ("assume_centered", .param "assume_centered"), ("update_rho_options", .param "update_rho_options"),
     ("compute_objective", .param "compute_objective"), ("return_history", .param "return_history"),
     ("psi", .param "psi"), ("init", .param "init")]
    [("kernel", .param "kernel"), ("ker_param", .param "ker_param"), ("max_iter_ext", .param "max_iter_ext")]

/-- `SimilarityTimeGraphicalLasso.__init__`, regain/covariance/kernel_time_graphical_lasso_.py:645-686. -/
def cSimilarityTimeGraphicalLasso : Cls := .sub "SimilarityTimeGraphicalLasso" cKernelTimeGraphicalLasso
    ["alpha", "beta", "kernel", "rho", "tol", "rtol", "psi", "max_iter", "verbose", "assume_centered",
     "return_history", "update_rho_options", "compute_objective", "ker_param", "max_iter_ext", "init", "eps",
     "n_clusters"]
    [("alpha", .param "alpha"), ("beta", .param "beta"), ("rho", .param "rho"), ("tol", .param "tol"),
     ("rtol", .param "rtol"), ("max_iter", .param "max_iter"), ("verbose", .param "verbose"),
     ("assume_centered", .param "assume_centered"), ("update_rho_options", .param "update_rho_options"),
     ("compute_objective", .param "compute_objective"), ("return_history", .param "return_history"),
     ("psi", .param "psi"), ("init", .param "init")]
    [("kernel", .param "kernel"), ("max_iter_ext", .param "max_iter_ext"), ("eps", .param "eps"),
     ("n_clusters", .param "n_clusters")]

/-- `KernelLatentTimeGraphicalLasso.__init__`, regain/covariance/kernel_latent_time_graphical_lasso_.py:467-507. -/
def cKernelLatentTimeGraphicalLasso : Cls := .sub "KernelLatentTimeGraphicalLasso" cKernelTimeGraphicalLasso
    ["alpha", "tau", "kernel_psi", "kernel_phi", "rho", "tol", "rtol", "psi", "phi", "max_iter", "verbose",
     "assume_centered", "return_history", "update_rho_options", "compute_objective", "ker_psi_param",
     "ker_phi_param", "init"]
    [("alpha", .param "alpha"), ("rho", .param "rho"), ("tol", .param "tol"), ("rtol", .param "rtol"),
     ("max_iter", .param "max_iter"), ("verbose", .param "verbose"), ("assume_centered", .param "assume_centered"),
     ("update_rho_options", .param "update_rho_options"), ("compute_objective", .param "compute_objective"),
     ("return_history", .param "return_history"), ("psi", .param "psi"), ("init", .param "init")]
    [("kernel_psi", .param "kernel_psi"), ("kernel_phi", .param "kernel_phi"), ("tau", .param "tau"),
     ("phi", .param "phi"), ("ker_psi_param", .param "ker_psi_param"), ("ker_phi_param", .param "ker_phi_param")]

/-- `SimilarityLatentTimeGraphicalLasso.__init__`, regain/covariance/kernel_latent_time_graphical_lasso_.py:670-720.
-/
def cSimilarityLatentTimeGraphicalLasso : Cls := .sub "SimilarityLatentTimeGraphicalLasso" cKernelLatentTimeGraphicalLasso
    ["alpha", "beta", "tau", "eta", "kernel_psi", "kernel_phi", "rho", "tol", "rtol", "psi", "phi", "max_iter",
     "verbose", "assume_centered", "return_history", "update_rho_options", "compute_objective", "ker_psi_param",
     "ker_phi_param", "max_iter_ext", "init", "eps", "n_clusters"]
    [("alpha", .param "alpha"), ("tau", .param "tau"), ("phi", .param "phi"), ("psi", .param "psi"),
     ("rho", .param "rho"), ("tol", .param "tol"), ("rtol", .param "rtol"), ("max_iter", .param "max_iter"),
     ("verbose", .param "verbose"), ("assume_centered", .param "assume_centered"),
     ("update_rho_options", .param "update_rho_options"), ("compute_objective", .param "compute_objective"),
     ("return_history", .param "return_history"), ("kernel_psi", .param "kernel_psi"),
     ("kernel_phi", .param "kernel_phi"), ("ker_psi_param", .param "ker_psi_param"),
     ("ker_phi_param", .param "ker_phi_param"), ("init", .param "init")]
    [("beta", .param "beta"), ("eta", .param "eta"), ("max_iter_ext", .param "max_iter_ext"), ("eps", .param "eps"),
     ("n_clusters", .param "n_clusters")]

/-- `TimeGraphicalLassoForwardBackward.__init__`, regain/forward_backward/time_graphical_lasso_.py:466-514. -/
def cTimeGraphicalLassoForwardBackward : Cls := .sub "TimeGraphicalLassoForwardBackward" cTimeGraphicalLasso
    ["alpha", "beta", "tol", "max_iter", "verbose", "assume_centered", "compute_objective", "eps", "choose",
     "lamda", "delta", "gamma", "lamda_criterion", "time_norm", "return_history", "debug", "return_n_linesearch",
     "vareps", "stop_at", "stop_when", "init", "laplacian_penalty"]
    [("alpha", .param "alpha"), ("tol", .param "tol"), ("max_iter", .param "max_iter"),
     ("verbose", .param "verbose"), ("assume_centered", .param "assume_centered"),
     ("compute_objective", .param "compute_objective"), ("beta", .param "beta"), ("init", .param "init")]
    [("delta", .param "delta"), ("gamma", .param "gamma"), ("lamda_criterion", .param "lamda_criterion"),
     ("time_norm", .param "time_norm"), ("eps", .param "eps"), ("choose", .param "choose"),
     ("lamda", .param "lamda"), ("return_history", .param "return_history"), ("debug", .param "debug"),
     ("return_n_linesearch", .param "return_n_linesearch"), ("vareps", .param "vareps"),
     ("stop_at", .param "stop_at"), ("stop_when", .param "stop_when"),
     ("laplacian_penalty", .param "laplacian_penalty")]

/-- `WishartProcess.__init__`, regain/bayesian/wishart_process_.py:225-262. -/
def cWishartProcess : Cls := .sub "WishartProcess" .none
    ["theta", "var_prop", "mu_prior", "var_prior", "var_Lprop", "mu_Lprior", "var_Lprior", "n_iter", "burn_in",
     "verbose", "assume_centered", "kernel", "learn_ell"]
    []
    [("n_iter", .param "n_iter"), ("burn_in", .code "n_iter // 4 if burn_in is None else burn_in"),
     ("verbose", .param "verbose"), ("assume_centered", .param "assume_centered"), ("theta", .param "theta"),
     ("var_prop", .param "var_prop"), ("var_Lprop", .param "var_Lprop"), ("kernel", .param "kernel"),
     ("learn_ell", .param "learn_ell"),
     ("prior_theta_kernel", .code "stats.lognorm(loc=0, s=sigma_prior, scale=np.exp(mu_prior))"),
     ("prior_ell", .code "stats.norm(loc=mu_Lprior, scale=np.sqrt(var_Lprior))")]

/-- `DiscriminantAnalysis.__init__`, regain/discriminant_analysis.py:88-91. -/
def cDiscriminantAnalysis : Cls := .sub "DiscriminantAnalysis" .none
    ["estimator", "ensure_posdef", "priors"]
    []
    [("estimator", .param "estimator"), ("priors", .code "np.asarray(priors) if priors is not None else None"),
     ("ensure_posdef", .param "ensure_posdef")]

/-- `PrecomputedDiscriminantAnalysis.__init__`, regain/discriminant_analysis.py:200-201. -/
def cPrecomputedDiscriminantAnalysis : Cls := .sub "PrecomputedDiscriminantAnalysis" .none
    ["precision"]
    []
    [("precision_", .code "np.array(precision)")]

/-- `GLM_GM.__init__`, regain/generalized_linear_model/base.py:40-58. -/
def cGLMGM : Cls := .sub "GLM_GM" .none
    ["alpha", "tol", "rtol", "max_iter", "verbose", "return_history", "return_n_iter", "compute_objective"]
    []
    [("alpha", .param "alpha"), ("tol", .param "tol"), ("rtol", .param "rtol"), ("max_iter", .param "max_iter"),
     ("verbose", .param "verbose"), ("return_history", .param "return_history"),
     ("return_n_iter", .param "return_n_iter"), ("compute_objective", .param "compute_objective")]

/-- `Gaussian_GLM_GM.__init__`, regain/generalized_linear_model/glm_gaussian.py:157-179. -/
def cGaussianGLMGM : Cls := .sub "Gaussian_GLM_GM" cGLMGM
    ["alpha", "tol", "rtol", "reconstruction", "max_iter", "verbose", "return_history", "return_n_iter",
     "compute_objective"]
    [("alpha", .param "alpha"), ("tol", .param "tol"), ("rtol", .param "rtol"), ("max_iter", .param "max_iter"),
     ("verbose", .param "verbose"), ("return_history", .param "return_history"),
     ("return_n_iter", .param "return_n_iter"), ("compute_objective", .param "compute_objective")]
    [("reconstruction", .param "reconstruction")]

/-- `IsingGraphicalModel.__init__`, regain/generalized_linear_model/glm_ising.py:230-258. -/
def cIsingGraphicalModel : Cls := .sub "IsingGraphicalModel" cGLMGM
    ["alpha", "tol", "rtol", "reconstruction", "mode", "rho", "max_iter", "verbose", "return_history",
     "return_n_iter", "compute_objective", "gamma"]
    [("alpha", .param "alpha"), ("tol", .param "tol"), ("rtol", .param "rtol"), ("max_iter", .param "max_iter"),
     ("verbose", .param "verbose"), ("return_history", .param "return_history"),
     ("return_n_iter", .param "return_n_iter"), ("compute_objective", .param "compute_objective")]
    [("reconstruction", .param "reconstruction"), ("mode", .param "mode"), ("rho", .param "rho"),
     ("gamma", .param "gamma")]

/-- `PoissonGraphicalModel.__init__`, regain/generalized_linear_model/glm_poisson.py:217-245. -/
def cPoissonGraphicalModel : Cls := .sub "PoissonGraphicalModel" cGLMGM
    ["alpha", "tol", "rtol", "reconstruction", "mode", "max_iter", "gamma", "intercept", "verbose",
     "return_history", "return_n_iter", "compute_objective"]
    [("alpha", .param "alpha"), ("tol", .param "tol"), ("rtol", .param "rtol"), ("max_iter", .param "max_iter"),
     ("verbose", .param "verbose"), ("return_history", .param "return_history"),
     ("return_n_iter", .param "return_n_iter"), ("compute_objective", .param "compute_objective")]
    [("reconstruction", .param "reconstruction"), ("mode", .param "mode"), ("gamma", .param "gamma"),
     ("intercept", .param "intercept")]

/-- `TemporalIsingModel.__init__`, regain/generalized_linear_model/glm_time_ising.py:374-406. -/
def cTemporalIsingModel : Cls := .sub "TemporalIsingModel" .none
    ["distribution", "alpha", "kernel", "rho", "tol", "rtol", "psi", "max_iter", "verbose", "assume_centered",
     "return_history", "compute_objective", "ker_param", "max_iter_ext", "n_cores"]
    []
    [("alpha", .param "alpha"), ("kernel", .param "kernel"), ("rho", .param "rho"), ("tol", .param "tol"),
     ("rtol", .param "rtol"), ("psi", .param "psi"), ("max_iter", .param "max_iter"), ("verbose", .param "verbose"),
     ("assume_centered", .param "assume_centered"), ("return_history", .param "return_history"),
     ("compute_objective", .param "compute_objective"), ("ker_param", .param "ker_param"),
     ("max_iter_ext", .param "max_iter_ext"), ("distribution", .param "distribution"), ("n_cores", .param "n_cores")]

/-- `SimilarityTemporalIsingModel.__init__`, regain/generalized_linear_model/glm_time_ising.py:636-673. -/
def cSimilarityTemporalIsingModel : Cls := .sub "SimilarityTemporalIsingModel" cTemporalIsingModel
    ["alpha", "beta", "kernel", "rho", "tol", "rtol", "psi", "max_iter", "verbose", "assume_centered",
     "return_history", "compute_objective", "ker_param", "max_iter_ext", "eps", "n_clusters"]
    [("alpha", .param "alpha"), ("rho", .param "rho"), ("tol", .param "tol"), ("rtol", .param "rtol"),
     ("max_iter", .param "max_iter"), ("verbose", .param "verbose"), ("assume_centered", .param "assume_centered"),
     ("compute_objective", .param "compute_objective"), ("return_history", .param "return_history"),
     ("psi", .param "psi")]
    [("beta", .param "beta"), ("kernel", .param "kernel"), ("max_iter_ext", .param "max_iter_ext"),
     ("eps", .param "eps"), ("n_clusters", .param "n_clusters")]

/-- `TemporalPoissonModel.__init__`, regain/generalized_linear_model/glm_time_poisson.py:372-402. -/
def cTemporalPoissonModel : Cls := .sub "TemporalPoissonModel" .none
    ["alpha", "kernel", "rho", "tol", "rtol", "gamma", "psi", "max_iter", "verbose", "return_history",
     "compute_objective", "ker_param", "max_iter_ext", "n_cores"]
    []
    [("alpha", .param "alpha"), ("kernel", .param "kernel"), ("rho", .param "rho"), ("tol", .param "tol"),
     ("rtol", .param "rtol"), ("psi", .param "psi"), ("max_iter", .param "max_iter"), ("verbose", .param "verbose"),
     ("return_history", .param "return_history"), ("compute_objective", .param "compute_objective"),
     ("ker_param", .param "ker_param"), ("max_iter_ext", .param "max_iter_ext"), ("gamma", .param "gamma"),
     ("n_cores", .param "n_cores")]

/-- `SimilarityTemporalPoissonModel.__init__`, regain/generalized_linear_model/glm_time_poisson.py:627-670. -/
def cSimilarityTemporalPoissonModel : Cls := .sub "SimilarityTemporalPoissonModel" cTemporalPoissonModel
    ["alpha", "beta", "kernel", "rho", "tol", "rtol", "psi", "max_iter", "verbose", "gamma", "assume_centered",
     "return_history", "update_rho_options", "compute_objective", "ker_param", "max_iter_ext", "init", "eps",
     "n_clusters"]
    [("alpha", .param "alpha"), ("rho", .param "rho"), ("tol", .param "tol"), ("rtol", .param "rtol"),
     ("max_iter", .param "max_iter"), ("verbose", .param "verbose"), ("gamma", .param "gamma"),
     ("assume_centered", .param "assume_centered"), ("update_rho_options", .param "update_rho_options"),
     ("compute_objective", .param "compute_objective"), ("return_history", .param "return_history"),
     ("psi", .param "psi"), ("init", .param "init")]
    [("beta", .param "beta"), ("kernel", .param "kernel"), ("max_iter_ext", .param "max_iter_ext"),
     ("eps", .param "eps"), ("n_clusters", .param "n_clusters")]

/-- `GroupLassoOverlap.__init__`, regain/linear_model/group_lasso_overlap_.py:184-237. -/
def cGroupLassoOverlap : Cls := .sub "GroupLassoOverlap" .none
    ["alpha", "fit_intercept", "groups", "rho", "n_jobs", "tol", "verbose", "rtol", "normalize", "precompute",
     "max_iter", "copy_X", "warm_start", "positive", "random_state", "selection", "mode", "matlab_engine"]
    []
    [("alpha", .param "alpha"), ("coef_", .code "None"), ("fit_intercept", .param "fit_intercept"),
     ("groups", .code "groups or []"), ("rho", .param "rho"), ("verbose", .param "verbose"),
     ("normalize", .param "normalize"), ("precompute", .param "precompute"), ("max_iter", .param "max_iter"),
     ("copy_X", .param "copy_X"), ("tol", .param "tol"), ("rtol", .param "rtol"),
     ("warm_start", .param "warm_start"), ("positive", .param "positive"), ("intercept_", .code "0.0"),
     ("random_state", .param "random_state"), ("selection", .param "selection"),
     ("matlab_engine", .param "matlab_engine"), ("n_jobs", .param "n_jobs"), ("mode", .param "mode")]

/-- `GraphicalModelStabilitySelection.__init__`, regain/model_selection/stability_optimization.py:272-305. -/
def cGraphicalModelStabilitySelection : Cls := .sub "GraphicalModelStabilitySelection" skGridSearchCV
    ["estimator", "param_grid", "scoring", "n_jobs", "iid", "refit", "cv", "verbose", "pre_dispatch", "error_score",
     "mode", "return_train_score", "n_repetitions", "sampling_size"]
    [("estimator", .param "estimator"), ("scoring", .param "scoring"), ("n_jobs", .param "n_jobs"),
     ("iid", .param "iid"), ("refit", .param "refit"),
     ("cv", .code "StratifiedShuffleSplit(train_size=sampling_size, n_splits=n_repetitions)"),
     ("verbose", .param "verbose"), ("pre_dispatch", .param "pre_dispatch"), ("error_score", .param "error_score"),
     ("return_train_score", .param "return_train_score"), ("param_grid", .param "param_grid")]
    [("mode", .param "mode"), ("n_repetitions", .param "n_repetitions"), ("sampling_size", .param "sampling_size"),
     ("param_grid", .code "_check_param_order(param_grid)")]

/-- The call of `graphical_lasso` in `GraphicalLasso._fit`, regain/covariance/graphical_lasso_.py:303-317; the
signature is regain/covariance/graphical_lasso_.py:81. -/
def callGraphicalLasso : SolverCall := ⟨"graphical_lasso",
    ["emp_cov", "alpha", "rho", "over_relax", "max_iter", "verbose", "tol", "rtol", "return_history",
     "return_n_iter", "update_rho_options", "compute_objective", "init"],
    [("emp_cov", .code "emp_cov"), ("alpha", .attr "alpha"), ("tol", .attr "tol"), ("rtol", .attr "rtol"),
     ("max_iter", .attr "max_iter"), ("over_relax", .attr "over_relax"), ("rho", .attr "rho"),
     ("verbose", .attr "verbose"), ("return_n_iter", .code "True"), ("return_history", .code "False"),
     ("update_rho_options", .attr "update_rho_options"), ("compute_objective", .attr "compute_objective"),
     ("init", .attr "init")]⟩

/-- The call of `latent_graphical_lasso` in `LatentGraphicalLasso._fit`,
regain/covariance/latent_graphical_lasso_.py:306-320; the signature is
regain/covariance/latent_graphical_lasso_.py:55. -/
def callLatentGraphicalLasso : SolverCall := ⟨"latent_graphical_lasso",
    ["emp_cov", "alpha", "tau", "rho", "max_iter", "verbose", "tol", "rtol", "return_history", "return_n_iter",
     "update_rho_options", "compute_objective", "init"],
    [("emp_cov", .code "emp_cov"), ("alpha", .attr "alpha"), ("tau", .attr "tau"), ("rho", .attr "rho"),
     ("tol", .attr "tol"), ("rtol", .attr "rtol"), ("max_iter", .attr "max_iter"), ("verbose", .attr "verbose"),
     ("return_n_iter", .code "True"), ("return_history", .code "False"),
     ("update_rho_options", .attr "update_rho_options"), ("compute_objective", .attr "compute_objective"),
     ("init", .attr "init")]⟩

/-- The call of `missing_graphical_lasso` in `MissingGraphicalLasso.fit`,
regain/covariance/missing_graphical_lasso_.py:307-321; the signature is
regain/covariance/missing_graphical_lasso_.py:82. -/
def callMissingGraphicalLasso : SolverCall := ⟨"missing_graphical_lasso",
    ["X", "alpha", "rho", "over_relax", "max_iter", "verbose", "tol", "rtol", "return_history", "return_n_iter",
     "update_rho_options", "compute_objective", "init"],
    [("X", .code "X"), ("alpha", .attr "alpha"), ("tol", .attr "tol"), ("rtol", .attr "rtol"),
     ("max_iter", .attr "max_iter"), ("over_relax", .attr "over_relax"), ("rho", .attr "rho"),
     ("verbose", .attr "verbose"), ("return_n_iter", .code "True"), ("return_history", .code "False"),
     ("update_rho_options", .attr "update_rho_options"), ("compute_objective", .attr "compute_objective"),
     ("init", .attr "init")]⟩

/-- The call of `bayesian_graphical_lasso` in `BayesianGraphicalLasso.fit`,
regain/bayesian/gwishart_inference.py:498-508; the signature is regain/bayesian/gwishart_inference.py:350. -/
def callBayesianGraphicalLasso : SolverCall := ⟨"bayesian_graphical_lasso",
    ["X", "tol", "alphas", "n_resampling", "mode", "top_n", "scoring", "assume_centered", "max_iter"],
    [("X", .code "X"), ("tol", .attr "tol"), ("alphas", .code "self.alphas"),
     ("n_resampling", .attr "n_resampling"), ("mode", .attr "mode"), ("scoring", .attr "scoring"),
     ("assume_centered", .attr "assume_centered"), ("max_iter", .attr "max_iter"), ("top_n", .attr "top_n")]⟩

/-- The call of `time_graphical_lasso` in `TimeGraphicalLasso._fit`,
regain/covariance/time_graphical_lasso_.py:435-454; the signature is regain/covariance/time_graphical_lasso_.py:86. -/
def callTimeGraphicalLasso : SolverCall := ⟨"time_graphical_lasso",
    ["emp_cov", "alpha", "rho", "beta", "max_iter", "n_samples", "verbose", "psi", "tol", "rtol", "return_history",
     "return_n_iter", "mode", "compute_objective", "stop_at", "stop_when", "update_rho_options", "init"],
    [("emp_cov", .code "emp_cov"), ("alpha", .attr "alpha"), ("rho", .attr "rho"), ("beta", .attr "beta"),
     ("mode", .attr "mode"), ("n_samples", .code "n_samples"), ("tol", .attr "tol"), ("rtol", .attr "rtol"),
     ("psi", .attr "psi"), ("max_iter", .attr "max_iter"), ("verbose", .attr "verbose"),
     ("return_n_iter", .code "True"), ("return_history", .attr "return_history"),
     ("update_rho_options", .attr "update_rho_options"), ("compute_objective", .attr "compute_objective"),
     ("stop_at", .attr "stop_at"), ("stop_when", .attr "stop_when"), ("init", .attr "init")]⟩

/-- The call of `latent_time_graphical_lasso` in `LatentTimeGraphicalLasso._fit`,
regain/covariance/latent_time_graphical_lasso_.py:497-517; the signature is
regain/covariance/latent_time_graphical_lasso_.py:66. -/
def callLatentTimeGraphicalLasso : SolverCall := ⟨"latent_time_graphical_lasso",
    ["emp_cov", "alpha", "tau", "rho", "beta", "eta", "max_iter", "n_samples", "verbose", "psi", "phi", "mode",
     "tol", "rtol", "return_history", "return_n_iter", "update_rho_options", "compute_objective", "init"],
    [("emp_cov", .code "emp_cov"), ("n_samples", .code "n_samples"), ("alpha", .attr "alpha"), ("tau", .attr "tau"),
     ("rho", .attr "rho"), ("beta", .attr "beta"), ("eta", .attr "eta"), ("mode", .attr "mode"),
     ("tol", .attr "tol"), ("rtol", .attr "rtol"), ("psi", .attr "psi"), ("phi", .attr "phi"),
     ("max_iter", .attr "max_iter"), ("verbose", .attr "verbose"), ("return_n_iter", .code "True"),
     ("return_history", .code "False"), ("update_rho_options", .attr "update_rho_options"),
     ("compute_objective", .attr "compute_objective"), ("init", .attr "init")]⟩

/-- The call of `latent_time_matrix_decomposition` in `LatentTimeMatrixDecomposition._fit`,
regain/covariance/latent_time_matrix_decomposition.py:450-468; the signature is
regain/covariance/latent_time_matrix_decomposition.py:57. -/
def callLatentTimeMatrixDecomposition : SolverCall := ⟨"latent_time_matrix_decomposition",
    ["emp_cov", "alpha", "tau", "rho", "beta", "eta", "max_iter", "verbose", "psi", "phi", "mode", "tol", "rtol",
     "assume_centered", "return_history", "return_n_iter", "update_rho_options", "compute_objective"],
    [("emp_cov", .code "X"), ("alpha", .attr "alpha"), ("tau", .attr "tau"), ("rho", .attr "rho"),
     ("beta", .attr "beta"), ("eta", .attr "eta"), ("mode", .attr "mode"), ("tol", .attr "tol"),
     ("rtol", .attr "rtol"), ("psi", .attr "psi"), ("phi", .attr "phi"), ("max_iter", .attr "max_iter"),
     ("verbose", .attr "verbose"), ("return_n_iter", .code "True"), ("return_history", .code "False"),
     ("update_rho_options", .attr "update_rho_options"), ("compute_objective", .attr "compute_objective")]⟩

/-- The call of `kernel_time_graphical_lasso` in `KernelTimeGraphicalLasso._fit`,
regain/covariance/kernel_time_graphical_lasso_.py:504-520; the signature is
regain/covariance/kernel_time_graphical_lasso_.py:77. -/
def callKernelTimeGraphicalLasso : SolverCall := ⟨"kernel_time_graphical_lasso",
    ["emp_cov", "alpha", "rho", "kernel", "max_iter", "n_samples", "verbose", "psi", "tol", "rtol",
     "return_history", "return_n_iter", "mode", "update_rho_options", "compute_objective", "stop_at", "stop_when",
     "init"],
    [("emp_cov", .code "emp_cov"), ("alpha", .attr "alpha"), ("rho", .attr "rho"), ("kernel", .code "kernel"),
     ("n_samples", .code "n_samples"), ("tol", .attr "tol"), ("rtol", .attr "rtol"), ("psi", .attr "psi"),
     ("max_iter", .attr "max_iter"), ("verbose", .attr "verbose"), ("return_n_iter", .code "True"),
     ("return_history", .attr "return_history"), ("update_rho_options", .attr "update_rho_options"),
     ("compute_objective", .attr "compute_objective"), ("init", .code "self.precision_")]⟩

/-- The call of `kernel_time_graphical_lasso` in `KernelTimeGraphicalLasso._fit`,
regain/covariance/kernel_time_graphical_lasso_.py:556-572; the signature is
regain/covariance/kernel_time_graphical_lasso_.py:77. -/
def callKernelTimeGraphicalLasso2 : SolverCall := ⟨"kernel_time_graphical_lasso",
    ["emp_cov", "alpha", "rho", "kernel", "max_iter", "n_samples", "verbose", "psi", "tol", "rtol",
     "return_history", "return_n_iter", "mode", "update_rho_options", "compute_objective", "stop_at", "stop_when",
     "init"],
    [("emp_cov", .code "emp_cov"), ("alpha", .attr "alpha"), ("rho", .attr "rho"), ("kernel", .code "kernel"),
     ("n_samples", .code "n_samples"), ("tol", .attr "tol"), ("rtol", .attr "rtol"), ("psi", .attr "psi"),
     ("max_iter", .attr "max_iter"), ("verbose", .attr "verbose"), ("return_n_iter", .code "True"),
     ("return_history", .attr "return_history"), ("update_rho_options", .attr "update_rho_options"),
     ("compute_objective", .attr "compute_objective"), ("init", .attr "init")]⟩

/-- The call of `kernel_time_graphical_lasso` in `SimilarityTimeGraphicalLasso._fit`,
regain/covariance/kernel_time_graphical_lasso_.py:742-758; the signature is
regain/covariance/kernel_time_graphical_lasso_.py:77. -/
def callSimilarityTimeGraphicalLasso : SolverCall := ⟨"kernel_time_graphical_lasso",
    ["emp_cov", "alpha", "rho", "kernel", "max_iter", "n_samples", "verbose", "psi", "tol", "rtol",
     "return_history", "return_n_iter", "mode", "update_rho_options", "compute_objective", "stop_at", "stop_when",
     "init"],
    [("emp_cov", .code "emp_cov"), ("alpha", .attr "alpha"), ("rho", .attr "rho"), ("kernel", .code "kernel"),
     ("n_samples", .code "n_samples"), ("tol", .attr "tol"), ("rtol", .attr "rtol"), ("psi", .attr "psi"),
     ("max_iter", .attr "max_iter"), ("verbose", .attr "verbose"), ("return_n_iter", .code "True"),
     ("return_history", .attr "return_history"), ("update_rho_options", .attr "update_rho_options"),
     ("compute_objective", .attr "compute_objective"), ("init", .code "self.precision_")]⟩

/-- The call of `kernel_time_graphical_lasso` in `SimilarityTimeGraphicalLasso._fit`,
regain/covariance/kernel_time_graphical_lasso_.py:792-808; the signature is
regain/covariance/kernel_time_graphical_lasso_.py:77. -/
def callSimilarityTimeGraphicalLasso2 : SolverCall := ⟨"kernel_time_graphical_lasso",
    ["emp_cov", "alpha", "rho", "kernel", "max_iter", "n_samples", "verbose", "psi", "tol", "rtol",
     "return_history", "return_n_iter", "mode", "update_rho_options", "compute_objective", "stop_at", "stop_when",
     "init"],
    [("emp_cov", .code "emp_cov"), ("alpha", .attr "alpha"), ("rho", .attr "rho"), ("kernel", .code "kernel"),
     ("n_samples", .code "n_samples"), ("tol", .attr "tol"), ("rtol", .attr "rtol"), ("psi", .attr "psi"),
     ("max_iter", .attr "max_iter"), ("verbose", .attr "verbose"), ("return_n_iter", .code "True"),
     ("return_history", .attr "return_history"), ("update_rho_options", .attr "update_rho_options"),
     ("compute_objective", .attr "compute_objective"), ("init", .attr "init")]⟩

/-- The call of `kernel_latent_time_graphical_lasso` in `KernelLatentTimeGraphicalLasso._fit`,
regain/covariance/kernel_latent_time_graphical_lasso_.py:565-583; the signature is
regain/covariance/kernel_latent_time_graphical_lasso_.py:75. -/
def callKernelLatentTimeGraphicalLasso : SolverCall := ⟨"kernel_latent_time_graphical_lasso",
    ["emp_cov", "alpha", "tau", "rho", "kernel_psi", "kernel_phi", "max_iter", "verbose", "psi", "phi", "mode",
     "tol", "rtol", "assume_centered", "n_samples", "return_history", "return_n_iter", "update_rho_options",
     "compute_objective", "init"],
    [("emp_cov", .code "emp_cov"), ("alpha", .attr "alpha"), ("tau", .attr "tau"), ("rho", .attr "rho"),
     ("kernel_phi", .code "kernel_phi"), ("kernel_psi", .code "kernel_psi"), ("n_samples", .code "n_samples"),
     ("tol", .attr "tol"), ("rtol", .attr "rtol"), ("psi", .attr "psi"), ("max_iter", .attr "max_iter"),
     ("verbose", .attr "verbose"), ("return_n_iter", .code "True"), ("return_history", .attr "return_history"),
     ("update_rho_options", .attr "update_rho_options"), ("compute_objective", .attr "compute_objective"),
     ("init", .attr "init")]⟩

/-- The call of `kernel_latent_time_graphical_lasso` in `SimilarityLatentTimeGraphicalLasso._fit`,
regain/covariance/kernel_latent_time_graphical_lasso_.py:782-800; the signature is
regain/covariance/kernel_latent_time_graphical_lasso_.py:75. -/
def callSimilarityLatentTimeGraphicalLasso : SolverCall := ⟨"kernel_latent_time_graphical_lasso",
    ["emp_cov", "alpha", "tau", "rho", "kernel_psi", "kernel_phi", "max_iter", "verbose", "psi", "phi", "mode",
     "tol", "rtol", "assume_centered", "n_samples", "return_history", "return_n_iter", "update_rho_options",
     "compute_objective", "init"],
    [("emp_cov", .code "emp_cov"), ("alpha", .attr "alpha"), ("tau", .attr "tau"), ("rho", .attr "rho"),
     ("kernel_phi", .attr "kernel_phi"), ("kernel_psi", .code "kernel_psi"), ("n_samples", .code "n_samples"),
     ("tol", .attr "tol"), ("rtol", .attr "rtol"), ("psi", .attr "psi"), ("max_iter", .attr "max_iter"),
     ("verbose", .attr "verbose"), ("return_n_iter", .code "True"), ("return_history", .attr "return_history"),
     ("update_rho_options", .attr "update_rho_options"), ("compute_objective", .attr "compute_objective"),
     ("init", .code "self.precision_")]⟩

/-- The call of `kernel_latent_time_graphical_lasso` in `SimilarityLatentTimeGraphicalLasso._fit`,
regain/covariance/kernel_latent_time_graphical_lasso_.py:865-883; the signature is
regain/covariance/kernel_latent_time_graphical_lasso_.py:75. -/
def callSimilarityLatentTimeGraphicalLasso2 : SolverCall := ⟨"kernel_latent_time_graphical_lasso",
    ["emp_cov", "alpha", "tau", "rho", "kernel_psi", "kernel_phi", "max_iter", "verbose", "psi", "phi", "mode",
     "tol", "rtol", "assume_centered", "n_samples", "return_history", "return_n_iter", "update_rho_options",
     "compute_objective", "init"],
    [("emp_cov", .code "emp_cov"), ("alpha", .attr "alpha"), ("tau", .attr "tau"), ("rho", .attr "rho"),
     ("kernel_phi", .code "kernel_phi"), ("kernel_psi", .code "kernel_psi"), ("n_samples", .code "n_samples"),
     ("tol", .attr "tol"), ("rtol", .attr "rtol"), ("psi", .attr "psi"), ("max_iter", .attr "max_iter"),
     ("verbose", .attr "verbose"), ("return_n_iter", .code "True"), ("return_history", .attr "return_history"),
     ("update_rho_options", .attr "update_rho_options"), ("compute_objective", .attr "compute_objective"),
     ("init", .attr "init")]⟩

/-- The call of `tgl_forward_backward` in `TimeGraphicalLassoForwardBackward._fit`,
regain/forward_backward/time_graphical_lasso_.py:528-553; the signature is
regain/forward_backward/time_graphical_lasso_.py:139. -/
def callTimeGraphicalLassoForwardBackward : SolverCall := ⟨"tgl_forward_backward",
    ["emp_cov", "alpha", "beta", "max_iter", "n_samples", "verbose", "tol", "delta", "gamma", "lamda", "eps",
     "debug", "return_history", "return_n_iter", "choose", "lamda_criterion", "time_norm", "compute_objective",
     "return_n_linesearch", "vareps", "stop_at", "stop_when", "laplacian_penalty", "init"],
    [("emp_cov", .code "emp_cov"), ("n_samples", .code "n_samples"), ("alpha", .code "self.alpha"),
     ("beta", .attr "beta"), ("tol", .attr "tol"), ("max_iter", .attr "max_iter"), ("verbose", .attr "verbose"),
     ("return_n_iter", .code "True"), ("return_history", .attr "return_history"),
     ("compute_objective", .attr "compute_objective"), ("time_norm", .attr "time_norm"),
     ("lamda_criterion", .attr "lamda_criterion"), ("gamma", .attr "gamma"), ("delta", .attr "delta"),
     ("eps", .attr "eps"), ("choose", .attr "choose"), ("lamda", .attr "lamda"), ("debug", .attr "debug"),
     ("return_n_linesearch", .attr "return_n_linesearch"), ("vareps", .attr "vareps"), ("stop_at", .attr "stop_at"),
     ("stop_when", .attr "stop_when"), ("init", .attr "init"), ("laplacian_penalty", .attr "laplacian_penalty")]⟩

/-- The call of `fit` in `WishartProcess.fit`, regain/bayesian/wishart_process_.py:315-328; the signature is
regain/bayesian/wishart_process_.py:54. -/
def callWishartProcess : SolverCall := ⟨"fit",
    ["theta", "var_prop", "prior_theta_kernel", "var_Lprop", "prior_ell", "kern", "p", "nu", "n_iter", "verbose",
     "likelihood", "L"],
    [("theta", .attr "theta"), ("var_prop", .attr "var_prop"), ("prior_theta_kernel", .attr "prior_theta_kernel"),
     ("var_Lprop", .attr "var_Lprop"), ("prior_ell", .attr "prior_ell"),
     ("kern", .code "partial(kern, self.classes_[:, None])"), ("nu", .code "self.nu_"), ("p", .code "n_dimensions"),
     ("n_iter", .attr "n_iter"), ("verbose", .attr "verbose"), ("likelihood", .code "self.likelihood"),
     ("L", .code "L")]⟩

/-- The call of `_fit` in `IsingGraphicalModel.fit`, regain/generalized_linear_model/glm_ising.py:273-280; the
signature is regain/generalized_linear_model/glm_ising.py:90. -/
def callIsingGraphicalModel : SolverCall := ⟨"_fit",
    ["X", "alpha", "gamma", "tol", "max_iter", "verbose", "return_history", "compute_objective", "warm_start",
     "return_n_iter", "adjust_gamma", "A", "T", "rho", "update_gamma", "line_search"],
    [("X", .code "X"), ("alpha", .attr "alpha"), ("tol", .attr "tol"), ("gamma", .attr "gamma"),
     ("max_iter", .attr "max_iter"), ("verbose", .attr "verbose")]⟩

/-- The call of `_fit_time_ising_model` in `TemporalIsingModel.fit`,
regain/generalized_linear_model/glm_time_ising.py:469-483; the signature is
regain/generalized_linear_model/glm_time_ising.py:72. -/
def callTemporalIsingModel : SolverCall := ⟨"_fit_time_ising_model",
    ["X", "alpha", "rho", "kernel", "max_iter", "verbose", "psi", "gamma", "tol", "rtol", "return_history",
     "return_n_iter", "mode", "update_rho_options", "compute_objective", "stop_at", "stop_when", "init", "n_cores"],
    [("X", .code "X"), ("alpha", .attr "alpha"), ("rho", .attr "rho"), ("kernel", .code "kernel"),
     ("tol", .attr "tol"), ("rtol", .attr "rtol"), ("psi", .attr "psi"), ("max_iter", .attr "max_iter"),
     ("verbose", .attr "verbose"), ("return_n_iter", .code "True"), ("return_history", .attr "return_history"),
     ("compute_objective", .attr "compute_objective"), ("n_cores", .attr "n_cores")]⟩

/-- The call of `_fit_time_ising_model` in `TemporalIsingModel.fit`,
regain/generalized_linear_model/glm_time_ising.py:513-526; the signature is
regain/generalized_linear_model/glm_time_ising.py:72. -/
def callTemporalIsingModel2 : SolverCall := ⟨"_fit_time_ising_model",
    ["X", "alpha", "rho", "kernel", "max_iter", "verbose", "psi", "gamma", "tol", "rtol", "return_history",
     "return_n_iter", "mode", "update_rho_options", "compute_objective", "stop_at", "stop_when", "init", "n_cores"],
    [("X", .code "X"), ("alpha", .attr "alpha"), ("rho", .attr "rho"), ("kernel", .code "kernel"),
     ("tol", .attr "tol"), ("rtol", .attr "rtol"), ("psi", .attr "psi"), ("max_iter", .attr "max_iter"),
     ("verbose", .attr "verbose"), ("return_n_iter", .code "True"), ("return_history", .attr "return_history"),
     ("compute_objective", .attr "compute_objective")]⟩

/-- The call of `_fit_time_ising_model` in `SimilarityTemporalIsingModel.fit`,
regain/generalized_linear_model/glm_time_ising.py:710-723; the signature is
regain/generalized_linear_model/glm_time_ising.py:72. -/
def callSimilarityTemporalIsingModel : SolverCall := ⟨"_fit_time_ising_model",
    ["X", "alpha", "rho", "kernel", "max_iter", "verbose", "psi", "gamma", "tol", "rtol", "return_history",
     "return_n_iter", "mode", "update_rho_options", "compute_objective", "stop_at", "stop_when", "init", "n_cores"],
    [("X", .code "X"), ("alpha", .attr "alpha"), ("rho", .attr "rho"), ("kernel", .code "kernel"),
     ("tol", .attr "tol"), ("rtol", .attr "rtol"), ("psi", .attr "psi"), ("max_iter", .attr "max_iter"),
     ("verbose", .attr "verbose"), ("return_n_iter", .code "True"), ("return_history", .attr "return_history"),
     ("compute_objective", .attr "compute_objective")]⟩

/-- The call of `_fit_time_ising_model` in `SimilarityTemporalIsingModel.fit`,
regain/generalized_linear_model/glm_time_ising.py:761-774; the signature is
regain/generalized_linear_model/glm_time_ising.py:72. -/
def callSimilarityTemporalIsingModel2 : SolverCall := ⟨"_fit_time_ising_model",
    ["X", "alpha", "rho", "kernel", "max_iter", "verbose", "psi", "gamma", "tol", "rtol", "return_history",
     "return_n_iter", "mode", "update_rho_options", "compute_objective", "stop_at", "stop_when", "init", "n_cores"],
    [("X", .code "X"), ("alpha", .attr "alpha"), ("rho", .attr "rho"), ("kernel", .code "kernel"),
     ("tol", .attr "tol"), ("rtol", .attr "rtol"), ("psi", .attr "psi"), ("max_iter", .attr "max_iter"),
     ("verbose", .attr "verbose"), ("return_n_iter", .code "True"), ("return_history", .attr "return_history"),
     ("compute_objective", .attr "compute_objective")]⟩

/-- The call of `_fit_time_poisson_model` in `TemporalPoissonModel.fit`,
regain/generalized_linear_model/glm_time_poisson.py:463-478; the signature is
regain/generalized_linear_model/glm_time_poisson.py:70. -/
def callTemporalPoissonModel : SolverCall := ⟨"_fit_time_poisson_model",
    ["X", "alpha", "rho", "kernel", "max_iter", "verbose", "psi", "gamma", "tol", "rtol", "return_history",
     "return_n_iter", "compute_objective", "stop_at", "stop_when", "n_cores", "update_rho_options"],
    [("X", .code "X"), ("gamma", .attr "gamma"), ("alpha", .attr "alpha"), ("rho", .attr "rho"),
     ("kernel", .code "kernel"), ("tol", .attr "tol"), ("rtol", .attr "rtol"), ("psi", .attr "psi"),
     ("max_iter", .attr "max_iter"), ("verbose", .attr "verbose"), ("return_n_iter", .code "True"),
     ("return_history", .attr "return_history"), ("compute_objective", .attr "compute_objective"),
     ("n_cores", .attr "n_cores")]⟩

/-- The call of `_fit_time_poisson_model` in `TemporalPoissonModel.fit`,
regain/generalized_linear_model/glm_time_poisson.py:508-522; the signature is
regain/generalized_linear_model/glm_time_poisson.py:70. -/
def callTemporalPoissonModel2 : SolverCall := ⟨"_fit_time_poisson_model",
    ["X", "alpha", "rho", "kernel", "max_iter", "verbose", "psi", "gamma", "tol", "rtol", "return_history",
     "return_n_iter", "compute_objective", "stop_at", "stop_when", "n_cores", "update_rho_options"],
    [("X", .code "X"), ("gamma", .attr "gamma"), ("alpha", .attr "alpha"), ("rho", .attr "rho"),
     ("kernel", .code "kernel"), ("tol", .attr "tol"), ("rtol", .attr "rtol"), ("psi", .attr "psi"),
     ("max_iter", .attr "max_iter"), ("verbose", .attr "verbose"), ("return_n_iter", .code "True"),
     ("return_history", .attr "return_history"), ("compute_objective", .attr "compute_objective")]⟩

/-- The call of `_fit_time_poisson_model` in `SimilarityTemporalPoissonModel.fit`,
regain/generalized_linear_model/glm_time_poisson.py:723-738; the signature is
regain/generalized_linear_model/glm_time_poisson.py:70. -/
def callSimilarityTemporalPoissonModel : SolverCall := ⟨"_fit_time_poisson_model",
    ["X", "alpha", "rho", "kernel", "max_iter", "verbose", "psi", "gamma", "tol", "rtol", "return_history",
     "return_n_iter", "compute_objective", "stop_at", "stop_when", "n_cores", "update_rho_options"],
    [("X", .code "X"), ("alpha", .attr "alpha"), ("rho", .attr "rho"), ("kernel", .code "kernel"),
     ("tol", .attr "tol"), ("rtol", .attr "rtol"), ("psi", .attr "psi"), ("max_iter", .attr "max_iter"),
     ("verbose", .attr "verbose"), ("return_n_iter", .code "True"), ("return_history", .attr "return_history"),
     ("update_rho_options", .attr "update_rho_options"), ("compute_objective", .attr "compute_objective"),
     ("init", .code "self.precision_")]⟩

/-- The call of `_fit_time_poisson_model` in `SimilarityTemporalPoissonModel.fit`,
regain/generalized_linear_model/glm_time_poisson.py:760-775; the signature is
regain/generalized_linear_model/glm_time_poisson.py:70. -/
def callSimilarityTemporalPoissonModel2 : SolverCall := ⟨"_fit_time_poisson_model",
    ["X", "alpha", "rho", "kernel", "max_iter", "verbose", "psi", "gamma", "tol", "rtol", "return_history",
     "return_n_iter", "compute_objective", "stop_at", "stop_when", "n_cores", "update_rho_options"],
    [("X", .code "X"), ("alpha", .attr "alpha"), ("rho", .attr "rho"), ("kernel", .code "kernel"),
     ("tol", .attr "tol"), ("rtol", .attr "rtol"), ("psi", .attr "psi"), ("max_iter", .attr "max_iter"),
     ("verbose", .attr "verbose"), ("return_n_iter", .code "True"), ("return_history", .attr "return_history"),
     ("update_rho_options", .attr "update_rho_options"), ("compute_objective", .attr "compute_objective"),
     ("init", .code "self.precision_")]⟩

/-- The call of `group_lasso_overlap` in `GroupLassoOverlap.fit`, regain/linear_model/group_lasso_overlap_.py:319-329;
the signature is regain/linear_model/group_lasso_overlap_.py:91. -/
def callGroupLassoOverlap : SolverCall := ⟨"group_lasso_overlap",
    ["A", "b", "lamda", "groups", "rho", "max_iter", "tol", "verbose", "rtol"],
    [("A", .code "X"), ("b", .code "y[:, k]"), ("lamda", .attr "alpha"), ("groups", .attr "groups"),
     ("rho", .attr "rho"), ("max_iter", .attr "max_iter"), ("tol", .attr "tol"), ("verbose", .attr "verbose"),
     ("rtol", .attr "rtol")]⟩

/-- The call of `group_lasso_overlap_paspal` in `GroupLassoOverlap.fit`,
regain/linear_model/group_lasso_overlap_.py:331-342; the signature is regain/wrapper/__init__.py:108. -/
def callGroupLassoOverlap2 : SolverCall := ⟨"group_lasso_overlap_paspal",
    ["X", "y", "groups", "lamda", "verbose"],
    [("X", .code "X"), ("y", .code "y[:, k]"), ("lamda", .attr "alpha"), ("groups", .attr "groups"),
     ("rho", .attr "rho"), ("max_iter", .attr "max_iter"), ("tol", .attr "tol"), ("verbose", .attr "verbose"),
     ("rtol", .attr "rtol"), ("matlab_engine", .attr "matlab_engine")]⟩

/-- The call of `glopridu_algorithm` in `GroupLassoOverlap.fit`, regain/linear_model/group_lasso_overlap_.py:344-353;
the signature is regain/wrapper/paspal/glopridu.py:152. -/
def callGroupLassoOverlap3 : SolverCall := ⟨"glopridu_algorithm",
    ["X", "Y", "blocks", "tau", "weights", "smooth_par", "beta0", "lamda0", "sigma0", "max_iter_ext",
     "max_iter_int", "tol_ext", "tol_int", "verbose"],
    [("X", .code "X"), ("Y", .code "y[:, k]"), ("tau", .attr "alpha"), ("blocks", .attr "groups"),
     ("max_iter_ext", .attr "max_iter"), ("tol_ext", .attr "tol"), ("verbose", .attr "verbose"),
     ("tol_int", .attr "rtol")]⟩

/-- The attributes of `self` read by the methods of `GraphicalLasso`, inherited ones of regain included:
regain/covariance/graphical_lasso_.py:294-318, 320-338. -/
def readsGraphicalLasso : List String :=
    ["alpha", "tol", "rtol", "max_iter", "over_relax", "rho", "verbose", "update_rho_options", "compute_objective",
     "init", "assume_centered"]

/-- The attributes of `self` assigned by the methods of `GraphicalLasso`, inherited ones of regain included:
regain/covariance/graphical_lasso_.py:294-318, 320-338. -/
def storesGraphicalLasso : List String :=
    ["precision_", "covariance_", "n_iter_", "location_"]

/-- The attributes of `self` read by the methods of `LatentGraphicalLasso`, inherited ones of regain included:
regain/covariance/latent_graphical_lasso_.py:292-321, 280-290; regain/covariance/graphical_lasso_.py:320-338. -/
def readsLatentGraphicalLasso : List String :=
    ["alpha", "tau", "rho", "tol", "rtol", "max_iter", "verbose", "update_rho_options", "compute_objective", "init",
     "assume_centered", "precision_", "latent_"]

/-- The attributes of `self` assigned by the methods of `LatentGraphicalLasso`, inherited ones of regain included:
regain/covariance/latent_graphical_lasso_.py:292-321, 280-290; regain/covariance/graphical_lasso_.py:320-338. -/
def storesLatentGraphicalLasso : List String :=
    ["precision_", "latent_", "covariance_", "n_iter_", "location_"]

/-- The attributes of `self` read by the methods of `MissingGraphicalLasso`, inherited ones of regain included:
regain/covariance/graphical_lasso_.py:294-318; regain/covariance/missing_graphical_lasso_.py:288-322. -/
def readsMissingGraphicalLasso : List String :=
    ["alpha", "tol", "rtol", "max_iter", "over_relax", "rho", "verbose", "update_rho_options", "compute_objective",
     "init"]

/-- The attributes of `self` assigned by the methods of `MissingGraphicalLasso`, inherited ones of regain included:
regain/covariance/graphical_lasso_.py:294-318; regain/covariance/missing_graphical_lasso_.py:288-322. -/
def storesMissingGraphicalLasso : List String :=
    ["precision_", "covariance_", "n_iter_", "complete_data_matrix_"]

/-- The attributes of `self` read by the methods of `BayesianGraphicalLasso`, inherited ones of regain included:
regain/covariance/graphical_lasso_.py:294-318; regain/bayesian/gwishart_inference.py:482-509. -/
def readsBayesianGraphicalLasso : List String :=
    ["alpha", "tol", "rtol", "max_iter", "over_relax", "rho", "verbose", "update_rho_options", "compute_objective",
     "init", "alphas", "n_resampling", "mode", "scoring", "assume_centered", "top_n"]

/-- The attributes of `self` assigned by the methods of `BayesianGraphicalLasso`, inherited ones of regain included:
regain/covariance/graphical_lasso_.py:294-318; regain/bayesian/gwishart_inference.py:482-509. -/
def storesBayesianGraphicalLasso : List String :=
    ["precision_", "covariance_", "n_iter_", "alphas"]

/-- The attributes of `self` read by the methods of `TimeGraphicalLasso`, inherited ones of regain included:
regain/covariance/time_graphical_lasso_.py:425-459, 461-500, 414-423, 502-550, 552-584. -/
def readsTimeGraphicalLasso : List String :=
    ["return_history", "alpha", "rho", "beta", "mode", "tol", "rtol", "psi", "max_iter", "verbose",
     "update_rho_options", "compute_objective", "stop_at", "stop_when", "init", "assume_centered", "classes_",
     "get_precision", "location_", "covariance_"]

/-- The attributes of `self` assigned by the methods of `TimeGraphicalLasso`, inherited ones of regain included:
regain/covariance/time_graphical_lasso_.py:425-459, 461-500, 414-423, 502-550, 552-584. -/
def storesTimeGraphicalLasso : List String :=
    ["precision_", "covariance_", "history_", "n_iter_", "classes_", "location_"]

/-- The attributes of `self` read by the methods of `LatentTimeGraphicalLasso`, inherited ones of regain included:
regain/covariance/latent_time_graphical_lasso_.py:483-518, 471-481;
regain/covariance/time_graphical_lasso_.py:461-500, 502-550, 552-584. -/
def readsLatentTimeGraphicalLasso : List String :=
    ["alpha", "tau", "rho", "beta", "eta", "mode", "tol", "rtol", "psi", "phi", "max_iter", "verbose",
     "update_rho_options", "compute_objective", "init", "assume_centered", "classes_", "precision_", "latent_",
     "location_", "covariance_"]

/-- The attributes of `self` assigned by the methods of `LatentTimeGraphicalLasso`, inherited ones of regain included:
regain/covariance/latent_time_graphical_lasso_.py:483-518, 471-481;
regain/covariance/time_graphical_lasso_.py:461-500, 502-550, 552-584. -/
def storesLatentTimeGraphicalLasso : List String :=
    ["precision_", "latent_", "covariance_", "n_iter_", "classes_", "location_"]

/-- The attributes of `self` read by the methods of `LatentTimeMatrixDecomposition`, inherited ones of regain
included: regain/covariance/latent_time_matrix_decomposition.py:440-470, 472-487;
regain/covariance/latent_time_graphical_lasso_.py:471-481; regain/covariance/time_graphical_lasso_.py:502-550,
552-584. -/
def readsLatentTimeMatrixDecomposition : List String :=
    ["alpha", "tau", "rho", "beta", "eta", "mode", "tol", "rtol", "psi", "phi", "max_iter", "verbose",
     "update_rho_options", "compute_objective", "time_on_axis", "precision_", "latent_", "classes_", "location_",
     "covariance_"]

/-- The attributes of `self` assigned by the methods of `LatentTimeMatrixDecomposition`, inherited ones of regain
included: regain/covariance/latent_time_matrix_decomposition.py:440-470, 472-487;
regain/covariance/latent_time_graphical_lasso_.py:471-481; regain/covariance/time_graphical_lasso_.py:502-550,
552-584. -/
def storesLatentTimeMatrixDecomposition : List String :=
    ["reconstruction_err_", "precision_", "latent_", "n_iter_"]

/-- The attributes of `self` read by the methods of `KernelTimeGraphicalLasso`, inherited ones of regain included:
regain/covariance/kernel_time_graphical_lasso_.py:467-578; regain/covariance/time_graphical_lasso_.py:461-500,
414-423, 502-550, 552-584. -/
def readsKernelTimeGraphicalLasso : List String :=
    ["ker_param", "return_history", "max_iter_ext", "kernel", "init", "alpha", "rho", "tol", "rtol", "psi",
     "max_iter", "verbose", "update_rho_options", "compute_objective", "precision_", "classes_", "assume_centered",
     "get_precision", "location_", "covariance_"]

/-- The attributes of `self` assigned by the methods of `KernelTimeGraphicalLasso`, inherited ones of regain included:
regain/covariance/kernel_time_graphical_lasso_.py:467-578; regain/covariance/time_graphical_lasso_.py:461-500,
414-423, 502-550, 552-584. -/
def storesKernelTimeGraphicalLasso : List String :=
    ["precision_", "covariance_", "history_", "n_iter_", "classes_", "location_"]

/-- The attributes of `self` read by the methods of `SimilarityTimeGraphicalLasso`, inherited ones of regain included:
regain/covariance/kernel_time_graphical_lasso_.py:688-814, 816-820;
regain/covariance/time_graphical_lasso_.py:461-500, 414-423, 502-550, 552-584. -/
def readsSimilarityTimeGraphicalLasso : List String :=
    ["kernel", "return_history", "psi", "n_clusters", "max_iter_ext", "init", "precision_", "classes_", "alpha",
     "rho", "tol", "rtol", "max_iter", "verbose", "update_rho_options", "compute_objective", "eps", "beta",
     "assume_centered", "get_precision", "location_", "covariance_", "similarity_matrix_"]

/-- The attributes of `self` assigned by the methods of `SimilarityTimeGraphicalLasso`, inherited ones of regain
included: regain/covariance/kernel_time_graphical_lasso_.py:688-814, 816-820;
regain/covariance/time_graphical_lasso_.py:461-500, 414-423, 502-550, 552-584. -/
def storesSimilarityTimeGraphicalLasso : List String :=
    ["precision_", "similarity_matrix_", "n_clusters", "covariance_", "history_", "n_iter_", "classes_", "location_"]

/-- The attributes of `self` read by the methods of `KernelLatentTimeGraphicalLasso`, inherited ones of regain
included: regain/covariance/kernel_latent_time_graphical_lasso_.py:521-595, 509-519;
regain/covariance/time_graphical_lasso_.py:461-500, 502-550, 552-584. -/
def readsKernelLatentTimeGraphicalLasso : List String :=
    ["return_history", "kernel_phi", "kernel_psi", "alpha", "tau", "rho", "tol", "rtol", "psi", "max_iter",
     "verbose", "update_rho_options", "compute_objective", "init", "classes_", "ker_phi_param", "ker_psi_param",
     "assume_centered", "precision_", "latent_", "location_", "covariance_"]

/-- The attributes of `self` assigned by the methods of `KernelLatentTimeGraphicalLasso`, inherited ones of regain
included: regain/covariance/kernel_latent_time_graphical_lasso_.py:521-595, 509-519;
regain/covariance/time_graphical_lasso_.py:461-500, 502-550, 552-584. -/
def storesKernelLatentTimeGraphicalLasso : List String :=
    ["precision_", "latent_", "covariance_", "history_", "n_iter_", "classes_", "location_"]

/-- The attributes of `self` read by the methods of `SimilarityLatentTimeGraphicalLasso`, inherited ones of regain
included: regain/covariance/kernel_latent_time_graphical_lasso_.py:734-895, 722-732, 897-901;
regain/covariance/time_graphical_lasso_.py:461-500, 502-550, 552-584. -/
def readsSimilarityLatentTimeGraphicalLasso : List String :=
    ["kernel_psi", "return_history", "precision_", "psi", "n_clusters", "max_iter_ext", "kernel_phi", "eta", "init",
     "alpha", "tau", "rho", "tol", "rtol", "max_iter", "verbose", "update_rho_options", "compute_objective",
     "get_precision", "eps", "classes_", "beta", "ker_phi_param", "ker_psi_param", "assume_centered", "latent_",
     "location_", "covariance_", "similarity_matrix_"]

/-- The attributes of `self` assigned by the methods of `SimilarityLatentTimeGraphicalLasso`, inherited ones of regain
included: regain/covariance/kernel_latent_time_graphical_lasso_.py:734-895, 722-732, 897-901;
regain/covariance/time_graphical_lasso_.py:461-500, 502-550, 552-584. -/
def storesSimilarityLatentTimeGraphicalLasso : List String :=
    ["precision_", "latent_", "similarity_matrix_", "n_clusters", "covariance_", "history_", "n_iter_", "classes_",
     "location_"]

/-- The attributes of `self` read by the methods of `TimeGraphicalLassoForwardBackward`, inherited ones of regain
included: regain/forward_backward/time_graphical_lasso_.py:516-576;
regain/covariance/time_graphical_lasso_.py:461-500, 414-423, 502-550, 552-584. -/
def readsTimeGraphicalLassoForwardBackward : List String :=
    ["return_history", "alpha", "return_n_linesearch", "beta", "tol", "max_iter", "verbose", "compute_objective",
     "time_norm", "lamda_criterion", "gamma", "delta", "eps", "choose", "lamda", "debug", "vareps", "stop_at",
     "stop_when", "init", "laplacian_penalty", "assume_centered", "classes_", "get_precision", "location_",
     "covariance_"]

/-- The attributes of `self` assigned by the methods of `TimeGraphicalLassoForwardBackward`, inherited ones of regain
included: regain/forward_backward/time_graphical_lasso_.py:516-576;
regain/covariance/time_graphical_lasso_.py:461-500, 414-423, 502-550, 552-584. -/
def storesTimeGraphicalLassoForwardBackward : List String :=
    ["alpha", "precision_", "covariance_", "history_", "n_iter_", "n_linesearch_", "classes_", "location_"]

/-- The attributes of `self` read by the methods of `WishartProcess`, inherited ones of regain included:
regain/covariance/time_graphical_lasso_.py:425-459, 414-423, 552-584; regain/bayesian/wishart_process_.py:264-356,
358-394. -/
def readsWishartProcess : List String :=
    ["return_history", "alpha", "rho", "beta", "mode", "tol", "rtol", "psi", "max_iter", "verbose",
     "update_rho_options", "compute_objective", "stop_at", "stop_when", "init", "assume_centered", "learn_ell",
     "classes_", "loglikes_after_burnin", "lps_after_burnin", "samples_u_after_burnin", "u_map", "Lmap", "D_map",
     "kernel", "theta", "var_prop", "prior_theta_kernel", "var_Lprop", "prior_ell", "nu_", "n_iter", "likelihood",
     "burn_in", "Ls_after_burnin", "location_", "covariance_", "get_precision"]

/-- The attributes of `self` assigned by the methods of `WishartProcess`, inherited ones of regain included:
regain/covariance/time_graphical_lasso_.py:425-459, 414-423, 552-584; regain/bayesian/wishart_process_.py:264-356,
358-394. -/
def storesWishartProcess : List String :=
    ["precision_", "covariance_", "history_", "n_iter_", "likelihood", "nu_", "lps_after_burnin",
     "samples_u_after_burnin", "loglikes_after_burnin", "lmap", "u_map", "D_map", "classes_", "location_",
     "Ls_after_burnin", "Lmap"]

/-- The attributes of `self` read by the methods of `DiscriminantAnalysis`, inherited ones of regain included:
regain/discriminant_analysis.py:93-142, 145-158, 160-168, 170-196. -/
def readsDiscriminantAnalysis : List String :=
    ["ensure_posdef", "classes_", "priors", "estimator", "precision_", "get_observed_precision", "priors_",
     "means_", "covariance_", "predict"]

/-- The attributes of `self` assigned by the methods of `DiscriminantAnalysis`, inherited ones of regain included:
regain/discriminant_analysis.py:93-142, 145-158, 160-168, 170-196. -/
def storesDiscriminantAnalysis : List String :=
    ["precision_", "means_", "classes_", "priors_", "covariance_", "rotations_", "scalings_"]

/-- The attributes of `self` read by the methods of `PrecomputedDiscriminantAnalysis`, inherited ones of regain
included: regain/discriminant_analysis.py:203-205. -/
def readsPrecomputedDiscriminantAnalysis : List String :=
    []

/-- The attributes of `self` assigned by the methods of `PrecomputedDiscriminantAnalysis`, inherited ones of regain
included: regain/discriminant_analysis.py:203-205. -/
def storesPrecomputedDiscriminantAnalysis : List String :=
    []

/-- The attributes of `self` read by the methods of `GLM_GM`, inherited ones of regain included:
regain/generalized_linear_model/base.py:61-62. -/
def readsGLMGM : List String :=
    []

/-- The attributes of `self` assigned by the methods of `GLM_GM`, inherited ones of regain included:
regain/generalized_linear_model/base.py:61-62. -/
def storesGLMGM : List String :=
    []

/-- The attributes of `self` read by the methods of `Gaussian_GLM_GM`, inherited ones of regain included:
regain/generalized_linear_model/glm_gaussian.py:184-201, 181-182. -/
def readsGaussianGLMGM : List String :=
    ["alpha", "reconstruction", "precision_"]

/-- The attributes of `self` assigned by the methods of `Gaussian_GLM_GM`, inherited ones of regain included:
regain/generalized_linear_model/glm_gaussian.py:184-201, 181-182. -/
def storesGaussianGLMGM : List String :=
    ["precision_", "history"]

/-- The attributes of `self` read by the methods of `IsingGraphicalModel`, inherited ones of regain included:
regain/generalized_linear_model/glm_ising.py:263-324, 260-261, 326-327. -/
def readsIsingGraphicalModel : List String :=
    ["alpha", "mode", "tol", "gamma", "max_iter", "verbose", "reconstruction", "precision_"]

/-- The attributes of `self` assigned by the methods of `IsingGraphicalModel`, inherited ones of regain included:
regain/generalized_linear_model/glm_ising.py:263-324, 260-261, 326-327. -/
def storesIsingGraphicalModel : List String :=
    ["precision_", "history"]

/-- The attributes of `self` read by the methods of `PoissonGraphicalModel`, inherited ones of regain included:
regain/generalized_linear_model/glm_poisson.py:250-285, 247-248, 287-288. -/
def readsPoissonGraphicalModel : List String :=
    ["intercept", "mode", "alpha", "reconstruction", "verbose", "tol", "precision_"]

/-- The attributes of `self` assigned by the methods of `PoissonGraphicalModel`, inherited ones of regain included:
regain/generalized_linear_model/glm_poisson.py:250-285, 247-248, 287-288. -/
def storesPoissonGraphicalModel : List String :=
    ["precision_", "history"]

/-- The attributes of `self` read by the methods of `TemporalIsingModel`, inherited ones of regain included:
regain/generalized_linear_model/glm_time_ising.py:408-409, 411-532, 534-564. -/
def readsTemporalIsingModel : List String :=
    ["precision_", "ker_param", "return_history", "max_iter_ext", "kernel", "data", "classes_", "init", "alpha",
     "rho", "tol", "rtol", "psi", "max_iter", "verbose", "compute_objective", "n_cores"]

/-- The attributes of `self` assigned by the methods of `TemporalIsingModel`, inherited ones of regain included:
regain/generalized_linear_model/glm_time_ising.py:408-409, 411-532, 534-564. -/
def storesTemporalIsingModel : List String :=
    ["data", "classes_", "precision_", "history_", "n_iter_"]

/-- The attributes of `self` read by the methods of `SimilarityTemporalIsingModel`, inherited ones of regain included:
regain/generalized_linear_model/glm_time_ising.py:408-409, 675-780, 534-564, 782-786. -/
def readsSimilarityTemporalIsingModel : List String :=
    ["precision_", "kernel", "return_history", "psi", "n_clusters", "max_iter_ext", "data", "classes_", "alpha",
     "rho", "tol", "rtol", "max_iter", "verbose", "compute_objective", "eps", "beta", "similarity_matrix_"]

/-- The attributes of `self` assigned by the methods of `SimilarityTemporalIsingModel`, inherited ones of regain
included: regain/generalized_linear_model/glm_time_ising.py:408-409, 675-780, 534-564, 782-786. -/
def storesSimilarityTemporalIsingModel : List String :=
    ["data", "classes_", "precision_", "similarity_matrix_", "n_clusters", "history_", "n_iter_"]

/-- The attributes of `self` read by the methods of `TemporalPoissonModel`, inherited ones of regain included:
regain/generalized_linear_model/glm_time_poisson.py:404-405, 407-528, 530-560. -/
def readsTemporalPoissonModel : List String :=
    ["precision_", "ker_param", "return_history", "data", "max_iter_ext", "kernel", "classes_", "gamma", "alpha",
     "rho", "tol", "rtol", "psi", "max_iter", "verbose", "compute_objective", "n_cores"]

/-- The attributes of `self` assigned by the methods of `TemporalPoissonModel`, inherited ones of regain included:
regain/generalized_linear_model/glm_time_poisson.py:404-405, 407-528, 530-560. -/
def storesTemporalPoissonModel : List String :=
    ["data", "classes_", "precision_", "history_", "n_iter_"]

/-- The attributes of `self` read by the methods of `SimilarityTemporalPoissonModel`, inherited ones of regain
included: regain/generalized_linear_model/glm_time_poisson.py:404-405, 672-781, 530-560, 783-787. -/
def readsSimilarityTemporalPoissonModel : List String :=
    ["precision_", "kernel", "return_history", "psi", "n_clusters", "max_iter_ext", "data", "classes_", "alpha",
     "rho", "tol", "rtol", "max_iter", "verbose", "update_rho_options", "compute_objective", "eps", "beta",
     "similarity_matrix_"]

/-- The attributes of `self` assigned by the methods of `SimilarityTemporalPoissonModel`, inherited ones of regain
included: regain/generalized_linear_model/glm_time_poisson.py:404-405, 672-781, 530-560, 783-787. -/
def storesSimilarityTemporalPoissonModel : List String :=
    ["data", "classes_", "precision_", "similarity_matrix_", "n_clusters", "history_", "n_iter_"]

/-- The attributes of `self` read by the methods of `GroupLassoOverlap`, inherited ones of regain included:
regain/linear_model/group_lasso_overlap_.py:239-428, 431-433, 436-448, 450-466. -/
def readsGroupLassoOverlap : List String :=
    ["alpha", "precompute", "normalize", "fit_intercept", "selection", "coef_", "n_jobs", "_set_intercept",
     "warm_start", "mode", "n_iter_", "copy_X", "groups", "rho", "max_iter", "tol", "verbose", "rtol",
     "matlab_engine", "intercept_"]

/-- The attributes of `self` assigned by the methods of `GroupLassoOverlap`, inherited ones of regain included:
regain/linear_model/group_lasso_overlap_.py:239-428, 431-433, 436-448, 450-466. -/
def storesGroupLassoOverlap : List String :=
    ["coef_", "history_", "n_iter_", "dual_gap_"]

/-- The attributes of `self` read by the methods of `GraphicalModelStabilitySelection`, inherited ones of regain
included: regain/model_selection/stability_optimization.py:307-487, 489-643, 645-690. -/
def readsGraphicalModelStabilitySelection : List String :=
    ["estimator", "multimetric_", "refit", "sampling_size", "cv", "scoring", "n_jobs", "verbose", "pre_dispatch",
     "return_train_score", "error_score", "_run_search", "best_index_", "n_repetitions", "best_params_",
     "best_estimator_", "iid", "mode", "monotonized_instabilities", "lower_bound", "upper_bound",
     "graphlets_instabilities", "upper_bounds", "results"]

/-- The attributes of `self` assigned by the methods of `GraphicalModelStabilitySelection`, inherited ones of regain
included: regain/model_selection/stability_optimization.py:307-487, 489-643, 645-690. -/
def storesGraphicalModelStabilitySelection : List String :=
    ["scorer_", "cv_results_", "n_splits_", "sampling_size", "cv", "multimetric_", "best_params_",
     "best_estimator_", "refit_time_", "best_index_", "best_score_", "monotonized_instabilities", "results",
     "graphlets_instabilities", "upper_bounds", "lower_bound", "upper_bound"]

end Verif.Model.OptionTable
