import Verif.Model.Bayes
import Verif.Spec.Opt
import Mathlib.LinearAlgebra.Matrix.NonsingularInverse
import Mathlib.Analysis.SpecialFunctions.Log.Basic
import Mathlib.Analysis.SpecialFunctions.Trigonometric.Basic

/-!
Model of `regain/bayesian/wishart_distribution_.py`, the densities of `regain/bayesian/stats.py` and the
prediction of `regain/bayesian/wishart_process_.py`.

`fast_logdet` is the logarithm of the determinant and `linalg.pinvh` the inverse; both are used on positive
definite matrices only. `multigammaln` is an arbitrary function `mg` of its two arguments. Calls that draw
random numbers are not modelled.
-/

set_option autoImplicit false
set_option linter.unusedSectionVars false

namespace Verif.Model

open Matrix

variable {d : ℕ}

/-- `WishartDistribution.log_likelihood(X)`, regain/bayesian/wishart_distribution_.py:58-74 (the number of
dimensions is taken from `X`, which has the size of `S` here). -/
noncomputable def wishartLogLik (mg : ℝ → ℕ → ℝ) (nu : ℝ) (S X : Matrix (Fin d) (Fin d) ℝ) : ℝ :=
  ((nu - d - 1) * Real.log X.det - (∑ i, ∑ j, X i j * S⁻¹ i j) - nu * d * Real.log 2
    - 2 * mg (0.5 * nu) d - nu * Real.log S.det) / 2

open Classical in
/-- `WishartDistribution.mode`, regain/bayesian/wishart_distribution_.py:54-56; `none` is `np.nan`. -/
noncomputable def wishartMode (nu : ℝ) (S : Matrix (Fin d) (Fin d) ℝ) :
    Option (Matrix (Fin d) (Fin d) ℝ) :=
  if nu > d + 1 then some ((nu - d - 1) • S) else none

/-- `InverseWishartDistribution.log_likelihood(X)`, regain/bayesian/wishart_distribution_.py:101-116. -/
noncomputable def invWishartLogLik (mg : ℝ → ℕ → ℝ) (nu : ℝ) (S X : Matrix (Fin d) (Fin d) ℝ) : ℝ :=
  (nu * Real.log S.det - (∑ i, ∑ j, S i j * X⁻¹ i j) - (nu + d + 1) * Real.log X.det
    - nu * d * Real.log 2 - 2 * mg (0.5 * nu) d) / 2

/-- `InverseWishartDistribution.mode`, regain/bayesian/wishart_distribution_.py:96-99. -/
noncomputable def invWishartMode (nu : ℝ) (S : Matrix (Fin d) (Fin d) ℝ) : Matrix (Fin d) (Fin d) ℝ :=
  (1 / (nu + d + 1)) • S

/-- `stats.multivariate_normal.logpdf(x, mean, cov)` for a positive definite covariance (scipy; used at
regain/bayesian/wishart_distribution_.py:166). -/
noncomputable def mvnLogpdf (mean : Fin d → ℝ) (C : Matrix (Fin d) (Fin d) ℝ) (x : Fin d → ℝ) : ℝ :=
  -(1 / 2) * (d * Real.log (2 * Real.pi) + Real.log C.det + (x - mean) ⬝ᵥ (C⁻¹ *ᵥ (x - mean)))

/-- `NormalInverseWishartDistribution.log_likelihood(mu, X)`,
regain/bayesian/wishart_distribution_.py:163-183. -/
noncomputable def NIW.logLik (mg : ℝ → ℕ → ℝ) (q : NIW d) (mu : Fin d → ℝ)
    (X : Matrix (Fin d) (Fin d) ℝ) : ℝ :=
  invWishartLogLik mg q.nu q.S X + mvnLogpdf q.mu ((1 / q.kappa) • X) mu

/-- `NormalInverseWishartDistribution.mode`, regain/bayesian/wishart_distribution_.py:185-188. -/
noncomputable def NIW.mode (q : NIW d) : (Fin d → ℝ) × Matrix (Fin d) (Fin d) ℝ :=
  (q.mu, (1 / (q.nu + d + 2)) • q.S)

/-- A distribution object together with the shape of its mean: `rowMean` tells that `mu` is a 1 x d array.
The constructor keeps what it is given (regain/bayesian/wishart_distribution_.py:146-149). -/
structure NIWObj (d : ℕ) where
  par : NIW d
  rowMean : Bool

/-- `posterior(X)` as an object: `np.atleast_2d(m_n)` is what the new object gets as its mean,
regain/bayesian/wishart_distribution_.py:222-229. -/
noncomputable def NIWObj.posterior {n : ℕ} (o : NIWObj d) (X : Matrix (Fin n) (Fin d) ℝ) : NIWObj d :=
  ⟨o.par.posterior X, true⟩

/-- `log_likelihood` on the object: scipy refuses a mean that is not a vector unless the dimension is one
(`ValueError: Array 'mean' must be a vector`), here `none`,
regain/bayesian/wishart_distribution_.py:163-166. -/
noncomputable def NIWObj.logLik (mg : ℝ → ℕ → ℝ) (o : NIWObj d) (mu : Fin d → ℝ)
    (X : Matrix (Fin d) (Fin d) ℝ) : Option ℝ :=
  if o.rowMean = true ∧ d ≠ 1 then none else some (o.par.logLik mg mu X)

/-- Degrees of freedom and scale of the Student distribution of the mean in `marginals`,
regain/bayesian/wishart_distribution_.py:190-200. -/
noncomputable def NIW.marginalMu (q : NIW d) : ℝ × Matrix (Fin d) (Fin d) ℝ :=
  (q.nu - d + 1, (1 / (q.kappa * (q.nu - d + 1))) • q.S)

/-- Degrees of freedom and scale of `predictive()`, regain/bayesian/wishart_distribution_.py:231-234. -/
noncomputable def NIW.predictive (q : NIW d) : ℝ × Matrix (Fin d) (Fin d) ℝ :=
  (q.nu - d + 1, ((q.kappa + 1) / (q.kappa * (q.nu - d + 1))) • q.S)

/-! ### stats -/

/-- `lognormal_logpdf(x, mu, sigma)`, regain/bayesian/stats.py:49-55. -/
noncomputable def lognormalLogpdf (x mu sigma : ℝ) : ℝ := Real.log (lognormalPdf x mu sigma)

/-- `log_lik_frob(S, D, variance)`, regain/bayesian/stats.py:66-69. -/
noncomputable def logLikFrob {n m : ℕ} (S D : Matrix (Fin n) (Fin m) ℝ) (variance : ℝ) : ℝ :=
  -0.5 * ((n * m : ℝ) * Real.log (2.0 * Real.pi * variance)
    + (∑ i, ∑ j, (S i j - D i j) ^ 2) / variance)

/-! ### prediction of the Wishart process -/

/-- `u_test`, regain/bayesian/wishart_process_.py:187-193: `pinvKB` is the pseudo-inverse of the kernel matrix
of the training times, `A` the kernel between test and training times; `u` has one matrix (`nu x p`) per
training time. -/
noncomputable def predictU {nTrain nTest v p : ℕ} (A : Matrix (Fin nTest) (Fin nTrain) ℝ)
    (pinvKB : Matrix (Fin nTrain) (Fin nTrain) ℝ) (u : Fin nTrain → Matrix (Fin v) (Fin p) ℝ) :
    Fin nTest → Matrix (Fin v) (Fin p) ℝ :=
  fun s => ∑ t, (A * pinvKB) s t • u t

/-- `predict`, regain/bayesian/wishart_process_.py:166-209: one covariance per test time. -/
noncomputable def wpPredict {nTrain nTest v p : ℕ} (A : Matrix (Fin nTest) (Fin nTrain) ℝ)
    (pinvKB : Matrix (Fin nTrain) (Fin nTrain) ℝ) (u : Fin nTrain → Matrix (Fin v) (Fin p) ℝ)
    (L : Matrix (Fin p) (Fin p) ℝ) : Fin nTest → Matrix (Fin p) (Fin p) ℝ :=
  fun s => gwpConstruct (predictU A pinvKB u s) L

/-- One entry of `_rbf_kernel(X, Y, var, inverse_width, normalised)` for scalar inputs,
regain/bayesian/wishart_process_.py:212-217 (sklearn's `rbf_kernel` is `exp(-gamma (x - y)^2)`). -/
noncomputable def rbfEntry (var inverseWidth : ℝ) (normalised : Bool) (x y : ℝ) : ℝ :=
  var * Real.exp (-(0.5 * inverseWidth) * (x - y) ^ 2) *
    (if normalised then Real.sqrt (inverseWidth / (2 * Real.pi)) else 1)

end Verif.Model
