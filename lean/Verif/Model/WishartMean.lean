import Verif.Model.Wishart
import Mathlib.Analysis.SpecialFunctions.Gamma.Basic

/-! Means of `regain/bayesian/wishart_distribution_.py`, the likelihood as a function, and scipy's
`multigammaln`. -/

set_option autoImplicit false

namespace Verif.Model

open Matrix

variable {d : ℕ}

/-- `scipy.special.multigammaln(a, d)`, as used at regain/bayesian/wishart_distribution_.py:71 and 114:
`log(pi) d (d - 1) / 4` plus the logarithms of `Gamma(a - j / 2)` for `j < d`. -/
noncomputable def multigammaln (a : ℝ) (d : ℕ) : ℝ :=
  d * (d - 1) / 4 * Real.log Real.pi + ∑ j ∈ Finset.range d, Real.log (Real.Gamma (a - j / 2))

/-- `WishartDistribution.likelihood(X)`, regain/bayesian/wishart_distribution_.py:76-77. -/
noncomputable def wishartLik (nu : ℝ) (S X : Matrix (Fin d) (Fin d) ℝ) : ℝ :=
  Real.exp (wishartLogLik multigammaln nu S X)

/-- `InverseWishartDistribution.likelihood(X)`, inherited from regain/bayesian/wishart_distribution_.py:76-77. -/
noncomputable def invWishartLik (nu : ℝ) (S X : Matrix (Fin d) (Fin d) ℝ) : ℝ :=
  Real.exp (invWishartLogLik multigammaln nu S X)

/-- `WishartDistribution.mean`, regain/bayesian/wishart_distribution_.py:50-52. -/
noncomputable def wishartMean (nu : ℝ) (S : Matrix (Fin d) (Fin d) ℝ) : Matrix (Fin d) (Fin d) ℝ := nu • S

/-- `InverseWishartDistribution.mean`, regain/bayesian/wishart_distribution_.py:91-94; `none` stands for the array of
infinities numpy returns with a warning when the divisor is zero. -/
noncomputable def invWishartMean (nu : ℝ) (S : Matrix (Fin d) (Fin d) ℝ) : Option (Matrix (Fin d) (Fin d) ℝ) :=
  open Classical in if nu - d - 1 = 0 then none else some (Matrix.of fun i j => S i j / (nu - d - 1))

end Verif.Model
