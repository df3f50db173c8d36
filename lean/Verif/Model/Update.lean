import Mathlib.Data.Real.Basic

/-! Model of `regain/update_rules.py`. -/

namespace Verif.Model

/-- Keyword options of `update_rho`, regain/update_rules.py:35 (defaults mu=10, tau_inc=2,
tau_dec=2). -/
structure RhoOptions where
  mu : ℝ := 10
  tauInc : ℝ := 2
  tauDec : ℝ := 2

open Classical in
/-- `update_rho(rho, rnorm, snorm, iteration, mu, tau_inc, tau_dec)`, regain/update_rules.py:35-46.
`tau_dec = 0` raises in Python; the theorems ask for `tau_dec > 0`. -/
noncomputable def updateRho (o : RhoOptions) (rho rnorm snorm : ℝ) : ℝ :=
  if rnorm > o.mu * snorm then o.tauInc * rho
  else if snorm > o.mu * rnorm then rho / o.tauDec
  else rho

/-- `update_gamma(gamma, iteration, eps)`, regain/update_rules.py:49-53. -/
noncomputable def updateGamma (gamma : ℝ) (iteration : ℕ) (eps : ℝ) : ℝ :=
  max (if iteration % 20 = 0 then gamma / 2 else gamma) eps

end Verif.Model
