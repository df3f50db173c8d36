import Verif.Model.Wishart
import Mathlib.Logic.Function.Basic

/-! `sample_ell`, `_sample_ell_comp` and `sample_hyper_kernel`, regain/bayesian/sampling.py:156-252, as functions of the
state and of the numbers drawn: `z` is standard normal, `u` uniform on `[0, 1)`. -/

namespace Verif.Model

set_option autoImplicit false

/-- `scipy.stats.norm.logpdf(x, loc, scale)`, used in regain/bayesian/sampling.py:244-245. -/
noncomputable def normLogpdf (x loc scale : ℝ) : ℝ :=
  -((x - loc) / scale) ^ 2 / 2 - Real.log (Real.sqrt (2 * Real.pi)) - Real.log scale

variable {d : ℕ}

/-- `_sample_ell_comp`, regain/bayesian/sampling.py:227-252; `np.random.normal(Ltau, sigma)` is `Ltau + sigma z`. -/
noncomputable def sampleEllComp (lik : (Fin d → ℝ) → ℝ) (lprior : ℝ → ℝ) (sigma : ℝ) (ell : Fin d → ℝ) (i : Fin d)
    (z u : ℝ) : ℝ :=
  (mhSelect (fun l => lik l + lprior (l i)) (fun a b => normLogpdf (b i) (a i) sigma) ell
    (Function.update ell i (ell i + sigma * z)) u).1 i

/-- A loop over `range(k)` whose pass `i` draws `w i`. -/
def sweep {S W : Type*} : (k : ℕ) → (Fin k → W → S → S) → (Fin k → W) → S → S
  | 0, _, _, s => s
  | k + 1, step, w, s => sweep k (fun i => step i.succ) (fun i => w i.succ) (step 0 (w 0) s)

/-- The array `Ltau` after `sample_ell`, regain/bayesian/sampling.py:197-224: it is overwritten component by component and
the returned `L_proposal` has the same entries. `lik` is `get_logp` (lines 210-216), any function of the lower triangle;
`sigma` is `np.sqrt(var_proposal)`. -/
noncomputable def sampleEll (lik : (Fin d → ℝ) → ℝ) (lprior : ℝ → ℝ) (sigma : Fin d → ℝ) (w : Fin d → ℝ × ℝ)
    (ell : Fin d → ℝ) : Fin d → ℝ :=
  sweep d (fun i zu l => Function.update l i (sampleEllComp lik lprior (sigma i) l i zu.1 zu.2)) w ell

/-- `logp_post` of `sample_hyper_kernel`, regain/bayesian/sampling.py:177-181: the rows of `ustack` around their mean.
`allow_singular` does not matter for the positive definite kernels considered. -/
noncomputable def hyperLogPost {N T : ℕ} (ustack : Matrix (Fin N) (Fin T) ℝ) (kern : ℝ → Matrix (Fin T) (Fin T) ℝ)
    (lprior : ℝ → ℝ) (theta : ℝ) : ℝ :=
  ∑ k, mvnLogpdf (colMean ustack) (kern theta) (ustack k) + lprior theta

/-- `sample_hyper_kernel`, regain/bayesian/sampling.py:156-194, for a log posterior `lp`; `np.random.lognormal(mu, sigma)`
is `exp(mu + sigma z)`. -/
noncomputable def sampleHyper (lp : ℝ → ℝ) (varProposal theta z u : ℝ) : ℝ × Bool :=
  mhSelect lp (fun a b => lognormalLogpdf b (lognstat a varProposal).1 (lognstat a varProposal).2) theta
    (Real.exp ((lognstat theta varProposal).1 + (lognstat theta varProposal).2 * z)) u

end Verif.Model
