import Verif.Model.GLWeights

/-! Model of `bayesian_graphical_lasso` (`regain/bayesian/gwishart_inference.py`): the composition of its pieces. -/

namespace Verif.Model

open Matrix

set_option autoImplicit false

variable {p : ℕ}

/-- `np.triu(g, 1) + np.eye(n_dim, dtype=bool)`, regain/bayesian/gwishart_inference.py:380. -/
def bglMask (g : Fin p → Fin p → Bool) : Fin p → Fin p → Bool := fun i j => (decide (i < j) && g i j) || decide (i = j)

/-- What the solver of `GWishartFit` is run with, regain/bayesian/gwishart_inference.py:187-196: for `mode="covsel"`
the parameters `min_obj.x` that `scipy.optimize.minimize` returned (any), otherwise the settings of
`graphical_lasso`. -/
inductive GWSolve (p : ℕ) where
  | covsel (x : Matrix (Fin p) (Fin p) ℝ)
  | gl (tol rtol : ℝ) (maxIter : ℕ) (Z0 : Matrix (Fin p) (Fin p) ℝ)

/-- The precision of `GWishartFit(X, G, GWprior, mode)`, regain/bayesian/gwishart_inference.py:187-198
(`precision_selection`, 154-165, or `graphical_lasso`); `none` is the exception of a `graphical_lasso` call without any
pass. -/
noncomputable def gwFit (eigh : Eigh (Fin p)) (C : Matrix (Fin p) (Fin p) ℝ) (G : Fin p → Fin p → Bool) :
    GWSolve p → Option (Matrix (Fin p) (Fin p) ℝ)
  | .covsel x => some (fillUpper G x)
  | .gl tol rtol maxIter Z0 =>
    match gwFitGL eigh C G tol rtol maxIter Z0 with
    | .ok Z _ _ _ _ => some Z
    | _ => none

/-- `bayesian_graphical_lasso`, regain/bayesian/gwishart_inference.py:374-395, from the resampled graphs on: the masks,
one fit and one score per graph, the mean of the `top_n` best. `C` is the covariance all the fits share
(`GWishartFit`:183-185), the scores are any numbers (`compute_score`), `idx` what `np.random.choice` drew, `bl` the
blankets after `np.unique`. -/
noncomputable def bayesianGL {m R : ℕ} (eigh : Eigh (Fin p)) (C : Matrix (Fin p) (Fin p) ℝ)
    (bl : Fin p → Fin m → Fin p → Bool) (idx : Fin R → Fin p → Fin m) (solve : Fin R → GWSolve p) (score : Fin R → ℝ)
    (topN : ℕ) : Option (Matrix (Fin p) (Fin p) ℝ) :=
  match (List.finRange R).mapM fun r => (gwFit eigh C (bglMask (resampledGraph bl (idx r))) (solve r)).map
      fun P => (score r, P) with
  | none => none
  | some res => topMean res topN

end Verif.Model
