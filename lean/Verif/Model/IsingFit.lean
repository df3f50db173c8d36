import Verif.Model.TimeGLM

/-! Model of `IsingGraphicalModel.fit`, regain/generalized_linear_model/glm_ising.py. -/

namespace Verif.Model

open Matrix

set_option autoImplicit false

/-- `_fit(X, alpha, tol=tol, gamma=gamma, max_iter=max_iter)[0]` with `A=None` and `line_search=False`, from the zero
matrix, regain/generalized_linear_model/glm_ising.py:89-172. (With at least one sample `isingStep` never fails, so
the default is not used.) -/
noncomputable def isingFitPlain {m d : ℕ} (X : Fin (m + 1) → Fin d → ℝ) (alpha gamma tol : ℝ) (maxIter : ℕ) :
    Matrix (Fin d) (Fin d) ℝ :=
  isingFitLoop (fun theta => (isingStep X alpha gamma theta).getD theta) tol maxIter 0

/-- The attributes of `IsingGraphicalModel` that `fit` reads, with the defaults of
regain/generalized_linear_model/glm_ising.py:227-241; `mode` and `reconstruction` are taken in lower case. -/
structure IsingEstimator where
  alpha : ℝ := 1 / 100
  tol : ℝ := 1 / 10000
  gamma : ℝ := 1
  maxIter : ℕ := 100
  mode : String := "symmetric_fbs"
  reconstruction : String := "union"

/-- `IsingGraphicalModel.fit` on checked data, regain/generalized_linear_model/glm_ising.py:261-324: `precision_`.
`logit C ix` are the coefficients of `LogisticRegression(C=C, ...)` for variable `ix` (scikit-learn is not modelled). -/
noncomputable def isingModelFit {m d : ℕ} (logit : ℝ → ℕ → ℕ → ℝ) (e : IsingEstimator)
    (X : Fin (m + 1) → Fin d → ℝ) : Except PyErr (Matrix (Fin d) (Fin d) ℝ) :=
  if e.mode = "symmetric_fbs" then .ok (isingFitPlain X e.alpha e.gamma e.tol e.maxIter)
  else if e.mode = "coordinate_descent" then .error .value
  else if e.mode = "logistic_regression" then
    .ok (Matrix.of fun i j => buildAdjacency d (logit (1 / e.alpha)) e.reconstruction i j)
  else .error .value

end Verif.Model
