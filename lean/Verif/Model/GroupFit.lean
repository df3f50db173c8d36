import Verif.Model.FB
import Mathlib.Data.Matrix.Mul

/-! Model of `GroupLassoOverlap.fit` and `predict`, regain/linear_model/group_lasso_overlap_.py:239-428, with sklearn's
`_pre_fit` and `_set_intercept` (dense data, `normalize=False`, `precompute=False`). -/

namespace Verif.Model

open Matrix

set_option autoImplicit false

variable {n d k : ℕ}

/-- `X_offset` of `_pre_fit` (regain/linear_model/group_lasso_overlap_.py:291-293): the mean of each column, or zero
without intercept. -/
noncomputable def fitOffset (fitIntercept : Bool) (X : Matrix (Fin n) (Fin d) ℝ) : Fin d → ℝ :=
  fun j => if fitIntercept then (∑ i, X i j) / n else 0

/-- The centred data of `_pre_fit` (regain/linear_model/group_lasso_overlap_.py:291-293). -/
noncomputable def fitCentre (fitIntercept : Bool) (X : Matrix (Fin n) (Fin d) ℝ) : Matrix (Fin n) (Fin d) ℝ :=
  Matrix.of fun i j => X i j - fitOffset fitIntercept X j

/-- `coef_` of `GroupLassoOverlap.fit`, regain/linear_model/group_lasso_overlap_.py:300-419: one call of the solver per
target, whichever it is, on the centred data. -/
noncomputable def groupCoef (fitIntercept : Bool) (solver : Matrix (Fin n) (Fin d) ℝ → (Fin n → ℝ) → (Fin d → ℝ))
    (X : Matrix (Fin n) (Fin d) ℝ) (Y : Matrix (Fin n) (Fin k) ℝ) : Matrix (Fin k) (Fin d) ℝ :=
  Matrix.of fun t => solver (fitCentre fitIntercept X) fun i => fitCentre fitIntercept Y i t

/-- `intercept_` as set by `_set_intercept`, regain/linear_model/group_lasso_overlap_.py:420:
`y_offset - np.dot(X_offset, coef_.T)`, or zero without intercept. -/
noncomputable def groupIntercept (fitIntercept : Bool)
    (solver : Matrix (Fin n) (Fin d) ℝ → (Fin n → ℝ) → (Fin d → ℝ)) (X : Matrix (Fin n) (Fin d) ℝ)
    (Y : Matrix (Fin n) (Fin k) ℝ) : Fin k → ℝ :=
  fun t => if fitIntercept then
      fitOffset true Y t - fitOffset true X ⬝ᵥ groupCoef fitIntercept solver X Y t
    else 0

/-- `predict` at one row, regain/linear_model/group_lasso_overlap_.py:450-466: `X coef_.T + intercept_`. -/
noncomputable def groupPredict (fitIntercept : Bool)
    (solver : Matrix (Fin n) (Fin d) ℝ → (Fin n → ℝ) → (Fin d → ℝ)) (X : Matrix (Fin n) (Fin d) ℝ)
    (Y : Matrix (Fin n) (Fin k) ℝ) (x : Fin d → ℝ) : Fin k → ℝ :=
  fun t => x ⬝ᵥ groupCoef fitIntercept solver X Y t + groupIntercept fitIntercept solver X Y t

/-- Shape of `np.squeeze` of an array, regain/linear_model/group_lasso_overlap_.py:419. -/
def squeezeShape (s : List ℕ) : List ℕ := s.filter fun m => m ≠ 1

/-- Shape of `np.dot` of arrays of at most two dimensions: the last length of the first must be the length before last
(or the only one) of the second; products with numbers are allowed. Used by `_set_intercept` and `predict`,
regain/linear_model/group_lasso_overlap_.py:420, 450-466. -/
def dotShape : List ℕ → List ℕ → Except PyErr (List ℕ)
  | [], b => .ok b
  | a, [] => .ok a
  | [m], [m'] => if m = m' then .ok [] else .error .value
  | [m], [m', c] => if m = m' then .ok [c] else .error .value
  | [r, m], [m'] => if m = m' then .ok [r] else .error .value
  | [r, m], [m', c] => if m = m' then .ok [r, c] else .error .value
  | _, _ => .error .value

/-- Shape of `np.dot(X_offset, coef_.T)` in `_set_intercept` for `k` targets and `d` features,
regain/linear_model/group_lasso_overlap_.py:419-420. -/
def interceptShape (k d : ℕ) : Except PyErr (List ℕ) := dotShape [d] (squeezeShape [k, d]).reverse

/-- Shape of the predictions for `n` rows, regain/linear_model/group_lasso_overlap_.py:450-466. -/
def predictShape (n k d : ℕ) : Except PyErr (List ℕ) := dotShape [n, d] (squeezeShape [k, d]).reverse

end Verif.Model
