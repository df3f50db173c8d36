import Verif.Model.FB
import Mathlib.Data.Real.Basic
import Mathlib.Data.List.Basic

/-! Model of the coefficients of `GroupLassoOverlap.fit` with `warm_start`, regain/linear_model/group_lasso_overlap_.py:306-358
(`n_jobs=1`). -/

namespace Verif.Model

set_option autoImplicit false

/-- `coef_` before the loop over the targets, regain/linear_model/group_lasso_overlap_.py:306-311: zeros, or the array of
the previous fit, one row per previous target (the row of a single target is restored by `coef_[None, :]`; previous
fits have at least two features, see C226). -/
def startCoef (warm : Bool) (prev : Option (List (List ℝ))) (k d : ℕ) : List (List ℝ) :=
  match warm, prev with
  | true, some c => c
  | _, _ => List.replicate k (List.replicate d 0)

/-- `coef_[k] = this_coef.ravel()`, regain/linear_model/group_lasso_overlap_.py:356: IndexError beyond the rows,
ValueError for a row of another length (a single number would be repeated). -/
def assignRow (c : List (List ℝ)) (k : ℕ) (v : List ℝ) : Except PyErr (List (List ℝ)) :=
  match c[k]? with
  | none => .error .index
  | some row =>
    if v.length = row.length then .ok (c.set k v)
    else match v with
      | [a] => .ok (c.set k (List.replicate row.length a))
      | _ => .error .value

/-- The loop over the targets, regain/linear_model/group_lasso_overlap_.py:317-358, with `sols` the results of the solver
for the targets from number `k` on. -/
def assignRows (c : List (List ℝ)) : ℕ → List (List ℝ) → Except PyErr (List (List ℝ))
  | _, [] => .ok c
  | k, v :: sols => match assignRow c k v with
    | .error e => .error e
    | .ok c' => assignRows c' (k + 1) sols

/-- The rows of `coef_` after `fit`, regain/linear_model/group_lasso_overlap_.py:306-358, for data with `d` features and
one solution per target. -/
def warmCoef (warm : Bool) (prev : Option (List (List ℝ))) (d : ℕ) (sols : List (List ℝ)) :
    Except PyErr (List (List ℝ)) :=
  assignRows (startCoef warm prev sols.length d) 0 sols

end Verif.Model
