import Verif.Model.XFloat
import Mathlib.Analysis.SpecialFunctions.Pow.Real

/-! Model of the search of regain/model_selection/_bayesian_optimization.py. The optimiser (GPyOpt) and the
cross-validation (scikit-learn) are arbitrary: the evaluated points are any list and the mean score any function of the
parameters. -/

namespace Verif.Model

set_option autoImplicit false

/-- A parameter value: a finite number or anything else, named by a string. -/
inductive ParamVal where
  | num (r : ℝ)
  | other (s : String)

/-- The parameters of an estimator by name (`get_params`). -/
abbrev Params := String → ParamVal

/-- `set_params(**dict(pairs))`, used in regain/model_selection/_bayesian_optimization.py:255, 277: later pairs win, other
names are left alone. -/
def setParams (p : Params) : List (String × ParamVal) → Params
  | [] => p
  | (k, v) :: l => setParams (fun q => if q = k then v else p q) l

/-- `dict(zip(param_names, 10 ** x))`, regain/model_selection/_bayesian_optimization.py:248, 274-278. -/
noncomputable def searchParams (names : List String) (x : List ℝ) : List (String × ParamVal) :=
  names.zip (x.map fun v => .num ((10 : ℝ) ^ v))

/-- One value of `_fit_score` and the estimator after it, regain/model_selection/_bayesian_optimization.py:273-280:
`set_params` changes the estimator that was passed. `score` is `np.mean(score_function(mdl))`. -/
noncomputable def fitScore (names : List String) (score : Params → XF) (mdl : Params) (x : List ℝ) : XF × Params :=
  let mdl' := setParams mdl (searchParams names x)
  (XF.neg (score mdl'), mdl')

/-- The values at the evaluated points in order and the estimator afterwards,
regain/model_selection/_bayesian_optimization.py:235-245 (the objective handed to `run_optimization`). -/
noncomputable def evaluateAll (names : List String) (score : Params → XF) : Params → List (List ℝ) → List XF × Params
  | mdl, [] => ([], mdl)
  | mdl, x :: xs =>
    let r := fitScore names score mdl x
    let rest := evaluateAll names score r.2 xs
    (r.1 :: rest.1, rest.2)

open Classical in
/-- One step of numpy's `argmin` (regain/model_selection/_bayesian_optimization.py:247): the best position so far and its
value are kept unless the new value is smaller, or is the first `nan`. -/
noncomputable def argminStep (b : ℕ × XF) (i : ℕ) (y : XF) : ℕ × XF :=
  if b.2 = .nan then b else if y = .nan ∨ XF.lt y b.2 then (i, y) else b

/-- `Y.argmin()` with the value there (regain/model_selection/_bayesian_optimization.py:247, 249): the first `nan` if there
is one, else the first smallest value. -/
noncomputable def argminFrom (b : ℕ × XF) (i : ℕ) : List XF → ℕ × XF
  | [] => b
  | y :: ys => argminFrom (argminStep b i y) (i + 1) ys

/-- What `fit` leaves behind, regain/model_selection/_bayesian_optimization.py:247-259. -/
structure BayesResult where
  bestIndex : ℕ
  bestParams : List (String × ParamVal)
  bestScore : XF
  estimator : Params
  bestEstimator : Params

/-- `fit`, regain/model_selection/_bayesian_optimization.py:197-261, with `refit`: `none` when no point was evaluated
(`argmin` of an empty array). `points` are the rows of `self.X`. The final fit on all data is left out, the refitted
estimator is described by its parameters. -/
noncomputable def bayesFit (names : List String) (score : Params → XF) (mdl : Params) (points : List (List ℝ)) :
    Option BayesResult :=
  let r := evaluateAll names score mdl points
  match r.1 with
  | [] => none
  | y :: ys =>
    let b := argminFrom (0, y) 1 ys
    let best := searchParams names (points.getD b.1 [])
    some { bestIndex := b.1, bestParams := best, bestScore := b.2, estimator := r.2,
           bestEstimator := setParams r.2 best }

end Verif.Model
