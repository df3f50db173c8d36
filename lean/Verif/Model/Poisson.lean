import Verif.Model.GLM
import Verif.Model.Loop
import Verif.Model.FB
import Mathlib.Data.Fin.Tuple.Basic

/-! Model of the Poisson neighbourhood regression and of `PoissonGraphicalModel.fit`
(regain/generalized_linear_model/glm_poisson.py). -/

namespace Verif.Model

set_option autoImplicit false

variable {ι : Type*} [Fintype ι]

/-- The inner function `gradient` with its coupling term
(regain/generalized_linear_model/glm_poisson.py:95-101); `A` is the row `A[r, selector]`, absent for `A=None`. -/
noncomputable def poissonGradientA {m : ℕ} (Xs : Fin m → ι → ℝ) (xr : Fin m → ℝ) (rho T : ℝ)
    (A : Option (ι → ℝ)) (theta : ι → ℝ) : ι → ℝ := fun k =>
  poissonGradient Xs xr theta k + match A with
    | none => 0
    | some A => rho * T * (theta k - A k) / m

open Classical in
/-- The `while True` of regain/generalized_linear_model/glm_poisson.py:108-126 without a bound on the passes;
`none` if it never ends. -/
noncomputable def searchWhile (loss : (ι → ℝ) → ℝ) (grad old : ι → ℝ) (alpha shrink : ℝ) (theta : ι → ℝ)
    (gamma : ℝ) : Option ((ι → ℝ) × ℝ) :=
  if h : ∃ fuel, (lineSearch loss grad old alpha shrink fuel theta gamma).isSome then
    lineSearch loss grad old alpha shrink (Nat.find h) theta gamma
  else none

/-- Arguments of `fit_each_variable` (regain/generalized_linear_model/glm_poisson.py:73-89); `Xs` are the columns
`X[:, selector]`, `xr` is the column `X[:, ix]`. -/
structure PoissonArgs (m : ℕ) (ι : Type*) where
  Xs : Fin m → ι → ℝ
  xr : Fin m → ℝ
  alpha : ℝ
  gamma : ℝ
  tol : ℝ
  maxIter : ℕ
  updateGamma : ℝ
  A : Option (ι → ℝ)
  T : ℝ
  rho : ℝ

/-- The fields of a `check` (regain/generalized_linear_model/glm_poisson.py:129-136) except `iter_r_norm`, which
nothing reads. -/
structure PoissonCheck where
  iter : ℕ
  obj : ℝ
  iterNorm : ℝ

/-- `objective_single_variable` (regain/generalized_linear_model/glm_poisson.py:64-70). -/
noncomputable def poissonObjective {m : ℕ} (Xs : Fin m → ι → ℝ) (xr : Fin m → ℝ) (alpha : ℝ) (theta : ι → ℝ) : ℝ :=
  (1 / (m : ℝ)) * (∑ i, (Real.exp (linPred Xs theta i) - xr i * linPred Xs theta i)) + alpha * ∑ k, |theta k|

/-- `thetas` and `gamma`; the local variable `theta` is always the last of `thetas`
when a pass starts. -/
structure PoissonState (ι : Type*) where
  theta : ι → ℝ
  gamma : ℝ

/-- One pass through the loop (regain/generalized_linear_model/glm_poisson.py:105-145). The state is `none` once a
line search does not end; the check is only recorded when `iter_ > 0`. The list `thetas` is the list of the
states and is not stored again. -/
noncomputable def poissonBody {m : ℕ} (a : PoissonArgs m ι) (it : ℕ) (s : Option (PoissonState ι)) :
    Option (PoissonState ι) × Option PoissonCheck × Bool :=
  match s with
  | none => (none, none, true)
  | some s =>
    match searchWhile (poissonLoss a.Xs a.xr) (poissonGradientA a.Xs a.xr a.rho a.T a.A s.theta) s.theta a.alpha
        a.updateGamma s.theta s.gamma with
    | none => (none, none, true)
    | some (theta, gamma) =>
      let norm := Real.sqrt (∑ k, (s.theta k - theta k) ^ 2)
      if 0 < it then
        (some ⟨theta, gamma⟩, some ⟨it, poissonObjective a.Xs a.xr a.alpha theta, norm⟩, decide (|norm| < a.tol))
      else (some ⟨theta, gamma⟩, none, false)

/-- `fit_each_variable(X, ix, ...)` (regain/generalized_linear_model/glm_poisson.py:73-155): the last coefficients,
the checks and `iter_` (`none` if unbound, only looked at with `return_n_iter`). The value is `none` when a line
search does not end. -/
noncomputable def poissonFitNode {m : ℕ} (a : PoissonArgs m ι) :
    Option ((ι → ℝ) × List PoissonCheck × Option ℕ) :=
  let r := runLoop (poissonBody a) a.maxIter (some ⟨fun _ => 0, a.gamma⟩)
  match r.state with
  | none => none
  | some s => some (s.theta, r.checks.filterMap id, r.lastIter)

/-- The call `fit_each_variable(X, ix, alpha, tol=tol)` of `fit`
(regain/generalized_linear_model/glm_poisson.py:265-267), which leaves `gamma=1`, `max_iter=100`,
`update_gamma=0.5`, `A=None`, `T=0`, `rho=1` at their defaults: the constructor's `gamma` and `max_iter` are not
passed. -/
noncomputable def poissonNode {m N : ℕ} (X : Fin m → Fin N → ℝ) (alpha tol : ℝ) (ix : Fin N) :
    PoissonArgs m {k : Fin N // k ≠ ix} :=
  { Xs := fun i k => X i k.1, xr := fun i => X i ix, alpha := alpha, gamma := 1, tol := tol, maxIter := 100,
    updateGamma := 1 / 2, A := none, T := 0, rho := 1 }

open Classical in
/-- The loop over the variables and the reconstruction
(regain/generalized_linear_model/glm_poisson.py:263-272); `none` if a node does not return. -/
noncomputable def poissonNodes {m N : ℕ} (X : Fin m → Fin N → ℝ) (alpha tol : ℝ) (how : String) :
    Option (ℕ → ℕ → ℝ) :=
  if ∀ ix, (poissonFitNode (poissonNode X alpha tol ix)).isSome then
    some (buildAdjacency N (fun i j =>
      if h : ∃ (hi : i < N) (hj : j < N), (⟨j, hj⟩ : Fin N) ≠ ⟨i, hi⟩ then
        match poissonFitNode (poissonNode X alpha tol ⟨i, h.1⟩) with
        | none => 0
        | some r => r.1 ⟨⟨j, h.2.1⟩, h.2.2⟩
      else 0) how)
  else none

/-- The attributes of `PoissonGraphicalModel` that could matter to `fit`
(regain/generalized_linear_model/glm_poisson.py:216-245); `mode` is taken in lower case. -/
structure PoissonEstimator where
  alpha : ℝ
  tol : ℝ
  gamma : ℝ
  maxIter : ℕ
  mode : String
  reconstruction : String
  intercept : Bool

/-- `PoissonGraphicalModel.fit` (regain/generalized_linear_model/glm_poisson.py:250-285) on checked data: the
number of rows of `precision_` and its entries. With `intercept` a column of ones is appended and treated as one
more variable. -/
noncomputable def poissonModelFit {m d : ℕ} (e : PoissonEstimator) (X : Fin m → Fin d → ℝ) :
    Except PyErr (Option (ℕ × (ℕ → ℕ → ℝ))) :=
  if e.mode = "symmetric_fbs" then .error .value
  else if e.mode = "coordinate_descent" then
    if e.intercept then
      .ok ((poissonNodes (fun i => Fin.snoc (α := fun _ => ℝ) (X i) 1) e.alpha e.tol e.reconstruction).map
        fun p => (d + 1, p))
    else .ok ((poissonNodes X e.alpha e.tol e.reconstruction).map fun p => (d, p))
  else .error .value

end Verif.Model
