import Verif.Model.Prox
import Verif.Model.XFloat
import Mathlib.Analysis.SpecialFunctions.Log.Basic

/-! Model of the static estimators of `regain/generalized_linear_model/`. -/

namespace Verif.Model

open Matrix

set_option autoImplicit false

/-! ### build_adjacency_matrix -/

/-- `out[i, where] = arr` for the targets `j ≠ i` (regain/generalized_linear_model/base.py:23-24,28-29).
Arrays are functions of two indices below `len(neighbours)`; the entry of `neighbours[i]` that is written
in column `j` is `nb i j` (in the code it sits at position `j`, or `j - 1` past the diagonal). -/
def writeRow (nb : ℕ → ℕ → ℝ) (i : ℕ) (out : ℕ → ℕ → ℝ) : ℕ → ℕ → ℝ :=
  fun r c => if r = i ∧ c ≠ i then nb i c else out r c

/-- `(out + out.T) / 2`. -/
noncomputable def avgT (out : ℕ → ℕ → ℝ) : ℕ → ℕ → ℝ := fun r c => (out r c + out c r) / 2

/-- `np.eye`. -/
def eyeNat : ℕ → ℕ → ℝ := fun r c => if r = c then 1 else 0

/-- The `union` branch: the averaging with the transpose is inside the loop
(regain/generalized_linear_model/base.py:21-25). -/
noncomputable def buildUnion (N : ℕ) (nb : ℕ → ℕ → ℝ) : ℕ → ℕ → ℝ :=
  (List.range N).foldl (fun out i => avgT (writeRow nb i out)) eyeNat

open Classical in
/-- The `intersection` branch (regain/generalized_linear_model/base.py:26-35). -/
noncomputable def buildIntersection (N : ℕ) (nb : ℕ → ℕ → ℝ) : ℕ → ℕ → ℝ :=
  let out := (List.range N).foldl (fun out i => writeRow nb i out) eyeNat
  let binarized := avgT fun r c => if out r c ≠ 0 then 1 else 0
  let binarized := fun r c => if binarized r c < 1 then 0 else binarized r c
  fun r c => if binarized r c = 0 then 0 else avgT out r c

/-- `build_adjacency_matrix(neighbours, how)` (regain/generalized_linear_model/base.py:19-36); `how` is
already lower case. Any other string leaves the identity. -/
noncomputable def buildAdjacency (N : ℕ) (nb : ℕ → ℕ → ℝ) (how : String) : ℕ → ℕ → ℝ :=
  if how = "union" then buildUnion N nb
  else if how = "intersection" then buildIntersection N nb
  else eyeNat

/-! ### Ising model -/

/-- `X[i, selector].dot(theta[selector, r])` (regain/generalized_linear_model/glm_ising.py:54,75). -/
def isingField {m d : ℕ} (X : Fin m → Fin d → ℝ) (theta : Matrix (Fin d) (Fin d) ℝ) (i : Fin m)
    (r : Fin d) : ℝ := ∑ k, if k ≠ r then X i k * theta k r else 0

open Classical in
/-- `loss(X, theta)` (regain/generalized_linear_model/glm_ising.py:46-59), `none` is the failure of
`np.float("inf")` (removed from numpy) or an infinite value, for an asymmetric `theta`. -/
noncomputable def isingLoss {m d : ℕ} (X : Fin m → Fin d → ℝ) (theta : Matrix (Fin d) (Fin d) ℝ) :
    Option ℝ :=
  if theta = thetaᵀ then
    some ((1 / (m : ℝ)) * ∑ r, ∑ i, (Real.log (Real.exp (isingField X theta i r)
      + Real.exp (-isingField X theta i r)) - X i r * isingField X theta i r))
  else none

/-- One summand of the gradient (regain/generalized_linear_model/glm_ising.py:75-78), row `r`,
column `j`. -/
noncomputable def isingTerm {m d : ℕ} (X : Fin m → Fin d → ℝ) (theta : Matrix (Fin d) (Fin d) ℝ)
    (i : Fin m) (r j : Fin d) : ℝ :=
  (1 / (m : ℝ)) * X i j * ((Real.exp (isingField X theta i r) - Real.exp (-isingField X theta i r)) /
    (Real.exp (isingField X theta i r) + Real.exp (-isingField X theta i r)) - X i r)

/-- `_gradient_ising(X, theta, n)` with `A = None`
(regain/generalized_linear_model/glm_ising.py:68-87). The inner `return sum_` is inside the loop
over the samples, so only the first sample is added; without samples the inner function returns
`None` and the assignment fails (`none`). -/
noncomputable def gradientIsing {m d : ℕ} (X : Fin m → Fin d → ℝ) (theta : Matrix (Fin d) (Fin d) ℝ) :
    Option (Matrix (Fin d) (Fin d) ℝ) :=
  if h : 0 < m then
    some fun r j => if j = r then 0 else isingTerm X theta ⟨0, h⟩ r j
  else none

/-- One iteration of `_fit` without line search
(regain/generalized_linear_model/glm_ising.py:118-122). -/
noncomputable def isingStep {m d : ℕ} (X : Fin m → Fin d → ℝ) (alpha gamma : ℝ)
    (theta : Matrix (Fin d) (Fin d) ℝ) : Option (Matrix (Fin d) (Fin d) ℝ) :=
  (gradientIsing X theta).map fun g =>
    let new := theta - gamma • g
    softThresholdingOffDiagonal ((1 / 2 : ℝ) • (new + newᵀ)) (alpha * gamma)

/-! ### Poisson data check -/

/-- A truth value used as a number. -/
def boolToInt (b : Bool) : ℤ := if b then 1 else 0

open Classical in
/-- The guard `np.any(self.data) < 0` of `TemporalPoissonModel.fit`
(regain/generalized_linear_model/glm_time_poisson.py:422): `np.any` gives one truth value, which is
then compared with 0. `true` means that ValueError is raised. -/
noncomputable def poissonRejects {ι : Type*} (data : ι → ℝ) : Bool :=
  decide (boolToInt (decide (∃ i, data i ≠ 0)) < 0)

/-! ### Gaussian neighbourhood regression -/

variable {ι : Type*} [Fintype ι]

/-- `X[:, selector].dot(theta)`; the columns other than `r` are indexed by `ι`. -/
def linPred {m : ℕ} (Xs : Fin m → ι → ℝ) (theta : ι → ℝ) (i : Fin m) : ℝ := ∑ k, Xs i k * theta k

/-- `objective` (regain/generalized_linear_model/glm_gaussian.py:42-45). `Xs` are the columns
`X[:, selector]`, `xr` is the column `X[:, r]`. -/
noncomputable def gaussObjective {m : ℕ} (Xs : Fin m → ι → ℝ) (xr : Fin m → ℝ) (alpha : ℝ)
    (theta : ι → ℝ) : ℝ :=
  -(1 / (m : ℝ)) * (∑ i, xr i * linPred Xs theta i)
    + (1 / (2 * (m : ℝ))) * (∑ i, linPred Xs theta i ^ 2) + alpha * ∑ k, |theta k|

/-- `gradient` (regain/generalized_linear_model/glm_gaussian.py:65-68). -/
noncomputable def gaussGradient {m : ℕ} (Xs : Fin m → ι → ℝ) (xr : Fin m → ℝ) (theta : ι → ℝ) : ι → ℝ :=
  fun k => -(1 / (m : ℝ)) * (∑ i, xr i * Xs i k) + (1 / (m : ℝ)) * ∑ i, Xs i k * linPred Xs theta i

/-- One iteration (regain/generalized_linear_model/glm_gaussian.py:73-74). -/
noncomputable def gaussStep {m : ℕ} (Xs : Fin m → ι → ℝ) (xr : Fin m → ℝ) (alpha gamma : ℝ)
    (theta : ι → ℝ) : ι → ℝ :=
  softThresholding (fun k => theta k - gamma * gaussGradient Xs xr theta k) (alpha * gamma)

open Classical in
/-- The loop of `fit_each_variable` (regain/generalized_linear_model/glm_gaussian.py:72-91) for a given
step: the last iterate, after at most `maxIter` steps or as soon as two consecutive iterates are closer
than `tol` in norm (histories left out). -/
noncomputable def nodeLoop (step : (ι → ℝ) → ι → ℝ) (tol : ℝ) : ℕ → (ι → ℝ) → (ι → ℝ)
  | 0, theta => theta
  | k + 1, theta =>
    if Real.sqrt (∑ j, (theta j - step theta j) ^ 2) < tol then step theta
    else nodeLoop step tol k (step theta)

/-- What `fit_each_variable` of the Gaussian model is called with. -/
structure NodeFitArgs where
  alpha : ℝ
  gamma : ℝ
  tol : ℝ
  maxIter : ℕ

/-- User-visible options of `Gaussian_GLM_GM` and its `fit`
(regain/generalized_linear_model/glm_gaussian.py:157-184). -/
structure GaussOptions where
  alpha : ℝ := 1 / 100
  tol : ℝ := 1 / 10000
  maxIter : ℕ := 100
  gamma : ℝ := 1 / 1000

/-- The call `fit_each_variable(X, ix, self.alpha)` inside `Gaussian_GLM_GM.fit`
(regain/generalized_linear_model/glm_gaussian.py:196, defaults at lines 48-60). -/
noncomputable def gaussFitCall (o : GaussOptions) : NodeFitArgs :=
  { alpha := o.alpha, gamma := 1 / 1000, tol := 1 / 1000, maxIter := 1000 }

/-! ### Poisson neighbourhood regression -/

/-- `loss_single_variable` (regain/generalized_linear_model/glm_poisson.py:44-50). -/
noncomputable def poissonLoss {m : ℕ} (Xs : Fin m → ι → ℝ) (xr : Fin m → ℝ) (theta : ι → ℝ) : ℝ :=
  (1 / (m : ℝ)) * ∑ i, (Real.exp (linPred Xs theta i) - xr i * linPred Xs theta i)

/-- `gradient` with `A = None` (regain/generalized_linear_model/glm_poisson.py:95-101). -/
noncomputable def poissonGradient {m : ℕ} (Xs : Fin m → ι → ℝ) (xr : Fin m → ℝ) (theta : ι → ℝ) :
    ι → ℝ :=
  fun k => -(1 / (m : ℝ)) * ((∑ i, Xs i k * xr i) - ∑ i, Xs i k * Real.exp (linPred Xs theta i))

/-- The bound `diff` of the line search (regain/generalized_linear_model/glm_poisson.py:114-116).
The loss and its gradient are parameters so that the search can be discussed on its own. -/
noncomputable def searchBound (loss : (ι → ℝ) → ℝ) (grad old theta : ι → ℝ) (gamma : ℝ) : ℝ :=
  loss old - (∑ k, grad k * (old k - theta k)) + (∑ k, (old k - theta k) ^ 2) / (2 * gamma)

open Classical in
/-- The `while True` line search (regain/generalized_linear_model/glm_poisson.py:108-126): at most
`fuel` passes, `none` if the search has not ended by then. `theta` is the local variable, which is a step
behind `old` only on the first pass: after a rejection it is already a full step from `old`, and the next
pass adds another one. The loss is real valued, so the tests for inf and nan never fire. -/
noncomputable def lineSearch (loss : (ι → ℝ) → ℝ) (grad old : ι → ℝ) (alpha shrink : ℝ) :
    ℕ → (ι → ℝ) → ℝ → Option ((ι → ℝ) × ℝ)
  | 0, _, _ => none
  | fuel + 1, theta, gamma =>
    let theta := softThresholding (fun k => theta k - gamma * grad k) (alpha * gamma)
    if loss theta > searchBound loss grad old theta gamma then
      let gamma := shrink * gamma
      let theta := softThresholding (fun k => old k - gamma * grad k) (alpha * gamma)
      lineSearch loss grad old alpha shrink fuel theta gamma
    else some (theta, gamma)

end Verif.Model
