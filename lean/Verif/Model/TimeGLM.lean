import Verif.Model.Temporal
import Verif.Model.GLM
import Verif.Model.KernelArgs
import Verif.Model.Estimators

/-! Model of the time-varying Ising and Poisson estimators: `regain/generalized_linear_model/glm_time_ising.py` and
`regain/generalized_linear_model/glm_time_poisson.py`. The node penalty branch is not modelled. -/

namespace Verif.Model

open Matrix

set_option autoImplicit false

/-! ### The inner fits -/

/-- `_gradient_ising(X, theta, n, A, rho, T)` with a matrix `A`, regain/generalized_linear_model/glm_ising.py:68-87, for at
least one sample: the first sample only (the `return` is inside the loop), plus the derivative of the quadratic term. -/
noncomputable def isingGradA {m d : ℕ} (X : Fin (m + 1) → Fin d → ℝ) (A : Matrix (Fin d) (Fin d) ℝ) (rho T : ℝ)
    (theta : Matrix (Fin d) (Fin d) ℝ) : Matrix (Fin d) (Fin d) ℝ :=
  Matrix.of fun r j => (if j = r then 0 else isingTerm X theta 0 r j) + rho * T * (theta r j - A r j)

/-- One iteration of `_fit` with a matrix `A`, without line search, regain/generalized_linear_model/glm_ising.py:118-122. -/
noncomputable def isingFitStep {m d : ℕ} (X : Fin (m + 1) → Fin d → ℝ) (alpha gamma : ℝ)
    (A : Matrix (Fin d) (Fin d) ℝ) (rho T : ℝ) (theta : Matrix (Fin d) (Fin d) ℝ) : Matrix (Fin d) (Fin d) ℝ :=
  let new := theta - gamma • isingGradA X A rho T theta
  softThresholdingOffDiagonal ((1 / 2 : ℝ) • (new + newᵀ)) (alpha * gamma)

open Classical in
/-- The loop of `_fit`, regain/generalized_linear_model/glm_ising.py:115-163: at most `maxIter` iterations, stopping when
two consecutive iterates are closer than `tol` (histories left out). -/
noncomputable def isingFitLoop {d : ℕ} (step : Matrix (Fin d) (Fin d) ℝ → Matrix (Fin d) (Fin d) ℝ) (tol : ℝ) :
    ℕ → Matrix (Fin d) (Fin d) ℝ → Matrix (Fin d) (Fin d) ℝ
  | 0, theta => theta
  | k + 1, theta =>
    if Real.sqrt (∑ i, ∑ j, (theta i j - step theta i j) ^ 2) < tol then step theta
    else isingFitLoop step tol k (step theta)

/-- `_fit(X, A, alpha, gamma, tol, max_iter, warm_start=None, rho, T)[0]`, regain/generalized_linear_model/glm_ising.py:
89-172, as called at regain/generalized_linear_model/glm_time_ising.py:174-188: from the zero matrix. -/
noncomputable def isingFit {m d : ℕ} (X : Fin (m + 1) → Fin d → ℝ) (alpha gamma tol : ℝ) (maxIter : ℕ) (T : ℝ)
    (A : Matrix (Fin d) (Fin d) ℝ) (rho : ℝ) : Matrix (Fin d) (Fin d) ℝ :=
  isingFitLoop (isingFitStep X alpha gamma A rho T) tol maxIter 0

/-- The K-update of the Poisson model at one time, regain/generalized_linear_model/glm_time_poisson.py:168-184: the
neighbourhoods are fitted one variable at a time and combined by `build_adjacency_matrix(thetas_pred, "union")`.
Simplified: the neighbourhood fits (with their line search) are an arbitrary function. -/
noncomputable def poissonInner {d : ℕ} (neighbours : Matrix (Fin d) (Fin d) ℝ → ℝ → ℕ → ℕ → ℝ)
    (A : Matrix (Fin d) (Fin d) ℝ) (rho : ℝ) : Matrix (Fin d) (Fin d) ℝ :=
  Matrix.of fun i j => buildAdjacency d (neighbours A rho) "union" i j

/-! ### The solver -/

variable {k : ℕ} {E : Type*} [Fintype E] {n : Type*} [Fintype n] [DecidableEq n]

/-- Local variables of the solver, regain/generalized_linear_model/glm_time_ising.py:137-157. -/
structure TGState (k : ℕ) (E n : Type*) where
  K : Batch k n
  ZL : E → Matrix n n ℝ
  ZR : E → Matrix n n ℝ
  UL : E → Matrix n n ℝ
  UR : E → Matrix n n ℝ
  ZLold : E → Matrix n n ℝ
  ZRold : E → Matrix n n ℝ
  rho : ℝ

/-- Arguments of the solver, regain/generalized_linear_model/glm_time_ising.py:72-92 and glm_time_poisson.py:70-88, after
`check_norm_prox`. `inner t A rho` is the matrix fitted at time `t`; `loss t K` is `loss(X[t], K)`; `weight e` is the
entry of the kernel for the pair. -/
structure TGArgs (k : ℕ) (E n : Type*) where
  inner : Fin k → Matrix n n ℝ → ℝ → Matrix n n ℝ
  loss : Fin k → Matrix n n ℝ → ℝ
  alpha : ℝ
  weight : E → ℝ
  psi : Matrix n n ℝ → ℝ
  prox : Matrix n n ℝ → ℝ → Matrix n n ℝ
  tol : ℝ
  rtol : ℝ
  stopAt : Option ℝ := none
  stopWhen : ℝ := 1 / 10000
  computeObjective : Bool := true
  rhoOptions : RhoOptions := {}

/-- The argument record of a call with a given kernel (`np.eye(n_times)` when it is `None`), regain/
generalized_linear_model/glm_time_ising.py:135-136. -/
def tgArgsOf (a : TGArgs k Empty n) (kernel : Option (Fin k → Fin k → ℝ)) : TGArgs k (PairIdx k) n :=
  { inner := a.inner, loss := a.loss, alpha := a.alpha, weight := kernelWeight kernel, psi := a.psi, prox := a.prox,
    tol := a.tol, rtol := a.rtol, stopAt := a.stopAt, stopWhen := a.stopWhen,
    computeObjective := a.computeObjective, rhoOptions := a.rhoOptions }

/-- `loss_ising(X, precision)` and `loss_poisson`, regain/generalized_linear_model/glm_time_ising.py:48-55 and
glm_time_poisson.py:49-53, without `n_samples`: the sum of `-1 * loss`. -/
def tgLoss (loss : Fin k → Matrix n n ℝ → ℝ) (K : Batch k n) : ℝ := ∑ t, -1 * loss t (K t)

/-- `objective(X, K, Z_M, alpha, kernel, psi)`, regain/generalized_linear_model/glm_time_ising.py:58-69. -/
def tgObjectiveCode (a : TGArgs k E n) (K : Batch k n) (ZL ZR : E → Matrix n n ℝ) : ℝ :=
  tgLoss a.loss K + a.alpha * ∑ t, l1OdNorm (K t) + ∑ e, a.psi (ZR e - ZL e) * a.weight e

/-- The matrix `A` at one time, regain/generalized_linear_model/glm_time_ising.py:163-170: the sum over the pairs is divided
by `n_times`, although there are `n_times - 1` of them. -/
noncomputable def tgA (g : TimePairs k E) (s : TGState k E n) (t : Fin k) : Matrix n n ℝ :=
  symmetrize (((k : ℝ))⁻¹ • (scatter g.src (fun e => s.ZL e - s.UL e) t + scatter g.dst (fun e => s.ZR e - s.UR e) t))

/-- The updates of one pass, regain/generalized_linear_model/glm_time_ising.py:160-217, 275-276 (the penalty is still the
old one). -/
noncomputable def tgNext (g : TimePairs k E) (a : TGArgs k E n) (s : TGState k E n) : TGState k E n :=
  let K : Batch k n := fun t => a.inner t (tgA g s t) s.rho
  let AL := fun e => K (g.src e) + s.UL e
  let AR := fun e => K (g.dst e) + s.UR e
  let ZL := fun e => tglZ1 a.prox (a.weight e) s.rho (AL e) (AR e)
  let ZR := fun e => tglZ2 a.prox (a.weight e) s.rho (AL e) (AR e)
  { K := K, ZL := ZL, ZR := ZR
    UL := fun e => s.UL e + (K (g.src e) - ZL e)
    UR := fun e => s.UR e + (K (g.dst e) - ZR e)
    ZLold := ZL, ZRold := ZR, rho := s.rho }

/-- The diagnostics, regain/generalized_linear_model/glm_time_ising.py:220-274. -/
noncomputable def tgDiagnose (g : TimePairs k E) (a : TGArgs k E n) (s s' : TGState k E n) : TGLCheck :=
  let size : ℝ := Fintype.card n * k
  let KL := fun e => s'.K (g.src e)
  let KR := fun e => s'.K (g.dst e)
  { obj := if a.computeObjective then .fin (tgObjectiveCode a s'.K s'.ZL s'.ZR) else .nan
    rnorm := Real.sqrt (pairSq (KL - s'.ZL) + pairSq (KR - s'.ZR))
    snorm := s.rho * Real.sqrt (pairSq (s'.ZL - s.ZLold) + pairSq (s'.ZR - s.ZRold))
    ePri := size * a.tol
      + a.rtol * max (Real.sqrt (pairSq s'.ZL + pairSq s'.ZR)) (Real.sqrt (batchSq s'.K + (pairSq KL + pairSq KR)))
    eDual := size * a.tol + a.rtol * s.rho * Real.sqrt (pairSq s'.UL + pairSq s'.UR) }

/-- Penalty change with the rescaling of the duals, regain/generalized_linear_model/glm_time_ising.py:289-298. -/
noncomputable def tgRescale (rhoNew : ℝ) (s : TGState k E n) : TGState k E n :=
  { s with
    UL := fun e => (s.rho / rhoNew) • s.UL e
    UR := fun e => (s.rho / rhoNew) • s.UR e
    rho := rhoNew }

open Classical in
/-- One pass through the loop body, regain/generalized_linear_model/glm_time_ising.py:159-298. -/
noncomputable def tgBody (g : TimePairs k E) (a : TGArgs k E n) (_it : ℕ) (s : TGState k E n) :
    TGState k E n × TGLCheck × Bool :=
  let s' := tgNext g a s
  let c := tgDiagnose g a s s'
  let stop := stopAtTest a.stopAt a.stopWhen c.obj || decide (c.rnorm ≤ c.ePri ∧ c.snorm ≤ c.eDual)
  (if stop then s' else tgRescale (updateRho a.rhoOptions s.rho c.rnorm c.snorm) s', c, stop)

/-- State before the loop, regain/generalized_linear_model/glm_time_ising.py:137-157: everything is zero. -/
def tgInit (rho : ℝ) : TGState k E n := ⟨0, 0, 0, 0, 0, 0, 0, rho⟩

/-- `_fit_time_ising_model` and `_fit_time_poisson_model`, regain/generalized_linear_model/glm_time_ising.py:72-308 and
glm_time_poisson.py:70-293. -/
noncomputable def fitTimeGLM (g : TimePairs k E) (a : TGArgs k E n) (rho : ℝ) (maxIter : ℕ)
    (returnHistory returnNIter : Bool) : KTReturn k n :=
  let first : TGLCheck := { obj := .fin (tgObjectiveCode a 0 0 0) }
  let r := runLoop (tgBody g a) maxIter (tgInit rho)
  let hist := if returnHistory then some (first :: r.checks) else none
  if returnNIter then
    match r.lastIter with
    | none => .unbound
    | some it => .ok r.state.K hist (some (it + 1)) (!r.broke)
  else .ok r.state.K hist none (!r.broke)

/-- The arguments of a run on Ising data, `X[t]` being the block of time `t`, regain/generalized_linear_model/
glm_time_ising.py:173-188 (`max_iter` and `tol` are shared with the inner fit). -/
noncomputable def timeIsingArgs {m d : ℕ} (X : Fin k → Fin (m + 1) → Fin d → ℝ) (alpha gamma tol rtol : ℝ) (maxIter : ℕ)
    (weight : E → ℝ) (psi : Matrix (Fin d) (Fin d) ℝ → ℝ)
    (prox : Matrix (Fin d) (Fin d) ℝ → ℝ → Matrix (Fin d) (Fin d) ℝ) : TGArgs k E (Fin d) where
  inner t A rho := isingFit (X t) alpha gamma tol maxIter k A rho
  loss t K := (isingLoss (X t) K).getD 0
  alpha := alpha
  weight := weight
  psi := psi
  prox := prox
  tol := tol
  rtol := rtol

/-! ### The estimators -/

/-- What `fit` may raise. -/
inductive FitErr where
  | value
  | attribute
  | type
  deriving DecidableEq

/-- `PyErr` seen by the caller of `fit`. -/
def FitErr.ofPy : PyErr → FitErr
  | .value => .value
  | _ => .type

/-- The data check and the kernel handed to the solver by `TemporalIsingModel.fit`,
regain/generalized_linear_model/glm_time_ising.py:411-513. `kerParam = none` is `"auto"`: after the check that the kernel
is callable the code reads `self.init`, which no constructor sets. Classes of different sizes make `np.array` of the
blocks fail. (Simplified: with numpy before 1.24 that failure comes later, when the shape is unpacked.) -/
noncomputable def temporalIsingFit {α : Type*} [LinearOrder α] {N d : ℕ} (X : Fin N → Fin d → ℝ) (y : Fin N → α)
    (kernel : KernelArg) (kerParam : Option ℝ) : Except FitErr Arr2 :=
  if (Finset.univ.image fun p : Fin N × Fin d => X p.1 p.2).card ≠ 2 then .error .value
  else if ¬ ∀ i j, (rowsOf y (y i)).card = (rowsOf y (y j)).card then .error .value
  else
    match kerParam with
    | none =>
        match kernel with
        | .callable _ _ => .error .attribute
        | _ => .error .value
    | some p =>
        match fitKernel (classesOf y).length p kernel with
        | .ok a => .ok a
        | .error e => .error (.ofPy e)

/-- The same for `TemporalPoissonModel.fit`, regain/generalized_linear_model/glm_time_poisson.py:407-508 (its test for
negative data never rejects, see `poissonRejects`); in the `"auto"` mode `self.precision_` is read before it is set
(simplified: `max_iter_ext >= 1`; with 0 nothing is fitted and `fit` returns without setting `precision_`). -/
noncomputable def temporalPoissonFit {α : Type*} [LinearOrder α] {N : ℕ} (y : Fin N → α)
    (kernel : KernelArg) (kerParam : Option ℝ) : Except FitErr Arr2 :=
  if ¬ ∀ i j, (rowsOf y (y i)).card = (rowsOf y (y j)).card then .error .value
  else
    match kerParam with
    | none =>
        match kernel with
        | .callable _ _ => .error .attribute
        | _ => .error .value
    | some p =>
        match fitKernel (classesOf y).length p kernel with
        | .ok a => .ok a
        | .error e => .error (.ofPy e)

/-- `score` of the time-varying Ising and Poisson estimators, regain/generalized_linear_model/glm_time_ising.py:534-564 and
glm_time_poisson.py:530-560. -/
def temporalGLMScore {α : Type*} {N d : ℕ} (_X : Fin N → Fin d → ℝ) (_y : Fin N → α)
    (_precision : List (Matrix (Fin d) (Fin d) ℝ)) : ℝ := -99999999

/-- Binding of keyword arguments: `TypeError` when a keyword is no parameter of the function (no `**kwargs`). -/
def bindKeywords (params keywords : List String) : Except FitErr Unit :=
  if keywords.all fun kw => params.contains kw then .ok () else .error .type

/-- Parameters of `TemporalIsingModel.__init__`, regain/generalized_linear_model/glm_time_ising.py:374-391. -/
def temporalIsingParams : List String :=
  ["distribution", "alpha", "kernel", "rho", "tol", "rtol", "psi", "max_iter", "verbose", "assume_centered",
    "return_history", "compute_objective", "ker_param", "max_iter_ext", "n_cores"]

/-- Parameters of `TemporalPoissonModel.__init__`, regain/generalized_linear_model/glm_time_poisson.py:371-387. -/
def temporalPoissonParams : List String :=
  ["alpha", "kernel", "rho", "gamma", "tol", "rtol", "psi", "max_iter", "verbose", "return_history",
    "compute_objective", "ker_param", "max_iter_ext", "n_cores"]

/-- `SimilarityTemporalIsingModel.__init__`: the keywords of the call of the parent constructor,
regain/generalized_linear_model/glm_time_ising.py:655-666. -/
def similarityIsingInit : Except FitErr Unit :=
  bindKeywords temporalIsingParams ["alpha", "rho", "tol", "rtol", "max_iter", "verbose", "assume_centered",
    "compute_objective", "return_history", "psi"]

/-- `SimilarityTemporalPoissonModel.__init__`: the keywords of the call of the parent constructor,
regain/generalized_linear_model/glm_time_poisson.py:649-663. -/
def similarityPoissonInit : Except FitErr Unit :=
  bindKeywords temporalPoissonParams ["alpha", "rho", "tol", "rtol", "max_iter", "verbose", "gamma", "assume_centered",
    "update_rho_options", "compute_objective", "return_history", "psi", "init"]

end Verif.Model
