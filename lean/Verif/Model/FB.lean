import Verif.Model.TGL
import Verif.Model.FL
import Verif.Model.Metrics

/-! Model of `regain/forward_backward/forward_backward.py` and of the solver
`tgl_forward_backward` of `regain/forward_backward/time_graphical_lasso_.py`, for scalar `alpha`,
`beta` and `time_norm=1`. Exceptions are values of `PyErr`. -/

namespace Verif.Model

open Matrix

set_option autoImplicit false
set_option linter.unusedSectionVars false

/-- Python exceptions the solver can leave with. -/
inductive PyErr where
  | value
  | type
  | name
  | index
  deriving DecidableEq

/-- `a <= b` on floats: false as soon as one side is nan. -/
def xfLe : XF → XF → Prop
  | .fin a, .fin b => a ≤ b
  | .ninf, .nan => False
  | .ninf, _ => True
  | .nan, .pinf => False
  | _, .pinf => True
  | _, _ => False

variable {n : Type*} [Fintype n] [LinearOrder n] {T : ℕ}

/-- `_scalar_product(x, y)`, regain/forward_backward/forward_backward.py:36-37. -/
def scalarProduct {k : ℕ} (x y : Batch k n) : ℝ := ∑ t, ∑ i, ∑ j, x t i j * y t i j

/-- Arguments of `tgl_forward_backward`, regain/forward_backward/time_graphical_lasso_.py:139-164.
`n_samples=None` is `none`. Left out: `verbose`, `return_history`, `return_n_linesearch` (they only
select what is printed or returned), `time_norm` (fixed to 1), `compute_objective` (unused by the
code), `init` (the initial precision is an argument of the run). -/
structure FBArgs (T : ℕ) (n : Type*) where
  empCov : Batch (T + 1) n
  alpha : ℝ
  beta : ℝ
  maxIter : ℕ
  nSamples : Option (Fin (T + 1) → ℝ)
  tol : ℝ
  delta : ℝ
  gamma : ℝ
  lamda : ℝ
  eps : ℝ
  debug : Bool := false
  returnNIter : Bool := true
  choose : String := "gamma"
  lamdaCriterion : String := "b"
  vareps : ℝ
  stopAt : Option ℝ := none
  stopWhen : ℝ
  laplacian : Bool := false

/-- `n_samples` as used by `loss`, regain/covariance/time_graphical_lasso_.py:59-64. -/
def FBArgs.samples (a : FBArgs T n) : Fin (T + 1) → ℝ := a.nSamples.getD fun _ => 1

/-- `loss` (lines 50-54) and `loss_laplacian` (lines 92-96) of
regain/forward_backward/time_graphical_lasso_.py, as bound by `function_f`. -/
noncomputable def fbLoss (a : FBArgs T n) (K : Batch (T + 1) n) : XF :=
  let l := XF.add (tglLoss a.empCov K a.samples) (.fin (a.vareps / 2 * scalarProduct K K))
  if a.laplacian then XF.add l (.fin (a.beta * batchSq (tail K - init K))) else l

/-- `penalty` (lines 70-82, `psi = vector_p_norm` with `p=1`) and `penalty_laplacian`
(lines 114-121) of regain/forward_backward/time_graphical_lasso_.py, as bound by `function_g`. -/
noncomputable def fbPenalty (a : FBArgs T n) (K : Batch (T + 1) n) : ℝ :=
  if a.laplacian then a.alpha * ∑ t, l1OdNorm (K t)
  else a.alpha * ∑ t, l1OdNorm (K t) + a.beta * ∑ i, ∑ j, ∑ p, |(tail K - init K) p i j|

/-- `objective` (lines 85-89) and `objective_laplacian` (lines 124-130) of
regain/forward_backward/time_graphical_lasso_.py. -/
noncomputable def fbObjective (a : FBArgs T n) (K : Batch (T + 1) n) : XF :=
  XF.add (fbLoss a K) (.fin (fbPenalty a K))

/-- `aux` of `grad_loss_laplacian` before scaling, regain/forward_backward/
time_graphical_lasso_.py:103-107: first, last, then the interior entries (the loop never touches the
ends). -/
noncomputable def laplacianAux (x : Batch (T + 2) n) : Batch (T + 2) n := fun t =>
  if t = 0 then x 0 - x 1
  else if t = Fin.last (T + 1) then x (Fin.last (T + 1)) - x (Fin.last T).castSucc
  else (2 : ℝ) • x t - x (t - 1) - x (t + 1)

/-- `grad_loss(x, emp_cov, n_samples, x_inv, vareps)`, regain/forward_backward/
time_graphical_lasso_.py:57-67; `x_inv` is the list of `linalg.pinvh` of the matrices. -/
def gradLoss (S : Batch (T + 1) n) (nS : Fin (T + 1) → ℝ) (vareps : ℝ) (x xinv : Batch (T + 1) n) :
    Batch (T + 1) n :=
  fun t => nS t • (S t - xinv t) + vareps • x t

/-- `gradient_f`, regain/forward_backward/time_graphical_lasso_.py:57-67 and 99-111:
`n_samples[:, None, None]` raises TypeError for `None`; `x[1]` raises IndexError for a single time
point. -/
noncomputable def fbGradient (a : FBArgs T n) (x xinv : Batch (T + 1) n) :
    Except PyErr (Batch (T + 1) n) :=
  match a.nSamples with
  | none => .error .type
  | some nS =>
      if a.laplacian then
        match T, a, x, xinv, nS with
        | 0, _, _, _, _ => .error .index
        | _ + 1, a, x, xinv, nS =>
            .ok (gradLoss a.empCov nS a.vareps x xinv + (2 * a.beta) • laplacianAux x)
      else .ok (gradLoss a.empCov nS a.vareps x xinv)

/-- The proximal step: regain/forward_backward/forward_backward.py:79-84 and
regain/forward_backward/time_graphical_lasso_.py:296-303. `tv` is the one-dimensional
total-variation solver of `prox_tv`. -/
noncomputable def fbProx (tv : (Fin (T + 1) → ℝ) → ℝ → Fin (T + 1) → ℝ) (a : FBArgs T n)
    (x grad : Batch (T + 1) n) (gamma : ℝ) : Batch (T + 1) n :=
  let xhat : Batch (T + 1) n := x - gamma • grad
  if a.laplacian then fun t => softThresholdingOffDiagonal (xhat t) (a.alpha * gamma)
  else proxFL tv xhat (a.beta * gamma) (a.alpha * gamma) true true

open Classical in
/-- The two ways to leave the loop of `choose_gamma`, regain/forward_backward/
forward_backward.py:85-95: positive definiteness unless `choose == "gamma"`, the sufficient decrease
criterion otherwise. -/
noncomputable def gammaAccept (choose : String) (f : Batch (T + 1) n → XF) (x grad : Batch (T + 1) n)
    (lamda delta : ℝ) (gamma : ℝ) (prox : Batch (T + 1) n) : Bool :=
  if choose = "gamma" then
    let d := prox - x
    decide (xfLe (XF.sub (f (x + lamda • d)) (f x))
      (.fin (lamda * (scalarProduct d grad + delta / gamma * scalarProduct d d))))
  else decide (∀ t, isPosDef (prox t) = true)

/-- The loop of `choose_gamma`, regain/forward_backward/forward_backward.py:78-98. `last` is the value
of the local `prox` left by the previous pass (`none`: not bound yet, so `return` raises NameError).
-/
def gammaLoop {β : Type*} (prox : ℝ → β) (accept : ℝ → β → Bool) (eps : ℝ) :
    ℕ → ℝ → Option β → Except PyErr (ℝ × β)
  | 0, _, none => .error .name
  | 0, gamma, some y => .ok (gamma, y)
  | k + 1, gamma, _ =>
      if accept gamma (prox gamma) then .ok (gamma, prox gamma)
      else gammaLoop prox accept eps k (gamma * eps) (some (prox gamma))

/-- `choose_gamma`, regain/forward_backward/forward_backward.py:54-98. -/
noncomputable def chooseGamma (tv : (Fin (T + 1) → ℝ) → ℝ → Fin (T + 1) → ℝ) (a : FBArgs T n)
    (maxIter : ℕ) (gamma : ℝ) (x grad : Batch (T + 1) n) (lamda : ℝ) :
    Except PyErr (ℝ × Batch (T + 1) n) :=
  gammaLoop (fbProx tv a x grad) (gammaAccept a.choose (fbLoss a) x grad lamda a.delta) a.eps
    maxIter gamma none

open Classical in
/-- The acceptance test of `choose_lamda` in one pass, regain/forward_backward/
forward_backward.py:128-164, for the criteria `"b"` and `"c"` (criterion `"a"` compares gradients and
is not modelled: `none` stands for the ValueError of line 163). -/
noncomputable def lamdaAccept (a : FBArgs T n) (x grad prox : Batch (T + 1) n) (gamma lamda : ℝ) :
    Option Bool :=
  let d := prox - x
  let x1 := x + lamda • d
  if a.lamdaCriterion = "b" then
    some (decide (xfLe (XF.sub (fbLoss a x1) (fbLoss a x))
        (.fin (lamda * (scalarProduct d grad + a.delta / gamma * scalarProduct d d)))
      ∧ ∀ t, isPosDef (x1 t) = true))
  else if a.lamdaCriterion = "c" then
    some (decide (xfLe (XF.sub (fbObjective a x1) (fbObjective a x))
      (.fin (lamda * ((1 - a.delta) * (fbPenalty a prox - fbPenalty a x + scalarProduct d grad))))))
  else none

/-- The loop of `choose_lamda`, regain/forward_backward/forward_backward.py:139-166; returns the step
and the number of passes. `max_iter=0` leaves `i` unbound. -/
def lamdaLoop (accept : ℝ → Option Bool) (eps : ℝ) : ℕ → ℕ → ℝ → Except PyErr (ℝ × ℕ)
  | 0, 0, _ => .error .name
  | 0, i + 1, lamda => .ok (lamda, i + 1)
  | k + 1, i, lamda =>
      match accept lamda with
      | none => .error .value
      | some true => .ok (lamda, i + 1)
      | some false => lamdaLoop accept eps k (i + 1) (lamda * eps)

/-- Parameter names of `choose_lamda`, regain/forward_backward/forward_backward.py:101-118. -/
def chooseLamdaParams : List String :=
  ["lamda", "x", "gamma", "delta", "eps", "function_f", "penalty_f", "objective_f", "gradient_f",
    "function_g", "max_iter", "criterion", "p", "grad", "prox", "min_eigen_x"]

/-- Keywords of the only call of `choose_lamda`, regain/forward_backward/
time_graphical_lasso_.py:306-322. -/
def chooseLamdaKeywords : List String :=
  ["function_f", "objective_f", "gradient_f", "function_g", "gamma", "delta", "eps", "criterion",
    "max_iter", "p", "grad", "prox", "vareps"]

/-- Python: a keyword that is no parameter of the callee raises TypeError. -/
def keywordsAccepted (params kws : List String) : Bool := kws.all fun k => params.contains k

/-- `choose_lamda(...)` as called by the solver, regain/forward_backward/
time_graphical_lasso_.py:305-323. -/
noncomputable def chooseLamdaCall (a : FBArgs T n) (x grad prox : Batch (T + 1) n)
    (gamma lamda : ℝ) : Except PyErr (ℝ × ℕ) :=
  if keywordsAccepted chooseLamdaParams chooseLamdaKeywords then
    lamdaLoop (lamdaAccept a x grad prox gamma) a.eps 200 0 lamda
  else .error .type

/-- Local variables at the top of the loop, regain/forward_backward/time_graphical_lasso_.py:270-273. -/
structure FBState (T : ℕ) (n : Type*) where
  K : Batch (T + 1) n
  gamma : ℝ
  lamda : ℝ
  maxResidual : XF

/-- `K + min(max(lamda, 0), 1) * (y - K)`, regain/forward_backward/time_graphical_lasso_.py:325. -/
noncomputable def fbUpdate (lamda : ℝ) (K y : Batch (T + 1) n) : Batch (T + 1) n :=
  K + min (max lamda 0) 1 • (y - K)

/-- Step lengths and proximal point of one pass, regain/forward_backward/
time_graphical_lasso_.py:278-323: the new `gamma`, `lamda` and `y`. -/
noncomputable def fbDirection (tv : (Fin (T + 1) → ℝ) → ℝ → Fin (T + 1) → ℝ) (a : FBArgs T n)
    (it : ℕ) (s : FBState T n) (grad : Batch (T + 1) n) :
    Except PyErr (ℝ × ℝ × Batch (T + 1) n) :=
  let first : Except PyErr (ℝ × Batch (T + 1) n) :=
    if a.choose = "gamma" ∨ a.choose = "both" then
      chooseGamma tv a 200 (if it > 0 then s.gamma / a.eps else s.gamma) s.K grad s.lamda
    else .ok (s.gamma, fbProx tv a s.K grad s.gamma)
  match first with
  | .error e => .error e
  | .ok (gamma, y) =>
      if a.choose = "lamda" ∨ a.choose = "both" then
        match chooseLamdaCall a s.K grad y gamma
            (min (if it > 0 then s.lamda / a.eps else s.lamda) 1) with
        | .error e => .error e
        | .ok (lamda, _) => .ok (gamma, lamda, y)
      else .ok (gamma, s.lamda, y)

open Classical in
/-- The stopping rule, regain/forward_backward/time_graphical_lasso_.py:352-378 (the branch `if 0:` is
dead): new `max_residual` and whether the loop breaks. -/
noncomputable def fbStop (a : FBArgs T n) (it : ℕ) (maxResidual : XF) (obj : XF) (gamma : ℝ)
    (grad xhat K Kprev : Batch (T + 1) n) : XF × Bool :=
  match a.stopAt with
  | some _ => (maxResidual, stopAtTest a.stopAt a.stopWhen obj)
  | none =>
      let resNorm := XF.div (.fin (Real.sqrt (batchSq (K - Kprev)))) (.fin gamma)
      let maxRes := XF.max maxResidual resNorm
      let normalizer := XF.add (XF.max (.fin (Real.sqrt (batchSq grad)))
        (XF.div (.fin (Real.sqrt (batchSq (xhat - K)))) (.fin |gamma|))) (.fin 1e-6)
      (maxRes, !a.debug && decide (xfLe (XF.div resNorm maxRes) (.fin a.tol)
        ∨ xfLe (XF.div resNorm normalizer) (.fin a.tol)) && decide (it > 0))

/-- One pass of the loop, regain/forward_backward/time_graphical_lasso_.py:273-378. Of the
`Convergence` record only `obj` is kept: no other field is read again. The stopping rule is computed
with the norms of whole arrays. `pinvh` is `scipy.linalg.pinvh`. -/
noncomputable def fbStep (pinvh : Matrix n n ℝ → Matrix n n ℝ)
    (tv : (Fin (T + 1) → ℝ) → ℝ → Fin (T + 1) → ℝ) (a : FBArgs T n) (it : ℕ) (s : FBState T n) :
    Except PyErr (FBState T n × XF × Bool) :=
  match fbGradient a s.K fun t => pinvh (s.K t) with
  | .error e => .error e
  | .ok grad =>
      match fbDirection tv a it s grad with
      | .error e => .error e
      | .ok (gamma, lamda, y) =>
          let K := fbUpdate lamda s.K y
          let obj := fbObjective a K
          let stop := fbStop a it s.maxResidual obj gamma grad (s.K - gamma • grad) K s.K
          .ok ({ K := K, gamma := gamma, lamda := lamda, maxResidual := stop.1 }, obj, stop.2)

/-- What the call returns. `nIter` is the last entry of the list when `return_n_iter`. -/
structure FBResult (T : ℕ) (n : Type*) where
  K : Batch (T + 1) n
  covariance : Batch (T + 1) n
  history : List XF
  converged : Bool
  nIter : Option ℕ

/-- `for iteration_ in range(max_iter): … else: warn`, regain/forward_backward/
time_graphical_lasso_.py:273-380. The last component is the loop variable (`none`: unbound). -/
noncomputable def fbLoop (pinvh : Matrix n n ℝ → Matrix n n ℝ)
    (tv : (Fin (T + 1) → ℝ) → ℝ → Fin (T + 1) → ℝ) (a : FBArgs T n) :
    (fuel it : ℕ) → FBState T n → List XF → Option ℕ →
    Except PyErr (FBState T n × List XF × Bool × Option ℕ)
  | 0, _, s, hist, last => .ok (s, hist, false, last)
  | fuel + 1, it, s, hist, _ =>
      match fbStep pinvh tv a it s with
      | .error e => .error e
      | .ok (s', obj, stop) =>
          if stop then .ok (s', hist ++ [obj], true, some it)
          else fbLoop pinvh tv a fuel (it + 1) s' (hist ++ [obj]) (some it)

/-- The values accepted for `choose`, regain/forward_backward/time_graphical_lasso_.py:226-228. -/
def availableChoose : List String := ["gamma", "lamda", "fixed", "both"]

/-- `tgl_forward_backward`, regain/forward_backward/time_graphical_lasso_.py:139-390, started at the
precision `K0` computed by `init_precision`. With the l1 temporal norm and a single time point the
first objective (line 272) raises: `np.linalg.norm(b, axis=1)` on the empty array of differences is
an AxisError (a subclass of IndexError). -/
noncomputable def tglForwardBackward (pinvh : Matrix n n ℝ → Matrix n n ℝ)
    (tv : (Fin (T + 1) → ℝ) → ℝ → Fin (T + 1) → ℝ) (a : FBArgs T n) (K0 : Batch (T + 1) n) :
    Except PyErr (FBResult T n) :=
  if ¬ a.choose ∈ availableChoose then .error .value
  else if T = 0 ∧ a.laplacian = false then .error .index
  else
    match fbLoop pinvh tv a a.maxIter 0
        { K := K0, gamma := a.gamma, lamda := a.lamda, maxResidual := .ninf }
        [fbObjective a K0] none with
    | .error e => .error e
    | .ok (s, hist, broke, last) =>
        match a.returnNIter, last with
        | true, none => .error .name
        | r, l => .ok { K := s.K, covariance := fun t => pinvh (s.K t), history := hist,
                        converged := broke, nIter := if r then l.map (· + 1) else none }

end Verif.Model
