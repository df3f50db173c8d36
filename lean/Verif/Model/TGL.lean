import Verif.Model.GL
import Mathlib.Data.Fin.Tuple.Basic

/-! Model of `regain/covariance/time_graphical_lasso_.py` (ADMM solver, scalar `alpha` and `beta`;
the node penalty branch, lines 213-221, is not part of this file). -/

namespace Verif.Model

open Matrix

set_option autoImplicit false

variable {n : Type*} [Fintype n] [DecidableEq n]

/-- An array of shape `(k, d, d)`. -/
abbrev Batch (k : ℕ) (n : Type*) := Fin k → Matrix n n ℝ

/-- `squared_norm(X)` of a batch (sklearn: sum of squares of all entries). -/
def batchSq {k : ℕ} (X : Batch k n) : ℝ := ∑ t, ∑ i, ∑ j, X t i j ^ 2

/-- `X[:-1]`. -/
def init {T : ℕ} (X : Batch (T + 1) n) : Batch T n := fun p => X p.castSucc

/-- `X[1:]`. -/
def tail {T : ℕ} (X : Batch (T + 1) n) : Batch T n := fun p => X p.succ

/-- What `A[:-1] += X` adds at every time point. -/
def padLast {T : ℕ} (X : Batch T n) : Batch (T + 1) n := Fin.snoc (α := fun _ => Matrix n n ℝ) X 0

/-- What `A[1:] += X` adds at every time point. -/
def padFirst {T : ℕ} (X : Batch T n) : Batch (T + 1) n := Fin.cons (α := fun _ => Matrix n n ℝ) 0 X

/-- `divisor`, regain/covariance/time_graphical_lasso_.py:171-173 (for a single time point both
decrements hit the same entry). -/
def tglDivisor {T : ℕ} (t : Fin (T + 1)) : ℝ :=
  3 - (if t = 0 then 1 else 0) - (if t = Fin.last T then 1 else 0)

/-- Local variables at the top of the loop, regain/covariance/time_graphical_lasso_.py:158-168. -/
structure TGLState (T : ℕ) (n : Type*) where
  Z0 : Batch (T + 1) n
  Z1 : Batch T n
  Z2 : Batch T n
  U0 : Batch (T + 1) n
  U1 : Batch T n
  U2 : Batch T n
  Z0old : Batch (T + 1) n
  Z1old : Batch T n
  Z2old : Batch T n
  rho : ℝ

/-- A `Convergence` record, regain/utils.py:99-106 (fields not given are 0). -/
structure TGLCheck where
  obj : XF
  rnorm : ℝ := 0
  snorm : ℝ := 0
  ePri : ℝ := 0
  eDual : ℝ := 0

/-- Arguments of `time_graphical_lasso`, regain/covariance/time_graphical_lasso_.py:86-105, after
`check_norm_prox` (line 156) turned `psi` into a penalty and its prox (applied time point by time
point, as all of them do). -/
structure TGLArgs (T : ℕ) (n : Type*) where
  empCov : Batch (T + 1) n
  nSamples : Fin (T + 1) → ℝ
  alpha : ℝ
  beta : ℝ
  psi : Matrix n n ℝ → ℝ
  prox : Matrix n n ℝ → ℝ → Matrix n n ℝ
  tol : ℝ
  rtol : ℝ
  stopAt : Option ℝ := none
  stopWhen : ℝ := 1 / 10000
  computeObjective : Bool := true
  rhoOptions : RhoOptions := {}

open Classical in
/-- `batch_logdet` at one time point, regain/math.py:4-9. -/
noncomputable def logdetXF (K : Matrix n n ℝ) : XF :=
  if K.det > 0 then .fin (Real.log K.det) else .ninf

/-- `loss(emp_cov, precision, n_samples)`, regain/covariance/time_graphical_lasso_.py:54-66. -/
noncomputable def tglLoss {k : ℕ} (S K : Batch k n) (nS : Fin k → ℝ) : XF :=
  XF.sum fun t => XF.mul (.fin (-nS t))
    (XF.sub (logdetXF (K t)) (.fin (∑ i, ∑ j, S t i j * K t i j)))

/-- `objective(n_samples, emp_cov, K, Z_0, Z_1, Z_2, alpha, beta, psi)` for scalar `alpha`, `beta`,
regain/covariance/time_graphical_lasso_.py:69-83. -/
noncomputable def tglObjectiveCode {T : ℕ} (a : TGLArgs T n) (K Z0 : Batch (T + 1) n)
    (Z1 Z2 : Batch T n) : XF :=
  XF.add (XF.add (tglLoss a.empCov K a.nSamples) (.fin (a.alpha * ∑ t, l1OdNorm (Z0 t))))
    (.fin (a.beta * ∑ p, a.psi (Z2 p - Z1 p)))

/-- K-update, regain/covariance/time_graphical_lasso_.py:185-198, one time point. -/
noncomputable def tglK {T : ℕ} (eigh : Eigh n) (a : TGLArgs T n) (s : TGLState T n)
    (t : Fin (T + 1)) : Matrix n n ℝ :=
  let A := (tglDivisor t)⁻¹ • (s.Z0 t - s.U0 t + padLast (fun p => s.Z1 p - s.U1 p) t
    + padFirst (fun p => s.Z2 p - s.U2 p) t)
  let M := (-s.rho * tglDivisor t / a.nSamples t) • symmetrize A + a.empCov t
  proxLogdet (eigh M).1 (eigh M).2 (a.nSamples t / (s.rho * tglDivisor t))

/-- Z_0-update, regain/covariance/time_graphical_lasso_.py:201-204 (all entries thresholded). -/
noncomputable def tglZ0 (alpha rho : ℝ) (K U0 : Matrix n n ℝ) : Matrix n n ℝ :=
  softThresholdingMat (symmetrize (K + U0)) (alpha / rho)

/-- Z_1-update, regain/covariance/time_graphical_lasso_.py:207-211, one pair. -/
noncomputable def tglZ1 (prox : Matrix n n ℝ → ℝ → Matrix n n ℝ) (beta rho : ℝ)
    (A1 A2 : Matrix n n ℝ) : Matrix n n ℝ :=
  (1 / 2 : ℝ) • (A1 + A2 - prox (A2 - A1) (2 * beta / rho))

/-- Z_2-update, regain/covariance/time_graphical_lasso_.py:207-212, one pair. -/
noncomputable def tglZ2 (prox : Matrix n n ℝ → ℝ → Matrix n n ℝ) (beta rho : ℝ)
    (A1 A2 : Matrix n n ℝ) : Matrix n n ℝ :=
  (1 / 2 : ℝ) • (A1 + A2 + prox (A2 - A1) (2 * beta / rho))

open Classical in
/-- `abs(check.obj - stop_at) / abs(stop_at) < stop_when`, regain/covariance/
time_graphical_lasso_.py:275-277; `False` when `stop_at is None`. -/
noncomputable def stopAtTest (stopAt : Option ℝ) (stopWhen : ℝ) (obj : XF) : Bool :=
  match stopAt with
  | none => false
  | some v => decide (XF.lt (XF.div (XF.abs (XF.sub obj (.fin v))) (.fin |v|)) (.fin stopWhen))

/-- The updates of one pass, regain/covariance/time_graphical_lasso_.py:184-226 and 267-269 (the
penalty is still the old one). -/
noncomputable def tglNext {T : ℕ} (eigh : Eigh n) (a : TGLArgs T n) (s : TGLState T n) :
    TGLState T n :=
  let K : Batch (T + 1) n := tglK eigh a s
  let Z0 : Batch (T + 1) n := fun t => tglZ0 a.alpha s.rho (K t) (s.U0 t)
  let A1 : Batch T n := fun p => init K p + s.U1 p
  let A2 : Batch T n := fun p => tail K p + s.U2 p
  let Z1 : Batch T n := fun p => tglZ1 a.prox a.beta s.rho (A1 p) (A2 p)
  let Z2 : Batch T n := fun p => tglZ2 a.prox a.beta s.rho (A1 p) (A2 p)
  { Z0 := Z0, Z1 := Z1, Z2 := Z2
    U0 := fun t => s.U0 t + (K t - Z0 t)
    U1 := fun p => s.U1 p + (init K p - Z1 p)
    U2 := fun p => s.U2 p + (tail K p - Z2 p)
    Z0old := Z0, Z1old := Z1, Z2old := Z2, rho := s.rho }

/-- The diagnostics of one pass, regain/covariance/time_graphical_lasso_.py:229-266; `s` is the state
before the pass, `s'` the updates of the pass. -/
noncomputable def tglDiagnose {T : ℕ} (a : TGLArgs T n) (K : Batch (T + 1) n)
    (s s' : TGLState T n) : TGLCheck :=
  let d : ℝ := (Fintype.card n : ℝ) * (Fintype.card n : ℝ)
  let size : ℝ := (T + 1) * d + 2 * (T * d)
  { obj := if a.computeObjective then tglObjectiveCode a s'.Z0 K s'.Z1 s'.Z2 else .nan
    rnorm := Real.sqrt (batchSq (K - s'.Z0) + batchSq (init K - s'.Z1) + batchSq (tail K - s'.Z2))
    snorm := s.rho * Real.sqrt (batchSq (s'.Z0 - s.Z0old) + batchSq (s'.Z1 - s.Z1old)
      + batchSq (s'.Z2 - s.Z2old))
    ePri := Real.sqrt size * a.tol
      + a.rtol * max (Real.sqrt (batchSq s'.Z0 + batchSq s'.Z1 + batchSq s'.Z2))
        (Real.sqrt (batchSq K + batchSq (init K) + batchSq (tail K)))
    eDual := Real.sqrt size * a.tol
      + a.rtol * s.rho * Real.sqrt (batchSq s'.U0 + batchSq s'.U1 + batchSq s'.U2) }

/-- Penalty change with the rescaling of the duals, regain/covariance/time_graphical_lasso_.py:
286-289. -/
noncomputable def tglRescale {T : ℕ} (rhoNew : ℝ) (s : TGLState T n) : TGLState T n :=
  { s with
    U0 := fun t => (s.rho / rhoNew) • s.U0 t
    U1 := fun p => (s.rho / rhoNew) • s.U1 p
    U2 := fun p => (s.rho / rhoNew) • s.U2 p
    rho := rhoNew }

open Classical in
/-- One pass through the loop body, regain/covariance/time_graphical_lasso_.py:184-289. -/
noncomputable def tglBody {T : ℕ} (eigh : Eigh n) (a : TGLArgs T n) (_it : ℕ) (s : TGLState T n) :
    TGLState T n × TGLCheck × Bool :=
  let s' := tglNext eigh a s
  let c := tglDiagnose a (tglK eigh a s) s s'
  let stop := stopAtTest a.stopAt a.stopWhen c.obj || decide (c.rnorm ≤ c.ePri ∧ c.snorm ≤ c.eDual)
  (if stop then s' else tglRescale (updateRho a.rhoOptions s.rho c.rnorm c.snorm) s', c, stop)

/-- State before the loop, regain/covariance/time_graphical_lasso_.py:158-168; `K0` is the value of
`init_precision`. -/
def tglInit {T : ℕ} (K0 : Batch (T + 1) n) (rho : ℝ) : TGLState T n :=
  ⟨K0, init K0, tail K0, 0, 0, 0, 0, 0, 0, rho⟩

/-- Result of a call: the exception Python raises, or the returned list (without `covariance_`,
scipy's pseudo-inverse of the result). -/
inductive TGLReturn (T : ℕ) (n : Type*) where
  /-- `UnboundLocalError: iteration_`. -/
  | unbound
  | ok (Z0 : Batch (T + 1) n) (history : Option (List TGLCheck)) (nIter : Option ℕ) (warned : Bool)

/-- `time_graphical_lasso(emp_cov, …)`, regain/covariance/time_graphical_lasso_.py:156-301. -/
noncomputable def timeGraphicalLasso {T : ℕ} (eigh : Eigh n) (a : TGLArgs T n)
    (K0 : Batch (T + 1) n) (rho : ℝ) (maxIter : ℕ) (returnHistory returnNIter : Bool) :
    TGLReturn T n :=
  let first : TGLCheck := { obj := tglObjectiveCode a K0 K0 (init K0) (tail K0) }
  let r := runLoop (tglBody eigh a) maxIter (tglInit K0 rho)
  let hist := if returnHistory then some (first :: r.checks) else none
  if returnNIter then
    match r.lastIter with
    | none => .unbound
    | some it => .ok r.state.Z0 hist (some (it + 1)) (!r.broke)
  else .ok r.state.Z0 hist none (!r.broke)

end Verif.Model
