import Verif.Model.GL

/-! Model of `regain/covariance/latent_graphical_lasso_.py`. -/

namespace Verif.Model

open Matrix

variable {n : Type*} [Fintype n] [DecidableEq n]

/-- Local variables at the top of the loop, regain/covariance/latent_graphical_lasso_.py:121-124. -/
structure LGLState (n : Type*) where
  K : Matrix n n ℝ
  L : Matrix n n ℝ
  U : Matrix n n ℝ
  Rold : Matrix n n ℝ
  rho : ℝ

/-- One `Convergence` record, regain/covariance/latent_graphical_lasso_.py:149-156. Of the objective
only `check.obj == np.inf` is used by the control flow; `objInf` is that test. -/
structure LGLCheck where
  rnorm : ℝ
  snorm : ℝ
  ePri : ℝ
  eDual : ℝ
  objInf : Bool

/-- Arguments of `latent_graphical_lasso`, regain/covariance/latent_graphical_lasso_.py:55-69. -/
structure LGLArgs (n : Type*) where
  empCov : Matrix n n ℝ
  alpha : ℝ
  tau : ℝ
  tol : ℝ
  rtol : ℝ
  rhoOptions : RhoOptions := {}
  computeObjective : Bool := true

/-- R-update, regain/covariance/latent_graphical_lasso_.py:129-132 (the same log-det step as the
graphical lasso, at `K - L - U`). -/
noncomputable def lglR (eigh : Eigh n) (S : Matrix n n ℝ) (rho : ℝ) (K L U : Matrix n n ℝ) :
    Matrix n n ℝ :=
  let M := S - rho • symmetrize (K - L - U)
  proxLogdet (eigh M).1 (eigh M).2 (1 / rho)

/-- K-update, regain/covariance/latent_graphical_lasso_.py:134-135 (every entry is thresholded, the
diagonal included). -/
noncomputable def lglK (alpha rho : ℝ) (L R U : Matrix n n ℝ) : Matrix n n ℝ :=
  softThresholdingMat (L + R + U) (alpha / rho)

/-- L-update, regain/covariance/latent_graphical_lasso_.py:137-140. -/
noncomputable def lglL (eigh : Eigh n) (tau rho : ℝ) (K R U : Matrix n n ℝ) : Matrix n n ℝ :=
  let M := symmetrize (K - R - U)
  proxTraceIndicator (eigh M).1 (eigh M).2 (tau / rho)

open Classical in
/-- One pass through the loop body, regain/covariance/latent_graphical_lasso_.py:128-172. The
objective is `+inf` exactly when sklearn's `fast_logdet(R)` is `-inf`, i.e. `det R ≤ 0`. -/
noncomputable def lglBody (eigh : Eigh n) (a : LGLArgs n) (_it : ℕ) (s : LGLState n) :
    LGLState n × LGLCheck × Bool :=
  let R := lglR eigh a.empCov s.rho s.K s.L s.U
  let K := lglK a.alpha s.rho s.L R s.U
  let L := lglL eigh a.tau s.rho K R s.U
  let U := s.U + (R - K + L)
  let rnorm := froNorm (R - K + L)
  let snorm := s.rho * froNorm (R - s.Rold)
  let size : ℝ := (Fintype.card n : ℝ) * (Fintype.card n : ℝ)
  let ePri := Real.sqrt size * a.tol + a.rtol * max (froNorm R) (froNorm (K - L))
  let eDual := Real.sqrt size * a.tol + a.rtol * s.rho * froNorm U
  let objInf := a.computeObjective && decide (R.det ≤ 0)
  let stop := decide (rnorm ≤ ePri ∧ snorm ≤ eDual) || objInf
  let rhoNew := updateRho a.rhoOptions s.rho rnorm snorm
  (if stop then ⟨K, L, U, R, s.rho⟩ else ⟨K, L, (s.rho / rhoNew) • U, R, rhoNew⟩,
    ⟨rnorm, snorm, ePri, eDual, objInf⟩, stop)

/-- State before the loop, regain/covariance/latent_graphical_lasso_.py:121-124; `K0` is the value
of `init_precision`. -/
def lglInit (K0 : Matrix n n ℝ) (rho : ℝ) : LGLState n := ⟨K0, 0, 0, 0, rho⟩

/-- Result of a call: the exception Python raises, or the returned list (without the pseudo-inverse
`covariance_`, which is computed from `K` by scipy). -/
inductive LGLReturn (n : Type*) where
  /-- `UnboundLocalError: iteration_`. -/
  | unbound
  | ok (K L : Matrix n n ℝ) (history : Option (List LGLCheck)) (nIter : Option ℕ) (warned : Bool)

/-- `latent_graphical_lasso(emp_cov, …)`, regain/covariance/latent_graphical_lasso_.py:121-182. -/
noncomputable def latentGraphicalLasso (eigh : Eigh n) (a : LGLArgs n) (K0 : Matrix n n ℝ) (rho : ℝ)
    (maxIter : ℕ) (returnHistory returnNIter : Bool) : LGLReturn n :=
  let r := runLoop (lglBody eigh a) maxIter (lglInit K0 rho)
  let hist := if returnHistory then some r.checks else none
  if returnNIter then
    match r.lastIter with
    | none => .unbound
    | some it => .ok r.state.K r.state.L hist (some it) (!r.broke)
  else .ok r.state.K r.state.L hist none (!r.broke)

/-- `LatentGraphicalLasso.get_precision`, regain/covariance/latent_graphical_lasso_.py:280-290. -/
def lglGetPrecision (precision latent : Matrix n n ℝ) : Matrix n n ℝ := precision - latent

end Verif.Model
