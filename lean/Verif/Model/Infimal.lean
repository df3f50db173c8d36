import Verif.Model.LGL

/-! Model of regain/covariance/infimal_convolution_.py. -/

namespace Verif.Model

open Matrix

set_option autoImplicit false
set_option linter.unusedSectionVars false

variable {n : Type*} [Fintype n] [DecidableEq n]

/-- Local variables at the top of the loop, regain/covariance/infimal_convolution_.py:111-114. -/
structure InfState (n : Type*) where
  K : Matrix n n ℝ
  L : Matrix n n ℝ
  U : Matrix n n ℝ
  Rold : Matrix n n ℝ
  rho : ℝ

/-- Arguments, regain/covariance/infimal_convolution_.py:54-67. -/
structure InfArgs (n : Type*) where
  S : Matrix n n ℝ
  alpha : ℝ
  tau : ℝ
  tol : ℝ
  rtol : ℝ
  rhoOptions : RhoOptions := {}

/-- R-update, regain/covariance/infimal_convolution_.py:119-122. -/
noncomputable def infR (S : Matrix n n ℝ) (rho : ℝ) (K L U : Matrix n n ℝ) : Matrix n n ℝ :=
  proxLaplacianMat (S + rho • symmetrize (K - L - U)) (rho / 2)

/-- K-update, regain/covariance/infimal_convolution_.py:124-125 (every entry is thresholded, the diagonal
included). -/
noncomputable def infK (alpha rho : ℝ) (L R U : Matrix n n ℝ) : Matrix n n ℝ :=
  softThresholdingMat (L + R + U) (alpha / rho)

/-- L-update, regain/covariance/infimal_convolution_.py:127-130. -/
noncomputable def infL (eigh : Eigh n) (tau rho : ℝ) (K R U : Matrix n n ℝ) : Matrix n n ℝ :=
  let M := symmetrize (K - R - U)
  proxTraceIndicator (eigh M).1 (eigh M).2 (tau / rho)

open Classical in
/-- One pass through the loop body, regain/covariance/infimal_convolution_.py:117-162. The objective is a finite
number (or `nan` when it is not computed), so the test `check.obj == np.inf` (line 155) never fires and is left
out. -/
noncomputable def infBody (eigh : Eigh n) (a : InfArgs n) (_it : ℕ) (s : InfState n) :
    InfState n × GLCheck × Bool :=
  let R := infR a.S s.rho s.K s.L s.U
  let K := infK a.alpha s.rho s.L R s.U
  let L := infL eigh a.tau s.rho K R s.U
  let U := s.U + (R - K + L)
  let size : ℝ := Real.sqrt ((Fintype.card n : ℝ) * (Fintype.card n : ℝ))
  let c : GLCheck :=
    { rnorm := froNorm (R - K + L)
      snorm := s.rho * froNorm (R - s.Rold)
      ePri := size * a.tol + a.rtol * max (froNorm R) (froNorm (K - L))
      eDual := size * a.tol + a.rtol * s.rho * froNorm U }
  if c.rnorm ≤ c.ePri ∧ c.snorm ≤ c.eDual then (⟨K, L, U, R, s.rho⟩, c, true)
  else
    let rhoNew := updateRho a.rhoOptions s.rho c.rnorm c.snorm
    (⟨K, L, (s.rho / rhoNew) • U, R, rhoNew⟩, c, false)

/-- Result of a call: the exception Python raises, or the returned list (without `covariance_`). -/
inductive InfReturn (n : Type*) where
  /-- `UnboundLocalError: iteration_`. -/
  | unbound
  | ok (K L : Matrix n n ℝ) (history : Option (List GLCheck)) (nIter : Option ℕ) (warned : Bool)

/-- `infimal_convolution(S, …)`, regain/covariance/infimal_convolution_.py:111-172. -/
noncomputable def infimalConvolution (eigh : Eigh n) (a : InfArgs n) (rho : ℝ) (maxIter : ℕ)
    (returnHistory returnNIter : Bool) : InfReturn n :=
  let r := runLoop (infBody eigh a) maxIter ⟨0, 0, 0, 0, rho⟩
  let hist := if returnHistory then some r.checks else none
  if returnNIter then
    match r.lastIter with
    | none => .unbound
    | some it => .ok r.state.K r.state.L hist (some it) (!r.broke)
  else .ok r.state.K r.state.L hist none (!r.broke)

end Verif.Model
