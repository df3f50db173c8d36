import Verif.Model.GL
import Verif.Model.GWishart
import Verif.Spec.Weights

/-! Model of `regain/covariance/graphical_lasso_.py` called with a matrix of penalties, as
`regain/bayesian/gwishart_inference.py` does. -/

namespace Verif.Model

open Matrix Verif.Spec

set_option autoImplicit false

variable {n : Type*} [Fintype n] [DecidableEq n]

/-- One entry of `soft_thresholding(a, lamda)` for `lamda = alpha / rho`, regain/prox.py:49-51. An infinite
`alpha` (`none`) stays infinite, `np.abs(a) - inf` is `-inf`, its maximum with `0` is `0`. -/
noncomputable def softWeight (a : ℝ) (w : Option ℝ) (rho : ℝ) : ℝ :=
  match w with
  | some w => softScalar a (w / rho)
  | none => 0

/-- z-update for a matrix `alpha`, regain/covariance/graphical_lasso_.py:163 with regain/prox.py:54-58: the
diagonal of the argument is put back. -/
noncomputable def glwZ (W : Weights n) (rho : ℝ) (Khat U : Matrix n n ℝ) : Matrix n n ℝ :=
  fillDiagonal (fun i j => softWeight ((Khat + U) i j) (W i j) rho) (getDiagonal (Khat + U))

/-- Arguments of `graphical_lasso` with a matrix `alpha`, regain/covariance/graphical_lasso_.py:81-95. -/
structure GLWArgs (n : Type*) where
  empCov : Matrix n n ℝ
  alpha : Weights n
  overRelax : ℝ := 1
  tol : ℝ
  rtol : ℝ
  rhoOptions : RhoOptions := {}

open Classical in
/-- One pass through the loop body, regain/covariance/graphical_lasso_.py:155-194, for a matrix `alpha`. The
recorded objective (`nan` as soon as an infinite penalty meets the zero it leaves, line 56) is not used by the control
flow and is left out. -/
noncomputable def glwBody (eigh : Eigh n) (a : GLWArgs n) (_it : ℕ) (s : GLState n) :
    GLState n × GLCheck × Bool :=
  let K := glK eigh a.empCov s.rho s.Z s.U
  let Khat := glKhat a.overRelax K s.Z
  let Z := glwZ a.alpha s.rho Khat s.U
  let U := s.U + (Khat - Z)
  let rnorm := froNorm (K - Z)
  let snorm := s.rho * froNorm (Z - s.Zold)
  let size : ℝ := (Fintype.card n : ℝ) * (Fintype.card n : ℝ)
  let ePri := Real.sqrt size * a.tol + a.rtol * max (froNorm K) (froNorm Z)
  let eDual := Real.sqrt size * a.tol + a.rtol * s.rho * froNorm U
  let stop := decide (rnorm ≤ ePri ∧ snorm ≤ eDual)
  let rhoNew := updateRho a.rhoOptions s.rho rnorm snorm
  (if stop then ⟨Z, U, Z, s.rho⟩ else ⟨Z, (s.rho / rhoNew) • U, Z, rhoNew⟩,
    ⟨rnorm, snorm, ePri, eDual⟩, stop)

/-- `graphical_lasso(emp_cov, alpha=matrix, …)`, regain/covariance/graphical_lasso_.py:149-203. -/
noncomputable def graphicalLassoW (eigh : Eigh n) (a : GLWArgs n) (Z0 : Matrix n n ℝ) (rho : ℝ)
    (maxIter : ℕ) (returnHistory returnNIter : Bool) : GLReturn n :=
  let r := runLoop (glwBody eigh a) maxIter (glInit Z0 rho)
  let hist := if returnHistory then some r.checks else none
  if returnNIter then
    match r.lastIter with
    | none => .unbound
    | some it => .ok r.state.Z a.empCov hist (some it) (!r.broke)
  else .ok r.state.Z a.empCov hist none (!r.broke)

variable {p : ℕ}

/-- `alpha` of `GWishartFit` in the mode that is not `covsel`, regain/bayesian/gwishart_inference.py:190-193:
zero where the graph has an edge in either direction, infinite elsewhere. -/
def gwAlpha (G : Fin p → Fin p → Bool) : Weights (Fin p) := fun i j => if G i j || G j i then some 0 else none

/-- The call `graphical_lasso(emp_cov=C, alpha=alpha)` of `GWishartFit`, regain/bayesian/gwishart_inference.py:
194, with `graphical_lasso`'s defaults for the rule of the penalty (`rho = 1`, `over_relax = 1`); `tol`, `rtol`,
`max_iter` (1e-4, 1e-4, 100 in the call) and the start (`init_precision`) are parameters here. -/
noncomputable def gwFitGL (eigh : Eigh (Fin p)) (C : Matrix (Fin p) (Fin p) ℝ) (G : Fin p → Fin p → Bool)
    (tol rtol : ℝ) (maxIter : ℕ) (Z0 : Matrix (Fin p) (Fin p) ℝ) : GLReturn (Fin p) :=
  graphicalLassoW eigh { empCov := C, alpha := gwAlpha G, tol := tol, rtol := rtol } Z0 1 maxIter false true

end Verif.Model
