import Verif.Model.Prox
import Verif.Model.Loop
import Verif.Model.Update

/-! Model of `regain/covariance/graphical_lasso_.py` (the ADMM solver). -/

namespace Verif.Model

open Matrix

variable {n : Type*} [Fintype n] [DecidableEq n]

/-- `np.linalg.eigh` as a function; contract `IsEighOracle`. -/
abbrev Eigh (n : Type*) := Matrix n n ℝ → Matrix n n ℝ × (n → ℝ)

/-- Contract of `np.linalg.eigh` on symmetric input (it is never used on other input by the solvers
when the empirical covariance is symmetric). -/
def IsEighOracle (eigh : Eigh n) : Prop := ∀ A, A.IsSymm → IsEigh A (eigh A).1 (eigh A).2

/-- `np.linalg.norm(A, "fro")`. -/
noncomputable def froNorm {m k : Type*} [Fintype m] [Fintype k] (A : Matrix m k ℝ) : ℝ :=
  Real.sqrt (∑ i, ∑ j, A i j ^ 2)

/-- `A += A.T; A /= 2.0`, regain/covariance/graphical_lasso_.py:157-158. -/
noncomputable def symmetrize (A : Matrix n n ℝ) : Matrix n n ℝ := (1 / 2 : ℝ) • (A + Aᵀ)

/-- Local variables of the solver at the top of the loop, regain/covariance/graphical_lasso_.py:
149-154. -/
structure GLState (n : Type*) where
  Z : Matrix n n ℝ
  U : Matrix n n ℝ
  Zold : Matrix n n ℝ
  rho : ℝ

/-- One `Convergence` record (the objective is not used by the control flow and is left out),
regain/covariance/graphical_lasso_.py:170-179. -/
structure GLCheck where
  rnorm : ℝ
  snorm : ℝ
  ePri : ℝ
  eDual : ℝ

/-- Arguments of `graphical_lasso`, regain/covariance/graphical_lasso_.py:81-95 (those that matter
for the iteration). -/
structure GLArgs (n : Type*) where
  empCov : Matrix n n ℝ
  alpha : ℝ
  overRelax : ℝ := 1
  tol : ℝ
  rtol : ℝ
  rhoOptions : RhoOptions := {}

/-- x-update, regain/covariance/graphical_lasso_.py:156-159. -/
noncomputable def glK (eigh : Eigh n) (S : Matrix n n ℝ) (rho : ℝ) (Z U : Matrix n n ℝ) :
    Matrix n n ℝ :=
  let M := S - rho • symmetrize (Z - U)
  proxLogdet (eigh M).1 (eigh M).2 (1 / rho)

/-- relaxation, regain/covariance/graphical_lasso_.py:162. -/
noncomputable def glKhat (overRelax : ℝ) (K Z : Matrix n n ℝ) : Matrix n n ℝ :=
  overRelax • K - (1 - overRelax) • Z

/-- z-update, regain/covariance/graphical_lasso_.py:163. -/
noncomputable def glZ (alpha rho : ℝ) (Khat U : Matrix n n ℝ) : Matrix n n ℝ :=
  softThresholdingOffDiagonal (Khat + U) (alpha / rho)

open Classical in
/-- One pass through the loop body, regain/covariance/graphical_lasso_.py:155-194: returns the new
local variables, the check and whether `break` runs. On `break` the penalty update and the dual
rescaling are skipped. -/
noncomputable def glBody (eigh : Eigh n) (a : GLArgs n) (_it : ℕ) (s : GLState n) :
    GLState n × GLCheck × Bool :=
  let K := glK eigh a.empCov s.rho s.Z s.U
  let Khat := glKhat a.overRelax K s.Z
  let Z := glZ a.alpha s.rho Khat s.U
  let U := s.U + (Khat - Z)
  let rnorm := froNorm (K - Z)
  let snorm := s.rho * froNorm (Z - s.Zold)
  let size : ℝ := (Fintype.card n : ℝ) * (Fintype.card n : ℝ)
  let ePri := Real.sqrt size * a.tol + a.rtol * max (froNorm K) (froNorm Z)
  let eDual := Real.sqrt size * a.tol + a.rtol * s.rho * froNorm U
  let stop := decide (rnorm ≤ ePri ∧ snorm ≤ eDual)
  let rhoNew := updateRho a.rhoOptions s.rho rnorm snorm
  (if stop then ⟨Z, U, Z, s.rho⟩ else ⟨Z, (s.rho / rhoNew) • U, Z, rhoNew⟩,
    ⟨rnorm, snorm, ePri, eDual⟩, stop)

/-- State before the loop, regain/covariance/graphical_lasso_.py:149-151; `Z0` is the value of
`init_precision`. -/
def glInit (Z0 : Matrix n n ℝ) (rho : ℝ) : GLState n := ⟨Z0, 0, 0, rho⟩

/-- Result of a call: either the exception Python raises, or the returned list. -/
inductive GLReturn (n : Type*) where
  /-- `UnboundLocalError: iteration_` (the loop body never ran). -/
  | unbound
  | ok (Z empCov : Matrix n n ℝ) (history : Option (List GLCheck)) (nIter : Option ℕ) (warned : Bool)

/-- `graphical_lasso(emp_cov, …)`, regain/covariance/graphical_lasso_.py:149-203. -/
noncomputable def graphicalLasso (eigh : Eigh n) (a : GLArgs n) (Z0 : Matrix n n ℝ) (rho : ℝ)
    (maxIter : ℕ) (returnHistory returnNIter : Bool) : GLReturn n :=
  let r := runLoop (glBody eigh a) maxIter (glInit Z0 rho)
  let hist := if returnHistory then some r.checks else none
  if returnNIter then
    match r.lastIter with
    | none => .unbound
    | some it => .ok r.state.Z a.empCov hist (some it) (!r.broke)
  else .ok r.state.Z a.empCov hist none (!r.broke)

end Verif.Model
