import Verif.Model.Temporal
import Verif.Model.Infimal
import Verif.Model.Estimators

/-! Model of the objective values that the solvers write into the returned history (`Convergence.obj`). The
solver models leave these values out where the control flow does not read them; here they are computed from the
same iterates. -/

namespace Verif.Model

open Matrix

set_option autoImplicit false
set_option linter.unusedSectionVars false

variable {n : Type*} [Fintype n] [DecidableEq n] {k : ℕ} {E : Type*} [Fintype E]

/-- The singular values numpy computes inside `np.linalg.norm(A, ord="nuc")`; contract `IsSvdOracle`. -/
abbrev Svdvals (n : Type*) := Matrix n n ℝ → n → ℝ

/-- The numbers are the singular values of some singular value decomposition. -/
def IsSvdOracle (sv : Svdvals n) : Prop := ∀ A, ∃ R Rt, IsSvd A R (sv A) Rt

/-- `np.linalg.norm(A, ord="nuc")`: sum of the singular values. -/
def nucNorm (sv : Svdvals n) (A : Matrix n n ℝ) : ℝ := ∑ j, sv A j

/-- `logl(emp_cov, precision)`, regain/covariance/graphical_lasso_.py:50-52; sklearn's `fast_logdet` returns
`-inf` unless the sign of the determinant is positive. -/
noncomputable def loglXF (S K : Matrix n n ℝ) : XF :=
  XF.sub (logdetXF K) (.fin (∑ i, ∑ j, S i j * K i j))

/-- `objective(emp_cov, x, z, alpha)`, regain/covariance/graphical_lasso_.py:54-56. -/
noncomputable def glObjectiveCode (S x z : Matrix n n ℝ) (alpha : ℝ) : XF :=
  XF.add (XF.neg (loglXF S x)) (.fin (l1OdNorm (alpha • z)))

/-- The `obj` entry written by a pass that starts in state `s`, regain/covariance/graphical_lasso_.py:155-169. -/
noncomputable def glReported (eigh : Eigh n) (a : GLArgs n) (s : GLState n) : XF :=
  let K := glK eigh a.empCov s.rho s.Z s.U
  let Z := glZ a.alpha s.rho (glKhat a.overRelax K s.Z) s.U
  glObjectiveCode a.empCov K Z a.alpha

/-- `objective(emp_cov, R, K, L, alpha, tau)`, regain/covariance/latent_graphical_lasso_.py:48-52. -/
noncomputable def lglObjectiveCode (sv : Svdvals n) (S R K L : Matrix n n ℝ) (alpha tau : ℝ) : XF :=
  XF.add (glObjectiveCode S R K alpha) (.fin (tau * nucNorm sv L))

/-- The `obj` entry of a pass, regain/covariance/latent_graphical_lasso_.py:128-149. -/
noncomputable def lglReported (eigh : Eigh n) (sv : Svdvals n) (a : LGLArgs n) (s : LGLState n) : XF :=
  let R := lglR eigh a.empCov s.rho s.K s.L s.U
  let K := lglK a.alpha s.rho s.L R s.U
  let L := lglL eigh a.tau s.rho K R s.U
  lglObjectiveCode sv a.empCov R K L a.alpha a.tau

/-- `objective(S, R, K, L, alpha, tau)`, regain/covariance/infimal_convolution_.py:46-51. -/
noncomputable def infObjectiveCode (sv : Svdvals n) (S R K L : Matrix n n ℝ) (alpha tau : ℝ) : ℝ :=
  1 / 2 * (∑ i, ∑ j, (S - R) i j ^ 2) + alpha * l1OdNorm K + tau * nucNorm sv L

/-- The `obj` entry of a pass, regain/covariance/infimal_convolution_.py:117-136. -/
noncomputable def infReported (eigh : Eigh n) (sv : Svdvals n) (a : InfArgs n) (s : InfState n) : ℝ :=
  let R := infR a.S s.rho s.K s.L s.U
  let K := infK a.alpha s.rho s.L R s.U
  let L := infL eigh a.tau s.rho K R s.U
  infObjectiveCode sv a.S R K L a.alpha a.tau

/-- `objective(…)` of the latent time solvers for scalar `alpha` and `tau`: regain/covariance/
latent_time_graphical_lasso_.py:48-63 (weights `beta`, `eta`; there the weight multiplies the sum, here each
term) and regain/covariance/kernel_latent_time_graphical_lasso_.py:56-72 (weights from the kernels). -/
noncomputable def ltObjectiveCode (sv : Svdvals n) (a : LTArgs k E n) (psi phi : Matrix n n ℝ → ℝ)
    (R : Batch k n) (s' : LTState k E n) : XF :=
  XF.add (XF.add (XF.add (XF.add (tglLoss a.empCov R a.nSamples) (.fin (a.alpha * ∑ t, l1OdNorm (s'.Z0 t))))
    (.fin (∑ e, psi (s'.ZR e - s'.ZL e) * a.wPsi e))) (.fin (a.tau * ∑ t, nucNorm sv (s'.W0 t))))
    (.fin (∑ e, phi (s'.WR e - s'.WL e) * a.wPhi e))

/-- The `obj` entry of a pass, regain/covariance/latent_time_graphical_lasso_.py:258-279, regain/covariance/
kernel_latent_time_graphical_lasso_.py:294-314. -/
noncomputable def ltReported (eigh : Eigh n) (sv : Svdvals n) (g : TimePairs k E) (a : LTArgs k E n)
    (psi phi : Matrix n n ℝ → ℝ) (s : LTState k E n) : XF :=
  let s' := ltNext eigh (ltLogdetR eigh a) g a s
  ltObjectiveCode sv a psi phi s'.Rold s'

/-- `objective(…)`, regain/covariance/latent_time_matrix_decomposition.py:47-54. -/
noncomputable def ltSquareObjectiveCode (sv : Svdvals n) (a : LTArgs k E n) (psi phi : Matrix n n ℝ → ℝ)
    (R : Batch k n) (s' : LTState k E n) : ℝ :=
  batchSq (a.empCov - R) + a.alpha * ∑ t, l1OdNorm (s'.Z0 t) + a.tau * ∑ t, nucNorm sv (s'.W0 t)
    + ∑ e, psi (s'.ZR e - s'.ZL e) * a.wPsi e + ∑ e, phi (s'.WR e - s'.WL e) * a.wPhi e

/-- The `obj` entry of a pass, regain/covariance/latent_time_matrix_decomposition.py:229-248. -/
noncomputable def ltSquareReported (eigh : Eigh n) (sv : Svdvals n) (g : TimePairs k E) (a : LTArgs k E n)
    (psi phi : Matrix n n ℝ → ℝ) (s : LTState k E n) : ℝ :=
  let s' := ltNext eigh (ltSquareR a) g a s
  ltSquareObjectiveCode sv a psi phi s'.Rold s'

end Verif.Model
