import Verif.Model.GL
import Verif.Model.XFloat
import Mathlib.LinearAlgebra.Matrix.NonsingularInverse
import Mathlib.Data.Finset.Lattice.Fold

/-! Model of `regain/covariance/missing_graphical_lasso_.py`. An entry `none` of the data matrix is
NaN; infinite entries (which `np.nan_to_num` would replace) are not modelled. -/

namespace Verif.Model

open Matrix

set_option autoImplicit false
set_option linter.unusedSectionVars false

variable {N P : Type*} [Fintype N] [Fintype P] [DecidableEq P]

/-- A data matrix with missing entries. -/
abbrev MissData (N P : Type*) := N → P → Option ℝ

/-- `nans = np.where(np.isnan(X[i, :]))[0]`, regain/covariance/missing_graphical_lasso_.py:67. -/
abbrev Miss (X : MissData N P) (i : N) := {v : P // (X i v).isNone = true}

/-- `obs = np.where(np.logical_not(np.isnan(X[i, :])))[0]`, regain/covariance/
missing_graphical_lasso_.py:68. -/
abbrev Obs (X : MissData N P) (i : N) := {v : P // ¬ (X i v).isNone = true}

/-- `np.nan_to_num(np.copy(X))`, regain/covariance/missing_graphical_lasso_.py:46, 77, 187. -/
def nanToNum (X : MissData N P) : Matrix N P ℝ := fun i v => (X i v).getD 0

/-- `K[xxm, yym]` with `xxm, yym = np.meshgrid(nans, nans)`, regain/covariance/
missing_graphical_lasso_.py:69, 71 (meshgrid's first output varies along the columns, so rows and
columns are exchanged). -/
def missBlock (K : Matrix P P ℝ) (X : MissData N P) (i : N) : Matrix (Miss X i) (Miss X i) ℝ :=
  fun a b => K b.1 a.1

/-- `K[xxm1, yyo]` with `xxm1, yyo = np.meshgrid(obs, nans)`, regain/covariance/
missing_graphical_lasso_.py:70-71. -/
def crossBlock (K : Matrix P P ℝ) (X : MissData N P) (i : N) : Matrix (Miss X i) (Obs X i) ℝ :=
  fun a b => K b.1 a.1

/-- `cs` before the final division, regain/covariance/missing_graphical_lasso_.py:65-72.
`np.linalg.pinv` is modelled as the matrix inverse: exact for invertible blocks (all theorems about
the values assume `K` positive definite), not modelled for singular ones. -/
noncomputable def rawCs (means : P → ℝ) (K : Matrix P P ℝ) (X : MissData N P) : Matrix N P ℝ :=
  fun i v =>
    if h : (X i v).isNone = true then
      means v - (((missBlock K X i)⁻¹ * crossBlock K X i) *ᵥ
        fun b => (X i b.1).getD 0 - means b.1) ⟨v, h⟩
    else 0

/-- `np.max(np.abs(A))`. -/
noncomputable def maxAbs [Nonempty N] [Nonempty P] (A : Matrix N P ℝ) : ℝ :=
  Finset.univ.sup' Finset.univ_nonempty fun p : N × P => |A p.1 p.2|

/-- `np.max(A)`. -/
noncomputable def npMax [Nonempty N] [Nonempty P] (A : Matrix N P ℝ) : ℝ :=
  Finset.univ.sup' Finset.univ_nonempty fun p : N × P => A p.1 p.2

/-- `compute_cs(means, K, X)`, regain/covariance/missing_graphical_lasso_.py:64-73. -/
noncomputable def computeCs [Nonempty N] [Nonempty P] (means : P → ℝ) (K : Matrix P P ℝ)
    (X : MissData N P) : Matrix N P ℝ :=
  fun i v => rawCs means K X i v / max (maxAbs (rawCs means K X)) 1

/-- `compute_mean(X, cs)`, regain/covariance/missing_graphical_lasso_.py:76-79. -/
def computeMean (X : MissData N P) (cs : Matrix N P ℝ) : P → ℝ :=
  fun v => ∑ i, (nanToNum X + cs) i v

/-- The sum over the rows in `compute_empirical_covariance`, regain/covariance/
missing_graphical_lasso_.py:45-60. -/
noncomputable def rawEmpCov (X : MissData N P) (K : Matrix P P ℝ) (cs : Matrix N P ℝ) :
    Matrix P P ℝ :=
  fun v s => ∑ i,
    if h : (X i v).isNone = true ∧ (X i s).isNone = true then
      (missBlock K X i)⁻¹ ⟨v, h.1⟩ ⟨s, h.2⟩ + cs i v * cs i s
    else (nanToNum X + cs) i v * (nanToNum X + cs) i s

/-- `compute_empirical_covariance(X, K, cs)`, regain/covariance/missing_graphical_lasso_.py:44-61.
The theorems about it assume that the maximum is not 0 (numpy would return NaN). -/
noncomputable def computeEmpCov [Nonempty P] (X : MissData N P) (K : Matrix P P ℝ)
    (cs : Matrix N P ℝ) : Matrix P P ℝ :=
  (npMax (rawEmpCov X K cs))⁻¹ • rawEmpCov X K cs

/-- Local variables of the loop, regain/covariance/missing_graphical_lasso_.py:150-178. -/
structure MissState (N P : Type*) where
  K : Matrix P P ℝ
  means : P → ℝ
  cs : Matrix N P ℝ
  empCov : Matrix P P ℝ
  loglik : XF

/-- One pass through the loop, regain/covariance/missing_graphical_lasso_.py:156-184. `gl S K0` is
the inner call of `graphical_lasso` (lines 161-175) and `logl` the log-likelihood function (line
176). Of the record appended to `checks` only `difference` is kept (`log_likelihood` holds the
function `logl` itself, line 178). -/
noncomputable def missBody [Nonempty N] [Nonempty P] (gl : Matrix P P ℝ → Matrix P P ℝ → Matrix P P ℝ)
    (logl : Matrix P P ℝ → Matrix P P ℝ → XF) (tol : ℝ) (X : MissData N P) (_it : ℕ)
    (s : MissState N P) : MissState N P × XF × Bool :=
  open Classical in
  let cs := computeCs s.means s.K X
  let S := computeEmpCov X s.K cs
  let K := gl S s.K
  let ll := logl S K
  let diff := XF.sub s.loglik ll
  (⟨K, computeMean X cs, cs, S, ll⟩, diff, decide (XF.lt (XF.abs diff) (.fin tol)))

/-- State before the loop, regain/covariance/missing_graphical_lasso_.py:150-153 (`cs` and `emp_cov`
are not bound yet; their values here are never read). -/
def missInit : MissState N P := ⟨1, 0, 0, 0, .ninf⟩

/-- Result of a call: the exception Python raises, or the returned list. -/
inductive MissReturn (N P : Type*) where
  /-- `UnboundLocalError: cs`. -/
  | unbound
  | ok (K empCov : Matrix P P ℝ) (complete : Matrix N P ℝ) (history : List XF) (nIter : ℕ)
      (warned : Bool)

/-- `missing_graphical_lasso(X, …)` with `return_history` and `return_n_iter`, regain/covariance/
missing_graphical_lasso_.py:82-194; also `MissingGraphicalLasso.fit`, lines 288-322. -/
noncomputable def missingGraphicalLasso [Nonempty N] [Nonempty P]
    (gl : Matrix P P ℝ → Matrix P P ℝ → Matrix P P ℝ)
    (logl : Matrix P P ℝ → Matrix P P ℝ → XF) (tol : ℝ) (X : MissData N P) (maxIter : ℕ) :
    MissReturn N P :=
  let r := runLoop (missBody gl logl tol X) maxIter missInit
  match r.lastIter with
  | none => .unbound
  | some it => .ok r.state.K r.state.empCov (nanToNum X + r.state.cs) r.checks it (!r.broke)

/-- The inner call of the solver, regain/covariance/missing_graphical_lasso_.py:161-175
(`return_n_iter=False`, `init=K`). -/
noncomputable def missInnerGL (eigh : Eigh P) (alpha rho overRelax tol rtol : ℝ) (o : RhoOptions)
    (maxIter : ℕ) (S K0 : Matrix P P ℝ) : Matrix P P ℝ :=
  (runLoop (glBody eigh ⟨S, alpha, overRelax, tol, rtol, o⟩) maxIter (glInit K0 rho)).state.Z

/-- The inner call agrees with the model of `graphical_lasso`. -/
theorem missInnerGL_eq (eigh : Eigh P) (alpha rho overRelax tol rtol : ℝ) (o : RhoOptions)
    (maxIter : ℕ) (S K0 : Matrix P P ℝ) :
    ∃ w, graphicalLasso eigh ⟨S, alpha, overRelax, tol, rtol, o⟩ K0 rho maxIter false false =
      .ok (missInnerGL eigh alpha rho overRelax tol rtol o maxIter S K0) S none none w :=
  ⟨_, rfl⟩

end Verif.Model
