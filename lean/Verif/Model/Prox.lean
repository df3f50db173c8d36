import Mathlib.Analysis.SpecialFunctions.Pow.Real
import Mathlib.LinearAlgebra.Matrix.NonsingularInverse
import Verif.Model.XFloat

/-!
Model of `regain/prox.py`, `regain/norm.py`, `regain/math.py` (the closed-form operators).
Arrays are functions from a finite index type; matrices are Mathlib matrices over `ℝ`.
-/

namespace Verif.Model

open Matrix

/-! ### regain/math.py -/

/-- `fill_diagonal(a, b)`, regain/math.py:12-13 (writes `b` on the diagonal; returned instead of
in place). -/
def fillDiagonal {n : Type*} [DecidableEq n] (A : Matrix n n ℝ) (b : n → ℝ) : Matrix n n ℝ :=
  fun i j => if i = j then b i else A i j

/-- `get_diagonal(a)`, regain/math.py:16-18. -/
def getDiagonal {n : Type*} (A : Matrix n n ℝ) : n → ℝ := fun i => A i i

/-- `create_from_diagonal(a)`, regain/math.py:21-27: zeros with `a` on the diagonal. -/
def createFromDiagonal {n : Type*} [DecidableEq n] (d : n → ℝ) : Matrix n n ℝ :=
  fillDiagonal (fun _ _ => 0) d

/-! ### regain/norm.py -/

/-- `l1_norm(precision)`, regain/norm.py:42-44. -/
def l1Norm {m n : Type*} [Fintype m] [Fintype n] (A : Matrix m n ℝ) : ℝ := ∑ i, ∑ j, |A i j|

/-- `matrix_l1_norm(matrix)`, regain/norm.py:47-49, for one matrix (the code sums over the last two
axes; a batch is handled entry by entry). -/
def matrixL1Norm {m n : Type*} [Fintype m] [Fintype n] (A : Matrix m n ℝ) : ℝ :=
  ∑ i, ∑ j, |A i j|

/-- `l1_od_norm(precision)`, regain/norm.py:52-55: total minus the sum over the diagonal. -/
def l1OdNorm {n : Type*} [Fintype n] (A : Matrix n n ℝ) : ℝ :=
  matrixL1Norm A - ∑ i, |A i i|

/-! ### regain/prox.py, entrywise operators -/

open Classical in
/-- `np.sign` on reals. -/
noncomputable def npSign (a : ℝ) : ℝ := if a > 0 then 1 else if a < 0 then -1 else 0

/-- One entry of `soft_thresholding(a, lamda)`, regain/prox.py:49-51. -/
noncomputable def softScalar (a lam : ℝ) : ℝ := npSign a * max (|a| - lam) 0

/-- `soft_thresholding(a, lamda)` on an array of any shape, regain/prox.py:49-51. -/
noncomputable def softThresholding {ι : Type*} (a : ι → ℝ) (lam : ℝ) : ι → ℝ :=
  fun i => softScalar (a i) lam

/-- `soft_thresholding(a, lamda)` on a matrix, regain/prox.py:49-51. -/
noncomputable def softThresholdingMat {m n : Type*} (A : Matrix m n ℝ) (lam : ℝ) : Matrix m n ℝ :=
  fun i j => softScalar (A i j) lam

/-- `soft_thresholding_off_diagonal(a, lamda)`, regain/prox.py:54-58. -/
noncomputable def softThresholdingOffDiagonal {n : Type*} [DecidableEq n] (A : Matrix n n ℝ)
    (lam : ℝ) : Matrix n n ℝ :=
  fillDiagonal (softThresholdingMat A lam) (getDiagonal A)

/-- `prox_laplacian(a, lamda)`, regain/prox.py:162-164 (any shape). -/
noncomputable def proxLaplacian {ι : Type*} (a : ι → ℝ) (lam : ℝ) : ι → ℝ :=
  fun i => a i / (1 + 2 * lam)

/-- `prox_laplacian(a, lamda)` on a matrix, regain/prox.py:162-164. -/
noncomputable def proxLaplacianMat {m n : Type*} (A : Matrix m n ℝ) (lam : ℝ) : Matrix m n ℝ :=
  fun i j => A i j / (1 + 2 * lam)

/-! ### regain/prox.py, group operators with IEEE special values -/

/-- `np.linalg.norm` of a finite vector. -/
noncomputable def npNorm {m : Type*} [Fintype m] (v : m → ℝ) : ℝ := Real.sqrt (∑ i, v i ^ 2)

/-- `soft_thresholding_vector(a, lamda)` for one vector (last axis), regain/prox.py:61-63:
`np.maximum(1 - lamda / norm, 0) * a`, with IEEE division. -/
noncomputable def softThresholdingVector {m : Type*} [Fintype m] (v : m → ℝ) (lam : ℝ) : m → XF :=
  fun i =>
    XF.mul (XF.max (XF.sub (.fin 1) (XF.div (.fin lam) (.fin (npNorm v)))) (.fin 0)) (.fin (v i))

/-- `blockwise_soft_thresholding(a, lamda)` for one matrix, regain/prox.py:66-69: swap the last two
axes, threshold rows, swap back. -/
noncomputable def blockwiseSoftThresholding {m n : Type*} [Fintype m] (A : Matrix m n ℝ) (lam : ℝ) :
    m → n → XF :=
  fun i j => softThresholdingVector (fun k => A k j) lam i

open Classical in
/-- `(1 - lamda / col_norms) * (col_norms > lamda)`, regain/prox.py:74-76, one column. -/
noncomputable def symCoef {n : ℕ} (A : Matrix (Fin n) (Fin n) ℝ) (lam : ℝ) (j : Fin n) : XF :=
  XF.mul (XF.sub (.fin 1) (XF.div (.fin lam) (.fin (npNorm fun k => A k j))))
    (XF.ofBool (decide (npNorm (fun k => A k j) > lam)))

/-- `blockwise_soft_thresholding_symmetric(a, lamda)` for one matrix, regain/prox.py:72-78:
`np.matmul(a, create_from_diagonal(coef))`, the product computed with IEEE arithmetic. -/
noncomputable def blockwiseSoftThresholdingSymmetric {n : ℕ} (A : Matrix (Fin n) (Fin n) ℝ)
    (lam : ℝ) : Fin n → Fin n → XF :=
  fun i j => XF.sum fun k =>
    XF.mul (.fin (A i k)) (if k = j then symCoef A lam j else .fin 0)

/-! ### regain/prox.py, spectral operators -/

/-- Contract of `np.linalg.eigh(A)` for symmetric `A`: an orthogonal `Q` and real eigenvalues with
`A = Q diag(e) Qᵀ`. Nothing is assumed about which basis or ordering LAPACK returns. -/
structure IsEigh {n : Type*} [Fintype n] [DecidableEq n] (A Q : Matrix n n ℝ) (e : n → ℝ) :
    Prop where
  orth : Q * Qᵀ = 1
  orth' : Qᵀ * Q = 1
  decomp : A = Q * diagonal e * Qᵀ

/-- `matmul(matmul(Q, create_from_diagonal(xi)), swapaxes(Q))`, regain/prox.py:134-135, 145-146,
157-158. -/
noncomputable def recompose {n : Type*} [Fintype n] [DecidableEq n] (Q : Matrix n n ℝ)
    (xi : n → ℝ) : Matrix n n ℝ :=
  Q * createFromDiagonal xi * Qᵀ

/-- Eigenvalue map of `prox_logdet`, regain/prox.py:130. -/
noncomputable def xiLogdet (lam e : ℝ) : ℝ := (-e + Real.sqrt (e ^ 2 + 4 / lam)) * lam / 2

/-- `prox_logdet(a, lamda)` given the output `(e, Q)` of `eigh(a)`, regain/prox.py:127-136. -/
noncomputable def proxLogdet {n : Type*} [Fintype n] [DecidableEq n] (Q : Matrix n n ℝ)
    (e : n → ℝ) (lam : ℝ) : Matrix n n ℝ :=
  recompose Q fun i => xiLogdet lam (e i)

/-- `prox_logdet_ala_ma(a, lamda)` given `(e, Q)`, regain/prox.py:139-147. -/
noncomputable def proxLogdetAlaMa {n : Type*} [Fintype n] [DecidableEq n] (Q : Matrix n n ℝ)
    (e : n → ℝ) (lam : ℝ) : Matrix n n ℝ :=
  recompose Q fun i => (-(e i) + Real.sqrt ((e i) ^ 2 + 4 * lam)) / 2

/-- `prox_trace_indicator(a, lamda)` given `(e, Q)`, regain/prox.py:150-159. -/
noncomputable def proxTraceIndicator {n : Type*} [Fintype n] [DecidableEq n] (Q : Matrix n n ℝ)
    (e : n → ℝ) (lam : ℝ) : Matrix n n ℝ :=
  recompose Q fun i => max (e i - lam) 0

end Verif.Model
