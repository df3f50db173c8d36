import Verif.Model.Kernels
import Mathlib.Algebra.Module.Basic

/-! Model of `make_ticc_dataset_new`, regain/datasets/kernels.py:313-453: one precision for all rows of the data set, and
rows drawn one after the other given a window of previous rows; and of the rows of `make_ticc_dataset`,
regain/datasets/kernels.py:264-293. Random draws are arguments. -/

namespace Verif.Model

open Matrix

set_option autoImplicit false

variable {n M : ℕ}

/-- The dictionary `bmc[r]` of one cluster label with its default, regain/datasets/kernels.py:341-359 and 365
(`num_blocks` is `n_samples`): block 0 from `genInvCov`, blocks up to `w_size` from `genRandInv` (any matrix), zero
after that and outside the dictionary. -/
def ticcNewBlocks (nSamples w : ℕ) (S : Matrix (Fin n) (Fin n) ℝ) (rand : ℕ → Matrix (Fin n) (Fin n) ℝ) (i : ℕ) :
    Matrix (Fin n) (Fin n) ℝ :=
  if i < nSamples then (if i = 0 then genInvCov S true else if i < w + 1 then rand i else 0) else 0

/-- Block `(r, col)` of `get_out_diag`, regain/datasets/kernels.py:361-370: the list over `j = 1, …, num_blocks` is
reversed, so row `r` has `j = num_blocks - r`. -/
def ticcOutDiag (nSamples : ℕ) (B : ℕ → Matrix (Fin n) (Fin n) ℝ) (r col : ℕ) : Matrix (Fin n) (Fin n) ℝ :=
  let j := nSamples - r
  if j < col then (B (j + col))ᵀ else B (j + col)

/-- Block `(j, col)` of `get_diag`, regain/datasets/kernels.py:375-384: column `col` has `i = j - col` before the diagonal
and `i = col - j` from the diagonal on. -/
def ticcDiag (B : ℕ → Matrix (Fin n) (Fin n) ℝ) (j col : ℕ) : Matrix (Fin n) (Fin n) ℝ :=
  if j < col then B (col - j) else (B (j - col))ᵀ

/-- The block of `inv` (before the shift) between the rows `a` and `b` of the data set,
regain/datasets/kernels.py:386-395: the block row of the `k`-th cluster has the transposed out-of-diagonal block of the
cluster before in column `k - 1`, its own in column `k + 1`, and zeros elsewhere. -/
def ticcNewBlock (nSamples : ℕ) (B : ℕ → ℕ → Matrix (Fin n) (Fin n) ℝ) (clusters : List ℕ) (a b : ℕ) :
    Matrix (Fin n) (Fin n) ℝ :=
  if b / nSamples = a / nSamples then
    ticcDiag (B (clusters.getD (a / nSamples) 0)) (a % nSamples) (b % nSamples)
  else if b / nSamples = a / nSamples + 1 then
    ticcOutDiag nSamples (B (clusters.getD (a / nSamples) 0)) (a % nSamples) (b % nSamples)
  else if a / nSamples = b / nSamples + 1 then
    (ticcOutDiag nSamples (B (clusters.getD (b / nSamples) 0)) (b % nSamples) (a % nSamples))ᵀ
  else 0

/-- `inv` before the shift, regain/datasets/kernels.py:386-395; the index `(a, x)` is row `a * n_dim + x`, and the
number of rows of the data set is `len(clusters) * n_samples`. -/
def ticcNewAssemble (nSamples : ℕ) (B : ℕ → ℕ → Matrix (Fin n) (Fin n) ℝ) (clusters : List ℕ) :
    Matrix (Fin (clusters.length * nSamples) × Fin n) (Fin (clusters.length * nSamples) × Fin n) ℝ :=
  Matrix.of fun x y => ticcNewBlock nSamples B clusters x.1 y.1 x.2 y.2

/-- `inv` as returned, regain/datasets/kernels.py:396-399; `lmin` is the smallest eigenvalue, real since the matrix is
symmetric (C206). -/
noncomputable def ticcNewInv (nSamples w : ℕ) (S : ℕ → Matrix (Fin n) (Fin n) ℝ)
    (rand : ℕ → ℕ → Matrix (Fin n) (Fin n) ℝ) (clusters : List ℕ)
    (lmin : Matrix (Fin (clusters.length * nSamples) × Fin n) (Fin (clusters.length * nSamples) × Fin n) ℝ → ℝ) :
    Matrix (Fin (clusters.length * nSamples) × Fin n) (Fin (clusters.length * nSamples) × Fin n) ℝ :=
  let A := ticcNewAssemble nSamples (fun r => ticcNewBlocks nSamples w (S r) (rand r)) clusters
  A + (0.1 + |lmin A|) • 1

/-- The rows before row `i` in its window, `max(i - w_size, 0), …, i - 1`, regain/datasets/kernels.py:408-411. -/
abbrev TiccWin (w : ℕ) (i : Fin M) := {t : Fin M // (i : ℕ) ≤ (t : ℕ) + w ∧ (t : ℕ) < (i : ℕ)}

/-- Positions of the window in the stacked vector. -/
def winPos (w : ℕ) (i : Fin M) (x : TiccWin w i × Fin n) : Fin M × Fin n := (x.1.1, x.2)

/-- Positions of row `i` in the stacked vector. -/
def curPos (i : Fin M) (a : Fin n) : Fin M × Fin n := (i, a)

/-- `Sig21Theta11`, regain/datasets/kernels.py:407-427; `Sig11` is positive definite, and `pinvh` is then the inverse
(the empty matrix of the first row is used as it is). -/
noncomputable def ticcGain (C : Matrix (Fin M × Fin n) (Fin M × Fin n) ℝ) (w : ℕ) (i : Fin M) :
    Matrix (Fin n) (TiccWin w i × Fin n) ℝ :=
  C.submatrix (curPos i) (winPos w i) * (C.submatrix (winPos w i) (winPos w i))⁻¹

/-- `cov_tom`, regain/datasets/kernels.py:428. -/
noncomputable def ticcCovTom (C : Matrix (Fin M × Fin n) (Fin M × Fin n) ℝ) (w : ℕ) (i : Fin M) :
    Matrix (Fin n) (Fin n) ℝ :=
  C.submatrix (curPos i) (curPos i) - ticcGain C w i * (C.submatrix (curPos i) (winPos w i))ᵀ

/-- `precs[i]`, regain/datasets/kernels.py:435. -/
noncomputable def ticcNewPrec (C : Matrix (Fin M × Fin n) (Fin M × Fin n) ℝ) (w : ℕ) (i : Fin M) :
    Matrix (Fin n) (Fin n) ℝ := (ticcCovTom C w i)⁻¹

/-- `sparse_precs[i]`, regain/datasets/kernels.py:415-422 and 436: the last diagonal block of the window of `inv`. -/
def ticcSparsePrec (P : Matrix (Fin M × Fin n) (Fin M × Fin n) ℝ) (i : Fin M) : Matrix (Fin n) (Fin n) ℝ :=
  P.submatrix (curPos i) (curPos i)

section Sample

variable {H : Type*} [AddCommGroup H] [Module ℝ H]

/-- The new row `i`, regain/datasets/kernels.py:430-434 (the means are zero): `np.random.multivariate_normal(mean, cov_tom)`
is `mean + A z` for standard normal `z` and a factor `A` of `cov_tom` (an argument). Entries are elements of any real
vector space: numbers for one data set, random variables for the law of the data set. -/
noncomputable def ticcRow (C : Matrix (Fin M × Fin n) (Fin M × Fin n) ℝ) (w : ℕ) (A : Fin M → Matrix (Fin n) (Fin n) ℝ)
    (z X : Fin M → Fin n → H) (i : Fin M) : Fin n → H := fun a =>
  ∑ x, ticcGain C w i a x • X x.1.1 x.2 + ∑ b, A i a b • z i b

/-- The rows after `k` passes of the loop in regain/datasets/kernels.py:402-436; `X0` is `np.empty`. -/
noncomputable def ticcRows (C : Matrix (Fin M × Fin n) (Fin M × Fin n) ℝ) (w : ℕ) (A : Fin M → Matrix (Fin n) (Fin n) ℝ)
    (z X0 : Fin M → Fin n → H) : ℕ → Fin M → Fin n → H
  | 0 => X0
  | k + 1 =>
    let X := ticcRows C w A z X0 k
    if hk : k < M then Function.update X ⟨k, hk⟩ (ticcRow C w A z X ⟨k, hk⟩) else X

variable {w : ℕ}

/-- Number of previous rows in the window of row `i` of `make_ticc_dataset`, regain/datasets/kernels.py:267-291. -/
abbrev ticcPast (w i : ℕ) : ℕ := min i (w - 1)

/-- `cov` of `make_ticc_dataset`, regain/datasets/kernels.py:269, 274 and 283: the leading block of the covariance of the
cluster for the window and the row. -/
noncomputable def ticcWindowCov (hw : 0 < w) (P : Matrix (Fin w × Fin n) (Fin w × Fin n) ℝ) (i : ℕ) :
    Matrix ((Fin (ticcPast w i) × Fin n) ⊕ Fin n) ((Fin (ticcPast w i) × Fin n) ⊕ Fin n) ℝ :=
  P⁻¹.submatrix (windowIdx (ticcPast w i) (by unfold ticcPast; omega)) (windowIdx (ticcPast w i) (by unfold ticcPast; omega))

/-- The new row `i` of `make_ticc_dataset`, regain/datasets/kernels.py:267-292, from the precision of the cluster of that
row; `A i` is a factor of the conditional covariance, as in `ticcRow`. -/
noncomputable def ticcOldRow (hw : 0 < w) (P : ℕ → Matrix (Fin w × Fin n) (Fin w × Fin n) ℝ)
    (A : ℕ → Matrix (Fin n) (Fin n) ℝ) (z X : ℕ → Fin n → H) (i : ℕ) : Fin n → H := fun a =>
  ∑ x, ((ticcWindowCov hw (P i) i).toBlocks₂₁ * (ticcWindowCov hw (P i) i).toBlocks₁₁⁻¹) a x •
      X (i - ticcPast w i + x.1) x.2 + ∑ b, A i a b • z i b

/-- The rows after `k` passes of the loop in regain/datasets/kernels.py:264-293; `X0` is `np.empty`, and `P i` the
precision of the cluster of row `i`. -/
noncomputable def ticcOldRows (hw : 0 < w) (P : ℕ → Matrix (Fin w × Fin n) (Fin w × Fin n) ℝ)
    (A : ℕ → Matrix (Fin n) (Fin n) ℝ) (z X0 : ℕ → Fin n → H) : ℕ → ℕ → Fin n → H
  | 0 => X0
  | k + 1 => Function.update (ticcOldRows hw P A z X0 k) k (ticcOldRow hw P A z (ticcOldRows hw P A z X0 k) k)

end Sample

/-! `make_ticc_dataset_v3`, regain/datasets/kernels.py:456-591, has the code of `make_ticc_dataset_new` with
`num_blocks = 1` (line 483): its `inv` (lines 489-544) is `ticcNewInv` with one row per entry of `clusters`, its `precs`
and `sparse_precs` (lines 551-579) are `ticcNewPrec` and `ticcSparsePrec`. -/

/-- `inv` of `make_ticc_dataset_v3`, regain/datasets/kernels.py:482-544. -/
noncomputable def ticcV3Inv (w : ℕ) (S : ℕ → Matrix (Fin n) (Fin n) ℝ)
    (rand : ℕ → ℕ → Matrix (Fin n) (Fin n) ℝ) (clusters : List ℕ)
    (lmin : Matrix (Fin (clusters.length * 1) × Fin n) (Fin (clusters.length * 1) × Fin n) ℝ → ℝ) :
    Matrix (Fin (clusters.length * 1) × Fin n) (Fin (clusters.length * 1) × Fin n) ℝ :=
  ticcNewInv 1 w S rand clusters lmin

/-- `mean` of `make_ticc_dataset_v3`, regain/datasets/kernels.py:572-574, from the rows of `X` drawn so far: the rows
`max(i - w_size, 0), …, i - 1` of the array of samples. -/
noncomputable def ticcV3Mean (C : Matrix (Fin M × Fin n) (Fin M × Fin n) ℝ) (w : ℕ) (X : ℕ → Fin n → ℝ) (i : Fin M)
    (a : Fin n) : ℝ := ∑ x, ticcGain C w i a x * X x.1.1 x.2

/-- The samples of entry `i` of `clusters`, regain/datasets/kernels.py:576: `n_samples` rows `mean + A z`. -/
noncomputable def ticcV3Samples (C : Matrix (Fin M × Fin n) (Fin M × Fin n) ℝ) (w : ℕ)
    (A : Fin M → Matrix (Fin n) (Fin n) ℝ) (X : ℕ → Fin n → ℝ) (i : Fin M) (z : ℕ → Fin n → ℝ) (r : ℕ) (a : Fin n) : ℝ :=
  ticcV3Mean C w X i a + ∑ b, A i a b * z r b

end Verif.Model
