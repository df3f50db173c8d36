import Verif.Model.Metrics
import Verif.Model.GL
import Mathlib.LinearAlgebra.Matrix.Rank
import Mathlib.Analysis.SpecialFunctions.Log.Basic
import Mathlib.Analysis.SpecialFunctions.Sqrt
import Mathlib.Algebra.Order.Floor.Defs
import Mathlib.Algebra.Order.Floor.Ring
import Mathlib.Algebra.Order.Archimedean.Basic
import Mathlib.Algebra.Order.Archimedean.Real.Basic

/-!
Remaining helpers of `regain/utils.py`: `normalize_matrix`, `read_network`, the definiteness checks,
`logentropy_normalize`, `error_norm_time`, `error_rank` and `alpha_heuristic`.
-/

set_option autoImplicit false
set_option linter.unusedSectionVars false

namespace Verif.Model

open Matrix

/-! ### normalize_matrix -/

/-- `d = 1.0 / np.sqrt(np.diag(x))`, regain/utils.py:311-312. -/
noncomputable def invSqrtDiag {p : ℕ} (x : Matrix (Fin p) (Fin p) ℝ) (i : Fin p) : XF :=
  XF.div (.fin 1) (xfSqrt (.fin (x i i)))

/-- `normalize_matrix(x)`, regain/utils.py:309-314: the contents of `x` after the in-place call
(`x *= d` scales column `j` by `d j`, then `x *= d.T` scales row `i` by `d i`; `d` was computed before
the first assignment and is not a view of `x`). The call returns None. -/
noncomputable def normalizeMatrix {p : ℕ} (x : Matrix (Fin p) (Fin p) ℝ) :
    Matrix (Fin p) (Fin p) XF :=
  fun i j => XF.mul (XF.mul (.fin (x i j)) (invSqrtDiag x j)) (invSqrtDiag x i)

/-! ### read_network -/

/-- One line `source, target, weight` of the file, regain/utils.py:229. Nodes are positions in
`columns`, the labels of the first column sorted by number (utils.py:231); only files all of whose
targets occur in the first column are modelled (pandas would enlarge the frame otherwise). -/
structure NetRow (p : ℕ) where
  src : Fin p
  dst : Fin p
  w : ℝ

/-- `delimiter` after the extension rules of `read_network`, regain/utils.py:210-227. The result is
the separator with a flag for the warning, or none for the ValueError. `ext` is the extension. -/
def networkDelimiter (ext delimiter : String) : Option (String × Bool) :=
  if ext = ".tsv" ∨ ext = ".tab" then
    if delimiter = "auto" then some ("\t", false) else some (delimiter, decide (delimiter ≠ "\t"))
  else if ext = ".csv" then
    if delimiter = "auto" then some (",", false) else some (delimiter, decide (delimiter ≠ ","))
  else if delimiter = "auto" then none
  else some (delimiter, false)

/-- `(2 if full_network else 1) * int(nn.shape[0] * threshold / (2.0 if full_network else 1))`,
regain/utils.py:232-234, for `threshold ≥ 0` (a negative threshold would slice from the end and is
not modelled). -/
noncomputable def nTopRows (rows : ℕ) (threshold : ℝ) (full : Bool) : ℕ :=
  if full then 2 * ⌊(rows : ℝ) * threshold / 2⌋₊ else ⌊(rows : ℝ) * threshold⌋₊

/-- `net.loc[s, t] = net.loc[t, s] = w`, regain/utils.py:240. -/
def setSymEntry {p : ℕ} (M : Matrix (Fin p) (Fin p) ℝ) (s t : Fin p) (w : ℝ) :
    Matrix (Fin p) (Fin p) ℝ :=
  fun i j => if (i = s ∧ j = t) ∨ (i = t ∧ j = s) then w else M i j

open Classical in
/-- The loop `for row in nn.itertuples()`, regain/utils.py:238-240. -/
noncomputable def netLoop {p : ℕ} : List (NetRow p) → Matrix (Fin p) (Fin p) ℝ →
    Matrix (Fin p) (Fin p) ℝ
  | [], M => M
  | r :: rs, M => netLoop rs (if 0 < r.w then setSymEntry M r.src r.dst r.w else M)

/-- `np.fill_diagonal(net.values, net.sum(axis=1).values)`, regain/utils.py:242-243: the row sums
include the old diagonal. -/
def fillRowSums {p : ℕ} (M : Matrix (Fin p) (Fin p) ℝ) : Matrix (Fin p) (Fin p) ℝ :=
  fun i j => if i = j then ∑ k, M i k else M i j

/-- `read_network`, regain/utils.py:193-244, once the file is parsed. `sorted` is what
`nn.sort_values(2, ascending=False)` returns (an arbitrary sorted permutation: pandas' default sort
is not stable). -/
noncomputable def readNetwork {p : ℕ} (sorted : List (NetRow p)) (threshold : ℝ)
    (full fillDiag : Bool) : Matrix (Fin p) (Fin p) ℝ :=
  let net := netLoop (sorted.take (nTopRows sorted.length threshold full)) 0
  if fillDiag then fillRowSums net else net

/-! ### definiteness checks -/

/-- The matrix that `np.linalg.eigvalsh` and `np.linalg.cholesky` really look at: both read only the
lower triangle (numpy's default `UPLO="L"`). -/
def lowerSym {p : ℕ} (x : Matrix (Fin p) (Fin p) ℝ) : Matrix (Fin p) (Fin p) ℝ :=
  fun i j => if j ≤ i then x i j else x j i

open Classical in
/-- `eigs[np.abs(eigs) < tol] = 0`, regain/utils.py:593, 607. -/
noncomputable def snapZero (tol e : ℝ) : ℝ := if |e| < tol then 0 else e

open Classical in
/-- `is_pos_semidef(x, tol)`, regain/utils.py:590-594. -/
noncomputable def isPosSemidefEig {p : ℕ} (eigh : Eigh (Fin p)) (x : Matrix (Fin p) (Fin p) ℝ)
    (tol : ℝ) : Bool :=
  decide (∀ i, 0 ≤ snapZero tol ((eigh (lowerSym x)).2 i))

open Classical in
/-- `is_pos_def(x, tol, chol)`, regain/utils.py:597-608. -/
noncomputable def isPosDefFull {p : ℕ} (eigh : Eigh (Fin p)) (x : Matrix (Fin p) (Fin p) ℝ)
    (tol : ℝ) (chol : Bool) : Bool :=
  if chol then isPosDef (lowerSym x)
  else decide (∀ i, 0 < snapZero tol ((eigh (lowerSym x)).2 i))

/-- `positive_definite(x, tol)` on a 2-d array, regain/utils.py:611-613: `tol` is not passed on. -/
noncomputable def positiveDefinite2 {p : ℕ} (eigh : Eigh (Fin p)) (x : Matrix (Fin p) (Fin p) ℝ)
    (_tol : ℝ) : Bool := isPosDefFull eigh x 1e-15 true

/-- `positive_definite(x, tol)` on a 3-d array, regain/utils.py:614. -/
noncomputable def positiveDefinite3 {p : ℕ} (eigh : Eigh (Fin p))
    (xs : List (Matrix (Fin p) (Fin p) ℝ)) (_tol : ℝ) : Bool :=
  xs.all fun y => isPosDefFull eigh y 1e-15 true

/-! ### logentropy_normalize -/

open Classical in
/-- One entry of `(P * np.log(P)).fillna(0)`, regain/utils.py:76-77, for non-negative data: `0/0`
(an empty column) and `0 * log 0` are NaN and replaced by zero. -/
noncomputable def plogp {n m : ℕ} (X : Matrix (Fin n) (Fin m) ℝ) (i : Fin n) (j : Fin m) : ℝ :=
  if (∑ k, X k j) = 0 then 0
  else
    let q := X i j / ∑ k, X k j
    if q = 0 then 0 else q * Real.log q

/-- `E`, regain/utils.py:77-79. -/
noncomputable def entropyWeight {n m : ℕ} (X : Matrix (Fin n) (Fin m) ℝ) (j : Fin m) : ℝ :=
  1 + (∑ i, plogp X i j) / Real.log (1 + n)

/-- `logentropy_normalize(X)`, regain/utils.py:74-80, for non-negative data. -/
noncomputable def logentropyNormalize {n m : ℕ} (X : Matrix (Fin n) (Fin m) ℝ) :
    Matrix (Fin n) (Fin m) ℝ :=
  fun i j => entropyWeight X j * Real.log (1 + X i j)

/-! ### error_norm_time, error_rank -/

/-- One summand of the mean below; `none` once an exception was raised. -/
noncomputable def accResult : Option XF → ErrResult → Option XF
  | some a, .value v => some (XF.add a v)
  | _, _ => none

/-- `np.mean` of a list of numbers (regain/utils.py:427-432), or the exception raised while the list was built. -/
noncomputable def meanResults (rs : List ErrResult) : ErrResult :=
  match rs.foldl accResult (some (.fin 0)) with
  | some s => .value (XF.div s (.fin rs.length))
  | none => .notImplemented

/-- `error_norm_time(cov, comp_cov, norm, scaling, squared)`, regain/utils.py:398-432; `spectral x y`
is the value of the spectral branch for the two slices. -/
noncomputable def errorNormTime {p : ℕ} (cov comp : List (Matrix (Fin p) (Fin p) ℝ)) (norm : String)
    (spectral : Matrix (Fin p) (Fin p) ℝ → Matrix (Fin p) (Fin p) ℝ → XF) (scaling squared : Bool) :
    ErrResult :=
  meanResults ((cov.zip comp).map fun xy =>
    errorNorm xy.1 xy.2 norm (spectral xy.1 xy.2) scaling squared false false)

/-- `error_rank(ells_true, ells_pred)`, regain/utils.py:295-306, for stacks of equal length (numpy
raises on other lengths, except that a stack of length one is broadcast). `matrix_rank` is the exact
rank. -/
noncomputable def errorRank {T p : ℕ} (a b : Fin T → Matrix (Fin p) (Fin p) ℝ) : XF :=
  XF.div (.fin (∑ t, |((a t).rank : ℝ) - (b t).rank|)) (.fin T)

/-! ### alpha_heuristic -/

/-- `m`, `num` and `den` of `alpha_heuristic` given the products of diagonal entries,
regain/utils.py:656-667. `t` is `stats.t.pdf(gamma, n_samples - 2) * 2`. -/
noncomputable def alphaOf (m t : ℝ) (nSamples : ℕ) : XF :=
  XF.div (.fin (t * m)) (xfSqrt (.fin ((nSamples : ℝ) - 2 + t * t)))

/-- `alpha_heuristic(emp_cov, n_samples, gamma)` on a 2-d array, regain/utils.py:646-667;
`tpdf = stats.t.pdf` is an arbitrary function of the point and the degrees of freedom. -/
noncomputable def alphaHeuristic2 {p : ℕ} [NeZero p] (tpdf : ℝ → ℝ → ℝ)
    (S : Matrix (Fin p) (Fin p) ℝ) (nSamples : ℕ) (gamma : ℝ) : XF :=
  alphaOf (Finset.univ.sup' Finset.univ_nonempty fun ij : Fin p × Fin p => S ij.1 ij.1 * S ij.2 ij.2)
    (tpdf gamma ((nSamples : ℝ) - 2) * 2) nSamples

/-- `alpha_heuristic` on a 3-d array, regain/utils.py:655-657. -/
noncomputable def alphaHeuristic3 {T p : ℕ} [NeZero T] [NeZero p] (tpdf : ℝ → ℝ → ℝ)
    (S : Fin T → Matrix (Fin p) (Fin p) ℝ) (nSamples : ℕ) (gamma : ℝ) : XF :=
  alphaOf (Finset.univ.sup' Finset.univ_nonempty
      fun tij : Fin T × Fin p × Fin p => S tij.1 tij.2.1 tij.2.1 * S tij.1 tij.2.2 tij.2.2)
    (tpdf gamma ((nSamples : ℝ) - 2) * 2) nSamples

end Verif.Model
