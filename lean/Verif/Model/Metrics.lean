import Verif.Model.XFloat
import Verif.Model.Prox
import Mathlib.Data.Fintype.Prod
import Mathlib.Data.Fintype.BigOperators
import Mathlib.LinearAlgebra.Matrix.PosDef

/-! Model of the error measures and matrix helpers of `regain/utils.py`. -/

namespace Verif.Model

open Matrix

/-! ### error_norm -/

/-- `np.triu(A, 1)`: strictly upper triangular part. -/
def triu1 {p : ℕ} (A : Matrix (Fin p) (Fin p) ℝ) : Matrix (Fin p) (Fin p) ℝ :=
  fun i j => if i < j then A i j else 0

/-- Outcome of `error_norm`. -/
inductive ErrResult where
  | value (x : XF)
  | notImplemented

/-- `np.sqrt`: nan for negative numbers. -/
noncomputable def xfSqrt : XF → XF
  | .fin a => open Classical in if a < 0 then .nan else .fin (Real.sqrt a)
  | .pinf => .pinf
  | .ninf => .nan
  | .nan => .nan

/-- Sum of squared errors over all entries, or (`nonzero`) over the entries selected by
`np.where(cov == 0)`, regain/utils.py:367-375, for an index type of entries. -/
noncomputable def errSum {ι : Type*} [Fintype ι] (nonzero : Bool) (cov comp : ι → ℝ) : ℝ :=
  open Classical in
  ∑ e ∈ (if nonzero then Finset.univ.filter (fun e => cov e = 0) else Finset.univ),
    (comp e - cov e) ^ 2

/-- `error_norm` after the triangular selection: `entries` are all positions, `factor` is the
scaling factor for an array of the original shape; with `nonzero` the error is a 1-d array and
`error.shape[0]` is the number of selected entries, regain/utils.py:371-395. The spectral norm is the
argument `spectral` (external routine; `np.amax(np.linalg.svdvals(error.T error))`). -/
noncomputable def errorNormCore {ι : Type*} [Fintype ι] (cov comp : ι → ℝ) (factor : ℝ)
    (norm : String) (spectral : XF) (scaling squared nonzero : Bool) : ErrResult :=
  open Classical in
  let sq : Option XF :=
    if norm = "frobenius" then some (.fin (errSum nonzero cov comp))
    else if norm = "spectral" then some spectral else none
  match sq with
  | none => .notImplemented
  | some s =>
    let f : ℝ := if nonzero then ((Finset.univ.filter fun e => cov e = 0).card : ℝ) else factor
    let s' := if scaling then XF.div s (.fin f) else s
    .value (if squared then s' else xfSqrt s')

/-- `error_norm(cov, comp_cov, …)` for 2-d arrays, regain/utils.py:317-395 (`n=False`). -/
noncomputable def errorNorm {p : ℕ} (cov comp : Matrix (Fin p) (Fin p) ℝ) (norm : String)
    (spectral : XF) (scaling squared upper nonzero : Bool) : ErrResult :=
  let c := if upper then triu1 cov else cov
  let d := if upper then triu1 comp else comp
  errorNormCore (ι := Fin p × Fin p) (fun e => c e.1 e.2) (fun e => d e.1 e.2) p norm spectral
    scaling squared nonzero

/-- `error_norm(cov, comp_cov, …)` for 3-d arrays, regain/utils.py:317-395 (`n=False`): the factor is
`T * p * p`, or `T * p * (p-1)/2` for the upper triangle. -/
noncomputable def errorNorm3 {T p : ℕ} (cov comp : Fin T → Matrix (Fin p) (Fin p) ℝ) (norm : String)
    (spectral : XF) (scaling squared upper nonzero : Bool) : ErrResult :=
  let c := fun t => if upper then triu1 (cov t) else cov t
  let d := fun t => if upper then triu1 (comp t) else comp t
  errorNormCore (ι := Fin T × Fin p × Fin p) (fun e => c e.1 e.2.1 e.2.2)
    (fun e => d e.1 e.2.1 e.2.2)
    ((T * p : ℝ) * (if upper then ((p : ℝ) - 1) / 2 else p)) norm spectral scaling squared nonzero

/-! ### structure_error -/

/-- The dictionary returned by `structure_error`, without `average_precision` and `mcc` (computed
by sklearn). -/
structure StructError where
  tp : ℕ
  tn : ℤ
  fp : ℕ
  fn : ℕ
  precision : ℝ
  recall : ℝ
  f1 : ℝ
  accuracy : ℝ
  false_omission_rate : ℝ
  fdr : ℝ
  npv : ℝ
  prevalence : ℝ
  miss_rate : ℝ
  fall_out : ℝ
  specificity : ℝ
  plr : ℝ
  nlr : ℝ
  dor : ℝ
  balanced_accuracy : ℝ

/-- Python `a / b` on integers: `none` is `ZeroDivisionError`. -/
noncomputable def pyDiv (a b : ℝ) : Option ℝ := open Classical in if b = 0 then none else some (a / b)

/-- The rates computed from the confusion counts, regain/utils.py:489-515. -/
noncomputable def structRates (TP FN FP : ℕ) (TN : ℤ) (size : ℕ) : Option StructError :=
  open Classical in do
  let precision : ℝ := if TP + FP > 0 then (TP : ℝ) / ((TP : ℝ) + FP) else 0
  let recall ← pyDiv TP ((TP : ℝ) + FN)
  let mr ← pyDiv FN ((TP : ℝ) + FN)
  let miss_rate := if mr ≠ 0 then mr else 1 - recall
  let f1 := if precision + recall > 0 then 2 * precision * recall / (precision + recall) else 0
  let accuracy ← pyDiv ((TP : ℝ) + TN) size
  let prevalence ← pyDiv ((TP : ℝ) + FN) size
  let fall_out := if (FP : ℤ) + TN > 0 then (FP : ℝ) / ((FP : ℝ) + TN) else 1
  let specificity := if (FP : ℤ) + TN > 0 then (TN : ℝ) / ((FP : ℝ) + TN) else 1 - fall_out
  let balanced := 0.5 * (recall + specificity)
  let fdr := if TP + FP > 0 then (FP : ℝ) / ((TP : ℝ) + FP) else 1 - precision
  let fomr := if (FN : ℤ) + TN > 0 then (FN : ℝ) / ((FN : ℝ) + TN) else 0
  let npv := if (FN : ℤ) + TN > 0 then (TN : ℝ) / ((FN : ℝ) + TN) else 1 - fomr
  let plr := if fall_out > 0 then recall / fall_out else 0
  let nlr := if specificity > 0 then miss_rate / specificity else 0
  let dor := if nlr > 0 then plr / nlr else 0
  return { tp := TP, tn := TN, fp := FP, fn := FN, precision := precision, recall := recall,
           f1 := f1, accuracy := accuracy, false_omission_rate := fomr, fdr := fdr, npv := npv,
           prevalence := prevalence, miss_rate := miss_rate, fall_out := fall_out,
           specificity := specificity, plr := plr, nlr := nlr, dor := dor,
           balanced_accuracy := balanced }

/-- Body of `structure_error` for arrays with entries `ι`, regain/utils.py:468-488: threshold the
prediction, drop the diagonal, encode the truth as 0/1 and the prediction as 0/2, count the codes.
`isDiag` marks the diagonal positions and `removed` is `tn_to_remove`. -/
noncomputable def structureErrorCore {ι : Type*} [Fintype ι] (isDiag : ι → Prop) (removed : ℕ)
    (true_ pred : ι → ℝ) (thresholding : Bool) (eps : ℝ) (noDiagonal : Bool) : Option StructError :=
  open Classical in
  let pred1 : ι → ℝ := fun e => if thresholding ∧ |pred e| < eps then 0 else pred e
  let t2 : ι → ℝ := fun e => if noDiagonal ∧ isDiag e then true_ e - true_ e else true_ e
  let p2 : ι → ℝ := fun e => if noDiagonal ∧ isDiag e then pred1 e - pred1 e else pred1 e
  let t3 : ι → ℝ := fun e => if t2 e ≠ 0 then 1 else t2 e
  let p3 : ι → ℝ := fun e => if p2 e ≠ 0 then 2 else p2 e
  let res : ι → ℝ := fun e => t3 e + p3 e
  let count : ℝ → ℕ := fun c => (Finset.univ.filter fun e => res e = c).card
  structRates (count 3) (count 1) (count 2) ((count 0 : ℤ) - (if noDiagonal then (removed : ℤ) else 0))
    (Fintype.card ι)

/-- `structure_error(true, pred, thresholding, eps, no_diagonal)` for 2-d arrays,
regain/utils.py:435-540. `none` is `ZeroDivisionError`. -/
noncomputable def structureError {p : ℕ} (true_ pred : Matrix (Fin p) (Fin p) ℝ)
    (thresholding : Bool) (eps : ℝ) (noDiagonal : Bool) : Option StructError :=
  structureErrorCore (ι := Fin p × Fin p) (fun e => e.1 = e.2) p (fun e => true_ e.1 e.2)
    (fun e => pred e.1 e.2) thresholding eps noDiagonal

/-- `structure_error(true, pred, thresholding, eps, no_diagonal)` for 3-d arrays,
regain/utils.py:435-540. -/
noncomputable def structureError3 {T p : ℕ} (true_ pred : Fin T → Matrix (Fin p) (Fin p) ℝ)
    (thresholding : Bool) (eps : ℝ) (noDiagonal : Bool) : Option StructError :=
  structureErrorCore (ι := Fin T × Fin p × Fin p) (fun e => e.2.1 = e.2.2) (T * p)
    (fun e => true_ e.1 e.2.1 e.2.2) (fun e => pred e.1 e.2.1 e.2.2) thresholding eps noDiagonal

/-! ### mean_structure_error -/

/-- Keys of the dictionary returned by `structure_error`, in order, regain/utils.py:517-539. -/
def structErrorKeys : List String :=
  ["tp", "tn", "fp", "fn", "precision", "recall", "f1", "accuracy", "false_omission_rate", "fdr",
   "npv", "prevalence", "miss_rate", "fall_out", "specificity", "plr", "nlr", "dor",
   "balanced_accuracy", "average_precision", "mcc"]

/-- Keys of the accumulator in `mean_structure_error`, regain/utils.py:558-579. -/
def meanErrorKeys : List String :=
  ["tp", "tn", "fp", "fn", "precision", "recall", "f1", "accuracy", "false_omission_rate", "fdr",
   "npv", "prevalence", "miss_rate", "fall_out", "specificity", "plr", "nlr", "dor",
   "balanced_accuracy", "average_precision"]

/-- Outcome of `mean_structure_error`: the summaries (key and collected values), or an exception. -/
inductive MeanResult (α : Type*) where
  | ok (summaries : List (String × List α))
  | keyError (k : String)
  | zeroDivision

/-- `for k, v in res.items(): dictionary[k].append(v)`: append `v` under key `k`; `none` if the key is
missing. -/
def appendKey {α : Type*} (k : String) (v : α) :
    List (String × List α) → Option (List (String × List α))
  | [] => none
  | (k', l) :: rest =>
      if k = k' then some ((k', l ++ [v]) :: rest)
      else (appendKey k v rest).map ((k', l) :: ·)

/-- The inner loop over `res.items()`. -/
def appendAll {α : Type*} : List (String × α) → List (String × List α) → MeanResult α
  | [], d => .ok d
  | (k, v) :: items, d =>
      match appendKey k v d with
      | none => .keyError k
      | some d' => appendAll items d'

/-- `mean_structure_error(true, preds)`, regain/utils.py:543-587. `score p` is the outcome of
`structure_error(true, p, no_diagonal=True)`: the values in the order of `structErrorKeys`, or `none`
for `ZeroDivisionError`. The final formatting of mean and std is left out. -/
def meanStructureError {P α : Type*} (score : P → Option (List α)) (preds : List P) : MeanResult α :=
  let rec go : List P → List (String × List α) → MeanResult α
    | [], d => .ok d
    | p :: ps, d =>
        match score p with
        | none => .zeroDivision
        | some vals =>
            match appendAll (structErrorKeys.zip vals) d with
            | .ok d' => go ps d'
            | e => e
  go preds (meanErrorKeys.map fun k => (k, []))

/-! ### ensure_posdef, threshold -/

/-- `is_pos_def(x)` with `chol=True`, regain/utils.py:597-608: `np.linalg.cholesky` succeeds.
Contract used: on a symmetric matrix cholesky succeeds exactly when it is positive definite. -/
noncomputable def isPosDef {n : Type*} [Fintype n] (X : Matrix n n ℝ) : Bool :=
  open Classical in decide X.PosDef

/-- `_ensure_posdef_2d(X)`, regain/utils.py:618-623: the contents of `X` after the in-place call. -/
noncomputable def ensurePosdef2d {n : Type*} [Fintype n] [DecidableEq n] (X : Matrix n n ℝ) :
    Matrix n n ℝ :=
  if isPosDef X then X
  else fillDiagonal X fun i => (∑ j, |(X - diagonal fun k => X k k) i j|) + 0.1

/-- Outcome of an in-place call. -/
inductive InPlace (α : Type*) where
  | done (contents : α)
  | notImplemented

/-- `ensure_posdef(X, inplace)` for a matrix, regain/utils.py:617-629. -/
noncomputable def ensurePosdef {n : Type*} [Fintype n] [DecidableEq n] (X : Matrix n n ℝ)
    (inplace : Bool) : InPlace (Matrix n n ℝ) :=
  if !inplace then .notImplemented else .done (ensurePosdef2d X)

/-- `ensure_posdef(X, inplace)` for a batch, regain/utils.py:626-628: matrix by matrix (an empty
batch never reaches the check of `inplace`). -/
noncomputable def ensurePosdefBatch {n : Type*} [Fintype n] [DecidableEq n]
    (X : List (Matrix n n ℝ)) (inplace : Bool) : InPlace (List (Matrix n n ℝ)) :=
  if !inplace ∧ X ≠ [] then .notImplemented else .done (X.map ensurePosdef2d)

open Classical in
/-- `threshold(a, threshmin, threshmax, newval)`, regain/utils.py:632-643, on an array with entries
`ι` (the copy returned; comparisons follow IEEE: false for nan). -/
noncomputable def thresholdArr {ι : Type*} (a : ι → XF) (lo hi : Option XF) (newval : XF) : ι → XF :=
  fun e =>
    let m0 : Bool := false
    let m1 : Bool := match lo with
      | none => m0
      | some l => m0 || decide (XF.lt (a e) l)
    let m2 : Bool := match hi with
      | none => m1
      | some h => m1 || decide (XF.lt h (a e))
    if m2 then newval else a e

end Verif.Model
