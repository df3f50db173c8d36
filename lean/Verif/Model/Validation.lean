import Verif.Model.Prox
import Mathlib.Order.ConditionallyCompleteLattice.Finset

/-! Model of `regain/validation.py`. -/

namespace Verif.Model

open Matrix

/-- External numerical routines behind two of the penalties: `prox_linf_1d` (scipy `minimize`,
regain/prox.py:81-116), `node_penalty` (regain/norm.py:58-78, scipy `minimize`, nan on failure) and
`prox_node_penalty` (regain/prox.py:167-239). -/
structure PenaltyExternals (n : Type*) where
  linf1d : (n → ℝ) → ℝ → (n → ℝ)
  nodePenalty : Matrix n n ℝ → XF
  proxNode : Matrix n n ℝ → ℝ → n → n → XF

/-- `sklearn.utils.extmath.squared_norm` of a matrix. -/
def squaredNorm {n : Type*} [Fintype n] (A : Matrix n n ℝ) : ℝ := ∑ i, ∑ j, A i j ^ 2

/-- `np.linalg.norm` of a 2-d array: the Frobenius norm. -/
noncomputable def npNormMat {n : Type*} [Fintype n] (A : Matrix n n ℝ) : ℝ :=
  Real.sqrt (∑ i, ∑ j, A i j ^ 2)

/-- `np.linalg.norm(A, ord=np.inf)` of a 2-d array: the largest absolute row sum. -/
noncomputable def npNormInf {n : Type*} [Fintype n] (A : Matrix n n ℝ) : ℝ := ⨆ i, ∑ j, |A i j|

/-- `prox_linf(a, lamda)` for one (square) matrix of the batch, regain/prox.py:119-124: the
one-dimensional operator on every column. -/
def proxLinf {n : Type*} (ext : PenaltyExternals n) (A : Matrix n n ℝ) (lam : ℝ) : Matrix n n ℝ :=
  fun i j => ext.linf1d (fun k => A k j) lam i

/-- The triple returned by `check_norm_prox`: the penalty, its prox and the `node` flag. -/
structure NormProx (n : Type*) where
  norm : Matrix n n ℝ → XF
  prox : Matrix n n ℝ → ℝ → n → n → XF
  isNode : Bool

/-- `check_norm_prox(function)`, regain/validation.py:44-63; `none` is the `ValueError`. The
functions act on one matrix of the batch. -/
noncomputable def checkNormProx {n : Type*} [Fintype n] (ext : PenaltyExternals n)
    (function : String) : Option (NormProx n) :=
  if function = "laplacian" then
    some ⟨fun X => .fin (squaredNorm X), fun A lam i j => .fin (proxLaplacianMat A lam i j),
      function == "node"⟩
  else if function = "l1" then
    some ⟨fun X => .fin (l1Norm X), fun A lam i j => .fin (softThresholdingMat A lam i j),
      function == "node"⟩
  else if function = "l2" then
    some ⟨fun X => .fin (npNormMat X), blockwiseSoftThresholding, function == "node"⟩
  else if function = "linf" then
    some ⟨fun X => .fin (npNormInf X), fun A lam i j => .fin (proxLinf ext A lam i j),
      function == "node"⟩
  else if function = "node" then
    some ⟨ext.nodePenalty, ext.proxNode, function == "node"⟩
  else none

/-! ### Array shapes -/

/-- A numpy array: its shape and the value at every multi-index. -/
structure NDArray (α : Type*) where
  shape : List ℕ
  get : List ℕ → α

/-- `idx` is a valid multi-index of an array with this shape. -/
def InShape : List ℕ → List ℕ → Prop
  | [], [] => True
  | s :: ss, i :: is => i < s ∧ InShape ss is
  | _, _ => False

/-- The caller's data: a python list (of matrices) or an array. -/
inductive DataInput (α : Type*) where
  | list (xs : List (NDArray α))
  | array (X : NDArray α)

/-- Outcome of `check_array_dimensions`: the data and whether a warning was emitted, or
`ValueError`. -/
inductive DimResult (α : Type*) where
  | ok (out : DataInput α) (warned : Bool)
  | valueError

/-- `X[None, ...]`. -/
def addLeadingAxis {α : Type*} (X : NDArray α) : NDArray α where
  shape := 1 :: X.shape
  get := fun idx => X.get idx.tail

/-- `X.transpose(2, 0, 1)`: `out[a, b, c] = X[b, c, a]`; numpy raises `ValueError` unless `X` has
three dimensions. -/
def transpose201 {α : Type*} (X : NDArray α) : Option (NDArray α) :=
  match X.shape with
  | [p, q, r] => some
      { shape := [r, p, q]
        get := fun idx => match idx with
          | [a, b, c] => X.get [b, c, a]
          | l => X.get l }
  | _ => none

/-- `check_array_dimensions(X, n_dimensions, time_on_axis, suppress_warn_list)`,
regain/validation.py:66-85. -/
def checkArrayDimensions {α : Type*} (X : DataInput α) (nDimensions : ℕ) (timeLast : Bool)
    (suppressWarnList : Bool) : DimResult α :=
  match X with
  | .list xs => .ok (.list xs) (!suppressWarnList)
  | .array A =>
      if (A.shape.length : ℤ) = (nDimensions : ℤ) - 1 then .ok (.array (addLeadingAxis A)) true
      else if A.shape.length ≠ nDimensions then .valueError
      else if timeLast then
        match transpose201 A with
        | some B => .ok (.array B) false
        | none => .valueError
      else .ok (.array A) false

/-- `check_input(X, y)`, regain/validation.py:108-117, decision part: what happens before the data
is looked at. -/
inductive CheckInput where
  | typeError
  | valueError
  | checkInput3d
deriving DecidableEq

/-- `check_input(X, y)`, regain/validation.py:108-117. -/
def checkInput (isSparse : Bool) (hasY : Bool) : CheckInput :=
  if isSparse then .typeError else if !hasY then .checkInput3d else .valueError

end Verif.Model
