import Verif.Model.Validation
import Mathlib.Data.List.Basic

/-! Model of `check_input_3d`, regain/validation.py:88-105. -/

namespace Verif.Model

set_option autoImplicit false

/-- What `check_input_3d` may raise, regain/validation.py:94-102. -/
inductive InputErr where
  | value
  | index
  deriving DecidableEq

/-- Whether numpy makes an array of objects from arrays of different shapes (releases before 1.24) or raises; the calls
are regain/validation.py:94. -/
inductive NumpyRelease where
  | before124
  | since124
  deriving DecidableEq

/-- `check_array(x, ensure_min_features=2, ensure_min_samples=2)`, regain/validation.py:94, as a function of the shape.
Simplified: finite numeric data, for which nothing else is raised. -/
def checkArrayShape (s : ℕ × ℕ) : Except InputErr (ℕ × ℕ) :=
  if 2 ≤ s.1 ∧ 2 ≤ s.2 then .ok s else .error .value

/-- The comprehension of regain/validation.py:94: the blocks are checked in order. -/
def checkArrays : List (ℕ × ℕ) → Except InputErr (List (ℕ × ℕ))
  | [] => .ok []
  | s :: ss =>
    match checkArrayShape s with
    | .error e => .error e
    | .ok s' =>
      match checkArrays ss with
      | .error e => .error e
      | .ok ss' => .ok (s' :: ss')

/-- `np.array` of a list of two-dimensional arrays, regain/validation.py:94, as a function of their shapes: equal shapes are
stacked; otherwise current releases raise ValueError, older ones make an array of objects unless the first lengths agree
(the assignment then fails with ValueError). -/
def npStack (np : NumpyRelease) (ss : List (ℕ × ℕ)) : Except InputErr (List (ℕ × ℕ)) :=
  if ∀ s ∈ ss, ∀ t ∈ ss, s = t then .ok ss
  else
    match np with
    | .since124 => .error .value
    | .before124 => if ∀ s ∈ ss, ∀ t ∈ ss, s.1 = t.1 then .error .value else .ok ss

/-- What is returned besides the data, regain/validation.py:105. -/
structure Input3d where
  nSamples : List ℕ
  nDimensions : ℕ
  nTimes : ℕ
  deriving DecidableEq

/-- `check_input_3d(X)` for a list of two-dimensional arrays with the given shapes, regain/validation.py:90-105;
`np.unique(...).size != 1` is the case of no entry or of two different ones. -/
def checkInputList (np : NumpyRelease) (ss : List (ℕ × ℕ)) : Except InputErr Input3d :=
  match checkArrays ss with
  | .error e => .error e
  | .ok ss' =>
    match npStack np ss' with
    | .error e => .error e
    | .ok X =>
      if (X.map Prod.snd).dedup.length ≠ 1 then .error .value
      else
        match X with
        | [] => .error .index
        | x :: _ => .ok ⟨X.map Prod.fst, x.2, X.length⟩

/-- `check_input_3d(X)` for an array of shape `(T, n, d)`, regain/validation.py:90-105: iterating gives `T` blocks; with none
of them `np.array([])` has one dimension and `X.shape[2]` raises IndexError. -/
def checkInputArray (np : NumpyRelease) (T n d : ℕ) : Except InputErr Input3d :=
  match checkArrays (List.replicate T (n, d)) with
  | .error e => .error e
  | .ok ss' =>
    match npStack np ss' with
    | .error e => .error e
    | .ok X =>
      match X with
      | [] => .error .index
      | x :: _ => .ok ⟨X.map Prod.fst, x.2, X.length⟩

end Verif.Model
