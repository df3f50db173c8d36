import Verif.Model.GL

/-!
Model of `init_precision`, regain/covariance/graphical_lasso_.py:59-78, with array identities: the
caller's arrays live in a heap, so that in-place writes and aliasing are visible.
-/

namespace Verif.Model

open Matrix

/-- Contents of an array object: one matrix (`ndim == 2`) or a batch (`ndim == 3`). -/
inductive Arr (n : Type*) where
  | mat (M : Matrix n n ℝ)
  | batch (l : List (Matrix n n ℝ))

/-- A heap of array objects; the reference `r` is the position in the list. New objects are
appended. -/
abbrev Heap (n : Type*) := List (Arr n)

/-- Allocate a new object. -/
def Heap.alloc {n : Type*} (h : Heap n) (a : Arr n) : Heap n × ℕ := (h ++ [a], h.length)

/-- Apply a function to every matrix. -/
def Arr.map {n : Type*} (f : Matrix n n ℝ → Matrix n n ℝ) : Arr n → Arr n
  | .mat M => .mat (f M)
  | .batch l => .batch (l.map f)

/-- Overwrite the object at reference `r` by `f` of its contents (in-place operation). -/
def Heap.modify {n : Type*} (h : Heap n) (r : ℕ) (f : Arr n → Arr n) : Heap n :=
  match h[r]? with
  | some a => h.set r (f a)
  | none => h

/-- The argument `mode` of `init_precision`. -/
inductive InitMode where
  | empirical
  | ndarray (ref : ℕ)
  | other

/-- Combine two arrays of the same shape matrix by matrix (`zip`). -/
def Arr.zip {n : Type*} (f : Matrix n n ℝ → Matrix n n ℝ → Matrix n n ℝ) : Arr n → Arr n → Arr n
  | .mat M, .mat N => .mat (f M N)
  | .batch l, .batch m => .batch (List.zipWith f l m)
  | a, _ => a

/-- `scipy.linalg.pinvh(A)` given the output `(Q, e)` of the eigen-solver: eigenvalues of magnitude
above scipy's cutoff are inverted, the others are dropped. `cutoff A` stands for scipy's rule. -/
noncomputable def pinvh {n : Type*} [Fintype n] [DecidableEq n] (eigh : Eigh n)
    (cutoff : Matrix n n ℝ → ℝ) (A : Matrix n n ℝ) : Matrix n n ℝ :=
  open Classical in
  recompose (eigh A).1 fun i => if |(eigh A).2 i| > cutoff A then ((eigh A).2 i)⁻¹ else 0

/-- `init_precision(emp_cov, mode)`, regain/covariance/graphical_lasso_.py:59-78. Returns the heap
afterwards and the reference of the result; `none` if a reference is dangling (cannot happen in
python). -/
noncomputable def initPrecision {n : Type*} [Fintype n] [DecidableEq n] (eigh : Eigh n)
    (cutoff : Matrix n n ℝ → ℝ) (h : Heap n) (empCov : ℕ) (mode : InitMode) : Option (Heap n × ℕ) :=
  match h[empCov]? with
  | none => none
  | some E =>
    match mode with
    | .empirical =>
        -- covariance_ = emp_cov.copy()
        let (h1, c) := h.alloc E
        -- covariance_ *= 0.95
        let h2 := h1.modify c (Arr.map fun M => (0.95 : ℝ) • M)
        -- covariance_.flat[:: n+1] = emp_cov.flat[:: n+1]
        let h3 := h2.modify c fun a => a.zip (fun C M => fillDiagonal C (getDiagonal M)) E
        -- K = pinvh(covariance_), matrix by matrix for a batch
        match h3[c]? with
        | none => none
        | some C => some (h3.alloc (C.map (pinvh eigh cutoff)))
    | .ndarray r => some (h, r)
    | .other => some (h.alloc (E.map fun _ => 0))

end Verif.Model
