import Mathlib.Analysis.Real.Sqrt
import Mathlib.Algebra.BigOperators.Group.Finset.Basic
import Mathlib.LinearAlgebra.Matrix.Defs
import Mathlib.LinearAlgebra.Matrix.Trace

/-!
Specifications about optimisation: what it means to minimise a function.
Nothing in this file refers to the model of the code.
-/

namespace Verif.Spec

/-- `x` lies in `s` and is the one and only minimiser of `f` on `s`. -/
def UniqueMin {X : Type*} (s : Set X) (f : X → ℝ) (x : X) : Prop :=
  x ∈ s ∧ ∀ y ∈ s, y ≠ x → f x < f y

/-- `x` lies in `s` and minimises `f` on `s`. -/
def IsMin {X : Type*} (s : Set X) (f : X → ℝ) (x : X) : Prop :=
  x ∈ s ∧ ∀ y ∈ s, f x ≤ f y

theorem UniqueMin.isMin {X : Type*} {s : Set X} {f : X → ℝ} {x : X} (h : UniqueMin s f x) :
    IsMin s f x :=
  ⟨h.1, fun y hy => by
    by_cases hxy : y = x
    · rw [hxy]
    · exact (h.2 y hy hxy).le⟩

theorem UniqueMin.eq_of_isMin {X : Type*} {s : Set X} {f : X → ℝ} {x y : X}
    (h : UniqueMin s f x) (hy : IsMin s f y) : y = x := by
  by_contra hne
  exact absurd (h.2 y hy.1 hne) (not_lt.mpr (hy.2 x h.1))

/-- Squared Euclidean distance of two arrays with the same (finite) index set. -/
def sqDist {ι : Type*} [Fintype ι] (x a : ι → ℝ) : ℝ := ∑ i, (x i - a i) ^ 2

/-- Squared Frobenius norm of a matrix. -/
def frobSq {m n : Type*} [Fintype m] [Fintype n] (X : Matrix m n ℝ) : ℝ := ∑ i, ∑ j, X i j ^ 2

/-- Frobenius inner product `∑ A_ij B_ij` (equals `tr(AᵀB)`). -/
def frobInner {m n : Type*} [Fintype m] [Fintype n] (A B : Matrix m n ℝ) : ℝ :=
  ∑ i, ∑ j, A i j * B i j

/-- Sum of absolute values of all entries. -/
def absSum {ι : Type*} [Fintype ι] (x : ι → ℝ) : ℝ := ∑ i, |x i|

/-- Sum of absolute values of all entries of a matrix. -/
def absSumMat {m n : Type*} [Fintype m] [Fintype n] (X : Matrix m n ℝ) : ℝ := ∑ i, ∑ j, |X i j|

/-- Sum of absolute values of the off-diagonal entries. -/
def absSumOff {n : Type*} [Fintype n] [DecidableEq n] (X : Matrix n n ℝ) : ℝ :=
  ∑ i, ∑ j, if i = j then 0 else |X i j|

/-- Sum of the Euclidean norms of the columns. -/
noncomputable def colNormSum {m n : Type*} [Fintype m] [Fintype n] (X : Matrix m n ℝ) : ℝ :=
  ∑ j, Real.sqrt (∑ i, X i j ^ 2)

/-- Proximal objective `lam * pen x + 1/2 * ‖x - a‖²`. -/
noncomputable def proxObj {ι : Type*} [Fintype ι] (pen : (ι → ℝ) → ℝ) (lam : ℝ) (a x : ι → ℝ) : ℝ :=
  lam * pen x + 1 / 2 * sqDist x a

/-- Proximal objective for matrices, `lam * pen X + 1/2 * ‖X - A‖_F²`. -/
noncomputable def proxObjMat {m n : Type*} [Fintype m] [Fintype n] (pen : Matrix m n ℝ → ℝ)
    (lam : ℝ) (A X : Matrix m n ℝ) : ℝ :=
  lam * pen X + 1 / 2 * frobSq (X - A)

end Verif.Spec
