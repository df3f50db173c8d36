import Mathlib.Data.Real.Basic
import Mathlib.Algebra.BigOperators.Group.Finset.Basic
import Mathlib.Data.Fintype.Basic
import Mathlib.LinearAlgebra.Matrix.Defs

/-! Specification: the lasso with an intercept, as scikit-learn documents it. -/

namespace Verif.Spec

open Matrix

set_option autoImplicit false

/-- `(1 / (2 n)) ‖y - A w - b‖² + alpha Σ_j d_j |w_j|`; `d` is one for plain data and the norms of the centred columns for
the versions of scikit-learn that normalise. -/
noncomputable def lassoLoss {n : ℕ} {C : Type*} [Fintype C] (A : Matrix (Fin n) C ℝ) (y : Fin n → ℝ) (alpha : ℝ)
    (d w : C → ℝ) (b : ℝ) : ℝ :=
  (∑ i, (y i - ((∑ c, A i c * w c) + b)) ^ 2) / (2 * n) + alpha * ∑ c, d c * |w c|

/-- `w`, `b` solve the lasso. -/
def IsLassoFit {n : ℕ} {C : Type*} [Fintype C] (A : Matrix (Fin n) C ℝ) (y : Fin n → ℝ) (alpha : ℝ) (d w : C → ℝ)
    (b : ℝ) : Prop :=
  ∀ w' b', lassoLoss A y alpha d w b ≤ lassoLoss A y alpha d w' b'

end Verif.Spec
