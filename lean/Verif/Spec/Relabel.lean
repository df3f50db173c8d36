import Mathlib.Data.Real.Basic
import Mathlib.Data.Fintype.EquivFin
import Mathlib.LinearAlgebra.Matrix.Defs

/-! What it means to list the variables in another order and to measure some of them with the opposite sign. Nothing in
this file refers to the model of the code. -/

namespace Verif.Spec

set_option autoImplicit false

/-- New variable `i` is old variable `perm i`, multiplied with `sign i`, which is `1` or `-1`. -/
structure Relabel (n : Type*) where
  perm : Equiv.Perm n
  sign : n → ℝ
  sign_sq : ∀ i, sign i * sign i = 1

namespace Relabel

variable {n : Type*}

/-- The new measurements of one sample. -/
def vec (r : Relabel n) (x : n → ℝ) : n → ℝ := fun i => r.sign i * x (r.perm i)

/-- The matrix of the new variables (covariances, precisions). -/
def mat (r : Relabel n) (M : Matrix n n ℝ) : Matrix n n ℝ :=
  fun i j => r.sign i * r.sign j * M (r.perm i) (r.perm j)

end Relabel

end Verif.Spec
