import Mathlib.Data.Real.Basic
import Mathlib.Data.Matrix.Basic
import Mathlib.Algebra.Order.Floor.Defs
import Mathlib.Algebra.Order.Floor.Semiring
import Mathlib.Algebra.Order.Archimedean.Real.Basic
import Verif.Model.Kernels

/-! Model of the random blocks `genInvCov` and `genRandInv`, regain/datasets/kernels.py:135-160. -/

namespace Verif.Model

open Matrix

set_option autoImplicit false

variable {n : ℕ}

/-- A random coupling, `(np.random.randint(2) - 0.5) * 2 * (low + (upper - low) * np.random.rand(1)[0])`,
regain/datasets/kernels.py:144 and 158; `b` is the draw of `randint(2)`, `u` that of `rand`. -/
noncomputable def coupling (low upper : ℝ) (b : Bool) (u : ℝ) : ℝ :=
  ((if b then 1 else 0) - 0.5) * 2 * (low + (upper - low) * u)

/-- `S[i, j] = v`, regain/datasets/kernels.py:144 and 159. -/
def setEntry (S : Matrix (Fin n) (Fin n) ℝ) (i j : Fin n) (v : ℝ) : Matrix (Fin n) (Fin n) ℝ :=
  fun a b => if a = i ∧ b = j then v else S a b

/-- The loop over the edges, regain/datasets/kernels.py:143-144, with the draws of every edge in order. -/
noncomputable def fillEdges (low upper : ℝ) :
    List (Fin n × Fin n) → List (Bool × ℝ) → Matrix (Fin n) (Fin n) ℝ → Matrix (Fin n) (Fin n) ℝ
  | e :: es, d :: ds, S => fillEdges low upper es ds (setEntry S e.1 e.2 (coupling low upper d.1 d.2))
  | _, _, S => S

/-- The number of edges asked for, regain/datasets/kernels.py:139-141: `portion / 2`, then
`int((size * (size - 1)) * portion)`. -/
noncomputable def invCovEdges (size : ℕ) (portion : ℝ) : ℕ := ⌊((size : ℝ) * (size - 1)) * (portion / 2)⌋₊

/-- `genInvCov(size, low, upper, portion, symmetric=True)`, regain/datasets/kernels.py:135-149, given the edges of the random
graph. -/
noncomputable def invCovBlock (low upper : ℝ) (edges : List (Fin n × Fin n)) (draws : List (Bool × ℝ)) :
    Matrix (Fin n) (Fin n) ℝ :=
  genInvCov (fillEdges low upper edges draws 0) true

/-- `genRandInv(size, low, upper, portion)`, regain/datasets/kernels.py:152-160; `p i j` is the draw compared with `portion`,
`d i j` the draws of the coupling. -/
noncomputable def genRandInv (low upper portion : ℝ) (p : Fin n → Fin n → ℝ) (d : Fin n → Fin n → Bool × ℝ) :
    Matrix (Fin n) (Fin n) ℝ :=
  open Classical in fun i j => if p i j < portion then coupling low upper (d i j).1 (d i j).2 else 0

end Verif.Model
