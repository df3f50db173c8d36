import Mathlib.Data.Matrix.Mul
import Mathlib.Analysis.SpecialFunctions.Sqrt

/-! Model of `x_update` of regain/linear_model/_group_lasso_overlap_old_.py. Its only caller,
`group_lasso_feat_split` (lines 35-148), allocates arrays with the float `n / ni` as a length and is not modelled. -/

namespace Verif.Model

open Matrix

set_option autoImplicit false

variable {m n : Type*} [Fintype m] [Fintype n]

/-- `np.linalg.norm` of a vector. -/
noncomputable def eucNorm (x : n → ℝ) : ℝ := Real.sqrt (x ⬝ᵥ x)

/-- `x = V.dot(V.T.dot(q) / (D + t))`, regain/linear_model/_group_lasso_overlap_old_.py:162. -/
noncomputable def shiftedSolve (V : Matrix n n ℝ) (D q : n → ℝ) (t : ℝ) : n → ℝ :=
  V *ᵥ fun i => (Vᵀ *ᵥ q) i / (D i + t)

open Classical in
/-- The bisection of `x_update`, regain/linear_model/_group_lasso_overlap_old_.py:159-169, with `k` passes left. When the
norm is zero the quotient is infinite or nan and the comparison is false. -/
noncomputable def bisectT (V : Matrix n n ℝ) (D q : n → ℝ) (kappa : ℝ) : ℕ → ℝ → ℝ → (n → ℝ) → (n → ℝ)
  | 0, _, _, x => x
  | k + 1, lower, upper, _ =>
      let t := (upper + lower) / 2
      let x := shiftedSolve V D q t
      let b := if 0 < eucNorm x ∧ t > kappa / eucNorm x then (lower, t) else (t, upper)
      if b.2 - b.1 ≤ 1e-6 then x else bisectT V D q kappa k b.1 b.2 x

open Classical in
/-- `x_update(A, b, kappa, V, D)`, regain/linear_model/_group_lasso_overlap_old_.py:151-170. -/
noncomputable def groupXUpdate (A : Matrix m n ℝ) (b : m → ℝ) (kappa : ℝ) (V : Matrix n n ℝ) (D : n → ℝ) : n → ℝ :=
  let q := Aᵀ *ᵥ b
  if eucNorm q > kappa then bisectT V D q kappa 100 0 1e10 0 else 0

end Verif.Model
