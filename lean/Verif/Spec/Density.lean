import Mathlib.LinearAlgebra.Matrix.NonsingularInverse
import Mathlib.Analysis.SpecialFunctions.Exp
import Mathlib.Analysis.SpecialFunctions.Trigonometric.Basic
import Mathlib.Analysis.Real.Sqrt

/-! The density of a Gaussian vector, without reference to the model. -/

namespace Verif.Spec

open Matrix

set_option autoImplicit false

/-- The density of the Gaussian law with mean `mu` and covariance `C` at the point `x`. -/
noncomputable def gaussianDensity {n : Type*} [Fintype n] [DecidableEq n] (mu : n → ℝ) (C : Matrix n n ℝ)
    (x : n → ℝ) : ℝ :=
  Real.exp (-(1 / 2) * ((x - mu) ⬝ᵥ (C⁻¹ *ᵥ (x - mu)))) / Real.sqrt ((2 * Real.pi) ^ Fintype.card n * C.det)

end Verif.Spec
