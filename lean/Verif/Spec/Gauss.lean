import Verif.Spec.Opt
import Mathlib.Data.Matrix.Mul

/-! Conditional means of a Gaussian vector, without reference to the model. -/

namespace Verif.Spec

open Matrix

set_option autoImplicit false

/-- `z` agrees with the observed entries of the row `x`. -/
def Completes {P : Type*} (x : P → Option ℝ) (z : P → ℝ) : Prop := ∀ v r, x v = some r → z v = r

/-- `z` is the conditional mean of a Gaussian vector with mean `mu` and precision `K` given the
observed entries of `x`: the completion of `x` with the largest density, i.e. the smallest
`(z - mu)ᵀ K (z - mu)`. -/
def IsConditionalMean {P : Type*} [Fintype P] (K : Matrix P P ℝ) (mu : P → ℝ) (x : P → Option ℝ)
    (z : P → ℝ) : Prop :=
  UniqueMin {z | Completes x z} (fun z => (z - mu) ⬝ᵥ (K *ᵥ (z - mu))) z

end Verif.Spec
