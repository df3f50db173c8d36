import Verif.Spec.Opt

/-! The node penalty of two networks: the cheapest way to write their difference as `V + Vᵀ`, the cost
of `V` being the sum of the Euclidean norms of its columns. Nothing here refers to the model of the
code. -/

namespace Verif.Spec

open Matrix

set_option autoImplicit false

variable {n : Type*} [Fintype n]

/-- Triples `(V, Y1, Y2)` with `V + Vᵀ = Y1 - Y2`. -/
def NodeSplit (n : Type*) : Set (Matrix n n ℝ × Matrix n n ℝ × Matrix n n ℝ) :=
  {x | x.1 + x.1ᵀ = x.2.1 - x.2.2}

/-- Cost of the pair update of the node penalty with weight `beta` and quadratic weight `rho`:
`beta * ∑ ‖V_j‖ + rho/2 (‖Y1 - A1‖² + ‖Y2 - A2‖²)`. -/
noncomputable def nodePairCost (beta rho : ℝ) (A1 A2 : Matrix n n ℝ)
    (x : Matrix n n ℝ × Matrix n n ℝ × Matrix n n ℝ) : ℝ :=
  beta * colNormSum x.1 + rho / 2 * (frobSq (x.2.1 - A1) + frobSq (x.2.2 - A2))

/-- `(Y1, Y2)` is the exact pair update of the node penalty. -/
def IsNodePair (beta rho : ℝ) (A1 A2 Y1 Y2 : Matrix n n ℝ) : Prop :=
  ∃ V, IsMin (NodeSplit n) (nodePairCost beta rho A1 A2) (V, Y1, Y2)

/-- Another cost of the same triples: the weight of the penalty is `2/3 beta`, and asymmetry of `V` is
charged `rho/6 ‖V - Vᵀ‖²`. -/
noncomputable def nodeCodeCost (beta rho : ℝ) (A1 A2 : Matrix n n ℝ)
    (x : Matrix n n ℝ × Matrix n n ℝ × Matrix n n ℝ) : ℝ :=
  nodePairCost (2 / 3 * beta) rho A1 A2 x + rho / 6 * frobSq (x.1 - x.1ᵀ)

/-- The node penalty itself (an infimum, attained or not). -/
noncomputable def nodeNorm (E : Matrix n n ℝ) : ℝ :=
  sInf {c | ∃ V : Matrix n n ℝ, V + Vᵀ = E ∧ c = colNormSum V}

end Verif.Spec
