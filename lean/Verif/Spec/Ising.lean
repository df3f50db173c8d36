import Mathlib.Analysis.SpecialFunctions.Exp
import Mathlib.Data.Matrix.Basic
import Mathlib.MeasureTheory.Integral.IntervalIntegral.Basic

/-! Specifications about Ising models and graphs. -/

namespace Verif.Spec

set_option autoImplicit false

variable {p : ℕ}

/-- Log-weight of a state in the Ising model: every unordered pair of nodes is counted once. -/
noncomputable def isingLogWeight (theta : Matrix (Fin p) (Fin p) ℝ) (h : Fin p → ℝ) (beta : ℝ)
    (s : Fin p → ℝ) : ℝ :=
  beta * (∑ i, h i * s i + ∑ i, ∑ j, if i < j then theta i j * s i * s j else 0)

/-- Conditional probability that coordinate `i` has value `r1` rather than `r0` given the other coordinates,
for the unnormalised density `exp (logw s)`. -/
noncomputable def condProb (logw : (Fin p → ℝ) → ℝ) (i : Fin p) (r0 r1 : ℝ) (s : Fin p → ℝ) : ℝ :=
  Real.exp (logw (Function.update s i r1)) /
    (Real.exp (logw (Function.update s i r0)) + Real.exp (logw (Function.update s i r1)))

/-- State with values in a two element set. -/
def boolState (r0 r1 : ℝ) (b : Fin p → Bool) : Fin p → ℝ := fun i => if b i then r1 else r0

/-- Mean of `F` over the result of a list of visits, each with its own uniform draw from `[0, 1]`. -/
noncomputable def visitMean {σ ι : Type} (visit : ℝ → σ → ι → σ) : List ι → (σ → ℝ) → σ → ℝ
  | [], F, s => F s
  | i :: is, F, s => ∫ u in (0 : ℝ)..1, visitMean visit is F (visit u s i)

/-- Two matrices differ in at most `k` edges: the entries where they differ are covered by `k` unordered
pairs. -/
def DifferInAtMost (k : ℕ) (A B : Matrix (Fin p) (Fin p) ℝ) : Prop :=
  ∃ es : List (Fin p × Fin p), es.length ≤ k ∧
    ∀ i j, A i j ≠ B i j → (i, j) ∈ es ∨ (j, i) ∈ es

end Verif.Spec
