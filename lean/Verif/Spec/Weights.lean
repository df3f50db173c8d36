import Verif.Spec.Objectives

/-! Specification of the graphical lasso with one penalty per entry, some of them infinite. -/

namespace Verif.Spec

open Matrix

set_option autoImplicit false

variable {n : Type*} [Fintype n] [DecidableEq n]

/-- Penalties per entry; `none` is an infinite one. -/
abbrev Weights (n : Type*) := n → n → Option ℝ

/-- No entry off the diagonal with an infinite penalty. -/
def OnPattern (W : Weights n) (K : Matrix n n ℝ) : Prop := ∀ i j, i ≠ j → W i j = none → K i j = 0

/-- The finite penalties. -/
noncomputable def weightPen (W : Weights n) (K : Matrix n n ℝ) : ℝ :=
  ∑ i, ∑ j, if i = j then 0 else (W i j).getD 0 * |K i j|

/-- Where the objective is finite. -/
def WeightDom (W : Weights n) : Set (Matrix n n ℝ) := {K | K.PosDef ∧ OnPattern W K}

/-- `tr(S K) - log det K + ∑_{i ≠ j} W_ij |K_ij|` where it is finite. -/
noncomputable def weightObjective (S : Matrix n n ℝ) (W : Weights n) (K : Matrix n n ℝ) : ℝ :=
  trace (S * K) - Real.log K.det + weightPen W K

/-- Penalties that make sense: symmetric and not negative. -/
structure GoodWeights (W : Weights n) : Prop where
  symm : ∀ i j, W i j = W j i
  nonneg : ∀ i j w, W i j = some w → 0 ≤ w

end Verif.Spec
