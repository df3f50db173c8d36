import Verif.Spec.Opt
import Mathlib.Algebra.BigOperators.Fin

/-! Total variation of a time series (no reference to the model). -/

namespace Verif.Spec

/-- `∑_t |x_{t+1} - x_t|` for a series with `T + 1` time points. -/
def totalVariation {T : ℕ} (x : Fin (T + 1) → ℝ) : ℝ := ∑ p : Fin T, |x p.succ - x p.castSucc|

/-- `beta TV(x) + lam ∑|x_t| + ½ ∑ (x_t - a_t)²`: the fused lasso signal approximator. -/
noncomputable def fusedObjective {T : ℕ} (beta lam : ℝ) (a x : Fin (T + 1) → ℝ) : ℝ :=
  beta * totalVariation x + lam * absSum x + 1 / 2 * sqDist x a

/-- `solve` is an exact total-variation denoiser. -/
def IsTVSolver {T : ℕ} (solve : (Fin (T + 1) → ℝ) → ℝ → Fin (T + 1) → ℝ) : Prop :=
  ∀ a beta, 0 ≤ beta → IsMin Set.univ (fusedObjective beta 0 a) (solve a beta)

end Verif.Spec
