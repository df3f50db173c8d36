import Verif.Spec.Opt
import Mathlib.Analysis.SpecialFunctions.Log.Basic
import Mathlib.LinearAlgebra.Matrix.Determinant.Basic

/-! Sequences of matrices: inner product, smooth part and penalties of the time-varying problem
(no reference to the model). -/

namespace Verif.Spec

open Matrix

set_option autoImplicit false

variable {n : Type*} [Fintype n]

/-- `∑_t <A_t, B_t>`. -/
def seqInner {k : ℕ} (A B : Fin k → Matrix n n ℝ) : ℝ := ∑ t, frobInner (A t) (B t)

/-- `∑_t ‖A_t‖²`. -/
def seqSq {k : ℕ} (A : Fin k → Matrix n n ℝ) : ℝ := ∑ t, frobSq (A t)

variable [DecidableEq n]

/-- The differentiable part of the time-varying graphical lasso with jitter and Laplacian coupling:
`∑_t n_t (<S_t, K_t> - log det K_t) + e/2 ∑_t ‖K_t‖² + b ∑_t ‖K_{t+1} - K_t‖²`. -/
noncomputable def smoothTime {T : ℕ} (S : Fin (T + 1) → Matrix n n ℝ) (nS : Fin (T + 1) → ℝ)
    (e b : ℝ) (K : Fin (T + 1) → Matrix n n ℝ) : ℝ :=
  ∑ t, nS t * (frobInner (S t) (K t) - Real.log (K t).det) + e / 2 * seqSq K
    + b * ∑ p : Fin T, frobSq (K p.succ - K p.castSucc)

/-- `alpha ∑_t ‖K_t‖_{1,od}`. -/
noncomputable def sparsePenalty {k : ℕ} (alpha : ℝ) (K : Fin k → Matrix n n ℝ) : ℝ :=
  alpha * ∑ t, absSumOff (K t)

/-- `alpha ∑_t ‖K_t‖_{1,od} + beta ∑_t ‖K_{t+1} - K_t‖_1`. -/
noncomputable def fusedPenalty {T : ℕ} (alpha beta : ℝ) (K : Fin (T + 1) → Matrix n n ℝ) : ℝ :=
  alpha * ∑ t, absSumOff (K t) + beta * ∑ p : Fin T, absSumMat (K p.succ - K p.castSucc)

end Verif.Spec
