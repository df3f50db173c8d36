import Verif.Spec.Opt
import Mathlib.LinearAlgebra.Matrix.PosDef
import Mathlib.Analysis.SpecialFunctions.Log.Basic

/-! The documented optimisation problems of the covariance estimators (no reference to the model). -/

namespace Verif.Spec

open Matrix

variable {n : Type*} [Fintype n] [DecidableEq n]

/-- Positive definite matrices. -/
def PD (n : Type*) : Set (Matrix n n ℝ) := {X | X.PosDef}

/-- Graphical lasso: `tr(S X) - log det X + alpha ‖X‖_{1,od}`. -/
noncomputable def glObjective (S : Matrix n n ℝ) (alpha : ℝ) (X : Matrix n n ℝ) : ℝ :=
  trace (S * X) - Real.log X.det + alpha * absSumOff X

/-- Feasible pairs (sparse, low-rank) of the latent variable problem: `K - L` PD and `L` PSD. -/
def LatentFeasible (n : Type*) : Set (Matrix n n ℝ × Matrix n n ℝ) :=
  {p | (p.1 - p.2).PosDef ∧ p.2.PosSemidef}

/-- Latent variable graphical lasso:
`tr(S (K-L)) - log det (K-L) + alpha * pen K + tau * tr L` (the documented penalty is the
off-diagonal l1 norm; the trace is the nuclear norm of a PSD matrix). -/
noncomputable def latentObjective (S : Matrix n n ℝ) (alpha tau : ℝ) (pen : Matrix n n ℝ → ℝ)
    (p : Matrix n n ℝ × Matrix n n ℝ) : ℝ :=
  trace (S * (p.1 - p.2)) - Real.log (p.1 - p.2).det + alpha * pen p.1 + tau * trace p.2

/-- Sequences of positive definite matrices. -/
def PDSeq (k : ℕ) (n : Type*) : Set (Fin k → Matrix n n ℝ) := {K | ∀ t, (K t).PosDef}

/-- Time-varying graphical lasso over `T + 1` time points:
`∑_t n_t (tr(S_t K_t) - log det K_t) + alpha ∑_t pen(K_t) + beta ∑_t psi(K_{t+1} - K_t)`
(the documented `pen` is the off-diagonal l1 norm). -/
noncomputable def timeObjective {T : ℕ} (S : Fin (T + 1) → Matrix n n ℝ) (nS : Fin (T + 1) → ℝ)
    (alpha beta : ℝ) (pen psi : Matrix n n ℝ → ℝ) (K : Fin (T + 1) → Matrix n n ℝ) : ℝ :=
  ∑ t, nS t * (trace (S t * K t) - Real.log (K t).det) + alpha * ∑ t, pen (K t)
    + beta * ∑ p : Fin T, psi (K p.succ - K p.castSucc)

/-- `psi` is convex on the space of matrices. -/
def ConvexPen {m k : Type*} (psi : Matrix m k ℝ → ℝ) : Prop :=
  ∀ X Y : Matrix m k ℝ, ∀ t : ℝ, 0 ≤ t → t ≤ 1 →
    psi (X + t • (Y - X)) ≤ (1 - t) * psi X + t * psi Y

/-- `prox` is the exact proximal map of `psi` (for every parameter `≥ 0`). -/
def IsProxOf {m k : Type*} [Fintype m] [Fintype k] (psi : Matrix m k ℝ → ℝ)
    (prox : Matrix m k ℝ → ℝ → Matrix m k ℝ) : Prop :=
  ∀ A lam, 0 ≤ lam → UniqueMin Set.univ (proxObjMat psi lam A) (prox A lam)

end Verif.Spec
