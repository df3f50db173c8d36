import Verif.Spec.Objectives

/-! The documented problems of the kernel and latent temporal estimators (no reference to the model). -/

namespace Verif.Spec

open Matrix

set_option autoImplicit false

variable {n : Type*} [Fintype n] [DecidableEq n]

/-- `∑_{s<t} kernel(s,t) psi(K_t - K_s)`. -/
def kernelCoupling {k : ℕ} (kernel : Fin k → Fin k → ℝ) (psi : Matrix n n ℝ → ℝ)
    (K : Fin k → Matrix n n ℝ) : ℝ :=
  ∑ s, ∑ t, if s < t then kernel s t * psi (K t - K s) else 0

/-- `∑_t psi(K_{t+1} - K_t)`. -/
def chainCoupling {T : ℕ} (psi : Matrix n n ℝ → ℝ) (K : Fin (T + 1) → Matrix n n ℝ) : ℝ :=
  ∑ p : Fin T, psi (K p.succ - K p.castSucc)

/-- Weighted Gaussian negative log-likelihood `∑_t n_t (tr(S_t R_t) - log det R_t)`. -/
noncomputable def negLogLik {k : ℕ} (S : Fin k → Matrix n n ℝ) (nS : Fin k → ℝ)
    (R : Fin k → Matrix n n ℝ) : ℝ :=
  ∑ t, nS t * (trace (S t * R t) - Real.log (R t).det)

/-- Kernel time-varying graphical lasso (`pen` is documented as the off-diagonal l1 norm). -/
noncomputable def kernelObjective {k : ℕ} (S : Fin k → Matrix n n ℝ) (nS : Fin k → ℝ) (alpha : ℝ)
    (kernel : Fin k → Fin k → ℝ) (pen psi : Matrix n n ℝ → ℝ) (K : Fin k → Matrix n n ℝ) : ℝ :=
  negLogLik S nS K + alpha * ∑ t, pen (K t) + kernelCoupling kernel psi K

/-- Feasible pairs of sequences: `K_t - L_t` positive definite and `L_t` positive semidefinite. -/
def LatentSeqFeasible (k : ℕ) (n : Type*) :
    Set ((Fin k → Matrix n n ℝ) × (Fin k → Matrix n n ℝ)) :=
  {p | ∀ t, (p.1 t - p.2 t).PosDef ∧ (p.2 t).PosSemidef}

/-- Latent variable time-varying graphical lasso (the nuclear norm of a PSD matrix is its trace). -/
noncomputable def latentTimeObjective {T : ℕ} (S : Fin (T + 1) → Matrix n n ℝ) (nS : Fin (T + 1) → ℝ)
    (alpha tau beta eta : ℝ) (pen psi phi : Matrix n n ℝ → ℝ)
    (p : (Fin (T + 1) → Matrix n n ℝ) × (Fin (T + 1) → Matrix n n ℝ)) : ℝ :=
  negLogLik S nS (fun t => p.1 t - p.2 t) + alpha * ∑ t, pen (p.1 t) + tau * ∑ t, trace (p.2 t)
    + beta * chainCoupling psi p.1 + eta * chainCoupling phi p.2

/-- Latent variable kernel time-varying graphical lasso. -/
noncomputable def kernelLatentObjective {k : ℕ} (S : Fin k → Matrix n n ℝ) (nS : Fin k → ℝ)
    (alpha tau : ℝ) (kpsi kphi : Fin k → Fin k → ℝ) (pen psi phi : Matrix n n ℝ → ℝ)
    (p : (Fin k → Matrix n n ℝ) × (Fin k → Matrix n n ℝ)) : ℝ :=
  negLogLik S nS (fun t => p.1 t - p.2 t) + alpha * ∑ t, pen (p.1 t) + tau * ∑ t, trace (p.2 t)
    + kernelCoupling kpsi psi p.1 + kernelCoupling kphi phi p.2

/-- Feasible pairs for the matrix decomposition: every `L_t` positive semidefinite. -/
def PSDSecond (k : ℕ) (n : Type*) : Set ((Fin k → Matrix n n ℝ) × (Fin k → Matrix n n ℝ)) :=
  {p | ∀ t, (p.2 t).PosSemidef}

/-- Latent variable time-varying matrix decomposition:
`∑_t ‖S_t - (K_t - L_t)‖² + alpha ∑ pen(K_t) + tau ∑ tr(L_t) + beta … + eta …`. -/
def decompositionObjective {T : ℕ} (S : Fin (T + 1) → Matrix n n ℝ) (alpha tau beta eta : ℝ)
    (pen psi phi : Matrix n n ℝ → ℝ)
    (p : (Fin (T + 1) → Matrix n n ℝ) × (Fin (T + 1) → Matrix n n ℝ)) : ℝ :=
  ∑ t, frobSq (S t - (p.1 t - p.2 t)) + alpha * ∑ t, pen (p.1 t) + tau * ∑ t, trace (p.2 t)
    + beta * chainCoupling psi p.1 + eta * chainCoupling phi p.2

/-- The squared-loss decomposition problem `1/2 ‖S - (K - L)‖² + alpha pen(K) + tau tr(L)`. -/
noncomputable def squareLatentObjective (S : Matrix n n ℝ) (alpha tau : ℝ) (pen : Matrix n n ℝ → ℝ)
    (p : Matrix n n ℝ × Matrix n n ℝ) : ℝ :=
  1 / 2 * frobSq (S - (p.1 - p.2)) + alpha * pen p.1 + tau * trace p.2

end Verif.Spec
