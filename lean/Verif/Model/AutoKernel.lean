import Verif.Model.Loop
import Verif.Model.Similarity
import Mathlib.Analysis.SpecialFunctions.Trigonometric.Basic

/-! Model of the search for a kernel parameter, `ker_param="auto"`: `objective_kernel` and the alternating loop of
`KernelTimeGraphicalLasso._fit`, `TemporalIsingModel.fit` and `TemporalPoissonModel.fit`. -/

namespace Verif.Model

set_option autoImplicit false

/-- `objective_kernel(theta, K, psi, kernel, times)`, regain/covariance/kernel_time_graphical_lasso_.py:318-332,
regain/generalized_linear_model/glm_time_ising.py:300-314, glm_time_poisson.py:296-310, for the kernel matrix `ker` that
the parameter gives: for each lag `m = 1 … T - 1` the penalties of `K[m:] - K[:-m]` times `np.diag(kernel, m)`. -/
def objectiveKernel {M : Type*} [Sub M] {T : ℕ} (psi : M → ℝ) (K : Fin T → M) (ker : Fin T → Fin T → ℝ) : ℝ :=
  ∑ m : Fin (T - 1), ∑ t : Fin (T - (m + 1)),
    psi (K ⟨t + (m + 1), by omega⟩ - K ⟨t, by omega⟩) * ker ⟨t, by omega⟩ ⟨t + (m + 1), by omega⟩

/-- `sklearn.gaussian_process.kernels.ConstantKernel(constant_value)(x)`. -/
def constKernel {T : ℕ} (c : ℝ) : Fin T → Fin T → ℝ := fun _ _ => c

/-- `sklearn.gaussian_process.kernels.ExpSineSquared(length_scale)(x[:, None])` with its default `periodicity=1`. -/
noncomputable def periodicKernel {T : ℕ} (length : ℝ) (x : Fin T → ℝ) : Fin T → Fin T → ℝ :=
  fun r c => Real.exp (-2 * (Real.sin (Real.pi * |x r - x c|) / length) ^ 2)

/-- The variables of the loop: `theta_old` and `self.precision_`. -/
structure AutoState (P : Type*) where
  thetaOld : ℝ
  prec : P

open Classical in
/-- One pass, regain/covariance/kernel_time_graphical_lasso_.py:477-524 (the other two files alike): `pick` is
`minimize_scalar(objective_kernel, …).x` as a function of the current precisions, `fit` the call of the solver with the
kernel of the parameter, warm-started. -/
noncomputable def autoBody {P : Type*} (pick : P → ℝ) (fit : ℝ → P → P) (i : ℕ) (s : AutoState P) :
    AutoState P × Unit × Bool :=
  let theta := pick s.prec
  if 0 < i ∧ |s.thetaOld - theta| < 1e-5 then (s, (), true) else (⟨theta, fit theta s.prec⟩, (), false)

/-- The loop, regain/covariance/kernel_time_graphical_lasso_.py:474-526; `broke = false` is the message
`warning: theta not converged`. -/
noncomputable def autoFit {P : Type*} (pick : P → ℝ) (fit : ℝ → P → P) (maxIterExt : ℕ) (init : P) :
    LoopResult (AutoState P) Unit :=
  runLoop (autoBody pick fit) maxIterExt ⟨0, init⟩

end Verif.Model
