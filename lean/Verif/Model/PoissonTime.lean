import Verif.Model.Poisson
import Verif.Model.TimeGLM

/-! Model of `_fit_time_poisson_model` with its neighbourhood fits, regain/generalized_linear_model/glm_time_poisson.py.
(`fitTimeGLM` of Model/TimeGLM.lean leaves the fits arbitrary.) The node penalty branch is not modelled. -/

namespace Verif.Model

open Matrix

set_option autoImplicit false

/-- The call `fit_each_variable(X[t], v, alpha, tol=tol, A=A[t], T=n_times, rho=rho)`,
regain/generalized_linear_model/glm_time_poisson.py:171-180: `gamma`, `max_iter` and `update_gamma` keep their defaults. -/
noncomputable def poissonTimeNode {m d : ℕ} (X : Fin m → Fin d → ℝ) (alpha tol T rho : ℝ) (A : Matrix (Fin d) (Fin d) ℝ)
    (ix : Fin d) : PoissonArgs m {k : Fin d // k ≠ ix} :=
  { Xs := fun i k => X i k.1, xr := fun i => X i ix, alpha := alpha, gamma := 1, tol := tol, maxIter := 100,
    updateGamma := 1 / 2, A := some fun k => A ix k.1, T := T, rho := rho }

open Classical in
/-- The K-update at one time, regain/generalized_linear_model/glm_time_poisson.py:167-184; `none` if one of the
neighbourhood fits does not return. -/
noncomputable def poissonTimeInner {m d : ℕ} (X : Fin m → Fin d → ℝ) (alpha tol T : ℝ) (A : Matrix (Fin d) (Fin d) ℝ)
    (rho : ℝ) : Option (Matrix (Fin d) (Fin d) ℝ) :=
  if ∀ ix, (poissonFitNode (poissonTimeNode X alpha tol T rho A ix)).isSome then
    some (poissonInner (fun A rho i j =>
      if h : ∃ (hi : i < d) (hj : j < d), (⟨j, hj⟩ : Fin d) ≠ ⟨i, hi⟩ then
        match poissonFitNode (poissonTimeNode X alpha tol T rho A ⟨i, h.1⟩) with
        | none => 0
        | some r => r.1 ⟨⟨j, h.2.1⟩, h.2.2⟩
      else 0) A rho)
  else none

variable {k : ℕ} {E : Type*} [Fintype E]

/-- The arguments of a run on counts, `X[t]` being the block of time `t`; `inner` is only used where the fits return.
regain/generalized_linear_model/glm_time_poisson.py:70-88, 167-184. -/
noncomputable def timePoissonArgs {m d : ℕ} (X : Fin k → Fin m → Fin d → ℝ) (a : TGArgs k E (Fin d)) :
    TGArgs k E (Fin d) :=
  { a with inner := fun t A rho => (poissonTimeInner (X t) a.alpha a.tol k A rho).getD 0 }

open Classical in
/-- One pass through the loop, regain/generalized_linear_model/glm_time_poisson.py:158-283; the state is `none` once a
neighbourhood fit does not return. -/
noncomputable def timePoissonBody {m d : ℕ} (g : TimePairs k E) (X : Fin k → Fin m → Fin d → ℝ) (a : TGArgs k E (Fin d))
    (it : ℕ) (s : Option (TGState k E (Fin d))) : Option (TGState k E (Fin d)) × Option TGLCheck × Bool :=
  match s with
  | none => (none, none, true)
  | some s =>
    if ∀ t, (poissonTimeInner (X t) a.alpha a.tol k (tgA g s t) s.rho).isSome then
      let b := tgBody g (timePoissonArgs X a) it s
      (some b.1, some b.2.1, b.2.2)
    else (none, none, true)

/-- `_fit_time_poisson_model(X, alpha, rho, kernel, ..., max_iter)[0]`, regain/generalized_linear_model/
glm_time_poisson.py:70-293: the returned matrices, `none` if the call does not return (histories left out). -/
noncomputable def fitTimePoisson {m d : ℕ} (g : TimePairs k E) (X : Fin k → Fin m → Fin d → ℝ) (a : TGArgs k E (Fin d))
    (rho : ℝ) (maxIter : ℕ) : Option (Batch k (Fin d)) :=
  (runLoop (timePoissonBody g X a) maxIter (some (tgInit rho))).state.map fun s => s.K

/-- `loss(X, theta)`, regain/generalized_linear_model/glm_poisson.py:153-160. -/
noncomputable def poissonLossMat {m d : ℕ} (X : Fin m → Fin d → ℝ) (theta : Matrix (Fin d) (Fin d) ℝ) : ℝ :=
  ∑ r, poissonLoss (fun i (k : {k : Fin d // k ≠ r}) => X i k.1) (fun i => X i r) fun k => theta r k.1

open Classical in
/-- `objective(X, theta, alpha)`, regain/generalized_linear_model/glm_poisson.py:53-61; `none` for a `theta` that is not
symmetric (`np.float("inf")`, which raises in the numpy versions without `np.float`). -/
noncomputable def poissonObjectiveMat {m d : ℕ} (X : Fin m → Fin d → ℝ) (alpha : ℝ) (theta : Matrix (Fin d) (Fin d) ℝ) :
    Option ℝ :=
  if theta = theta.transpose then
    some ((∑ r, poissonObjective (fun i (k : {k : Fin d // k ≠ r}) => X i k.1) (fun i => X i r) 0 fun k => theta r k.1)
      + alpha * l1OdNorm theta)
  else none

/-- `objective(X, K, Z_M, alpha, kernel, psi)`, regain/generalized_linear_model/glm_time_poisson.py:56-67, the weight of
a pair being the entry of the kernel. -/
noncomputable def timePoissonObjectiveCode {m d : ℕ} (X : Fin k → Fin m → Fin d → ℝ) (alpha : ℝ) (weight : E → ℝ)
    (psi : Matrix (Fin d) (Fin d) ℝ → ℝ) (K : Batch k (Fin d)) (ZL ZR : E → Matrix (Fin d) (Fin d) ℝ) : ℝ :=
  tgLoss (fun t => poissonLossMat (X t)) K + alpha * ∑ t, l1OdNorm (K t) + ∑ e, psi (ZR e - ZL e) * weight e

end Verif.Model
