import Verif.Model.Prox

/-! Model of `prox_FL`, regain/prox.py:242-285. -/

namespace Verif.Model

open Matrix

/-- The TV stage of `prox_FL`, default branch `optimize=True`, regain/prox.py:253-254
(`tvgen` along the time axis) and the loop of the branch `optimize=False, symmetric=False`,
regain/prox.py:275-278: the one-dimensional solver is applied to the time series of every entry.
Simplified: `p = 1`, and `tvgen`/`tv1_1d` (package `prox_tv`) are the argument `tv`. -/
def flTVAll {n : Type*} {T : ℕ} (tv : (Fin T → ℝ) → ℝ → Fin T → ℝ) (a : Fin T → Matrix n n ℝ)
    (beta : ℝ) : Fin T → Matrix n n ℝ :=
  fun t i j => tv (fun t' => a t' i j) beta t

/-- `e` of the branch `symmetric=True`, regain/prox.py:264-270: solved on the upper triangle
(`np.triu_indices`, diagonal included), zero below. -/
def flUpper {n : Type*} [LinearOrder n] {T : ℕ} (tv : (Fin T → ℝ) → ℝ → Fin T → ℝ)
    (a : Fin T → Matrix n n ℝ) (beta : ℝ) : Fin T → Matrix n n ℝ :=
  fun t i j => if i ≤ j then tv (fun t' => a t' i j) beta t else 0

/-- `Y = (e + e.transpose(0,2,1)) / (eye + 1)`, regain/prox.py:271-273. -/
noncomputable def flTVSym {n : Type*} [LinearOrder n] {T : ℕ} (tv : (Fin T → ℝ) → ℝ → Fin T → ℝ)
    (a : Fin T → Matrix n n ℝ) (beta : ℝ) : Fin T → Matrix n n ℝ :=
  fun t i j => (flUpper tv a beta t i j + flUpper tv a beta t j i) / ((if i = j then 1 else 0) + 1)

/-- `prox_FL(a, beta, lamda, p=1, symmetric, optimize)`, regain/prox.py:242-285:
TV stage, soft-thresholding, then the diagonal is restored from the TV stage. -/
noncomputable def proxFL {n : Type*} [LinearOrder n] {T : ℕ}
    (tv : (Fin T → ℝ) → ℝ → Fin T → ℝ) (a : Fin T → Matrix n n ℝ) (beta lam : ℝ)
    (symmetric optimize : Bool) : Fin T → Matrix n n ℝ :=
  let Y := if optimize then flTVAll tv a beta
    else if symmetric then flTVSym tv a beta else flTVAll tv a beta
  fun t => fillDiagonal (softThresholdingMat (Y t) lam) (getDiagonal (Y t))

end Verif.Model
