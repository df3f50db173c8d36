import Verif.Model.Lasso
import Verif.Lemmas.DR
import Verif.Lemmas.ProxGrad
import Verif.Lemmas.Convex
import Verif.Lemmas.Group
import Verif.Lemmas.Loop
import Verif.Lemmas.Spectral
import Mathlib.LinearAlgebra.Matrix.NonsingularInverse

/-! Helper lemmas about the linear model solvers. -/

namespace Verif.Lemmas

open Matrix Verif.Model Verif.Spec

set_option autoImplicit false

variable {m p : ℕ}

theorem gram_posDef (A : Matrix (Fin m) (Fin p) ℝ) {rho : ℝ} (hr : 0 < rho) :
    (Aᵀ * A + rho • (1 : Matrix (Fin p) (Fin p) ℝ)).PosDef := by
  have h := posSemidef_conjTranspose_mul_self A
  rw [conjTranspose_eq_transpose_of_trivial] at h
  exact PosDef.posSemidef_add h (PosDef.one.smul hr)

theorem gram_posDef' (A : Matrix (Fin m) (Fin p) ℝ) {rho : ℝ} (hr : 0 < rho) :
    (1 + (1 / rho) • (A * Aᵀ) : Matrix (Fin m) (Fin m) ℝ).PosDef := by
  have h := posSemidef_self_mul_conjTranspose A
  rw [conjTranspose_eq_transpose_of_trivial] at h
  exact PosDef.one.add_posSemidef (h.smul (by positivity))

/-- Two least squares solves with a Cholesky factor and its transpose invert the matrix. -/
theorem chol_solve {la : LinAlg} (hla : la.Ok) {k : ℕ} {M : Matrix (Fin k) (Fin k) ℝ} (hM : M.PosDef)
    (q : Fin k → ℝ) : M *ᵥ la.lstsq k (la.chol k M)ᵀ (la.lstsq k (la.chol k M) q) = q := by
  have hL := hla.chol_spec k M hM
  set L := la.chol k M
  have hd : IsUnit L.det := by
    have h1 := hM.det_pos
    rw [← hL, det_mul, det_transpose] at h1
    exact isUnit_iff_ne_zero.mpr (left_ne_zero_of_mul h1.ne')
  have hdT : IsUnit Lᵀ.det := by rwa [det_transpose]
  have inj : ∀ {N : Matrix (Fin k) (Fin k) ℝ} (_ : IsUnit N.det) {v w : Fin k → ℝ},
      N *ᵥ v = N *ᵥ w → v = w := by
    intro N hN v w h
    have := congrArg (fun y => N⁻¹ *ᵥ y) h
    simpa [mulVec_mulVec, nonsing_inv_mul N hN] using this
  have h1 := inj hdT (hla.lstsq_spec k L q)
  have h2 := hla.lstsq_spec k Lᵀ (la.lstsq k L q)
  rw [transpose_transpose] at h2
  have h3 := inj hd h2
  rw [← hL, ← mulVec_mulVec, h3, h1]

/-- Both branches of the x-update solve the same linear system. -/
theorem xUpdate_spec {la : LinAlg} (hla : la.Ok) (A : Matrix (Fin m) (Fin p) ℝ) {rho : ℝ} (hr : 0 < rho)
    (q : Fin p → ℝ) :
    Aᵀ *ᵥ (A *ᵥ xUpdate la A rho q) + rho • xUpdate la A rho q = q := by
  unfold xUpdate
  split
  · have h := chol_solve hla (gram_posDef A hr) q
    rw [add_mulVec, smul_mulVec, one_mulVec, ← mulVec_mulVec] at h
    exact h
  · have h := chol_solve hla (gram_posDef' A hr) (A *ᵥ q)
    rw [add_mulVec, smul_mulVec, one_mulVec, ← mulVec_mulVec] at h
    change la.lstsq m (luFat la A rho)ᵀ (la.lstsq m (luFat la A rho) (A *ᵥ q)) +
      (1 / rho) • A *ᵥ (Aᵀ *ᵥ la.lstsq m (luFat la A rho)ᵀ (la.lstsq m (luFat la A rho) (A *ᵥ q)))
        = A *ᵥ q at h
    set w := la.lstsq m (luFat la A rho)ᵀ (la.lstsq m (luFat la A rho) (A *ᵥ q))
    have h1 : A *ᵥ ((1 / rho) • (q - (1 / rho) • (Aᵀ *ᵥ w))) = (1 / rho) • w := by
      rw [mulVec_smul, mulVec_sub, mulVec_smul, ← h, add_sub_cancel_right]
    rw [h1, mulVec_smul, smul_smul, mul_one_div_cancel hr.ne', one_smul, add_sub_cancel]

/-- The proximal map of `f(x) = ½‖Ax - b‖²` with parameter `1/rho`. -/
noncomputable def lsProx (la : LinAlg) (A : Matrix (Fin m) (Fin p) ℝ) (b : Fin m → ℝ) (rho : ℝ)
    (v : Fin p → ℝ) : Fin p → ℝ :=
  xUpdate la A rho (Aᵀ *ᵥ b + rho • v)

theorem lsProx_firm {la : LinAlg} (hla : la.Ok) (A : Matrix (Fin m) (Fin p) ℝ) (b : Fin m → ℝ) {rho : ℝ}
    (hr : 0 < rho) : Firm (lsProx la A b rho) := by
  intro v w
  have hv := xUpdate_spec hla A hr (Aᵀ *ᵥ b + rho • v)
  have hw := xUpdate_spec hla A hr (Aᵀ *ᵥ b + rho • w)
  change Aᵀ *ᵥ (A *ᵥ lsProx la A b rho v) + rho • lsProx la A b rho v = _ at hv
  change Aᵀ *ᵥ (A *ᵥ lsProx la A b rho w) + rho • lsProx la A b rho w = _ at hw
  set x := lsProx la A b rho v
  set y := lsProx la A b rho w
  have h : Aᵀ *ᵥ (A *ᵥ (x - y)) = rho • ((v - x) - (w - y)) := by
    rw [mulVec_sub, mulVec_sub, eq_sub_of_add_eq hv, eq_sub_of_add_eq hw]
    simp only [smul_sub]; abel
  have h2 : 0 ≤ (A *ᵥ (x - y)) ⬝ᵥ (A *ᵥ (x - y)) := by
    rw [dotProduct]; exact Finset.sum_nonneg fun i _ => mul_self_nonneg _
  have h3 : (A *ᵥ (x - y)) ⬝ᵥ (A *ᵥ (x - y)) = (x - y) ⬝ᵥ (Aᵀ *ᵥ (A *ᵥ (x - y))) := by
    rw [dotProduct_mulVec (x - y), vecMul_transpose]
  rw [h3, h, dotProduct_smul, smul_eq_mul] at h2
  have h4 := nonneg_of_mul_nonneg_right h2 hr
  rw [dotProduct] at h4
  exact h4

theorem soft_firm {ι : Type*} [Fintype ι] {lam : ℝ} (hl : 0 ≤ lam) :
    Firm (fun x : ι → ℝ => softThresholding x lam) := by
  intro x y
  refine Finset.sum_nonneg fun i _ => ?_
  have h1 := softScalar_subgrad hl (x i) (softScalar (y i) lam)
  have h2 := softScalar_subgrad hl (y i) (softScalar (x i) lam)
  change 0 ≤ (softScalar (x i) lam - softScalar (y i) lam) *
    ((x i - softScalar (x i) lam) - (y i - softScalar (y i) lam))
  nlinarith

/-- `½‖Ax - b‖²`. -/
noncomputable def lsLoss (A : Matrix (Fin m) (Fin p) ℝ) (b : Fin m → ℝ) (x : Fin p → ℝ) : ℝ :=
  1 / 2 * ∑ i, ((A *ᵥ x) i - b i) ^ 2

theorem lsLoss_expand (A : Matrix (Fin m) (Fin p) ℝ) (b : Fin m → ℝ) (x d : Fin p → ℝ) :
    lsLoss A b (x + d) = lsLoss A b x + (∑ k, (Aᵀ *ᵥ (A *ᵥ x - b)) k * d k)
      + 1 / 2 * ∑ i, ((A *ᵥ d) i) ^ 2 := by
  have e : (∑ k, (Aᵀ *ᵥ (A *ᵥ x - b)) k * d k) = ∑ i, ((A *ᵥ x) i - b i) * (A *ᵥ d) i := by
    have h1 : (Aᵀ *ᵥ (A *ᵥ x - b)) ⬝ᵥ d = (A *ᵥ x - b) ⬝ᵥ (A *ᵥ d) := by
      rw [mulVec_transpose, ← dotProduct_mulVec]
    rw [dotProduct, dotProduct] at h1
    exact h1
  rw [e]
  unfold lsLoss
  rw [mulVec_add, Finset.mul_sum, Finset.mul_sum, Finset.mul_sum, ← Finset.sum_add_distrib,
    ← Finset.sum_add_distrib]
  refine Finset.sum_congr rfl fun i _ => ?_
  rw [Pi.add_apply]; ring

theorem lsLoss_convex (A : Matrix (Fin m) (Fin p) ℝ) (b : Fin m → ℝ) (x z : Fin p → ℝ) :
    lsLoss A b x + ∑ k, (Aᵀ *ᵥ (A *ᵥ x - b)) k * (z k - x k) ≤ lsLoss A b z := by
  have h := lsLoss_expand A b x (z - x)
  rw [add_sub_cancel] at h
  rw [h]
  have : 0 ≤ ∑ i, ((A *ᵥ (z - x)) i) ^ 2 := Finset.sum_nonneg fun _ _ => sq_nonneg _
  simp only [Pi.sub_apply]
  linarith

/-- Optimality for the lasso in terms of the soft-thresholding fixed point. -/
theorem lasso_min_iff (A : Matrix (Fin m) (Fin p) ℝ) (b : Fin m → ℝ) {lam gamma : ℝ} (hl : 0 ≤ lam)
    (hg : 0 < gamma) (x : Fin p → ℝ) :
    softThresholding (fun k => x k - gamma * (Aᵀ *ᵥ (A *ᵥ x - b)) k) (lam * gamma) = x ↔
      ∀ z, lsLoss A b x + lam * absSum x ≤ lsLoss A b z + lam * absSum z := by
  constructor
  · intro h z
    exact prox_grad_fixed hl hg (lsLoss A b) x _ (lsLoss_convex A b x) h z
  · intro h
    refine prox_grad_fixed_of_min hl hg x _ fun z => ?_
    have key : 0 ≤ lam * absSum z - lam * absSum x + ∑ k, (Aᵀ *ᵥ (A *ᵥ x - b)) k * (z k - x k) := by
      refine nonneg_of_forall_small (b := 1 / 2 * ∑ i, ((A *ᵥ (z - x)) i) ^ 2) fun t h0 h1 => ?_
      have h2 := h (x + t • (z - x))
      rw [lsLoss_expand, mulVec_smul] at h2
      have h3 : lam * absSum (x + t • (z - x)) ≤ lam * ((1 - t) * absSum x + t * absSum z) := by
        refine mul_le_mul_of_nonneg_left ?_ hl
        unfold absSum
        rw [Finset.mul_sum, Finset.mul_sum, ← Finset.sum_add_distrib]
        refine Finset.sum_le_sum fun i _ => ?_
        have e : (x + t • (z - x)) i = (1 - t) * x i + t * z i := by
          simp only [Pi.add_apply, Pi.smul_apply, Pi.sub_apply, smul_eq_mul]; ring
        rw [e]
        refine (abs_add_le _ _).trans (le_of_eq ?_)
        rw [abs_mul, abs_mul, abs_of_nonneg (by linarith : (0 : ℝ) ≤ 1 - t), abs_of_pos h0]
      have e1 : (∑ k, (Aᵀ *ᵥ (A *ᵥ x - b)) k * (t • (z - x)) k) =
          t * ∑ k, (Aᵀ *ᵥ (A *ᵥ x - b)) k * (z k - x k) := by
        rw [Finset.mul_sum]
        refine Finset.sum_congr rfl fun k _ => ?_
        simp only [Pi.smul_apply, Pi.sub_apply, smul_eq_mul]; ring
      have e2 : (∑ i, ((t • A *ᵥ (z - x)) i) ^ 2) = t ^ 2 * ∑ i, ((A *ᵥ (z - x)) i) ^ 2 := by
        rw [Finset.mul_sum]
        refine Finset.sum_congr rfl fun k _ => ?_
        simp only [Pi.smul_apply, smul_eq_mul]; ring
      rw [e1, e2] at h2
      have h4 : 0 ≤ t * (lam * absSum z - lam * absSum x
          + (∑ k, (Aᵀ *ᵥ (A *ᵥ x - b)) k * (z k - x k))
          + t * (1 / 2 * ∑ i, ((A *ᵥ (z - x)) i) ^ 2)) := by nlinarith
      exact nonneg_of_mul_nonneg_right h4 h0
    linarith

/-- Fixed points of the Douglas-Rachford map of the lasso are optimal. -/
theorem lasso_dr_fixed {la : LinAlg} (hla : la.Ok) (A : Matrix (Fin m) (Fin p) ℝ) (b : Fin m → ℝ)
    {lam rho : ℝ} (hl : 0 ≤ lam) (hr : 0 < rho) {s : Fin p → ℝ}
    (h : lsProx la A b rho ((2 : ℝ) • softThresholding s (lam / rho) - s) =
      softThresholding s (lam / rho)) (z : Fin p → ℝ) :
    lsLoss A b (softThresholding s (lam / rho)) + lam * absSum (softThresholding s (lam / rho)) ≤
      lsLoss A b z + lam * absSum z := by
  set x := softThresholding s (lam / rho) with hx
  have h1 := xUpdate_spec hla A hr (Aᵀ *ᵥ b + rho • ((2 : ℝ) • x - s))
  change Aᵀ *ᵥ (A *ᵥ lsProx la A b rho ((2 : ℝ) • x - s)) +
    rho • lsProx la A b rho ((2 : ℝ) • x - s) = _ at h1
  rw [h] at h1
  refine (lasso_min_iff A b hl (one_div_pos.mpr hr) x).mp ?_ z
  have e : (fun k => x k - 1 / rho * (Aᵀ *ᵥ (A *ᵥ x - b)) k) = s := by
    funext k
    have h2 := congrFun h1 k
    simp only [Pi.add_apply, Pi.smul_apply, Pi.sub_apply, smul_eq_mul] at h2
    rw [mulVec_sub, Pi.sub_apply]
    field_simp
    linarith
  rw [e, mul_one_div, ← hx]

/-- Every optimal point comes from a fixed point of the Douglas-Rachford map. -/
theorem lasso_dr_fixed_of_min {la : LinAlg} (hla : la.Ok) (A : Matrix (Fin m) (Fin p) ℝ) (b : Fin m → ℝ)
    {lam rho : ℝ} (hl : 0 ≤ lam) (hr : 0 < rho) {x : Fin p → ℝ}
    (hmin : ∀ z, lsLoss A b x + lam * absSum x ≤ lsLoss A b z + lam * absSum z) :
    ∃ s, softThresholding s (lam / rho) = x ∧ lsProx la A b rho ((2 : ℝ) • x - s) = x := by
  refine ⟨fun k => x k - 1 / rho * (Aᵀ *ᵥ (A *ᵥ x - b)) k, ?_, ?_⟩
  · have := (lasso_min_iff A b hl (one_div_pos.mpr hr) x).mpr hmin
    rwa [mul_one_div] at this
  · set s : Fin p → ℝ := fun k => x k - 1 / rho * (Aᵀ *ᵥ (A *ᵥ x - b)) k with hs
    have h1 := xUpdate_spec hla A hr (Aᵀ *ᵥ b + rho • ((2 : ℝ) • x - s))
    have h2 : Aᵀ *ᵥ (A *ᵥ x) + rho • x = Aᵀ *ᵥ b + rho • ((2 : ℝ) • x - s) := by
      funext k
      simp only [Pi.add_apply, Pi.smul_apply, Pi.sub_apply, smul_eq_mul, hs]
      rw [mulVec_sub, Pi.sub_apply]
      field_simp
      ring
    rw [← h2] at h1
    have hM := gram_posDef A hr
    have e : ∀ v : Fin p → ℝ, (Aᵀ * A + rho • (1 : Matrix (Fin p) (Fin p) ℝ)) *ᵥ v =
        Aᵀ *ᵥ (A *ᵥ v) + rho • v := fun v => by
      rw [add_mulVec, smul_mulVec, one_mulVec, ← mulVec_mulVec]
    unfold lsProx
    rw [← h2]
    rw [← e x, ← e] at h1
    have h3 := congrArg (fun y => (Aᵀ * A + rho • (1 : Matrix (Fin p) (Fin p) ℝ))⁻¹ *ᵥ y) h1
    simp only [mulVec_mulVec, nonsing_inv_mul _ (isUnit_iff_ne_zero.mpr hM.det_pos.ne'), one_mulVec] at h3
    rw [← e x]
    exact h3

end Verif.Lemmas
