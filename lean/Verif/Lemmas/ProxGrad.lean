import Verif.Lemmas.Soft
import Verif.Spec.Opt

/-! The proximal gradient step for an l1 penalty: basic inequality, fixed points and rate. -/

namespace Verif.Lemmas

open Verif.Model Verif.Spec

set_option autoImplicit false

variable {ι : Type*} [Fintype ι]

/-- Inner product of two arrays. -/
def ip (x y : ι → ℝ) : ℝ := ∑ k, x k * y k

theorem soft_step_subgrad {alpha gamma : ℝ} (ha : 0 ≤ alpha) (hg : 0 < gamma) (x g z : ι → ℝ) :
    alpha * absSum (softThresholding (fun k => x k - gamma * g k) (alpha * gamma))
      + (1 / gamma) * ∑ k, (x k - softThresholding (fun k => x k - gamma * g k) (alpha * gamma) k)
          * (z k - softThresholding (fun k => x k - gamma * g k) (alpha * gamma) k)
      - ∑ k, g k * (z k - softThresholding (fun k => x k - gamma * g k) (alpha * gamma) k)
      ≤ alpha * absSum z := by
  set p := softThresholding (fun k => x k - gamma * g k) (alpha * gamma) with hp
  have h : ∀ k, alpha * |p k| + (1 / gamma) * ((x k - p k) * (z k - p k)) - g k * (z k - p k)
      ≤ alpha * |z k| := by
    intro k
    have h1 := softScalar_subgrad (mul_nonneg ha hg.le) (x k - gamma * g k) (z k)
    have h2 : softScalar (x k - gamma * g k) (alpha * gamma) = p k := rfl
    rw [h2] at h1
    have h3 := mul_le_mul_of_nonneg_left h1 (one_div_pos.mpr hg).le
    have e1 : 1 / gamma * (alpha * gamma * |p k| + (x k - gamma * g k - p k) * (z k - p k)) =
        alpha * |p k| + (1 / gamma) * ((x k - p k) * (z k - p k)) - g k * (z k - p k) := by
      field_simp; ring
    have e2 : 1 / gamma * (alpha * gamma * |z k|) = alpha * |z k| := by field_simp
    rw [e1, e2] at h3
    exact h3
  have := Finset.sum_le_sum fun k (_ : k ∈ Finset.univ) => h k
  simp only [Finset.sum_sub_distrib, Finset.sum_add_distrib, ← Finset.mul_sum] at this
  unfold absSum
  exact this

/-- Basic inequality of one step. -/
theorem prox_grad_step {alpha gamma : ℝ} (ha : 0 ≤ alpha) (hg : 0 < gamma) (f : (ι → ℝ) → ℝ)
    (x g z : ι → ℝ)
    (hconv : f x + ∑ k, g k * (z k - x k) ≤ f z)
    (hsmooth : f (softThresholding (fun k => x k - gamma * g k) (alpha * gamma)) ≤ f x
      + (∑ k, g k * (softThresholding (fun k => x k - gamma * g k) (alpha * gamma) k - x k))
      + (1 / (2 * gamma)) * ∑ k, (softThresholding (fun k => x k - gamma * g k) (alpha * gamma) k
          - x k) ^ 2) :
    f (softThresholding (fun k => x k - gamma * g k) (alpha * gamma))
      + alpha * absSum (softThresholding (fun k => x k - gamma * g k) (alpha * gamma))
      ≤ f z + alpha * absSum z + (1 / (2 * gamma)) * (sqDist x z
        - sqDist (softThresholding (fun k => x k - gamma * g k) (alpha * gamma)) z) := by
  have h := soft_step_subgrad ha hg x g z
  set p := softThresholding (fun k => x k - gamma * g k) (alpha * gamma) with hp
  have e1 : sqDist x z - sqDist p z =
      (∑ k, (p k - x k) ^ 2) - 2 * ∑ k, (x k - p k) * (z k - p k) := by
    unfold sqDist
    rw [Finset.mul_sum, ← Finset.sum_sub_distrib, ← Finset.sum_sub_distrib]
    exact Finset.sum_congr rfl fun k _ => by ring
  have e2 : (∑ k, g k * (z k - x k)) = (∑ k, g k * (z k - p k)) + ∑ k, g k * (p k - x k) := by
    rw [← Finset.sum_add_distrib]
    exact Finset.sum_congr rfl fun k _ => by ring
  rw [e1]
  have e3 : (1 / (2 * gamma)) * ((∑ k, (p k - x k) ^ 2) - 2 * ∑ k, (x k - p k) * (z k - p k)) =
      (1 / (2 * gamma)) * (∑ k, (p k - x k) ^ 2)
        - (1 / gamma) * ∑ k, (x k - p k) * (z k - p k) := by
    field_simp
  rw [e3]
  linarith

/-- A fixed point of the step minimises, for any step size. -/
theorem prox_grad_fixed {alpha gamma : ℝ} (ha : 0 ≤ alpha) (hg : 0 < gamma) (f : (ι → ℝ) → ℝ)
    (x g : ι → ℝ) (hconv : ∀ z, f x + ∑ k, g k * (z k - x k) ≤ f z)
    (hfix : softThresholding (fun k => x k - gamma * g k) (alpha * gamma) = x) (z : ι → ℝ) :
    f x + alpha * absSum x ≤ f z + alpha * absSum z := by
  have h := soft_step_subgrad ha hg x g z
  rw [hfix] at h
  simp only [sub_self, zero_mul, Finset.sum_const_zero, mul_zero, add_zero] at h
  have := hconv z
  linarith

/-- A point where no direction decreases to first order is a fixed point. -/
theorem prox_grad_fixed_of_min {alpha gamma : ℝ} (ha : 0 ≤ alpha) (hg : 0 < gamma)
    (x g : ι → ℝ) (hmin : ∀ z, alpha * absSum x ≤ alpha * absSum z + ∑ k, g k * (z k - x k)) :
    softThresholding (fun k => x k - gamma * g k) (alpha * gamma) = x := by
  have h := soft_step_subgrad ha hg x g x
  set p := softThresholding (fun k => x k - gamma * g k) (alpha * gamma) with hp
  have h2 := hmin p
  have e : (∑ k, g k * (x k - p k)) = -∑ k, g k * (p k - x k) := by
    rw [← Finset.sum_neg_distrib]
    exact Finset.sum_congr rfl fun k _ => by ring
  rw [e] at h
  by_contra hne
  have h3 := sum_sq_pos_of_ne (x := x) (y := p) (Ne.symm hne)
  have e2 : (∑ k, (x k - p k) * (x k - p k)) = ∑ k, (x k - p k) ^ 2 :=
    Finset.sum_congr rfl fun k _ => by ring
  rw [e2] at h
  have : 0 < (1 / gamma) * ∑ k, (x k - p k) ^ 2 := by positivity
  linarith

/-- Rate of the iteration: if every step satisfies the basic inequality, objective values never increase
and the gap after `K` steps is at most `‖x0 - z‖² / (2 gamma K)`. -/
theorem prox_grad_rate (F : (ι → ℝ) → ℝ) (step : (ι → ℝ) → ι → ℝ) {gamma : ℝ} (hg : 0 < gamma)
    (hstep : ∀ x z, F (step x) ≤ F z + (1 / (2 * gamma)) * (sqDist x z - sqDist (step x) z))
    (x0 z : ι → ℝ) (K : ℕ) :
    F (step^[K + 1] x0) ≤ F (step^[K] x0) ∧
    (K : ℝ) * (F (step^[K] x0) - F z) ≤ (1 / (2 * gamma)) * (sqDist x0 z - sqDist (step^[K] x0) z) := by
  have hmono : ∀ k, F (step^[k + 1] x0) ≤ F (step^[k] x0) := by
    intro k
    rw [Function.iterate_succ_apply']
    have h := hstep (step^[k] x0) (step^[k] x0)
    have h0 : sqDist (step^[k] x0) (step^[k] x0) = 0 := by simp [sqDist]
    have h1 : 0 ≤ sqDist (step (step^[k] x0)) (step^[k] x0) :=
      Finset.sum_nonneg fun _ _ => sq_nonneg _
    rw [h0] at h
    have h2 : 0 ≤ (1 / (2 * gamma)) * sqDist (step (step^[k] x0)) (step^[k] x0) := by positivity
    linarith
  refine ⟨hmono K, ?_⟩
  induction K with
  | zero => simp
  | succ k ih =>
    have h1 := hmono k
    have h2 := hstep (step^[k] x0) z
    rw [← Function.iterate_succ_apply' step k x0] at h2
    push_cast
    have hk : (0 : ℝ) ≤ k := Nat.cast_nonneg k
    nlinarith

end Verif.Lemmas
