import Verif.Lemmas.Spectral

/-! Eigenvalue identities of the two log-det proximal maps. -/

set_option linter.unusedSectionVars false

namespace Verif.Lemmas

open Verif.Model Verif.Spec Matrix

variable {n : Type*} [Fintype n] [DecidableEq n]

theorem abs_lt_sqrt_sq_add {e c : ℝ} (hc : 0 < c) : |e| < Real.sqrt (e ^ 2 + c) := by
  rw [← Real.sqrt_sq_eq_abs]
  exact Real.sqrt_lt_sqrt (sq_nonneg e) (by linarith)

theorem xiLogdet_pos {lam : ℝ} (hl : 0 < lam) (e : ℝ) : 0 < xiLogdet lam e := by
  have h1 : |e| < Real.sqrt (e ^ 2 + 4 / lam) := abs_lt_sqrt_sq_add (by positivity)
  have h2 : 0 < -e + Real.sqrt (e ^ 2 + 4 / lam) := by linarith [le_abs_self e]
  unfold xiLogdet; positivity

/-- `xi` is the positive root of `xi²/lam + e xi - 1 = 0`. -/
theorem xiLogdet_root {lam : ℝ} (hl : 0 < lam) (e : ℝ) :
    e - (xiLogdet lam e)⁻¹ + lam⁻¹ * xiLogdet lam e = 0 := by
  have hx := xiLogdet_pos hl e
  have hs : Real.sqrt (e ^ 2 + 4 / lam) ^ 2 = e ^ 2 + 4 / lam := Real.sq_sqrt (by positivity)
  have hq : lam⁻¹ * xiLogdet lam e ^ 2 + e * xiLogdet lam e - 1 = 0 := by
    unfold xiLogdet
    generalize Real.sqrt (e ^ 2 + 4 / lam) = s at hs
    have hs' : s ^ 2 * lam = e ^ 2 * lam + 4 := by rw [hs]; field_simp
    field_simp
    nlinarith
  have : (e - (xiLogdet lam e)⁻¹ + lam⁻¹ * xiLogdet lam e) * xiLogdet lam e = 0 := by
    rw [← hq]; field_simp; ring
  rcases mul_eq_zero.mp this with h | h
  · exact h
  · exact absurd h hx.ne'

theorem proxLogdet_posDef {Q : Matrix n n ℝ} (h1 : Q * Qᵀ = 1) (e : n → ℝ) {lam : ℝ} (hl : 0 < lam) :
    (proxLogdet Q e lam).PosDef :=
  recompose_posDef h1 fun i => xiLogdet_pos hl (e i)

theorem proxLogdet_stationary {A Q : Matrix n n ℝ} {e : n → ℝ} (h : IsEigh A Q e) {lam : ℝ}
    (hl : 0 < lam) :
    A - (proxLogdet Q e lam)⁻¹ + lam⁻¹ • proxLogdet Q e lam = 0 := by
  conv_lhs => rw [h.eq_recompose]
  rw [proxLogdet, recompose_inv h.orth h.orth' fun i => (xiLogdet_pos hl (e i)).ne', recompose_sub,
    recompose_smul, recompose_add]
  simp only [xiLogdet_root hl]
  exact recompose_zero Q

/-- `logdet` problem: a PD matrix that satisfies the stationarity equation is a strong minimiser. -/
theorem logdet_strong {A K X : Matrix n n ℝ} {c : ℝ} (hK : K.PosDef) (hX : X.PosDef)
    (hst : A - K⁻¹ + c • K = 0) :
    frobInner A K - Real.log K.det + c / 2 * frobSq K + c / 2 * frobSq (X - K)
      ≤ frobInner A X - Real.log X.det + c / 2 * frobSq X := by
  have h1 := log_det_le hX hK
  have hA : A = K⁻¹ - c • K := by
    have : A = (A - K⁻¹ + c • K) + K⁻¹ - c • K := by abel
    rw [this, hst, zero_add]
  rw [hA, frobInner_sub_left, frobInner_sub_left, frobInner_smul_left, frobInner_smul_left, frobSq_sub,
    frobInner_self]
  rw [frobInner_sub_right] at h1
  rw [frobInner_comm X K]
  linarith

end Verif.Lemmas
