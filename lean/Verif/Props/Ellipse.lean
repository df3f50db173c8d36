import Verif.Model.Ellipse
import Mathlib.LinearAlgebra.Matrix.NonsingularInverse

/-! Property theorems C216: the curves drawn for a covariance matrix. -/

namespace Verif.Props

open Verif.Model Matrix

set_option autoImplicit false

/-- Specification: the points at distance `r` from `c` in the metric of a covariance matrix. -/
def MahalanobisSphere (cov : Matrix (Fin 2) (Fin 2) ℝ) (c : Fin 2 → ℝ) (r : ℝ) : Set (Fin 2 → ℝ) :=
  {z | (z - c) ⬝ᵥ cov⁻¹ *ᵥ (z - c) = r ^ 2}

theorem exists_angle {x y : ℝ} (h : x ^ 2 + y ^ 2 = 1) : ∃ t, Real.cos t = x ∧ Real.sin t = y := by
  have hn : ‖(⟨x, y⟩ : ℂ)‖ = 1 := by
    rw [Complex.norm_eq_sqrt_sq_add_sq, h, Real.sqrt_one]
  have h0 : (⟨x, y⟩ : ℂ) ≠ 0 := by
    rw [← norm_pos_iff, hn]; norm_num
  refine ⟨Complex.arg ⟨x, y⟩, ?_, ?_⟩
  · rw [Complex.cos_arg h0, hn, div_one]
  · rw [Complex.sin_arg, hn, div_one]

/-- Two orthonormal directions `(p, q)`, `(-q, p)` with variances `a`, `b`. -/
theorem sphere_iff {A : Matrix (Fin 2) (Fin 2) ℝ} {p q a b : ℝ} (hpq : p ^ 2 + q ^ 2 = 1) (ha : a ≠ 0) (hb : b ≠ 0)
    (h00 : A 0 0 = a * p ^ 2 + b * q ^ 2) (h01 : A 0 1 = (a - b) * (p * q)) (h10 : A 1 0 = (a - b) * (p * q))
    (h11 : A 1 1 = a * q ^ 2 + b * p ^ 2) (c z : Fin 2 → ℝ) (r : ℝ) :
    z ∈ MahalanobisSphere A c r ↔
      (p * (z 0 - c 0) + q * (z 1 - c 1)) ^ 2 / a + (p * (z 1 - c 1) - q * (z 0 - c 0)) ^ 2 / b = r ^ 2 := by
  have hinv : A⁻¹ = !![p ^ 2 / a + q ^ 2 / b, p * q / a - p * q / b; p * q / a - p * q / b, q ^ 2 / a + p ^ 2 / b] := by
    refine Matrix.inv_eq_right_inv ?_
    ext i j
    fin_cases i <;> fin_cases j <;> simp [Matrix.mul_apply, Fin.sum_univ_two, h00, h01, h10, h11] <;> field_simp <;>
      first
      | linear_combination (a * b * (p ^ 2 + q ^ 2 + 1)) * hpq
      | linear_combination (p ^ 2 + q ^ 2 + 1) * hpq
      | ring1
  unfold MahalanobisSphere
  rw [Set.mem_ofPred_eq, hinv]
  have e : (z - c) ⬝ᵥ !![p ^ 2 / a + q ^ 2 / b, p * q / a - p * q / b; p * q / a - p * q / b, q ^ 2 / a + p ^ 2 / b] *ᵥ
      (z - c) = (p * (z 0 - c 0) + q * (z 1 - c 1)) ^ 2 / a + (p * (z 1 - c 1) - q * (z 0 - c 0)) ^ 2 / b := by
    simp [dotProduct, mulVec, Fin.sum_univ_two]
    ring
  rw [e]

theorem scaled_circle {u v a b r : ℝ} (ha : 0 < a) (hb : 0 < b) (hr : 0 < r) :
    u ^ 2 / a + v ^ 2 / b = r ^ 2 ↔ ∃ t, u = r * Real.sqrt a * Real.cos t ∧ v = r * Real.sqrt b * Real.sin t := by
  have hsa := Real.sq_sqrt ha.le
  have hsb := Real.sq_sqrt hb.le
  have ha' := Real.sqrt_pos.mpr ha
  have hb' := Real.sqrt_pos.mpr hb
  constructor
  · intro h
    obtain ⟨t, h1, h2⟩ := exists_angle (x := u / (r * Real.sqrt a)) (y := v / (r * Real.sqrt b)) (by
      rw [div_pow, div_pow, mul_pow, mul_pow, hsa, hsb]
      have : u ^ 2 / (r ^ 2 * a) + v ^ 2 / (r ^ 2 * b) = (u ^ 2 / a + v ^ 2 / b) / r ^ 2 := by
        field_simp
      rw [this, h, div_self (by positivity)])
    exact ⟨t, by rw [h1]; field_simp, by rw [h2]; field_simp⟩
  · rintro ⟨t, rfl, rfl⟩
    rw [mul_pow, mul_pow, mul_pow, mul_pow, hsa, hsb]
    have : r ^ 2 * a * Real.cos t ^ 2 / a + r ^ 2 * b * Real.sin t ^ 2 / b =
        r ^ 2 * (Real.cos t ^ 2 + Real.sin t ^ 2) := by
      field_simp
    rw [this, Real.cos_sq_add_sin_sq, mul_one]

theorem eigh_entries {A Q : Matrix (Fin 2) (Fin 2) ℝ} {e : Fin 2 → ℝ} (h : IsEigh A Q e) (f : Fin 2) :
    Q 0 f ^ 2 + Q 1 f ^ 2 = 1 ∧ A 0 0 = e f * Q 0 f ^ 2 + e (1 - f) * Q 1 f ^ 2 ∧
      A 0 1 = (e f - e (1 - f)) * (Q 0 f * Q 1 f) ∧ A 1 0 = (e f - e (1 - f)) * (Q 0 f * Q 1 f) ∧
      A 1 1 = e f * Q 1 f ^ 2 + e (1 - f) * Q 0 f ^ 2 := by
  have o : ∀ i j, (Q * Qᵀ) i j = (1 : Matrix (Fin 2) (Fin 2) ℝ) i j := fun i j => by rw [h.orth]
  have o' : ∀ i j, (Qᵀ * Q) i j = (1 : Matrix (Fin 2) (Fin 2) ℝ) i j := fun i j => by rw [h.orth']
  have o00 := o 0 0
  have o01 := o 0 1
  have o11 := o 1 1
  have n0 := o' 0 0
  have n1 := o' 1 1
  simp only [Matrix.mul_apply, Matrix.transpose_apply, Fin.sum_univ_two, Matrix.one_apply, if_true,
    (by decide : (0 : Fin 2) ≠ 1), if_false] at o00 o01 o11 n0 n1
  have d : ∀ i j, A i j = e 0 * (Q i 0 * Q j 0) + e 1 * (Q i 1 * Q j 1) := fun i j => by
    rw [h.decomp]
    simp [Matrix.mul_apply, Fin.sum_univ_two, diagonal]
    ring
  have hx : Q 0 0 ^ 2 = Q 1 1 ^ 2 := by nlinarith
  have hy : Q 0 1 ^ 2 = Q 1 0 ^ 2 := by nlinarith
  fin_cases f
  · simp only [Fin.zero_eta, Fin.isValue, sub_zero, d]
    exact ⟨by nlinarith, by rw [← sq, ← sq, hy], by linear_combination (e 1) * o01, by linear_combination (e 1) * o01,
      by rw [← sq, ← sq, hx]⟩
  · simp only [Fin.mk_one, Fin.isValue, sub_self, d]
    exact ⟨by nlinarith, by rw [← sq, ← sq, hx]; ring, by linear_combination (e 0) * o01,
      by linear_combination (e 0) * o01, by rw [← sq, ← sq, hy]; ring⟩

theorem ellipseTheta_spec {A Q : Matrix (Fin 2) (Fin 2) ℝ} {e : Fin 2 → ℝ} (h : IsEigh A Q e) :
    Real.cos (ellipseTheta Q e) = Q 0 (firstAxis e) ∧ Real.sin (ellipseTheta Q e) = Q 1 (firstAxis e) := by
  have hu := (eigh_entries h (firstAxis e)).1
  have hn : ‖(⟨Q 0 (firstAxis e), Q 1 (firstAxis e)⟩ : ℂ)‖ = 1 := by
    rw [Complex.norm_eq_sqrt_sq_add_sq, hu, Real.sqrt_one]
  have h0 : (⟨Q 0 (firstAxis e), Q 1 (firstAxis e)⟩ : ℂ) ≠ 0 := by
    rw [← norm_pos_iff, hn]; norm_num
  constructor
  · rw [ellipseTheta, Complex.cos_arg h0, hn, div_one]
  · rw [ellipseTheta, Complex.sin_arg, hn, div_one]

/-- C216 (ellipse). For an invertible covariance the outline drawn by `plot_cov_ellipse` is exactly the set of points
`nstd` standard deviations from `pos`, whichever eigenvectors are returned. -/
theorem C216_ellipse {cov Q : Matrix (Fin 2) (Fin 2) ℝ} {e : Fin 2 → ℝ} (h : IsEigh cov Q e) (he : ∀ i, 0 < e i)
    (pos : Fin 2 → ℝ) {nstd : ℝ} (hn : 0 < nstd) :
    Set.range (covEllipse pos Q e nstd) = MahalanobisSphere cov pos nstd := by
  obtain ⟨hpq, h00, h01, h10, h11⟩ := eigh_entries h (firstAxis e)
  obtain ⟨hc, hs⟩ := ellipseTheta_spec h
  have hlen : ∀ i, axisLength nstd (e i) = 2 * (nstd * Real.sqrt (e i)) := fun i => by
    have : 0 < 2 * nstd * Real.sqrt (e i) := by have := Real.sqrt_pos.mpr (he i); positivity
    rw [axisLength, if_neg this.ne']; ring
  ext z
  rw [sphere_iff hpq (he _).ne' (he _).ne' h00 h01 h10 h11, scaled_circle (he _) (he _) hn, Set.mem_range]
  have hpt : ∀ t, covEllipse pos Q e nstd t =
      ![pos 0 + (nstd * Real.sqrt (e (firstAxis e)) * Real.cos t * Q 0 (firstAxis e) -
          nstd * Real.sqrt (e (1 - firstAxis e)) * Real.sin t * Q 1 (firstAxis e)),
        pos 1 + (nstd * Real.sqrt (e (firstAxis e)) * Real.cos t * Q 1 (firstAxis e) +
          nstd * Real.sqrt (e (1 - firstAxis e)) * Real.sin t * Q 0 (firstAxis e))] := by
    intro t
    rw [covEllipse, patchPoint, hc, hs, ellipseWidth, ellipseHeight, hlen, hlen]
    congr 1
    · ring
    · congr 1
      ring
  generalize Q 0 (firstAxis e) = p at *
  generalize Q 1 (firstAxis e) = q at *
  constructor
  · rintro ⟨t, rfl⟩
    refine ⟨t, ?_, ?_⟩ <;> rw [hpt] <;> simp
    · linear_combination (nstd * Real.sqrt (e (firstAxis e)) * Real.cos t) * hpq
    · linear_combination (nstd * Real.sqrt (e (1 - firstAxis e)) * Real.sin t) * hpq
  · rintro ⟨t, h1, h2⟩
    refine ⟨t, ?_⟩
    rw [hpt, ← h1, ← h2]
    ext i
    fin_cases i
    · simp
      linear_combination (z 0 - pos 0) * hpq
    · simp
      linear_combination (z 1 - pos 1) * hpq

/-- C216 (curve). The curve of `plot_cov_2d` is the set of points `sdwidth` standard deviations from the means; the hundred
points drawn lie on it, and the last is the first. -/
theorem C216_curve {cov Q : Matrix (Fin 2) (Fin 2) ℝ} {e : Fin 2 → ℝ} (h : IsEigh cov Q e) (he : ∀ i, 0 < e i)
    (means : Fin 2 → ℝ) {sdwidth : ℝ} (hn : 0 < sdwidth) (npts : ℕ) :
    Set.range (cov2dCurve means Q e sdwidth) = MahalanobisSphere cov means sdwidth ∧
      (∀ k, plotCov2d means Q e sdwidth npts k ∈ MahalanobisSphere cov means sdwidth) ∧
      plotCov2d means Q e sdwidth npts 99 = plotCov2d means Q e sdwidth npts 0 := by
  have hset : Set.range (cov2dCurve means Q e sdwidth) = MahalanobisSphere cov means sdwidth := by
    obtain ⟨hpq, h00, h01, h10, h11⟩ := eigh_entries h 0
    have o01 : (Q * Qᵀ) 0 1 = (1 : Matrix (Fin 2) (Fin 2) ℝ) 0 1 := by rw [h.orth]
    have p01 : (Qᵀ * Q) 0 1 = (1 : Matrix (Fin 2) (Fin 2) ℝ) 0 1 := by rw [h.orth']
    have p11 : (Qᵀ * Q) 1 1 = (1 : Matrix (Fin 2) (Fin 2) ℝ) 1 1 := by rw [h.orth']
    simp only [Matrix.mul_apply, Matrix.transpose_apply, Fin.sum_univ_two, Matrix.one_apply, if_true,
      (by decide : (0 : Fin 2) ≠ 1), if_false] at o01 p01 p11
    -- the second column is the first one turned, up to the sign
    obtain ⟨σ, hσ, hr0, hr1⟩ : ∃ σ : ℝ, σ ^ 2 = 1 ∧ Q 0 1 = -(σ * Q 1 0) ∧ Q 1 1 = σ * Q 0 0 := by
      refine ⟨Q 0 0 * Q 1 1 - Q 1 0 * Q 0 1, ?_, ?_, ?_⟩
      · have : (Q 0 0 * Q 1 1 - Q 1 0 * Q 0 1) ^ 2 = (Q 0 0 ^ 2 + Q 1 0 ^ 2) * (Q 0 1 * Q 0 1 + Q 1 1 * Q 1 1) -
            (Q 0 0 * Q 0 1 + Q 1 0 * Q 1 1) ^ 2 := by ring
        rw [this, hpq, p11, p01]; norm_num
      · linear_combination (-Q 0 1) * hpq + Q 0 0 * p01
      · linear_combination (-Q 1 1) * hpq + Q 1 0 * p01
    ext z
    rw [sphere_iff hpq (he _).ne' (he _).ne' h00 h01 h10 h11, scaled_circle (he _) (he _) hn, Set.mem_range]
    simp only [sub_zero]
    have hpt : ∀ t, cov2dCurve means Q e sdwidth t =
        ![Q 0 0 * (sdwidth * Real.sqrt (e 0)) * Real.cos t - σ * Q 1 0 * (sdwidth * Real.sqrt (e 1)) * Real.sin t + means 0,
          Q 1 0 * (sdwidth * Real.sqrt (e 0)) * Real.cos t + σ * Q 0 0 * (sdwidth * Real.sqrt (e 1)) * Real.sin t +
            means 1] := by
      intro t
      ext i
      fin_cases i <;> simp [cov2dCurve, mulVec, dotProduct, Fin.sum_univ_two, Matrix.mul_apply, diagonal, hr0, hr1]
      ring
    generalize Q 0 0 = p at *
    generalize Q 1 0 = q at *
    have hσ' : σ = 1 ∨ σ = -1 := by
      have : (σ - 1) * (σ + 1) = 0 := by linear_combination hσ
      rcases mul_eq_zero.mp this with h | h
      · exact Or.inl (by linarith)
      · exact Or.inr (by linarith)
    constructor
    · rintro ⟨t, rfl⟩
      refine ⟨σ * t, ?_, ?_⟩ <;> rw [hpt] <;> rcases hσ' with rfl | rfl <;> simp
      · linear_combination (sdwidth * Real.sqrt (e 0) * Real.cos t) * hpq
      · linear_combination (sdwidth * Real.sqrt (e 0) * Real.cos t) * hpq
      · linear_combination (sdwidth * Real.sqrt (e 1) * Real.sin t) * hpq
      · linear_combination (-(sdwidth * Real.sqrt (e 1) * Real.sin t)) * hpq
    · rintro ⟨t, h1, h2⟩
      refine ⟨σ * t, ?_⟩
      rw [hpt]
      ext i
      fin_cases i <;> rcases hσ' with rfl | rfl <;> simp
      · linear_combination (-p) * h1 + q * h2 + (z 0 - means 0) * hpq
      · linear_combination (-p) * h1 + q * h2 + (z 0 - means 0) * hpq
      · linear_combination (-q) * h1 - p * h2 + (z 1 - means 1) * hpq
      · linear_combination (-q) * h1 - p * h2 + (z 1 - means 1) * hpq
  refine ⟨hset, fun k => ?_, ?_⟩
  · rw [← hset]; exact ⟨_, rfl⟩
  · have e1 : ellipseAngle 99 = 2 * Real.pi := by
      have : ((99 : Fin 100) : ℕ) = 99 := rfl
      rw [ellipseAngle, this]; norm_num
    have e0 : ellipseAngle 0 = 0 := by simp [ellipseAngle]
    rw [plotCov2d, plotCov2d, e1, e0, cov2dCurve, cov2dCurve, Real.cos_two_pi, Real.sin_two_pi, Real.cos_zero,
      Real.sin_zero]

/-- C216 (degenerate). An axis without variance is drawn with length one tenth instead of zero. -/
theorem C216_degenerate (nstd : ℝ) : axisLength nstd 0 = 1 / 10 := by
  simp [axisLength]

/-- C216 (number of points). `npts` has no effect. -/
theorem C216_npts_false (means : Fin 2 → ℝ) (Q : Matrix (Fin 2) (Fin 2) ℝ) (e : Fin 2 → ℝ) (sdwidth : ℝ) (npts npts' : ℕ) :
    plotCov2d means Q e sdwidth npts = plotCov2d means Q e sdwidth npts' := rfl

/-- C216 is false for the returned value: it is the covariance, not the correlation. -/
theorem C216_correlation_false : ∃ cov : Matrix (Fin 2) (Fin 2) ℝ,
    plotCov2dReturn cov ≠ cov 0 1 / Real.sqrt (cov 0 0 * cov 1 1) := by
  refine ⟨!![4, 1; 1, 1], ?_⟩
  have : Real.sqrt (4 * 1) = 2 := by
    rw [show (4 * 1 : ℝ) = 2 ^ 2 by norm_num, Real.sqrt_sq (by norm_num)]
  have e : (!![4, 1; 1, 1] : Matrix (Fin 2) (Fin 2) ℝ) 0 1 / Real.sqrt ((!![4, 1; 1, 1] : Matrix (Fin 2) (Fin 2) ℝ) 0 0 *
      (!![4, 1; 1, 1] : Matrix (Fin 2) (Fin 2) ℝ) 1 1) = 1 / 2 := by
    change 1 / Real.sqrt (4 * 1) = 1 / 2
    rw [this]
  rw [e]
  change (1 : ℝ) ≠ 1 / 2
  norm_num

/-- C216 is false for the axes: the covariance `diag(1, 100)` has a point of its ellipse at height 20, while the axis that
`plot_cov_ellipse` sets ends at 4.1. -/
theorem C216_limits_false : ∃ (Q : Matrix (Fin 2) (Fin 2) ℝ) (e : Fin 2 → ℝ), IsEigh (diagonal ![1, 100]) Q e ∧
    ∃ t, covEllipse 0 Q e 2 t 1 = 20 ∧ axisLimit 0 e 2 1 = 41 / 10 := by
  have hI : IsEigh (diagonal ![1, 100] : Matrix (Fin 2) (Fin 2) ℝ) 1 ![1, 100] := ⟨by simp, by simp, by simp⟩
  have hf : firstAxis ![1, 100] = 1 := by simp [firstAxis]
  refine ⟨1, ![1, 100], hI, 0, ?_, ?_⟩
  · have hs : Real.sqrt 100 = 10 := by
      rw [show (100 : ℝ) = 10 ^ 2 by norm_num, Real.sqrt_sq (by norm_num)]
    obtain ⟨hc, hs'⟩ := ellipseTheta_spec hI
    rw [hf] at hc hs'
    simp [covEllipse, patchPoint, hs', hc, ellipseWidth, hf, axisLength, hs]
    norm_num
  · simp [axisLimit, ellipseHeight, hf, axisLength]
    norm_num

/-- C216 is false for centres with a negative coordinate: when the centre lies further left than half the width, the
horizontal axis, which runs between minus and plus `axisLimit`, does not even contain the centre. -/
theorem C216_centre_false (pos : Fin 2 → ℝ) (e : Fin 2 → ℝ) {nstd : ℝ} (hn : 0 ≤ nstd)
    (h : 2 * pos 0 < -(ellipseWidth e nstd + 1 / 10)) : |axisLimit pos e nstd 0| < |pos 0| := by
  have hw : 0 ≤ ellipseWidth e nstd := by
    rw [ellipseWidth, axisLength]
    have : 0 ≤ 2 * nstd * Real.sqrt (e (firstAxis e)) := by positivity
    split_ifs <;> linarith
  have hp : pos 0 < 0 := by linarith
  rw [abs_of_neg hp, abs_lt]
  simp only [axisLimit, Matrix.cons_val_zero]
  constructor <;> linarith

/-- Non-vacuity for `C216_centre_false`. -/
example : 2 * (![-10, 0] : Fin 2 → ℝ) 0 < -(ellipseWidth ![1, 1] 2 + 1 / 10) := by
  have : (4 : ℝ) ≠ 0 := by norm_num
  simp [ellipseWidth, axisLength, firstAxis]
  norm_num

/-- Non-vacuity for C216. -/
example : IsEigh (diagonal ![1, 100] : Matrix (Fin 2) (Fin 2) ℝ) 1 ![1, 100] ∧ ∀ i, 0 < (![1, 100] : Fin 2 → ℝ) i :=
  ⟨⟨by simp, by simp, by simp⟩, fun i => by fin_cases i <;> simp⟩

end Verif.Props
