import Verif.Model.WishartMean
import Mathlib.Analysis.SpecialFunctions.Gaussian.GaussianIntegral
import Mathlib.Analysis.SpecialFunctions.ImproperIntegrals
import Mathlib.MeasureTheory.Integral.IntegralEqImproper

/-! Property theorem C221: likelihoods and means of the Wishart and inverse Wishart laws, in one dimension. -/

namespace Verif.Props

open Verif.Model Matrix MeasureTheory Set

set_option autoImplicit false
set_option linter.unusedSectionVars false

theorem multigammaln_one (a : ℝ) : multigammaln a 1 = Real.log (Real.Gamma a) := by
  simp [multigammaln]

theorem inv_fin_one (x : ℝ) : (!![x] : Matrix (Fin 1) (Fin 1) ℝ)⁻¹ 0 0 = x⁻¹ := by
  rw [inv_subsingleton]
  simp [Ring.inverse_eq_inv']

/-- The likelihood of the Wishart law in one dimension. -/
theorem wishartLik_one {nu s x : ℝ} (hnu : 0 < nu) (hs : 0 < s) (hx : 0 < x) :
    wishartLik nu !![s] !![x] =
      ((2 * s) ^ (nu / 2) * Real.Gamma (nu / 2))⁻¹ * (x ^ (nu / 2 - 1) * Real.exp (-((1 / (2 * s)) * x))) := by
  have hG := Real.Gamma_pos_of_pos (half_pos hnu)
  have h2s : 0 < 2 * s := by positivity
  have e1 : ((2 * s) ^ (nu / 2) * Real.Gamma (nu / 2))⁻¹ =
      Real.exp (-(nu / 2 * Real.log (2 * s) + Real.log (Real.Gamma (nu / 2)))) := by
    rw [Real.exp_neg, Real.exp_add, Real.exp_log hG, Real.rpow_def_of_pos h2s]
    congr 3
    ring
  have e2 : x ^ (nu / 2 - 1) = Real.exp ((nu / 2 - 1) * Real.log x) := by
    rw [Real.rpow_def_of_pos hx]; congr 1; ring
  rw [e1, e2, ← Real.exp_add, ← Real.exp_add, Real.log_mul (by norm_num) hs.ne']
  unfold wishartLik wishartLogLik
  congr 1
  rw [multigammaln_one]
  simp only [det_fin_one_of, Finset.univ_unique, Fin.default_eq_zero, Finset.sum_singleton, inv_fin_one,
    Nat.cast_one]
  rw [show (0.5 : ℝ) * nu = nu / 2 by ring]
  simp only [of_apply, cons_val', cons_val_fin_one]
  field_simp
  ring

/-- The likelihood of the inverse Wishart law in one dimension. -/
theorem invWishartLik_one {nu s x : ℝ} (hnu : 0 < nu) (hs : 0 < s) (hx : 0 < x) :
    invWishartLik nu !![s] !![x] =
      (s / 2) ^ (nu / 2) / Real.Gamma (nu / 2) * (x ^ (-(nu / 2) - 1) * Real.exp (-((s / 2) * x⁻¹))) := by
  have hG := Real.Gamma_pos_of_pos (half_pos hnu)
  have h2s : 0 < s / 2 := by positivity
  have e1 : (s / 2) ^ (nu / 2) / Real.Gamma (nu / 2) =
      Real.exp (nu / 2 * Real.log (s / 2) - Real.log (Real.Gamma (nu / 2))) := by
    rw [Real.exp_sub, Real.exp_log hG, Real.rpow_def_of_pos h2s]
    congr 2
    ring
  have e2 : x ^ (-(nu / 2) - 1) = Real.exp ((-(nu / 2) - 1) * Real.log x) := by
    rw [Real.rpow_def_of_pos hx]; congr 1; ring
  rw [e1, e2, ← Real.exp_add, ← Real.exp_add, Real.log_div hs.ne' (by norm_num)]
  unfold invWishartLik invWishartLogLik
  congr 1
  rw [multigammaln_one]
  simp only [det_fin_one_of, Finset.univ_unique, Fin.default_eq_zero, Finset.sum_singleton, inv_fin_one,
    Nat.cast_one]
  rw [show (0.5 : ℝ) * nu = nu / 2 by ring]
  simp only [of_apply, cons_val', cons_val_fin_one]
  ring

/-- C221, one dimension: the likelihood of the Wishart law is a probability density on the positive numbers, and its
expectation is what `mean` returns. Missing: more than one dimension. -/
theorem C221_wishart_partial (nu s : ℝ) (hnu : 0 < nu) (hs : 0 < s) :
    (∫ x in Ioi 0, wishartLik nu !![s] !![x]) = 1 ∧
      (∫ x in Ioi 0, x * wishartLik nu !![s] !![x]) = wishartMean nu !![s] 0 0 := by
  have hG := Real.Gamma_pos_of_pos (half_pos hnu)
  have h2s : (0 : ℝ) < 1 / (2 * s) := by positivity
  have hp : 0 < (2 * s) ^ (nu / 2) := Real.rpow_pos_of_pos (by positivity) _
  have hinv : 1 / (1 / (2 * s)) = 2 * s := by field_simp
  constructor
  · rw [setIntegral_congr_fun measurableSet_Ioi fun x hx => wishartLik_one hnu hs hx, integral_const_mul,
      Real.integral_rpow_mul_exp_neg_mul_Ioi (half_pos hnu) h2s, hinv]
    exact inv_mul_cancel₀ (mul_pos hp hG).ne'
  · have e : ∀ x ∈ Ioi (0 : ℝ), x * wishartLik nu !![s] !![x] =
        ((2 * s) ^ (nu / 2) * Real.Gamma (nu / 2))⁻¹ *
          (x ^ ((nu / 2 + 1) - 1) * Real.exp (-((1 / (2 * s)) * x))) := by
      intro x hx
      rw [wishartLik_one hnu hs hx, show nu / 2 + 1 - 1 = (nu / 2 - 1) + 1 by ring,
        Real.rpow_add_one (ne_of_gt hx)]
      ring
    rw [setIntegral_congr_fun measurableSet_Ioi e, integral_const_mul,
      Real.integral_rpow_mul_exp_neg_mul_Ioi (by positivity) h2s, hinv, Real.rpow_add_one (by positivity),
      Real.Gamma_add_one (by positivity)]
    simp only [wishartMean, Matrix.smul_apply, of_apply, cons_val', cons_val_fin_one, smul_eq_mul]
    field_simp

/-- Change of variables `y = 1 / x`. -/
theorem invGamma_integral {a r : ℝ} (ha : 0 < a) (hr : 0 < r) :
    (∫ x in Ioi (0 : ℝ), x ^ (-a - 1) * Real.exp (-(r * x⁻¹))) = (1 / r) ^ a * Real.Gamma a := by
  rw [← Real.integral_rpow_mul_exp_neg_mul_Ioi ha hr,
    ← integral_comp_rpow_Ioi (fun y : ℝ => y ^ (a - 1) * Real.exp (-(r * y))) (p := -1) (by norm_num)]
  refine setIntegral_congr_fun measurableSet_Ioi fun x hx => ?_
  have hx' : (0 : ℝ) < x := hx
  simp only [abs_neg, abs_one, one_mul, smul_eq_mul]
  rw [← Real.rpow_mul hx'.le, ← mul_assoc, ← Real.rpow_add hx', Real.rpow_neg_one]
  congr 2
  ring

theorem invGamma_integrable_iff {a r : ℝ} (hr : 0 < r) :
    IntegrableOn (fun x : ℝ => x ^ (-a - 1) * Real.exp (-(r * x⁻¹))) (Ioi 0) ↔ 0 < a := by
  have h1 : IntegrableOn (fun x : ℝ => x ^ (-a - 1) * Real.exp (-(r * x⁻¹))) (Ioi 0) ↔
      IntegrableOn (fun y : ℝ => y ^ (a - 1) * Real.exp (-(r * y))) (Ioi 0) := by
    rw [← integrableOn_Ioi_comp_rpow_iff' (fun y : ℝ => y ^ (a - 1) * Real.exp (-(r * y))) (p := -1) (by norm_num)]
    refine integrableOn_congr_fun (fun x hx => ?_) measurableSet_Ioi
    have hx' : (0 : ℝ) < x := hx
    simp only [smul_eq_mul]
    rw [← Real.rpow_mul hx'.le, ← mul_assoc, ← Real.rpow_add hx', Real.rpow_neg_one]
    congr 2
    ring
  rw [h1]
  constructor
  · intro h
    have h2 : IntegrableOn (fun y : ℝ => y ^ (a - 1)) (Ioo 0 1) := by
      have h3 : IntegrableOn (fun y : ℝ => Real.exp r * (y ^ (a - 1) * Real.exp (-(r * y)))) (Ioo 0 1) :=
        (h.mono_set Ioo_subset_Ioi_self).const_mul _
      refine h3.mono' (by fun_prop) ?_
      rw [ae_restrict_iff' measurableSet_Ioo]
      refine Filter.Eventually.of_forall fun y hy => ?_
      have hy0 : 0 ≤ y ^ (a - 1) := Real.rpow_nonneg hy.1.le _
      rw [Real.norm_of_nonneg hy0]
      have h4 : 1 ≤ Real.exp r * Real.exp (-(r * y)) := by
        rw [← Real.exp_add]
        exact Real.one_le_exp (by nlinarith [hy.2])
      nlinarith
    have h3 := (intervalIntegral.integrableOn_Ioo_rpow_iff (by norm_num : (0 : ℝ) < 1)).mp h2
    linarith
  · intro ha
    have h2 := integrableOn_rpow_mul_exp_neg_mul_rpow (p := 1) (s := a - 1) (b := r) (by linarith) one_pos hr
    simpa [Real.rpow_one, neg_mul] using h2

/-- C221, one dimension: the likelihood of the inverse Wishart law is a probability density on the positive numbers,
and with more than two degrees of freedom its expectation is what `mean` returns. Missing: more than one
dimension. -/
theorem C221_inverse_partial (nu s : ℝ) (hnu : 0 < nu) (hs : 0 < s) :
    (∫ x in Ioi 0, invWishartLik nu !![s] !![x]) = 1 ∧
      (2 < nu → ∃ M, invWishartMean nu !![s] = some M ∧
        (∫ x in Ioi 0, x * invWishartLik nu !![s] !![x]) = M 0 0) := by
  have hG := Real.Gamma_pos_of_pos (half_pos hnu)
  have h2s : (0 : ℝ) < s / 2 := by positivity
  have hp : 0 < (s / 2) ^ (nu / 2) := Real.rpow_pos_of_pos (by positivity) _
  have hone : (1 / (s / 2)) ^ (nu / 2) = ((s / 2) ^ (nu / 2))⁻¹ := by
    rw [one_div, Real.inv_rpow h2s.le]
  constructor
  · rw [setIntegral_congr_fun measurableSet_Ioi fun x hx => invWishartLik_one hnu hs hx, integral_const_mul,
      invGamma_integral (half_pos hnu) h2s, hone]
    field_simp
  · intro h2
    have hn : nu - ((1 : ℕ) : ℝ) - 1 ≠ 0 := by push_cast; linarith
    refine ⟨_, if_neg hn, ?_⟩
    have ha : 0 < nu / 2 - 1 := by linarith
    have e : ∀ x ∈ Ioi (0 : ℝ), x * invWishartLik nu !![s] !![x] =
        (s / 2) ^ (nu / 2) / Real.Gamma (nu / 2) *
          (x ^ (-(nu / 2 - 1) - 1) * Real.exp (-((s / 2) * x⁻¹))) := by
      intro x hx
      rw [invWishartLik_one hnu hs hx, show -(nu / 2 - 1) - 1 = (-(nu / 2) - 1) + 1 by ring,
        Real.rpow_add_one (ne_of_gt hx)]
      ring
    have hG2 : Real.Gamma (nu / 2) = (nu / 2 - 1) * Real.Gamma (nu / 2 - 1) := by
      rw [← Real.Gamma_add_one ha.ne']; congr 1; ring
    have hp2 : (s / 2) ^ (nu / 2) = (s / 2) ^ (nu / 2 - 1) * (s / 2) := by
      rw [← Real.rpow_add_one h2s.ne']; congr 1; ring
    have hq := Real.rpow_pos_of_pos h2s (nu / 2 - 1)
    have hG3 := Real.Gamma_pos_of_pos ha
    rw [setIntegral_congr_fun measurableSet_Ioi e, integral_const_mul, invGamma_integral ha h2s, hG2, hp2, one_div,
      Real.inv_rpow h2s.le]
    simp only [of_apply, cons_val', cons_val_fin_one, Nat.cast_one]
    rw [show nu - 1 - 1 = 2 * (nu / 2 - 1) by ring]
    generalize Real.Gamma (nu / 2 - 1) = G at hG3
    generalize (s / 2) ^ (nu / 2 - 1) = q at hq
    generalize nu / 2 - 1 = a at ha
    field_simp

/-- C221 fails for few degrees of freedom: below two, the inverse Wishart law in one dimension (a law of positive
numbers) has no finite mean, but `mean` returns a negative number. -/
theorem C221_mean_false (nu s : ℝ) (hnu : 0 < nu) (h2 : nu < 2) (hs : 0 < s) :
    (∃ M, invWishartMean nu !![s] = some M ∧ M 0 0 < 0) ∧
      ¬ IntegrableOn (fun x : ℝ => x * invWishartLik nu !![s] !![x]) (Ioi 0) := by
  constructor
  · have hn : nu - ((1 : ℕ) : ℝ) - 1 ≠ 0 := by push_cast; linarith
    refine ⟨_, if_neg hn, ?_⟩
    simp only [of_apply, cons_val', cons_val_fin_one, Nat.cast_one]
    exact div_neg_of_pos_of_neg hs (by linarith)
  · intro h
    have hG := Real.Gamma_pos_of_pos (half_pos hnu)
    have hp : 0 < (s / 2) ^ (nu / 2) := Real.rpow_pos_of_pos (by positivity) _
    have h3 : IntegrableOn (fun x : ℝ => x ^ (-(nu / 2 - 1) - 1) * Real.exp (-((s / 2) * x⁻¹))) (Ioi 0) := by
      have h4 := h.const_mul (Real.Gamma (nu / 2) / (s / 2) ^ (nu / 2))
      refine (integrableOn_congr_fun (fun x hx => ?_) measurableSet_Ioi).mp h4
      have hx' : (0 : ℝ) < x := hx
      rw [invWishartLik_one hnu hs hx, show -(nu / 2 - 1) - 1 = (-(nu / 2) - 1) + 1 by ring,
        Real.rpow_add_one (ne_of_gt hx')]
      field_simp
    have := (invGamma_integrable_iff (by positivity)).mp h3
    linarith

/-- Degrees of freedom and scales meeting the hypotheses. -/
example : (0 : ℝ) < 5 ∧ (2 : ℝ) < 5 ∧ (0 : ℝ) < 0.7 := by norm_num

/-- With five degrees of freedom and scale `0.6`, the means are `3` and `0.2`. -/
example : wishartMean 5 !![(0.6 : ℝ)] 0 0 = 3 ∧ invWishartMean 5 !![(0.6 : ℝ)] = some !![0.2] := by
  constructor
  · simp [wishartMean]; norm_num
  · rw [invWishartMean, if_neg (by norm_num)]
    congr 1
    ext i j
    fin_cases i; fin_cases j
    simp
    norm_num

end Verif.Props
