import Verif.Model.Wishart
import Verif.Spec.Density
import Verif.Lemmas.GL
import Verif.Props.Bayes
import Verif.Props.PosDefUtils
import Mathlib.LinearAlgebra.Matrix.SchurComplement
import Mathlib.Probability.Distributions.Gaussian.Real
import Mathlib.Tactic.FinCases

/-! Property theorems C141 – C145: the Wishart family, the densities of `stats`, prediction. -/

set_option autoImplicit false
set_option linter.unusedSectionVars false

namespace Verif.Props

open Verif.Spec Verif.Model Verif.Lemmas Matrix

section wishart
variable {d : ℕ}

/-- `X` lies in the domain and is the one and only maximiser of `f`. -/
def UniqueMax {X : Type*} (s : Set X) (f : X → ℝ) (x : X) : Prop :=
  x ∈ s ∧ ∀ y ∈ s, y ≠ x → f y < f x

theorem inv_smul_pd {a : ℝ} (ha : 0 < a) {B : Matrix (Fin d) (Fin d) ℝ} (hB : B.PosDef) :
    (a • B)⁻¹ = (1 / a) • B⁻¹ := by
  have hu : IsUnit B.det := hB.det_pos.ne'.isUnit
  apply inv_eq_left_inv
  rw [Matrix.smul_mul, Matrix.mul_smul, nonsing_inv_mul _ hu, smul_smul, one_div,
    inv_mul_cancel₀ ha.ne', one_smul]

/-- `a log det X - ⟨B, X⟩` has its only maximum at `a B⁻¹`. -/
theorem logdet_linear_max {a : ℝ} (ha : 0 < a) {B X : Matrix (Fin d) (Fin d) ℝ} (hB : B.PosDef)
    (hX : X.PosDef) (hne : X ≠ a • B⁻¹) :
    a * Real.log X.det - frobInner B X
      < a * Real.log (a • B⁻¹).det - frobInner B (a • B⁻¹) := by
  have hK : (a • B⁻¹).PosDef := hB.inv.smul ha
  have h := log_det_lt hX hK hne
  have hKi : (a • B⁻¹)⁻¹ = (1 / a) • B := by
    rw [inv_smul_pd ha hB.inv, nonsing_inv_nonsing_inv _ hB.det_pos.ne'.isUnit]
  rw [hKi] at h
  simp only [frobInner_smul_left, frobInner_sub_right] at h
  have h2 := mul_lt_mul_of_pos_left h ha
  have h3 : a * (Real.log (a • B⁻¹).det + (1 / a * frobInner B X - 1 / a * frobInner B (a • B⁻¹)))
      = a * Real.log (a • B⁻¹).det + (frobInner B X - frobInner B (a • B⁻¹)) := by
    field_simp
  rw [h3] at h2
  linarith

theorem sum_eq_frobInner (A B : Matrix (Fin d) (Fin d) ℝ) : (∑ i, ∑ j, A i j * B i j) = frobInner A B :=
  rfl

/-- C141: for a positive definite scale and `nu > D + 1` the `mode` of the Wishart distribution is the one
maximiser of `log_likelihood` over the positive definite matrices; for smaller `nu` it is nan. -/
theorem C141_wishart_mode (mg : ℝ → ℕ → ℝ) (nu : ℝ) {S : Matrix (Fin d) (Fin d) ℝ} (hS : S.PosDef) :
    (nu > d + 1 → ∃ M, wishartMode nu S = some M ∧
      UniqueMax {X : Matrix (Fin d) (Fin d) ℝ | X.PosDef} (wishartLogLik mg nu S) M) ∧
    (¬ nu > d + 1 → wishartMode nu S = none) := by
  refine ⟨fun h => ?_, fun h => by simp [wishartMode, h]⟩
  have ha : 0 < nu - d - 1 := by linarith
  refine ⟨(nu - d - 1) • S, by simp only [wishartMode, h, if_true], hS.smul ha, ?_⟩
  intro X hX hne
  have hi : (S⁻¹)⁻¹ = S := nonsing_inv_nonsing_inv _ hS.det_pos.ne'.isUnit
  have key := logdet_linear_max ha hS.inv hX (by rwa [hi])
  rw [hi] at key
  simp only [wishartLogLik, sum_eq_frobInner]
  rw [frobInner_comm X, frobInner_comm ((nu - d - 1) • S)]
  linarith

example : ∃ (nu : ℝ) (S : Matrix (Fin 2) (Fin 2) ℝ), S.PosDef ∧ nu > (2 : ℕ) + 1 :=
  ⟨5, 1, PosDef.one, by norm_num⟩

theorem log_det_inv {X : Matrix (Fin d) (Fin d) ℝ} (_hX : X.PosDef) :
    Real.log X⁻¹.det = -Real.log X.det := by
  rw [det_nonsing_inv, Ring.inverse_eq_inv', Real.log_inv]

/-- C141: the inverse Wishart log-density is the Wishart log-density of the inverse (with the inverse
scale) plus the logarithm of the Jacobian `|X|^{-(D+1)}` of matrix inversion. -/
theorem C141_inverse_wishart (mg : ℝ → ℕ → ℝ) (nu : ℝ) {S X : Matrix (Fin d) (Fin d) ℝ} (hS : S.PosDef)
    (hX : X.PosDef) :
    invWishartLogLik mg nu S X = wishartLogLik mg nu S⁻¹ X⁻¹ - (d + 1) * Real.log X.det := by
  simp only [invWishartLogLik, wishartLogLik, sum_eq_frobInner, log_det_inv hS, log_det_inv hX,
    nonsing_inv_nonsing_inv _ hS.det_pos.ne'.isUnit]
  rw [frobInner_comm X⁻¹ S]
  ring

/-- C141: the inverse Wishart `mode` is the one maximiser of its `log_likelihood`. -/
theorem C141_inverse_mode (mg : ℝ → ℕ → ℝ) (nu : ℝ) {S : Matrix (Fin d) (Fin d) ℝ} (hS : S.PosDef)
    (hnu : 0 < nu + d + 1) :
    UniqueMax {X : Matrix (Fin d) (Fin d) ℝ | X.PosDef} (invWishartLogLik mg nu S)
      (invWishartMode nu S) := by
  have hM : (invWishartMode nu S).PosDef := hS.smul (by positivity)
  refine ⟨hM, fun X hX hne => ?_⟩
  have hX' : X.PosDef := hX
  have hMi : (invWishartMode nu S)⁻¹ = (nu + d + 1) • S⁻¹ := by
    rw [invWishartMode, inv_smul_pd (by positivity) hS, one_div_one_div]
  have hne' : X⁻¹ ≠ (nu + d + 1) • S⁻¹ := by
    intro h
    rw [← hMi] at h
    apply hne
    have := congrArg (·⁻¹) h
    simpa only [nonsing_inv_nonsing_inv _ hX'.det_pos.ne'.isUnit,
      nonsing_inv_nonsing_inv _ hM.det_pos.ne'.isUnit] using this
  have key := logdet_linear_max hnu hS hX'.inv hne'
  rw [← hMi, log_det_inv hX', log_det_inv hM] at key
  simp only [invWishartLogLik, sum_eq_frobInner]
  linarith

example : ∃ (nu : ℝ) (S : Matrix (Fin 2) (Fin 2) ℝ), S.PosDef ∧ 0 < nu + (2 : ℕ) + 1 :=
  ⟨5, 1, PosDef.one, by norm_num⟩

/-! ### C142 normal-inverse-Wishart -/

theorem quad_eq (C : Matrix (Fin d) (Fin d) ℝ) (v : Fin d → ℝ) :
    v ⬝ᵥ (C *ᵥ v) = ∑ i, ∑ j, C i j * (v i * v j) := by
  simp only [dotProduct, mulVec, Finset.mul_sum]
  refine Finset.sum_congr rfl fun i _ => Finset.sum_congr rfl fun j _ => by ring

theorem log_det_smul {c : ℝ} (hc : 0 < c) {X : Matrix (Fin d) (Fin d) ℝ} (hX : X.PosDef) :
    Real.log (c • X).det = d * Real.log c + Real.log X.det := by
  rw [det_smul, Fintype.card_fin, Real.log_mul (by positivity) hX.det_pos.ne', Real.log_pow]

theorem mvnLogpdf_eq_log {C : Matrix (Fin d) (Fin d) ℝ} (hC : C.PosDef) (m x : Fin d → ℝ) :
    Real.log (gaussianDensity m C x) = mvnLogpdf m C x := by
  have h1 : 0 < (2 * Real.pi) ^ d * C.det := by
    have := hC.det_pos; have := Real.pi_pos; positivity
  unfold gaussianDensity mvnLogpdf
  rw [Fintype.card_fin, Real.log_div (Real.exp_pos _).ne' (Real.sqrt_pos.mpr h1).ne', Real.log_exp,
    Real.log_sqrt h1.le, Real.log_mul (by have := Real.pi_pos; positivity) hC.det_pos.ne', Real.log_pow]
  ring

/-- The NIW log-density written with the inverse `W` of the covariance. -/
theorem niw_logLik_eq (mg : ℝ → ℕ → ℝ) (q : NIW d) (hk : 0 < q.kappa) (mu : Fin d → ℝ)
    {X : Matrix (Fin d) (Fin d) ℝ} (hX : X.PosDef) :
    q.logLik mg mu X = (q.nu * Real.log q.S.det - q.nu * d * Real.log 2 - 2 * mg (0.5 * q.nu) d
        - d * Real.log (2 * Real.pi) + d * Real.log q.kappa) / 2
      - (q.nu + d + 2) / 2 * Real.log X.det
      - (1 / 2) * ∑ i, ∑ j, X⁻¹ i j *
          (q.S i j + q.kappa * ((mu i - q.mu i) * (mu j - q.mu j))) := by
  have hk' : 0 < 1 / q.kappa := by positivity
  simp only [NIW.logLik, invWishartLogLik, mvnLogpdf, log_det_smul hk' hX, inv_smul_pd hk' hX,
    one_div_one_div, quad_eq]
  have e1 : ∑ i, ∑ j, q.S i j * X⁻¹ i j = ∑ i, ∑ j, X⁻¹ i j * q.S i j :=
    Finset.sum_congr rfl fun i _ => Finset.sum_congr rfl fun j _ => mul_comm _ _
  have e2 : ∑ i, ∑ j, X⁻¹ i j * (q.S i j + q.kappa * ((mu i - q.mu i) * (mu j - q.mu j)))
      = (∑ i, ∑ j, X⁻¹ i j * q.S i j)
        + ∑ i, ∑ j, (q.kappa • X⁻¹) i j * ((mu - q.mu) i * (mu - q.mu) j) := by
    simp only [← Finset.sum_add_distrib, Matrix.smul_apply, smul_eq_mul, Pi.sub_apply]
    refine Finset.sum_congr rfl fun i _ => Finset.sum_congr rfl fun j _ => by ring
  rw [e1, e2, Real.log_div one_ne_zero hk.ne', Real.log_one]
  ring

/-- The entry identity behind conjugacy. -/
theorem niw_entry {n : ℕ} (q : NIW d) (hk : 0 < q.kappa) (hn : n ≠ 0) (X : Matrix (Fin n) (Fin d) ℝ)
    (mu : Fin d → ℝ) (a b : Fin d) :
    (q.posterior X).S a b + (q.posterior X).kappa *
        ((mu a - (q.posterior X).mu a) * (mu b - (q.posterior X).mu b))
      = q.S a b + q.kappa * ((mu a - q.mu a) * (mu b - q.mu b))
        + ∑ i, (X i a - mu a) * (X i b - mu b) := by
  have hn0 : (n : ℝ) ≠ 0 := Nat.cast_ne_zero.mpr hn
  have k1 : q.kappa + n ≠ 0 := by positivity
  have e : ∑ i, (X i a - mu a) * (X i b - mu b) = (∑ i, X i a * X i b) - mu b * (∑ i, X i a)
      - mu a * (∑ i, X i b) + n * (mu a * mu b) := by
    have : ∀ i, (X i a - mu a) * (X i b - mu b)
        = X i a * X i b - mu b * X i a - mu a * X i b + mu a * mu b := fun i => by ring
    simp only [this, Finset.sum_add_distrib, Finset.sum_sub_distrib, ← Finset.mul_sum,
      Finset.sum_const, Finset.card_univ, Fintype.card_fin, nsmul_eq_mul]
    ring
  have ea : (n : ℝ) * colMean X a = ∑ i, X i a := by unfold colMean; field_simp
  have eb : (n : ℝ) * colMean X b = ∑ i, X i b := by unfold colMean; field_simp
  rw [e, ← ea, ← eb]
  simp only [NIW.posterior, Matrix.sub_apply, Matrix.add_apply, Matrix.smul_apply, smul_eq_mul,
    vecMulVec_apply, Matrix.mul_apply, Matrix.transpose_apply]
  field_simp
  ring

/-- C142 (Bayes' theorem): for every data matrix with at least one row, `posterior(X)` is the conjugate
update: its log-density at `(mu, Sigma)` is that of the prior plus the Gaussian log-likelihood of the rows
plus a constant which does not depend on `(mu, Sigma)`. -/
theorem C142_bayes (mg : ℝ → ℕ → ℝ) {n : ℕ} (q : NIW d) (hk : 0 < q.kappa) (hn : n ≠ 0)
    (X : Matrix (Fin n) (Fin d) ℝ) :
    ∃ c : ℝ, ∀ (mu : Fin d → ℝ) (Sigma : Matrix (Fin d) (Fin d) ℝ), Sigma.PosDef →
      (q.posterior X).logLik mg mu Sigma
        = q.logLik mg mu Sigma + (∑ i, Real.log (gaussianDensity mu Sigma (X i))) + c := by
  have hkn : 0 < (q.posterior X).kappa := by simp only [NIW.posterior]; positivity
  set p := q.posterior X with hp
  have hnu : p.nu = q.nu + n := rfl
  refine ⟨((p.nu * Real.log p.S.det - p.nu * d * Real.log 2 - 2 * mg (0.5 * p.nu) d
        - d * Real.log (2 * Real.pi) + d * Real.log p.kappa) / 2)
      - ((q.nu * Real.log q.S.det - q.nu * d * Real.log 2 - 2 * mg (0.5 * q.nu) d
        - d * Real.log (2 * Real.pi) + d * Real.log q.kappa) / 2)
      + n * (1 / 2 * (d * Real.log (2 * Real.pi))), ?_⟩
  intro mu Sg hS
  rw [niw_logLik_eq mg p hkn mu hS, niw_logLik_eq mg q hk mu hS]
  have hdata : ∑ i, Real.log (gaussianDensity mu Sg (X i))
      = -(n * (1 / 2 * (d * Real.log (2 * Real.pi)))) - n / 2 * Real.log Sg.det
        - (1 / 2) * ∑ a, ∑ b, Sg⁻¹ a b * ∑ i, (X i a - mu a) * (X i b - mu b) := by
    have e : ∑ a, ∑ b, Sg⁻¹ a b * ∑ i, (X i a - mu a) * (X i b - mu b)
        = ∑ i, ∑ a, ∑ b, Sg⁻¹ a b * ((X i a - mu a) * (X i b - mu b)) := by
      rw [Finset.sum_comm]
      conv_rhs => rw [Finset.sum_comm]
      rw [Finset.sum_comm]
      refine Finset.sum_congr rfl fun a _ => ?_
      rw [Finset.sum_comm]
      refine Finset.sum_congr rfl fun b _ => ?_
      rw [Finset.mul_sum]
    rw [e]
    have hi : ∀ i, Real.log (gaussianDensity mu Sg (X i))
        = -(1 / 2 * (d * Real.log (2 * Real.pi))) - 1 / 2 * Real.log Sg.det
          - (1 / 2) * ∑ a, ∑ b, Sg⁻¹ a b * ((X i a - mu a) * (X i b - mu b)) := by
      intro i
      rw [mvnLogpdf_eq_log hS, mvnLogpdf, quad_eq]
      simp only [Pi.sub_apply]
      ring
    rw [Finset.sum_congr rfl fun i _ => hi i, Finset.sum_sub_distrib, ← Finset.mul_sum]
    simp only [Finset.sum_const, Finset.card_univ, Fintype.card_fin, nsmul_eq_mul]
    ring
  rw [hdata]
  have hsum : ∑ i, ∑ j, Sg⁻¹ i j * (p.S i j + p.kappa * ((mu i - p.mu i) * (mu j - p.mu j)))
      = (∑ i, ∑ j, Sg⁻¹ i j * (q.S i j + q.kappa * ((mu i - q.mu i) * (mu j - q.mu j))))
        + ∑ a, ∑ b, Sg⁻¹ a b * ∑ i, (X i a - mu a) * (X i b - mu b) := by
    simp only [← Finset.sum_add_distrib, ← mul_add]
    refine Finset.sum_congr rfl fun a _ => Finset.sum_congr rfl fun b _ => ?_
    rw [hp, niw_entry q hk hn X mu a b]
  rw [hsum, hnu]
  ring

example : ∃ (q : NIW 2) (n : ℕ), 0 < q.kappa ∧ n ≠ 0 ∧ q.S.PosDef ∧ 0 < q.nu + (2 : ℕ) + 2 :=
  ⟨⟨0, 1, 5, 1⟩, 3, by norm_num, by norm_num, PosDef.one, by norm_num⟩

/-- C142: `mode` is the one maximiser of the joint log-density over all means and all positive definite
covariances. -/
theorem C142_mode (mg : ℝ → ℕ → ℝ) (q : NIW d) (hk : 0 < q.kappa) (hS : q.S.PosDef)
    (hnu : 0 < q.nu + d + 2) :
    UniqueMax {z : (Fin d → ℝ) × Matrix (Fin d) (Fin d) ℝ | z.2.PosDef}
      (fun z => q.logLik mg z.1 z.2) q.mode := by
  have hM : ((1 / (q.nu + d + 2)) • q.S).PosDef := hS.smul (by positivity)
  refine ⟨hM, ?_⟩
  rintro ⟨mu, X⟩ (hX : X.PosDef) hne
  have hMi : ((1 / (q.nu + d + 2)) • q.S)⁻¹ = (q.nu + d + 2) • q.S⁻¹ := by
    rw [inv_smul_pd (by positivity) hS, one_div_one_div]
  simp only [NIW.mode]
  rw [niw_logLik_eq mg q hk mu hX, niw_logLik_eq mg q hk q.mu hM]
  have split : ∀ (m : Fin d → ℝ) (Y : Matrix (Fin d) (Fin d) ℝ),
      ∑ i, ∑ j, Y i j * (q.S i j + q.kappa * ((m i - q.mu i) * (m j - q.mu j)))
        = frobInner q.S Y + q.kappa * ((m - q.mu) ⬝ᵥ (Y *ᵥ (m - q.mu))) := by
    intro m Y
    rw [quad_eq, ← sum_eq_frobInner]
    simp only [Finset.mul_sum, ← Finset.sum_add_distrib, Pi.sub_apply]
    refine Finset.sum_congr rfl fun i _ => Finset.sum_congr rfl fun j _ => by ring
  rw [split, split, sub_self, zero_dotProduct, mul_zero, add_zero]
  have hXi := hX.inv
  have hq0 : 0 ≤ (mu - q.mu) ⬝ᵥ (X⁻¹ *ᵥ (mu - q.mu)) := by
    have := hXi.posSemidef.dotProduct_mulVec_nonneg (mu - q.mu)
    simpa using this
  by_cases hXe : X = (1 / (q.nu + d + 2)) • q.S
  · have hmu : mu - q.mu ≠ 0 := by
      intro h
      apply hne
      rw [NIW.mode, hXe, sub_eq_zero.mp h]
    have hq : 0 < (mu - q.mu) ⬝ᵥ (X⁻¹ *ᵥ (mu - q.mu)) := by
      have := hXi.dotProduct_mulVec_pos hmu
      simpa using this
    rw [← hXe]
    have := mul_pos hk hq
    linarith
  · have hne' : X⁻¹ ≠ (q.nu + d + 2) • q.S⁻¹ := by
      intro h
      rw [← hMi] at h
      apply hXe
      have := congrArg (·⁻¹) h
      simpa only [nonsing_inv_nonsing_inv _ hX.det_pos.ne'.isUnit,
        nonsing_inv_nonsing_inv _ hM.det_pos.ne'.isUnit] using this
    have key := logdet_linear_max hnu hS hXi hne'
    rw [← hMi, log_det_inv hX, log_det_inv hM] at key
    have := mul_nonneg hk.le hq0
    linarith

/-- The determinant after a rank-one update. -/
theorem det_rank_one {S : Matrix (Fin d) (Fin d) ℝ} (hS : S.PosDef) (c : ℝ) (v : Fin d → ℝ) :
    (S + c • vecMulVec v v).det = S.det * (1 + c * (v ⬝ᵥ (S⁻¹ *ᵥ v))) := by
  have hu : IsUnit S.det := hS.det_pos.ne'.isUnit
  have e : S + c • vecMulVec v v
      = S * (1 + replicateCol Unit (S⁻¹ *ᵥ (c • v)) * replicateRow Unit v) := by
    have h1 : replicateCol Unit (S⁻¹ *ᵥ (c • v)) * replicateRow Unit v
        = S⁻¹ * (c • vecMulVec v v) := by
      rw [← vecMulVec_eq Unit, ← Matrix.mul_vecMulVec, Matrix.smul_vecMulVec]
    rw [h1, Matrix.mul_add, Matrix.mul_one, ← Matrix.mul_assoc, mul_nonsing_inv _ hu, Matrix.one_mul]
  rw [e, det_mul, det_one_add_replicateCol_mul_replicateRow, mulVec_smul, dotProduct_smul, smul_eq_mul]

/-- The logarithm of the density of a multivariate Student distribution with `df` degrees of freedom,
centre `m` and scale `C` at `x`, up to the normalising constant. -/
noncomputable def studentLog (df : ℝ) (m : Fin d → ℝ) (C : Matrix (Fin d) (Fin d) ℝ) (x : Fin d → ℝ) : ℝ :=
  -((df + d) / 2) * Real.log (1 + (1 / df) * ((x - m) ⬝ᵥ (C⁻¹ *ᵥ (x - m))))

theorem quad_nonneg {C : Matrix (Fin d) (Fin d) ℝ} (hC : C.PosDef) (v : Fin d → ℝ) :
    0 ≤ v ⬝ᵥ (C⁻¹ *ᵥ v) := by
  have := hC.inv.posSemidef.dotProduct_mulVec_nonneg v
  simpa using this

/-- C142: `marginals`. The joint density factors into the inverse Wishart law of the covariance given the
mean (degrees of freedom plus one, scale plus `kappa (mu - m)(mu - m)ᵀ`) and the Student law of the mean with
the parameters `marginals` returns. -/
theorem C142_marginal (mg : ℝ → ℕ → ℝ) (q : NIW d) (hk : 0 < q.kappa) (hS : q.S.PosDef)
    (hnu : 0 < q.nu - d + 1) :
    ∃ c : ℝ, ∀ (mu : Fin d → ℝ) (X : Matrix (Fin d) (Fin d) ℝ), X.PosDef →
      q.logLik mg mu X
        = invWishartLogLik mg (q.nu + 1) (q.S + q.kappa • vecMulVec (mu - q.mu) (mu - q.mu)) X
          + studentLog q.marginalMu.1 q.mu q.marginalMu.2 mu + c := by
  refine ⟨(q.nu * Real.log q.S.det - q.nu * d * Real.log 2 - 2 * mg (0.5 * q.nu) d
        - d * Real.log (2 * Real.pi) + d * Real.log q.kappa) / 2
      - ((q.nu + 1) * Real.log q.S.det - (q.nu + 1) * d * Real.log 2
        - 2 * mg (0.5 * (q.nu + 1)) d) / 2, ?_⟩
  intro mu X hX
  rw [niw_logLik_eq mg q hk mu hX]
  set Q := (mu - q.mu) ⬝ᵥ (q.S⁻¹ *ᵥ (mu - q.mu)) with hQ
  have hQ0 : 0 ≤ Q := quad_nonneg hS _
  have h1 : 0 < 1 + q.kappa * Q := by have := mul_nonneg hk.le hQ0; linarith
  have hst : studentLog q.marginalMu.1 q.mu q.marginalMu.2 mu
      = -((q.nu + 1) / 2) * Real.log (1 + q.kappa * Q) := by
    simp only [studentLog, NIW.marginalMu]
    rw [inv_smul_pd (by positivity) hS, one_div_one_div, smul_mulVec, dotProduct_smul, smul_eq_mul,
      ← hQ]
    have : 1 / (q.nu - d + 1) * (q.kappa * (q.nu - d + 1) * Q) = q.kappa * Q := by field_simp
    rw [this]
    ring
  rw [hst]
  simp only [invWishartLogLik, det_rank_one hS, ← hQ]
  rw [Real.log_mul hS.det_pos.ne' h1.ne']
  have e : ∑ i, ∑ j, (q.S + q.kappa • vecMulVec (mu - q.mu) (mu - q.mu)) i j * X⁻¹ i j
      = ∑ i, ∑ j, X⁻¹ i j * (q.S i j + q.kappa * ((mu i - q.mu i) * (mu j - q.mu j))) := by
    refine Finset.sum_congr rfl fun i _ => Finset.sum_congr rfl fun j _ => ?_
    simp only [Matrix.add_apply, Matrix.smul_apply, vecMulVec_apply, smul_eq_mul, Pi.sub_apply]
    ring
  rw [e]
  ring

/-- C142: `predictive()`. Prior times likelihood of one new row `x`, divided by the posterior given `x` (the
evidence of `x`, the same at all `(mu, Sigma)` by Bayes' theorem), is the Student density with the
parameters `predictive` returns. -/
theorem C142_predictive (mg : ℝ → ℕ → ℝ) (q : NIW d) (hk : 0 < q.kappa) (hS : q.S.PosDef)
    (hnu : 0 < q.nu - d + 1) :
    ∃ c : ℝ, ∀ (x : Fin d → ℝ) (mu : Fin d → ℝ) (X : Matrix (Fin d) (Fin d) ℝ), X.PosDef →
      q.logLik mg mu X + Real.log (gaussianDensity mu X x)
          - (q.posterior (Matrix.of fun _ : Fin 1 => x)).logLik mg mu X
        = studentLog q.predictive.1 q.mu q.predictive.2 x + c := by
  refine ⟨(q.nu * Real.log q.S.det - q.nu * d * Real.log 2 - 2 * mg (0.5 * q.nu) d
        - d * Real.log (2 * Real.pi) + d * Real.log q.kappa) / 2
      - ((q.nu + 1) * Real.log q.S.det - (q.nu + 1) * d * Real.log 2
        - 2 * mg (0.5 * (q.nu + 1)) d + d * Real.log (q.kappa + 1)) / 2, ?_⟩
  intro x mu X hX
  set Y : Matrix (Fin 1) (Fin d) ℝ := Matrix.of fun _ : Fin 1 => x with hY
  set p := q.posterior Y with hp
  have hnup : p.nu = q.nu + 1 := by simp [hp, NIW.posterior]
  have hkp : p.kappa = q.kappa + 1 := by simp [hp, NIW.posterior]
  have hkn : 0 < p.kappa := by rw [hkp]; linarith
  have hSp : p.S = q.S + (q.kappa / (q.kappa + 1)) • vecMulVec (x - q.mu) (x - q.mu) := by
    ext a b
    rw [hp, (C56_textbook q hk one_ne_zero Y).1 a b]
    simp [colMean, hY, vecMulVec_apply]
  rw [niw_logLik_eq mg p hkn mu hX, niw_logLik_eq mg q hk mu hX]
  have hsum : ∑ i, ∑ j, X⁻¹ i j * (p.S i j + p.kappa * ((mu i - p.mu i) * (mu j - p.mu j)))
      = (∑ i, ∑ j, X⁻¹ i j * (q.S i j + q.kappa * ((mu i - q.mu i) * (mu j - q.mu j))))
        + ∑ a, ∑ b, X⁻¹ a b * ((x a - mu a) * (x b - mu b)) := by
    simp only [← Finset.sum_add_distrib, ← mul_add]
    refine Finset.sum_congr rfl fun a _ => Finset.sum_congr rfl fun b _ => ?_
    rw [hp, niw_entry q hk one_ne_zero Y mu a b]
    simp [hY]
  rw [hsum, mvnLogpdf_eq_log hX, mvnLogpdf, quad_eq, hnup, hkp]
  simp only [Pi.sub_apply]
  set Q := (x - q.mu) ⬝ᵥ (q.S⁻¹ *ᵥ (x - q.mu)) with hQ
  have hQ0 : 0 ≤ Q := quad_nonneg hS _
  have h1 : 0 < 1 + q.kappa / (q.kappa + 1) * Q := by positivity
  have hst : studentLog q.predictive.1 q.mu q.predictive.2 x
      = -((q.nu + 1) / 2) * Real.log (1 + q.kappa / (q.kappa + 1) * Q) := by
    simp only [studentLog, NIW.predictive]
    rw [inv_smul_pd (by positivity) hS, smul_mulVec, dotProduct_smul, smul_eq_mul, ← hQ]
    have : 1 / (q.nu - d + 1) * (1 / ((q.kappa + 1) / (q.kappa * (q.nu - d + 1))) * Q)
        = q.kappa / (q.kappa + 1) * Q := by field_simp
    rw [this]
    ring
  rw [hst, hSp, det_rank_one hS, ← hQ, Real.log_mul hS.det_pos.ne' h1.ne']
  ring

example : ∃ q : NIW 2, 0 < q.kappa ∧ q.S.PosDef ∧ 0 < q.nu - (2 : ℕ) + 1 :=
  ⟨⟨0, 1, 5, 1⟩, by norm_num, PosDef.one, by norm_num⟩

/-- C142: the object returned by `posterior` cannot be evaluated: its mean is a 1 x d array, which scipy
refuses as a mean, so for `d ≠ 1` its `log_likelihood` always raises; only the prior object built by hand with
a vector mean returns a number. -/
theorem C142_posterior_object_false (mg : ℝ → ℕ → ℝ) (hd : d ≠ 1) {n : ℕ} (o : NIWObj d)
    (X : Matrix (Fin n) (Fin d) ℝ) (mu : Fin d → ℝ) (Sigma : Matrix (Fin d) (Fin d) ℝ) :
    (o.posterior X).logLik mg mu Sigma = none ∧
      (NIWObj.mk o.par false).logLik mg mu Sigma = some (o.par.logLik mg mu Sigma) := by
  simp [NIWObj.logLik, NIWObj.posterior, hd]

example : (2 : ℕ) ≠ 1 := by norm_num

/-! ### C143 densities of `stats` -/

/-- C143: `log_lik_frob(S, D, variance)` is the log-density of `S` under independent Gaussian noise of the given
variance around `D`, entry by entry. -/
theorem C143_frob {n m : ℕ} (S D : Matrix (Fin n) (Fin m) ℝ) (v : NNReal) (hv : v ≠ 0) :
    logLikFrob S D v = ∑ i, ∑ j, Real.log (ProbabilityTheory.gaussianPDFReal (D i j) v (S i j)) := by
  have hv' : (0 : ℝ) < v := by positivity
  have h2 : 0 < 2 * Real.pi * (v : ℝ) := by have := Real.pi_pos; positivity
  have h1 : ∀ i j, Real.log (ProbabilityTheory.gaussianPDFReal (D i j) v (S i j))
      = -(1 / 2) * Real.log (2 * Real.pi * v) - (1 / 2) * ((S i j - D i j) ^ 2 / v) := by
    intro i j
    rw [ProbabilityTheory.gaussianPDFReal, Real.log_mul (by positivity) (Real.exp_pos _).ne',
      Real.log_exp, Real.log_inv, Real.log_sqrt h2.le]
    field_simp
    ring
  simp only [h1, Finset.sum_sub_distrib, Finset.sum_const, Finset.card_univ, Fintype.card_fin,
    nsmul_eq_mul, ← Finset.mul_sum, ← Finset.sum_div, logLikFrob]
  rw [show (2.0 : ℝ) = 2 by norm_num]
  ring

/-- C143: it is largest exactly at `D = S`. -/
theorem C143_frob_max {n m : ℕ} (S D : Matrix (Fin n) (Fin m) ℝ) {v : ℝ} (hv : 0 < v) (hne : D ≠ S) :
    logLikFrob S D v < logLikFrob S S v := by
  have h0 : (∑ i, ∑ j, (S i j - S i j) ^ 2) = 0 := by simp
  have h1 : 0 < ∑ i, ∑ j, (S i j - D i j) ^ 2 := by
    refine lt_of_le_of_ne (Finset.sum_nonneg fun i _ => Finset.sum_nonneg fun j _ => sq_nonneg _) ?_
    intro h
    apply hne
    ext i j
    have h2 := (Finset.sum_eq_zero_iff_of_nonneg fun i _ =>
      Finset.sum_nonneg fun j _ => sq_nonneg (S i j - D i j)).mp h.symm i (Finset.mem_univ _)
    have h3 := (Finset.sum_eq_zero_iff_of_nonneg fun j _ => sq_nonneg (S i j - D i j)).mp h2 j
      (Finset.mem_univ _)
    have := pow_eq_zero_iff two_ne_zero |>.mp h3
    linarith
  have h2 := div_pos h1 hv
  unfold logLikFrob
  rw [h0, zero_div]
  linarith

/-- C143: for `x > 0` and `sigma > 0` `lognormal_logpdf` is the Gaussian log-density of `log x` minus `log x` (the
change of variables). -/
theorem C143_lognormal (x mu : ℝ) (sigma : NNReal) (hx : 0 < x) (hs : sigma ≠ 0) :
    lognormalLogpdf x mu sigma
      = Real.log (ProbabilityTheory.gaussianPDFReal mu (sigma ^ 2) (Real.log x)) - Real.log x := by
  have hs' : (0 : ℝ) < sigma := by positivity
  have h2 : 0 < 2 * Real.pi := by have := Real.pi_pos; positivity
  have h3 : 0 < 2 * Real.pi * ((sigma ^ 2 : NNReal) : ℝ) := by push_cast; positivity
  rw [lognormalLogpdf, lognormalPdf, ProbabilityTheory.gaussianPDFReal,
    Real.log_div (Real.exp_pos _).ne' (by positivity), Real.log_exp,
    Real.log_mul (by positivity) (by positivity), Real.log_mul hx.ne' hs'.ne',
    Real.log_mul (by positivity) (Real.exp_pos _).ne', Real.log_exp, Real.log_inv,
    Real.log_sqrt h3.le, Real.log_sqrt h2.le]
  push_cast
  rw [Real.log_mul h2.ne' (by positivity), Real.log_pow]
  push_cast
  field_simp
  ring

example : ∃ (x : ℝ) (s : NNReal), 0 < x ∧ s ≠ 0 := ⟨2, 1, by norm_num, by norm_num⟩

/-! ### C144 prediction -/

/-- C144: whatever the kernel and the data, every predicted covariance is positive semidefinite; and at the
training times themselves (invertible kernel matrix) the prediction is the fitted covariance. -/
theorem C144_predict {nTrain nTest v p : ℕ} (A : Matrix (Fin nTest) (Fin nTrain) ℝ)
    (P KB : Matrix (Fin nTrain) (Fin nTrain) ℝ) (u : Fin nTrain → Matrix (Fin v) (Fin p) ℝ)
    (L : Matrix (Fin p) (Fin p) ℝ) :
    (∀ s, (wpPredict A P u L s).PosSemidef) ∧
      (KB * P = 1 → ∀ t, wpPredict KB P u L t = gwpConstruct (u t) L) := by
  refine ⟨fun s => (C89_gwp_posSemidef _ _).1, fun h t => ?_⟩
  have : predictU KB P u t = u t := by
    unfold predictU
    rw [h]
    simp [Matrix.one_apply]
  rw [wpPredict, this]

example : ∃ KB P : Matrix (Fin 2) (Fin 2) ℝ, KB * P = 1 := ⟨1, 1, by simp⟩

/-- C144: the squared-exponential kernel entry is symmetric and, for positive variance and width, lies in
`(0, k(x, x)]` with the largest value on the diagonal only; `k(x, x)` is the variance, or the variance times
the normalising factor. -/
theorem C144_rbf {var w : ℝ} (hv : 0 < var) (hw : 0 < w) (normalised : Bool) (x y : ℝ) :
    rbfEntry var w normalised x y = rbfEntry var w normalised y x ∧
      0 < rbfEntry var w normalised x y ∧
      rbfEntry var w normalised x y ≤ rbfEntry var w normalised x x ∧
      (rbfEntry var w normalised x y = rbfEntry var w normalised x x ↔ x = y) ∧
      rbfEntry var w false x x = var := by
  have hc : 0 < (if normalised then Real.sqrt (w / (2 * Real.pi)) else 1) := by
    have := Real.pi_pos
    split
    · exact Real.sqrt_pos.mpr (by positivity)
    · exact one_pos
  set c := (if normalised then Real.sqrt (w / (2 * Real.pi)) else 1) with hcdef
  have hf : ∀ a b, rbfEntry var w normalised a b
      = var * Real.exp (-(0.5 * w) * (a - b) ^ 2) * c := fun a b => rfl
  have hd : rbfEntry var w normalised x x = var * 1 * c := by rw [hf]; simp
  refine ⟨?_, ?_, ?_, ?_, ?_⟩
  · rw [hf, hf, ← neg_sub y x, neg_sq]
  · rw [hf]; positivity
  · rw [hf, hd]
    have : Real.exp (-(0.5 * w) * (x - y) ^ 2) ≤ 1 := by
      rw [Real.exp_le_one_iff]
      have := mul_nonneg hw.le (sq_nonneg (x - y))
      linarith
    gcongr
  · rw [hf, hd]
    constructor
    · intro h
      have h1 := mul_left_cancel₀ hv.ne' (mul_right_cancel₀ hc.ne' h)
      rw [Real.exp_eq_one_iff, mul_eq_zero] at h1
      rcases h1 with h1 | h1
      · linarith
      · exact sub_eq_zero.mp (pow_eq_zero_iff two_ne_zero |>.mp h1)
    · rintro rfl; simp
  · simp [rbfEntry]

example : (0 : ℝ) < 1 ∧ (0 : ℝ) < 2 := by norm_num

end wishart
end Verif.Props
