import Verif.Lemmas.GL
import Verif.Spec.Objectives

/-! Optimality conditions of the graphical lasso problem. -/

set_option linter.unusedSectionVars false

namespace Verif.Lemmas

open Verif.Model Verif.Spec Matrix Filter Topology

variable {n : Type*} [Fintype n] [DecidableEq n]

theorem absSumOff_smul_add_le (X Y : Matrix n n ℝ) {t : ℝ} (h0 : 0 ≤ t) (h1 : t ≤ 1) :
    absSumOff (X + t • (Y - X)) ≤ (1 - t) * absSumOff X + t * absSumOff Y := by
  unfold absSumOff
  simp only [Finset.mul_sum, ← Finset.sum_add_distrib]
  refine Finset.sum_le_sum fun i _ => Finset.sum_le_sum fun j _ => ?_
  split
  · simp
  · simp only [Matrix.add_apply, Matrix.smul_apply, Matrix.sub_apply, smul_eq_mul]
    have e : X i j + t * (Y i j - X i j) = (1 - t) * X i j + t * Y i j := by ring
    rw [e]
    refine le_trans (abs_add_le _ _) ?_
    rw [abs_mul, abs_mul, abs_of_nonneg h0, abs_of_nonneg (by linarith : 0 ≤ 1 - t)]

theorem absSumOff_transpose (X : Matrix n n ℝ) : absSumOff Xᵀ = absSumOff X := by
  unfold absSumOff
  rw [Finset.sum_comm]
  refine Finset.sum_congr rfl fun i _ => Finset.sum_congr rfl fun j _ => ?_
  by_cases h : i = j
  · simp [h]
  · simp [h, Ne.symm h]

theorem absSumOff_symmetrize_le (X : Matrix n n ℝ) : absSumOff (symmetrize X) ≤ absSumOff X := by
  have h := absSumOff_smul_add_le X Xᵀ (t := 1 / 2) (by norm_num) (by norm_num)
  have e : X + (1 / 2 : ℝ) • (Xᵀ - X) = symmetrize X := by
    unfold symmetrize
    ext i j
    simp only [Matrix.add_apply, Matrix.smul_apply, Matrix.sub_apply, smul_eq_mul]
    ring
  rw [e, absSumOff_transpose] at h
  linarith

/-- Symmetric square root of a PD matrix. -/
theorem exists_sqrt {K : Matrix n n ℝ} (hK : K.PosDef) :
    ∃ R : Matrix n n ℝ, R.PosDef ∧ R * R = K := by
  obtain ⟨Q, e, h⟩ := exists_isEigh hK.isSymm'
  have hp := h.eigen_pos hK
  refine ⟨recompose Q fun i => Real.sqrt (e i),
    recompose_posDef h.orth fun i => Real.sqrt_pos.mpr (hp i), ?_⟩
  rw [recompose_mul h.orth']
  conv_rhs => rw [h.eq_recompose]
  congr 1; funext i; exact Real.mul_self_sqrt (hp i).le

/-- Positive definiteness survives small symmetric perturbations along a line. -/
theorem posDef_add_smul {K H : Matrix n n ℝ} (hK : K.PosDef) (hH : H.IsSymm) :
    ∀ᶠ t : ℝ in 𝓝[>] 0, (K + t • H).PosDef := by
  obtain ⟨R, hR, hRR⟩ := exists_sqrt hK
  have hRu : IsUnit R.det := isUnit_iff_ne_zero.mpr hR.det_pos.ne'
  have hRs : Rᵀ = R := hR.isSymm'
  have hPs : (R⁻¹)ᵀ = R⁻¹ := hR.inv.isSymm'
  have hW : (R⁻¹ * H * R⁻¹).IsSymm := by
    rw [IsSymm, transpose_mul, transpose_mul, hPs, hH.eq, Matrix.mul_assoc]
  obtain ⟨Q, w, h⟩ := exists_isEigh hW
  have hev : ∀ᶠ t : ℝ in 𝓝[>] 0, ∀ i, 0 < 1 + t * w i := by
    rw [eventually_all]
    intro i
    have hc : ContinuousAt (fun t : ℝ => 1 + t * w i) 0 := by fun_prop
    have : ∀ᶠ t : ℝ in 𝓝 0, 0 < 1 + t * w i :=
      hc.eventually (lt_mem_nhds (by simp))
    exact this.filter_mono nhdsWithin_le_nhds
  filter_upwards [hev] with t ht
  have hpd : (recompose Q fun i => 1 + t * w i).PosDef := recompose_posDef h.orth ht
  have he : recompose Q (fun i => 1 + t * w i) = 1 + t • (R⁻¹ * H * R⁻¹) := by
    rw [← recompose_add Q (fun _ => 1), recompose_one h.orth, ← recompose_smul, ← h.eq_recompose]
  have hsum : K + t • H = R * (1 + t • (R⁻¹ * H * R⁻¹)) * R := by
    rw [Matrix.mul_add, Matrix.add_mul, Matrix.mul_one, hRR, Matrix.mul_smul, Matrix.smul_mul]
    congr 2
    calc H = (R * R⁻¹) * H * (R⁻¹ * R) := by
          rw [Matrix.mul_nonsing_inv _ hRu, Matrix.nonsing_inv_mul _ hRu, Matrix.one_mul,
            Matrix.mul_one]
      _ = _ := by simp only [Matrix.mul_assoc]
  rw [hsum, ← he]
  have hinj : Function.Injective (R.vecMul) :=
    Matrix.vecMul_injective_of_isUnit ((Matrix.isUnit_iff_isUnit_det R).mpr hRu)
  have := hpd.mul_mul_conjTranspose_same (B := R) hinj
  rwa [conjTranspose_eq_transpose_of_trivial, hRs] at this

/-- Sufficient optimality condition: `S - K⁻¹ + G = 0` with `G` a subgradient (tested on symmetric
matrices) makes `K` the unique optimum. -/
theorem gl_optimal_of_subgrad {S K G : Matrix n n ℝ} {alpha : ℝ} (hS : S.IsSymm) (hK : K.PosDef)
    (hG : S - K⁻¹ + symmetrize G = 0)
    (hsub : ∀ X, alpha * absSumOff K + frobInner G (X - K) ≤ alpha * absSumOff X) :
    UniqueMin (PD n) (glObjective S alpha) K := by
  refine ⟨hK, fun X hX hne => ?_⟩
  have hX' : X.PosDef := hX
  have h1 := log_det_lt hX' hK hne
  have h2 := hsub X
  have hsym : (X - K).IsSymm := by
    rw [IsSymm, transpose_sub, hX'.isSymm'.eq, hK.isSymm'.eq]
  have h3 : frobInner G (X - K) = frobInner (K⁻¹ - S) (X - K) := by
    rw [← frobInner_symmetrize hsym G]
    congr 1
    have : symmetrize G = (S - K⁻¹ + symmetrize G) - S + K⁻¹ := by abel
    rw [this, hG]; abel
  unfold glObjective
  rw [← frobInner_eq_trace_of_symm hS, ← frobInner_eq_trace_of_symm hS]
  rw [h3, frobInner_sub_left, frobInner_sub_right S] at h2
  linarith

/-- Necessary optimality condition: an optimum satisfies the subgradient inequality with
`G = K⁻¹ - S`. -/
theorem gl_subgrad_of_optimal {S K : Matrix n n ℝ} {alpha : ℝ} (hal : 0 ≤ alpha) (hS : S.IsSymm)
    (hmin : IsMin (PD n) (glObjective S alpha) K) (X : Matrix n n ℝ) :
    alpha * absSumOff K + frobInner (K⁻¹ - S) (X - K) ≤ alpha * absSumOff X := by
  have hK : K.PosDef := hmin.1
  -- first for symmetric X
  have key : ∀ X : Matrix n n ℝ, X.IsSymm →
      alpha * absSumOff K + frobInner (K⁻¹ - S) (X - K) ≤ alpha * absSumOff X := by
    intro X hXs
    set H := X - K with hH
    have hHs : H.IsSymm := by rw [hH, IsSymm, transpose_sub, hXs.eq, hK.isSymm'.eq]
    -- K + tH stays PD for small t
    have hcontM : Continuous fun t : ℝ => K + t • H := by fun_prop
    have hlim : Tendsto (fun t : ℝ => frobInner (K + t • H)⁻¹ H) (𝓝[>] 0) (𝓝 (frobInner K⁻¹ H)) := by
      have h0 : ContinuousAt (fun t : ℝ => (K + t • H)⁻¹) 0 := by
        have hdet : (K + (0 : ℝ) • H).det ≠ 0 := by simpa using hK.det_pos.ne'
        have h1 : ContinuousAt (Inv.inv : Matrix n n ℝ → Matrix n n ℝ) (K + (0 : ℝ) • H) := by
          apply continuousAt_matrix_inv
          rw [Ring.inverse_eq_inv']
          exact continuousAt_inv₀ hdet
        exact ContinuousAt.comp (f := fun t : ℝ => K + t • H) h1 hcontM.continuousAt
      have h2 : ContinuousAt (fun t : ℝ => frobInner (K + t • H)⁻¹ H) 0 := by
        unfold frobInner
        refine tendsto_finsetSum _ fun i _ => tendsto_finsetSum _ fun j _ => ?_
        refine Tendsto.mul_const _ ?_
        have h3 : ContinuousAt (fun M : Matrix n n ℝ => M i j) ((fun t : ℝ => (K + t • H)⁻¹) 0) :=
          (continuous_id.matrix_elem i j).continuousAt
        exact ContinuousAt.comp (f := fun t : ℝ => (K + t • H)⁻¹) h3 h0
      have h4 := h2.tendsto
      simp only [zero_smul, add_zero] at h4
      exact h4.mono_left nhdsWithin_le_nhds
    have hpd : ∀ᶠ t : ℝ in 𝓝[>] 0, (K + t • H).PosDef := posDef_add_smul hK hHs
    have hle1 : ∀ᶠ t : ℝ in 𝓝[>] (0 : ℝ), t ≤ 1 :=
      (eventually_le_nhds (show (0 : ℝ) < 1 by norm_num)).filter_mono nhdsWithin_le_nhds
    have hineq : ∀ᶠ t : ℝ in 𝓝[>] 0,
        frobInner (K + t • H)⁻¹ H ≤ frobInner S H + alpha * (absSumOff X - absSumOff K) := by
      filter_upwards [hpd, hle1, self_mem_nhdsWithin] with t ht ht1 ht0
      have ht0' : 0 < t := ht0
      have h1 := hmin.2 (K + t • H) ht
      have h2 := log_det_le hK ht
      have h3 := absSumOff_smul_add_le K X ht0'.le ht1
      unfold glObjective at h1
      rw [← frobInner_eq_trace_of_symm hS, ← frobInner_eq_trace_of_symm hS, frobInner_add_right,
        frobInner_smul_right] at h1
      have e : K - (K + t • H) = (-t) • H := by rw [neg_smul]; abel
      rw [e, frobInner_smul_right] at h2
      have h4 := mul_le_mul_of_nonneg_left h3 hal
      have h5 : t * frobInner (K + t • H)⁻¹ H ≤
          t * (frobInner S H + alpha * (absSumOff X - absSumOff K)) := by
        rw [hH] at h1 h2 ⊢
        nlinarith
      exact le_of_mul_le_mul_left h5 ht0'
    have hfin := le_of_tendsto hlim hineq
    rw [frobInner_sub_left]
    linarith
  have h1 := key (symmetrize X) (symmetrize_isSymm X)
  have h2 := absSumOff_symmetrize_le X
  have hGs : (K⁻¹ - S).IsSymm := by rw [IsSymm, transpose_sub, hK.inv.isSymm'.eq, hS.eq]
  have h3 : frobInner (K⁻¹ - S) (symmetrize X - K) = frobInner (K⁻¹ - S) (X - K) := by
    rw [frobInner_sub_right, frobInner_sub_right, frobInner_comm _ (symmetrize X),
      frobInner_symmetrize hGs, frobInner_comm X]
  rw [h3] at h1
  have := mul_le_mul_of_nonneg_left h2 hal
  linarith

end Verif.Lemmas
