import Verif.Lemmas.GL

/-! First-order characterisations of the proximal maps (subgradient form). -/

namespace Verif.Lemmas

open Verif.Model Verif.Spec Matrix

set_option linter.unusedSectionVars false

variable {n : Type*} [Fintype n] [DecidableEq n]

theorem trace_eq_frobInner (Y : Matrix n n ℝ) : trace Y = frobInner 1 Y := by
  rw [frobInner_eq_trace]; simp

/-- Variational inequality of `prox_trace_indicator`. -/
theorem proxTrace_vi {A Q : Matrix n n ℝ} {e : n → ℝ} (h : IsEigh A Q e) (lam : ℝ)
    {X : Matrix n n ℝ} (hX : X.PosSemidef) :
    lam * trace (proxTraceIndicator Q e lam) +
      frobInner (A - proxTraceIndicator Q e lam) (X - proxTraceIndicator Q e lam) ≤ lam * trace X := by
  set P := proxTraceIndicator Q e lam with hP
  have hPpsd : P.PosSemidef := recompose_posSemidef Q fun i => le_max_right _ _
  set N := recompose Q (fun i => max (e i - lam) 0 - (e i - lam)) with hN
  have hNpsd : N.PosSemidef :=
    recompose_posSemidef Q fun i => sub_nonneg.mpr (le_max_left _ _)
  have hNeq : N = P - A + lam • (1 : Matrix n n ℝ) := by
    conv_rhs => rw [h.eq_recompose]
    rw [← recompose_one h.orth, hP, proxTraceIndicator, recompose_smul, recompose_sub, recompose_add,
      hN]
    congr 1; funext i; ring
  have hort : frobInner N P = 0 := by
    rw [frobInner_eq_trace_of_symm hNpsd.isSymm', hN, hP, proxTraceIndicator, recompose_mul h.orth']
    rw [recompose_trace h.orth']
    refine Finset.sum_eq_zero fun i _ => ?_
    rcases le_total (e i - lam) 0 with h0 | h0
    · rw [max_eq_right h0]; ring
    · rw [max_eq_left h0]; ring
  have hNX := frobInner_nonneg_of_posSemidef hNpsd hX
  have hAP : A - P = lam • (1 : Matrix n n ℝ) - N := by rw [hNeq]; abel
  rw [hAP, trace_eq_frobInner, trace_eq_frobInner, frobInner_sub_left, frobInner_sub_right,
    frobInner_smul_left, frobInner_smul_left, frobInner_sub_right N, hort]
  linarith

/-- Subgradient inequality of the entrywise soft-thresholding. -/
theorem softMat_subgrad {m k : Type*} [Fintype m] [Fintype k] {lam : ℝ} (hl : 0 ≤ lam)
    (V X : Matrix m k ℝ) :
    lam * absSumMat (softThresholdingMat V lam)
      + frobInner (V - softThresholdingMat V lam) (X - softThresholdingMat V lam)
      ≤ lam * absSumMat X := by
  unfold absSumMat frobInner
  simp only [Finset.mul_sum]
  rw [← Finset.sum_add_distrib]
  refine Finset.sum_le_sum fun i _ => ?_
  rw [← Finset.sum_add_distrib]
  refine Finset.sum_le_sum fun j _ => ?_
  have := softScalar_subgrad hl (V i j) (X i j)
  simp only [Matrix.sub_apply, softThresholdingMat]
  exact this

end Verif.Lemmas
