import Verif.Lemmas.GLConv
import Verif.Lemmas.Seq

/-! Local quadratic upper bound of `-log det` and of the smooth time-varying loss. -/

namespace Verif.Lemmas

open Matrix Verif.Spec Verif.Model

set_option autoImplicit false
set_option linter.unusedSectionVars false

variable {n : Type*} [Fintype n] [DecidableEq n] {k T : ℕ}

theorem log_one_add_ge {m : ℝ} (h : -(1 / 2) ≤ m) : m - 2 * m ^ 2 ≤ Real.log (1 + m) := by
  have hpos : 0 < 1 + m := by linarith
  have h1 := Real.one_sub_inv_le_log_of_pos hpos
  refine le_trans ?_ h1
  rw [inv_eq_one_div, le_sub_iff_add_le, ← le_sub_iff_add_le', div_le_iff₀ hpos]
  nlinarith [sq_nonneg m, mul_nonneg (sq_nonneg m) (by linarith : 0 ≤ 1 + 2 * m)]

theorem frobSq_recompose {Q : Matrix n n ℝ} (h2 : Qᵀ * Q = 1) (a : n → ℝ) :
    frobSq (recompose Q a) = ∑ i, a i ^ 2 := by
  rw [← frobInner_self, frobInner_eq_trace, (recompose_isSymm Q a).eq, recompose_mul h2,
    recompose_trace h2]
  exact Finset.sum_congr rfl fun i _ => by ring

/-- Near a positive definite matrix, symmetric perturbations stay positive definite and `-log det` is
bounded by its linearisation plus a quadratic; the constants depend on the matrix only through a bound
`b` of `tr K⁻¹`. -/
theorem neg_logdet_upper_of {K : Matrix n n ℝ} (hK : K.PosDef) {b : ℝ} (hbK : trace K⁻¹ ≤ b)
    {E : Matrix n n ℝ} (hE : E.IsSymm) (hsmall : frobSq E ≤ 1 / (4 * (b ^ 2 + 1))) :
      (K + E).PosDef ∧
        -Real.log (K + E).det ≤ -Real.log K.det - frobInner K⁻¹ E + 2 * b ^ 2 * frobSq E := by
  obtain ⟨R, hR, hRR⟩ := exists_sqrt hK
  have hRu : IsUnit R.det := isUnit_iff_ne_zero.mpr hR.det_pos.ne'
  have hRs : Rᵀ = R := hR.isSymm'
  have hPs : (R⁻¹)ᵀ = R⁻¹ := hR.inv.isSymm'
  have hRb : frobSq R⁻¹ ≤ b := by
    rw [← frobInner_self, frobInner_eq_trace, hPs, ← Matrix.mul_inv_rev, hRR]
    exact hbK
  have hR0 : 0 ≤ frobSq R⁻¹ := frobSq_nonneg _
  have hb0 : 0 ≤ b := hR0.trans hRb
  set M := R⁻¹ * E * R⁻¹ with hM
  have hMs : M.IsSymm := by
    rw [IsSymm, hM, transpose_mul, transpose_mul, hPs, hE.eq, Matrix.mul_assoc]
  have hE0 := frobSq_nonneg E
  have hMb : frobSq M ≤ b ^ 2 * frobSq E := by
    have h1 := frobSq_mul_le (R⁻¹ * E) R⁻¹
    have h2 := frobSq_mul_le R⁻¹ E
    calc frobSq M ≤ frobSq (R⁻¹ * E) * frobSq R⁻¹ := h1
      _ ≤ (frobSq R⁻¹ * frobSq E) * frobSq R⁻¹ := mul_le_mul_of_nonneg_right h2 hR0
      _ ≤ (b * frobSq E) * b := mul_le_mul (mul_le_mul_of_nonneg_right hRb hE0) hRb hR0
          (mul_nonneg hb0 hE0)
      _ = _ := by ring
  have hM4 : frobSq M ≤ 1 / 4 := by
    refine hMb.trans ?_
    have : b ^ 2 * frobSq E ≤ (b ^ 2 + 1) * (1 / (4 * (b ^ 2 + 1))) := by
      refine mul_le_mul (by linarith) hsmall hE0 (by positivity)
    refine this.trans (le_of_eq ?_)
    field_simp
  obtain ⟨Q, w, h⟩ := exists_isEigh hMs
  have hMq : frobSq M = ∑ i, w i ^ 2 := by
    conv_lhs => rw [h.eq_recompose]
    exact frobSq_recompose h.orth' w
  have hw : ∀ i, -(1 / 2) ≤ w i := by
    intro i
    have h1 : w i ^ 2 ≤ 1 / 4 := by
      refine le_trans ?_ hM4
      rw [hMq]
      exact Finset.single_le_sum (f := fun i => w i ^ 2) (fun i _ => sq_nonneg _) (Finset.mem_univ i)
    nlinarith
  have he : recompose Q (fun i => 1 + w i) = 1 + M := by
    rw [← recompose_add Q (fun _ => 1), recompose_one h.orth, ← h.eq_recompose]
  have hsum : K + E = R * (1 + M) * R := by
    rw [Matrix.mul_add, Matrix.add_mul, Matrix.mul_one, hRR]
    congr 1
    calc E = (R * R⁻¹) * E * (R⁻¹ * R) := by
          rw [Matrix.mul_nonsing_inv _ hRu, Matrix.nonsing_inv_mul _ hRu, Matrix.one_mul,
            Matrix.mul_one]
      _ = _ := by rw [hM]; simp only [Matrix.mul_assoc]
  have hpd1 : (1 + M).PosDef := by
    rw [← he]
    exact recompose_posDef h.orth fun i => by linarith [hw i]
  have hpd : (K + E).PosDef := by
    rw [hsum]
    have hinj : Function.Injective (R.vecMul) :=
      Matrix.vecMul_injective_of_isUnit ((Matrix.isUnit_iff_isUnit_det R).mpr hRu)
    have := hpd1.mul_mul_conjTranspose_same (B := R) hinj
    rwa [conjTranspose_eq_transpose_of_trivial, hRs] at this
  refine ⟨hpd, ?_⟩
  have hdet : (K + E).det = K.det * (1 + M).det := by
    rw [hsum, det_mul, det_mul, ← hRR, det_mul]; ring
  have hlog : Real.log (K + E).det = Real.log K.det + ∑ i, Real.log (1 + w i) := by
    rw [hdet, Real.log_mul hK.det_pos.ne' hpd1.det_pos.ne', ← he, recompose_det h.orth,
      Real.log_prod fun i _ => by linarith [hw i]]
  have htr : frobInner K⁻¹ E = ∑ i, w i := by
    have h1 : K⁻¹ = R⁻¹ * R⁻¹ := by rw [← hRR, Matrix.mul_inv_rev]
    rw [frobInner_eq_trace_of_symm hK.inv.isSymm', h1, Matrix.mul_assoc, Matrix.trace_mul_comm,
      ← hM, h.eq_recompose, recompose_trace h.orth']
  have hsumlog : ∑ i, (w i - 2 * w i ^ 2) ≤ ∑ i, Real.log (1 + w i) :=
    Finset.sum_le_sum fun i _ => log_one_add_ge (hw i)
  rw [Finset.sum_sub_distrib, ← Finset.mul_sum, ← hMq] at hsumlog
  rw [hlog, htr]
  linarith

/-- Local quadratic upper bound of the smooth time-varying loss; radius and constant depend on the
sequence only through a bound `B` of all `tr K_t⁻¹`. -/
theorem smoothTime_upper_of (S : Fin (T + 1) → Matrix n n ℝ) {nS : Fin (T + 1) → ℝ}
    (hn : ∀ t, 0 ≤ nS t) {e b : ℝ} (he : 0 ≤ e) (hb : 0 ≤ b)
    {K : Fin (T + 1) → Matrix n n ℝ} (hK : ∀ t, (K t).PosDef) {B : ℝ}
    (hB : ∀ t, trace (K t)⁻¹ ≤ B) :
    ∀ E : Fin (T + 1) → Matrix n n ℝ, (∀ t, (E t).IsSymm) → seqSq E ≤ 1 / (4 * (B ^ 2 + 1)) →
      (∀ t, ((K + E) t).PosDef) ∧
      smoothTime S nS e b (K + E) ≤ smoothTime S nS e b K
        + (∑ t, nS t * (frobInner (S t) (E t) - frobInner (K t)⁻¹ (E t)) + e * seqInner K E
          + 2 * b * ∑ p : Fin T, frobInner (K p.succ - K p.castSucc) (E p.succ - E p.castSucc))
        + ((∑ t, nS t * (2 * B ^ 2)) + e / 2 + 4 * b) * seqSq E := by
  intro E hE hsmall
  have hEt : ∀ t, frobSq (E t) ≤ seqSq E := fun t =>
    Finset.single_le_sum (f := fun t => frobSq (E t)) (fun t _ => frobSq_nonneg _)
      (Finset.mem_univ t)
  have hup' := fun t => neg_logdet_upper_of (hK t) (hB t) (hE t) ((hEt t).trans hsmall)
  refine ⟨fun t => (hup' t).1, ?_⟩
  unfold smoothTime
  have h1 : ∑ t, nS t * (frobInner (S t) ((K + E) t) - Real.log ((K + E) t).det) ≤
      ∑ t, nS t * (frobInner (S t) (K t) - Real.log (K t).det)
      + ∑ t, nS t * (frobInner (S t) (E t) - frobInner (K t)⁻¹ (E t))
      + (∑ t, nS t * (2 * B ^ 2)) * seqSq E := by
    rw [Finset.sum_mul, ← Finset.sum_add_distrib, ← Finset.sum_add_distrib]
    refine Finset.sum_le_sum fun t _ => ?_
    have h2 := mul_le_mul_of_nonneg_left (hup' t).2 (hn t)
    have h3 := mul_le_mul_of_nonneg_left (hEt t) (mul_nonneg (hn t) (by positivity : (0 : ℝ) ≤ 2 * B ^ 2))
    rw [Pi.add_apply, frobInner_add_right]
    linarith
  have h2 : seqSq (K + E) = seqSq K + 2 * seqInner K E + seqSq E := by
    rw [← seqInner_self, ← seqInner_self, ← seqInner_self]
    simp only [seqInner_add_left, seqInner_add_right]
    rw [seqInner_comm E K]; ring
  have h3 : ∑ p : Fin T, frobSq ((K + E) p.succ - (K + E) p.castSucc) ≤
      ∑ p : Fin T, frobSq (K p.succ - K p.castSucc)
      + 2 * ∑ p : Fin T, frobInner (K p.succ - K p.castSucc) (E p.succ - E p.castSucc)
      + 4 * seqSq E := by
    have h4 : ∑ p : Fin T, frobSq (E p.succ - E p.castSucc) ≤ 4 * seqSq E := by
      have h5 : ∑ p : Fin T, frobSq (E p.succ - E p.castSucc) ≤
          2 * ∑ p : Fin T, frobSq (E p.succ) + 2 * ∑ p : Fin T, frobSq (E p.castSucc) := by
        rw [Finset.mul_sum, Finset.mul_sum, ← Finset.sum_add_distrib]
        refine Finset.sum_le_sum fun p _ => ?_
        have := frobSq_nonneg (E p.succ + E p.castSucc)
        rw [frobSq_add] at this
        rw [frobSq_sub]
        linarith
      have h6 : ∑ p : Fin T, frobSq (E p.succ) ≤ seqSq E := by
        unfold seqSq
        rw [Fin.sum_univ_succ]
        linarith [frobSq_nonneg (E 0)]
      have h7 : ∑ p : Fin T, frobSq (E p.castSucc) ≤ seqSq E := by
        unfold seqSq
        rw [Fin.sum_univ_castSucc]
        linarith [frobSq_nonneg (E (Fin.last T))]
      linarith
    have h8 : ∑ p : Fin T, frobSq ((K + E) p.succ - (K + E) p.castSucc) =
        ∑ p : Fin T, frobSq (K p.succ - K p.castSucc)
      + 2 * ∑ p : Fin T, frobInner (K p.succ - K p.castSucc) (E p.succ - E p.castSucc)
      + ∑ p : Fin T, frobSq (E p.succ - E p.castSucc) := by
      rw [Finset.mul_sum, ← Finset.sum_add_distrib, ← Finset.sum_add_distrib]
      refine Finset.sum_congr rfl fun p _ => ?_
      have : (K + E) p.succ - (K + E) p.castSucc =
          (K p.succ - K p.castSucc) + (E p.succ - E p.castSucc) := by
        simp only [Pi.add_apply]; abel
      rw [this, frobSq_add]
    rw [h8]; linarith
  have h4 := mul_le_mul_of_nonneg_left h3 hb
  rw [h2]
  linarith

end Verif.Lemmas
