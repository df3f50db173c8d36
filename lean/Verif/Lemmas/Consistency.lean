import Verif.Lemmas.LogdetUpper
import Verif.Lemmas.LatentLocal
import Verif.Lemmas.Node
import Verif.Props.Certificate
import Mathlib.Topology.Instances.Matrix

/-! How far a fitted precision can be from a reference precision: perturbation of the inverse, and the distance controlled by
the loss. -/

namespace Verif.Lemmas

open Verif.Model Verif.Spec Verif.Props Matrix Filter Topology

set_option autoImplicit false
set_option linter.unusedSectionVars false

variable {n : Type*} [Fintype n] [DecidableEq n] {k : ℕ}

theorem froNorm_mul_le (A B : Matrix n n ℝ) : froNorm (A * B) ≤ froNorm A * froNorm B := by
  rw [froNorm_eq_sqrt, froNorm_eq_sqrt, froNorm_eq_sqrt, ← Real.sqrt_mul (frobSq_nonneg _)]
  exact Real.sqrt_le_sqrt (frobSq_mul_le A B)

theorem froNorm_le_trace {K : Matrix n n ℝ} (hK : K.PosDef) : froNorm K ≤ trace K := by
  rw [froNorm_eq_sqrt]
  exact Real.sqrt_le_iff.mpr ⟨hK.posSemidef.trace_nonneg, frobSq_le_trace hK⟩

theorem abs_entry_le_froNorm (A : Matrix n n ℝ) (i j : n) : |A i j| ≤ froNorm A := by
  rw [froNorm_eq_sqrt]
  exact Real.abs_le_sqrt (entry_le_frob A i j)

/-- If the fitted covariance `X⁻¹` is close to `Sg`, then the fitted precision is close to `Sg⁻¹`. -/
theorem inverse_close {X Sg : Matrix n n ℝ} (hX : X.PosDef) (hSg : Sg.PosDef) {d : ℝ}
    (hd : froNorm (X⁻¹ - Sg) ≤ d) (hs : trace Sg⁻¹ * d ≤ 1 / 2) :
    froNorm (X - Sg⁻¹) ≤ 2 * trace Sg⁻¹ ^ 2 * d ∧ trace X ≤ 2 * trace Sg⁻¹ := by
  have hXu : IsUnit X.det := isUnit_iff_ne_zero.mpr hX.det_pos.ne'
  have hSu : IsUnit Sg.det := isUnit_iff_ne_zero.mpr hSg.det_pos.ne'
  have hO : Sg⁻¹.PosDef := hSg.inv
  have e : X - Sg⁻¹ = X * ((Sg - X⁻¹) * Sg⁻¹) := by
    rw [← Matrix.mul_assoc, Matrix.mul_sub, Matrix.mul_nonsing_inv _ hXu, Matrix.sub_mul, Matrix.one_mul, Matrix.mul_assoc,
      Matrix.mul_nonsing_inv _ hSu, Matrix.mul_one]
  have htX := hX.posSemidef.trace_nonneg
  have htO := hO.posSemidef.trace_nonneg
  have hE : froNorm (Sg - X⁻¹) ≤ d := by rw [froNorm_sub_comm]; exact hd
  have hd0 : 0 ≤ d := (froNorm_nonneg _).trans hd
  have h1 : froNorm ((Sg - X⁻¹) * Sg⁻¹) ≤ d * trace Sg⁻¹ :=
    (froNorm_mul_le _ _).trans (mul_le_mul hE (froNorm_le_trace hO) (froNorm_nonneg _) hd0)
  have h2 : froNorm (X - Sg⁻¹) ≤ trace X * (d * trace Sg⁻¹) := by
    rw [e]
    exact (froNorm_mul_le _ _).trans (mul_le_mul (froNorm_le_trace hX) h1 (froNorm_nonneg _) htX)
  have h3 : trace X - trace Sg⁻¹ ≤ trace X * (d * trace Sg⁻¹) := by
    rw [← trace_sub, e]
    have h4 := (le_abs_self _).trans (abs_frobInner_le X ((Sg - X⁻¹) * Sg⁻¹))
    rw [frobInner_eq_trace_of_symm hX.isSymm'] at h4
    exact h4.trans (mul_le_mul (froNorm_le_trace hX) h1 (froNorm_nonneg _) htX)
  have h5 : trace X ≤ 2 * trace Sg⁻¹ := by
    have : trace X * (d * trace Sg⁻¹) ≤ trace X * (1 / 2) := mul_le_mul_of_nonneg_left (by linarith [mul_comm d (trace Sg⁻¹)]) htX
    linarith
  refine ⟨h2.trans ?_, h5⟩
  have : trace X * (d * trace Sg⁻¹) ≤ 2 * trace Sg⁻¹ * (d * trace Sg⁻¹) := mul_le_mul_of_nonneg_right h5 (by positivity)
  calc _ ≤ _ := this
    _ = _ := by ring

/-- A symmetric matrix close to a positive definite one is positive definite. -/
theorem posDef_of_close [Nonempty n] {S Sg : Matrix n n ℝ} (hS : S.IsSymm) (hSg : Sg.PosDef)
    (hs : trace Sg⁻¹ * froNorm (S - Sg) ≤ 1 / 2) : S.PosDef := by
  obtain ⟨Q, e, h⟩ := exists_isEigh hSg.isSymm'
  have hp := h.eigen_pos hSg
  have hQ1 : Q * Qᵀ = 1 := h.orth
  have hQ2 : Qᵀ * Q = 1 := h.orth'
  have hinv : Sg⁻¹ = recompose Q fun i => (e i)⁻¹ := by
    rw [h.eq_recompose]; exact recompose_inv hQ1 hQ2 fun i => (hp i).ne'
  have htr : trace Sg⁻¹ = ∑ i, (e i)⁻¹ := by rw [hinv, recompose_trace hQ2]
  have ht : 0 < trace Sg⁻¹ := by
    rw [htr]; exact Finset.sum_pos (fun i _ => inv_pos.mpr (hp i)) Finset.univ_nonempty
  have hle : ∀ i, (trace Sg⁻¹)⁻¹ ≤ e i := by
    intro i
    have h1 : (e i)⁻¹ ≤ trace Sg⁻¹ := by
      rw [htr]
      exact Finset.single_le_sum (f := fun i => (e i)⁻¹) (fun j _ => (inv_pos.mpr (hp j)).le) (Finset.mem_univ i)
    exact inv_le_of_inv_le₀ (hp i) h1
  set c := (trace Sg⁻¹)⁻¹ with hc
  have h1 : (Sg - c • (1 : Matrix n n ℝ)).PosSemidef := by
    have e1 : Sg - c • (1 : Matrix n n ℝ) = recompose Q fun i => e i - c := by
      conv_lhs => rw [← recompose_one hQ1, recompose_smul, h.eq_recompose, recompose_sub]
      simp only [mul_one]
    rw [e1]
    exact recompose_posSemidef Q fun i => sub_nonneg.mpr (hle i)
  have h2 := froNorm_smul_sub_posSemidef (A := Sg - S) (D := froNorm (S - Sg))
    (by rw [IsSymm, transpose_sub, hS.eq, hSg.isSymm'.eq]) (froNorm_sub_comm _ _).le
  have h3 : ((c - froNorm (S - Sg)) • (1 : Matrix n n ℝ)).PosDef := by
    refine PosDef.smul PosDef.one ?_
    have : froNorm (S - Sg) ≤ c / 2 := by
      rw [hc, le_div_iff₀ (by norm_num), ← one_div, le_div_iff₀ ht]; linarith
    have : 0 < c := inv_pos.mpr ht
    linarith
  have e2 : S = (c - froNorm (S - Sg)) • (1 : Matrix n n ℝ)
      + ((Sg - c • (1 : Matrix n n ℝ)) + (froNorm (S - Sg) • (1 : Matrix n n ℝ) - (Sg - S))) := by
    rw [sub_smul]; abel
  rw [e2]
  exact h3.add_posSemidef (h1.add h2)

theorem sub_one_sub_log_ge {x : ℝ} (hx : 0 < x) : (Real.sqrt x - 1) ^ 2 ≤ x - 1 - Real.log x := by
  have h1 : Real.log x = 2 * Real.log (Real.sqrt x) := by
    rw [Real.log_sqrt hx.le]; ring
  have h2 := Real.log_le_sub_one_of_pos (Real.sqrt_pos.mpr hx)
  nlinarith [Real.sq_sqrt hx.le]

/-- The loss gap of `X` against the reference `Y` bounds the distance. -/
theorem loss_gap_close {X Y : Matrix n n ℝ} (hX : X.PosDef) (hY : Y.PosDef) {d : ℝ}
    (hd : frobInner Y⁻¹ (X - Y) - (Real.log X.det - Real.log Y.det) ≤ d) :
    froNorm (X - Y) ≤ trace Y * (Real.sqrt d * (2 + Real.sqrt d)) := by
  obtain ⟨R, hR, hRR⟩ := exists_sqrt hY
  have hRu : IsUnit R.det := isUnit_iff_ne_zero.mpr hR.det_pos.ne'
  have hRs := hR.isSymm'
  have hRi : (R⁻¹)ᵀ = R⁻¹ := hR.inv.isSymm'.eq
  obtain ⟨M, hM⟩ : ∃ M, M = R⁻¹ * X * R⁻¹ := ⟨_, rfl⟩
  have hMp : M.PosDef := by
    have h1 : (R⁻¹ * X * (R⁻¹)ᴴ).PosDef := by
      refine hX.mul_mul_conjTranspose_same ?_
      have : Function.Injective fun v => v ᵥ* R⁻¹ :=
        Matrix.vecMul_injective_of_isUnit ((Matrix.isUnit_iff_isUnit_det _).mpr
          (isUnit_iff_ne_zero.mpr hR.inv.det_pos.ne'))
      exact this
    rwa [conjTranspose_eq_transpose_of_trivial, hRi, ← hM] at h1
  obtain ⟨Q, e, h⟩ := exists_isEigh hMp.isSymm'
  have hp := h.eigen_pos hMp
  have hQ1 : Q * Qᵀ = 1 := h.orth
  have hQ2 : Qᵀ * Q = 1 := h.orth'
  have hXM : X = R * M * R := by
    rw [hM, ← Matrix.mul_assoc, ← Matrix.mul_assoc, Matrix.mul_nonsing_inv _ hRu, Matrix.one_mul, Matrix.mul_assoc,
      Matrix.nonsing_inv_mul _ hRu, Matrix.mul_one]
  have hdet : X.det = Y.det * ∏ i, e i := by
    have h1 : M.det = ∏ i, e i := by rw [h.eq_recompose, recompose_det hQ1]
    rw [← h1, hXM, ← hRR, det_mul, det_mul, det_mul]; ring
  have hYi : Y⁻¹ = R⁻¹ * R⁻¹ := by rw [← hRR, Matrix.mul_inv_rev]
  have htr : frobInner Y⁻¹ (X - Y) = ∑ i, (e i - 1) := by
    rw [frobInner_eq_trace_of_symm hY.inv.isSymm', Matrix.mul_sub,
      Matrix.nonsing_inv_mul _ (isUnit_iff_ne_zero.mpr hY.det_pos.ne'), trace_sub, trace_one, hYi, Matrix.mul_assoc,
      Matrix.trace_mul_comm, ← hM, h.eq_recompose, recompose_trace hQ2, Finset.sum_sub_distrib, Finset.sum_const,
      Finset.card_univ, nsmul_eq_mul, mul_one]
  have hlog : Real.log X.det - Real.log Y.det = ∑ i, Real.log (e i) := by
    rw [hdet, Real.log_mul hY.det_pos.ne' (Finset.prod_pos fun i _ => hp i).ne',
      Real.log_prod (fun i _ => (hp i).ne')]
    ring
  have hgap : ∑ i, (Real.sqrt (e i) - 1) ^ 2 ≤ d := by
    refine le_trans ?_ hd
    rw [htr, hlog, ← Finset.sum_sub_distrib]
    exact Finset.sum_le_sum fun i _ => sub_one_sub_log_ge (hp i)
  have hd0 : 0 ≤ d := (Finset.sum_nonneg fun i _ => sq_nonneg _).trans hgap
  have hroot : ∀ i, Real.sqrt (e i) + 1 ≤ 2 + Real.sqrt d := by
    intro i
    have h1 : (Real.sqrt (e i) - 1) ^ 2 ≤ d :=
      (Finset.single_le_sum (f := fun i => (Real.sqrt (e i) - 1) ^ 2) (fun j _ => sq_nonneg _) (Finset.mem_univ i)).trans hgap
    have h2 := (le_abs_self _).trans (Real.abs_le_sqrt h1)
    linarith
  have hM1 : frobSq (M - 1) ≤ d * (2 + Real.sqrt d) ^ 2 := by
    have e1 : M - 1 = recompose Q fun i => e i - 1 := by
      conv_lhs => rw [← recompose_one hQ1, h.eq_recompose, recompose_sub]
    rw [e1, frobSq_recompose hQ2]
    calc ∑ i, (e i - 1) ^ 2 ≤ ∑ i, (Real.sqrt (e i) - 1) ^ 2 * (2 + Real.sqrt d) ^ 2 := by
          refine Finset.sum_le_sum fun i _ => ?_
          have e2 : (e i - 1) ^ 2 = (Real.sqrt (e i) - 1) ^ 2 * (Real.sqrt (e i) + 1) ^ 2 := by
            rw [← mul_pow]
            congr 1
            nlinarith [Real.sq_sqrt (hp i).le]
          rw [e2]
          exact mul_le_mul_of_nonneg_left (pow_le_pow_left₀ (by positivity) (hroot i) 2) (sq_nonneg _)
      _ = (∑ i, (Real.sqrt (e i) - 1) ^ 2) * (2 + Real.sqrt d) ^ 2 := by rw [Finset.sum_mul]
      _ ≤ _ := mul_le_mul_of_nonneg_right hgap (sq_nonneg _)
  have hM2 : froNorm (M - 1) ≤ Real.sqrt d * (2 + Real.sqrt d) := by
    rw [froNorm_eq_sqrt]
    refine Real.sqrt_le_iff.mpr ⟨by positivity, ?_⟩
    rw [mul_pow, Real.sq_sqrt hd0]
    exact hM1
  have e3 : X - Y = R * ((M - 1) * R) := by
    rw [Matrix.sub_mul, Matrix.one_mul, Matrix.mul_sub, hRR, ← Matrix.mul_assoc, ← hXM]
  have hRn : froNorm R * froNorm R = trace Y := by
    rw [← pow_two, froNorm_sq, frobSq_sqrt hR hRR]
  calc froNorm (X - Y) ≤ froNorm R * (froNorm (M - 1) * froNorm R) := by
        rw [e3]
        exact (froNorm_mul_le _ _).trans (mul_le_mul_of_nonneg_left (froNorm_mul_le _ _) (froNorm_nonneg _))
    _ = trace Y * froNorm (M - 1) := by rw [← hRn]; ring
    _ ≤ _ := mul_le_mul_of_nonneg_left hM2 hY.posSemidef.trace_nonneg

/-- A fit that minimises likelihood plus non-negative penalty `P` is close to the unpenalised estimates `S_t⁻¹` when `P` of
these is small against the weights: each time point separately. -/
theorem penalised_close {S : Fin k → Matrix n n ℝ} {w : Fin k → ℝ} (hS : ∀ t, (S t).PosDef) (hw : ∀ t, 0 < w t)
    {R : Fin k → Matrix n n ℝ} (hR : ∀ t, (R t).PosDef) {p q : ℝ} (hp : 0 ≤ p)
    (h : negLogLik S w R + p ≤ negLogLik S w (fun t => (S t)⁻¹) + q) (t : Fin k) :
    froNorm (R t - (S t)⁻¹) ≤ trace (S t)⁻¹ * (Real.sqrt (q / w t) * (2 + Real.sqrt (q / w t))) := by
  refine loss_gap_close (hR t) (hS t).inv ?_
  have hgap : ∀ s, 0 ≤ frobInner (S s)⁻¹⁻¹ (R s - (S s)⁻¹) - (Real.log (R s).det - Real.log ((S s)⁻¹).det) := fun s => by
    have := log_det_le (hR s) (hS s).inv
    linarith
  have e : ∀ s, w s * (trace (S s * R s) - Real.log (R s).det) - w s * (trace (S s * (S s)⁻¹) - Real.log ((S s)⁻¹).det)
      = w s * (frobInner (S s)⁻¹⁻¹ (R s - (S s)⁻¹) - (Real.log (R s).det - Real.log ((S s)⁻¹).det)) := fun s => by
    rw [nonsing_inv_nonsing_inv _ (isUnit_iff_ne_zero.mpr (hS s).det_pos.ne'), frobInner_sub_right,
      frobInner_eq_trace_of_symm (hS s).isSymm', frobInner_eq_trace_of_symm (hS s).isSymm']
    ring
  have hsum : ∑ s, w s * (frobInner (S s)⁻¹⁻¹ (R s - (S s)⁻¹) - (Real.log (R s).det - Real.log ((S s)⁻¹).det)) ≤ q := by
    rw [← Finset.sum_congr rfl fun s _ => e s, Finset.sum_sub_distrib]
    unfold negLogLik at h
    linarith
  rw [le_div_iff₀ (hw t), mul_comm]
  exact (Finset.single_le_sum (f := fun s => w s * (frobInner (S s)⁻¹⁻¹ (R s - (S s)⁻¹)
    - (Real.log (R s).det - Real.log ((S s)⁻¹).det))) (fun s _ => mul_nonneg (hw s).le (hgap s)) (Finset.mem_univ t)).trans hsum

end Verif.Lemmas
