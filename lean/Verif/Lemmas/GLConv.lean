import Verif.Lemmas.GLOpt
import Mathlib.Topology.Order.MonotoneConvergence
import Mathlib.Topology.Algebra.Order.Field

/-! Convergence of the graphical lasso iteration at a constant penalty. -/

set_option linter.unusedSectionVars false

namespace Verif.Lemmas

open Verif.Model Verif.Spec Matrix Filter Topology

variable {n : Type*} [Fintype n] [DecidableEq n]

theorem frobSq_mul_le (A B : Matrix n n ℝ) : frobSq (A * B) ≤ frobSq A * frobSq B := by
  unfold frobSq
  calc ∑ i, ∑ j, (A * B) i j ^ 2
      ≤ ∑ i, ∑ j, (∑ k, A i k ^ 2) * (∑ k, B k j ^ 2) := by
        refine Finset.sum_le_sum fun i _ => Finset.sum_le_sum fun j _ => ?_
        rw [Matrix.mul_apply]
        exact Finset.sum_mul_sq_le_sq_mul_sq _ _ _
    _ = (∑ i, ∑ k, A i k ^ 2) * ∑ j, ∑ k, B k j ^ 2 := by
        rw [Finset.sum_mul_sum]
    _ = _ := by rw [Finset.sum_comm (f := fun j k => B k j ^ 2)]

theorem frobSq_sqrt {K R : Matrix n n ℝ} (hR : R.PosDef) (h : R * R = K) : frobSq R = trace K := by
  rw [← frobInner_self, frobInner_eq_trace, hR.isSymm'.eq, h]

/-- Quantitative strict monotonicity of the matrix inverse:
`‖K - X‖² ≤ tr K · tr X · ⟨X⁻¹ - K⁻¹, K - X⟩`. -/
theorem inv_strict_mono {K X : Matrix n n ℝ} (hK : K.PosDef) (hX : X.PosDef) :
    frobSq (K - X) ≤ trace K * trace X * frobInner (X⁻¹ - K⁻¹) (K - X) := by
  obtain ⟨R, hR, hRR⟩ := exists_sqrt hK
  obtain ⟨T, hT, hTT⟩ := exists_sqrt hX
  have hRu : IsUnit R.det := isUnit_iff_ne_zero.mpr hR.det_pos.ne'
  have hTu : IsUnit T.det := isUnit_iff_ne_zero.mpr hT.det_pos.ne'
  have hKu : IsUnit K.det := isUnit_iff_ne_zero.mpr hK.det_pos.ne'
  have hXu : IsUnit X.det := isUnit_iff_ne_zero.mpr hX.det_pos.ne'
  set H := K - X with hH
  have hHs : H.IsSymm := by rw [hH, IsSymm, transpose_sub, hX.isSymm'.eq, hK.isSymm'.eq]
  set W := R⁻¹ * H * T⁻¹ with hW
  have hHW : H = R * W * T := by
    rw [hW]
    calc H = (R * R⁻¹) * H * (T⁻¹ * T) := by
          rw [Matrix.mul_nonsing_inv _ hRu, Matrix.nonsing_inv_mul _ hTu, Matrix.one_mul,
            Matrix.mul_one]
      _ = _ := by simp only [Matrix.mul_assoc]
  have hle : frobSq H ≤ trace K * trace X * frobSq W := by
    rw [← frobSq_sqrt hR hRR, ← frobSq_sqrt hT hTT]
    conv_lhs => rw [hHW]
    calc frobSq (R * W * T) ≤ frobSq (R * W) * frobSq T := frobSq_mul_le _ _
      _ ≤ (frobSq R * frobSq W) * frobSq T :=
        mul_le_mul_of_nonneg_right (frobSq_mul_le _ _) (frobSq_nonneg _)
      _ = frobSq R * frobSq T * frobSq W := by ring
  have hval : frobInner (X⁻¹ - K⁻¹) H = frobSq W := by
    have hdiff : X⁻¹ - K⁻¹ = K⁻¹ * H * X⁻¹ := by
      rw [hH, Matrix.mul_sub, Matrix.sub_mul, Matrix.nonsing_inv_mul _ hKu, Matrix.one_mul,
        Matrix.mul_assoc, Matrix.mul_nonsing_inv _ hXu, Matrix.mul_one]
    have hKi : K⁻¹ = R⁻¹ * R⁻¹ := by rw [← hRR, Matrix.mul_inv_rev]
    have hXi : X⁻¹ = T⁻¹ * T⁻¹ := by rw [← hTT, Matrix.mul_inv_rev]
    have hRs : (R⁻¹)ᵀ = R⁻¹ := hR.inv.isSymm'
    have hTs : (T⁻¹)ᵀ = T⁻¹ := hT.inv.isSymm'
    rw [hdiff, ← frobInner_self, frobInner_eq_trace, frobInner_eq_trace, hW, hKi, hXi]
    simp only [transpose_mul, hRs, hTs, hHs.eq]
    rw [show T⁻¹ * T⁻¹ * (H * (R⁻¹ * R⁻¹)) * H = T⁻¹ * (T⁻¹ * H * R⁻¹ * (R⁻¹ * H)) by
      simp only [Matrix.mul_assoc], Matrix.trace_mul_comm]
    simp only [Matrix.mul_assoc]
  rw [hval]
  exact hle

theorem inv_mono {K X : Matrix n n ℝ} (hK : K.PosDef) (hX : X.PosDef) :
    0 ≤ frobInner (X⁻¹ - K⁻¹) (K - X) := by
  have h1 := log_det_le hK hX
  have h2 := log_det_le hX hK
  rw [← neg_sub K X, frobInner_neg_right] at h2
  rw [frobInner_sub_left]
  linarith

theorem trace_le_frob (K : Matrix n n ℝ) : trace K ≤ Fintype.card n + frobSq K := by
  have h : ∀ i, K i i ≤ 1 + ∑ j, K i j ^ 2 := by
    intro i
    have h1 : K i i ^ 2 ≤ ∑ j, K i j ^ 2 :=
      Finset.single_le_sum (f := fun j => K i j ^ 2) (fun j _ => sq_nonneg _) (Finset.mem_univ i)
    nlinarith [sq_nonneg (K i i - 1)]
  calc trace K = ∑ i, K i i := rfl
    _ ≤ ∑ i, (1 + ∑ j, K i j ^ 2) := Finset.sum_le_sum fun i _ => h i
    _ = Fintype.card n + frobSq K := by simp [Finset.sum_add_distrib, frobSq]

theorem updateRho_const {o : RhoOptions} (hi : o.tauInc = 1) (hd : o.tauDec = 1) (rho r s : ℝ) :
    updateRho o rho r s = rho := by
  unfold updateRho
  rw [hi, hd]
  split
  · ring
  · split <;> simp

/-- New sparse iterate. -/
noncomputable def nextZ (eigh : Eigh n) (a : GLArgs n) (s : GLState n) : Matrix n n ℝ :=
  glZ a.alpha s.rho (glK eigh a.empCov s.rho s.Z s.U) s.U

/-- New dual iterate. -/
noncomputable def nextU (eigh : Eigh n) (a : GLArgs n) (s : GLState n) : Matrix n n ℝ :=
  s.U + (glK eigh a.empCov s.rho s.Z s.U - nextZ eigh a s)

theorem glKhat_one (K Z : Matrix n n ℝ) : glKhat 1 K Z = K := by
  unfold glKhat; simp

theorem glBody_const (eigh : Eigh n) {a : GLArgs n} (hor : a.overRelax = 1)
    (hi : a.rhoOptions.tauInc = 1) (hd : a.rhoOptions.tauDec = 1) (it : ℕ) (s : GLState n)
    (hr : s.rho ≠ 0) :
    (glBody eigh a it s).1 = ⟨nextZ eigh a s, nextU eigh a s, nextZ eigh a s, s.rho⟩ := by
  unfold glBody
  simp only [hor, glKhat_one, updateRho_const hi hd, div_self hr, one_smul]
  split <;> rfl

theorem sym_next {eigh : Eigh n} (he : IsEighOracle eigh) {a : GLArgs n} (hS : a.empCov.IsSymm)
    {s : GLState n} (hr : 0 < s.rho) (hU : s.U.IsSymm) :
    (nextZ eigh a s).IsSymm ∧ (nextU eigh a s).IsSymm := by
  have hK : (glK eigh a.empCov s.rho s.Z s.U).IsSymm := (glK_posDef he hS hr s.Z s.U).isSymm'
  have hZ' : (nextZ eigh a s).IsSymm := by
    unfold nextZ glZ
    have hs : (glK eigh a.empCov s.rho s.Z s.U + s.U).IsSymm := by
      rw [IsSymm, transpose_add, hK.eq, hU.eq]
    ext i j
    rw [Matrix.transpose_apply, softOff_apply, softOff_apply, hs.apply i j]
    congr 1
    by_cases hij : i = j
    · simp [hij]
    · simp [hij, Ne.symm hij]
  refine ⟨hZ', ?_⟩
  unfold nextU
  rw [IsSymm, transpose_add, transpose_sub, hU.eq, hK.eq, hZ'.eq]

/-- A pair `(Z, U)` with `U` a subgradient of `(alpha/rho)‖·‖_{1,od}` at `Z`. -/
def SubPair (t : ℝ) (Z U : Matrix n n ℝ) : Prop :=
  ∀ X, t * absSumOff Z + frobInner U (X - Z) ≤ t * absSumOff X

theorem SubPair.mono {t : ℝ} {Z U Z' U' : Matrix n n ℝ} (h : SubPair t Z U) (h' : SubPair t Z' U') :
    0 ≤ frobInner (U - U') (Z - Z') := by
  have h1 := h Z'
  have h2 := h' Z
  rw [frobInner_sub_left]
  rw [← neg_sub Z Z', frobInner_neg_right] at h1
  linarith

theorem subPair_next {eigh : Eigh n} {a : GLArgs n} (hal : 0 ≤ a.alpha) {s : GLState n}
    (hr : 0 < s.rho) : SubPair (a.alpha / s.rho) (nextZ eigh a s) (nextU eigh a s) := by
  intro X
  have h := softOff_subgrad (lam := a.alpha / s.rho) (by positivity)
    (glK eigh a.empCov s.rho s.Z s.U + s.U) X
  have e : nextU eigh a s =
      glK eigh a.empCov s.rho s.Z s.U + s.U
        - softThresholdingOffDiagonal (glK eigh a.empCov s.rho s.Z s.U + s.U) (a.alpha / s.rho) := by
    unfold nextU nextZ glZ; abel
  rw [e]
  exact h

/-- Monotonicity of the log-det part along one step, in the form needed by `admm_identity`. -/
theorem gl_hf {eigh : Eigh n} (he : IsEighOracle eigh) {a : GLArgs n} (hS : a.empCov.IsSymm)
    {s : GLState n} (hr : 0 < s.rho) (hZ : s.Z.IsSymm) (hU : s.U.IsSymm) {X Us : Matrix n n ℝ}
    (hUs : Us = s.rho⁻¹ • (X⁻¹ - a.empCov)) :
    s.rho * frobInner (s.Z - nextZ eigh a s - (nextU eigh a s - Us))
      (glK eigh a.empCov s.rho s.Z s.U - X) =
    frobInner (X⁻¹ - (glK eigh a.empCov s.rho s.Z s.U)⁻¹) (glK eigh a.empCov s.rho s.Z s.U - X) := by
  have hsym : (s.Z - s.U).IsSymm := by rw [IsSymm, transpose_sub, hZ.eq, hU.eq]
  have hinv := glK_inv he hS hr s.Z s.U
  rw [symmetrize_of_isSymm hsym] at hinv
  rw [← frobInner_smul_left]
  congr 1
  rw [hinv, hUs, nextU]
  have e : s.rho • (s.Z - nextZ eigh a s -
      (s.U + (glK eigh a.empCov s.rho s.Z s.U - nextZ eigh a s) - s.rho⁻¹ • (X⁻¹ - a.empCov))) =
      s.rho • (s.Z - s.U) - s.rho • glK eigh a.empCov s.rho s.Z s.U
        + (s.rho * s.rho⁻¹) • (X⁻¹ - a.empCov) := by
    rw [mul_smul, ← smul_sub, ← smul_add]
    congr 1; abel
  rw [e, mul_inv_cancel₀ hr.ne', one_smul]
  abel

end Verif.Lemmas
