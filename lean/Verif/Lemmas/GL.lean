import Verif.Model.GL
import Verif.Lemmas.Loop
import Verif.Lemmas.Soft
import Verif.Lemmas.LogdetProx
import Mathlib.Topology.Instances.Matrix
import Mathlib.Topology.Algebra.Order.LiminfLimsup

/-! Helper lemmas for the graphical lasso solver. -/

set_option linter.unusedSectionVars false

namespace Verif.Lemmas

open Verif.Model Verif.Spec Matrix

variable {n : Type*} [Fintype n] [DecidableEq n]

theorem froNorm_sq {m k : Type*} [Fintype m] [Fintype k] (A : Matrix m k ℝ) :
    froNorm A ^ 2 = frobSq A :=
  Real.sq_sqrt (frobSq_nonneg A)

theorem froNorm_nonneg {m k : Type*} [Fintype m] [Fintype k] (A : Matrix m k ℝ) : 0 ≤ froNorm A :=
  Real.sqrt_nonneg _

theorem symmetrize_isSymm (A : Matrix n n ℝ) : (symmetrize A).IsSymm := by
  unfold symmetrize IsSymm
  rw [transpose_smul, transpose_add, transpose_transpose, add_comm]

theorem symmetrize_of_isSymm {A : Matrix n n ℝ} (h : A.IsSymm) : symmetrize A = A := by
  unfold symmetrize
  rw [h.eq, ← two_smul ℝ A, smul_smul]; norm_num

theorem frobInner_transpose (A B : Matrix n n ℝ) : frobInner Aᵀ B = frobInner A Bᵀ := by
  unfold frobInner
  rw [Finset.sum_comm]
  rfl

theorem frobInner_symmetrize {X : Matrix n n ℝ} (hX : X.IsSymm) (A : Matrix n n ℝ) :
    frobInner (symmetrize A) X = frobInner A X := by
  unfold symmetrize
  rw [frobInner_smul_left, frobInner_add_left, frobInner_transpose, hX.eq]; ring

theorem isSymm_smul {A : Matrix n n ℝ} (c : ℝ) (h : A.IsSymm) : (c • A).IsSymm := by
  rw [IsSymm, transpose_smul, h.eq]

theorem glK_isEigh {eigh : Eigh n} (he : IsEighOracle eigh) {S : Matrix n n ℝ} (hS : S.IsSymm)
    (rho : ℝ) (Z U : Matrix n n ℝ) :
    IsEigh (S - rho • symmetrize (Z - U)) (eigh (S - rho • symmetrize (Z - U))).1
      (eigh (S - rho • symmetrize (Z - U))).2 := by
  refine he _ ?_
  have h := isSymm_smul rho (symmetrize_isSymm (Z - U))
  rw [IsSymm, transpose_sub, hS.eq, h.eq]

theorem glK_posDef {eigh : Eigh n} (he : IsEighOracle eigh) {S : Matrix n n ℝ} (hS : S.IsSymm)
    {rho : ℝ} (hrho : 0 < rho) (Z U : Matrix n n ℝ) : (glK eigh S rho Z U).PosDef :=
  proxLogdet_posDef (glK_isEigh he hS rho Z U).orth _ (by positivity)

/-- Stationarity of the x-update: `K⁻¹ = S - rho sym(Z-U) + rho K`. -/
theorem glK_inv {eigh : Eigh n} (he : IsEighOracle eigh) {S : Matrix n n ℝ} (hS : S.IsSymm)
    {rho : ℝ} (hrho : 0 < rho) (Z U : Matrix n n ℝ) :
    (glK eigh S rho Z U)⁻¹ = S - rho • symmetrize (Z - U) + rho • glK eigh S rho Z U := by
  have h := proxLogdet_stationary (glK_isEigh he hS rho Z U) (lam := 1 / rho) (by positivity)
  have e : (1 / rho)⁻¹ = rho := by rw [one_div, inv_inv]
  rw [e] at h
  have h2 : S - rho • symmetrize (Z - U) + rho • glK eigh S rho Z U - (glK eigh S rho Z U)⁻¹ = 0 := by
    rw [← h]
    unfold glK
    simp only
    abel
  exact (sub_eq_zero.mp h2).symm

/-- Conversely, the stationarity equation determines the x-update. -/
theorem glK_unique {eigh : Eigh n} (he : IsEighOracle eigh) {S : Matrix n n ℝ} (hS : S.IsSymm)
    {rho : ℝ} (hrho : 0 < rho) (Z U : Matrix n n ℝ) {X : Matrix n n ℝ} (hX : X.PosDef)
    (hst : S - rho • symmetrize (Z - U) - X⁻¹ + rho • X = 0) : glK eigh S rho Z U = X := by
  have hK := glK_posDef he hS hrho Z U
  have hst' : S - rho • symmetrize (Z - U) - (glK eigh S rho Z U)⁻¹ + rho • glK eigh S rho Z U = 0 := by
    rw [glK_inv he hS hrho]; abel
  have h1 := logdet_strong hX hK hst
  have h2 := logdet_strong hK hX hst'
  by_contra hne
  have h3 := frobSq_pos_of_ne hne
  have h4 := frobSq_nonneg (X - glK eigh S rho Z U)
  have : 0 < rho / 2 * frobSq (glK eigh S rho Z U - X) := by positivity
  have : 0 ≤ rho / 2 * frobSq (X - glK eigh S rho Z U) := by positivity
  linarith

/-- Subgradient inequality of the z-update. -/
theorem softOff_subgrad {lam : ℝ} (hl : 0 ≤ lam) (V X : Matrix n n ℝ) :
    lam * absSumOff (softThresholdingOffDiagonal V lam)
      + frobInner (V - softThresholdingOffDiagonal V lam) (X - softThresholdingOffDiagonal V lam)
      ≤ lam * absSumOff X := by
  unfold absSumOff frobInner
  simp only [Finset.mul_sum, ← Finset.sum_add_distrib]
  refine Finset.sum_le_sum fun i _ => Finset.sum_le_sum fun j _ => ?_
  rw [Matrix.sub_apply, Matrix.sub_apply, softOff_apply]
  by_cases h : i = j
  · simp [h, softScalar_zero_right]
  · simp only [h, if_false]
    exact softScalar_subgrad hl _ _

/-- A point satisfying the subgradient inequality is the z-update. -/
theorem softOff_eq_of_subgrad {lam : ℝ} (hl : 0 ≤ lam) {V Z : Matrix n n ℝ}
    (h : ∀ X, lam * absSumOff Z + frobInner (V - Z) (X - Z) ≤ lam * absSumOff X) :
    softThresholdingOffDiagonal V lam = Z := by
  by_contra hne
  have h1 := softOff_subgrad hl V Z
  have h2 := h (softThresholdingOffDiagonal V lam)
  have h3 := frobSq_pos_of_ne hne
  set P := softThresholdingOffDiagonal V lam
  rw [← frobInner_self] at h3
  simp only [frobInner_sub_left, frobInner_sub_right] at h1 h2 h3
  rw [frobInner_comm Z P] at *
  linarith

/-- Strict supporting-hyperplane inequality of `log det`. -/
theorem log_det_lt {X K : Matrix n n ℝ} (hX : X.PosDef) (hK : K.PosDef) (hne : X ≠ K) :
    Real.log X.det < Real.log K.det + frobInner K⁻¹ (X - K) := by
  -- apply the inequality at the midpoint: concavity gives strictness through the quadratic prox
  by_contra hc
  push Not at hc
  have heq := le_antisymm (log_det_le hX hK) hc
  -- the midpoint
  set M := (1 / 2 : ℝ) • (X + K) with hM
  have hMpd : M.PosDef := (hX.add hK).smul (by norm_num : (0 : ℝ) < 1 / 2)
  have h1 := log_det_le hX hMpd
  have h2 := log_det_le hK hMpd
  have h3 := log_det_le hMpd hK
  have e1 : X - M = (1 / 2 : ℝ) • (X - K) := by
    ext i j; simp only [hM, Matrix.sub_apply, Matrix.smul_apply, Matrix.add_apply, smul_eq_mul]; ring
  have e2 : K - M = (-(1 / 2) : ℝ) • (X - K) := by
    ext i j; simp only [hM, Matrix.sub_apply, Matrix.smul_apply, Matrix.add_apply, smul_eq_mul]; ring
  have e3 : M - K = (1 / 2 : ℝ) • (X - K) := by
    ext i j; simp only [hM, Matrix.sub_apply, Matrix.smul_apply, Matrix.add_apply, smul_eq_mul]; ring
  rw [e1, frobInner_smul_right] at h1
  rw [e2, frobInner_smul_right] at h2
  rw [e3, frobInner_smul_right] at h3
  -- ⟨M⁻¹, H⟩ = ⟨K⁻¹, H⟩ with H = X - K; but K⁻¹ - M⁻¹ = ½ K⁻¹ H M⁻¹ gives a positive trace
  have hinner : frobInner K⁻¹ (X - K) ≤ frobInner M⁻¹ (X - K) := by linarith
  have hKu : IsUnit K.det := isUnit_iff_ne_zero.mpr hK.det_pos.ne'
  have hMu : IsUnit M.det := isUnit_iff_ne_zero.mpr hMpd.det_pos.ne'
  set H := X - K with hH
  have hHs : H.IsSymm := by
    rw [hH, IsSymm, transpose_sub, hX.isSymm'.eq, hK.isSymm'.eq]
  have hdiff : K⁻¹ - M⁻¹ = (1 / 2 : ℝ) • (K⁻¹ * H * M⁻¹) := by
    have hMK : M = K + (1 / 2 : ℝ) • H := by rw [← e3]; abel
    have : K⁻¹ * (M - K) * M⁻¹ = K⁻¹ - M⁻¹ := by
      rw [Matrix.mul_sub, Matrix.sub_mul, Matrix.mul_assoc, Matrix.mul_nonsing_inv _ hMu,
        Matrix.mul_one, Matrix.nonsing_inv_mul _ hKu, Matrix.one_mul]
    rw [← this, e3, Matrix.mul_smul, Matrix.smul_mul]
  have hpos : 0 < frobInner (K⁻¹ * H * M⁻¹) H := by
    -- factor K⁻¹ = A A, M⁻¹ = B B with symmetric invertible A, B
    obtain ⟨Q, e, hQ⟩ := exists_isEigh hK.inv.isSymm'
    obtain ⟨R, f, hR⟩ := exists_isEigh hMpd.inv.isSymm'
    have hep := hQ.eigen_pos hK.inv
    have hfp := hR.eigen_pos hMpd.inv
    set A := recompose Q (fun i => Real.sqrt (e i)) with hA
    set B := recompose R (fun i => Real.sqrt (f i)) with hB
    have hAA : A * A = K⁻¹ := by
      rw [hA, recompose_mul hQ.orth']
      conv_rhs => rw [hQ.eq_recompose]
      congr 1; funext i; exact Real.mul_self_sqrt (hep i).le
    have hBB : B * B = M⁻¹ := by
      rw [hB, recompose_mul hR.orth']
      conv_rhs => rw [hR.eq_recompose]
      congr 1; funext i; exact Real.mul_self_sqrt (hfp i).le
    have hAs : Aᵀ = A := recompose_isSymm _ _
    have hBs : Bᵀ = B := recompose_isSymm _ _
    have hval : frobInner (K⁻¹ * H * M⁻¹) H = frobSq (A * H * B) := by
      rw [← frobInner_self, frobInner_eq_trace, frobInner_eq_trace, ← hAA, ← hBB]
      simp only [transpose_mul, hAs, hBs, hHs.eq]
      rw [show B * B * (H * (A * A)) * H = B * (B * H * A * (A * H)) by simp only [Matrix.mul_assoc],
        Matrix.trace_mul_comm]
      simp only [Matrix.mul_assoc]
    rw [hval]
    have hAu : IsUnit A.det := isUnit_iff_ne_zero.mpr
      (recompose_posDef hQ.orth fun i => Real.sqrt_pos.mpr (hep i)).det_pos.ne'
    have hBu : IsUnit B.det := isUnit_iff_ne_zero.mpr
      (recompose_posDef hR.orth fun i => Real.sqrt_pos.mpr (hfp i)).det_pos.ne'
    refine lt_of_le_of_ne (frobSq_nonneg _) fun h0 => ?_
    have hz : A * H * B = 0 := (frobSq_eq_zero_iff _).mp h0.symm
    have : H = 0 := by
      have h5 : A⁻¹ * (A * H * B) * B⁻¹ = H := by
        rw [Matrix.mul_assoc A H B, ← Matrix.mul_assoc, Matrix.nonsing_inv_mul _ hAu, Matrix.one_mul,
          Matrix.mul_assoc, Matrix.mul_nonsing_inv _ hBu, Matrix.mul_one]
      rw [← h5, hz]; simp
    exact hne (sub_eq_zero.mp (hH ▸ this))
  have h6 : frobInner (K⁻¹ - M⁻¹) H = 1 / 2 * frobInner (K⁻¹ * H * M⁻¹) H := by
    rw [hdiff, frobInner_smul_left]
  rw [frobInner_sub_left] at h6
  linarith

/-- One step of ADMM in terms of monotone pairs: exact change of the Lyapunov function. -/
theorem admm_identity {m k : Type*} [Fintype m] [Fintype k] {Z U Zp Up K Zs Us : Matrix m k ℝ}
    (hU : Up = U + (K - Zp)) :
    frobSq (Zp - Zs) + frobSq (Up - Us) + frobSq (Z - K)
      + 2 * frobInner (Z - Zp - (Up - Us)) (K - Zs) + 2 * frobInner (Up - Us) (Zp - Zs)
      = frobSq (Z - Zs) + frobSq (U - Us) := by
  have e1 : Up - Us = (U - Us) + (K - Zs) - (Zp - Zs) := by rw [hU]; abel
  have e2 : Z - Zp - (Up - Us) = (Z - Zs) - (U - Us) - (K - Zs) := by rw [hU]; abel
  have e3 : Z - K = (Z - Zs) - (K - Zs) := by abel
  rw [e2, e1, e3]
  generalize Z - Zs = a
  generalize U - Us = b
  generalize K - Zs = c
  generalize Zp - Zs = p
  simp only [← frobInner_self, frobInner_sub_left, frobInner_sub_right, frobInner_add_left,
    frobInner_add_right]
  have := frobInner_comm a b
  have := frobInner_comm a c
  have := frobInner_comm a p
  have := frobInner_comm b c
  have := frobInner_comm b p
  have := frobInner_comm c p
  linarith

/-- The Lyapunov function does not increase. -/
theorem admm_descent {m k : Type*} [Fintype m] [Fintype k] {Z U Zp Up K Zs Us : Matrix m k ℝ}
    (hU : Up = U + (K - Zp))
    (hf : 0 ≤ frobInner (Z - Zp - (Up - Us)) (K - Zs))
    (hg : 0 ≤ frobInner (Up - Us) (Zp - Zs)) :
    frobSq (Zp - Zs) + frobSq (Up - Us) + frobSq (Z - K) ≤ frobSq (Z - Zs) + frobSq (U - Us) := by
  have := admm_identity (Z := Z) (Zs := Zs) (Us := Us) hU
  linarith

/-- The stronger decrease available once `U` is a subgradient at `Z`. -/
theorem admm_descent_strong {m k : Type*} [Fintype m] [Fintype k] {Z U Zp Up K Zs Us : Matrix m k ℝ}
    (hU : Up = U + (K - Zp))
    (hf : 0 ≤ frobInner (Z - Zp - (Up - Us)) (K - Zs))
    (hg : 0 ≤ frobInner (Up - Us) (Zp - Zs))
    (hm : 0 ≤ frobInner (Zp - Z) (Up - U)) :
    frobSq (Zp - Zs) + frobSq (Up - Us) + frobSq (Zp - Z) + frobSq (K - Zp)
      ≤ frobSq (Z - Zs) + frobSq (U - Us) := by
  have h := admm_descent hU hf hg
  have e : Z - K = -((Zp - Z) + (K - Zp)) := by abel
  have e' : Up - U = K - Zp := by rw [hU]; abel
  rw [e, frobSq_neg, frobSq_add] at h
  rw [e'] at hm
  linarith

end Verif.Lemmas
