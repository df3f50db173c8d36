import Verif.Model.Prox
import Verif.Lemmas.Frob
import Mathlib.Analysis.Matrix.PosDef
import Mathlib.Analysis.Matrix.Spectrum
import Mathlib.Analysis.SpecialFunctions.Log.Basic
import Mathlib.Analysis.SpecialFunctions.Sqrt
import Mathlib.LinearAlgebra.Matrix.PosDef
import Mathlib.Tactic.FieldSimp
import Mathlib.Algebra.Order.Star.Real

/-! Spectral helper lemmas: eigendecompositions, the log-det inequality, traces of PSD products. -/

set_option linter.unusedSectionVars false

namespace Verif.Lemmas

open Verif.Model Verif.Spec Matrix

variable {n : Type*} [Fintype n] [DecidableEq n]

theorem createFromDiagonal_eq (d : n → ℝ) : createFromDiagonal d = diagonal d := by
  ext i j
  by_cases h : i = j
  · subst h; simp [createFromDiagonal, fillDiagonal]
  · simp [createFromDiagonal, fillDiagonal, h]

theorem recompose_eq (Q : Matrix n n ℝ) (xi : n → ℝ) : recompose Q xi = Q * diagonal xi * Qᵀ := by
  rw [recompose, createFromDiagonal_eq]

theorem _root_.Matrix.PosDef.isSymm' {A : Matrix n n ℝ} (h : A.PosDef) : A.IsSymm := by
  have := h.isHermitian
  rwa [IsHermitian, conjTranspose_eq_transpose_of_trivial] at this

theorem _root_.Matrix.PosSemidef.isSymm' {A : Matrix n n ℝ} (h : A.PosSemidef) : A.IsSymm := by
  have := h.isHermitian
  rwa [IsHermitian, conjTranspose_eq_transpose_of_trivial] at this

theorem isHermitian_of_isSymm {A : Matrix n n ℝ} (h : A.IsSymm) : A.IsHermitian := by
  rwa [IsHermitian, conjTranspose_eq_transpose_of_trivial]

/-- Every real symmetric matrix has an eigendecomposition in the sense of `IsEigh`. -/
theorem exists_isEigh {A : Matrix n n ℝ} (hA : A.IsSymm) : ∃ Q e, IsEigh A Q e := by
  have h := isHermitian_of_isSymm hA
  refine ⟨(h.eigenvectorUnitary : Matrix n n ℝ), h.eigenvalues, ?_, ?_, ?_⟩
  · have := Unitary.coe_mul_star_self h.eigenvectorUnitary
    rwa [Unitary.coe_star, star_eq_conjTranspose, conjTranspose_eq_transpose_of_trivial] at this
  · have := Unitary.coe_star_mul_self h.eigenvectorUnitary
    rwa [star_eq_conjTranspose, conjTranspose_eq_transpose_of_trivial] at this
  · have := h.spectral_theorem
    rw [Unitary.conjStarAlgAut_apply, star_eq_conjTranspose,
      conjTranspose_eq_transpose_of_trivial] at this
    exact this

theorem recompose_isSymm (Q : Matrix n n ℝ) (xi : n → ℝ) : (recompose Q xi).IsSymm := by
  rw [recompose_eq, IsSymm, transpose_mul, transpose_mul, transpose_transpose, diagonal_transpose,
    Matrix.mul_assoc]

theorem _root_.Verif.Model.IsEigh.isSymm {A Q : Matrix n n ℝ} {e : n → ℝ} (h : IsEigh A Q e) : A.IsSymm := by
  rw [h.decomp, ← recompose_eq]; exact recompose_isSymm Q e

theorem _root_.Verif.Model.IsEigh.eq_recompose {A Q : Matrix n n ℝ} {e : n → ℝ} (h : IsEigh A Q e) :
    A = recompose Q e := by rw [recompose_eq]; exact h.decomp

theorem recompose_posSemidef (Q : Matrix n n ℝ) {xi : n → ℝ} (h : ∀ i, 0 ≤ xi i) :
    (recompose Q xi).PosSemidef := by
  rw [recompose_eq]
  have := (PosSemidef.diagonal (n := n) (R := ℝ) (d := xi) h).mul_mul_conjTranspose_same Q
  rwa [conjTranspose_eq_transpose_of_trivial] at this

theorem recompose_mul {Q : Matrix n n ℝ} (hQ : Qᵀ * Q = 1) (a b : n → ℝ) :
    recompose Q a * recompose Q b = recompose Q (fun i => a i * b i) := by
  rw [recompose_eq, recompose_eq, recompose_eq]
  calc Q * diagonal a * Qᵀ * (Q * diagonal b * Qᵀ)
      = Q * diagonal a * (Qᵀ * Q) * diagonal b * Qᵀ := by simp only [Matrix.mul_assoc]
    _ = Q * (diagonal a * diagonal b) * Qᵀ := by rw [hQ, Matrix.mul_one, Matrix.mul_assoc Q]
    _ = _ := by rw [diagonal_mul_diagonal]

theorem recompose_one {Q : Matrix n n ℝ} (hQ : Q * Qᵀ = 1) : recompose Q (fun _ => 1) = 1 := by
  rw [recompose_eq]
  have : diagonal (fun _ : n => (1 : ℝ)) = 1 := diagonal_one
  rw [this, Matrix.mul_one, hQ]

theorem recompose_add (Q : Matrix n n ℝ) (a b : n → ℝ) :
    recompose Q a + recompose Q b = recompose Q (fun i => a i + b i) := by
  rw [recompose_eq, recompose_eq, recompose_eq, ← Matrix.add_mul, ← Matrix.mul_add, diagonal_add]

theorem recompose_sub (Q : Matrix n n ℝ) (a b : n → ℝ) :
    recompose Q a - recompose Q b = recompose Q (fun i => a i - b i) := by
  rw [recompose_eq, recompose_eq, recompose_eq, ← Matrix.sub_mul, ← Matrix.mul_sub, diagonal_sub]

theorem recompose_smul (Q : Matrix n n ℝ) (c : ℝ) (a : n → ℝ) :
    c • recompose Q a = recompose Q (fun i => c * a i) := by
  rw [recompose_eq, recompose_eq]
  have : diagonal (fun i => c * a i) = c • diagonal a := by
    ext i j; by_cases h : i = j
    · subst h; simp
    · simp [h]
  rw [this, Matrix.mul_smul, Matrix.smul_mul]

theorem recompose_zero (Q : Matrix n n ℝ) : recompose Q (fun _ => 0) = 0 := by
  rw [recompose_eq]; simp

theorem recompose_inv {Q : Matrix n n ℝ} (h1 : Q * Qᵀ = 1) (h2 : Qᵀ * Q = 1) {a : n → ℝ}
    (ha : ∀ i, a i ≠ 0) : (recompose Q a)⁻¹ = recompose Q (fun i => (a i)⁻¹) := by
  apply Matrix.inv_eq_right_inv
  rw [recompose_mul h2, ← recompose_one h1]
  congr 1; funext i; exact mul_inv_cancel₀ (ha i)

theorem recompose_posDef {Q : Matrix n n ℝ} (h1 : Q * Qᵀ = 1) {xi : n → ℝ} (h : ∀ i, 0 < xi i) :
    (recompose Q xi).PosDef := by
  rw [recompose_eq]
  have hd : (diagonal xi).PosDef := PosDef.diagonal h
  have hinj : Function.Injective (Q.vecMul) := by
    intro v w hvw
    have := congrArg (fun u => u ᵥ* Qᵀ) hvw
    simpa [Matrix.vecMul_vecMul, h1] using this
  have := hd.mul_mul_conjTranspose_same (B := Q) hinj
  rwa [conjTranspose_eq_transpose_of_trivial] at this

theorem recompose_trace {Q : Matrix n n ℝ} (h2 : Qᵀ * Q = 1) (a : n → ℝ) :
    trace (recompose Q a) = ∑ i, a i := by
  rw [recompose_eq, Matrix.trace_mul_comm, ← Matrix.mul_assoc, h2, Matrix.one_mul, trace_diagonal]

theorem recompose_det {Q : Matrix n n ℝ} (h1 : Q * Qᵀ = 1) (a : n → ℝ) :
    (recompose Q a).det = ∏ i, a i := by
  rw [recompose_eq, det_mul, det_mul, det_diagonal]
  have : Q.det * Qᵀ.det = 1 := by rw [← det_mul, h1, det_one]
  calc Q.det * (∏ i, a i) * Qᵀ.det = (Q.det * Qᵀ.det) * ∏ i, a i := by ring
    _ = _ := by rw [this, one_mul]

/-- The diagonal of `Qᵀ A Q` recovers the eigenvalues; used to read off their signs. -/
theorem _root_.Verif.Model.IsEigh.eigen_eq {A Q : Matrix n n ℝ} {e : n → ℝ} (h : IsEigh A Q e) (i : n) :
    e i = (Qᵀ * A * Q) i i := by
  have : Qᵀ * A * Q = diagonal e := by
    rw [h.decomp]
    calc Qᵀ * (Q * diagonal e * Qᵀ) * Q = (Qᵀ * Q) * diagonal e * (Qᵀ * Q) := by
          simp only [Matrix.mul_assoc]
      _ = diagonal e := by rw [h.orth', Matrix.one_mul, Matrix.mul_one]
  rw [this, diagonal_apply_eq]

theorem _root_.Verif.Model.IsEigh.eigen_nonneg {A Q : Matrix n n ℝ} {e : n → ℝ} (h : IsEigh A Q e)
    (hA : A.PosSemidef) (i : n) : 0 ≤ e i := by
  rw [h.eigen_eq i]
  have := hA.conjTranspose_mul_mul_same Q
  rw [conjTranspose_eq_transpose_of_trivial] at this
  exact this.diag_nonneg

theorem _root_.Verif.Model.IsEigh.eigen_pos {A Q : Matrix n n ℝ} {e : n → ℝ} (h : IsEigh A Q e)
    (hA : A.PosDef) (i : n) : 0 < e i := by
  rw [h.eigen_eq i]
  have hinj : Function.Injective (Q.mulVec) := by
    intro v w hvw
    have := congrArg (fun u => Qᵀ *ᵥ u) hvw
    simpa [Matrix.mulVec_mulVec, h.orth'] using this
  have := hA.conjTranspose_mul_mul_same (B := Q) hinj
  rw [conjTranspose_eq_transpose_of_trivial] at this
  exact this.diag_pos

/-- `⟨A, B⟩ ≥ 0` for positive semidefinite `A`, `B`. -/
theorem frobInner_nonneg_of_posSemidef {A B : Matrix n n ℝ} (hA : A.PosSemidef)
    (hB : B.PosSemidef) : 0 ≤ frobInner A B := by
  obtain ⟨Q, e, h⟩ := exists_isEigh hA.isSymm'
  rw [frobInner_eq_trace_of_symm hA.isSymm', h.decomp, Matrix.mul_assoc,
    Matrix.mul_assoc, Matrix.trace_mul_comm]
  have hC := hB.conjTranspose_mul_mul_same Q
  rw [conjTranspose_eq_transpose_of_trivial] at hC
  rw [Matrix.mul_assoc, Matrix.trace]
  refine Finset.sum_nonneg fun i _ => ?_
  rw [diag_apply, diagonal_mul]
  exact mul_nonneg (h.eigen_nonneg hA i) hC.diag_nonneg

/-- `log det Y ≤ tr Y - n` for positive definite `Y`. -/
theorem log_det_le_trace {Y : Matrix n n ℝ} (hY : Y.PosDef) :
    Real.log Y.det ≤ trace Y - Fintype.card n := by
  obtain ⟨Q, e, h⟩ := exists_isEigh hY.isSymm'
  have hpos := h.eigen_pos hY
  rw [h.eq_recompose, recompose_det h.orth, recompose_trace h.orth',
    Real.log_prod (fun i _ => (hpos i).ne')]
  have : ∑ i, Real.log (e i) ≤ ∑ i, (e i - 1) :=
    Finset.sum_le_sum fun i _ => Real.log_le_sub_one_of_pos (hpos i)
  simpa [Finset.sum_sub_distrib] using this

/-- Supporting-hyperplane inequality of `log det` on positive definite matrices. -/
theorem log_det_le {X K : Matrix n n ℝ} (hX : X.PosDef) (hK : K.PosDef) :
    Real.log X.det ≤ Real.log K.det + frobInner K⁻¹ (X - K) := by
  obtain ⟨Q, e, h⟩ := exists_isEigh hK.isSymm'
  have hpos := h.eigen_pos hK
  set P := recompose Q (fun i => (Real.sqrt (e i))⁻¹) with hP
  have hsq : ∀ i, 0 < Real.sqrt (e i) := fun i => Real.sqrt_pos.mpr (hpos i)
  have hPpd : P.PosDef := recompose_posDef h.orth fun i => inv_pos.mpr (hsq i)
  have hPsym : Pᵀ = P := hPpd.isSymm'
  have hKinv : K⁻¹ = recompose Q (fun i => (e i)⁻¹) := by
    conv_lhs => rw [h.eq_recompose]
    exact recompose_inv h.orth h.orth' fun i => (hpos i).ne'
  have hPP : P * P = K⁻¹ := by
    rw [hP, recompose_mul h.orth', hKinv]
    congr 1; funext i
    rw [← mul_inv, Real.mul_self_sqrt (hpos i).le]
  have hinj : Function.Injective (P.vecMul) := by
    have hu : IsUnit P := (Matrix.isUnit_iff_isUnit_det P).mpr
      (isUnit_iff_ne_zero.mpr hPpd.det_pos.ne')
    exact Matrix.vecMul_injective_of_isUnit hu
  have hY : (P * X * P).PosDef := by
    have := hX.mul_mul_conjTranspose_same (B := P) hinj
    rwa [conjTranspose_eq_transpose_of_trivial, hPsym] at this
  have h1 := log_det_le_trace hY
  have hdetK : K.det * (P.det * P.det) = 1 := by
    rw [← det_mul, ← det_mul, hPP, Matrix.mul_nonsing_inv _ (isUnit_iff_ne_zero.mpr hK.det_pos.ne'),
      det_one]
  have hdet : Real.log (P * X * P).det = Real.log X.det - Real.log K.det := by
    have : (P * X * P).det = X.det / K.det := by
      rw [det_mul, det_mul, eq_div_iff hK.det_pos.ne']
      calc P.det * X.det * P.det * K.det = X.det * (K.det * (P.det * P.det)) := by ring
        _ = X.det := by rw [hdetK, mul_one]
    rw [this, Real.log_div hX.det_pos.ne' hK.det_pos.ne']
  have htr : trace (P * X * P) = trace (K⁻¹ * X) := by
    rw [Matrix.trace_mul_comm, ← Matrix.mul_assoc, hPP]
  have hKs : (K⁻¹).IsSymm := hK.inv.isSymm'
  rw [frobInner_eq_trace_of_symm hKs, Matrix.mul_sub, trace_sub,
    Matrix.nonsing_inv_mul _ (isUnit_iff_ne_zero.mpr hK.det_pos.ne'), trace_one]
  rw [hdet, htr] at h1
  linarith

end Verif.Lemmas
