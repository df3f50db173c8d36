import Mathlib.LinearAlgebra.Matrix.PosDef
import Mathlib.Analysis.Matrix.PosDef
import Mathlib.Algebra.Order.Star.Real

/-! Gaussian vectors with a banded precision: the regression on the whole past uses a window only. -/

namespace Verif.Lemmas

open Matrix

set_option autoImplicit false
set_option linter.unusedSectionVars false

/-- A sum over all indices of a function that lives on two disjoint families. -/
theorem sum_two_families {ι k w : Type*} [Fintype ι] [Fintype k] [Fintype w] {ec : k → ι} {ew : w → ι}
    (hec : Function.Injective ec) (hew : Function.Injective ew) (hcw : ∀ x y, ew x ≠ ec y) {f : ι → ℝ}
    (hf : ∀ v, (∀ x, v ≠ ew x) → (∀ y, v ≠ ec y) → f v = 0) : ∑ v, f v = ∑ x, f (ew x) + ∑ y, f (ec y) := by
  classical
  have hinj : Function.Injective (Sum.elim ew ec) := by
    rintro (x | x) (y | y) h
    · exact congrArg _ (hew h)
    · exact absurd h (hcw x y)
    · exact absurd h.symm (hcw y x)
    · exact congrArg _ (hec h)
  have h1 : ∑ v, f v = ∑ v ∈ Finset.univ.image (Sum.elim ew ec), f v := by
    refine (Finset.sum_subset (Finset.subset_univ _) fun v _ hv => ?_).symm
    refine hf v (fun x h => hv ?_) fun y h => hv ?_
    · exact Finset.mem_image.mpr ⟨.inl x, Finset.mem_univ _, h.symm⟩
    · exact Finset.mem_image.mpr ⟨.inr y, Finset.mem_univ _, h.symm⟩
  rw [h1, Finset.sum_image fun _ _ _ _ h => hinj h, Fintype.sum_sum_type]
  rfl

variable {ι k w f : Type*} [Fintype ι] [DecidableEq ι] [Fintype k] [DecidableEq k] [Fintype w] [DecidableEq w] [Fintype f]
  [DecidableEq f]

/-- With precision `P`, let the indices be split in current ones, a window, future ones, and old ones; let the old ones
have no entry of `P` with current or future ones. Then the regression of the current on the window is the regression
on window and old ones together, and the inverse of the residual covariance is the Schur complement of the future. -/
theorem markov_regression {P : Matrix ι ι ℝ} (hP : P.PosDef) {ec : k → ι} {ew : w → ι} {ef : f → ι}
    (hec : Function.Injective ec) (hew : Function.Injective ew) (hef : Function.Injective ef)
    (hwc : ∀ x y, ew x ≠ ec y) (hcf : ∀ x y, ec x ≠ ef y) (hwf : ∀ x y, ew x ≠ ef y)
    (hold : ∀ v, (∀ x, v ≠ ew x) → (∀ x, v ≠ ec x) → (∀ x, v ≠ ef x) → (∀ a, P (ec a) v = 0) ∧ ∀ g, P (ef g) v = 0) :
    (∀ u, (∀ x, u ≠ ec x) → (∀ x, u ≠ ef x) → ∀ a, P⁻¹ (ec a) u =
      ∑ x, (P⁻¹.submatrix ec ew * (P⁻¹.submatrix ew ew)⁻¹) a x * P⁻¹ (ew x) u) ∧
    (P.submatrix ec ec - P.submatrix ec ef * (P.submatrix ef ef)⁻¹ * P.submatrix ef ec) *
      (P⁻¹.submatrix ec ec - P⁻¹.submatrix ec ew * (P⁻¹.submatrix ew ew)⁻¹ * P⁻¹.submatrix ew ec) = 1 ∧
    P.submatrix ec ew - P.submatrix ec ef * (P.submatrix ef ef)⁻¹ * P.submatrix ef ew =
      -((P.submatrix ec ec - P.submatrix ec ef * (P.submatrix ef ef)⁻¹ * P.submatrix ef ec) *
        (P⁻¹.submatrix ec ew * (P⁻¹.submatrix ew ew)⁻¹)) := by
  set C := P⁻¹ with hC
  have hPC : P * C = 1 := mul_nonsing_inv _ (isUnit_iff_ne_zero.mpr hP.det_pos.ne')
  set F := P.submatrix ef ef with hF
  have hFu : F⁻¹ * F = 1 := nonsing_inv_mul _ (isUnit_iff_ne_zero.mpr (hP.submatrix hef).det_pos.ne')
  set R := P.submatrix ec ef * F⁻¹ with hR
  set q : Matrix k ι ℝ := P.submatrix ec id - R * P.submatrix ef id with hq
  have hqf : ∀ a g, q a (ef g) = 0 := by
    intro a g
    have h1 : (q.submatrix id ef) = 0 := by
      have e : q.submatrix id ef = P.submatrix ec ef - R * F := by
        ext a g; simp [hq, hF, Matrix.mul_apply]
      rw [e, hR, Matrix.mul_assoc, hFu, Matrix.mul_one, sub_self]
    exact congrFun (congrFun h1 a) g
  have hqo : ∀ a v, (∀ x, v ≠ ew x) → (∀ x, v ≠ ec x) → q a v = 0 := by
    intro a v h1 h2
    by_cases h3 : ∀ x, v ≠ ef x
    · obtain ⟨h4, h5⟩ := hold v h1 h2 h3
      simp [hq, Matrix.mul_apply, h4, h5]
    · push Not at h3
      obtain ⟨g, rfl⟩ := h3
      exact hqf a g
  have hqC : ∀ a u, (∀ x, u ≠ ef x) → (q * C) a u = (1 : Matrix ι ι ℝ) (ec a) u := by
    intro a u hu
    have e1 : P.submatrix ec id * C = (1 : Matrix ι ι ℝ).submatrix ec id := by
      rw [← hPC]; ext a u; simp [Matrix.mul_apply]
    have e2 : P.submatrix ef id * C = (1 : Matrix ι ι ℝ).submatrix ef id := by
      rw [← hPC]; ext a u; simp [Matrix.mul_apply]
    rw [hq, Matrix.sub_mul, Matrix.mul_assoc, e1, e2, Matrix.sub_apply, Matrix.mul_apply]
    have : ∀ g, (1 : Matrix ι ι ℝ).submatrix ef id g u = 0 := fun g => one_apply_ne (hu g).symm
    rw [Finset.sum_eq_zero fun g _ => by rw [this g, mul_zero], sub_zero]
    rfl
  have hsplit : ∀ a u, (q * C) a u = ∑ x, q a (ew x) * C (ew x) u + ∑ y, q a (ec y) * C (ec y) u := by
    intro a u
    rw [Matrix.mul_apply]
    exact sum_two_families hec hew hwc (f := fun v => q a v * C v u) fun v h1 h2 => by rw [hqo a v h1 h2, zero_mul]
  set qc := q.submatrix id ec with hqc
  set qw := q.submatrix id ew with hqw
  set W := C.submatrix ew ew with hW
  have hWu : W * W⁻¹ = 1 := mul_nonsing_inv _ (isUnit_iff_ne_zero.mpr (hP.inv.submatrix hew).det_pos.ne')
  have h1 : qw * W + qc * C.submatrix ec ew = 0 := by
    ext a x
    have := hsplit a (ew x)
    rw [hqC a _ (hwf x), one_apply_ne (hwc x a).symm] at this
    simpa [Matrix.mul_apply, hqw, hqc, hW] using this.symm
  have h2 : qw * C.submatrix ew ec + qc * C.submatrix ec ec = 1 := by
    ext a y
    have := hsplit a (ec y)
    rw [hqC a _ (hcf y)] at this
    have e : (1 : Matrix ι ι ℝ) (ec a) (ec y) = (1 : Matrix k k ℝ) a y := by
      simp only [one_apply, hec.eq_iff]
    rw [e] at this
    simpa [Matrix.mul_apply, hqw, hqc] using this.symm
  have h3 : qw = -(qc * (C.submatrix ec ew * W⁻¹)) := by
    have := congrArg (· * W⁻¹) h1
    simp only [Matrix.add_mul, Matrix.mul_assoc, hWu, Matrix.mul_one, Matrix.zero_mul] at this
    rw [eq_neg_iff_add_eq_zero]
    exact this
  have hqcS : qc = P.submatrix ec ec - P.submatrix ec ef * F⁻¹ * P.submatrix ef ec := by
    ext a b; simp [hqc, hq, hR, Matrix.mul_apply]
  have h4 : qc * (C.submatrix ec ec - C.submatrix ec ew * W⁻¹ * C.submatrix ew ec) = 1 := by
    rw [h3, Matrix.neg_mul, Matrix.mul_assoc] at h2
    rw [Matrix.mul_sub, ← h2]
    abel
  refine ⟨fun u hu1 hu2 a => ?_, by rw [← hqcS]; exact h4, ?_⟩
  swap
  · rw [← hqcS, ← h3]
    ext a b; simp [hqw, hq, hR, Matrix.mul_apply]
  have h5 : ∀ a, (qc *ᵥ (fun y => C (ec y) u - ∑ x, (C.submatrix ec ew * W⁻¹) y x * C (ew x) u)) a = 0 := by
    intro a
    have := hsplit a u
    rw [hqC a _ hu2, one_apply_ne (hu1 a).symm] at this
    have e3 : ∀ x, q a (ew x) = -∑ y, qc a y * (C.submatrix ec ew * W⁻¹) y x := by
      intro x
      have := congrFun (congrFun h3 a) x
      rw [Matrix.neg_apply, Matrix.mul_apply] at this
      exact this
    simp only [e3] at this
    have e4 : ∑ x, -(∑ y, qc a y * (C.submatrix ec ew * W⁻¹) y x) * C (ew x) u =
        -∑ y, qc a y * ∑ x, (C.submatrix ec ew * W⁻¹) y x * C (ew x) u := by
      simp only [neg_mul, Finset.sum_neg_distrib, Finset.sum_mul, Finset.mul_sum]
      rw [Finset.sum_comm]
      simp only [mul_assoc]
    rw [e4] at this
    rw [Matrix.mulVec, dotProduct]
    simp only [mul_sub, Finset.sum_sub_distrib]
    have e5 : ∑ y, q a (ec y) * C (ec y) u = ∑ y, qc a y * C (ec y) u := rfl
    rw [e5] at this
    linarith
  have h6 : (C.submatrix ec ec - C.submatrix ec ew * W⁻¹ * C.submatrix ew ec) * qc = 1 := mul_eq_one_comm.mp h4
  have h7 : (fun y => C (ec y) u - ∑ x, (C.submatrix ec ew * W⁻¹) y x * C (ew x) u) = 0 := by
    have h8 := congrArg ((C.submatrix ec ec - C.submatrix ec ew * W⁻¹ * C.submatrix ew ec) *ᵥ ·) (funext h5)
    simp only [mulVec_mulVec, h6, one_mulVec] at h8
    rw [h8]
    exact mulVec_zero _
  have := congrFun h7 a
  simp only [Pi.zero_apply] at this
  linarith

end Verif.Lemmas
