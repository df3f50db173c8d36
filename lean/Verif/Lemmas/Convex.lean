import Verif.Lemmas.Frob
import Verif.Spec.Objectives

/-! From "minimises the proximal objective" to the subgradient inequality. -/

namespace Verif.Lemmas

open Verif.Spec Matrix

set_option autoImplicit false

variable {m k : Type*} [Fintype m] [Fintype k]

theorem nonneg_of_forall_small {a b : ℝ} (h : ∀ t : ℝ, 0 < t → t ≤ 1 → 0 ≤ a + t * b) : 0 ≤ a := by
  by_contra ha
  push Not at ha
  rcases le_or_gt b 0 with hb | hb
  · have := h 1 one_pos le_rfl
    linarith
  · have h1 : 0 < min 1 (-a / (2 * b)) := lt_min one_pos (div_pos (by linarith) (by linarith))
    have h2 := h _ h1 (min_le_left _ _)
    have h3 : min 1 (-a / (2 * b)) * b ≤ -a / (2 * b) * b :=
      mul_le_mul_of_nonneg_right (min_le_right _ _) hb.le
    have h4 : -a / (2 * b) * b = -a / 2 := by field_simp
    linarith

/-- A minimiser of `lam psi + ½‖· - A‖²` with convex `psi` satisfies the subgradient inequality. -/
theorem prox_subgrad {psi : Matrix m k ℝ → ℝ} (hc : ConvexPen psi) {lam : ℝ} (hl : 0 ≤ lam)
    {A P : Matrix m k ℝ} (hP : IsMin Set.univ (proxObjMat psi lam A) P) (X : Matrix m k ℝ) :
    lam * psi P + frobInner (A - P) (X - P) ≤ lam * psi X := by
  have key : 0 ≤ lam * psi X - lam * psi P - frobInner (A - P) (X - P) := by
    refine nonneg_of_forall_small (b := 1 / 2 * frobSq (X - P)) fun t h0 h1 => ?_
    have h2 := hP.2 (P + t • (X - P)) trivial
    unfold proxObjMat at h2
    have h3 := mul_le_mul_of_nonneg_left (hc P X t h0.le h1) hl
    have e : P + t • (X - P) - A = (P - A) + t • (X - P) := by abel
    rw [e, frobSq_add, frobSq_smul, frobInner_smul_right] at h2
    have e2 : frobInner (A - P) (X - P) = -frobInner (P - A) (X - P) := by
      rw [← frobInner_neg_left, neg_sub]
    rw [e2]
    have h4 : 0 ≤ t * (lam * psi X - lam * psi P + frobInner (P - A) (X - P)
        + t * (1 / 2 * frobSq (X - P))) := by nlinarith
    have h5 := nonneg_of_mul_nonneg_right h4 h0
    linarith
  linarith

/-- Converse: the subgradient inequality identifies the proximal point. -/
theorem prox_of_subgrad {psi : Matrix m k ℝ → ℝ} {lam : ℝ}
    {A P : Matrix m k ℝ} (h : ∀ X, lam * psi P + frobInner (A - P) (X - P) ≤ lam * psi X) :
    UniqueMin Set.univ (proxObjMat psi lam A) P := by
  refine ⟨trivial, fun X _ hne => ?_⟩
  have h1 := h X
  have h2 := frobSq_pos_of_ne hne
  unfold proxObjMat
  have e : X - A = (X - P) - (A - P) := by abel
  have e2 : frobSq (P - A) = frobSq (A - P) := by rw [← frobSq_neg, neg_sub]
  rw [e, frobSq_sub (X - P) (A - P), frobInner_comm (X - P), e2]
  linarith

end Verif.Lemmas
