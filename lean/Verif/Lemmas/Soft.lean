import Verif.Model.Prox
import Verif.Lemmas.Frob
import Mathlib.Tactic.Linarith
import Mathlib.Tactic.Ring
import Mathlib.Tactic.FieldSimp
import Mathlib.Tactic.Positivity
import Mathlib.Algebra.Order.BigOperators.Group.Finset

/-! Helper lemmas about the entrywise proximal maps. -/

namespace Verif.Lemmas

open Verif.Model Verif.Spec

theorem softScalar_of_pos {a lam : ℝ} (hl : 0 ≤ lam) (h : lam < a) : softScalar a lam = a - lam := by
  have ha : 0 < a := lt_of_le_of_lt hl h
  unfold softScalar npSign
  rw [if_pos ha, abs_of_pos ha, max_eq_left (by linarith)]; ring

theorem softScalar_of_neg {a lam : ℝ} (hl : 0 ≤ lam) (h : a < -lam) : softScalar a lam = a + lam := by
  have ha : a < 0 := by linarith
  unfold softScalar npSign
  rw [if_neg (not_lt.mpr ha.le), if_pos ha, abs_of_neg ha, max_eq_left (by linarith)]; ring

theorem softScalar_of_abs_le {a lam : ℝ} (h : |a| ≤ lam) : softScalar a lam = 0 := by
  unfold softScalar
  rw [max_eq_right (by linarith)]; ring

theorem softScalar_zero_right (a : ℝ) : softScalar a 0 = a := by
  rcases lt_trichotomy a 0 with h | h | h
  · rw [softScalar_of_neg le_rfl (by linarith)]; ring
  · rw [softScalar_of_abs_le (by rw [h]; simp), h]
  · rw [softScalar_of_pos le_rfl h]; ring

/-- The residual `a - soft a` is a subgradient of `lam * |·|` at `soft a`. -/
theorem softScalar_subgrad {lam : ℝ} (hl : 0 ≤ lam) (a x : ℝ) :
    lam * |softScalar a lam| + (a - softScalar a lam) * (x - softScalar a lam) ≤ lam * |x| := by
  rcases le_or_gt (|a|) lam with h | h
  · rw [softScalar_of_abs_le h]
    have := abs_le.mp h
    simp only [abs_zero, mul_zero, sub_zero, zero_add]
    calc a * x ≤ |a * x| := le_abs_self _
      _ = |a| * |x| := abs_mul _ _
      _ ≤ lam * |x| := mul_le_mul_of_nonneg_right h (abs_nonneg _)
  · rcases lt_abs.mp h with h | h
    · rw [softScalar_of_pos hl h, abs_of_pos (by linarith)]
      nlinarith [le_abs_self x]
    · have h' : a < -lam := by linarith
      rw [softScalar_of_neg hl h', abs_of_neg (by linarith)]
      nlinarith [neg_abs_le x]

/-- Strong minimality of soft-thresholding, one entry. -/
theorem softScalar_strong {lam : ℝ} (hl : 0 ≤ lam) (a x : ℝ) :
    lam * |softScalar a lam| + 1 / 2 * (softScalar a lam - a) ^ 2 + 1 / 2 * (x - softScalar a lam) ^ 2
      ≤ lam * |x| + 1 / 2 * (x - a) ^ 2 := by
  have := softScalar_subgrad hl a x
  nlinarith

theorem sum_sq_pos_of_ne {ι : Type*} [Fintype ι] {x y : ι → ℝ} (h : x ≠ y) :
    0 < ∑ i, (x i - y i) ^ 2 := by
  obtain ⟨i, hi⟩ := Function.ne_iff.mp h
  have h1 : 0 < (x i - y i) ^ 2 := by
    have : x i - y i ≠ 0 := sub_ne_zero.mpr hi
    positivity
  exact Finset.sum_pos' (fun j _ => sq_nonneg _) ⟨i, Finset.mem_univ i, h1⟩

/-- Weighted entrywise version used for both the full and the off-diagonal l1 norm. -/
theorem soft_weighted_strong {m n : Type*} [Fintype m] [Fintype n] (w : m → n → ℝ)
    (hw : ∀ i j, 0 ≤ w i j) (A X : Matrix m n ℝ) :
    (∑ i, ∑ j, w i j * |softScalar (A i j) (w i j)|)
      + 1 / 2 * (∑ i, ∑ j, (softScalar (A i j) (w i j) - A i j) ^ 2)
      + 1 / 2 * (∑ i, ∑ j, (X i j - softScalar (A i j) (w i j)) ^ 2)
      ≤ (∑ i, ∑ j, w i j * |X i j|) + 1 / 2 * (∑ i, ∑ j, (X i j - A i j) ^ 2) := by
  simp only [Finset.mul_sum, ← Finset.sum_add_distrib]
  exact Finset.sum_le_sum fun i _ => Finset.sum_le_sum fun j _ => softScalar_strong (hw i j) _ _

theorem softOff_apply {n : Type*} [DecidableEq n] (A : Matrix n n ℝ) (lam : ℝ) (i j : n) :
    softThresholdingOffDiagonal A lam i j = softScalar (A i j) (if i = j then 0 else lam) := by
  unfold softThresholdingOffDiagonal fillDiagonal getDiagonal softThresholdingMat
  by_cases h : i = j
  · subst h; simp [softScalar_zero_right]
  · simp [h]

end Verif.Lemmas
