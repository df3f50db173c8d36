import Verif.Spec.Opt
import Mathlib.Data.Matrix.Mul
import Mathlib.LinearAlgebra.Matrix.Symmetric
import Mathlib.Tactic.Linarith
import Mathlib.Tactic.Ring
import Mathlib.Tactic.Positivity
import Mathlib.Algebra.BigOperators.Ring.Finset
import Mathlib.Algebra.Order.BigOperators.Group.Finset

/-! Bilinearity of the Frobenius inner product. -/

namespace Verif.Lemmas

open Verif.Spec Matrix

variable {m n : Type*} [Fintype m] [Fintype n]

theorem frobInner_comm (A B : Matrix m n ℝ) : frobInner A B = frobInner B A := by
  unfold frobInner
  exact Finset.sum_congr rfl fun i _ => Finset.sum_congr rfl fun j _ => mul_comm _ _

theorem frobInner_add_left (A B C : Matrix m n ℝ) :
    frobInner (A + B) C = frobInner A C + frobInner B C := by
  simp [frobInner, add_mul, Finset.sum_add_distrib]

theorem frobInner_add_right (A B C : Matrix m n ℝ) :
    frobInner A (B + C) = frobInner A B + frobInner A C := by
  simp [frobInner, mul_add, Finset.sum_add_distrib]

theorem frobInner_sub_left (A B C : Matrix m n ℝ) :
    frobInner (A - B) C = frobInner A C - frobInner B C := by
  simp [frobInner, sub_mul, Finset.sum_sub_distrib]

theorem frobInner_sub_right (A B C : Matrix m n ℝ) :
    frobInner A (B - C) = frobInner A B - frobInner A C := by
  simp [frobInner, mul_sub, Finset.sum_sub_distrib]

theorem frobInner_neg_left (A B : Matrix m n ℝ) : frobInner (-A) B = -frobInner A B := by
  simp [frobInner]

theorem frobInner_neg_right (A B : Matrix m n ℝ) : frobInner A (-B) = -frobInner A B := by
  simp [frobInner]

theorem frobInner_smul_left (c : ℝ) (A B : Matrix m n ℝ) :
    frobInner (c • A) B = c * frobInner A B := by
  simp [frobInner, Finset.mul_sum, mul_assoc]

theorem frobInner_smul_right (c : ℝ) (A B : Matrix m n ℝ) :
    frobInner A (c • B) = c * frobInner A B := by
  rw [frobInner_comm, frobInner_smul_left, frobInner_comm]

@[simp] theorem frobInner_zero_left (B : Matrix m n ℝ) : frobInner 0 B = 0 := by
  simp [frobInner]

@[simp] theorem frobInner_zero_right (B : Matrix m n ℝ) : frobInner B 0 = 0 := by
  simp [frobInner]

theorem frobInner_self (A : Matrix m n ℝ) : frobInner A A = frobSq A := by
  unfold frobInner frobSq
  exact Finset.sum_congr rfl fun i _ => Finset.sum_congr rfl fun j _ => by ring

theorem frobSq_add (A B : Matrix m n ℝ) :
    frobSq (A + B) = frobSq A + 2 * frobInner A B + frobSq B := by
  simp only [← frobInner_self, frobInner_add_left, frobInner_add_right]
  rw [frobInner_comm B A]; ring

theorem frobSq_sub (A B : Matrix m n ℝ) :
    frobSq (A - B) = frobSq A - 2 * frobInner A B + frobSq B := by
  simp only [← frobInner_self, frobInner_sub_left, frobInner_sub_right]
  rw [frobInner_comm B A]; ring

theorem frobSq_smul (c : ℝ) (A : Matrix m n ℝ) : frobSq (c • A) = c ^ 2 * frobSq A := by
  simp only [← frobInner_self, frobInner_smul_left, frobInner_smul_right]; ring

theorem frobSq_neg (A : Matrix m n ℝ) : frobSq (-A) = frobSq A := by
  simp [frobSq]

@[simp] theorem frobSq_zero : frobSq (0 : Matrix m n ℝ) = 0 := by
  simp [frobSq]

theorem frobSq_nonneg (X : Matrix m n ℝ) : 0 ≤ frobSq X :=
  Finset.sum_nonneg fun _ _ => Finset.sum_nonneg fun _ _ => sq_nonneg _

theorem frobSq_eq_zero_iff (X : Matrix m n ℝ) : frobSq X = 0 ↔ X = 0 := by
  constructor
  · intro h
    ext i j
    have h0 : ∀ i ∈ Finset.univ, ∑ j, X i j ^ 2 = 0 :=
      (Finset.sum_eq_zero_iff_of_nonneg
        (fun i _ => Finset.sum_nonneg fun j _ => sq_nonneg (X i j))).mp h
    have h1 := (Finset.sum_eq_zero_iff_of_nonneg fun j _ => sq_nonneg (X i j)).mp
      (h0 i (Finset.mem_univ i)) j (Finset.mem_univ j)
    simpa using h1
  · rintro rfl; simp

theorem frobSq_pos_of_ne {X Y : Matrix m n ℝ} (h : X ≠ Y) : 0 < frobSq (X - Y) :=
  lt_of_le_of_ne (frobSq_nonneg _) fun h0 =>
    h (sub_eq_zero.mp ((frobSq_eq_zero_iff _).mp h0.symm))

theorem frobInner_eq_trace (A B : Matrix n n ℝ) : frobInner A B = trace (Aᵀ * B) := by
  simp only [frobInner, trace, diag, Matrix.mul_apply, transpose_apply]
  rw [Finset.sum_comm]

theorem frobInner_eq_trace_of_symm {A : Matrix n n ℝ} (hA : A.IsSymm) (B : Matrix n n ℝ) :
    frobInner A B = trace (A * B) := by
  rw [frobInner_eq_trace, hA]

/-- Cauchy-Schwarz. -/
theorem frobInner_sq_le (A B : Matrix m n ℝ) : frobInner A B ^ 2 ≤ frobSq A * frobSq B := by
  rcases eq_or_lt_of_le (frobSq_nonneg B) with h | h
  · have : B = 0 := (frobSq_eq_zero_iff B).mp h.symm
    subst this; simp
  · have h1 := frobSq_nonneg (frobSq B • A - frobInner A B • B)
    rw [frobSq_sub, frobSq_smul, frobSq_smul, frobInner_smul_left, frobInner_smul_right] at h1
    have h2 : 0 ≤ frobSq B * (frobSq A * frobSq B - frobInner A B ^ 2) := by nlinarith
    have := nonneg_of_mul_nonneg_right h2 h
    linarith

end Verif.Lemmas
