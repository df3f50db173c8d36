import Verif.Model.Ising
import Verif.Spec.Ising
import Mathlib.LinearAlgebra.Matrix.Symmetric
import Mathlib.Tactic.Linarith
import Mathlib.Tactic.Ring
import Mathlib.Tactic.FieldSimp

namespace Verif.Lemmas

open Verif.Model Verif.Spec

set_option autoImplicit false
set_option linter.unusedSectionVars false

variable {p : ℕ}

theorem foldl_add_list {ι : Type} (g : ι → ℝ) : ∀ (l : List ι) (c : ℝ),
    l.foldl (fun h j => h + g j) c = c + (l.map g).sum
  | [], c => by simp
  | a :: l, c => by
      rw [List.foldl_cons, foldl_add_list g l]
      simp [add_assoc]

theorem foldl_add_finRange (g : Fin p → ℝ) (c : ℝ) :
    (List.finRange p).foldl (fun h j => h + g j) c = c + ∑ j, g j := by
  rw [foldl_add_list, Fin.sum_univ_def]

theorem localField_eq (a : IsingArgs p) (i : Fin p) (s : Fin p → ℝ) (r : ℝ) :
    localField a i s r = r * (a.thresholds i + ∑ j, if j = i then 0 else a.theta i j * s j) := by
  unfold localField
  have h1 : (fun h j => if i = j then h else h + a.theta i j * r * s j : ℝ → Fin p → ℝ) =
      fun h j => h + (if j = i then 0 else a.theta i j * r * s j) := by
    funext h j
    by_cases hj : i = j
    · simp [hj]
    · have hj' : ¬ j = i := fun h => hj h.symm
      simp [hj, hj']
  rw [h1, foldl_add_finRange, mul_add, Finset.mul_sum]
  congr 1
  · ring
  · apply Finset.sum_congr rfl
    intro j _
    by_cases hj : j = i
    · simp [hj]
    · simp only [hj, if_false]; ring

theorem hamiltonian_eq (a : IsingArgs p) (s : Fin p → ℝ) :
    hamiltonian a s = -(∑ i, a.thresholds i * s i +
      ∑ i, ∑ j, if i = j then 0 else a.theta i j * s i * s j) := by
  unfold hamiltonian
  have h1 : (fun res i => res - a.thresholds i * s i +
      ∑ j, (if j ≠ i then -a.theta i j * s i * s j else 0) : ℝ → Fin p → ℝ) =
      fun res i => res + (-(a.thresholds i * s i) +
        ∑ j, (if j ≠ i then -a.theta i j * s i * s j else 0)) := by
    funext res i; ring
  rw [h1, foldl_add_finRange, Finset.sum_add_distrib, Finset.sum_neg_distrib, zero_add, neg_add]
  congr 1
  rw [← Finset.sum_neg_distrib]
  apply Finset.sum_congr rfl
  intro i _
  rw [← Finset.sum_neg_distrib]
  apply Finset.sum_congr rfl
  intro j _
  by_cases hj : i = j
  · simp [hj]
  · have hj' : j ≠ i := fun h => hj h.symm
    simp [hj, hj']

/-- Sum over ordered pairs of different nodes of a symmetric graph. -/
theorem pair_sum_double (theta : Matrix (Fin p) (Fin p) ℝ) (hs : theta.IsSymm) (s : Fin p → ℝ) :
    (∑ i, ∑ j, if i = j then 0 else theta i j * s i * s j) =
      2 * ∑ i, ∑ j, if i < j then theta i j * s i * s j else 0 := by
  have h1 : ∀ i j : Fin p, (if i = j then 0 else theta i j * s i * s j) =
      (if i < j then theta i j * s i * s j else 0) + (if j < i then theta j i * s j * s i else 0) := by
    intro i j
    have hij : theta j i = theta i j := hs.apply i j
    rcases lt_trichotomy i j with h | h | h
    · simp [h, h.ne, h.not_gt]
    · simp [h]
    · simp [h, h.ne', h.not_gt, hij]; ring
  simp only [h1, Finset.sum_add_distrib]
  rw [Finset.sum_comm (f := fun i j => if j < i then theta j i * s j * s i else 0)]
  ring

/-- Effect on the pair sum of changing one coordinate. -/
theorem pair_sum_update (theta : Matrix (Fin p) (Fin p) ℝ) (hs : theta.IsSymm) (s : Fin p → ℝ) (i : Fin p)
    (r r' : ℝ) :
    (∑ a, ∑ b, if a = b then 0 else theta a b * Function.update s i r' a * Function.update s i r' b) -
      (∑ a, ∑ b, if a = b then 0 else theta a b * Function.update s i r a * Function.update s i r b) =
      2 * (r' - r) * ∑ j, if j = i then 0 else theta i j * s j := by
  rw [← Finset.sum_sub_distrib]
  simp only [← Finset.sum_sub_distrib]
  have h1 : ∀ a b : Fin p,
      ((if a = b then 0 else theta a b * Function.update s i r' a * Function.update s i r' b) -
        (if a = b then 0 else theta a b * Function.update s i r a * Function.update s i r b)) =
      (if a = i then (if b = i then 0 else (r' - r) * (theta i b * s b)) else 0) +
      (if b = i then (if a = i then 0 else (r' - r) * (theta i a * s a)) else 0) := by
    intro a b
    by_cases ha : a = i
    · by_cases hb : b = i
      · simp [ha, hb]
      · have hb' : ¬ i = b := fun h => hb h.symm
        simp only [ha, hb, hb', if_true, if_false, Function.update_self, Function.update_of_ne hb]
        simp
        ring
    · by_cases hb : b = i
      · have hia : theta a i = theta i a := hs.apply i a
        simp only [ha, hb, if_true, if_false, Function.update_self, Function.update_of_ne ha, hia]
        simp
        ring
      · simp [ha, hb, Function.update_of_ne]
  simp only [h1, Finset.sum_add_distrib]
  have h2 : (∑ a, ∑ b, (if a = i then (if b = i then 0 else (r' - r) * (theta i b * s b)) else 0)) =
      (r' - r) * ∑ j, if j = i then 0 else theta i j * s j := by
    rw [Finset.sum_eq_single i]
    · rw [Finset.mul_sum]
      apply Finset.sum_congr rfl
      intro j _
      by_cases hj : j = i <;> simp [hj]
    · intro b _ hb; simp [hb]
    · simp
  have h3 : (∑ a, ∑ b, (if b = i then (if a = i then 0 else (r' - r) * (theta i a * s a)) else 0)) =
      (r' - r) * ∑ j, if j = i then 0 else theta i j * s j := by
    rw [Finset.mul_sum]
    apply Finset.sum_congr rfl
    intro a _
    rw [Finset.sum_ite_eq' Finset.univ i]
    by_cases hj : a = i <;> simp [hj]
  rw [h2, h3]; ring

theorem lin_sum_update (h s : Fin p → ℝ) (i : Fin p) (r r' : ℝ) :
    (∑ a, h a * Function.update s i r' a) - (∑ a, h a * Function.update s i r a) = (r' - r) * h i := by
  rw [← Finset.sum_sub_distrib, Finset.sum_eq_single i]
  · simp; ring
  · intro b _ hb; simp [Function.update_of_ne hb]
  · simp

/-- A two-point probability depends on the difference of the exponents only. -/
theorem two_point (a b c d : ℝ) (h : b - a = d - c) :
    Real.exp b / (Real.exp a + Real.exp b) = Real.exp d / (Real.exp c + Real.exp d) := by
  have hb : Real.exp b = Real.exp a * Real.exp (d - c) := by rw [← Real.exp_add, ← h]; congr 1; ring
  have hd : Real.exp d = Real.exp c * Real.exp (d - c) := by rw [← Real.exp_add]; congr 1; ring
  have ha0 := Real.exp_pos a
  have hc0 := Real.exp_pos c
  have he := Real.exp_pos (d - c)
  rw [div_eq_div_iff (by positivity) (by positivity)]
  rw [hb, hd]; ring

/-- And it is increasing in the difference. -/
theorem two_point_mono (a b c d : ℝ) (h : b - a ≤ d - c) :
    Real.exp b / (Real.exp a + Real.exp b) ≤ Real.exp d / (Real.exp c + Real.exp d) := by
  have ha0 := Real.exp_pos a
  have hb0 := Real.exp_pos b
  have hc0 := Real.exp_pos c
  have hd0 := Real.exp_pos d
  rw [div_le_div_iff₀ (by positivity) (by positivity)]
  have : Real.exp b * Real.exp c ≤ Real.exp d * Real.exp a := by
    rw [← Real.exp_add, ← Real.exp_add]
    exact Real.exp_le_exp.mpr (by linarith)
  nlinarith

/-- `localField` does not look at coordinate `i`. -/
theorem localField_update (a : IsingArgs p) (i : Fin p) (s : Fin p → ℝ) (v r : ℝ) :
    localField a i (Function.update s i v) r = localField a i s r := by
  rw [localField_eq, localField_eq]
  congr 2
  apply Finset.sum_congr rfl
  intro j _
  by_cases hj : j = i
  · simp [hj]
  · simp [hj, Function.update_of_ne]

theorem pPlus_update (a : IsingArgs p) (i : Fin p) (s : Fin p → ℝ) (v : ℝ) :
    pPlus a i (Function.update s i v) = pPlus a i s := by
  unfold pPlus; rw [localField_update, localField_update]

theorem pPlus_pos (a : IsingArgs p) (i : Fin p) (s : Fin p → ℝ) : 0 < pPlus a i s := by
  unfold pPlus; positivity

theorem pPlus_lt_one (a : IsingArgs p) (i : Fin p) (s : Fin p → ℝ) : pPlus a i s < 1 := by
  unfold pPlus
  rw [div_lt_one (by positivity)]
  linarith [Real.exp_pos (a.beta * localField a i s a.r0)]

end Verif.Lemmas
