import Verif.Lemmas.Soft
import Mathlib.Algebra.Order.BigOperators.Ring.Finset
import Mathlib.Algebra.BigOperators.Fin
import Mathlib.Analysis.InnerProductSpace.Basic

/-! Helper lemmas for the group (l2) proximal map and for sums of `XF` values. -/

namespace Verif.Lemmas

open Verif.Model Verif.Spec

section XF

theorem XF_foldl_fin {ι : Type*} (g : ι → ℝ) (l : List ι) (a : ℝ) :
    l.foldl (fun acc i => XF.add acc (.fin (g i))) (.fin a) = .fin (a + (l.map g).sum) := by
  induction l generalizing a with
  | nil => simp
  | cons x l ih =>
    rw [List.foldl_cons]
    show l.foldl _ (XF.fin (a + g x)) = _
    rw [ih, List.map_cons, List.sum_cons, add_assoc]

theorem XF_sum_fin {n : ℕ} (g : Fin n → ℝ) : XF.sum (fun i => .fin (g i)) = .fin (∑ i, g i) := by
  unfold XF.sum
  rw [XF_foldl_fin, zero_add, Fin.sum_univ_def]

theorem XF_add_nan (a : XF) : XF.add a .nan = .nan := by cases a <;> rfl

theorem XF_nan_add (a : XF) : XF.add .nan a = .nan := by cases a <;> rfl

theorem XF_foldl_nan {ι : Type*} (f : ι → XF) (l : List ι) :
    l.foldl (fun acc i => XF.add acc (f i)) .nan = .nan := by
  induction l with
  | nil => rfl
  | cons x l ih => simp only [List.foldl_cons, XF_nan_add, ih]

theorem XF_sum_nan {n : ℕ} (f : Fin n → XF) (j : Fin n) (h : f j = .nan) : XF.sum f = .nan := by
  unfold XF.sum
  have hmem : j ∈ List.finRange n := List.mem_finRange j
  generalize XF.fin 0 = a
  generalize List.finRange n = l at hmem
  induction l generalizing a with
  | nil => simp at hmem
  | cons x l ih =>
    rw [List.foldl_cons]
    rcases List.mem_cons.mp hmem with h' | h'
    · rw [← h', h, XF_add_nan, XF_foldl_nan]
    · exact ih _ h'

end XF

section Group

variable {m : Type*} [Fintype m]

theorem npNorm_nonneg (v : m → ℝ) : 0 ≤ npNorm v := Real.sqrt_nonneg _

theorem npNorm_sq (v : m → ℝ) : npNorm v ^ 2 = ∑ i, v i ^ 2 :=
  Real.sq_sqrt (Finset.sum_nonneg fun _ _ => sq_nonneg _)

theorem npNorm_eq_zero {v : m → ℝ} (h : npNorm v = 0) (i : m) : v i = 0 := by
  have h1 : ∑ i, v i ^ 2 = 0 := by rw [← npNorm_sq, h]; ring
  have := (Finset.sum_eq_zero_iff_of_nonneg fun j _ => sq_nonneg (v j)).mp h1 i (Finset.mem_univ i)
  simpa using this

theorem npNorm_zero : npNorm (fun _ : m => (0 : ℝ)) = 0 := by simp [npNorm]

theorem npNorm_smul (c : ℝ) (v : m → ℝ) : npNorm (fun i => c * v i) = |c| * npNorm v := by
  unfold npNorm
  have : ∑ i, (c * v i) ^ 2 = c ^ 2 * ∑ i, v i ^ 2 := by
    rw [Finset.mul_sum]; exact Finset.sum_congr rfl fun i _ => by ring
  rw [this, Real.sqrt_mul (sq_nonneg c), Real.sqrt_sq_eq_abs]

theorem inner_le_npNorm (v w : m → ℝ) : ∑ i, v i * w i ≤ npNorm v * npNorm w :=
  Real.sum_mul_le_sqrt_mul_sqrt _ _ _

/-- Scaling factor of the group proximal map. -/
noncomputable def groupCoef (v : m → ℝ) (lam : ℝ) : ℝ :=
  if npNorm v ≤ lam then 0 else 1 - lam / npNorm v

/-- The residual `v - c v` is a subgradient of `lam‖·‖₂` at `c v`. -/
theorem group_subgrad {lam : ℝ} (hl : 0 ≤ lam) (v x : m → ℝ) :
    lam * npNorm (fun i => groupCoef v lam * v i)
      + ∑ i, (v i - groupCoef v lam * v i) * (x i - groupCoef v lam * v i) ≤ lam * npNorm x := by
  unfold groupCoef
  by_cases h : npNorm v ≤ lam
  · simp only [if_pos h, zero_mul, sub_zero, npNorm_zero, mul_zero, zero_add]
    calc ∑ i, v i * x i ≤ npNorm v * npNorm x := inner_le_npNorm v x
      _ ≤ lam * npNorm x := mul_le_mul_of_nonneg_right h (npNorm_nonneg x)
  · simp only [if_neg h]
    push Not at h
    have hs : 0 < npNorm v := lt_of_le_of_lt hl h
    set s := npNorm v with hsdef
    have hc : 0 ≤ 1 - lam / s := by
      have : lam / s ≤ 1 := (div_le_one hs).mpr h.le
      linarith
    rw [npNorm_smul, abs_of_nonneg hc, ← hsdef]
    have hsq : ∑ i, v i ^ 2 = s ^ 2 := (npNorm_sq v).symm
    have e1 : ∑ i, (v i - (1 - lam / s) * v i) * (x i - (1 - lam / s) * v i)
        = lam / s * (∑ i, v i * x i) - lam / s * (1 - lam / s) * ∑ i, v i ^ 2 := by
      rw [Finset.mul_sum, Finset.mul_sum, ← Finset.sum_sub_distrib]
      exact Finset.sum_congr rfl fun i _ => by ring
    rw [e1, hsq]
    have h1 : lam / s * (∑ i, v i * x i) ≤ lam / s * (s * npNorm x) :=
      mul_le_mul_of_nonneg_left (inner_le_npNorm v x) (by positivity)
    have h2 : lam / s * (s * npNorm x) = lam * npNorm x := by field_simp
    have h3 : lam / s * (1 - lam / s) * s ^ 2 = lam * ((1 - lam / s) * s) := by field_simp
    rw [h2] at h1
    rw [h3]
    linarith

theorem group_strong {lam : ℝ} (hl : 0 ≤ lam) (v x : m → ℝ) :
    lam * npNorm (fun i => groupCoef v lam * v i)
      + 1 / 2 * ∑ i, (groupCoef v lam * v i - v i) ^ 2
      + 1 / 2 * ∑ i, (x i - groupCoef v lam * v i) ^ 2
      ≤ lam * npNorm x + 1 / 2 * ∑ i, (x i - v i) ^ 2 := by
  have h := group_subgrad hl v x
  have e : ∑ i, (x i - v i) ^ 2 = ∑ i, (x i - groupCoef v lam * v i) ^ 2
      + ∑ i, (groupCoef v lam * v i - v i) ^ 2
      - 2 * ∑ i, (v i - groupCoef v lam * v i) * (x i - groupCoef v lam * v i) := by
    rw [Finset.mul_sum, ← Finset.sum_add_distrib, ← Finset.sum_sub_distrib]
    exact Finset.sum_congr rfl fun i _ => by ring
  rw [e]; linarith

end Group

/-- Away from `lamda = 0` with a zero vector, `soft_thresholding_vector` is the finite vector
`groupCoef v lam * v`. -/
theorem softThresholdingVector_eq {m : Type*} [Fintype m] {v : m → ℝ} {lam : ℝ} (hl : 0 ≤ lam)
    (h : 0 < lam ∨ npNorm v ≠ 0) (i : m) :
    softThresholdingVector v lam i = .fin (groupCoef v lam * v i) := by
  unfold softThresholdingVector groupCoef
  by_cases hs : npNorm v = 0
  · have hpos : 0 < lam := by
      rcases h with h | h
      · exact h
      · exact absurd hs h
    rw [if_pos (by rw [hs]; exact hl), hs]
    simp [XF.div, XF.sub, XF.neg, XF.add, XF.max, XF.mul, hpos]
  · have hs' : 0 < npNorm v := lt_of_le_of_ne (npNorm_nonneg v) (Ne.symm hs)
    simp only [XF.div, ne_eq, hs, not_false_eq_true, if_true, XF.sub, XF.neg, XF.add, XF.max, XF.mul,
      XF.fin.injEq]
    by_cases hle : npNorm v ≤ lam
    · have : 1 ≤ lam / npNorm v := (one_le_div hs').mpr hle
      rw [if_pos hle, max_eq_right (by linarith)]
    · have : lam / npNorm v ≤ 1 := (div_le_one hs').mpr (not_le.mp hle).le
      rw [if_neg hle, max_eq_left (by linarith)]
      ring

end Verif.Lemmas
