import Verif.Lemmas.Soft

/-!
Property theorems C01, C02, C03, C08, C27 (entrywise proximal maps and the off-diagonal norm).
-/

namespace Verif.Props

open Verif.Model Verif.Spec Verif.Lemmas

/-! ### C01 -/

/-- C01: `soft_thresholding(a, lamda)` is the unique minimiser of `lamda‖x‖₁ + ½‖x-a‖²`. -/
theorem C01_soft_thresholding_prox {ι : Type*} [Fintype ι] (a : ι → ℝ) {lam : ℝ} (hl : 0 ≤ lam) :
    UniqueMin Set.univ (proxObj absSum lam a) (softThresholding a lam) := by
  refine ⟨Set.mem_univ _, fun x _ hx => ?_⟩
  have hpos := sum_sq_pos_of_ne hx
  have hsum : ∑ i, (lam * |softScalar (a i) lam| + 1 / 2 * (softScalar (a i) lam - a i) ^ 2
      + 1 / 2 * (x i - softScalar (a i) lam) ^ 2)
      ≤ ∑ i, (lam * |x i| + 1 / 2 * (x i - a i) ^ 2) :=
    Finset.sum_le_sum fun i _ => softScalar_strong hl (a i) (x i)
  simp only [Finset.sum_add_distrib, ← Finset.mul_sum] at hsum
  unfold proxObj absSum sqDist
  unfold softThresholding at hpos ⊢
  linarith

/-- C01 for matrices (the shape used by the solvers). -/
theorem C01_soft_thresholding_prox_matrix {m n : Type*} [Fintype m] [Fintype n]
    (A : Matrix m n ℝ) {lam : ℝ} (hl : 0 ≤ lam) :
    UniqueMin Set.univ (proxObjMat absSumMat lam A) (softThresholdingMat A lam) := by
  refine ⟨Set.mem_univ _, fun X _ hX => ?_⟩
  have hpos := mul_pos (by norm_num : (0 : ℝ) < 1 / 2) (frobSq_pos_of_ne hX)
  have hs := soft_weighted_strong (fun _ _ => lam) (fun _ _ => hl) A X
  unfold proxObjMat absSumMat
  simp only [frobSq, Matrix.sub_apply, softThresholdingMat, Finset.mul_sum] at *
  linarith

/-- Non-vacuity: `lam = 1`, `a = (3, -1/2)`, output `(2, 0)`. -/
example : softThresholding (fun i : Fin 2 => if i = 0 then (3 : ℝ) else -1 / 2) 1 0 = 2 ∧
    softThresholding (fun i : Fin 2 => if i = 0 then (3 : ℝ) else -1 / 2) 1 1 = 0 := by
  constructor
  · show softScalar 3 1 = 2
    rw [softScalar_of_pos] <;> norm_num
  · show softScalar (-1 / 2) 1 = 0
    rw [softScalar_of_abs_le]
    rw [abs_of_neg] <;> norm_num

/-! ### C02 -/

/-- C02: complete pointwise description for `lamda ≥ 0`. -/
theorem C02_soft_thresholding_pointwise {ι : Type*} (a : ι → ℝ) {lam : ℝ} (hl : 0 ≤ lam) (i : ι) :
    (softThresholding a lam i = 0 ↔ |a i| ≤ lam) ∧
    |softThresholding a lam i| = max (|a i| - lam) 0 ∧
    0 ≤ softThresholding a lam i * a i ∧
    softThresholding (fun k => -(a k)) lam i = -(softThresholding a lam i) := by
  have hodd : ∀ t : ℝ, softScalar (-t) lam = -softScalar t lam := by
    intro t
    rcases le_or_gt (|t|) lam with h | h
    · rw [softScalar_of_abs_le h, softScalar_of_abs_le (by rwa [abs_neg])]; ring
    · rcases lt_abs.mp h with h | h
      · rw [softScalar_of_pos hl h, softScalar_of_neg hl (by linarith)]; ring
      · rw [softScalar_of_pos hl h, softScalar_of_neg hl (by linarith)]; ring
  have hmain : (softScalar (a i) lam = 0 ↔ |a i| ≤ lam) ∧
      |softScalar (a i) lam| = max (|a i| - lam) 0 ∧ 0 ≤ softScalar (a i) lam * a i := by
    rcases le_or_gt (|a i|) lam with h | h
    · rw [softScalar_of_abs_le h]
      refine ⟨by simpa using h, ?_, by simp⟩
      rw [max_eq_right (by linarith)]; simp
    · rw [max_eq_left (by linarith)]
      rcases lt_abs.mp h with h' | h'
      · rw [softScalar_of_pos hl h']
        refine ⟨⟨fun h0 => by linarith, fun h0 => by linarith⟩, ?_, ?_⟩
        · rw [abs_of_pos (by linarith), abs_of_pos (by linarith)]
        · exact mul_nonneg (by linarith) (by linarith)
      · rw [softScalar_of_neg hl (by linarith)]
        refine ⟨⟨fun h0 => by linarith, fun h0 => by linarith⟩, ?_, ?_⟩
        · rw [abs_of_neg (by linarith : a i + lam < 0), abs_of_neg (by linarith : a i < 0)]; ring
        · exact mul_nonneg_of_nonpos_of_nonpos (by linarith) (by linarith)
  exact ⟨hmain.1, hmain.2.1, hmain.2.2, hodd (a i)⟩

/-- C02: firmly non-expansive, hence never increases distances. -/
theorem C02_soft_thresholding_nonexpansive {ι : Type*} (a b : ι → ℝ) {lam : ℝ} (hl : 0 ≤ lam)
    (i : ι) :
    (softThresholding a lam i - softThresholding b lam i) ^ 2
      ≤ (softThresholding a lam i - softThresholding b lam i) * (a i - b i) ∧
    |softThresholding a lam i - softThresholding b lam i| ≤ |a i - b i| := by
  have h1 := softScalar_subgrad hl (a i) (softScalar (b i) lam)
  have h2 := softScalar_subgrad hl (b i) (softScalar (a i) lam)
  have hfirm : (softScalar (a i) lam - softScalar (b i) lam) ^ 2
      ≤ (softScalar (a i) lam - softScalar (b i) lam) * (a i - b i) := by nlinarith
  refine ⟨hfirm, ?_⟩
  show |softScalar (a i) lam - softScalar (b i) lam| ≤ |a i - b i|
  rw [← sq_le_sq]
  nlinarith [sq_nonneg (softScalar (a i) lam - softScalar (b i) lam - (a i - b i))]

/-- C02, the branch `lamda < 0` (a call the code accepts): every nonzero entry grows by `|lamda|`
in magnitude and zero stays zero, so the map is no longer non-expansive. -/
theorem C02_soft_thresholding_negative_lam {ι : Type*} (a : ι → ℝ) {lam : ℝ} (hl : lam < 0) (i : ι) :
    (a i = 0 → softThresholding a lam i = 0) ∧
    (a i ≠ 0 → |softThresholding a lam i| = |a i| + |lam|) := by
  constructor
  · intro h; simp [softThresholding, softScalar, npSign, h]
  · intro h
    have hm : max (|a i| - lam) 0 = |a i| + |lam| := by
      rw [max_eq_left (by have := abs_nonneg (a i); linarith), abs_of_neg hl]; ring
    have hs : |npSign (a i)| = 1 := by
      unfold npSign
      rcases lt_or_gt_of_ne h with h | h
      · rw [if_neg (not_lt.mpr h.le), if_pos h]; simp
      · rw [if_pos h]; simp
    show |softScalar (a i) lam| = _
    unfold softScalar
    rw [hm, abs_mul, hs, one_mul, abs_of_nonneg (by positivity)]

/-- Non-vacuity for C02: a strictly shrinking pair and a negative `lamda`. -/
example : softScalar 5 2 - softScalar 1 2 = 3 ∧ softScalar 1 (-1) = 2 := by
  constructor
  · rw [softScalar_of_pos (by norm_num) (by norm_num), softScalar_of_abs_le (by norm_num)]; norm_num
  · norm_num [softScalar, npSign]

/-! ### C27 -/

theorem l1OdNorm_eq {n : Type*} [Fintype n] [DecidableEq n] (A : Matrix n n ℝ) :
    l1OdNorm A = absSumOff A := by
  unfold l1OdNorm matrixL1Norm absSumOff
  rw [← Finset.sum_sub_distrib]
  refine Finset.sum_congr rfl fun i _ => ?_
  have h : ∀ j, (if i = j then 0 else |A i j|) = |A i j| - if i = j then |A i j| else 0 := by
    intro j; split <;> simp
  simp only [h, Finset.sum_sub_distrib, Finset.sum_ite_eq, Finset.mem_univ, if_true]

/-- C27: the difference of sums computed by `l1_od_norm` is the off-diagonal absolute sum, and it is
a seminorm that ignores exactly the diagonal. -/
theorem C27_l1_od_norm {n : Type*} [Fintype n] [DecidableEq n] (A B : Matrix n n ℝ) (c : ℝ) :
    l1OdNorm A = absSumOff A ∧
    0 ≤ l1OdNorm A ∧
    l1OdNorm (c • A) = |c| * l1OdNorm A ∧
    l1OdNorm (A + B) ≤ l1OdNorm A + l1OdNorm B ∧
    (l1OdNorm A = 0 ↔ ∀ i j, i ≠ j → A i j = 0) ∧
    (∀ d : n → ℝ, l1OdNorm (fillDiagonal A d) = l1OdNorm A) ∧
    l1OdNorm A ≤ l1Norm A := by
  have hnn : ∀ i j : n, (0 : ℝ) ≤ if i = j then 0 else |A i j| := by
    intro i j; split
    · exact le_rfl
    · exact abs_nonneg _
  refine ⟨l1OdNorm_eq A, ?_, ?_, ?_, ?_, ?_, ?_⟩
  · rw [l1OdNorm_eq]
    exact Finset.sum_nonneg fun i _ => Finset.sum_nonneg fun j _ => hnn i j
  · rw [l1OdNorm_eq, l1OdNorm_eq]
    unfold absSumOff
    simp only [Finset.mul_sum]
    refine Finset.sum_congr rfl fun i _ => Finset.sum_congr rfl fun j _ => ?_
    split
    · simp
    · simp [abs_mul]
  · rw [l1OdNorm_eq, l1OdNorm_eq, l1OdNorm_eq]
    unfold absSumOff
    simp only [← Finset.sum_add_distrib]
    refine Finset.sum_le_sum fun i _ => Finset.sum_le_sum fun j _ => ?_
    split
    · simp
    · exact abs_add_le _ _
  · rw [l1OdNorm_eq]
    unfold absSumOff
    rw [Finset.sum_eq_zero_iff_of_nonneg fun i _ => Finset.sum_nonneg fun j _ => hnn i j]
    constructor
    · intro h i j hij
      have := (Finset.sum_eq_zero_iff_of_nonneg fun j _ => hnn i j).mp (h i (Finset.mem_univ i)) j
        (Finset.mem_univ j)
      simpa [hij] using this
    · intro h i _
      refine Finset.sum_eq_zero fun j _ => ?_
      by_cases hij : i = j
      · simp [hij]
      · simp [hij, h i j hij]
  · intro d
    rw [l1OdNorm_eq, l1OdNorm_eq]
    unfold absSumOff fillDiagonal
    refine Finset.sum_congr rfl fun i _ => Finset.sum_congr rfl fun j _ => ?_
    by_cases hij : i = j <;> simp [hij]
  · have : 0 ≤ ∑ i, |A i i| := Finset.sum_nonneg fun i _ => abs_nonneg _
    unfold l1OdNorm l1Norm matrixL1Norm
    linarith

/-- Non-vacuity for C27: a 2x2 matrix with a non-zero diagonal and off-diagonal sum 5. -/
example : l1OdNorm (!![7, 2; -3, 1] : Matrix (Fin 2) (Fin 2) ℝ) = 5 := by
  norm_num [l1OdNorm, matrixL1Norm, Fin.sum_univ_two]

/-! ### C03 -/

/-- C03: `soft_thresholding_off_diagonal` is the unique minimiser of
`lamda * (off-diagonal l1 norm) + ½‖X-A‖_F²`. -/
theorem C03_soft_thresholding_off_diagonal_prox {n : Type*} [Fintype n] [DecidableEq n]
    (A : Matrix n n ℝ) {lam : ℝ} (hl : 0 ≤ lam) :
    UniqueMin Set.univ (proxObjMat absSumOff lam A) (softThresholdingOffDiagonal A lam) := by
  refine ⟨Set.mem_univ _, fun X _ hX => ?_⟩
  have hpos := mul_pos (by norm_num : (0 : ℝ) < 1 / 2) (frobSq_pos_of_ne hX)
  have hs := soft_weighted_strong (fun i j : n => if i = j then 0 else lam)
    (fun i j => by split <;> simp [hl]) A X
  unfold proxObjMat absSumOff
  simp only [frobSq, Matrix.sub_apply, softOff_apply, Finset.mul_sum, mul_ite, mul_zero, ite_mul,
    zero_mul] at *
  linarith

/-- C03: the diagonal is untouched and symmetry is preserved. -/
theorem C03_soft_thresholding_off_diagonal_shape {n : Type*} [DecidableEq n]
    (A : Matrix n n ℝ) (lam : ℝ) :
    (∀ i, softThresholdingOffDiagonal A lam i i = A i i) ∧
    (A.IsSymm → (softThresholdingOffDiagonal A lam).IsSymm) := by
  refine ⟨fun i => by simp [softThresholdingOffDiagonal, fillDiagonal, getDiagonal], fun h => ?_⟩
  ext i j
  rw [Matrix.transpose_apply, softOff_apply, softOff_apply, h.apply i j]
  congr 1
  by_cases hij : i = j
  · simp [hij]
  · simp [hij, Ne.symm hij]

/-- Non-vacuity for C03. -/
example : softThresholdingOffDiagonal (!![3, 5; 5, -1] : Matrix (Fin 2) (Fin 2) ℝ) 2 =
    !![3, 3; 3, -1] := by
  have h : softScalar 5 2 = 3 := by rw [softScalar_of_pos] <;> norm_num
  ext i j
  fin_cases i <;> fin_cases j <;> simp [softOff_apply, softScalar_zero_right, h]

/-! ### C08 -/

/-- C08: `prox_laplacian` is the unique minimiser of `lamda‖x‖² + ½‖x-a‖²`. -/
theorem C08_prox_laplacian_prox {ι : Type*} [Fintype ι] (a : ι → ℝ) {lam : ℝ} (hl : 0 ≤ lam) :
    UniqueMin Set.univ (proxObj (fun x => ∑ i, x i ^ 2) lam a) (proxLaplacian a lam) := by
  refine ⟨Set.mem_univ _, fun x _ hx => ?_⟩
  have hpos := sum_sq_pos_of_ne hx
  have hd : (0 : ℝ) < 1 + 2 * lam := by linarith
  have key : ∀ i, lam * (a i / (1 + 2 * lam)) ^ 2 + 1 / 2 * (a i / (1 + 2 * lam) - a i) ^ 2
      + 1 / 2 * (x i - a i / (1 + 2 * lam)) ^ 2 ≤ lam * x i ^ 2 + 1 / 2 * (x i - a i) ^ 2 := by
    intro i
    have hb : a i = (1 + 2 * lam) * (a i / (1 + 2 * lam)) := by field_simp
    generalize a i / (1 + 2 * lam) = b at hb
    rw [hb]
    nlinarith [mul_nonneg hl (sq_nonneg (x i - b))]
  have hsum := Finset.sum_le_sum fun i (_ : i ∈ Finset.univ) => key i
  simp only [Finset.sum_add_distrib, ← Finset.mul_sum] at hsum
  unfold proxObj sqDist
  unfold proxLaplacian at hpos ⊢
  linarith

/-- C08: linear, odd and a contraction. -/
theorem C08_prox_laplacian_linear {ι : Type*} (a b : ι → ℝ) (c : ℝ) {lam : ℝ} (hl : 0 ≤ lam) :
    proxLaplacian (a + b) lam = proxLaplacian a lam + proxLaplacian b lam ∧
    proxLaplacian (c • a) lam = c • proxLaplacian a lam ∧
    ∀ i, |proxLaplacian a lam i - proxLaplacian b lam i| ≤ |a i - b i| := by
  refine ⟨?_, ?_, fun i => ?_⟩
  · ext i; simp [proxLaplacian, add_div]
  · ext i; simp [proxLaplacian, mul_div_assoc]
  · unfold proxLaplacian
    rw [← sub_div, abs_div, abs_of_pos (by linarith : (0 : ℝ) < 1 + 2 * lam)]
    exact div_le_self (abs_nonneg _) (by linarith)

/-- Non-vacuity for C08. -/
example : proxLaplacian (fun _ : Fin 1 => (6 : ℝ)) 1 0 = 2 := by norm_num [proxLaplacian]

end Verif.Props
