import Verif.Lemmas.Group

/-! Property theorems C04, C05 (column-group proximal maps, IEEE special values included). -/

namespace Verif.Props

open Verif.Model Verif.Spec Verif.Lemmas

/-- Specification of the property: the array holds finite numbers only and they form the unique
minimiser of `lam * (column norm sum) + ½‖X - A‖²`. -/
def IsFiniteColumnProx {m n : Type*} [Fintype m] [Fintype n] (A : Matrix m n ℝ) (lam : ℝ)
    (out : m → n → XF) : Prop :=
  ∃ P : Matrix m n ℝ, (∀ i j, out i j = .fin (P i j)) ∧
    UniqueMin Set.univ (proxObjMat colNormSum lam A) P

theorem groupMatrix_uniqueMin {m n : Type*} [Fintype m] [Fintype n] (A : Matrix m n ℝ) {lam : ℝ}
    (hl : 0 ≤ lam) :
    UniqueMin Set.univ (proxObjMat colNormSum lam A)
      (Matrix.of fun i j => groupCoef (fun k => A k j) lam * A i j) := by
  refine ⟨Set.mem_univ _, fun X _ hX => ?_⟩
  have hpos := mul_pos (by norm_num : (0 : ℝ) < 1 / 2) (frobSq_pos_of_ne hX)
  have hs := Finset.sum_le_sum fun j (_ : j ∈ (Finset.univ : Finset n)) =>
    group_strong hl (fun k => A k j) (fun k => X k j)
  simp only [Finset.sum_add_distrib, ← Finset.mul_sum] at hs
  unfold proxObjMat colNormSum
  simp only [frobSq, Matrix.sub_apply, Matrix.of_apply, npNorm] at *
  rw [Finset.sum_comm] at hpos
  rw [Finset.sum_comm (f := fun i j => (X i j - A i j) ^ 2),
    Finset.sum_comm (f := fun i j => (groupCoef (fun k => A k j) lam * A i j - A i j) ^ 2)]
  linarith

/-- C04, proved part: for `lamda > 0` (zero columns allowed), or for `lamda = 0` without zero
columns, the result is finite and the exact column-group proximal map. Missing from the full
statement: `lamda = 0` with a zero column, where the code returns NaN (next theorem). -/
theorem C04_blockwise_soft_thresholding_partial {m n : Type*} [Fintype m] [Fintype n]
    (A : Matrix m n ℝ) {lam : ℝ} (hl : 0 ≤ lam) (h : 0 < lam ∨ ∀ j, ∃ i, A i j ≠ 0) :
    IsFiniteColumnProx A lam (blockwiseSoftThresholding A lam) := by
  refine ⟨_, fun i j => ?_, groupMatrix_uniqueMin A hl⟩
  unfold blockwiseSoftThresholding
  refine softThresholdingVector_eq hl ?_ i
  rcases h with h | h
  · exact Or.inl h
  · obtain ⟨k, hk⟩ := h j
    exact Or.inr fun h0 => hk (npNorm_eq_zero h0 k)

/-- C04 fails in the remaining case: with `lamda = 0` every zero column becomes NaN. -/
theorem C04_blockwise_soft_thresholding_nan_false {m n : Type*} [Fintype m] (A : Matrix m n ℝ)
    (j : n) (hj : ∀ i, A i j = 0) (i : m) : blockwiseSoftThresholding A 0 i j = .nan := by
  have h0 : npNorm (fun k => A k j) = 0 := by simp only [hj]; exact npNorm_zero
  unfold blockwiseSoftThresholding softThresholdingVector
  simp [h0, XF.div, XF.sub, XF.neg, XF.add, XF.max, XF.mul]

/-- The full statement of C04 is false. -/
theorem C04_full_statement_false :
    ¬ ∀ (A : Matrix (Fin 2) (Fin 2) ℝ) (lam : ℝ), 0 ≤ lam →
      IsFiniteColumnProx A lam (blockwiseSoftThresholding A lam) := by
  intro h
  obtain ⟨P, hP, _⟩ := h 0 0 le_rfl
  have := hP 0 0
  rw [C04_blockwise_soft_thresholding_nan_false 0 0 (fun _ => rfl) 0] at this
  cases this

/-- Non-vacuity for C04: a column `(3,4)` of norm 5 with `lamda = 1` is scaled by `4/5`, and a zero
column next to it stays zero. -/
example : blockwiseSoftThresholding (!![3, 0; 4, 0] : Matrix (Fin 2) (Fin 2) ℝ) 1 0 0 =
      .fin (12 / 5) ∧
    blockwiseSoftThresholding (!![3, 0; 4, 0] : Matrix (Fin 2) (Fin 2) ℝ) 1 1 1 = .fin 0 := by
  have h5 : npNorm (fun k : Fin 2 => (!![3, 0; 4, 0] : Matrix (Fin 2) (Fin 2) ℝ) k 0) = 5 := by
    unfold npNorm
    rw [show (∑ i : Fin 2, (!![3, 0; 4, 0] : Matrix (Fin 2) (Fin 2) ℝ) i 0 ^ 2) = 5 ^ 2 by
      simp [Fin.sum_univ_two]; norm_num]
    exact Real.sqrt_sq (by norm_num)
  constructor
  · unfold blockwiseSoftThresholding
    rw [softThresholdingVector_eq (by norm_num) (Or.inl (by norm_num))]
    unfold groupCoef
    rw [h5]; norm_num
  · unfold blockwiseSoftThresholding
    rw [softThresholdingVector_eq (by norm_num) (Or.inl (by norm_num))]
    simp

/-! ### C05 -/

theorem symCoef_of_ne {n : ℕ} (A : Matrix (Fin n) (Fin n) ℝ) (lam : ℝ) (j : Fin n)
    (h : npNorm (fun k => A k j) ≠ 0) :
    symCoef A lam j = .fin (groupCoef (fun k => A k j) lam) := by
  unfold symCoef groupCoef
  simp only [XF.div, ne_eq, h, not_false_eq_true, if_true, XF.sub, XF.neg, XF.add, XF.mul, XF.ofBool,
    XF.fin.injEq]
  by_cases hle : npNorm (fun k => A k j) ≤ lam
  · simp [hle]
  · have : npNorm (fun k => A k j) > lam := not_le.mp hle
    simp only [gt_iff_lt, this, decide_true, if_true, hle, if_false]
    ring

theorem symCoef_of_zero {n : ℕ} (A : Matrix (Fin n) (Fin n) ℝ) {lam : ℝ} (hl : 0 ≤ lam) (j : Fin n)
    (h : npNorm (fun k => A k j) = 0) : symCoef A lam j = .nan := by
  unfold symCoef
  rw [h]
  rcases eq_or_lt_of_le hl with h0 | h0
  · simp [← h0, XF.div, XF.sub, XF.neg, XF.add, XF.mul, XF.ofBool]
  · simp [h0, XF.div, XF.sub, XF.neg, XF.add, XF.mul, XF.ofBool, not_lt.mpr hl]

/-- C05, entrywise description for every matrix and `lamda ≥ 0`: a column that is not zero is
scaled exactly like in the column-group proximal map; a zero column becomes NaN. -/
theorem C05_blockwise_symmetric_entry {n : ℕ} (A : Matrix (Fin n) (Fin n) ℝ) {lam : ℝ}
    (hl : 0 ≤ lam) (i j : Fin n) :
    ((∃ k, A k j ≠ 0) → blockwiseSoftThresholdingSymmetric A lam i j =
      .fin (groupCoef (fun k => A k j) lam * A i j)) ∧
    ((∀ k, A k j = 0) → blockwiseSoftThresholdingSymmetric A lam i j = .nan) := by
  constructor
  · rintro ⟨k, hk⟩
    have hne : npNorm (fun k => A k j) ≠ 0 := fun h0 => hk (npNorm_eq_zero h0 k)
    unfold blockwiseSoftThresholdingSymmetric
    rw [symCoef_of_ne A lam j hne]
    have : (fun k => XF.mul (.fin (A i k)) (if k = j then
        XF.fin (groupCoef (fun k => A k j) lam) else .fin 0)) =
        fun k => .fin (if k = j then A i k * groupCoef (fun k => A k j) lam else 0) := by
      funext k; by_cases hkj : k = j <;> simp [hkj, XF.mul]
    rw [this, XF_sum_fin, Finset.sum_ite_eq' Finset.univ j]
    simp [mul_comm]
  · intro hz
    have h0 : npNorm (fun k => A k j) = 0 := by simp only [hz]; exact npNorm_zero
    refine XF_sum_nan _ j ?_
    rw [if_pos rfl, symCoef_of_zero A hl j h0]
    rfl

/-- C05, proved part: without zero columns the symmetric version is the exact column-group proximal
map and agrees with `blockwise_soft_thresholding`. Missing from the full statement: zero columns,
where it returns NaN (next theorem). -/
theorem C05_blockwise_symmetric_partial {n : ℕ} (A : Matrix (Fin n) (Fin n) ℝ) {lam : ℝ}
    (hl : 0 ≤ lam) (h : ∀ j, ∃ i, A i j ≠ 0) :
    IsFiniteColumnProx A lam (blockwiseSoftThresholdingSymmetric A lam) ∧
      blockwiseSoftThresholdingSymmetric A lam = blockwiseSoftThresholding A lam := by
  refine ⟨⟨_, fun i j => (C05_blockwise_symmetric_entry A hl i j).1 (h j),
    groupMatrix_uniqueMin A hl⟩, ?_⟩
  funext i j
  rw [(C05_blockwise_symmetric_entry A hl i j).1 (h j)]
  obtain ⟨k, hk⟩ := h j
  exact (softThresholdingVector_eq hl (Or.inr fun h0 => hk (npNorm_eq_zero h0 k)) i).symm

/-- The full statement of C05 is false, even for every strictly positive `lamda`: the zero matrix
gives NaN. -/
theorem C05_full_statement_false (lam : ℝ) (hl : 0 ≤ lam) :
    ¬ ∀ A : Matrix (Fin 2) (Fin 2) ℝ,
      IsFiniteColumnProx A lam (blockwiseSoftThresholdingSymmetric A lam) := by
  intro h
  obtain ⟨P, hP, _⟩ := h 0
  have := hP 0 0
  rw [(C05_blockwise_symmetric_entry 0 hl 0 0).2 fun _ => rfl] at this
  cases this

/-- Non-vacuity for C05: the identity matrix has no zero column. -/
example : ∀ j : Fin 2, ∃ i, (1 : Matrix (Fin 2) (Fin 2) ℝ) i j ≠ 0 := fun j => ⟨j, by simp⟩

end Verif.Props
