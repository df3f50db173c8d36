import Verif.Model.Metrics
import Verif.Lemmas.Spectral

/-! Property theorems C31 (ensure_posdef) and C32 (threshold). -/

namespace Verif.Props

open Verif.Model Verif.Lemmas Matrix

set_option autoImplicit false

variable {n : Type*} [Fintype n] [DecidableEq n]

/-- A symmetric, strictly diagonally dominant matrix with positive diagonal is positive definite. -/
theorem posDef_of_dominant {A : Matrix n n ℝ} (hs : A.IsSymm) {c : ℝ} (hc : 0 < c)
    (hd : ∀ i, (∑ j, if i = j then 0 else |A i j|) + c ≤ A i i) : A.PosDef := by
  refine PosDef.of_dotProduct_mulVec_pos (isHermitian_of_isSymm hs) fun x hx => ?_
  have hpos : 0 < ∑ i, x i ^ 2 := by
    obtain ⟨i, hi⟩ := Function.ne_iff.mp hx
    have : 0 < x i ^ 2 := by have : x i ≠ 0 := hi; positivity
    exact Finset.sum_pos' (fun j _ => sq_nonneg _) ⟨i, Finset.mem_univ _, this⟩
  have hq : star x ⬝ᵥ (A *ᵥ x) = ∑ i, ∑ j, x i * A i j * x j := by
    simp only [dotProduct, mulVec, Pi.star_apply, star_trivial, Finset.mul_sum, mul_assoc]
  rw [hq]
  -- off-diagonal terms
  have hterm : ∀ i j, (if i = j then A i i * x i ^ 2 else -(|A i j| * ((x i ^ 2 + x j ^ 2) / 2)))
      ≤ x i * A i j * x j := by
    intro i j
    by_cases h : i = j
    · subst h; simp only [if_true]; apply le_of_eq; ring
    · rw [if_neg h]
      have h1 : |x i * A i j * x j| = |A i j| * (|x i| * |x j|) := by
        rw [abs_mul, abs_mul]; ring
      have h2 : |x i| * |x j| ≤ (x i ^ 2 + x j ^ 2) / 2 := by
        rw [← sq_abs (x i), ← sq_abs (x j)]
        nlinarith [sq_nonneg (|x i| - |x j|)]
      have h3 := mul_le_mul_of_nonneg_left h2 (abs_nonneg (A i j))
      have h4 := neg_abs_le (x i * A i j * x j)
      rw [h1] at h4
      linarith
  have hsum := Finset.sum_le_sum fun i (_ : i ∈ Finset.univ) =>
    Finset.sum_le_sum fun j (_ : j ∈ Finset.univ) => hterm i j
  refine lt_of_lt_of_le ?_ hsum
  have split : ∀ i, (∑ j, if i = j then A i i * x i ^ 2
        else -(|A i j| * ((x i ^ 2 + x j ^ 2) / 2))) =
      A i i * x i ^ 2 - (∑ j, if i = j then 0 else |A i j| * (x i ^ 2 / 2))
        - ∑ j, if i = j then 0 else |A i j| * (x j ^ 2 / 2) := by
    intro i
    have : A i i * x i ^ 2 = ∑ j, if i = j then A i i * x i ^ 2 else 0 := by simp
    rw [this, ← Finset.sum_sub_distrib, ← Finset.sum_sub_distrib]
    refine Finset.sum_congr rfl fun j _ => ?_
    by_cases h : i = j
    · simp [h]
    · simp [h]; ring
  simp only [split, Finset.sum_sub_distrib]
  have hswap : ∑ i, ∑ j, (if i = j then 0 else |A i j| * (x j ^ 2 / 2)) =
      ∑ i, ∑ j, (if i = j then 0 else |A i j| * (x i ^ 2 / 2)) := by
    rw [Finset.sum_comm]
    refine Finset.sum_congr rfl fun i _ => Finset.sum_congr rfl fun j _ => ?_
    by_cases h : i = j
    · simp [h]
    · rw [if_neg h, if_neg (Ne.symm h), hs.apply i j]
  rw [hswap]
  have hrow : ∀ i, c * x i ^ 2 ≤ A i i * x i ^ 2
      - (∑ j, if i = j then 0 else |A i j| * (x i ^ 2 / 2))
      - (∑ j, if i = j then 0 else |A i j| * (x i ^ 2 / 2)) := by
    intro i
    have e : (∑ j, if i = j then 0 else |A i j| * (x i ^ 2 / 2)) =
        (∑ j, if i = j then 0 else |A i j|) * (x i ^ 2 / 2) := by
      rw [Finset.sum_mul]
      refine Finset.sum_congr rfl fun j _ => ?_
      by_cases h : i = j <;> simp [h]
    rw [e]
    have := mul_le_mul_of_nonneg_right (hd i) (sq_nonneg (x i))
    linarith
  have hs2 := Finset.sum_le_sum fun i (_ : i ∈ Finset.univ) => hrow i
  simp only [Finset.sum_sub_distrib, ← Finset.mul_sum] at hs2
  have : 0 < c * ∑ i, x i ^ 2 := by positivity
  linarith

/-- C31: after `ensure_posdef` a symmetric matrix is symmetric positive definite, its off-diagonal
entries are unchanged, and a positive definite matrix is left as it was. -/
theorem C31_ensure_posdef (X : Matrix n n ℝ) (hX : X.IsSymm) :
    ∃ Y, ensurePosdef X true = .done Y ∧ Y.PosDef ∧ Y.IsSymm ∧
      (∀ i j, i ≠ j → Y i j = X i j) ∧ (X.PosDef → Y = X) := by
  have hoff : ∀ i j, i ≠ j → ensurePosdef2d X i j = X i j := by
    intro i j h
    unfold ensurePosdef2d
    split
    · rfl
    · simp [fillDiagonal, h]
  have hsym : (ensurePosdef2d X).IsSymm := by
    ext i j
    rw [transpose_apply]
    by_cases h : i = j
    · rw [h]
    · rw [hoff i j h, hoff j i (Ne.symm h), hX.apply]
  refine ⟨ensurePosdef2d X, by simp [ensurePosdef], ?_, hsym, hoff, ?_⟩
  · by_cases hpd : X.PosDef
    · unfold ensurePosdef2d
      rw [if_pos (by simp [isPosDef, hpd])]
      exact hpd
    · refine posDef_of_dominant hsym (c := 0.1) (by norm_num) fun i => ?_
      have h1 : ensurePosdef2d X i i = (∑ j, |(X - diagonal fun k => X k k) i j|) + 0.1 := by
        unfold ensurePosdef2d
        rw [if_neg (by simp [isPosDef, hpd])]
        simp [fillDiagonal]
      rw [h1]
      apply le_of_eq
      congr 1
      refine Finset.sum_congr rfl fun j _ => ?_
      by_cases h : i = j
      · subst h; simp
      · rw [if_neg h, hoff i j h]; simp [h]
  · intro hpd
    unfold ensurePosdef2d
    rw [if_pos (by simp [isPosDef, hpd])]

/-- C31: batches are treated matrix by matrix; afterwards every matrix is positive definite. -/
theorem C31_ensure_posdef_batch (Xs : List (Matrix n n ℝ)) (hX : ∀ X ∈ Xs, X.IsSymm) :
    ∃ Ys, ensurePosdefBatch Xs true = .done Ys ∧ Ys.length = Xs.length ∧ (∀ Y ∈ Ys, Y.PosDef) ∧
      ∀ (k : ℕ) (X : Matrix n n ℝ), Xs[k]? = some X →
        ∃ Y, Ys[k]? = some Y ∧ ensurePosdef X true = .done Y := by
  refine ⟨Xs.map ensurePosdef2d, by simp [ensurePosdefBatch], by simp, ?_, ?_⟩
  · intro Y hY
    obtain ⟨X, hXm, rfl⟩ := List.mem_map.mp hY
    obtain ⟨Y, h1, h2, _⟩ := C31_ensure_posdef X (hX X hXm)
    simp only [ensurePosdef, Bool.not_true, Bool.false_eq_true, if_false, InPlace.done.injEq] at h1
    rw [h1]; exact h2
  · intro k X h
    exact ⟨ensurePosdef2d X, by simp [h], by simp [ensurePosdef]⟩

/-- C31: applying it twice changes nothing more. -/
theorem C31_idempotent (X Y : Matrix n n ℝ) (hX : X.IsSymm) (h : ensurePosdef X true = .done Y) :
    ensurePosdef Y true = .done Y := by
  obtain ⟨Y', h1, h2, _, _, _⟩ := C31_ensure_posdef X hX
  rw [h] at h1
  cases h1
  obtain ⟨Z, h3, _, _, _, h4⟩ := C31_ensure_posdef Y h2.isSymm'
  rw [h3, h4 h2]

/-- C31: `inplace=False` raises. -/
theorem C31_not_inplace (X : Matrix n n ℝ) : ensurePosdef X false = .notImplemented := rfl

/-- Non-vacuity for C31: the zero matrix is symmetric and not positive definite. -/
example : (0 : Matrix (Fin 2) (Fin 2) ℝ).IsSymm ∧ ¬ (0 : Matrix (Fin 2) (Fin 2) ℝ).PosDef :=
  ⟨by simp, fun h => by have := h.diag_pos (i := 0); simp at this⟩

/-! ### C32 -/

/-- The value is below the (optional) lower or above the (optional) upper bound. -/
def OutOfRange (lo hi : Option XF) (x : XF) : Prop :=
  (∃ l, lo = some l ∧ XF.lt x l) ∨ (∃ h, hi = some h ∧ XF.lt h x)

/-- C32: exactly the out-of-range entries are replaced (NaN entries are never out of range). -/
theorem C32_threshold {ι : Type*} (a : ι → XF) (lo hi : Option XF) (v : XF) (e : ι) :
    (OutOfRange lo hi (a e) → thresholdArr a lo hi v e = v) ∧
    (¬ OutOfRange lo hi (a e) → thresholdArr a lo hi v e = a e) := by
  unfold thresholdArr OutOfRange
  cases lo <;> cases hi <;> simp <;> tauto

/-- C32: with a replacement value in range a second application changes nothing. -/
theorem C32_idempotent {ι : Type*} (a : ι → XF) (lo hi : Option XF) (v : XF)
    (hv : ¬ OutOfRange lo hi v) :
    thresholdArr (thresholdArr a lo hi v) lo hi v = thresholdArr a lo hi v := by
  funext e
  refine (C32_threshold _ lo hi v e).2 ?_
  by_cases h : OutOfRange lo hi (a e)
  · rw [(C32_threshold a lo hi v e).1 h]; exact hv
  · rw [(C32_threshold a lo hi v e).2 h]; exact h

/-- C32: no entry is out of range afterwards. -/
theorem C32_in_range {ι : Type*} (a : ι → XF) (lo hi : Option XF) (v : XF)
    (hv : ¬ OutOfRange lo hi v) (e : ι) : ¬ OutOfRange lo hi (thresholdArr a lo hi v e) := by
  by_cases h : OutOfRange lo hi (a e)
  · rw [(C32_threshold a lo hi v e).1 h]; exact hv
  · rw [(C32_threshold a lo hi v e).2 h]; exact h

/-- Non-vacuity for C32. -/
example : OutOfRange (some (.fin 0)) none (.fin (-1)) ∧ ¬ OutOfRange (some (.fin 0)) none (.fin 0) ∧
    ¬ OutOfRange (some (.fin 0)) (some (.fin 1)) .nan := by
  refine ⟨Or.inl ⟨_, rfl, ?_⟩, ?_, ?_⟩ <;> simp [OutOfRange, XF.lt]

end Verif.Props
