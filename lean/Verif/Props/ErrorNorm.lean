import Verif.Model.Metrics
import Verif.Lemmas.Frob

/-! Property theorems C28 (error_norm). -/

namespace Verif.Props

open Verif.Spec Verif.Model Verif.Lemmas Matrix

set_option autoImplicit false

theorem errSum_all {ι : Type*} [Fintype ι] (c d : ι → ℝ) :
    errSum false c d = ∑ e, (d e - c e) ^ 2 := by simp [errSum]

/-- C28: with the defaults the result on `p x p` matrices (`p ≥ 1`) is the mean over features of the
squared Frobenius distance. -/
theorem C28_default_value {p : ℕ} (hp : 0 < p) (A B : Matrix (Fin p) (Fin p) ℝ) (sp : XF) :
    errorNorm A B "frobenius" sp true true false false = .value (.fin (frobSq (B - A) / p)) := by
  have hp' : (p : ℝ) ≠ 0 := by positivity
  simp [errorNorm, errorNormCore, errSum_all, XF.div, hp', frobSq, Fintype.sum_prod_type]

/-- C28: the default error is non-negative, symmetric in its arguments, and zero exactly for equal
matrices. -/
theorem C28_default_distance {p : ℕ} (hp : 0 < p) (A B : Matrix (Fin p) (Fin p) ℝ) (sp : XF) :
    ∃ r : ℝ, errorNorm A B "frobenius" sp true true false false = .value (.fin r) ∧ 0 ≤ r ∧
      errorNorm B A "frobenius" sp true true false false = .value (.fin r) ∧ (r = 0 ↔ A = B) := by
  have hp' : (0 : ℝ) < p := by positivity
  refine ⟨_, C28_default_value hp A B sp, div_nonneg (frobSq_nonneg _) hp'.le, ?_, ?_⟩
  · rw [C28_default_value hp B A sp, ← frobSq_neg (A - B), neg_sub]
  · rw [div_eq_zero_iff, frobSq_eq_zero_iff, sub_eq_zero]
    constructor
    · rintro (h | h)
      · exact h.symm
      · exact absurd h hp'.ne'
    · intro h; exact Or.inl h.symm

/-- C28, every combination of `scaling` and `upper_triangular` (2-d): the value is the squared
distance over the entries selected, divided by `p` when scaled; it vanishes exactly when the
selected entries agree. -/
theorem C28_selected {p : ℕ} (hp : 0 < p) (A B : Matrix (Fin p) (Fin p) ℝ) (sp : XF)
    (scaling upper : Bool) :
    ∃ r : ℝ, errorNorm A B "frobenius" sp scaling true upper false = .value (.fin r) ∧
      r = (∑ i, ∑ j, if upper = false ∨ i < j then (B i j - A i j) ^ 2 else 0)
        / (if scaling then (p : ℝ) else 1) ∧
      (r = 0 ↔ ∀ i j, (upper = false ∨ i < j) → A i j = B i j) := by
  have hp' : (p : ℝ) ≠ 0 := by positivity
  set s : ℝ := ∑ i : Fin p, ∑ j : Fin p, if upper = false ∨ i < j then (B i j - A i j) ^ 2 else 0
    with hs
  have h1 : errSum (ι := Fin p × Fin p) false
      (fun e => (if upper then triu1 A else A) e.1 e.2)
      (fun e => (if upper then triu1 B else B) e.1 e.2) = s := by
    rw [errSum_all, Fintype.sum_prod_type, hs]
    refine Finset.sum_congr rfl fun i _ => Finset.sum_congr rfl fun j _ => ?_
    cases upper
    · simp
    · by_cases h : i < j <;> simp [triu1, h]
  refine ⟨s / (if scaling then (p : ℝ) else 1), ?_, rfl, ?_⟩
  · unfold errorNorm errorNormCore
    simp only [if_true, h1]
    cases scaling <;> simp [XF.div, hp']
  · have hpos : (if scaling then (p : ℝ) else 1) ≠ 0 := by cases scaling <;> simp [hp']
    rw [div_eq_zero_iff, or_iff_left hpos, hs,
      Finset.sum_eq_zero_iff_of_nonneg fun i _ => Finset.sum_nonneg fun j _ => by
        split <;> positivity]
    constructor
    · intro h i j hij
      have h2 := (Finset.sum_eq_zero_iff_of_nonneg fun j _ => by
        split <;> positivity).mp (h i (Finset.mem_univ _)) j (Finset.mem_univ _)
      rw [if_pos hij] at h2
      have := pow_eq_zero_iff (two_ne_zero) |>.mp h2
      linarith
    · intro h i _
      refine Finset.sum_eq_zero fun j _ => ?_
      split
      · rename_i hij; rw [h i j hij]; ring
      · rfl

/-- C28: `squared=False` returns the non-negative square root of the squared result. -/
theorem C28_squared_flag {p : ℕ} (hp : 0 < p) (A B : Matrix (Fin p) (Fin p) ℝ) (sp : XF)
    (scaling upper : Bool) :
    ∃ r s : ℝ, errorNorm A B "frobenius" sp scaling true upper false = .value (.fin r) ∧
      errorNorm A B "frobenius" sp scaling false upper false = .value (.fin s) ∧ 0 ≤ s ∧
      s ^ 2 = r := by
  obtain ⟨r, h1, h2, _⟩ := C28_selected hp A B sp scaling upper
  have hr : 0 ≤ r := by
    rw [h2]
    refine div_nonneg (Finset.sum_nonneg fun i _ => Finset.sum_nonneg fun j _ => ?_) ?_
    · split <;> positivity
    · cases scaling <;> simp
  refine ⟨r, Real.sqrt r, h1, ?_, Real.sqrt_nonneg _, Real.sq_sqrt hr⟩
  unfold errorNorm errorNormCore at h1 ⊢
  simp only [if_true, ErrResult.value.injEq, Bool.false_eq_true, if_false] at h1 ⊢
  rw [h1]
  simp [xfSqrt, not_lt.mpr hr]

/-- C28, 3-d arrays: the scaled value is the mean squared difference over all entries (or over the
strict upper triangles). -/
theorem C28_batch {T p : ℕ} (hT : 0 < T) (hp : 1 < p) (A B : Fin T → Matrix (Fin p) (Fin p) ℝ)
    (sp : XF) (upper : Bool) :
    errorNorm3 A B "frobenius" sp true true upper false = .value (.fin
      ((∑ t, ∑ i, ∑ j, if upper = false ∨ i < j then (B t i j - A t i j) ^ 2 else 0)
        / ((Finset.univ.filter fun e : Fin T × Fin p × Fin p =>
          upper = false ∨ e.2.1 < e.2.2).card : ℝ))) := by
  have h1 : errSum (ι := Fin T × Fin p × Fin p) false
      (fun e => (if upper then triu1 (A e.1) else A e.1) e.2.1 e.2.2)
      (fun e => (if upper then triu1 (B e.1) else B e.1) e.2.1 e.2.2) =
      ∑ t, ∑ i, ∑ j, if upper = false ∨ i < j then (B t i j - A t i j) ^ 2 else 0 := by
    rw [errSum_all, Fintype.sum_prod_type]
    refine Finset.sum_congr rfl fun t _ => ?_
    rw [Fintype.sum_prod_type]
    refine Finset.sum_congr rfl fun i _ => Finset.sum_congr rfl fun j _ => ?_
    cases upper
    · simp
    · by_cases h : i < j <;> simp [triu1, h]
  have hcard : ((Finset.univ.filter fun e : Fin T × Fin p × Fin p =>
      upper = false ∨ e.2.1 < e.2.2).card : ℝ) =
      (T * p : ℝ) * (if upper then ((p : ℝ) - 1) / 2 else p) := by
    cases upper
    · simp [Fintype.card_prod]; ring
    · have hsplit : (Finset.univ.filter fun e : Fin T × Fin p × Fin p => e.2.1 < e.2.2).card =
          ∑ t : Fin T, ∑ j : Fin p, (j : ℕ) := by
        rw [Finset.card_filter, Fintype.sum_prod_type]
        refine Finset.sum_congr rfl fun t _ => ?_
        rw [Fintype.sum_prod_type_right]
        refine Finset.sum_congr rfl fun j _ => ?_
        rw [← Finset.card_filter]
        have : (Finset.univ.filter fun i : Fin p => i < j) = Finset.Iio j := by ext; simp
        simp only [this, Fin.card_Iio]
      simp only [Bool.true_eq_false, false_or, hsplit]
      have h2 : 2 * ∑ j : Fin p, (j : ℕ) = p * (p - 1) := by
        rw [Fin.sum_univ_eq_sum_range (fun x => x), mul_comm, Finset.sum_range_id_mul_two]
      have h3 : (2 : ℝ) * ((∑ j : Fin p, (j : ℕ) : ℕ) : ℝ) = p * (p - 1) := by
        have := congrArg (Nat.cast (R := ℝ)) h2
        push_cast [Nat.cast_sub hp.le] at this ⊢
        exact this
      simp only [Finset.sum_const, Finset.card_univ, Fintype.card_fin, smul_eq_mul, if_true]
      rw [Nat.cast_mul]
      linear_combination (T : ℝ) / 2 * h3
  have hne : (T * p : ℝ) * (if upper then ((p : ℝ) - 1) / 2 else p) ≠ 0 := by
    have : (1 : ℝ) < p := by exact_mod_cast hp
    have : (0 : ℝ) < T := by exact_mod_cast hT
    cases upper
    · simp; exact ⟨by linarith, by linarith⟩
    · simp only [if_true]
      have h4 : 0 < ((p : ℝ) - 1) / 2 := by linarith
      positivity
  rw [hcard]
  unfold errorNorm3 errorNormCore
  simp only [if_true, h1, Bool.false_eq_true, if_false, XF.div, ne_eq, hne, not_false_eq_true]

/-- C28: any other norm name raises `NotImplementedError`. -/
theorem C28_unknown_norm {p : ℕ} (A B : Matrix (Fin p) (Fin p) ℝ) (norm : String) (sp : XF)
    (h1 : norm ≠ "frobenius") (h2 : norm ≠ "spectral") (sc sq u nz : Bool) :
    errorNorm A B norm sp sc sq u nz = .notImplemented := by
  simp [errorNorm, errorNormCore, h1, h2]

/-- C28 is false for `nonzero=True`: the result never depends on the entries where the reference is
nonzero (it measures the complement). -/
theorem C28_nonzero_false {p : ℕ} (A B B' : Matrix (Fin p) (Fin p) ℝ)
    (h : ∀ i j, A i j = 0 → B i j = B' i j) (sp : XF) (sc sq : Bool) :
    errorNorm A B "frobenius" sp sc sq false true = errorNorm A B' "frobenius" sp sc sq false true := by
  have : errSum (ι := Fin p × Fin p) true (fun e => A e.1 e.2) (fun e => B e.1 e.2) =
      errSum (ι := Fin p × Fin p) true (fun e => A e.1 e.2) (fun e => B' e.1 e.2) := by
    unfold errSum
    simp only [if_true]
    refine Finset.sum_congr rfl fun e he => ?_
    rw [h e.1 e.2 (Finset.mem_filter.mp he).2]
  simp only [errorNorm, errorNormCore, if_true, Bool.false_eq_true, if_false, this]

/-- Concrete witness: the estimate `2 I` of the reference `I` gets error 0 with `nonzero=True`. -/
theorem C28_nonzero_counterexample (sp : XF) :
    errorNorm (1 : Matrix (Fin 2) (Fin 2) ℝ) ((2 : ℝ) • 1) "frobenius" sp true true false true =
      .value (.fin 0) := by
  rw [C28_nonzero_false 1 ((2 : ℝ) • 1) 1 (fun i j h => by rw [Matrix.smul_apply, h, smul_zero])]
  have h0 : errSum (ι := Fin 2 × Fin 2) true (fun e => (1 : Matrix (Fin 2) (Fin 2) ℝ) e.1 e.2)
      (fun e => (1 : Matrix (Fin 2) (Fin 2) ℝ) e.1 e.2) = 0 := by
    unfold errSum; simp
  have hc : ((Finset.univ.filter fun e : Fin 2 × Fin 2 =>
      (1 : Matrix (Fin 2) (Fin 2) ℝ) e.1 e.2 = 0).card : ℝ) ≠ 0 := by
    rw [Nat.cast_ne_zero]
    exact Finset.card_ne_zero_of_mem (a := ((0 : Fin 2), (1 : Fin 2))) (by simp)
  unfold errorNorm errorNormCore
  simp only [if_true, Bool.false_eq_true, if_false, h0, XF.div, ne_eq, hc, not_false_eq_true,
    zero_div]

example : (C28_default_distance (p := 3) (by norm_num) 1 ((2 : ℝ) • 1) .nan).choose ≠ 0 := by
  have h := (C28_default_distance (p := 3) (by norm_num) 1 ((2 : ℝ) • 1) .nan).choose_spec
  rw [ne_eq, h.2.2.2]
  intro he
  have := congrFun (congrFun he 0) 0
  simp at this

end Verif.Props
