import Verif.Model.GroupFit
import Mathlib.Algebra.BigOperators.Field
import Mathlib.Tactic.FieldSimp
import Mathlib.Tactic.Linarith
import Mathlib.Tactic.NormNum
import Mathlib.Tactic.FinCases

/-! Property theorem C226: the intercept of the group lasso estimators. -/

namespace Verif.Props

open Verif.Model Matrix

set_option autoImplicit false
set_option linter.unusedSectionVars false

variable {n d k : ℕ}

/-- Half the sum of squared residuals of coefficients `w` and intercept `c`. -/
noncomputable def interceptLoss (X : Matrix (Fin n) (Fin d) ℝ) (y : Fin n → ℝ) (w : Fin d → ℝ) (c : ℝ) : ℝ :=
  1 / 2 * ∑ i, (X i ⬝ᵥ w + c - y i) ^ 2

/-- Data with the mean of each column taken off. -/
noncomputable def meanFree (X : Matrix (Fin n) (Fin d) ℝ) : Matrix (Fin n) (Fin d) ℝ :=
  Matrix.of fun i j => X i j - (∑ i', X i' j) / n

theorem sum_dev (hn : 0 < n) (f : Fin n → ℝ) : ∑ i, (f i - (∑ i', f i') / n) = 0 := by
  have : (n : ℝ) ≠ 0 := by positivity
  rw [Finset.sum_sub_distrib, Finset.sum_const, Finset.card_univ, Fintype.card_fin, nsmul_eq_mul]
  field_simp
  ring

/-- A sum of squares around `c` splits into the one around the mean and the distance of the means. -/
theorem sum_sq_shift (hn : 0 < n) (f : Fin n → ℝ) (c : ℝ) :
    ∑ i, (f i + c) ^ 2 = ∑ i, (f i - (∑ i', f i') / n) ^ 2 + n * ((∑ i', f i') / n + c) ^ 2 := by
  set μ := (∑ i', f i') / n with hμ
  have h : ∀ i, (f i + c) ^ 2 = (f i - μ) ^ 2 + 2 * (μ + c) * (f i - μ) + (μ + c) ^ 2 := fun i => by ring
  rw [Finset.sum_congr rfl fun i _ => h i, Finset.sum_add_distrib, Finset.sum_add_distrib, ← Finset.mul_sum, hμ,
    sum_dev hn f, Finset.sum_const, Finset.card_univ, Fintype.card_fin, nsmul_eq_mul]
  ring

theorem resid_mean (X : Matrix (Fin n) (Fin d) ℝ) (y : Fin n → ℝ) (w : Fin d → ℝ) :
    (∑ i, (X i ⬝ᵥ w - y i)) / n = (fun j => (∑ i, X i j) / n) ⬝ᵥ w - (∑ i, y i) / n := by
  rw [Finset.sum_sub_distrib, sub_div]
  congr 1
  simp only [dotProduct, Finset.sum_div]
  rw [Finset.sum_comm]
  refine Finset.sum_congr rfl fun j _ => ?_
  rw [Finset.sum_mul]
  refine Finset.sum_congr rfl fun i _ => ?_
  ring

/-- The loss with an intercept, around the loss of the centred data. -/
theorem interceptLoss_split (hn : 0 < n) (X : Matrix (Fin n) (Fin d) ℝ) (y : Fin n → ℝ) (w : Fin d → ℝ) (c : ℝ) :
    interceptLoss X y w c = interceptLoss (meanFree X) (fun i => y i - (∑ i', y i') / n) w 0 +
      n / 2 * ((fun j => (∑ i, X i j) / n) ⬝ᵥ w - (∑ i, y i) / n + c) ^ 2 := by
  unfold interceptLoss
  have e : ∀ i, (X i ⬝ᵥ w + c - y i) ^ 2 = ((X i ⬝ᵥ w - y i) + c) ^ 2 := fun i => by ring
  rw [Finset.sum_congr rfl fun i _ => e i, sum_sq_shift hn, resid_mean, mul_add]
  congr 1
  · congr 1
    refine Finset.sum_congr rfl fun i _ => ?_
    have h : meanFree X i ⬝ᵥ w = X i ⬝ᵥ w - (fun j => (∑ i, X i j) / n) ⬝ᵥ w := by
      rw [← sub_dotProduct]
      rfl
    rw [h]
    ring
  · ring

/-- C226: if the solver minimises its problem - squared error plus any penalty - on the centred data of a target, then
the fitted coefficients and intercept minimise the problem with a free intercept that is not penalised. -/
theorem C226_joint (hn : 0 < n) (solver : Matrix (Fin n) (Fin d) ℝ → (Fin n → ℝ) → (Fin d → ℝ)) (pen : (Fin d → ℝ) → ℝ)
    (X : Matrix (Fin n) (Fin d) ℝ) (Y : Matrix (Fin n) (Fin k) ℝ) (t : Fin k)
    (hs : ∀ w, let y := fun i => Y i t - (∑ i', Y i' t) / n
      interceptLoss (meanFree X) y (solver (meanFree X) y) 0 + pen (solver (meanFree X) y) ≤
        interceptLoss (meanFree X) y w 0 + pen w) (w : Fin d → ℝ) (c : ℝ) :
    interceptLoss X (fun i => Y i t) (groupCoef true solver X Y t) (groupIntercept true solver X Y t) +
        pen (groupCoef true solver X Y t) ≤ interceptLoss X (fun i => Y i t) w c + pen w := by
  have hc : groupCoef true solver X Y t = solver (meanFree X) fun i => Y i t - (∑ i', Y i' t) / n := by
    unfold groupCoef fitCentre fitOffset meanFree
    simp only [if_true, of_apply]
    rfl
  have hi : groupIntercept true solver X Y t = (∑ i, Y i t) / n -
      (fun j => (∑ i, X i j) / n) ⬝ᵥ groupCoef true solver X Y t := by
    unfold groupIntercept fitOffset
    simp
  rw [interceptLoss_split hn, interceptLoss_split hn X _ w, hi]
  have h0 := hs w
  simp only at h0
  rw [← hc] at h0
  have h1 : 0 ≤ (n : ℝ) / 2 * ((fun j => (∑ i, X i j) / n) ⬝ᵥ w - (∑ i, Y i t) / n + c) ^ 2 := by positivity
  have h2 : ((fun j => (∑ i, X i j) / (n : ℝ)) ⬝ᵥ groupCoef true solver X Y t - (∑ i, Y i t) / n +
      ((∑ i, Y i t) / n - (fun j => (∑ i, X i j) / n) ⬝ᵥ groupCoef true solver X Y t)) = 0 := by ring
  rw [h2]
  linarith

/-- C226: with an intercept, whatever the solver returns, the residuals of every target add up to zero. -/
theorem C226_residuals (hn : 0 < n) (solver : Matrix (Fin n) (Fin d) ℝ → (Fin n → ℝ) → (Fin d → ℝ))
    (X : Matrix (Fin n) (Fin d) ℝ) (Y : Matrix (Fin n) (Fin k) ℝ) (t : Fin k) :
    ∑ i, (groupPredict true solver X Y (X i) t - Y i t) = 0 := by
  have hi : groupIntercept true solver X Y t = (∑ i, Y i t) / n -
      (fun j => (∑ i, X i j) / n) ⬝ᵥ groupCoef true solver X Y t := by
    unfold groupIntercept fitOffset
    simp
  have h := sum_dev hn fun i => X i ⬝ᵥ groupCoef true solver X Y t - Y i t
  rw [resid_mean] at h
  rw [← h]
  refine Finset.sum_congr rfl fun i _ => ?_
  unfold groupPredict
  rw [hi]
  ring

/-- C226: with an intercept, moving the origin of the features by `v` and of the targets by `c` leaves the coefficients
as they are and moves the predictions by `c`, for every solver. -/
theorem C226_shift (hn : 0 < n) (solver : Matrix (Fin n) (Fin d) ℝ → (Fin n → ℝ) → (Fin d → ℝ))
    (X : Matrix (Fin n) (Fin d) ℝ) (Y : Matrix (Fin n) (Fin k) ℝ) (v : Fin d → ℝ) (c : Fin k → ℝ) :
    let X' : Matrix (Fin n) (Fin d) ℝ := Matrix.of fun i j => X i j + v j
    let Y' : Matrix (Fin n) (Fin k) ℝ := Matrix.of fun i t => Y i t + c t
    groupCoef true solver X' Y' = groupCoef true solver X Y ∧
      ∀ x, groupPredict true solver X' Y' (x + v) = groupPredict true solver X Y x + c := by
  intro X' Y'
  have hn' : (n : ℝ) ≠ 0 := by positivity
  have hoff : ∀ {e : ℕ} (Z : Matrix (Fin n) (Fin e) ℝ) (u : Fin e → ℝ),
      fitOffset true (Matrix.of fun i j => Z i j + u j) = fitOffset true Z + u := by
    intro e Z u
    funext j
    unfold fitOffset
    simp only [if_true, of_apply, Pi.add_apply]
    rw [Finset.sum_add_distrib, Finset.sum_const, Finset.card_univ, Fintype.card_fin, nsmul_eq_mul]
    field_simp
  have hcen : ∀ {e : ℕ} (Z : Matrix (Fin n) (Fin e) ℝ) (u : Fin e → ℝ),
      fitCentre true (Matrix.of fun i j => Z i j + u j) = fitCentre true Z := by
    intro e Z u
    unfold fitCentre
    rw [hoff]
    ext i j
    simp
  have hcoef : groupCoef true solver X' Y' = groupCoef true solver X Y := by
    unfold groupCoef
    rw [hcen, hcen]
  refine ⟨hcoef, fun x => ?_⟩
  funext t
  unfold groupPredict groupIntercept
  rw [hcoef, hoff, hoff]
  simp only [if_true, Pi.add_apply, add_dotProduct]
  ring

/-- C226: the shapes are those of `k` targets whenever there are at least two features. -/
theorem C226_shapes_partial (n k d : ℕ) (hd : 2 ≤ d) :
    interceptShape k d = .ok (if k = 1 then [] else [k]) ∧ predictShape n k d = .ok (if k = 1 then [n] else [n, k]) := by
  have h1 : d ≠ 1 := by omega
  unfold interceptShape predictShape squeezeShape
  by_cases hk : k = 1
  · simp [hk, h1, dotShape]
  · simp [hk, h1, dotShape]

/-- C226 fails for a single feature with several targets: the squeezed coefficients look like those of one target, and
`fit` raises `ValueError` when it computes the intercept; without intercept `predict` raises it. -/
theorem C226_single_feature_false (n k : ℕ) (hk : 2 ≤ k) :
    interceptShape k 1 = .error .value ∧ predictShape n k 1 = .error .value := by
  have h1 : k ≠ 1 := by omega
  unfold interceptShape predictShape squeezeShape
  simp [h1, h1.symm, dotShape]

/-- A solver meeting the hypothesis of the first theorem: with no penalty and no variation in the feature, zero. -/
example : ∀ w : Fin 1 → ℝ, let X : Matrix (Fin 2) (Fin 1) ℝ := !![3; 3]
    let y : Fin 2 → ℝ := fun i => (!![1; 5] : Matrix (Fin 2) (Fin 1) ℝ) i 0 - (∑ i', (!![1; 5] : Matrix (Fin 2) (Fin 1) ℝ) i' 0) / (2 : ℕ)
    interceptLoss (meanFree X) y 0 0 + 0 ≤ interceptLoss (meanFree X) y w 0 + |w 0| := by
  intro w X y
  have h : meanFree X = 0 := by
    ext i j
    fin_cases i <;> fin_cases j <;> norm_num [meanFree, X, Fin.sum_univ_two]
  have h0 : ∀ i, (0 : Matrix (Fin 2) (Fin 1) ℝ) i ⬝ᵥ w = 0 := fun i => zero_dotProduct w
  rw [h]
  unfold interceptLoss
  simp only [h0, dotProduct_zero]
  linarith [abs_nonneg (w 0)]

end Verif.Props
