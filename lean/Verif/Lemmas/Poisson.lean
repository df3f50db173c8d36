import Verif.Model.Poisson
import Verif.Lemmas.Fejer
import Verif.Props.GLM
import Mathlib.Analysis.SpecialFunctions.Exponential

/-! Lemmas on the Poisson neighbourhood regression. -/

namespace Verif.Lemmas

open Verif.Model Verif.Spec Verif.Props Filter Topology

set_option autoImplicit false
set_option linter.unusedSectionVars false

variable {ι : Type*} [Fintype ι]

/-- The three branches of soft-thresholding. -/
theorem softScalar_cases {t : ℝ} (ht : 0 ≤ t) (y : ℝ) : (t < y ∧ softScalar y t = y - t) ∨
    (y < -t ∧ softScalar y t = y + t) ∨ (-t ≤ y ∧ y ≤ t ∧ softScalar y t = 0) := by
  rcases lt_or_ge t y with h | h
  · exact Or.inl ⟨h, softScalar_of_pos ht h⟩
  · rcases lt_or_ge y (-t) with h2 | h2
    · exact Or.inr (Or.inl ⟨h2, softScalar_of_neg ht h2⟩)
    · exact Or.inr (Or.inr ⟨h2, h, softScalar_of_abs_le (abs_le.mpr ⟨h2, h⟩)⟩)

/-- Two soft-thresholded steps with the same gradient do not increase the quadratic model. -/
theorem soft_twice {t : ℝ} (ht : 0 ≤ t) (x c : ℝ) :
    c * (softScalar (softScalar (x - c) t - c) t - x) + t * |softScalar (softScalar (x - c) t - c) t| +
      1 / 2 * (softScalar (softScalar (x - c) t - c) t - x) ^ 2 ≤ t * |x| := by
  have hx1 := le_abs_self x
  have hx2 := neg_abs_le x
  obtain ⟨h1, e1⟩ | ⟨h1, e1⟩ | ⟨h1, h1', e1⟩ := softScalar_cases ht (x - c)
  · rw [e1]
    obtain ⟨h2, e2⟩ | ⟨h2, e2⟩ | ⟨h2, h2', e2⟩ := softScalar_cases ht (x - c - t - c)
    · rw [e2, abs_of_pos (by linarith)]
      nlinarith
    · rw [e2, abs_of_neg (by linarith)]
      nlinarith
    · rw [e2, abs_zero]
      nlinarith
  · rw [e1]
    obtain ⟨h2, e2⟩ | ⟨h2, e2⟩ | ⟨h2, h2', e2⟩ := softScalar_cases ht (x - c + t - c)
    · rw [e2, abs_of_pos (by linarith)]
      nlinarith
    · rw [e2, abs_of_neg (by linarith)]
      nlinarith
    · rw [e2, abs_zero]
      nlinarith
  · rw [e1]
    obtain ⟨h2, e2⟩ | ⟨h2, e2⟩ | ⟨h2, h2', e2⟩ := softScalar_cases ht (0 - c)
    · rw [e2, abs_of_pos (by linarith)]
      rcases le_total 0 x with hx | hx
      · rw [abs_of_nonneg hx]; nlinarith
      · rw [abs_of_nonpos hx]; nlinarith
    · rw [e2, abs_of_neg (by linarith)]
      rcases le_total 0 x with hx | hx
      · rw [abs_of_nonneg hx]; nlinarith
      · rw [abs_of_nonpos hx]; nlinarith
    · rw [e2, abs_zero]
      rcases le_total 0 x with hx | hx
      · rw [abs_of_nonneg hx]; nlinarith
      · rw [abs_of_nonpos hx]; nlinarith

/-! ### The points of the line search -/

/-- One proximal gradient step. -/
noncomputable def oneStep (alpha gamma : ℝ) (grad x : ι → ℝ) : ι → ℝ :=
  softThresholding (fun k => x k - gamma * grad k) (alpha * gamma)

/-- Acceptance in the line search. -/
def Accepts (loss : (ι → ℝ) → ℝ) (grad old theta : ι → ℝ) (gamma : ℝ) : Prop :=
  loss theta ≤ searchBound loss grad old theta gamma

/-- What a search that ends returns: a single step if the first trial is accepted, otherwise a double step with a
smaller step size, the previous trial having been rejected. -/
theorem lineSearch_cases (loss : (ι → ℝ) → ℝ) (grad old : ι → ℝ) (alpha shrink : ℝ) (fuel : ℕ) :
    ∀ (theta0 : ι → ℝ) (gamma0 : ℝ) (theta : ι → ℝ) (gamma : ℝ),
    lineSearch loss grad old alpha shrink fuel theta0 gamma0 = some (theta, gamma) →
    Accepts loss grad old theta gamma ∧
    ((gamma = gamma0 ∧ theta = oneStep alpha gamma grad theta0) ∨
     ∃ k, gamma = shrink ^ (k + 1) * gamma0 ∧
      theta = oneStep alpha gamma grad (oneStep alpha gamma grad old) ∧
      ((k = 0 ∧ ¬ Accepts loss grad old (oneStep alpha gamma0 grad theta0) gamma0) ∨
       (0 < k ∧ ¬ Accepts loss grad old (oneStep alpha (shrink ^ k * gamma0) grad
        (oneStep alpha (shrink ^ k * gamma0) grad old)) (shrink ^ k * gamma0)))) := by
  induction fuel with
  | zero => intro theta0 gamma0 theta gamma h; simp [lineSearch] at h
  | succ fuel ih =>
    intro theta0 gamma0 theta gamma h
    unfold lineSearch at h
    simp only at h
    split at h
    · rename_i hrej
      obtain ⟨hacc, hr⟩ := ih _ _ _ _ h
      refine ⟨hacc, Or.inr ?_⟩
      have hrej' : ¬ Accepts loss grad old (oneStep alpha gamma0 grad theta0) gamma0 := not_le.mpr hrej
      rcases hr with ⟨hg, ht⟩ | ⟨k, hg, ht, hk⟩
      · refine ⟨0, by rw [hg]; ring, ?_, Or.inl ⟨rfl, hrej'⟩⟩
        rw [ht]
        show oneStep alpha gamma grad (oneStep alpha (shrink * gamma0) grad old) = _
        rw [hg]
      · refine ⟨k + 1, by rw [hg]; ring, ht, Or.inr ⟨Nat.succ_pos k, ?_⟩⟩
        rcases hk with ⟨rfl, hk⟩ | ⟨hk0, hk⟩
        · have e : shrink ^ (0 + 1) * gamma0 = shrink * gamma0 := by ring
          rw [e]
          exact hk
        · have e : shrink ^ (k + 1) * gamma0 = shrink ^ k * (shrink * gamma0) := by ring
          rw [e]
          exact hk
    · rename_i hle
      obtain ⟨rfl, rfl⟩ := Prod.mk.inj (Option.some.inj h)
      exact ⟨not_lt.mp hle, Or.inl ⟨rfl, rfl⟩⟩

/-- The search ends if small steps are accepted. -/
theorem lineSearch_ends (loss : (ι → ℝ) → ℝ) (grad old : ι → ℝ) {alpha shrink gs : ℝ} (hs0 : 0 < shrink)
    (hs1 : shrink < 1) :
    ∀ (n : ℕ) (theta0 : ι → ℝ) (gamma0 : ℝ), 0 < gamma0 → shrink ^ n * gamma0 ≤ gs →
    (∀ g, 0 < g → g ≤ gs → g ≤ gamma0 → Accepts loss grad old (oneStep alpha g grad (oneStep alpha g grad old)) g) →
    (theta0 = oneStep alpha gamma0 grad old ∨
      (gamma0 ≤ gs → Accepts loss grad old (oneStep alpha gamma0 grad theta0) gamma0)) →
    ∃ fuel, (lineSearch loss grad old alpha shrink fuel theta0 gamma0).isSome := by
  intro n
  induction n with
  | zero =>
    intro theta0 gamma0 hg0 hle hacc hst
    rw [pow_zero, one_mul] at hle
    refine ⟨1, ?_⟩
    have h1 : Accepts loss grad old (oneStep alpha gamma0 grad theta0) gamma0 := by
      rcases hst with rfl | h
      · exact hacc _ hg0 hle le_rfl
      · exact h hle
    unfold lineSearch
    simp only
    split
    · rename_i hr
      exact absurd h1 (not_le.mpr hr)
    · rfl
  | succ n ih =>
    intro theta0 gamma0 hg0 hle hacc hst
    by_cases h1 : Accepts loss grad old (oneStep alpha gamma0 grad theta0) gamma0
    · refine ⟨1, ?_⟩
      unfold lineSearch
      simp only
      split
      · rename_i hr
        exact absurd h1 (not_le.mpr hr)
      · rfl
    · have hsg : shrink * gamma0 ≤ gamma0 := by nlinarith
      obtain ⟨fuel, hf⟩ := ih (oneStep alpha (shrink * gamma0) grad old) (shrink * gamma0) (by positivity)
        (by rw [pow_succ] at hle; linarith) (fun g hg hgg hg' => hacc g hg hgg (hg'.trans hsg)) (Or.inl rfl)
      refine ⟨fuel + 1, ?_⟩
      unfold lineSearch
      simp only
      split
      · exact hf
      · rename_i hr
        exact absurd (not_lt.mp hr) h1

theorem searchWhile_spec (loss : (ι → ℝ) → ℝ) (grad old : ι → ℝ) (alpha shrink : ℝ) (theta : ι → ℝ) (gamma : ℝ)
    {r : (ι → ℝ) × ℝ} (h : searchWhile loss grad old alpha shrink theta gamma = some r) :
    ∃ fuel, lineSearch loss grad old alpha shrink fuel theta gamma = some r := by
  unfold searchWhile at h
  split at h
  · exact ⟨_, h⟩
  · exact absurd h (by simp)

theorem searchWhile_isSome (loss : (ι → ℝ) → ℝ) (grad old : ι → ℝ) (alpha shrink : ℝ) (theta : ι → ℝ) (gamma : ℝ)
    (h : ∃ fuel, (lineSearch loss grad old alpha shrink fuel theta gamma).isSome) :
    ∃ r, searchWhile loss grad old alpha shrink theta gamma = some r := by
  unfold searchWhile
  rw [dif_pos h]
  classical
  exact Option.isSome_iff_exists.mp (Nat.find_spec h)

/-! ### Descent -/

theorem twoStep_descent (loss : (ι → ℝ) → ℝ) (grad old : ι → ℝ) {alpha gamma : ℝ} (ha : 0 ≤ alpha) (hg : 0 < gamma)
    (h : Accepts loss grad old (oneStep alpha gamma grad (oneStep alpha gamma grad old)) gamma) :
    loss (oneStep alpha gamma grad (oneStep alpha gamma grad old)) +
      alpha * absSum (oneStep alpha gamma grad (oneStep alpha gamma grad old)) ≤ loss old + alpha * absSum old := by
  set p := oneStep alpha gamma grad (oneStep alpha gamma grad old) with hp
  unfold Accepts searchBound at h
  have h1 : ∀ k, grad k * (p k - old k) + alpha * |p k| + (old k - p k) ^ 2 / (2 * gamma) ≤ alpha * |old k| := by
    intro k
    have h2 := soft_twice (mul_nonneg ha hg.le) (old k) (gamma * grad k)
    have e : softScalar (softScalar (old k - gamma * grad k) (alpha * gamma) - gamma * grad k) (alpha * gamma) =
      p k := rfl
    rw [e] at h2
    have h3 := mul_le_mul_of_nonneg_left h2 (one_div_pos.mpr hg).le
    have e1 : 1 / gamma * (gamma * grad k * (p k - old k) + alpha * gamma * |p k| + 1 / 2 * (p k - old k) ^ 2) =
      grad k * (p k - old k) + alpha * |p k| + (old k - p k) ^ 2 / (2 * gamma) := by field_simp; ring
    have e2 : 1 / gamma * (alpha * gamma * |old k|) = alpha * |old k| := by field_simp
    rw [e1, e2] at h3
    exact h3
  have h2 := Finset.sum_le_sum fun k (_ : k ∈ Finset.univ) => h1 k
  simp only [Finset.sum_add_distrib, ← Finset.mul_sum, ← Finset.sum_div] at h2
  have e : ∑ k, grad k * (old k - p k) = -∑ k, grad k * (p k - old k) := by
    rw [← Finset.sum_neg_distrib]; exact Finset.sum_congr rfl fun k _ => by ring
  unfold absSum
  linarith

theorem accepts_smooth (loss : (ι → ℝ) → ℝ) (grad old theta : ι → ℝ) {gamma : ℝ} (h : Accepts loss grad old theta gamma) :
    loss theta ≤ loss old + (∑ k, grad k * (theta k - old k)) + (1 / (2 * gamma)) * ∑ k, (theta k - old k) ^ 2 := by
  unfold Accepts searchBound at h
  have e : ∑ k, grad k * (old k - theta k) = -∑ k, grad k * (theta k - old k) := by
    rw [← Finset.sum_neg_distrib]; exact Finset.sum_congr rfl fun k _ => by ring
  have e2 : ∑ k, (old k - theta k) ^ 2 = ∑ k, (theta k - old k) ^ 2 := Finset.sum_congr rfl fun k _ => by ring
  rw [e, e2, div_eq_inv_mul] at h
  rw [one_div]
  linarith

theorem oneStep_descent (loss : (ι → ℝ) → ℝ) (grad old : ι → ℝ) {alpha gamma : ℝ} (ha : 0 ≤ alpha) (hg : 0 < gamma)
    (h : Accepts loss grad old (oneStep alpha gamma grad old) gamma) :
    loss (oneStep alpha gamma grad old) + alpha * absSum (oneStep alpha gamma grad old) ≤
      loss old + alpha * absSum old := by
  have h1 := prox_grad_step ha hg loss old grad old (by simp) (accepts_smooth _ _ _ _ h)
  have e : sqDist old old = 0 := by unfold sqDist; simp
  rw [e] at h1
  have h2 : 0 ≤ 1 / (2 * gamma) * sqDist (softThresholding (fun k => old k - gamma * grad k) (alpha * gamma)) old :=
    mul_nonneg (by positivity) (sqDist_nonneg' _ _)
  unfold oneStep
  linarith

/-- Every accepted point of the search is at most as costly as the previous iterate. -/
theorem search_descent (loss : (ι → ℝ) → ℝ) (grad old : ι → ℝ) {alpha shrink gamma0 gamma : ℝ} (ha : 0 ≤ alpha)
    (hs0 : 0 < shrink) (hg : 0 < gamma0) {theta : ι → ℝ}
    (h : searchWhile loss grad old alpha shrink old gamma0 = some (theta, gamma)) :
    loss theta + alpha * absSum theta ≤ loss old + alpha * absSum old := by
  obtain ⟨fuel, hf⟩ := searchWhile_spec _ _ _ _ _ _ _ h
  obtain ⟨hacc, ⟨rfl, rfl⟩ | ⟨k, hk, ht, -⟩⟩ := lineSearch_cases _ _ _ _ _ _ _ _ _ _ hf
  · exact oneStep_descent loss grad old ha hg hacc
  · have hg' : 0 < gamma := by rw [hk]; positivity
    rw [ht] at hacc ⊢
    exact twoStep_descent loss grad old ha hg' hacc

/-! ### How far the trials go -/

theorem softScalar_move {t : ℝ} (ht : 0 ≤ t) (x c : ℝ) : |softScalar (x - c) t - x| ≤ |c| + t := by
  have h1 := le_abs_self c
  have h2 := neg_abs_le c
  obtain ⟨h, e⟩ | ⟨h, e⟩ | ⟨h, h', e⟩ := softScalar_cases ht (x - c) <;> rw [e, abs_le] <;> constructor <;> linarith

theorem oneStep_move {alpha gamma : ℝ} (ha : 0 ≤ alpha) (hg : 0 ≤ gamma) (grad x : ι → ℝ) (k : ι) :
    |oneStep alpha gamma grad x k - x k| ≤ gamma * (|grad k| + alpha) := by
  have h := softScalar_move (mul_nonneg ha hg) (x k) (gamma * grad k)
  rw [abs_mul, abs_of_nonneg hg] at h
  calc _ ≤ _ := h
    _ = _ := by ring

theorem twoStep_move {alpha gamma : ℝ} (ha : 0 ≤ alpha) (hg : 0 ≤ gamma) (grad x : ι → ℝ) (k : ι) :
    |oneStep alpha gamma grad (oneStep alpha gamma grad x) k - x k| ≤ 2 * (gamma * (|grad k| + alpha)) := by
  have h1 := oneStep_move ha hg grad x k
  have h2 := oneStep_move ha hg grad (oneStep alpha gamma grad x) k
  have h3 := abs_add_le (oneStep alpha gamma grad (oneStep alpha gamma grad x) k - oneStep alpha gamma grad x k)
    (oneStep alpha gamma grad x k - x k)
  rw [sub_add_sub_cancel] at h3
  linarith

/-! ### Smoothness of the Poisson loss on bounded sets -/

theorem exp_upper (a b : ℝ) : Real.exp b ≤ Real.exp a + Real.exp a * (b - a) + Real.exp (max a b) * (b - a) ^ 2 := by
  set h := b - a with hh
  have hb : b = a + h := by rw [hh]; ring
  have hea := Real.exp_pos a
  rcases le_total 0 h with h0 | h0
  · have hm : max a b = b := max_eq_right (by linarith)
    rw [hm, hb, Real.exp_add]
    have h1 : Real.exp h ≤ 1 + h + Real.exp h * h ^ 2 := by
      have h2 := Real.add_one_le_exp (-h)
      have h3 : Real.exp h * Real.exp (-h) = 1 := by rw [← Real.exp_add]; simp
      have h4 := mul_le_mul_of_nonneg_left h2 (mul_nonneg (by linarith : 0 ≤ 1 + h) (Real.exp_pos h).le)
      have e : (1 + h) * Real.exp h * Real.exp (-h) = 1 + h := by rw [mul_assoc, h3, mul_one]
      rw [e] at h4
      linarith
    nlinarith [mul_le_mul_of_nonneg_left h1 hea.le]
  · have hm : max a b = a := max_eq_left (by linarith)
    rw [hm, hb, Real.exp_add]
    have h1 : Real.exp h ≤ 1 + h + h ^ 2 := by
      have h2 := Real.quadratic_le_exp_of_nonneg (show 0 ≤ -h by linarith)
      have h3 : Real.exp h * Real.exp (-h) = 1 := by rw [← Real.exp_add]; simp
      have h5 := Real.exp_pos h
      have h6 : 1 ≤ (1 + h + h ^ 2) * (1 + -h + (-h) ^ 2 / 2) := by nlinarith [sq_nonneg h, sq_nonneg (h ^ 2)]
      have h7 : 0 ≤ 1 + h + h ^ 2 := by nlinarith [sq_nonneg (h + 1)]
      by_contra hc
      push Not at hc
      nlinarith [mul_le_mul_of_nonneg_left h2 h5.le]
    nlinarith [mul_le_mul_of_nonneg_left h1 hea.le]

/-- Sum of the squares and of the absolute values of the design. -/
noncomputable def designSq {m : ℕ} (Xs : Fin m → ι → ℝ) : ℝ := ∑ i, ∑ k, Xs i k ^ 2

noncomputable def designAbs {m : ℕ} (Xs : Fin m → ι → ℝ) : ℝ := ∑ i, ∑ k, |Xs i k|

theorem linPred_abs_le {m : ℕ} (Xs : Fin m → ι → ℝ) {R : ℝ} (hR : 0 ≤ R) {theta : ι → ℝ} (h : ∀ k, |theta k| ≤ R)
    (i : Fin m) : |linPred Xs theta i| ≤ designAbs Xs * R := by
  unfold linPred designAbs
  refine (Finset.abs_sum_le_sum_abs _ _).trans ?_
  have h1 : ∑ k, |Xs i k * theta k| ≤ (∑ k, |Xs i k|) * R := by
    rw [Finset.sum_mul]
    refine Finset.sum_le_sum fun k _ => ?_
    rw [abs_mul]
    exact mul_le_mul_of_nonneg_left (h k) (abs_nonneg _)
  refine h1.trans (mul_le_mul_of_nonneg_right ?_ hR)
  exact Finset.single_le_sum (f := fun i => ∑ k, |Xs i k|)
    (fun i _ => Finset.sum_nonneg fun k _ => abs_nonneg _) (Finset.mem_univ i)

/-- A bound on the curvature where the coefficients are at most `R`. -/
noncomputable def poissonL {m : ℕ} (Xs : Fin m → ι → ℝ) (R : ℝ) : ℝ :=
  1 / (m : ℝ) * (Real.exp (designAbs Xs * R) * designSq Xs)

theorem poissonL_nonneg {m : ℕ} (Xs : Fin m → ι → ℝ) (R : ℝ) : 0 ≤ poissonL Xs R := by
  unfold poissonL designSq
  have : 0 ≤ ∑ i, ∑ k, Xs i k ^ 2 := Finset.sum_nonneg fun i _ => Finset.sum_nonneg fun k _ => sq_nonneg _
  positivity

theorem poisson_smooth {m : ℕ} (Xs : Fin m → ι → ℝ) (xr : Fin m → ℝ) {R : ℝ} (hR : 0 ≤ R) {x z : ι → ℝ}
    (hx : ∀ k, |x k| ≤ R) (hz : ∀ k, |z k| ≤ R) :
    poissonLoss Xs xr z ≤ poissonLoss Xs xr x + (∑ k, poissonGradient Xs xr x k * (z k - x k)) +
      poissonL Xs R * ∑ k, (z k - x k) ^ 2 := by
  have hg : (∑ k, poissonGradient Xs xr x k * (z k - x k)) =
      (1 / (m : ℝ)) * ∑ i, (Real.exp (linPred Xs x i) - xr i) * (linPred Xs z i - linPred Xs x i) := by
    rw [Finset.mul_sum]
    have : ∀ i, (linPred Xs z i - linPred Xs x i) = ∑ k, Xs i k * (z k - x k) := by
      intro i; rw [← linPred_sub]; rfl
    simp only [this, Finset.mul_sum]
    rw [Finset.sum_comm]
    refine Finset.sum_congr rfl fun k _ => ?_
    unfold poissonGradient
    rw [← Finset.sum_sub_distrib, Finset.mul_sum, Finset.sum_mul]
    exact Finset.sum_congr rfl fun i _ => by ring
  rw [hg]
  unfold poissonLoss poissonL
  have key : ∀ i, Real.exp (linPred Xs z i) - xr i * linPred Xs z i ≤
      Real.exp (linPred Xs x i) - xr i * linPred Xs x i +
      (Real.exp (linPred Xs x i) - xr i) * (linPred Xs z i - linPred Xs x i) +
      Real.exp (designAbs Xs * R) * ((∑ k, Xs i k ^ 2) * ∑ k, (z k - x k) ^ 2) := by
    intro i
    have h1 := exp_upper (linPred Xs x i) (linPred Xs z i)
    have h2 : Real.exp (max (linPred Xs x i) (linPred Xs z i)) ≤ Real.exp (designAbs Xs * R) :=
      Real.exp_le_exp.mpr (max_le ((le_abs_self _).trans (linPred_abs_le Xs hR hx i))
        ((le_abs_self _).trans (linPred_abs_le Xs hR hz i)))
    have h3 : (linPred Xs z i - linPred Xs x i) ^ 2 ≤ (∑ k, Xs i k ^ 2) * ∑ k, (z k - x k) ^ 2 := by
      have e : linPred Xs z i - linPred Xs x i = ∑ k, Xs i k * (z k - x k) := by rw [← linPred_sub]; rfl
      rw [e]
      exact Finset.sum_mul_sq_le_sq_mul_sq _ _ _
    have h4 := mul_le_mul h2 h3 (sq_nonneg _) (Real.exp_pos _).le
    linarith
  have h5 := mul_le_mul_of_nonneg_left (Finset.sum_le_sum fun i (_ : i ∈ Finset.univ) => key i)
    (show (0 : ℝ) ≤ 1 / (m : ℝ) by positivity)
  simp only [Finset.sum_add_distrib, ← Finset.mul_sum, ← Finset.sum_mul] at h5
  unfold designSq
  linarith

/-- A bound on the gradient where the coefficients are at most `R`. -/
noncomputable def poissonG {m : ℕ} (Xs : Fin m → ι → ℝ) (xr : Fin m → ℝ) (R : ℝ) : ℝ :=
  1 / (m : ℝ) * ∑ i, ∑ k, |Xs i k| * (|xr i| + Real.exp (designAbs Xs * R))

theorem poissonGradient_le {m : ℕ} (Xs : Fin m → ι → ℝ) (xr : Fin m → ℝ) {R : ℝ} (hR : 0 ≤ R) {x : ι → ℝ}
    (hx : ∀ k, |x k| ≤ R) (k : ι) : |poissonGradient Xs xr x k| ≤ poissonG Xs xr R := by
  unfold poissonGradient poissonG
  have h0 : (0 : ℝ) ≤ 1 / (m : ℝ) := by positivity
  rw [abs_mul, abs_neg, abs_of_nonneg h0]
  refine mul_le_mul_of_nonneg_left ?_ h0
  rw [← Finset.sum_sub_distrib]
  refine (Finset.abs_sum_le_sum_abs _ _).trans (Finset.sum_le_sum fun i _ => ?_)
  have h1 : |Xs i k * xr i - Xs i k * Real.exp (linPred Xs x i)| ≤
      |Xs i k| * (|xr i| + Real.exp (designAbs Xs * R)) := by
    rw [← mul_sub, abs_mul]
    refine mul_le_mul_of_nonneg_left ?_ (abs_nonneg _)
    refine (abs_sub _ _).trans ?_
    rw [abs_of_pos (Real.exp_pos _)]
    have := Real.exp_le_exp.mpr ((le_abs_self _).trans (linPred_abs_le Xs hR hx i))
    linarith
  refine h1.trans ?_
  exact Finset.single_le_sum (f := fun k => |Xs i k| * (|xr i| + Real.exp (designAbs Xs * R)))
    (fun k _ => by positivity) (Finset.mem_univ k)

/-! ### Convergence of accepted proximal steps -/

/-- A sequence with the basic inequality of the proximal gradient step converges to a minimiser if there is one. -/
theorem prox_seq_converges {F : (ι → ℝ) → ℝ} (hF : Continuous F) {s : ℕ → ι → ℝ} {gamma : ℝ} (hg : 0 < gamma)
    (hstep : ∀ k z, F (s (k + 1)) ≤ F z + (1 / (2 * gamma)) * (sqDist (s k) z - sqDist (s (k + 1)) z))
    {z0 : ι → ℝ} (hz0 : IsMin Set.univ F z0) :
    ∃ a, IsMin Set.univ F a ∧ Tendsto s atTop (𝓝 a) := by
  have hc : 0 < 1 / (2 * gamma) := by positivity
  have anti : ∀ b, IsMin Set.univ F b → Antitone fun k => sqDist (s k) b := fun b hb =>
    antitone_nat_of_succ_le fun k => by
      have h1 := hstep k b
      have h2 := hb.2 (s (k + 1)) trivial
      by_contra hcon
      push Not at hcon
      nlinarith
  have hlim := tendsto_atTop_ciInf (anti z0 hz0) ⟨0, by rintro _ ⟨k, rfl⟩; exact sqDist_nonneg' _ _⟩
  have hdiff := (hlim.sub (hlim.comp (tendsto_add_atTop_nat 1))).const_mul (1 / (2 * gamma))
  rw [sub_self, mul_zero] at hdiff
  have hval : Tendsto (fun k => F (s (k + 1))) atTop (𝓝 (F z0)) := by
    have h1 := hdiff.const_add (F z0)
    rw [add_zero] at h1
    refine tendsto_of_tendsto_of_tendsto_of_le_of_le tendsto_const_nhds h1
      (fun k => hz0.2 _ trivial) (fun k => ?_)
    exact hstep k z0
  have hb : ∀ k, s k ∈ Metric.closedBall z0 (Real.sqrt (sqDist (s 0) z0)) := by
    intro k
    rw [Metric.mem_closedBall, dist_pi_le_iff (Real.sqrt_nonneg _)]
    intro i
    rw [Real.dist_eq, ← Real.sqrt_sq_eq_abs]
    exact Real.sqrt_le_sqrt ((sqDist_entry _ _ _).trans (anti z0 hz0 (Nat.zero_le k)))
  obtain ⟨a, -, φ, hφ, hφa⟩ := (isCompact_closedBall z0 _).tendsto_subseq hb
  have hmin : IsMin Set.univ F a := by
    have hval' : Tendsto (fun k => F (s k)) atTop (𝓝 (F z0)) := (tendsto_add_atTop_iff_nat 1).mp hval
    have h1 := hval'.comp hφ.tendsto_atTop
    have h2 := (hF.tendsto a).comp hφa
    have h3 := tendsto_nhds_unique h2 h1
    exact ⟨trivial, fun y hy => h3 ▸ hz0.2 y hy⟩
  refine ⟨a, hmin, tendsto_of_sqDist ?_⟩
  have h5 := tendsto_sqDist hφa (tendsto_const_nhds (x := a))
  have e : sqDist a a = 0 := by unfold sqDist; simp
  rw [e] at h5
  have h6 := tendsto_atTop_ciInf (anti a hmin) ⟨0, by rintro _ ⟨k, rfl⟩; exact sqDist_nonneg' _ _⟩
  have h7 := h6.comp hφ.tendsto_atTop
  have := tendsto_nhds_unique h7 h5
  rwa [this] at h6

end Verif.Lemmas
