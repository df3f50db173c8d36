import Verif.Props.NodeConsistency
import Verif.Props.GLMEmpty
import Mathlib.Probability.Distributions.Poisson.Basic

/-! Property theorems C217: Poisson neighbourhood selection with more and more data. -/

namespace Verif.Props

open Verif.Model Verif.Spec Verif.Lemmas Matrix Filter Topology MeasureTheory ProbabilityTheory
open scoped NNReal

set_option autoImplicit false
set_option linter.unusedSectionVars false

variable {ι : Type*} [Fintype ι] [DecidableEq ι] {m d : ℕ}

/-! ### What a solution satisfies -/

/-- No direction decreases the penalised loss to first order at a solution. -/
theorem poisson_first_order {Xs : Fin m → ι → ℝ} {xr : Fin m → ℝ} {alpha : ℝ} (ha : 0 ≤ alpha) {x : ι → ℝ}
    (h : IsMin Set.univ (fun z => poissonLoss Xs xr z + alpha * absSum z) x) (w : ι → ℝ) :
    alpha * absSum x ≤ alpha * absSum w + ∑ k, poissonGradient Xs xr x k * (w k - x k) := by
  by_contra hc
  push Not at hc
  obtain ⟨R, hR⟩ : ∃ R, R = absSum x + absSum w := ⟨_, rfl⟩
  have hx0 := absSum_nonneg' x
  have hw0 := absSum_nonneg' w
  obtain ⟨D, hD⟩ : ∃ D, D = ∑ k, (w k - x k) ^ 2 := ⟨_, rfl⟩
  have hD0 : 0 ≤ D := by rw [hD]; exact Finset.sum_nonneg fun _ _ => sq_nonneg _
  obtain ⟨A, hA⟩ : ∃ A, A = alpha * absSum x - (alpha * absSum w + ∑ k, poissonGradient Xs xr x k * (w k - x k)) :=
    ⟨_, rfl⟩
  have hA0 : 0 < A := by rw [hA]; linarith
  have hL0 : 0 ≤ |poissonL Xs R| := abs_nonneg _
  obtain ⟨t, ht⟩ : ∃ t, t = min 1 (A / (2 * (|poissonL Xs R| * D + 1))) := ⟨_, rfl⟩
  have hLD : 0 ≤ |poissonL Xs R| * D := mul_nonneg hL0 hD0
  have ht0 : 0 < t := by rw [ht]; exact lt_min one_pos (by positivity)
  have ht1 : t ≤ 1 := by rw [ht]; exact min_le_left _ _
  have ht2 : t * (|poissonL Xs R| * D + 1) ≤ A / 2 := by
    have : t ≤ A / (2 * (|poissonL Xs R| * D + 1)) := by rw [ht]; exact min_le_right _ _
    rw [le_div_iff₀ (by positivity)] at this
    linarith
  have hxb : ∀ k, |x k| ≤ R := fun k => (abs_le_absSum x k).trans (by rw [hR]; linarith)
  have hwb : ∀ k, |w k| ≤ R := fun k => (abs_le_absSum w k).trans (by rw [hR]; linarith)
  have habs : ∀ k, |x k + t * (w k - x k)| ≤ (1 - t) * |x k| + t * |w k| := by
    intro k
    have e : x k + t * (w k - x k) = (1 - t) * x k + t * w k := by ring
    rw [e]
    refine (abs_add_le _ _).trans ?_
    rw [abs_mul, abs_mul, abs_of_nonneg ht0.le, abs_of_nonneg (by linarith : 0 ≤ 1 - t)]
  have hzb : ∀ k, |x k + t * (w k - x k)| ≤ R := by
    intro k
    have := habs k
    nlinarith [hxb k, hwb k]
  have h1 := h.2 (fun k => x k + t * (w k - x k)) trivial
  have h2 := poisson_smooth Xs xr (by rw [hR]; linarith : 0 ≤ R) hxb hzb
  have h3 : absSum (fun k => x k + t * (w k - x k)) ≤ (1 - t) * absSum x + t * absSum w := by
    unfold absSum
    rw [Finset.mul_sum, Finset.mul_sum, ← Finset.sum_add_distrib]
    exact Finset.sum_le_sum fun k _ => habs k
  have e1 : (∑ k, poissonGradient Xs xr x k * (x k + t * (w k - x k) - x k)) =
      t * ∑ k, poissonGradient Xs xr x k * (w k - x k) := by
    rw [Finset.mul_sum]; exact Finset.sum_congr rfl fun k _ => by ring
  have e2 : (∑ k, (x k + t * (w k - x k) - x k) ^ 2) = t ^ 2 * D := by
    rw [hD, Finset.mul_sum]; exact Finset.sum_congr rfl fun k _ => by ring
  rw [e1, e2] at h2
  have h4 := mul_le_mul_of_nonneg_left h3 ha
  have h5 : poissonL Xs R * (t ^ 2 * D) ≤ |poissonL Xs R| * (t ^ 2 * D) :=
    mul_le_mul_of_nonneg_right (le_abs_self _) (by positivity)
  simp only at h1
  have h6 : t * A ≤ t * (t * (|poissonL Xs R| * D)) := by rw [hA]; nlinarith
  have h7 := le_of_mul_le_mul_left h6 ht0
  nlinarith

/-- The conditions on one coefficient. -/
theorem poisson_coordinate {Xs : Fin m → ι → ℝ} {xr : Fin m → ℝ} {alpha : ℝ} (ha : 0 ≤ alpha) {x : ι → ℝ}
    (h : IsMin Set.univ (fun z => poissonLoss Xs xr z + alpha * absSum z) x) (k : ι) (s : ℝ) :
    alpha * |x k| ≤ alpha * |s| + poissonGradient Xs xr x k * (s - x k) := by
  have h1 := poisson_first_order ha h (Function.update x k s)
  have e1 : absSum (Function.update x k s) = absSum x - |x k| + |s| := by
    unfold absSum
    rw [← Finset.add_sum_erase _ _ (Finset.mem_univ k), ← Finset.add_sum_erase _ (fun i => |x i|) (Finset.mem_univ k),
      Function.update_self]
    have : ∑ i ∈ Finset.univ.erase k, |Function.update x k s i| = ∑ i ∈ Finset.univ.erase k, |x i| :=
      Finset.sum_congr rfl fun i hi => by rw [Function.update_of_ne (Finset.ne_of_mem_erase hi)]
    rw [this]
    ring
  have e2 : (∑ i, poissonGradient Xs xr x i * (Function.update x k s i - x i)) = poissonGradient Xs xr x k * (s - x k) := by
    rw [Finset.sum_eq_single k, Function.update_self]
    · intro i _ hi
      rw [Function.update_of_ne hi]
      ring
    · intro hk; exact absurd (Finset.mem_univ k) hk
  rw [e1, e2] at h1
  linarith [mul_add alpha (absSum x - |x k|) |s|, mul_sub alpha (absSum x) |x k|]

theorem poisson_gradient_le {Xs : Fin m → ι → ℝ} {xr : Fin m → ℝ} {alpha : ℝ} (ha : 0 ≤ alpha) {x : ι → ℝ}
    (h : IsMin Set.univ (fun z => poissonLoss Xs xr z + alpha * absSum z) x) (k : ι) :
    |poissonGradient Xs xr x k| ≤ alpha := by
  have h1 := poisson_coordinate ha h k (x k + 1)
  have h2 := poisson_coordinate ha h k (x k - 1)
  have t1 : |x k + 1| ≤ |x k| + 1 := (abs_add_le _ _).trans (by simp)
  have t2 : |x k - 1| ≤ |x k| + 1 := (abs_sub _ _).trans (by simp)
  rw [abs_le]
  constructor <;> nlinarith

theorem poisson_gradient_pos {Xs : Fin m → ι → ℝ} {xr : Fin m → ℝ} {alpha : ℝ} (ha : 0 ≤ alpha) {x : ι → ℝ}
    (h : IsMin Set.univ (fun z => poissonLoss Xs xr z + alpha * absSum z) x) {k : ι} (hk : 0 < x k) :
    poissonGradient Xs xr x k = -alpha := by
  have h1 := poisson_coordinate ha h k 0
  have h2 := (abs_le.mp (poisson_gradient_le ha h k)).1
  rw [abs_of_pos hk, abs_zero] at h1
  refine le_antisymm ?_ h2
  nlinarith

/-! ### More and more data -/

/-- Specification: the population version of the statistic the regression of `r` compares with `alpha`. -/
noncomputable def excessMoment {Ω : Type*} [MeasurableSpace Ω] (μ : Measure Ω) (y : Ω → Fin d → ℝ) (r k : Fin d) : ℝ :=
  ∫ ω, y ω k * (y ω r - 1) ∂μ

theorem excess_tendsto {Ω : Type*} [MeasurableSpace Ω] {μ : Measure Ω} [IsProbabilityMeasure μ]
    {x : ℕ → Ω → Fin d → ℝ} (h : IidRows μ x) :
    ∀ᵐ ω ∂μ, ∀ r k, Tendsto (fun N : ℕ => 1 / (N : ℝ) * ∑ i : Fin N, x i ω k * (x i ω r - 1)) atTop
      (𝓝 (excessMoment μ (x 0) r k)) := by
  rw [ae_all_iff]
  intro r
  rw [ae_all_iff]
  intro k
  have hmeas : Measurable fun v : Fin d → ℝ => v k * (v r - 1) :=
    (measurable_pi_apply k).mul ((measurable_pi_apply r).sub_const 1)
  have hint : Integrable (fun ω => x 0 ω k * (x 0 ω r - 1)) μ := by
    have e : (fun ω => x 0 ω k * (x 0 ω r - 1)) = fun ω => x 0 ω k * x 0 ω r - x 0 ω k := by
      funext ω; ring
    rw [e]
    exact ((h.sq k).integrable_mul (h.sq r)).sub ((h.sq k).integrable (by norm_num))
  have := strong_law_ae_real (fun i ω => x i ω k * (x i ω r - 1)) hint
    (fun i j hij => (h.indep i j hij).comp hmeas hmeas) fun i => (h.ident i).comp hmeas
  filter_upwards [this] with ω hω
  refine hω.congr fun N => ?_
  rw [Finset.sum_range fun i => x i ω k * (x i ω r - 1), div_eq_inv_mul, one_div]

theorem mean_tendsto {Ω : Type*} [MeasurableSpace Ω] {μ : Measure Ω} [IsProbabilityMeasure μ]
    {x : ℕ → Ω → Fin d → ℝ} (h : IidRows μ x) :
    ∀ᵐ ω ∂μ, ∀ k, Tendsto (fun N : ℕ => 1 / (N : ℝ) * ∑ i : Fin N, x i ω k) atTop (𝓝 (∫ ω, x 0 ω k ∂μ)) := by
  rw [ae_all_iff]
  intro k
  have hmeas : Measurable fun v : Fin d → ℝ => v k := measurable_pi_apply k
  have := strong_law_ae_real (fun i ω => x i ω k) ((h.sq k).integrable (by norm_num))
    (fun i j hij => (h.indep i j hij).comp hmeas hmeas) fun i => (h.ident i).comp hmeas
  filter_upwards [this] with ω hω
  refine hω.congr fun N => ?_
  rw [Finset.sum_range fun i => x i ω k, div_eq_inv_mul, one_div]

/-- C217 (nothing selected). Rows drawn pairwise independently from one distribution with finite second moments: almost
surely, for every setting whose `alpha` exceeds all population statistics, `fit` returns exactly the identity once there
are enough rows. -/
theorem C217_empty {Ω : Type*} [MeasurableSpace Ω] {μ : Measure Ω} [IsProbabilityMeasure μ] {x : ℕ → Ω → Fin d → ℝ}
    (h : IidRows μ x) :
    ∀ᵐ ω ∂μ, ∀ e : PoissonEstimator, e.mode = "coordinate_descent" → e.intercept = false →
      (e.reconstruction = "union" ∨ e.reconstruction = "intersection") → 0 ≤ e.alpha →
      (∀ r k, k ≠ r → |excessMoment μ (x 0) r k| < e.alpha) → ∀ᶠ N in atTop,
        ∃ p, poissonModelFit e (fun i : Fin N => x i ω) = .ok (some (d, p)) ∧
          ∀ i j : Fin d, p i j = if i = j then 1 else 0 := by
  filter_upwards [excess_tendsto h] with ω hω e hm hi hr ha hlt
  have hev : ∀ᶠ N : ℕ in atTop, ∀ r k : Fin d, k ≠ r → |1 / (N : ℝ) * ∑ i : Fin N, x i ω k * (x i ω r - 1)| ≤ e.alpha := by
    refine eventually_all.mpr fun r => eventually_all.mpr fun k => ?_
    by_cases hk : k = r
    · exact Eventually.of_forall fun N hN => absurd hk hN
    · filter_upwards [(hω r k).abs.eventually_lt_const (hlt r k hk)] with N hN _
      exact hN.le
  filter_upwards [hev] with N hN
  exact C188_poisson_model e (fun i : Fin N => x i ω) ha hm hi hr hN

/-- C217 (something selected). Almost surely, for every `alpha` below a population statistic of variable `r`, once there
are enough rows every solution of the regression of `r` has a non-zero coefficient, and so has what the fit returns with
a small enough tolerance and enough iterations. -/
theorem C217_selected {Ω : Type*} [MeasurableSpace Ω] {μ : Measure Ω} [IsProbabilityMeasure μ] {x : ℕ → Ω → Fin d → ℝ}
    (h : IidRows μ x) (hx : ∀ i ω k, 0 ≤ x i ω k) :
    ∀ᵐ ω ∂μ, ∀ (r k : Fin d) (alpha : ℝ), k ≠ r → 0 < alpha → alpha < |excessMoment μ (x 0) r k| → ∀ᶠ N in atTop,
      (∀ theta, IsMin Set.univ (fun z => poissonLoss (otherCols (fun i : Fin N => x i ω) r) (fun i => x i ω r) z
          + alpha * absSum z) theta → ∃ j, theta j ≠ 0) ∧
      ∃ tol0 > 0, ∃ K, ∀ tol ≤ tol0, ∀ M ≥ K, ∃ theta checks last,
        poissonFitNode { poissonNode (fun i : Fin N => x i ω) alpha tol r with maxIter := M } = some (theta, checks, last)
          ∧ ∃ j, theta j ≠ 0 := by
  filter_upwards [excess_tendsto h] with ω hω r k alpha hk ha hlt
  filter_upwards [(hω r k).abs.eventually_const_lt hlt] with N hN
  have hn : ¬ PoissonThreshold (otherCols (fun i : Fin N => x i ω) r) (fun i => x i ω r) alpha := by
    intro ht
    exact absurd (ht ⟨k, hk⟩) (not_le.mpr hN)
  refine ⟨fun theta hth => ?_, ?_⟩
  · by_contra hc
    push Not at hc
    obtain rfl : theta = fun _ => 0 := funext hc
    exact hn ((C188_poisson_optimal_iff _ _ ha.le).mp hth)
  · exact C188_poisson_nonempty (poissonNode (fun i : Fin N => x i ω) alpha 0 r) rfl ha (by norm_num [poissonNode])
      (by norm_num [poissonNode]) (by norm_num [poissonNode]) (fun i => hx i ω r) hn

/-- C217 (independent variables). For independent variables the statistic is the product of the mean of one with the
distance of the mean of the other from one: it vanishes only if that mean is one. -/
theorem C217_independent {Ω : Type*} [MeasurableSpace Ω] {μ : Measure Ω} [IsProbabilityMeasure μ] {y : Ω → Fin d → ℝ}
    (hsq : ∀ a, MemLp (fun ω => y ω a) 2 μ) {r k : Fin d} (hind : (fun ω => y ω k) ⟂ᵢ[μ] fun ω => y ω r) :
    excessMoment μ y r k = (∫ ω, y ω k ∂μ) * ((∫ ω, y ω r ∂μ) - 1) := by
  unfold excessMoment
  have e : (fun ω => y ω k * (y ω r - 1)) = fun ω => y ω k * y ω r - y ω k := by
    funext ω; ring
  have hint : Integrable (fun ω => y ω k * y ω r) μ := (hsq k).integrable_mul (hsq r)
  rw [e, integral_sub hint ((hsq k).integrable (by norm_num)), hind.integral_fun_mul_eq_mul_integral (hsq k).1 (hsq r).1]
  ring

/-! ### A column of ones -/

/-- C217 (intercept, one data set). Every solution of a regression that includes a column of ones (`intercept=True`) uses
another variable if a sample statistic exceeds `alpha`. The penalty on the column of ones appears in the statistic. -/
theorem C217_intercept_sample {X : Fin m → Fin d → ℝ} (hm : 0 < m) {r k : Fin d} (hk : k ≠ r) {alpha : ℝ}
    (ha : 0 ≤ alpha) (hmk : 0 ≤ 1 / (m : ℝ) * ∑ i, X i k)
    (hlt : alpha < 1 / (m : ℝ) * ∑ i, X i k * X i r -
      max 1 (1 / (m : ℝ) * ∑ i, X i r - alpha) * (1 / (m : ℝ) * ∑ i, X i k))
    {theta : {j : Fin (d + 1) // j ≠ r.castSucc} → ℝ}
    (h : IsMin Set.univ (fun z => poissonLoss (otherCols (fun i => Fin.snoc (α := fun _ => ℝ) (X i) 1) r.castSucc)
      (fun i => X i r) z + alpha * absSum z) theta) :
    ∃ (j : Fin d) (hj : j.castSucc ≠ r.castSucc), theta ⟨j.castSucc, hj⟩ ≠ 0 := by
  by_contra hc
  push Not at hc
  have hlast : Fin.last d ≠ r.castSucc := (Fin.castSucc_lt_last r).ne'
  obtain ⟨t, ht⟩ : ∃ t, t = theta ⟨Fin.last d, hlast⟩ := ⟨_, rfl⟩
  have hzero : ∀ j, j ≠ ⟨Fin.last d, hlast⟩ → theta j = 0 := by
    rintro ⟨j, hj⟩ hne
    have hj' : j ≠ Fin.last d := fun e => hne (Subtype.ext e)
    obtain ⟨j', rfl⟩ := Fin.exists_castSucc_eq.mpr hj'
    exact hc j' hj
  have hlin : ∀ i, linPred (otherCols (fun i => Fin.snoc (α := fun _ => ℝ) (X i) 1) r.castSucc) theta i = t := by
    intro i
    unfold linPred
    rw [Finset.sum_eq_single ⟨Fin.last d, hlast⟩]
    · simp [otherCols, ht]
    · intro j _ hj
      rw [hzero j hj, mul_zero]
    · intro hn; exact absurd (Finset.mem_univ _) hn
  have hm' : (m : ℝ) ≠ 0 := by exact_mod_cast hm.ne'
  have g0 : poissonGradient (otherCols (fun i => Fin.snoc (α := fun _ => ℝ) (X i) 1) r.castSucc) (fun i => X i r) theta
      ⟨Fin.last d, hlast⟩ = Real.exp t - 1 / (m : ℝ) * ∑ i, X i r := by
    unfold poissonGradient
    simp only [hlin, otherCols, Fin.snoc_last, one_mul, Finset.sum_const, Finset.card_univ, Fintype.card_fin, nsmul_eq_mul]
    field_simp
    ring
  have hkr : k.castSucc ≠ r.castSucc := fun e => hk (Fin.castSucc_injective d e)
  have gk : poissonGradient (otherCols (fun i => Fin.snoc (α := fun _ => ℝ) (X i) 1) r.castSucc) (fun i => X i r) theta
      ⟨k.castSucc, hkr⟩ = Real.exp t * (1 / (m : ℝ) * ∑ i, X i k) - 1 / (m : ℝ) * ∑ i, X i k * X i r := by
    unfold poissonGradient
    simp only [hlin, otherCols, Fin.snoc_castSucc]
    rw [← Finset.sum_mul]
    ring
  have hexp : Real.exp t ≤ max 1 (1 / (m : ℝ) * ∑ i, X i r - alpha) := by
    rcases le_or_gt t 0 with h0 | h0
    · exact (Real.exp_le_one_iff.mpr h0).trans (le_max_left _ _)
    · have h1 := poisson_gradient_pos ha h (k := ⟨Fin.last d, hlast⟩) (by rw [← ht]; exact h0)
      rw [g0] at h1
      refine le_trans ?_ (le_max_right _ _)
      linarith
  have h2 := (abs_le.mp (poisson_gradient_le ha h ⟨k.castSucc, hkr⟩)).1
  rw [gk] at h2
  have h3 := mul_le_mul_of_nonneg_right hexp hmk
  linarith

/-- C217 (intercept). Two independent variables with means above one: almost surely, for every `alpha` below the same
statistic as without the column of ones, once there are enough rows every solution of the regression of one variable on
the others and a column of ones still uses another variable. -/
theorem C217_intercept_false {Ω : Type*} [MeasurableSpace Ω] {μ : Measure Ω} [IsProbabilityMeasure μ]
    {x : ℕ → Ω → Fin d → ℝ} (h : IidRows μ x) {r k : Fin d} (hkr : k ≠ r)
    (hind : (fun ω => x 0 ω k) ⟂ᵢ[μ] fun ω => x 0 ω r) (hk : 1 < ∫ ω, x 0 ω k ∂μ) :
    ∀ᵐ ω ∂μ, ∀ alpha : ℝ, 0 < alpha → alpha < (∫ ω, x 0 ω k ∂μ) * ((∫ ω, x 0 ω r ∂μ) - 1) → ∀ᶠ N in atTop,
      ∀ theta, IsMin Set.univ (fun z => poissonLoss
          (otherCols (fun i : Fin N => Fin.snoc (α := fun _ => ℝ) (x i ω) 1) r.castSucc) (fun i => x i ω r) z
          + alpha * absSum z) theta →
        ∃ (j : Fin d) (hj : j.castSucc ≠ r.castSucc), theta ⟨j.castSucc, hj⟩ ≠ 0 := by
  filter_upwards [excess_tendsto h, mean_tendsto h] with ω h1 h2 alpha ha hlt
  have h12 : Tendsto (fun N : ℕ => 1 / (N : ℝ) * ∑ i : Fin N, x i ω k * x i ω r) atTop
      (𝓝 (excessMoment μ (x 0) r k + ∫ ω, x 0 ω k ∂μ)) := by
    refine ((h1 r k).add (h2 k)).congr fun N => ?_
    rw [← mul_add, ← Finset.sum_add_distrib]
    congr 1
    exact Finset.sum_congr rfl fun i _ => by ring
  have hlim := h12.sub (((tendsto_const_nhds (x := (1 : ℝ))).max ((h2 r).sub_const alpha)).mul (h2 k))
  rw [C217_independent h.sq hind] at hlim
  have hpos : alpha < (∫ ω, x 0 ω k ∂μ) * ((∫ ω, x 0 ω r ∂μ) - 1) + (∫ ω, x 0 ω k ∂μ) -
      max 1 ((∫ ω, x 0 ω r ∂μ) - alpha) * ∫ ω, x 0 ω k ∂μ := by
    rcases max_cases 1 ((∫ ω, x 0 ω r ∂μ) - alpha) with ⟨e, -⟩ | ⟨e, -⟩ <;> rw [e] <;> nlinarith
  filter_upwards [hlim.eventually_const_lt hpos, (h2 k).eventually_const_lt hk, eventually_gt_atTop 0] with N g1 g2 g3 theta hth
  exact C217_intercept_sample g3 hkr ha.le (by linarith) g1 hth

/-! ### Independent Poisson counts -/

theorem poisson_summable_sq (l : ℝ≥0) :
    Summable fun n : ℕ => Real.exp (-l) * (l : ℝ) ^ n / n.factorial * ‖(n : ℝ) ^ 2‖ := by
  have h := (Real.summable_pow_div_factorial (4 * (l : ℝ))).mul_left (Real.exp (-l))
  refine Summable.of_nonneg_of_le (fun n => by positivity) (fun n => ?_) h
  have hn : (n : ℝ) ^ 2 ≤ 4 ^ n := by
    have h1 : n ≤ 2 ^ n := n.lt_two_pow_self.le
    have h2 : n ^ 2 ≤ 4 ^ n := by
      calc n ^ 2 ≤ (2 ^ n) ^ 2 := Nat.pow_le_pow_left h1 2
        _ = 4 ^ n := by rw [← pow_mul, mul_comm, pow_mul]; norm_num
    exact_mod_cast h2
  rw [Real.norm_of_nonneg (by positivity), mul_pow]
  have hc : 0 ≤ Real.exp (-l) * (l : ℝ) ^ n / n.factorial := by positivity
  calc Real.exp (-l) * (l : ℝ) ^ n / n.factorial * (n : ℝ) ^ 2
      ≤ Real.exp (-l) * (l : ℝ) ^ n / n.factorial * 4 ^ n := mul_le_mul_of_nonneg_left hn hc
    _ = Real.exp (-l) * (4 ^ n * (l : ℝ) ^ n / n.factorial) := by ring

theorem poisson_memLp (l : ℝ≥0) : MemLp (fun n : ℕ => (n : ℝ)) 2 (poissonMeasure l) := by
  rw [memLp_two_iff_integrable_sq (by fun_prop)]
  exact integrable_poissonMeasure_iff.mpr (poisson_summable_sq l)

theorem poisson_mean (l : ℝ≥0) : ∫ n : ℕ, (n : ℝ) ∂(poissonMeasure l) = l := by
  have hint : Integrable (fun n : ℕ => (n : ℝ)) (poissonMeasure l) := (poisson_memLp l).integrable (by norm_num)
  have h1 := hasSum_integral_poissonMeasure hint
  have h2 : HasSum (fun n : ℕ => (Real.exp (-l) * (l : ℝ) ^ n / n.factorial) • (n : ℝ)) (l : ℝ) := by
    rw [← hasSum_nat_add_iff' 1]
    simp only [Finset.range_one, Finset.sum_singleton, Nat.cast_zero, smul_zero, sub_zero]
    have h3 := (hasSum_one_poissonMeasure l).mul_left (l : ℝ)
    rw [mul_one] at h3
    refine h3.congr_fun fun n => ?_
    rw [Nat.factorial_succ, smul_eq_mul]
    push_cast
    field_simp
    ring
  exact h1.unique h2

/-- Rows of independent Poisson counts meet the hypotheses. -/
theorem poisson_rows (d : ℕ) (l : ℝ≥0) : ∃ μ : Measure (ℕ → Fin d → ℕ), IsProbabilityMeasure μ ∧
    IidRows μ (fun i ω (k : Fin d) => (ω i k : ℝ)) ∧
    (∀ k, μ.map (fun ω => ω 0 k) = poissonMeasure l) ∧
    (∀ k, ∫ ω, (ω 0 k : ℝ) ∂μ = l) ∧
    ∀ k r, k ≠ r → (fun ω : ℕ → Fin d → ℕ => (ω 0 k : ℝ)) ⟂ᵢ[μ] fun ω => (ω 0 r : ℝ) := by
  set ν : Measure (Fin d → ℕ) := Measure.pi fun _ : Fin d => poissonMeasure l with hν
  set μ : Measure (ℕ → Fin d → ℕ) := Measure.infinitePi fun _ : ℕ => ν with hμ
  have hev : ∀ i : ℕ, MeasurePreserving (fun ω : ℕ → Fin d → ℕ => ω i) μ ν := fun i =>
    measurePreserving_eval_infinitePi (fun _ : ℕ => ν) i
  have hco : ∀ a : Fin d, MeasurePreserving (fun v : Fin d → ℕ => v a) ν (poissonMeasure l) := fun a =>
    measurePreserving_eval (fun _ : Fin d => poissonMeasure l) a
  have hev2 : ∀ a : Fin d, MeasurePreserving (fun ω : ℕ → Fin d → ℕ => ω 0 a) μ (poissonMeasure l) := fun a =>
    (hco a).comp (hev 0)
  have hcast : Measurable fun (v : Fin d → ℕ) (k : Fin d) => (v k : ℝ) :=
    measurable_pi_lambda _ fun k => measurable_from_nat.comp (measurable_pi_apply k)
  refine ⟨μ, inferInstance, ⟨?_, ?_, fun a => (poisson_memLp l).comp_measurePreserving (hev2 a)⟩, fun k => (hev2 k).map_eq,
    fun k => ?_, fun k r hkr => ?_⟩
  · intro i j hij
    have h := iIndepFun_infinitePi (P := fun _ : ℕ => ν) (X := fun _ v => v) (fun _ => measurable_id)
    exact (h.indepFun hij).comp hcast hcast
  · intro i
    have hid : IdentDistrib (fun ω : ℕ → Fin d → ℕ => ω i) (fun ω => ω 0) μ μ :=
      ⟨(hev i).measurable.aemeasurable, (hev 0).measurable.aemeasurable, by rw [(hev i).map_eq, (hev 0).map_eq]⟩
    exact hid.comp hcast
  · rw [← poisson_mean l, ← (hev2 k).map_eq, integral_map (hev2 k).measurable.aemeasurable (by fun_prop)]
  · have h := iIndepFun_pi (μ := fun _ : Fin d => poissonMeasure l) (X := fun _ v => v) (fun _ => aemeasurable_id)
    have h2 : (fun v : Fin d → ℕ => v k) ⟂ᵢ[ν] fun v : Fin d → ℕ => v r := h.indepFun hkr
    have h3 : (fun v : Fin d → ℕ => (v k : ℝ)) ⟂ᵢ[ν] fun v : Fin d → ℕ => (v r : ℝ) :=
      h2.comp measurable_from_nat measurable_from_nat
    rw [indepFun_iff_measure_inter_preimage_eq_mul] at h3 ⊢
    intro s t hs ht
    have hm : ∀ a : Fin d, Measurable fun v : Fin d → ℕ => (v a : ℝ) := fun a =>
      measurable_from_nat.comp (measurable_pi_apply a)
    have h4 := h3 s t hs ht
    rw [← (hev 0).measure_preimage (((hm k) hs).inter ((hm r) ht)).nullMeasurableSet,
      ← (hev 0).measure_preimage ((hm k) hs).nullMeasurableSet, ← (hev 0).measure_preimage ((hm r) ht).nullMeasurableSet] at h4
    exact h4

/-! ### Two counts -/

/-- A solution with one coefficient has the sign of the statistic. -/
theorem single_sign [Unique ι] {Xs : Fin m → ι → ℝ} {xr : Fin m → ℝ} {alpha : ℝ} (ha : 0 < alpha) {theta : ι → ℝ}
    (h : IsMin Set.univ (fun z => poissonLoss Xs xr z + alpha * absSum z) theta)
    (hs : alpha < |1 / (m : ℝ) * ∑ i, Xs i default * (xr i - 1)|) :
    0 < (1 / (m : ℝ) * ∑ i, Xs i default * (xr i - 1)) * theta default := by
  have hne : theta default ≠ 0 := by
    intro h0
    obtain rfl : theta = fun _ => 0 := funext fun j => by rw [Unique.eq_default j]; exact h0
    exact absurd ((C188_poisson_optimal_iff Xs xr ha.le).mp h default) (not_le.mpr hs)
  have h1 := h.2 (fun _ => 0) trivial
  have h2 := poisson_convex Xs xr (fun _ => 0) theta
  simp only [Fintype.sum_unique, poissonGradient_zero, sub_zero] at h2
  have e : absSum (fun _ : ι => (0 : ℝ)) = 0 := by unfold absSum; simp
  have e2 : absSum theta = |theta default| := by unfold absSum; simp
  simp only [e, e2, mul_zero, add_zero] at h1
  have h3 : 0 < alpha * |theta default| := mul_pos ha (abs_pos.mpr hne)
  nlinarith

/-- The estimates of a data set of counts: one solution per variable. -/
def IsPoissonFit {N : ℕ} (X : Fin N → Fin d → ℝ) (alpha : ℝ) (theta : (r : Fin d) → {j // j ≠ r} → ℝ) : Prop :=
  ∀ r, IsMin Set.univ (fun z => poissonLoss (otherCols X r) (fun i => X i r) z + alpha * absSum z) (theta r)

instance otherOfTwo0 : Unique {j : Fin 2 // j ≠ 0} where
  default := ⟨1, by decide⟩
  uniq := by rintro ⟨j, hj⟩; fin_cases j; exacts [absurd rfl hj, rfl]

instance otherOfTwo1 : Unique {j : Fin 2 // j ≠ 1} where
  default := ⟨0, by decide⟩
  uniq := by rintro ⟨j, hj⟩; fin_cases j; exacts [rfl, absurd rfl hj]

theorem two_joined {N : ℕ} {X : Fin N → Fin 2 → ℝ} {alpha : ℝ} (ha : 0 < alpha)
    {theta : (r : Fin 2) → {j // j ≠ r} → ℝ} (h : IsPoissonFit X alpha theta)
    (h0 : alpha < |1 / (N : ℝ) * ∑ i, X i 1 * (X i 0 - 1)|) (h1 : alpha < |1 / (N : ℝ) * ∑ i, X i 0 * (X i 1 - 1)|)
    (hs : 0 < (1 / (N : ℝ) * ∑ i, X i 1 * (X i 0 - 1)) * (1 / (N : ℝ) * ∑ i, X i 0 * (X i 1 - 1))) :
    buildAdjacency 2 (nodeTable theta) "union" 0 1 ≠ 0 ∧ buildAdjacency 2 (nodeTable theta) "intersection" 0 1 ≠ 0 := by
  have a0 := single_sign ha (h 0) h0
  have a1 := single_sign ha (h 1) h1
  have e0 : nodeTable theta 0 1 = theta 0 ⟨1, by decide⟩ := nodeTable_apply theta (i := 0) (j := 1) (by decide)
  have e1 : nodeTable theta 1 0 = theta 1 ⟨0, by decide⟩ := nodeTable_apply theta (i := 1) (j := 0) (by decide)
  have b0 : 0 < (1 / (N : ℝ) * ∑ i, X i 1 * (X i 0 - 1)) * nodeTable theta 0 1 := by rw [e0]; exact a0
  have b1 : 0 < (1 / (N : ℝ) * ∑ i, X i 0 * (X i 1 - 1)) * nodeTable theta 1 0 := by rw [e1]; exact a1
  obtain ⟨s0, hs0⟩ : ∃ s, s = 1 / (N : ℝ) * ∑ i, X i 1 * (X i 0 - 1) := ⟨_, rfl⟩
  obtain ⟨s1, hs1⟩ : ∃ s, s = 1 / (N : ℝ) * ∑ i, X i 0 * (X i 1 - 1) := ⟨_, rfl⟩
  rw [← hs0] at b0 hs
  rw [← hs1] at b1 hs
  have hn0 : nodeTable theta 0 1 ≠ 0 := by intro hz; rw [hz, mul_zero] at b0; exact lt_irrefl _ b0
  have hn1 : nodeTable theta 1 0 ≠ 0 := by intro hz; rw [hz, mul_zero] at b1; exact lt_irrefl _ b1
  have hprod : 0 < nodeTable theta 0 1 * nodeTable theta 1 0 := by
    have h3 : 0 < (s0 * s1) * (nodeTable theta 0 1 * nodeTable theta 1 0) := by
      have := mul_pos b0 b1
      nlinarith
    exact (mul_pos_iff_of_pos_left hs).mp h3
  have hsum : nodeTable theta 0 1 + nodeTable theta 1 0 ≠ 0 := by
    intro hz
    have : nodeTable theta 0 1 = -nodeTable theta 1 0 := by linarith
    rw [this] at hprod
    nlinarith [sq_nonneg (nodeTable theta 1 0)]
  exact ⟨((C40_union_partial 2 _ 0 1 (by norm_num) (by norm_num)).2.2.2 (by norm_num) hprod.le).mpr (Or.inl hn0),
    (C40_intersection_partial 2 _ 0 1 (by norm_num) (by norm_num) (by norm_num) hsum).mpr ⟨hn0, hn1⟩⟩

/-- C217 is false: two independent Poisson counts of any rate other than one are almost surely joined, by both rules, for
every `alpha` below the rate times its distance from one, once there are enough rows. -/
theorem C217_false (l : ℝ≥0) : ∃ μ : Measure (ℕ → Fin 2 → ℕ), IsProbabilityMeasure μ ∧
    IidRows μ (fun i ω (k : Fin 2) => (ω i k : ℝ)) ∧ (∀ k, μ.map (fun ω => ω 0 k) = poissonMeasure l) ∧
    ((fun ω : ℕ → Fin 2 → ℕ => (ω 0 0 : ℝ)) ⟂ᵢ[μ] fun ω => (ω 0 1 : ℝ)) ∧
    ∀ᵐ ω ∂μ, ∀ alpha : ℝ, 0 < alpha → alpha < l * |(l : ℝ) - 1| →
      ∀ᶠ N in atTop, ∀ theta, IsPoissonFit (fun (i : Fin N) (k : Fin 2) => (ω i k : ℝ)) alpha theta →
        buildAdjacency 2 (nodeTable theta) "union" 0 1 ≠ 0 ∧ buildAdjacency 2 (nodeTable theta) "intersection" 0 1 ≠ 0 := by
  obtain ⟨μ, h1, h2, h3, h4, h5⟩ := poisson_rows 2 l
  refine ⟨μ, h1, h2, h3, h5 0 1 (by decide), ?_⟩
  have hex : ∀ r k : Fin 2, k ≠ r → excessMoment μ (fun ω (k : Fin 2) => (ω 0 k : ℝ)) r k = l * ((l : ℝ) - 1) := by
    intro r k hkr
    rw [C217_independent (fun a => h2.sq a) (h5 k r hkr), h4, h4]
  filter_upwards [excess_tendsto h2] with ω hω alpha ha hlt
  have l0 := hω 0 1
  have l1 := hω 1 0
  rw [hex 0 1 (by decide)] at l0
  rw [hex 1 0 (by decide)] at l1
  have hab : alpha < |(l : ℝ) * ((l : ℝ) - 1)| := by rw [abs_mul, abs_of_nonneg (NNReal.coe_nonneg l)]; exact hlt
  have hne : (l : ℝ) * ((l : ℝ) - 1) ≠ 0 := by
    intro hz
    rw [hz, abs_zero] at hab
    linarith
  filter_upwards [l0.abs.eventually_const_lt hab, l1.abs.eventually_const_lt hab,
    (l0.mul l1).eventually_const_lt (mul_self_pos.mpr hne)] with N g0 g1 g2 theta hth
  exact two_joined ha hth g0 g1 g2

/-- The default `alpha` is below the bound for counts of rate two. -/
example : (0.01 : ℝ) < ((2 : ℝ≥0) : ℝ) * |((2 : ℝ≥0) : ℝ) - 1| := by
  rw [NNReal.coe_ofNat]
  norm_num

/-- C217, the column of ones does not help for Poisson counts of rate above one. -/
theorem C217_poisson_intercept_false {l : ℝ≥0} (hl : 1 < l) : ∃ μ : Measure (ℕ → Fin 2 → ℕ), IsProbabilityMeasure μ ∧
    IidRows μ (fun i ω (k : Fin 2) => (ω i k : ℝ)) ∧ (∀ k, μ.map (fun ω => ω 0 k) = poissonMeasure l) ∧
    ((fun ω : ℕ → Fin 2 → ℕ => (ω 0 0 : ℝ)) ⟂ᵢ[μ] fun ω => (ω 0 1 : ℝ)) ∧
    ∀ᵐ ω ∂μ, ∀ alpha : ℝ, 0 < alpha → alpha < l * ((l : ℝ) - 1) → ∀ᶠ N in atTop,
      ∀ theta : {j : Fin 3 // j ≠ 0} → ℝ, IsMin Set.univ (fun z => poissonLoss
          (fun (i : Fin N) j => Fin.snoc (α := fun _ => ℝ) (fun k : Fin 2 => (ω i k : ℝ)) 1 j.1) (fun i => (ω i 0 : ℝ)) z
          + alpha * absSum z) theta → theta ⟨1, by decide⟩ ≠ 0 := by
  obtain ⟨μ, h1, h2, h3, h4, h5⟩ := poisson_rows 2 l
  refine ⟨μ, h1, h2, h3, h5 0 1 (by decide), ?_⟩
  have hl' : (1 : ℝ) < l := by exact_mod_cast hl
  have h6 := C217_intercept_false h2 (r := 0) (k := 1) (by decide) (h5 1 0 (by decide)) (by rw [h4]; exact hl')
  rw [h4, h4] at h6
  filter_upwards [h6] with ω hω alpha ha hlt
  filter_upwards [hω alpha ha hlt] with N hN theta hth
  obtain ⟨j, hj, hne⟩ := hN theta hth
  fin_cases j
  · exact absurd rfl hj
  · exact hne

/-- Solutions exist for every positive `alpha`. -/
example {N : ℕ} (X : Fin N → Fin d → ℝ) (hX : ∀ i k, 0 ≤ X i k) {alpha : ℝ} (ha : 0 < alpha) :
    ∃ theta, IsPoissonFit X alpha theta :=
  ⟨fun r => (poisson_exists (poissonNode X alpha 0 r) ha fun i => hX i r).choose,
    fun r => (poisson_exists (poissonNode X alpha 0 r) ha fun i => hX i r).choose_spec⟩

end Verif.Props
