import Verif.Lemmas.Poisson
import Verif.Lemmas.Loop
import Mathlib.Analysis.Complex.ExponentialBounds

/-! Property theorems C172-C175: the Poisson neighbourhood regression
(regain/generalized_linear_model/glm_poisson.py:73-155) and `PoissonGraphicalModel.fit`. -/

namespace Verif.Props

open Verif.Model Verif.Spec Verif.Lemmas Filter Topology

set_option autoImplicit false
set_option linter.unusedSectionVars false

variable {ι : Type*} [Fintype ι] {m : ℕ}

/-! ### Small steps are accepted -/

/-- Region of the trials. -/
noncomputable def trialR (a : PoissonArgs m ι) (R Gam : ℝ) : ℝ := R + 2 * (Gam * (poissonG a.Xs a.xr R + a.alpha))

/-- Step size below which every trial is accepted. -/
noncomputable def safeGamma (a : PoissonArgs m ι) (R Gam : ℝ) : ℝ := 1 / (2 * (poissonL a.Xs (trialR a R Gam) + 1))

theorem safeGamma_pos (a : PoissonArgs m ι) (R Gam : ℝ) : 0 < safeGamma a R Gam := by
  have := poissonL_nonneg a.Xs (trialR a R Gam)
  unfold safeGamma
  positivity

theorem gradA_none (a : PoissonArgs m ι) (hA : a.A = none) (theta : ι → ℝ) :
    poissonGradientA a.Xs a.xr a.rho a.T a.A theta = poissonGradient a.Xs a.xr theta := by
  funext k
  unfold poissonGradientA
  rw [hA]
  simp

theorem near_accepts (a : PoissonArgs m ι) {R Gam g : ℝ} (hR : 0 ≤ R) {old theta : ι → ℝ} (ho : ∀ k, |old k| ≤ R)
    (hmove : ∀ k, |theta k - old k| ≤ 2 * (Gam * (poissonG a.Xs a.xr R + a.alpha)))
    (hG : 0 ≤ Gam * (poissonG a.Xs a.xr R + a.alpha)) (hg : 0 < g) (hs : g ≤ safeGamma a R Gam) :
    Accepts (poissonLoss a.Xs a.xr) (poissonGradient a.Xs a.xr old) old theta g := by
  have hR' : R ≤ trialR a R Gam := by unfold trialR; linarith
  have h1 : ∀ k, |theta k| ≤ trialR a R Gam := by
    intro k
    have h2 := abs_add_le (theta k - old k) (old k)
    rw [sub_add_cancel] at h2
    have := hmove k
    have := ho k
    unfold trialR
    linarith
  have h3 := poisson_smooth a.Xs a.xr (hR.trans hR') (fun k => (ho k).trans hR') h1
  have hL := poissonL_nonneg a.Xs (trialR a R Gam)
  have h4 : poissonL a.Xs (trialR a R Gam) ≤ 1 / (2 * g) := by
    unfold safeGamma at hs
    rw [le_div_iff₀ (by positivity)] at hs
    rw [le_div_iff₀ (by positivity)]
    nlinarith
  unfold Accepts searchBound
  have e : ∑ k, poissonGradient a.Xs a.xr old k * (old k - theta k) =
      -∑ k, poissonGradient a.Xs a.xr old k * (theta k - old k) := by
    rw [← Finset.sum_neg_distrib]; exact Finset.sum_congr rfl fun k _ => by ring
  have e2 : ∑ k, (old k - theta k) ^ 2 = ∑ k, (theta k - old k) ^ 2 := Finset.sum_congr rfl fun k _ => by ring
  rw [e, e2, div_eq_inv_mul, ← one_div]
  have h5 := mul_le_mul_of_nonneg_right h4 (Finset.sum_nonneg fun k (_ : k ∈ Finset.univ) => sq_nonneg (theta k - old k))
  linarith

theorem trials_accept (a : PoissonArgs m ι) (ha : 0 ≤ a.alpha) {R Gam : ℝ} (hR : 0 ≤ R) {old : ι → ℝ}
    (ho : ∀ k, |old k| ≤ R) {g : ℝ} (hg : 0 < g) (hs : g ≤ safeGamma a R Gam) (hgG : g ≤ Gam) :
    Accepts (poissonLoss a.Xs a.xr) (poissonGradient a.Xs a.xr old) old
      (oneStep a.alpha g (poissonGradient a.Xs a.xr old) old) g ∧
    Accepts (poissonLoss a.Xs a.xr) (poissonGradient a.Xs a.xr old) old
      (oneStep a.alpha g (poissonGradient a.Xs a.xr old)
        (oneStep a.alpha g (poissonGradient a.Xs a.xr old) old)) g := by
  have hG0 : Gam * (poissonG a.Xs a.xr R + a.alpha) = Gam * (poissonG a.Xs a.xr R + a.alpha) := rfl
  have hGn : 0 ≤ poissonG a.Xs a.xr R := by
    unfold poissonG
    have : 0 ≤ ∑ i, ∑ k, |a.Xs i k| * (|a.xr i| + Real.exp (designAbs a.Xs * R)) :=
      Finset.sum_nonneg fun i _ => Finset.sum_nonneg fun k _ => by positivity
    positivity
  have hpos : 0 ≤ Gam * (poissonG a.Xs a.xr R + a.alpha) := mul_nonneg (hg.le.trans hgG) (by linarith)
  have hb : ∀ k, g * (|poissonGradient a.Xs a.xr old k| + a.alpha) ≤ Gam * (poissonG a.Xs a.xr R + a.alpha) := by
    intro k
    have := poissonGradient_le a.Xs a.xr hR ho k
    exact mul_le_mul hgG (by linarith) (by positivity) (hg.le.trans hgG)
  constructor
  · refine near_accepts a hR ho (fun k => ?_) hpos hg hs
    have := oneStep_move ha hg.le (poissonGradient a.Xs a.xr old) old k
    have := hb k
    linarith
  · refine near_accepts a hR ho (fun k => ?_) hpos hg hs
    have := twoStep_move ha hg.le (poissonGradient a.Xs a.xr old) old k
    have := hb k
    linarith

theorem abs_le_absSum (x : ι → ℝ) (k : ι) : |x k| ≤ absSum x :=
  Finset.single_le_sum (f := fun k => |x k|) (fun _ _ => abs_nonneg _) (Finset.mem_univ k)

theorem absSum_nonneg' (x : ι → ℝ) : 0 ≤ absSum x := Finset.sum_nonneg fun _ _ => abs_nonneg _

/-- **C172** the line search of the Poisson regression ends from every point and step size. -/
theorem C172_search_ends (a : PoissonArgs m ι) (hA : a.A = none) (ha : 0 ≤ a.alpha) (hs0 : 0 < a.updateGamma)
    (hs1 : a.updateGamma < 1) (theta : ι → ℝ) {gamma : ℝ} (hg : 0 < gamma) :
    ∃ r, searchWhile (poissonLoss a.Xs a.xr) (poissonGradientA a.Xs a.xr a.rho a.T a.A theta) theta a.alpha
      a.updateGamma theta gamma = some r := by
  rw [gradA_none a hA]
  refine searchWhile_isSome _ _ _ _ _ _ _ ?_
  have hgs := safeGamma_pos a (absSum theta) gamma
  obtain ⟨n, hn⟩ := exists_pow_lt_of_lt_one (div_pos hgs hg) hs1
  rw [lt_div_iff₀ hg] at hn
  exact lineSearch_ends _ _ _ hs0 hs1 n theta gamma hg hn.le
    (fun g h1 h2 h3 => (trials_accept a ha (absSum_nonneg' theta) (abs_le_absSum theta) h1 h2 h3).2)
    (Or.inr fun h => (trials_accept a ha (absSum_nonneg' theta) (abs_le_absSum theta) hg h le_rfl).1)

/-! ### The run -/

theorem poissonObjective_eq (a : PoissonArgs m ι) (theta : ι → ℝ) :
    poissonObjective a.Xs a.xr a.alpha theta = poissonLoss a.Xs a.xr theta + a.alpha * absSum theta := rfl

/-- The states of the run: coefficients `th k`, step size `ga k`. -/
structure PoissonTrace (a : PoissonArgs m ι) (th : ℕ → ι → ℝ) (ga : ℕ → ℝ) : Prop where
  start : th 0 = fun _ => 0
  gstart : ga 0 = a.gamma
  gpos : ∀ k, 0 < ga k
  state : ∀ k, stateAt (poissonBody a) (some ⟨fun _ => 0, a.gamma⟩) k = some ⟨th k, ga k⟩
  search : ∀ k, searchWhile (poissonLoss a.Xs a.xr) (poissonGradient a.Xs a.xr (th k)) (th k) a.alpha
    a.updateGamma (th k) (ga k) = some (th (k + 1), ga (k + 1))

theorem exists_trace (a : PoissonArgs m ι) (hA : a.A = none) (ha : 0 ≤ a.alpha) (hs0 : 0 < a.updateGamma)
    (hs1 : a.updateGamma < 1) (hg : 0 < a.gamma) : ∃ th ga, PoissonTrace a th ga := by
  set st := stateAt (poissonBody a) (some ⟨fun _ => 0, a.gamma⟩) with hst
  have hnext : ∀ k s, 0 < s.gamma → st k = some s → ∃ s' : PoissonState ι, 0 < s'.gamma ∧ st (k + 1) = some s' ∧
      searchWhile (poissonLoss a.Xs a.xr) (poissonGradient a.Xs a.xr s.theta) s.theta a.alpha
        a.updateGamma s.theta s.gamma = some (s'.theta, s'.gamma) := by
    intro k s hs hk
    obtain ⟨⟨th, ga⟩, hr⟩ := C172_search_ends a hA ha hs0 hs1 s.theta hs
    have hr' := hr
    rw [gradA_none a hA] at hr'
    refine ⟨⟨th, ga⟩, ?_, ?_, hr'⟩
    · obtain ⟨fuel, hf⟩ := searchWhile_spec _ _ _ _ _ _ _ hr'
      obtain ⟨-, ⟨h, -⟩ | ⟨j, h, -⟩⟩ := lineSearch_cases _ _ _ _ _ _ _ _ _ _ hf
      · show 0 < ga
        rw [h]; exact hs
      · show 0 < ga
        rw [h]; positivity
    · show (poissonBody a k (st k)).1 = _
      rw [hk]
      unfold poissonBody
      simp only [hr]
      split_ifs <;> rfl
  have hall : ∀ k, ∃ s : PoissonState ι, 0 < s.gamma ∧ st k = some s := by
    intro k
    induction k with
    | zero => exact ⟨⟨fun _ => 0, a.gamma⟩, hg, rfl⟩
    | succ k ih =>
      obtain ⟨s, hs, hk⟩ := ih
      obtain ⟨s', hs', hk', -⟩ := hnext k s hs hk
      exact ⟨s', hs', hk'⟩
  choose s hs hk using hall
  have h0 : s 0 = ⟨fun _ => 0, a.gamma⟩ := (Option.some.inj ((hk 0).symm.trans rfl))
  refine ⟨fun k => (s k).theta, fun k => (s k).gamma, ⟨by simp only [h0], by simp only [h0], hs, hk, fun k => ?_⟩⟩
  obtain ⟨s', -, hk', hse⟩ := hnext k (s k) (hs k) (hk k)
  have : s' = s (k + 1) := Option.some.inj (hk'.symm.trans (hk (k + 1)))
  rw [← this]
  exact hse

theorem PoissonTrace.descent {a : PoissonArgs m ι} {th : ℕ → ι → ℝ} {ga : ℕ → ℝ} (h : PoissonTrace a th ga)
    (ha : 0 ≤ a.alpha) (hs0 : 0 < a.updateGamma) (k : ℕ) :
    poissonObjective a.Xs a.xr a.alpha (th (k + 1)) ≤ poissonObjective a.Xs a.xr a.alpha (th k) := by
  rw [poissonObjective_eq, poissonObjective_eq]
  exact search_descent _ _ _ ha hs0 (h.gpos k) (h.search k)

theorem PoissonTrace.body {a : PoissonArgs m ι} {th : ℕ → ι → ℝ} {ga : ℕ → ℝ} (h : PoissonTrace a th ga)
    (hA : a.A = none) (k : ℕ) :
    checkAt (poissonBody a) (some ⟨fun _ => 0, a.gamma⟩) k =
      (if 0 < k then some ⟨k, poissonObjective a.Xs a.xr a.alpha (th (k + 1)),
        Real.sqrt (∑ i, (th k i - th (k + 1) i) ^ 2)⟩ else none) ∧
    (stopAt (poissonBody a) (some ⟨fun _ => 0, a.gamma⟩) k = true ↔
      0 < k ∧ Real.sqrt (∑ i, (th k i - th (k + 1) i) ^ 2) < a.tol) := by
  have e : poissonBody a k (stateAt (poissonBody a) (some ⟨fun _ => 0, a.gamma⟩) k) =
      (if 0 < k then
        (some ⟨th (k + 1), ga (k + 1)⟩, some ⟨k, poissonObjective a.Xs a.xr a.alpha (th (k + 1)),
          Real.sqrt (∑ i, (th k i - th (k + 1) i) ^ 2)⟩,
          decide (|Real.sqrt (∑ i, (th k i - th (k + 1) i) ^ 2)| < a.tol))
      else (some ⟨th (k + 1), ga (k + 1)⟩, none, false)) := by
    rw [h.state k]
    unfold poissonBody
    simp only [gradA_none a hA, h.search k]
  constructor
  · show (poissonBody a k (stateAt (poissonBody a) (some ⟨fun _ => 0, a.gamma⟩) k)).2.1 = _
    rw [e]
    split_ifs <;> rfl
  · show (poissonBody a k (stateAt (poissonBody a) (some ⟨fun _ => 0, a.gamma⟩) k)).2.2 = true ↔ _
    rw [e]
    split_ifs with h0
    · simp only [decide_eq_true_eq, abs_of_nonneg (Real.sqrt_nonneg _)]
      exact ⟨fun h => ⟨h0, h⟩, fun h => h.2⟩
    · simp [h0]

/-- What `fit_each_variable` returns in terms of the trace. -/
theorem PoissonTrace.result {a : PoissonArgs m ι} {th : ℕ → ι → ℝ} {ga : ℕ → ℝ} (h : PoissonTrace a th ga)
    (hA : a.A = none) :
    ∃ n ≤ a.maxIter, poissonFitNode a = some (th n, ((List.range n).map
        (checkAt (poissonBody a) (some ⟨fun _ => 0, a.gamma⟩))).filterMap id, if n = 0 then none else some (n - 1)) ∧
      (n < a.maxIter → 2 ≤ n ∧ Real.sqrt (∑ i, (th (n - 1) i - th n i) ^ 2) < a.tol) ∧
      ∀ k, 0 < k → k + 1 < n → a.tol ≤ Real.sqrt (∑ i, (th k i - th (k + 1) i) ^ 2) := by
  unfold poissonFitNode
  rcases runLoop_spec (poissonBody a) a.maxIter (some ⟨fun _ => 0, a.gamma⟩) with ⟨j, hj, hno, hst, hrun⟩ | ⟨hno, hrun⟩
  · refine ⟨j + 1, hj, ?_, fun _ => ?_, fun k hk0 hk => ?_⟩
    · simp only [hrun, h.state]
      simp
    · obtain ⟨h1, h2⟩ := ((h.body hA j).2).mp hst
      exact ⟨by omega, h2⟩
    · by_contra hc
      have := ((h.body hA k).2).mpr ⟨hk0, not_le.mp hc⟩
      rw [hno k (by omega)] at this
      exact absurd this (by simp)
  · refine ⟨a.maxIter, le_rfl, ?_, fun hlt => absurd hlt (lt_irrefl _), fun k hk0 hk => ?_⟩
    · simp only [hrun, h.state]
    · by_contra hc
      have := ((h.body hA k).2).mpr ⟨hk0, not_le.mp hc⟩
      rw [hno k (by omega)] at this
      exact absurd this (by simp)

/-- **C172** without coupling the fit always returns, the objectives in its history never increase, and the
returned coefficients are at least as good as zero. The accepted points need not be proximal gradient steps
(`C65_line_search_false`), but two steps with one gradient still decrease the penalised loss. -/
theorem C172_descent (a : PoissonArgs m ι) (hA : a.A = none) (ha : 0 ≤ a.alpha) (hs0 : 0 < a.updateGamma)
    (hs1 : a.updateGamma < 1) (hg : 0 < a.gamma) :
    ∃ theta checks last, poissonFitNode a = some (theta, checks, last) ∧
      (checks.map PoissonCheck.obj).Pairwise (fun x y => y ≤ x) ∧
      (∀ c ∈ checks, poissonLoss a.Xs a.xr theta + a.alpha * absSum theta ≤ c.obj) ∧
      (checks ≠ [] → ∃ c ∈ checks, c.obj = poissonLoss a.Xs a.xr theta + a.alpha * absSum theta) ∧
      poissonLoss a.Xs a.xr theta + a.alpha * absSum theta ≤ poissonLoss a.Xs a.xr fun _ => 0 := by
  obtain ⟨th, ga, h⟩ := exists_trace a hA ha hs0 hs1 hg
  obtain ⟨n, hn, hres, -, -⟩ := h.result hA
  have hanti : Antitone fun k => poissonObjective a.Xs a.xr a.alpha (th k) :=
    antitone_nat_of_succ_le fun k => h.descent ha hs0 k
  have hchk : ∀ k, checkAt (poissonBody a) (some ⟨fun _ => 0, a.gamma⟩) k = _ := fun k => (h.body hA k).1
  refine ⟨_, _, _, hres, ?_, ?_, ?_, ?_⟩
  · rw [List.pairwise_map, List.pairwise_filterMap, List.pairwise_map]
    refine (List.pairwise_lt_range (n := n)).imp fun {i j} hij c hc d hd => ?_
    rw [id, hchk] at hc hd
    split_ifs at hc hd
    obtain rfl := Option.some.inj hc
    obtain rfl := Option.some.inj hd
    exact hanti (by omega : i + 1 ≤ j + 1)
  · intro c hc
    rw [List.mem_filterMap] at hc
    obtain ⟨o, ho, hoc⟩ := hc
    obtain ⟨k, hk, rfl⟩ := List.mem_map.mp ho
    rw [List.mem_range] at hk
    rw [id, hchk] at hoc
    split_ifs at hoc
    obtain rfl := Option.some.inj hoc
    exact hanti (by omega : k + 1 ≤ n)
  · intro hne
    have h2 : 2 ≤ n := by
      by_contra hc
      refine hne ?_
      rw [List.filterMap_eq_nil_iff]
      intro o ho
      obtain ⟨k, hk, rfl⟩ := List.mem_map.mp ho
      rw [List.mem_range] at hk
      rw [id, hchk, if_neg (by omega)]
    refine ⟨⟨n - 1, poissonObjective a.Xs a.xr a.alpha (th (n - 1 + 1)),
      Real.sqrt (∑ i, (th (n - 1) i - th (n - 1 + 1) i) ^ 2)⟩, ?_, ?_⟩
    · rw [List.mem_filterMap]
      refine ⟨_, List.mem_map.mpr ⟨n - 1, List.mem_range.mpr (by omega), rfl⟩, ?_⟩
      rw [id, hchk, if_pos (by omega)]
    · rw [show n - 1 + 1 = n by omega]
      rfl
  · have h0 := hanti (Nat.zero_le n)
    simp only [h.start, poissonObjective_eq] at h0
    have e : absSum (fun _ : ι => (0 : ℝ)) = 0 := by unfold absSum; simp
    rw [e, mul_zero, add_zero] at h0
    exact h0

/-! ### Convergence -/

theorem poisson_lower {Xs : Fin m → ι → ℝ} {xr : Fin m → ℝ} (hx : ∀ i, 0 ≤ xr i) (theta : ι → ℝ) :
    -(1 / (m : ℝ) * ∑ i, xr i ^ 2 / 2) ≤ poissonLoss Xs xr theta := by
  unfold poissonLoss
  rw [← mul_neg, ← Finset.sum_neg_distrib]
  refine mul_le_mul_of_nonneg_left (Finset.sum_le_sum fun i _ => ?_) (by positivity)
  set u := linPred Xs theta i
  rcases le_total 0 u with h | h
  · have := Real.quadratic_le_exp_of_nonneg h
    nlinarith [sq_nonneg (u - xr i)]
  · have := Real.exp_pos u
    have := mul_nonneg (hx i) (neg_nonneg.mpr h)
    nlinarith [sq_nonneg (xr i)]

theorem poisson_continuous (Xs : Fin m → ι → ℝ) (xr : Fin m → ℝ) (alpha : ℝ) :
    Continuous fun theta => poissonLoss Xs xr theta + alpha * absSum theta := by
  have hl : ∀ i, Continuous fun theta : ι → ℝ => linPred Xs theta i := fun i =>
    continuous_finsetSum _ fun k _ => continuous_const.mul (continuous_apply k)
  unfold poissonLoss absSum
  refine (continuous_const.mul (continuous_finsetSum _ fun i _ => ?_)).add
    (continuous_const.mul (continuous_finsetSum _ fun k _ => (continuous_apply k).abs))
  exact (Real.continuous_exp.comp (hl i)).sub (continuous_const.mul (hl i))

/-- Radius of the points that are at least as good as zero. -/
noncomputable def poissonRadius (a : PoissonArgs m ι) : ℝ :=
  (poissonLoss a.Xs a.xr (fun _ => 0) + 1 / (m : ℝ) * ∑ i, a.xr i ^ 2 / 2) / a.alpha

theorem poisson_bounded (a : PoissonArgs m ι) (ha : 0 < a.alpha) (hx : ∀ i, 0 ≤ a.xr i) {theta : ι → ℝ}
    (h : poissonLoss a.Xs a.xr theta + a.alpha * absSum theta ≤ poissonLoss a.Xs a.xr fun _ => 0) (k : ι) :
    |theta k| ≤ poissonRadius a := by
  refine (abs_le_absSum theta k).trans ?_
  unfold poissonRadius
  rw [le_div_iff₀ ha]
  have := poisson_lower (Xs := a.Xs) hx theta
  linarith

theorem poissonRadius_nonneg (a : PoissonArgs m ι) (ha : 0 < a.alpha) (hx : ∀ i, 0 ≤ a.xr i) :
    0 ≤ poissonRadius a := by
  unfold poissonRadius
  have := poisson_lower (Xs := a.Xs) hx fun _ => 0
  exact div_nonneg (by linarith) ha.le

/-- The penalised Poisson problem has a solution. -/
theorem poisson_exists (a : PoissonArgs m ι) (ha : 0 < a.alpha) (hx : ∀ i, 0 ≤ a.xr i) :
    ∃ z, IsMin Set.univ (fun theta => poissonLoss a.Xs a.xr theta + a.alpha * absSum theta) z := by
  have hR := poissonRadius_nonneg a ha hx
  obtain ⟨z, hz, hmin⟩ := (isCompact_closedBall (0 : ι → ℝ) (poissonRadius a)).exists_isMinOn
    ⟨0, Metric.mem_closedBall_self hR⟩ (poisson_continuous a.Xs a.xr a.alpha).continuousOn
  have h0 : absSum (fun _ : ι => (0 : ℝ)) = 0 := by unfold absSum; simp
  refine ⟨z, trivial, fun w _ => ?_⟩
  by_cases hw : poissonLoss a.Xs a.xr w + a.alpha * absSum w ≤ poissonLoss a.Xs a.xr fun _ => 0
  · refine hmin ?_
    rw [Metric.mem_closedBall, dist_pi_le_iff hR]
    intro k
    rw [Real.dist_eq, Pi.zero_apply, sub_zero]
    exact poisson_bounded a ha hx hw k
  · have h1 : poissonLoss a.Xs a.xr z + a.alpha * absSum z ≤
        poissonLoss a.Xs a.xr (0 : ι → ℝ) + a.alpha * absSum (0 : ι → ℝ) :=
      hmin (Metric.mem_closedBall_self hR)
    have h2 : absSum (0 : ι → ℝ) = 0 := h0
    rw [h2, mul_zero, add_zero] at h1
    have h3 : poissonLoss a.Xs a.xr (0 : ι → ℝ) = poissonLoss a.Xs a.xr fun _ => 0 := rfl
    show poissonLoss a.Xs a.xr z + a.alpha * absSum z ≤ poissonLoss a.Xs a.xr w + a.alpha * absSum w
    linarith

theorem PoissonTrace.step_cases {a : PoissonArgs m ι} {th : ℕ → ι → ℝ} {ga : ℕ → ℝ} (h : PoissonTrace a th ga)
    (ha : 0 ≤ a.alpha) (hs0 : 0 < a.updateGamma) (hs1 : a.updateGamma < 1) {R : ℝ} (hR : 0 ≤ R)
    (hth : ∀ k i, |th k i| ≤ R) (hga : ∀ k, ga k ≤ a.gamma) (k : ℕ) :
    (ga (k + 1) = ga k ∧ th (k + 1) = oneStep a.alpha (ga k) (poissonGradient a.Xs a.xr (th k)) (th k) ∧
      Accepts (poissonLoss a.Xs a.xr) (poissonGradient a.Xs a.xr (th k)) (th k) (th (k + 1)) (ga k)) ∨
    (ga (k + 1) ≤ a.updateGamma * ga k ∧ a.updateGamma * safeGamma a R a.gamma < ga (k + 1)) := by
  obtain ⟨fuel, hf⟩ := searchWhile_spec _ _ _ _ _ _ _ (h.search k)
  have hgk := h.gpos k
  obtain ⟨hacc, ⟨hg, ht⟩ | ⟨j, hg, ht, hrej⟩⟩ := lineSearch_cases _ _ _ _ _ _ _ _ _ _ hf
  · left
    rw [hg] at ht hacc
    exact ⟨hg, ht, hacc⟩
  · right
    have hp : a.updateGamma ^ j ≤ 1 := pow_le_one₀ hs0.le hs1.le
    have hpp : 0 < a.updateGamma ^ j := pow_pos hs0 j
    have hle : a.updateGamma ^ j * ga k ≤ ga k := by nlinarith
    have hpos : 0 < a.updateGamma ^ j * ga k := by positivity
    refine ⟨?_, ?_⟩
    · rw [hg, pow_succ]
      nlinarith [mul_le_mul_of_nonneg_left hle hs0.le]
    · have hbig : safeGamma a R a.gamma < a.updateGamma ^ j * ga k := by
        by_contra hc
        push Not at hc
        have h1 := trials_accept a ha hR (hth k) hpos hc (hle.trans (hga k))
        rcases hrej with ⟨rfl, hr⟩ | ⟨-, hr⟩
        · rw [pow_zero, one_mul] at h1
          exact hr h1.1
        · exact hr h1.2
      rw [hg, pow_succ]
      nlinarith [mul_lt_mul_of_pos_left hbig hs0]

theorem PoissonTrace.converges {a : PoissonArgs m ι} {th : ℕ → ι → ℝ} {ga : ℕ → ℝ} (h : PoissonTrace a th ga)
    (ha : 0 < a.alpha) (hs0 : 0 < a.updateGamma) (hs1 : a.updateGamma < 1) (hx : ∀ i, 0 ≤ a.xr i) :
    ∃ z, IsMin Set.univ (fun theta => poissonLoss a.Xs a.xr theta + a.alpha * absSum theta) z ∧
      Tendsto th atTop (𝓝 z) := by
  have hanti : Antitone fun k => poissonObjective a.Xs a.xr a.alpha (th k) :=
    antitone_nat_of_succ_le fun k => h.descent ha.le hs0 k
  have hR := poissonRadius_nonneg a ha hx
  have hth : ∀ k i, |th k i| ≤ poissonRadius a := by
    intro k i
    refine poisson_bounded a ha hx ?_ i
    have h0 := hanti (Nat.zero_le k)
    simp only [h.start, poissonObjective_eq] at h0
    have e : absSum (fun _ : ι => (0 : ℝ)) = 0 := by unfold absSum; simp
    rw [e, mul_zero, add_zero] at h0
    exact h0
  have hgmono : ∀ k, ga (k + 1) ≤ ga k := by
    intro k
    obtain ⟨fuel, hf⟩ := searchWhile_spec _ _ _ _ _ _ _ (h.search k)
    have hgk := h.gpos k
    obtain ⟨-, ⟨hg, -⟩ | ⟨j, hg, -⟩⟩ := lineSearch_cases _ _ _ _ _ _ _ _ _ _ hf
    · exact hg.le
    · rw [hg]
      have : a.updateGamma ^ (j + 1) ≤ 1 := pow_le_one₀ hs0.le hs1.le
      nlinarith
  have hgant : Antitone ga := antitone_nat_of_succ_le hgmono
  have hga : ∀ k, ga k ≤ a.gamma := fun k => h.gstart ▸ hgant (Nat.zero_le k)
  have hcases := h.step_cases ha.le hs0 hs1 hR hth hga
  -- eventually every pass is a single step
  have hev : ∃ N, ∀ k ≥ N, ga (k + 1) = ga k ∧
      th (k + 1) = oneStep a.alpha (ga k) (poissonGradient a.Xs a.xr (th k)) (th k) ∧
      Accepts (poissonLoss a.Xs a.xr) (poissonGradient a.Xs a.xr (th k)) (th k) (th (k + 1)) (ga k) := by
    by_contra hc
    push Not at hc
    have hshrink : ∀ N, ∃ k ≥ N, ga (k + 1) ≤ a.updateGamma * ga k ∧
        a.updateGamma * safeGamma a (poissonRadius a) a.gamma < ga (k + 1) := by
      intro N
      obtain ⟨k, hk, hk2⟩ := hc N
      rcases hcases k with hcase | hcase
      · exact absurd hcase.2.2 (hk2 hcase.1 hcase.2.1)
      · exact ⟨k, hk, hcase⟩
    have hpow : ∀ n, ∃ k, ga k ≤ a.updateGamma ^ n * a.gamma := by
      intro n
      induction n with
      | zero => exact ⟨0, by rw [pow_zero, one_mul, h.gstart]⟩
      | succ n ih =>
        obtain ⟨k, hk⟩ := ih
        obtain ⟨j, hj, hj2, -⟩ := hshrink k
        refine ⟨j + 1, hj2.trans ?_⟩
        have := (hgant hj).trans hk
        rw [pow_succ]
        nlinarith [mul_le_mul_of_nonneg_left this hs0.le]
    have hg0 : 0 < a.gamma := h.gstart ▸ h.gpos 0
    have hsafe := safeGamma_pos a (poissonRadius a) a.gamma
    obtain ⟨n, hn⟩ := exists_pow_lt_of_lt_one (div_pos (mul_pos hs0 hsafe) hg0) hs1
    rw [lt_div_iff₀ hg0] at hn
    obtain ⟨k, hk⟩ := hpow n
    obtain ⟨j, hj, -, hj3⟩ := hshrink k
    have := hgant (show k ≤ j + 1 by omega)
    linarith
  obtain ⟨N, hN⟩ := hev
  have hconst : ∀ k, ga (N + k) = ga N := by
    intro k
    induction k with
    | zero => rfl
    | succ k ih => rw [← ih, ← add_assoc]; exact (hN (N + k) (by omega)).1
  obtain ⟨z0, hz0⟩ := poisson_exists a ha hx
  obtain ⟨z, hz, hlim⟩ := prox_seq_converges (s := fun k => th (N + k)) (poisson_continuous a.Xs a.xr a.alpha)
    (h.gpos N) (fun k z => by
      obtain ⟨-, h2, h3⟩ := hN (N + k) (by omega)
      rw [hconst k] at h2 h3
      have h4 := accepts_smooth _ _ _ _ h3
      rw [h2] at h4
      have h5 := prox_grad_step ha.le (h.gpos N) (poissonLoss a.Xs a.xr) (th (N + k))
        (poissonGradient a.Xs a.xr (th (N + k))) z (poisson_convex a.Xs a.xr (th (N + k)) z) h4
      show _ ≤ _ + 1 / (2 * ga N) * (sqDist (th (N + k)) z - sqDist (th (N + k + 1)) z)
      rw [show th (N + (k + 1)) = th (N + k + 1) from rfl, h2]
      exact h5) hz0
  refine ⟨z, hz, ?_⟩
  rw [← tendsto_add_atTop_iff_nat N]
  refine hlim.congr fun k => ?_
  rw [add_comm]

/-- The trace does not depend on the tolerance and the number of passes. -/
theorem stateAt_tol (a : PoissonArgs m ι) (hA : a.A = none) {th : ℕ → ι → ℝ} {ga : ℕ → ℝ} (h : PoissonTrace a th ga)
    (tol : ℝ) (N : ℕ) : PoissonTrace { a with tol := tol, maxIter := N } th ga := by
  refine ⟨h.start, h.gstart, h.gpos, fun k => ?_, h.search⟩
  induction k with
  | zero =>
    show some _ = _
    rw [h.start, h.gstart]
  | succ k ih =>
    show (poissonBody { a with tol := tol, maxIter := N } k _).1 = _
    rw [ih]
    unfold poissonBody
    have := gradA_none a hA
    simp only [this, h.search k]
    split_ifs <;> rfl

/-- **C173** convergence: for non-negative responses and `alpha > 0` the coefficients after `N` passes (no early
stop) tend to a minimiser of the penalised Poisson loss; for a positive tolerance the call stops by itself, from
some number of passes on `max_iter` is irrelevant, and it stops with a step shorter than the tolerance. -/
theorem C173_converges (a : PoissonArgs m ι) (hA : a.A = none) (ha : 0 < a.alpha) (hs0 : 0 < a.updateGamma)
    (hs1 : a.updateGamma < 1) (hg : 0 < a.gamma) (hx : ∀ i, 0 ≤ a.xr i) :
    ∃ (th : ℕ → ι → ℝ) (z : ι → ℝ),
      (∀ N, ∃ checks last, poissonFitNode { a with tol := 0, maxIter := N } = some (th N, checks, last)) ∧
      IsMin Set.univ (fun theta => poissonLoss a.Xs a.xr theta + a.alpha * absSum theta) z ∧
      Tendsto th atTop (𝓝 z) ∧
      ∀ tol > 0, ∃ K, 2 ≤ K ∧ Real.sqrt (∑ i, (th (K - 1) i - th K i) ^ 2) < tol ∧
        ∃ checks, ∀ N ≥ K, poissonFitNode { a with tol := tol, maxIter := N } = some (th K, checks, some (K - 1)) := by
  obtain ⟨th, ga, h⟩ := exists_trace a hA ha.le hs0 hs1 hg
  obtain ⟨z, hz, hlim⟩ := h.converges ha hs0 hs1 hx
  refine ⟨th, z, fun N => ?_, hz, hlim, fun tol ht => ?_⟩
  · obtain ⟨n, hn, hres, hlt, -⟩ := (stateAt_tol a hA h 0 N).result hA
    have : n = N := by
      by_contra hc
      have h1 := (hlt (lt_of_le_of_ne hn hc)).2
      exact absurd h1 (not_lt.mpr (Real.sqrt_nonneg _))
    rw [this] at hres
    exact ⟨_, _, hres⟩
  · have hex : ∃ k, 0 < k ∧ Real.sqrt (∑ i, (th k i - th (k + 1) i) ^ 2) < tol := by
      have h1 := tendsto_sqDist (hlim.comp (tendsto_add_atTop_nat 1)) hlim
      have e : sqDist z z = 0 := by unfold sqDist; simp
      rw [e] at h1
      have h2 := h1.sqrt
      rw [Real.sqrt_zero] at h2
      obtain ⟨k, hk, hk0⟩ := (((tendsto_order.mp h2).2 tol ht).and (eventually_gt_atTop 0)).exists
      refine ⟨k, hk0, ?_⟩
      have e2 : (∑ i, (th k i - th (k + 1) i) ^ 2) = sqDist (th (k + 1)) (th k) :=
        Finset.sum_congr rfl fun i _ => by ring
      rw [e2]
      exact hk
    classical
    set k := Nat.find hex with hkdef
    obtain ⟨hk0, hk1⟩ := Nat.find_spec hex
    refine ⟨k + 1, by omega, by rwa [Nat.add_sub_cancel], ?_⟩
    have hall : ∀ N ≥ k + 1, poissonFitNode { a with tol := tol, maxIter := N } =
        some (th (k + 1), ((List.range (k + 1)).map (fun k => if 0 < k then
          some (⟨k, poissonObjective a.Xs a.xr a.alpha (th (k + 1)),
          Real.sqrt (∑ i, (th k i - th (k + 1) i) ^ 2)⟩ : PoissonCheck) else none)).filterMap id, some k) := by
      intro N hN
      have h' := stateAt_tol a hA h tol N
      obtain ⟨n, hn, hres, hlt, hmin⟩ := h'.result hA
      have hn2 : n = k + 1 := by
        rcases lt_trichotomy n (k + 1) with hc | hc | hc
        · obtain ⟨h2, h3⟩ := hlt (show n < N by omega)
          have := Nat.find_min hex (m := n - 1) (by omega)
          refine absurd ⟨by omega, ?_⟩ this
          rwa [show n - 1 + 1 = n by omega]
        · exact hc
        · exact absurd (hmin k hk0 hc) (not_le.mpr hk1)
      rw [hres, hn2, if_neg (by omega), Nat.add_sub_cancel]
      have e : (fun k => if 0 < k then
          some (⟨k, poissonObjective a.Xs a.xr a.alpha (th (k + 1)),
          Real.sqrt (∑ i, (th k i - th (k + 1) i) ^ 2)⟩ : PoissonCheck) else none) =
          checkAt (poissonBody { a with tol := tol, maxIter := N }) (some ⟨fun _ => 0, a.gamma⟩) := by
        funext j
        exact ((h'.body hA j).1).symm
      rw [e]
    rw [Nat.add_sub_cancel]
    exact ⟨_, hall⟩

/-- Non-vacuity for C172 and C173: two samples with responses 0 and 3. -/
example : ∃ a : PoissonArgs 2 (Fin 2), a.A = none ∧ 0 < a.alpha ∧ 0 < a.updateGamma ∧ a.updateGamma < 1 ∧
    0 < a.gamma ∧ (∀ i, 0 ≤ a.xr i) ∧ poissonGradient a.Xs a.xr (fun _ => 0) 0 ≠ 0 := by
  refine ⟨⟨fun i k => if i = 1 ∧ k = 0 then 2 else 0, fun i => if i = 1 then 3 else 0, 1 / 10, 1, 1 / 1000, 100, 1 / 2,
    none, 0, 1⟩, rfl, by norm_num, by norm_num, by norm_num, by norm_num, fun i => ?_, ?_⟩
  · show (0 : ℝ) ≤ if i = 1 then 3 else 0
    split_ifs <;> norm_num
  · unfold poissonGradient linPred
    simp
    norm_num

/-! ### The coupled problem -/

/-- Specification: the smooth part of the problem the gradient belongs to. -/
noncomputable def coupledLoss (a : PoissonArgs m ι) (A theta : ι → ℝ) : ℝ :=
  poissonLoss a.Xs a.xr theta + a.rho * a.T / (2 * m) * ∑ k, (theta k - A k) ^ 2

/-- **C174** with a coupling row the gradient of the code is a subgradient of the coupled loss, so a point that the
proximal step leaves in place solves the coupled problem. -/
theorem C174_fixed_point_optimal (a : PoissonArgs m ι) {A : ι → ℝ} (hA : a.A = some A) (ha : 0 ≤ a.alpha)
    (hrT : 0 ≤ a.rho * a.T) {gamma : ℝ} (hg : 0 < gamma) (theta : ι → ℝ)
    (h : softThresholding (fun k => theta k - gamma * poissonGradientA a.Xs a.xr a.rho a.T a.A theta k)
      (a.alpha * gamma) = theta) :
    IsMin Set.univ (fun z => coupledLoss a A z + a.alpha * absSum z) theta := by
  refine ⟨trivial, fun z _ => prox_grad_fixed ha hg (coupledLoss a A) theta _ (fun z => ?_) h z⟩
  have h1 := poisson_convex a.Xs a.xr theta z
  have e : ∑ k, poissonGradientA a.Xs a.xr a.rho a.T a.A theta k * (z k - theta k) =
      ∑ k, poissonGradient a.Xs a.xr theta k * (z k - theta k) +
        a.rho * a.T / (2 * m) * ∑ k, 2 * (theta k - A k) * (z k - theta k) := by
    unfold poissonGradientA
    rw [hA, Finset.mul_sum, ← Finset.sum_add_distrib]
    refine Finset.sum_congr rfl fun k _ => ?_
    by_cases hm : (m : ℝ) = 0
    · simp [hm]
    · field_simp
  have h2 : a.rho * a.T / (2 * m) * ∑ k, ((theta k - A k) ^ 2 + 2 * (theta k - A k) * (z k - theta k)) ≤
      a.rho * a.T / (2 * m) * ∑ k, (z k - A k) ^ 2 :=
    mul_le_mul_of_nonneg_left (Finset.sum_le_sum fun k _ => by nlinarith [sq_nonneg (z k - theta k)]) (by positivity)
  rw [Finset.sum_add_distrib, mul_add] at h2
  unfold coupledLoss
  rw [e]
  linarith

/-- One sample with predictor 1 and response 0, no penalty, coupled to the value 2. -/
noncomputable def coupledWitness (gamma tol : ℝ) (N : ℕ) : PoissonArgs 1 Unit :=
  ⟨fun _ _ => 1, fun _ => 0, 0, gamma, tol, N, 1 / 2, some fun _ => 2, 1, 1⟩

theorem witness_loss (theta : Unit → ℝ) : poissonLoss (fun (_ : Fin 1) (_ : Unit) => (1 : ℝ)) (fun _ => 0) theta =
    Real.exp (theta ()) := by
  unfold poissonLoss linPred
  simp

theorem witness_grad : poissonGradientA (fun (_ : Fin 1) (_ : Unit) => (1 : ℝ)) (fun _ => 0) 1 1
    (some fun _ => (2 : ℝ)) (fun _ => 0) = fun _ => -1 := by
  funext k
  unfold poissonGradientA poissonGradient linPred
  simp
  norm_num

theorem soft_zero_level {κ : Type*} (x : κ → ℝ) (g : ℝ) : softThresholding x (0 * g) = x := by
  funext k
  unfold softThresholding softScalar
  rw [zero_mul, sub_zero, max_eq_left (abs_nonneg _)]
  unfold npSign
  rcases lt_trichotomy (x k) 0 with h | h | h
  · rw [abs_of_neg h, if_neg (not_lt.mpr h.le), if_pos h]; ring
  · rw [h]; simp
  · rw [abs_of_pos h, if_pos h]; ring

theorem witness_rejects (fuel : ℕ) : ∀ (theta : Unit → ℝ) (g : ℝ), 0 < g → (theta () = 0 ∨ theta () = g) →
    lineSearch (poissonLoss (fun (_ : Fin 1) (_ : Unit) => (1 : ℝ)) fun _ => 0) (fun _ => -1) (fun _ => 0) 0 (1 / 2)
      fuel theta g = none := by
  induction fuel with
  | zero => intro theta g _ _; rfl
  | succ fuel ih =>
    intro theta g hg hth
    unfold lineSearch
    simp only [soft_zero_level]
    rw [if_pos]
    · refine ih _ _ (by linarith) (Or.inr ?_)
      ring
    · unfold searchBound
      rw [witness_loss, witness_loss]
      simp only [Finset.univ_unique, Finset.sum_singleton, Real.exp_zero]
      show _ < _
      rcases hth with h | h
      · have e2 : (0 - g) ^ 2 / (2 * g) = g / 2 := by field_simp; ring
        have := Real.add_one_le_exp g
        rw [show (default : Unit) = () from rfl] at *
        simp only [h, show (0 : ℝ) - g * -1 = g by ring, e2]
        linarith
      · have e2 : (0 - 2 * g) ^ 2 / (2 * g) = 2 * g := by field_simp; ring
        have := Real.add_one_le_exp (2 * g)
        rw [show (default : Unit) = () from rfl] at *
        simp only [h, show g - g * -1 = 2 * g by ring, e2]
        linarith

/-- Non-vacuity for C174: one sample with predictor and response 1, coupled to 0; zero is left in place. -/
example : softThresholding (fun k => (fun _ : Unit => (0 : ℝ)) k - 1 * poissonGradientA
    (fun (_ : Fin 1) (_ : Unit) => (1 : ℝ)) (fun _ => 1) 1 1 (some fun _ => (0 : ℝ)) (fun _ => 0) k) (0 * 1) =
    fun _ => 0 := by
  rw [soft_zero_level]
  funext k
  unfold poissonGradientA poissonGradient linPred
  simp

/-- **C174** is false: the test of the line search leaves out the coupling term that the gradient contains, so there
are inputs for which no step is ever accepted and the call does not return, although zero is not the solution
(the coupled objective is smaller at `1/2`). -/
theorem C174_returns_false : ∃ A : Unit → ℝ, ∀ gamma > 0, ∀ tol N, 0 < N →
    (coupledWitness gamma tol N).A = some A ∧
    poissonFitNode (coupledWitness gamma tol N) = none ∧
    coupledLoss (coupledWitness gamma tol N) A (fun _ => 1 / 2) <
      coupledLoss (coupledWitness gamma tol N) A (fun _ => 0) := by
  refine ⟨fun _ => 2, fun gamma hg tol N hN => ⟨rfl, ?_, ?_⟩⟩
  · have hs : searchWhile (poissonLoss (fun (_ : Fin 1) (_ : Unit) => (1 : ℝ)) fun _ => 0)
        (poissonGradientA (fun (_ : Fin 1) (_ : Unit) => (1 : ℝ)) (fun _ => 0) 1 1 (some fun _ => (2 : ℝ))
          (fun _ => 0)) (fun _ => 0) 0 (1 / 2) (fun _ => 0) gamma = none := by
      unfold searchWhile
      rw [dif_neg]
      rintro ⟨fuel, hf⟩
      rw [witness_grad, witness_rejects fuel _ _ hg (Or.inl rfl)] at hf
      exact absurd hf (by simp)
    have hb : poissonBody (coupledWitness gamma tol N) 0 (some ⟨fun _ => 0, gamma⟩) = (none, none, true) := by
      unfold poissonBody coupledWitness
      simp only [hs]
    have hst : stopAt (poissonBody (coupledWitness gamma tol N)) (some ⟨fun _ => 0, gamma⟩) 0 = true := by
      show (poissonBody (coupledWitness gamma tol N) 0 (some ⟨fun _ => 0, gamma⟩)).2.2 = true
      rw [hb]
    unfold poissonFitNode
    rcases runLoop_spec (poissonBody (coupledWitness gamma tol N)) N (some ⟨fun _ => 0, gamma⟩) with
      ⟨j, hj, hno, -, hrun⟩ | ⟨hno, -⟩
    · have hj0 : j = 0 := by
        by_contra hc
        have := hno 0 (by omega)
        rw [hst] at this
        exact absurd this (by simp)
      have e : (runLoop (poissonBody (coupledWitness gamma tol N)) (coupledWitness gamma tol N).maxIter
          (some ⟨fun _ => 0, (coupledWitness gamma tol N).gamma⟩)).state = none := by
        show (runLoop (poissonBody (coupledWitness gamma tol N)) N (some ⟨fun _ => 0, gamma⟩)).state = none
        rw [hrun, hj0]
        show (poissonBody (coupledWitness gamma tol N) 0 (some ⟨fun _ => 0, gamma⟩)).1 = none
        rw [hb]
      simp only [e]
    · have := hno 0 hN
      rw [hst] at this
      exact absurd this (by simp)
  · unfold coupledLoss coupledWitness
    simp only [witness_loss]
    simp only [Finset.univ_unique, Finset.sum_singleton, Real.exp_zero]
    have h1 : Real.exp (1 / 2) < 17 / 10 := by
      have h2 : Real.exp (1 / 2) ^ 2 = Real.exp 1 := by rw [← Real.exp_nat_mul]; norm_num
      have h3 := Real.exp_one_lt_d9
      have h4 := Real.exp_pos (1 / 2)
      nlinarith
    norm_num at *
    linarith

theorem blocked_search (a : PoissonArgs m ι) (theta : ι → ℝ) (g : ι → ℝ)
    (hneg : ∑ k, poissonGradient a.Xs a.xr theta k * g k < 0) (hs0 : 0 < a.updateGamma) (fuel : ℕ) :
    ∀ (start : ι → ℝ) (gamma : ℝ), 0 < gamma → (start = theta ∨ start = fun k => theta k - gamma * g k) →
    lineSearch (poissonLoss a.Xs a.xr) g theta 0 a.updateGamma fuel start gamma = none := by
  induction fuel with
  | zero => intro start gamma _ _; rfl
  | succ fuel ih =>
    intro start gamma hg hst
    have hsq : 0 ≤ ∑ k, g k ^ 2 := Finset.sum_nonneg fun k _ => sq_nonneg _
    -- a step of length `c` along `-g` increases the loss
    have hup : ∀ c > 0, poissonLoss a.Xs a.xr theta < poissonLoss a.Xs a.xr fun k => theta k - c * g k := by
      intro c hc
      have h1 := poisson_convex a.Xs a.xr theta fun k => theta k - c * g k
      have e : ∑ k, poissonGradient a.Xs a.xr theta k * (theta k - c * g k - theta k) =
          -(c * ∑ k, poissonGradient a.Xs a.xr theta k * g k) := by
        rw [Finset.mul_sum, ← Finset.sum_neg_distrib]
        exact Finset.sum_congr rfl fun k _ => by ring
      rw [e] at h1
      nlinarith [mul_neg_of_pos_of_neg hc hneg]
    have hbound : ∀ c : ℝ, searchBound (poissonLoss a.Xs a.xr) g theta (fun k => theta k - c * g k) gamma =
        poissonLoss a.Xs a.xr theta + (c ^ 2 / (2 * gamma) - c) * ∑ k, g k ^ 2 := by
      intro c
      unfold searchBound
      have e1 : ∑ k, g k * (theta k - (theta k - c * g k)) = c * ∑ k, g k ^ 2 := by
        rw [Finset.mul_sum]; exact Finset.sum_congr rfl fun k _ => by ring
      have e2 : ∑ k, (theta k - (theta k - c * g k)) ^ 2 = c ^ 2 * ∑ k, g k ^ 2 := by
        rw [Finset.mul_sum]; exact Finset.sum_congr rfl fun k _ => by ring
      rw [e1, e2]
      ring
    unfold lineSearch
    simp only [soft_zero_level]
    rw [if_pos]
    · exact ih _ _ (by positivity) (Or.inr rfl)
    · rcases hst with h | h
      · rw [h, hbound]
        have := hup gamma hg
        have e : gamma ^ 2 / (2 * gamma) - gamma = -(gamma / 2) := by field_simp; ring
        rw [e]
        have : 0 ≤ gamma / 2 * ∑ k, g k ^ 2 := by positivity
        linarith
      · have e : (fun k => start k - gamma * g k) = fun k => theta k - (2 * gamma) * g k := by
          funext k; rw [h]; ring
        rw [e, hbound]
        have := hup (2 * gamma) (by positivity)
        have e : (2 * gamma) ^ 2 / (2 * gamma) - 2 * gamma = 0 := by field_simp; ring
        rw [e, zero_mul, add_zero]
        linarith

/-- **C174** when a coupled call stalls: without a penalty the search from `theta` accepts no step whenever the gradient
of the loss and the gradient of the coupled loss point in opposite directions. At a solution of the coupled
problem the second is zero and the first is minus the coupling term, so this happens for every point on one side of
it, however close. -/
theorem C174_stalls (a : PoissonArgs m ι) (ha : a.alpha = 0) (hs0 : 0 < a.updateGamma) (theta : ι → ℝ) {gamma : ℝ}
    (hg : 0 < gamma)
    (hneg : ∑ k, poissonGradient a.Xs a.xr theta k * poissonGradientA a.Xs a.xr a.rho a.T a.A theta k < 0) :
    searchWhile (poissonLoss a.Xs a.xr) (poissonGradientA a.Xs a.xr a.rho a.T a.A theta) theta a.alpha
      a.updateGamma theta gamma = none := by
  unfold searchWhile
  rw [dif_neg]
  rintro ⟨fuel, hf⟩
  rw [ha, blocked_search a theta _ hneg hs0 fuel _ _ hg (Or.inl rfl)] at hf
  exact absurd hf (by simp)

/-- Non-vacuity for `C174_stalls`: the start of the witness above. -/
example : ∑ k : Unit, poissonGradient (fun (_ : Fin 1) (_ : Unit) => (1 : ℝ)) (fun _ => 0) (fun _ => 0) k *
    poissonGradientA (fun (_ : Fin 1) (_ : Unit) => (1 : ℝ)) (fun _ => 0) 1 1 (some fun _ => (2 : ℝ)) (fun _ => 0) k
      < 0 := by
  rw [witness_grad]
  unfold poissonGradient linPred
  simp

/-! ### The estimator -/

theorem poissonNodes_some {N : ℕ} (X : Fin m → Fin N → ℝ) {alpha tol : ℝ} (ha : 0 ≤ alpha) (how : String) :
    ∃ nb : ℕ → ℕ → ℝ, poissonNodes X alpha tol how = some (buildAdjacency N nb how) ∧
      ∀ ix : Fin N, ∃ r, poissonFitNode (poissonNode X alpha tol ix) = some r ∧
        ∀ k : {k : Fin N // k ≠ ix}, nb ix k.1 = r.1 k := by
  have hall : ∀ ix : Fin N, ∃ r, poissonFitNode (poissonNode X alpha tol ix) = some r := by
    intro ix
    obtain ⟨t, c, l, h, -⟩ := C172_descent (poissonNode X alpha tol ix) rfl ha (by norm_num [poissonNode])
      (by norm_num [poissonNode]) (by norm_num [poissonNode])
    exact ⟨_, h⟩
  unfold poissonNodes
  rw [if_pos fun ix => by obtain ⟨r, hr⟩ := hall ix; rw [hr]; rfl]
  refine ⟨_, rfl, fun ix => ?_⟩
  obtain ⟨r, hr⟩ := hall ix
  refine ⟨r, hr, fun k => ?_⟩
  have hk : ∃ (hi : (ix : ℕ) < N) (hj : (k.1 : ℕ) < N), (⟨k.1, hj⟩ : Fin N) ≠ ⟨ix, hi⟩ := ⟨ix.2, k.1.2, k.2⟩
  rw [dif_pos hk]
  simp only [hr]

/-- **C175** `PoissonGraphicalModel.fit` without intercept, for any data, any `alpha >= 0` and the default mode:
it returns, `precision_` has one row per variable, is symmetric with unit diagonal under both rules, and has no edge
between two variables whose regressions both give a zero coefficient. -/
theorem C175_fit {d : ℕ} (e : PoissonEstimator) (X : Fin m → Fin d → ℝ) (ha : 0 ≤ e.alpha)
    (hm : e.mode = "coordinate_descent") (hi : e.intercept = false)
    (hr : e.reconstruction = "union" ∨ e.reconstruction = "intersection") :
    ∃ p, poissonModelFit e X = .ok (some (d, p)) ∧
      ∀ i j : Fin d, p i j = p j i ∧ p i i = 1 ∧
        ∀ h : i ≠ j, ∀ ri rj, poissonFitNode (poissonNode X e.alpha e.tol i) = some ri →
          poissonFitNode (poissonNode X e.alpha e.tol j) = some rj →
          ri.1 ⟨j, h.symm⟩ = 0 → rj.1 ⟨i, h⟩ = 0 → p i j = 0 := by
  obtain ⟨nb, hnb, hall⟩ := poissonNodes_some X (tol := e.tol) ha e.reconstruction
  refine ⟨buildAdjacency d nb e.reconstruction, ?_, fun i j => ?_⟩
  · unfold poissonModelFit
    rw [if_neg (by rw [hm]; decide), if_pos hm, hi, hnb]
    rfl
  have hval : ∀ h : i ≠ j, ∀ ri rj, poissonFitNode (poissonNode X e.alpha e.tol i) = some ri →
          poissonFitNode (poissonNode X e.alpha e.tol j) = some rj →
          ri.1 ⟨j, h.symm⟩ = 0 → rj.1 ⟨i, h⟩ = 0 → nb i j = 0 ∧ nb j i = 0 := by
    intro h ri rj h1 h2 h3 h4
    obtain ⟨ri', hi1, hi2⟩ := hall i
    obtain ⟨rj', hj1, hj2⟩ := hall j
    obtain rfl := Option.some.inj (hi1.symm.trans h1)
    obtain rfl := Option.some.inj (hj1.symm.trans h2)
    exact ⟨(hi2 ⟨j, h.symm⟩).trans h3, (hj2 ⟨i, h⟩).trans h4⟩
  have hne : i ≠ j → (i : ℕ) ≠ j := fun h hc => h (Fin.ext hc)
  rcases hr with hr | hr
  · rw [hr]
    obtain ⟨c1, c2, c3, -⟩ := C40_union_partial d nb i j i.2 j.2
    exact ⟨c1, c2, fun h ri rj h1 h2 h3 h4 =>
      c3 (hne h) (hval h ri rj h1 h2 h3 h4).1 (hval h ri rj h1 h2 h3 h4).2⟩
  · rw [hr]
    obtain ⟨-, c2, c3, c4⟩ := C40_intersection_value d nb i j i.2 j.2
    exact ⟨c4, c3, fun h ri rj h1 h2 h3 h4 => c2 (hne h) (Or.inl (hval h ri rj h1 h2 h3 h4).1)⟩

/-- Specification of the claim on the shape: `precision_` has one row per variable of the data. -/
def ShapeOK {d : ℕ} (e : PoissonEstimator) (X : Fin m → Fin d → ℝ) : Prop :=
  ∀ n p, poissonModelFit e X = .ok (some (n, p)) → n = d

/-- **C175** is false with an intercept: for every data set the column of ones is treated as one more variable, it
gets its own regression, and `precision_` has `d + 1` rows. -/
theorem C175_intercept_false {d : ℕ} (e : PoissonEstimator) (X : Fin m → Fin d → ℝ) (ha : 0 ≤ e.alpha)
    (hm : e.mode = "coordinate_descent") (hi : e.intercept = true) : ¬ ShapeOK e X := by
  intro h
  obtain ⟨nb, hnb, -⟩ := poissonNodes_some (fun i => Fin.snoc (α := fun _ => ℝ) (X i) 1) (tol := e.tol) ha
    e.reconstruction
  have := h (d + 1) (buildAdjacency (d + 1) nb e.reconstruction) (by
    unfold poissonModelFit
    rw [if_neg (by rw [hm]; decide), if_pos hm, if_pos hi, hnb]
    rfl)
  omega

/-- **C175** the step size and the number of passes given to the constructor have no effect on the fit: every node
is fitted with step size 1 and at most 100 passes. -/
theorem C175_arguments_ignored {d : ℕ} (e : PoissonEstimator) (X : Fin m → Fin d → ℝ) (gamma : ℝ) (maxIter : ℕ) :
    poissonModelFit { e with gamma := gamma, maxIter := maxIter } X = poissonModelFit e X := rfl

/-- **C175** the mode `symmetric_fbs` and unknown modes are refused. -/
theorem C175_mode {d : ℕ} (e : PoissonEstimator) (X : Fin m → Fin d → ℝ) (hm : e.mode ≠ "coordinate_descent") :
    poissonModelFit e X = .error .value := by
  unfold poissonModelFit
  rw [if_neg hm]
  split_ifs <;> rfl

/-- Non-vacuity for C175. -/
example : ∃ e : PoissonEstimator, 0 ≤ e.alpha ∧ e.mode = "coordinate_descent" ∧ e.intercept = false ∧
    (e.reconstruction = "union" ∨ e.reconstruction = "intersection") :=
  ⟨⟨1 / 100, 1 / 10000, 1 / 10, 100, "coordinate_descent", "union", false⟩, by norm_num, rfl, rfl, Or.inl rfl⟩

/-- Non-vacuity for C175 with an intercept. -/
example : ∃ e : PoissonEstimator, 0 ≤ e.alpha ∧ e.mode = "coordinate_descent" ∧ e.intercept = true :=
  ⟨⟨1 / 100, 1 / 10000, 1 / 10, 100, "coordinate_descent", "union", true⟩, by norm_num, rfl, rfl⟩

end Verif.Props
