import Verif.Props.GLMConv
import Verif.Props.Poisson

/-! Property theorems C188: the smallest penalty at which the neighbourhood regressions select nothing. -/

namespace Verif.Props

open Verif.Model Verif.Spec Verif.Lemmas Filter Topology

set_option autoImplicit false
set_option linter.unusedSectionVars false

variable {ι : Type*} [Fintype ι] {m : ℕ}

/-- Specification: `alpha` is at least the largest absolute correlation of the response with a predictor. -/
def GaussThreshold (Xs : Fin m → ι → ℝ) (xr : Fin m → ℝ) (alpha : ℝ) : Prop :=
  ∀ k, |1 / (m : ℝ) * ∑ i, xr i * Xs i k| ≤ alpha

/-- Specification: the same for counts, with the response relative to its value 1 under zero coefficients. -/
def PoissonThreshold (Xs : Fin m → ι → ℝ) (xr : Fin m → ℝ) (alpha : ℝ) : Prop :=
  ∀ k, |1 / (m : ℝ) * ∑ i, Xs i k * (xr i - 1)| ≤ alpha

/-! ### Steps from zero -/

theorem soft_zero_iff {alpha gamma : ℝ} (ha : 0 ≤ alpha) (hg : 0 < gamma) (g : ι → ℝ) :
    softThresholding (fun k => (fun _ => (0 : ℝ)) k - gamma * g k) (alpha * gamma) = (fun _ => 0) ↔ ∀ k, |g k| ≤ alpha := by
  have e : ∀ k, |0 - gamma * g k| = gamma * |g k| := fun k => by rw [zero_sub, abs_neg, abs_mul, abs_of_pos hg]
  constructor
  · intro h k
    have hk : softScalar (0 - gamma * g k) (alpha * gamma) = 0 := congrFun h k
    by_contra hc
    push Not at hc
    have h1 : alpha * gamma < |0 - gamma * g k| := by rw [e]; nlinarith
    rcases lt_abs.mp h1 with h2 | h2
    · rw [softScalar_of_pos (mul_nonneg ha hg.le) h2] at hk
      linarith
    · rw [softScalar_of_neg (mul_nonneg ha hg.le) (by linarith)] at hk
      linarith
  · intro h
    funext k
    refine softScalar_of_abs_le ?_
    show |0 - gamma * g k| ≤ _
    rw [e]
    nlinarith [h k]

theorem gaussGradient_zero (Xs : Fin m → ι → ℝ) (xr : Fin m → ℝ) (k : ι) :
    gaussGradient Xs xr (fun _ => 0) k = -(1 / (m : ℝ) * ∑ i, xr i * Xs i k) := by
  unfold gaussGradient linPred
  simp

theorem poissonGradient_zero (Xs : Fin m → ι → ℝ) (xr : Fin m → ℝ) (k : ι) :
    poissonGradient Xs xr (fun _ => 0) k = -(1 / (m : ℝ) * ∑ i, Xs i k * (xr i - 1)) := by
  unfold poissonGradient linPred
  simp [mul_sub, Finset.sum_sub_distrib]
  ring

theorem gauss_step_zero (Xs : Fin m → ι → ℝ) (xr : Fin m → ℝ) {alpha gamma : ℝ} (ha : 0 ≤ alpha) (hg : 0 < gamma) :
    gaussStep Xs xr alpha gamma (fun _ => 0) = (fun _ => 0) ↔ GaussThreshold Xs xr alpha := by
  unfold gaussStep GaussThreshold
  rw [soft_zero_iff ha hg]
  simp only [gaussGradient_zero, abs_neg]

/-! ### Gaussian data -/

/-- C188, Gaussian: zero solves the neighbourhood lasso exactly when `alpha` is at least the largest absolute
correlation. -/
theorem C188_gauss_optimal_iff (Xs : Fin m → ι → ℝ) (xr : Fin m → ℝ) {alpha : ℝ} (ha : 0 ≤ alpha) :
    IsMin Set.univ (nodeLasso Xs xr alpha) (fun _ => 0) ↔ GaussThreshold Xs xr alpha := by
  rw [← C64_stationary_iff Xs xr ha one_pos, gauss_step_zero Xs xr ha one_pos]

/-- C188, Gaussian: at or above the threshold the fit returns exactly zero coefficients, whatever the step size, the
tolerance and the number of iterations. -/
theorem C188_gauss_empty (Xs : Fin m → ι → ℝ) (xr : Fin m → ℝ) {alpha gamma : ℝ} (ha : 0 ≤ alpha) (hg : 0 < gamma)
    (h : GaussThreshold Xs xr alpha) (tol : ℝ) (N : ℕ) :
    nodeLoop (gaussStep Xs xr alpha gamma) tol N (fun _ => 0) = fun _ => 0 := by
  obtain ⟨k, -, he, -⟩ := C64_loop (gaussStep Xs xr alpha gamma) tol N (fun _ => 0)
  rw [he]
  exact Function.iterate_fixed ((gauss_step_zero Xs xr ha hg).mpr h) k

/-- C188, Gaussian: with a step size of at most the inverse curvature and at least one iteration the fit returns zero
coefficients only if the threshold is met: below it some variable is always selected. -/
theorem C188_gauss_empty_iff (Xs : Fin m → ι → ℝ) (xr : Fin m → ℝ) {alpha gamma : ℝ} (ha : 0 ≤ alpha) (hg : 0 < gamma)
    (hL : ∀ v : ι → ℝ, gamma * (1 / (m : ℝ) * ∑ i, (∑ k, Xs i k * v k) ^ 2) ≤ ∑ k, v k ^ 2) (tol : ℝ) {N : ℕ}
    (hN : 1 ≤ N) :
    nodeLoop (gaussStep Xs xr alpha gamma) tol N (fun _ => 0) = (fun _ => 0) ↔ GaussThreshold Xs xr alpha := by
  refine ⟨fun h => ?_, fun h => C188_gauss_empty Xs xr ha hg h tol N⟩
  obtain ⟨k, -, he, hk⟩ := C64_loop (gaussStep Xs xr alpha gamma) tol N (fun _ => 0)
  have hk1 : 1 ≤ k := by rcases hk with h | ⟨j, h, -⟩ <;> omega
  rw [he] at h
  have hper : ∀ M, (gaussStep Xs xr alpha gamma)^[k * M] (fun _ => 0) = fun _ => 0 := by
    intro M
    rw [Function.iterate_mul]
    exact Function.iterate_fixed h M
  rw [← C188_gauss_optimal_iff Xs xr ha]
  refine ⟨trivial, fun z _ => ?_⟩
  by_contra hc
  push Not at hc
  set D := nodeLasso Xs xr alpha (fun _ => 0) - nodeLasso Xs xr alpha z with hD
  have hDpos : 0 < D := by rw [hD]; linarith
  obtain ⟨M, hM⟩ := exists_nat_gt (sqDist (fun _ => 0) z / (2 * gamma) / D)
  have h1 := (C64_rate Xs xr ha hg hL (fun _ => 0) z (k * M)).2
  rw [hper M, ← hD] at h1
  rw [div_lt_iff₀ hDpos] at hM
  have h2 : (M : ℝ) ≤ ((k * M : ℕ) : ℝ) := by
    exact_mod_cast Nat.le_mul_of_pos_left M hk1
  nlinarith

/-! ### Counts -/

/-- C188, Poisson: zero minimises the penalised Poisson loss exactly at or above the threshold. -/
theorem C188_poisson_optimal_iff (Xs : Fin m → ι → ℝ) (xr : Fin m → ℝ) {alpha : ℝ} (ha : 0 ≤ alpha) :
    IsMin Set.univ (fun z => poissonLoss Xs xr z + alpha * absSum z) (fun _ => 0) ↔ PoissonThreshold Xs xr alpha := by
  have habs : (∀ k, |poissonGradient Xs xr (fun _ => 0) k| ≤ alpha) ↔ PoissonThreshold Xs xr alpha := by
    unfold PoissonThreshold
    simp only [poissonGradient_zero, abs_neg]
  rw [← habs]
  constructor
  · intro h
    let a : PoissonArgs m ι := ⟨Xs, xr, alpha, 1, 0, 0, 1 / 2, none, 0, 1⟩
    obtain ⟨g, hg, hg1, hg2⟩ : ∃ g : ℝ, 0 < g ∧ g ≤ safeGamma a 0 1 ∧ g ≤ 1 :=
      ⟨min (safeGamma a 0 1) 1, lt_min (safeGamma_pos a 0 1) one_pos, min_le_left _ _, min_le_right _ _⟩
    have hacc := (trials_accept a ha le_rfl (old := fun _ => 0) (by simp) hg hg1 hg2).1
    have h1 := prox_grad_step ha hg (poissonLoss Xs xr) (fun _ => 0) (poissonGradient Xs xr fun _ => 0) (fun _ => 0)
      (by simp) (accepts_smooth _ _ _ _ hacc)
    set p := softThresholding (fun k => (fun _ => (0 : ℝ)) k - g * poissonGradient Xs xr (fun _ => 0) k) (alpha * g) with hp
    have h2 : poissonLoss Xs xr (fun _ => 0) + alpha * absSum (fun _ : ι => (0 : ℝ)) ≤ poissonLoss Xs xr p + alpha * absSum p :=
      h.2 p trivial
    have e : sqDist (fun _ : ι => (0 : ℝ)) (fun _ => 0) = 0 := by unfold sqDist; simp
    rw [e, zero_sub] at h1
    have h3 : sqDist p (fun _ => 0) ≤ 0 := by
      have : 0 < 1 / (2 * g) := by positivity
      by_contra hc
      push Not at hc
      nlinarith [mul_pos this hc]
    have hp0 : p = fun _ => 0 := by
      funext k
      have h4 : (p k - 0) ^ 2 ≤ sqDist p fun _ => 0 :=
        Finset.single_le_sum (f := fun k => (p k - 0) ^ 2) (fun _ _ => sq_nonneg _) (Finset.mem_univ k)
      nlinarith [sq_nonneg (p k - 0)]
    exact (soft_zero_iff ha hg _).mp hp0
  · intro h
    exact C66_stationary Xs xr ha one_pos _ ((soft_zero_iff ha one_pos _).mpr h)

/-- A run that starts where the thresholded gradient vanishes never moves. -/
theorem poisson_stays (a : PoissonArgs m ι) (ha : 0 ≤ a.alpha) (hg : 0 < a.gamma)
    (h : ∀ k, |poissonGradientA a.Xs a.xr a.rho a.T a.A (fun _ => 0) k| ≤ a.alpha) :
    ∃ checks last, poissonFitNode a = some (fun _ => 0, checks, last) := by
  set g := poissonGradientA a.Xs a.xr a.rho a.T a.A (fun _ => 0) with hgdef
  have hsoft := (soft_zero_iff ha hg g).mpr h
  have hls : ∀ fuel, lineSearch (poissonLoss a.Xs a.xr) g (fun _ => 0) a.alpha a.updateGamma (fuel + 1) (fun _ => 0) a.gamma =
      some (fun _ => 0, a.gamma) := by
    intro fuel
    unfold lineSearch
    simp only at hsoft
    simp only [hsoft]
    rw [if_neg]
    unfold searchBound
    simp
  have hs : searchWhile (poissonLoss a.Xs a.xr) g (fun _ => 0) a.alpha a.updateGamma (fun _ => 0) a.gamma =
      some (fun _ => 0, a.gamma) := by
    obtain ⟨r, hr⟩ := searchWhile_isSome (poissonLoss a.Xs a.xr) g (fun _ => 0) a.alpha a.updateGamma (fun _ => 0) a.gamma
      ⟨1, by rw [hls]; rfl⟩
    obtain ⟨fuel, hf⟩ := searchWhile_spec _ _ _ _ _ _ _ hr
    cases fuel with
    | zero => simp [lineSearch] at hf
    | succ fuel =>
      rw [hls] at hf
      rw [hr, ← hf]
  have hst : ∀ j, stateAt (poissonBody a) (some ⟨fun _ => 0, a.gamma⟩) j = some ⟨fun _ => 0, a.gamma⟩ := by
    intro j
    induction j with
    | zero => rfl
    | succ j ih =>
      show (poissonBody a j (stateAt (poissonBody a) (some ⟨fun _ => 0, a.gamma⟩) j)).1 = _
      rw [ih]
      unfold poissonBody
      simp only [← hgdef, hs]
      split_ifs <;> rfl
  unfold poissonFitNode
  rcases runLoop_spec (poissonBody a) a.maxIter (some ⟨fun _ => 0, a.gamma⟩) with ⟨j, -, -, -, hrun⟩ | ⟨-, hrun⟩ <;>
  · simp only [hrun, hst]
    exact ⟨_, _, rfl⟩

/-- C188, Poisson: at or above the threshold the fit returns exactly zero coefficients, whatever the step size, the
tolerance and the number of iterations. -/
theorem C188_poisson_empty (a : PoissonArgs m ι) (hA : a.A = none) (ha : 0 ≤ a.alpha) (hg : 0 < a.gamma)
    (h : PoissonThreshold a.Xs a.xr a.alpha) :
    ∃ checks last, poissonFitNode a = some (fun _ => 0, checks, last) := by
  refine poisson_stays a ha hg fun k => ?_
  rw [gradA_none a hA, poissonGradient_zero, abs_neg]
  exact h k

/-- A search from zero below the threshold leaves zero. -/
theorem search_leaves_zero (a : PoissonArgs m ι) (ha : 0 ≤ a.alpha) (hs0 : 0 < a.updateGamma) {gamma gamma' : ℝ}
    (hg : 0 < gamma) (hn : ¬ PoissonThreshold a.Xs a.xr a.alpha) {theta : ι → ℝ}
    (h : searchWhile (poissonLoss a.Xs a.xr) (poissonGradient a.Xs a.xr fun _ => 0) (fun _ => 0) a.alpha a.updateGamma
      (fun _ => 0) gamma = some (theta, gamma')) : theta ≠ fun _ => 0 := by
  unfold PoissonThreshold at hn
  push Not at hn
  obtain ⟨k, hk⟩ := hn
  rw [← abs_neg, ← poissonGradient_zero] at hk
  set g := poissonGradient a.Xs a.xr fun _ => 0 with hgd
  have one : ∀ c > 0, oneStep a.alpha c g (fun _ => 0) ≠ fun _ => 0 := by
    intro c hc h0
    exact absurd ((soft_zero_iff ha hc g).mp h0 k) (not_le.mpr hk)
  have two : ∀ c > 0, oneStep a.alpha c g (oneStep a.alpha c g fun _ => 0) ≠ fun _ => 0 := by
    intro c hc h0
    have h1 : softScalar (softScalar (0 - c * g k) (a.alpha * c) - c * g k) (a.alpha * c) = 0 := congrFun h0 k
    have hac := mul_nonneg ha hc.le
    have h2 : a.alpha * c < c * |g k| := by nlinarith
    rcases abs_cases (g k) with ⟨e, -⟩ | ⟨e, -⟩
    · rw [e] at h2
      rw [softScalar_of_neg hac (a := 0 - c * g k) (by linarith), softScalar_of_neg hac (by linarith)] at h1
      linarith
    · rw [e] at h2
      rw [softScalar_of_pos hac (a := 0 - c * g k) (by linarith), softScalar_of_pos hac (by linarith)] at h1
      linarith
  obtain ⟨fuel, hf⟩ := searchWhile_spec _ _ _ _ _ _ _ h
  obtain ⟨-, ⟨e1, e2⟩ | ⟨j, e1, e2, -⟩⟩ := lineSearch_cases _ _ _ _ _ _ _ _ _ _ hf
  · rw [e2, e1]; exact one _ hg
  · rw [e2, e1]; exact two _ (by positivity)

/-- C188, Poisson: below the threshold some coefficient is non-zero, for every small enough tolerance and large enough
number of iterations. -/
theorem C188_poisson_nonempty (a : PoissonArgs m ι) (hA : a.A = none) (ha : 0 < a.alpha) (hs0 : 0 < a.updateGamma)
    (hs1 : a.updateGamma < 1) (hg : 0 < a.gamma) (hx : ∀ i, 0 ≤ a.xr i) (hn : ¬ PoissonThreshold a.Xs a.xr a.alpha) :
    ∃ tol0 > 0, ∃ K, ∀ tol ≤ tol0, ∀ N ≥ K, ∃ theta checks last,
      poissonFitNode { a with tol := tol, maxIter := N } = some (theta, checks, last) ∧ ∃ k, theta k ≠ 0 := by
  obtain ⟨th, ga, h⟩ := exists_trace a hA ha.le hs0 hs1 hg
  obtain ⟨z, hz, hlim⟩ := h.converges ha hs0 hs1 hx
  have hz0 : z ≠ fun _ => 0 := by
    rintro rfl
    exact hn ((C188_poisson_optimal_iff a.Xs a.xr ha.le).mp hz)
  obtain ⟨K, hK⟩ := eventually_atTop.mp (hlim.eventually_ne hz0)
  have hmove : ∀ k, th (k + 1) = (fun _ => 0) → 0 < Real.sqrt (∑ i, (th k i - th (k + 1) i) ^ 2) := by
    intro k hk
    rw [Real.sqrt_pos]
    by_contra hc
    have hs := le_antisymm (not_lt.mp hc) (Finset.sum_nonneg fun i _ => sq_nonneg _)
    have h0 : th k = fun _ => 0 := by
      funext i
      have := (Finset.sum_eq_zero_iff_of_nonneg fun i _ => sq_nonneg (th k i - th (k + 1) i)).mp hs i (Finset.mem_univ i)
      rw [hk, sub_zero] at this
      exact pow_eq_zero_iff two_ne_zero |>.mp this
    have h1 := h.search k
    rw [h0] at h1
    exact search_leaves_zero a ha.le hs0 (h.gpos k) hn h1 hk
  obtain ⟨tol0, ht0, ht⟩ : ∃ tol0 > 0, ∀ k < K, th (k + 1) = (fun _ => 0) →
      tol0 ≤ Real.sqrt (∑ i, (th k i - th (k + 1) i) ^ 2) := by
    clear hK
    induction K with
    | zero => exact ⟨1, one_pos, fun k hk => absurd hk (by omega)⟩
    | succ K ih =>
      obtain ⟨t, ht, hh⟩ := ih
      by_cases hc : th (K + 1) = fun _ => 0
      · refine ⟨min t (Real.sqrt (∑ i, (th K i - th (K + 1) i) ^ 2)), lt_min ht (hmove K hc), fun k hk h0 => ?_⟩
        rcases Nat.lt_succ_iff_lt_or_eq.mp hk with h1 | rfl
        · exact (min_le_left _ _).trans (hh k h1 h0)
        · exact min_le_right _ _
      · refine ⟨t, ht, fun k hk h0 => ?_⟩
        rcases Nat.lt_succ_iff_lt_or_eq.mp hk with h1 | rfl
        · exact hh k h1 h0
        · exact absurd h0 hc
  refine ⟨tol0, ht0, K, fun tol htol N hN => ?_⟩
  obtain ⟨n, hn', hres, hlt, -⟩ := (stateAt_tol a hA h tol N).result hA
  refine ⟨_, _, _, hres, ?_⟩
  by_contra hc
  push Not at hc
  have hc' : th n = fun _ => 0 := funext hc
  have hnK : n < K := by
    by_contra hge
    exact hK n (not_lt.mp hge) hc'
  obtain ⟨h2, h3⟩ := hlt (lt_of_lt_of_le hnK hN)
  have h4 := ht (n - 1) (by omega) (by rw [show n - 1 + 1 = n by omega]; exact hc')
  rw [show n - 1 + 1 = n by omega] at h4
  have h3' : Real.sqrt (∑ i, (th (n - 1) i - th n i) ^ 2) < tol := h3
  linarith

/-- C188, `PoissonGraphicalModel.fit`: if `alpha` is at least the threshold of every variable, `precision_` is exactly
the identity, under both reconstruction rules. -/
theorem C188_poisson_model {d : ℕ} (e : PoissonEstimator) (X : Fin m → Fin d → ℝ) (ha : 0 ≤ e.alpha)
    (hm : e.mode = "coordinate_descent") (hi : e.intercept = false)
    (hr : e.reconstruction = "union" ∨ e.reconstruction = "intersection")
    (h : ∀ r k : Fin d, k ≠ r → |1 / (m : ℝ) * ∑ i, X i k * (X i r - 1)| ≤ e.alpha) :
    ∃ p, poissonModelFit e X = .ok (some (d, p)) ∧ ∀ i j : Fin d, p i j = if i = j then 1 else 0 := by
  obtain ⟨p, hp, hall⟩ := C175_fit e X ha hm hi hr
  refine ⟨p, hp, fun i j => ?_⟩
  split_ifs with hij
  · subst hij
    exact (hall i i).2.1
  · have hz : ∀ r : Fin d, ∃ checks last, poissonFitNode (poissonNode X e.alpha e.tol r) = some (fun _ => 0, checks, last) :=
      fun r => C188_poisson_empty _ rfl ha one_pos fun k => h r k.1 k.2
    obtain ⟨c1, l1, h1⟩ := hz i
    obtain ⟨c2, l2, h2⟩ := hz j
    exact (hall i j).2.2 hij _ _ h1 h2 rfl rfl

/-- Non-vacuity for C188: two samples of a response 1, 3 on a predictor 1, 2: the threshold is 2 for counts and 7/2 for
the Gaussian model, and the smaller penalty 1 does not meet them. -/
example : PoissonThreshold (fun (i : Fin 2) (_ : Unit) => if i = 0 then (1 : ℝ) else 2) (fun i => if i = 0 then 1 else 3) 2 ∧
    ¬ PoissonThreshold (fun (i : Fin 2) (_ : Unit) => if i = 0 then (1 : ℝ) else 2) (fun i => if i = 0 then 1 else 3) 1 := by
  constructor
  · intro k
    simp [Fin.sum_univ_two]
    norm_num
  · intro h
    have := h ()
    simp [Fin.sum_univ_two] at this
    norm_num at this

example : GaussThreshold (fun (i : Fin 2) (_ : Unit) => if i = 0 then (1 : ℝ) else 2) (fun i => if i = 0 then 1 else 3) (7 / 2) ∧
    ¬ GaussThreshold (fun (i : Fin 2) (_ : Unit) => if i = 0 then (1 : ℝ) else 2) (fun i => if i = 0 then 1 else 3) 1 := by
  constructor
  · intro k
    simp [Fin.sum_univ_two]
    norm_num [abs_le]
  · intro h
    have := h ()
    simp [Fin.sum_univ_two] at this
    norm_num [abs_le] at this

end Verif.Props
