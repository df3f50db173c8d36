import Verif.Props.GLM
import Verif.Props.Lasso
import Verif.Lemmas.Fejer
import Mathlib.Topology.Sequences

/-! Property theorems C152: convergence of Gaussian neighbourhood selection. -/

namespace Verif.Props

open Matrix Verif.Model Verif.Spec Verif.Lemmas Filter Topology

set_option autoImplicit false
set_option linter.unusedSectionVars false

/-! ### C152 convergence of the neighbourhood fits of `Gaussian_GLM_GM` -/

theorem firm_continuous {ι : Type*} [Fintype ι] {J : (ι → ℝ) → ι → ℝ} (h : Firm J) : Continuous J :=
  SeqContinuous.continuous fun _ _ hx => h.tendsto hx

theorem gaussGradient_continuous {m p : ℕ} (Xs : Fin m → Fin p → ℝ) (xr : Fin m → ℝ) :
    Continuous (gaussGradient Xs xr) := by
  refine continuous_pi fun k => ?_
  unfold gaussGradient linPred
  refine continuous_const.add (continuous_const.mul (continuous_finsetSum _ fun i _ => ?_))
  exact continuous_const.mul (continuous_finsetSum _ fun j _ => continuous_const.mul (continuous_apply j))

theorem gaussStep_continuous {m p : ℕ} (Xs : Fin m → Fin p → ℝ) (xr : Fin m → ℝ) {alpha gamma : ℝ}
    (h : 0 ≤ alpha * gamma) : Continuous (gaussStep Xs xr alpha gamma) := by
  have hg := gaussGradient_continuous Xs xr
  refine (firm_continuous (soft_firm h)).comp (continuous_pi fun k => ?_)
  exact (continuous_apply k).sub (continuous_const.mul ((continuous_apply k).comp hg))

/-- Differences of gradients, tested against a vector. -/
theorem gaussGradient_inner {m p : ℕ} (Xs : Fin m → Fin p → ℝ) (xr : Fin m → ℝ) (x z r : Fin p → ℝ) :
    (∑ k, r k * (gaussGradient Xs xr x k - gaussGradient Xs xr z k)) =
      1 / (m : ℝ) * ∑ i, linPred Xs r i * linPred Xs (fun k => x k - z k) i := by
  have h : ∀ k, r k * (gaussGradient Xs xr x k - gaussGradient Xs xr z k) =
      1 / (m : ℝ) * ∑ i, Xs i k * r k * linPred Xs (fun k => x k - z k) i := by
    intro k
    unfold gaussGradient
    have e : (∑ i, Xs i k * r k * linPred Xs (fun k => x k - z k) i) =
        r k * ((∑ i, Xs i k * linPred Xs x i) - ∑ i, Xs i k * linPred Xs z i) := by
      rw [← Finset.sum_sub_distrib, Finset.mul_sum]
      refine Finset.sum_congr rfl fun i _ => ?_
      rw [linPred_sub]; ring
    rw [e]; ring
  rw [Finset.sum_congr rfl fun k _ => h k, ← Finset.mul_sum, Finset.sum_comm]
  congr 1
  refine Finset.sum_congr rfl fun i _ => ?_
  rw [← Finset.sum_mul]
  rfl

/-- The neighbourhood lasso problem has a solution. -/
theorem nodeLasso_exists {m p : ℕ} (hm : 0 < m) (Xs : Fin m → Fin p → ℝ) (xr : Fin m → ℝ) {alpha : ℝ}
    (ha : 0 ≤ alpha) : ∃ z, IsMin Set.univ (nodeLasso Xs xr alpha) z := by
  have hm' : (0 : ℝ) < m := by exact_mod_cast hm
  obtain ⟨z, -, hz⟩ := C46_solution_exists (Matrix.of Xs) xr (lam := (m : ℝ) * alpha) (by positivity)
  have e : ∀ w, nodeLasso Xs xr alpha w = 1 / (m : ℝ) * lassoObj (Matrix.of Xs) xr ((m : ℝ) * alpha) w := by
    intro w
    unfold nodeLasso lassoObj absSum
    have e1 : (∑ i, ((Matrix.of Xs *ᵥ w) i - xr i) ^ 2) = ∑ i, (xr i - ∑ k, Xs i k * w k) ^ 2 := by
      refine Finset.sum_congr rfl fun i _ => ?_
      simp only [mulVec, dotProduct, Matrix.of_apply]
      ring
    rw [e1]
    field_simp
  refine ⟨z, trivial, fun w _ => ?_⟩
  rw [e, e]
  exact mul_le_mul_of_nonneg_left (hz w trivial) (by positivity)

theorem gauss_fejer {m p : ℕ} (Xs : Fin m → Fin p → ℝ) (xr : Fin m → ℝ) {alpha gamma c : ℝ} (ha : 0 ≤ alpha)
    (hg : 0 < gamma)
    (hL : ∀ v : Fin p → ℝ, gamma * (1 / (m : ℝ) * ∑ i, (∑ k, Xs i k * v k) ^ 2) ≤ c * ∑ k, v k ^ 2)
    (x z : Fin p → ℝ) (hz : gaussStep Xs xr alpha gamma z = z) :
    sqDist (gaussStep Xs xr alpha gamma x) z ≤
      sqDist x z - (1 - c / 2) * sqDist (gaussStep Xs xr alpha gamma x) x := by
  refine prox_grad_fejer (g := gaussGradient Xs xr) (soft_firm (mul_nonneg ha hg.le)) (fun r => ?_) hz
  rw [gaussGradient_inner, gaussGradient_inner]
  set d : Fin p → ℝ := fun k => x k - z k with hd
  have h1 := hL r
  have h2 : (∑ i, linPred Xs r i * linPred Xs d i) ≤
      (1 / 4) * (∑ i, linPred Xs r i ^ 2) + ∑ i, linPred Xs d i * linPred Xs d i := by
    rw [Finset.mul_sum, ← Finset.sum_add_distrib]
    refine Finset.sum_le_sum fun i _ => ?_
    nlinarith [sq_nonneg (linPred Xs r i - 2 * linPred Xs d i)]
  have h3 := mul_le_mul_of_nonneg_left h2 (by positivity : 0 ≤ 2 * gamma * (1 / (m : ℝ)))
  have h4 : gamma * (1 / (m : ℝ) * ∑ i, linPred Xs r i ^ 2) ≤ c * ∑ k, r k ^ 2 := h1
  nlinarith

/-- C152: when the step size is below twice the inverse curvature (`gamma` times the largest eigenvalue of `XᵀX/n` at
most `c < 2`), the iterates of a neighbourhood fit converge, from every starting point, to a solution of the lasso of the
variable on the others. -/
theorem C152_converges {m p : ℕ} (hm : 0 < m) (Xs : Fin m → Fin p → ℝ) (xr : Fin m → ℝ) {alpha gamma c : ℝ}
    (ha : 0 ≤ alpha) (hg : 0 < gamma) (hc : c < 2)
    (hL : ∀ v : Fin p → ℝ, gamma * (1 / (m : ℝ) * ∑ i, (∑ k, Xs i k * v k) ^ 2) ≤ c * ∑ k, v k ^ 2)
    (theta0 : Fin p → ℝ) :
    ∃ theta, IsMin Set.univ (nodeLasso Xs xr alpha) theta ∧
      Tendsto (fun k => (gaussStep Xs xr alpha gamma)^[k] theta0) atTop (𝓝 theta) ∧
      Tendsto (fun k => sqDist ((gaussStep Xs xr alpha gamma)^[k + 1] theta0)
        ((gaussStep Xs xr alpha gamma)^[k] theta0)) atTop (𝓝 0) := by
  obtain ⟨z, hz⟩ := nodeLasso_exists hm Xs xr ha
  have hz' := (C64_stationary_iff Xs xr ha hg z).mpr hz
  obtain ⟨a, ha', hlim, hres⟩ := fejer_converges (P := fun _ => True) (c := 1 - c / 2) (by linarith)
    (gaussStep_continuous Xs xr (mul_nonneg ha hg.le)) (fun _ => trivial)
    (fun x z _ h => gauss_fejer Xs xr ha hg hL x z h) hz' (x0 := theta0) trivial
  exact ⟨a, (C64_stationary_iff Xs xr ha hg a).mp ha', hlim, hres⟩

theorem nodeLoop_stops {ι : Type*} [Fintype ι] (step : (ι → ℝ) → ι → ℝ) (tol : ℝ) (K : ℕ) :
    ∀ theta0 : ι → ℝ, Real.sqrt (∑ i, (step^[K] theta0 i - step^[K + 1] theta0 i) ^ 2) < tol →
    ∃ k ≤ K, Real.sqrt (∑ i, (step^[k] theta0 i - step^[k + 1] theta0 i) ^ 2) < tol ∧
      ∀ N > K, nodeLoop step tol N theta0 = step^[k + 1] theta0 := by
  induction K with
  | zero =>
    intro theta0 h
    refine ⟨0, le_rfl, h, fun N hN => ?_⟩
    obtain ⟨N, rfl⟩ : ∃ M, N = M + 1 := ⟨N - 1, by omega⟩
    unfold nodeLoop
    rw [if_pos (by simpa using h)]
    rfl
  | succ K ih =>
    intro theta0 h
    by_cases h0 : Real.sqrt (∑ j, (theta0 j - step theta0 j) ^ 2) < tol
    · refine ⟨0, Nat.zero_le _, h0, fun N hN => ?_⟩
      obtain ⟨N, rfl⟩ : ∃ M, N = M + 1 := ⟨N - 1, by omega⟩
      unfold nodeLoop
      rw [if_pos h0]
      rfl
    · obtain ⟨k, hk, h1, h2⟩ := ih (step theta0) h
      refine ⟨k + 1, by omega, h1, fun N hN => ?_⟩
      obtain ⟨N, rfl⟩ : ∃ M, N = M + 1 := ⟨N - 1, by omega⟩
      unfold nodeLoop
      rw [if_neg h0]
      exact h2 N (by omega)

/-- C152: with a positive tolerance the loop stops by the tolerance, at an iteration that does not depend on the
iteration limit. -/
theorem C152_stops {m p : ℕ} (hm : 0 < m) (Xs : Fin m → Fin p → ℝ) (xr : Fin m → ℝ) {alpha gamma c tol : ℝ}
    (ha : 0 ≤ alpha) (hg : 0 < gamma) (hc : c < 2) (ht : 0 < tol)
    (hL : ∀ v : Fin p → ℝ, gamma * (1 / (m : ℝ) * ∑ i, (∑ k, Xs i k * v k) ^ 2) ≤ c * ∑ k, v k ^ 2)
    (theta0 : Fin p → ℝ) :
    ∃ k, Real.sqrt (∑ i, ((gaussStep Xs xr alpha gamma)^[k] theta0 i
        - (gaussStep Xs xr alpha gamma)^[k + 1] theta0 i) ^ 2) < tol ∧
      ∃ K, ∀ N > K, nodeLoop (gaussStep Xs xr alpha gamma) tol N theta0 =
        (gaussStep Xs xr alpha gamma)^[k + 1] theta0 := by
  obtain ⟨a, -, -, hres⟩ := C152_converges hm Xs xr ha hg hc hL theta0
  obtain ⟨K, hK⟩ := exists_short_step (s := fun k => (gaussStep Xs xr alpha gamma)^[k] theta0) hres ht
  obtain ⟨k, -, h1, h2⟩ := nodeLoop_stops (gaussStep Xs xr alpha gamma) tol K theta0 hK
  exact ⟨k, h1, K, h2⟩

/-- A symmetric form between `-‖v‖²` and `‖v‖²` satisfies the Cauchy-Schwarz inequality. -/
theorem form_le {p : ℕ} (B : (Fin p → ℝ) → (Fin p → ℝ) → ℝ) (hadd : ∀ u v w, B (u + v) w = B u w + B v w)
    (hsmul : ∀ (t : ℝ) u w, B (t • u) w = t * B u w) (hsymm : ∀ u v, B u v = B v u)
    (hb : ∀ v, |B v v| ≤ ∑ k, v k ^ 2) (r d : Fin p → ℝ) :
    B r d ≤ Real.sqrt (∑ k, r k ^ 2) * Real.sqrt (∑ k, d k ^ 2) := by
  have hadd' : ∀ u v w, B w (u + v) = B w u + B w v := fun u v w => by
    rw [hsymm, hadd, hsymm u, hsymm v]
  have hsmul' : ∀ (t : ℝ) u w, B w (t • u) = t * B w u := fun t u w => by rw [hsymm, hsmul, hsymm u]
  have key : ∀ u v : Fin p → ℝ, 2 * B u v ≤ (∑ k, u k ^ 2) + ∑ k, v k ^ 2 := by
    intro u v
    have h1 := (abs_le.mp (hb (u + v))).2
    have h2 := (abs_le.mp (hb (u + (-1 : ℝ) • v))).1
    rw [hadd, hadd', hadd', hsymm v u] at h1
    rw [hadd, hadd', hadd', hsmul, hsmul', hsmul, hsmul', hsymm v u] at h2
    have e1 : (∑ k, (u + v) k ^ 2) + (∑ k, (u + (-1 : ℝ) • v) k ^ 2) = 2 * (∑ k, u k ^ 2) + 2 * ∑ k, v k ^ 2 := by
      rw [← Finset.sum_add_distrib, Finset.mul_sum, Finset.mul_sum, ← Finset.sum_add_distrib]
      refine Finset.sum_congr rfl fun k _ => ?_
      simp only [Pi.add_apply, Pi.smul_apply, smul_eq_mul]
      ring
    linarith
  set R := Real.sqrt (∑ k, r k ^ 2) with hR
  set D := Real.sqrt (∑ k, d k ^ 2) with hD
  have hR2 : R ^ 2 = ∑ k, r k ^ 2 := Real.sq_sqrt (Finset.sum_nonneg fun _ _ => sq_nonneg _)
  have hD2 : D ^ 2 = ∑ k, d k ^ 2 := Real.sq_sqrt (Finset.sum_nonneg fun _ _ => sq_nonneg _)
  have hR0 : 0 ≤ R := Real.sqrt_nonneg _
  have hD0 : 0 ≤ D := Real.sqrt_nonneg _
  have hsq : ∀ (t : ℝ) (u : Fin p → ℝ), (∑ k, (t • u) k ^ 2) = t ^ 2 * ∑ k, u k ^ 2 := fun t u => by
    rw [Finset.mul_sum]
    exact Finset.sum_congr rfl fun k _ => by simp only [Pi.smul_apply, smul_eq_mul]; ring
  refine le_of_forall_pos_le_add fun e he => ?_
  -- scale both vectors to norm about one
  obtain ⟨s, hs, hs2⟩ : ∃ s : ℝ, 0 < s ∧ s * (R + D + s) ≤ e := by
    refine ⟨min 1 (e / (R + D + 1)), lt_min one_pos (by positivity), ?_⟩
    have h1 : min 1 (e / (R + D + 1)) ≤ 1 := min_le_left _ _
    have h2 : min 1 (e / (R + D + 1)) ≤ e / (R + D + 1) := min_le_right _ _
    have h0 : 0 ≤ min 1 (e / (R + D + 1)) := (lt_min one_pos (by positivity)).le
    calc _ ≤ e / (R + D + 1) * (R + D + 1) := by
          apply mul_le_mul h2 (by linarith) (by positivity) (by positivity)
      _ = e := by field_simp
  have h := key ((R + s)⁻¹ • r) ((D + s)⁻¹ • d)
  rw [hsmul, hsmul', hsq, hsq, ← hR2, ← hD2] at h
  have hRs : 0 < R + s := by linarith
  have hDs : 0 < D + s := by linarith
  have h1 : (R + s)⁻¹ ^ 2 * R ^ 2 ≤ 1 := by
    rw [← mul_pow]
    refine pow_le_one₀ (by positivity) ?_
    rw [inv_mul_le_iff₀ hRs]; linarith
  have h2 : (D + s)⁻¹ ^ 2 * D ^ 2 ≤ 1 := by
    rw [← mul_pow]
    refine pow_le_one₀ (by positivity) ?_
    rw [inv_mul_le_iff₀ hDs]; linarith
  have h3 : (R + s)⁻¹ * ((D + s)⁻¹ * B r d) ≤ 1 := by linarith
  rw [inv_mul_le_iff₀ hRs, inv_mul_le_iff₀ hDs] at h3
  nlinarith

/-- C152: when the loop stops because the last step was shorter than `tol`, the objective at the returned vector exceeds
the value at any other vector by at most `tol/gamma` times their distance. -/
theorem C152_accuracy {m p : ℕ} (Xs : Fin m → Fin p → ℝ) (xr : Fin m → ℝ) {alpha gamma tol : ℝ}
    (ha : 0 ≤ alpha) (hg : 0 < gamma)
    (hL : ∀ v : Fin p → ℝ, gamma * (1 / (m : ℝ) * ∑ i, (∑ k, Xs i k * v k) ^ 2) ≤ 2 * ∑ k, v k ^ 2)
    (theta z : Fin p → ℝ)
    (hstop : Real.sqrt (∑ k, (theta k - gaussStep Xs xr alpha gamma theta k) ^ 2) < tol) :
    nodeLasso Xs xr alpha (gaussStep Xs xr alpha gamma theta) - nodeLasso Xs xr alpha z ≤
      tol / gamma * Real.sqrt (∑ k, (gaussStep Xs xr alpha gamma theta k - z k) ^ 2) := by
  have h := soft_step_subgrad ha hg theta (gaussGradient Xs xr theta) z
  have hdef : softThresholding (fun k => theta k - gamma * gaussGradient Xs xr theta k) (alpha * gamma) =
      gaussStep Xs xr alpha gamma theta := rfl
  rw [hdef] at h
  set q := gaussStep Xs xr alpha gamma theta with hq
  have hx := gauss_expand Xs xr q z
  have hnn : 0 ≤ 1 / (2 * (m : ℝ)) * ∑ i, linPred Xs (fun k => z k - q k) i ^ 2 := by positivity
  have hobj : nodeLasso Xs xr alpha q - nodeLasso Xs xr alpha z =
      gaussObjective Xs xr 0 q + alpha * absSum q - (gaussObjective Xs xr 0 z + alpha * absSum z) := by
    rw [← gaussObjective_split, ← gaussObjective_split, gaussObjective_eq, gaussObjective_eq]; ring
  have hin := gaussGradient_inner Xs xr theta q fun k => z k - q k
  have e1 : (∑ k, (z k - q k) * (gaussGradient Xs xr theta k - gaussGradient Xs xr q k)) =
      (∑ k, gaussGradient Xs xr theta k * (z k - q k)) - ∑ k, gaussGradient Xs xr q k * (z k - q k) := by
    rw [← Finset.sum_sub_distrib]
    exact Finset.sum_congr rfl fun k _ => by ring
  set B : (Fin p → ℝ) → (Fin p → ℝ) → ℝ := fun u v =>
    (∑ k, u k * v k) - gamma * (1 / (m : ℝ) * ∑ i, linPred Xs u i * linPred Xs v i) with hB
  have hlin : ∀ u v i, linPred Xs (u + v) i = linPred Xs u i + linPred Xs v i := fun u v i => by
    unfold linPred
    rw [← Finset.sum_add_distrib]
    exact Finset.sum_congr rfl fun k _ => by rw [Pi.add_apply]; ring
  have hlins : ∀ (t : ℝ) u i, linPred Xs (t • u) i = t * linPred Xs u i := fun t u i => by
    unfold linPred
    rw [Finset.mul_sum]
    exact Finset.sum_congr rfl fun k _ => by rw [Pi.smul_apply, smul_eq_mul]; ring
  have hform := form_le B (fun u v w => by
      simp only [hB, hlin, Pi.add_apply, add_mul, Finset.sum_add_distrib]; ring)
    (fun t u w => by
      simp only [hB, hlins, Pi.smul_apply, smul_eq_mul, mul_assoc, ← Finset.mul_sum]; ring)
    (fun u v => by
      simp only [hB]
      congr 1
      · exact Finset.sum_congr rfl fun k _ => mul_comm _ _
      · congr 2
        exact Finset.sum_congr rfl fun k _ => mul_comm _ _)
    (fun v => by
      have h1 := hL v
      have h2 : (∑ k, v k * v k) = ∑ k, v k ^ 2 := Finset.sum_congr rfl fun k _ => by ring
      have h3 : (∑ i, linPred Xs v i * linPred Xs v i) = ∑ i, (∑ k, Xs i k * v k) ^ 2 :=
        Finset.sum_congr rfl fun i _ => by unfold linPred; ring
      have h4 : 0 ≤ gamma * (1 / (m : ℝ) * ∑ i, (∑ k, Xs i k * v k) ^ 2) := by positivity
      simp only [hB]
      rw [h2, h3, abs_le]
      constructor <;> linarith)
    (fun k => theta k - q k) (fun k => q k - z k)
  have e2 : B (fun k => theta k - q k) (fun k => q k - z k) =
      -(∑ k, (theta k - q k) * (z k - q k)) + gamma * (1 / (m : ℝ) *
        ∑ i, linPred Xs (fun k => z k - q k) i * linPred Xs (fun k => theta k - q k) i) := by
    simp only [hB]
    have a1 : (∑ k, (theta k - q k) * (q k - z k)) = -∑ k, (theta k - q k) * (z k - q k) := by
      rw [← Finset.sum_neg_distrib]; exact Finset.sum_congr rfl fun k _ => by ring
    have a2 : (∑ i, linPred Xs (fun k => theta k - q k) i * linPred Xs (fun k => q k - z k) i) =
        -∑ i, linPred Xs (fun k => z k - q k) i * linPred Xs (fun k => theta k - q k) i := by
      rw [← Finset.sum_neg_distrib]
      refine Finset.sum_congr rfl fun i _ => ?_
      rw [linPred_sub, linPred_sub, linPred_sub]; ring
    rw [a1, a2]; ring
  rw [e2, ← hin, e1] at hform
  have hle : nodeLasso Xs xr alpha q - nodeLasso Xs xr alpha z ≤
      1 / gamma * (Real.sqrt (∑ k, (theta k - q k) ^ 2) * Real.sqrt (∑ k, (q k - z k) ^ 2)) := by
    have h5 := mul_le_mul_of_nonneg_left hform (one_div_pos.mpr hg).le
    have e3 : 1 / gamma * (-(∑ k, (theta k - q k) * (z k - q k)) + gamma *
        ((∑ k, gaussGradient Xs xr theta k * (z k - q k)) - ∑ k, gaussGradient Xs xr q k * (z k - q k))) =
        -(1 / gamma * ∑ k, (theta k - q k) * (z k - q k)) +
          ((∑ k, gaussGradient Xs xr theta k * (z k - q k)) - ∑ k, gaussGradient Xs xr q k * (z k - q k)) := by
      field_simp
    rw [e3] at h5
    rw [hobj]
    linarith
  refine hle.trans ?_
  rw [show tol / gamma * Real.sqrt (∑ k, (q k - z k) ^ 2) = 1 / gamma * (tol * Real.sqrt (∑ k, (q k - z k) ^ 2)) by
    rw [div_eq_inv_mul, one_div, mul_assoc]]
  exact mul_le_mul_of_nonneg_left (mul_le_mul_of_nonneg_right hstop.le (Real.sqrt_nonneg _)) (by positivity)

/-- Non-vacuity for C152: two samples, two predictors with all entries 10, step size 1/1000. -/
example : ∀ v : Fin 2 → ℝ, (1 / 1000 : ℝ) * (1 / ((2 : ℕ) : ℝ) *
    ∑ i : Fin 2, (∑ k, (fun _ _ => (10 : ℝ)) i k * v k) ^ 2) ≤ 1 * ∑ k, v k ^ 2 := by
  intro v
  simp only [Fin.sum_univ_two]
  norm_num
  nlinarith [sq_nonneg (v 0 - v 1), sq_nonneg (v 0 + v 1), sq_nonneg (v 0), sq_nonneg (v 1)]

/-- C152, the step size matters: with the fixed step size 1/1000 of the estimator (C63), on `m` samples of two variables
both equal to 100, whatever the iteration limit the returned coefficient is at least `8^N/2` away from 1, whereas the
solution of the lasso is `1 - alpha/10^4`. -/
theorem C152_default_diverges_false {m : ℕ} (hm : 0 < m) (o : GaussOptions) (ha : 0 ≤ o.alpha) (ha1 : o.alpha ≤ 1)
    (N : ℕ) :
    8 ^ N / 2 ≤ |nodeLoop (gaussStep (fun (_ : Fin m) (_ : Fin 1) => (100 : ℝ)) (fun _ => 100) (gaussFitCall o).alpha
      (gaussFitCall o).gamma) (gaussFitCall o).tol N (fun _ => 1 / 10 ^ 15) 0 - 1| ∧
    IsMin Set.univ (nodeLasso (fun (_ : Fin m) (_ : Fin 1) => (100 : ℝ)) (fun _ => 100) o.alpha)
      (fun _ => 1 - o.alpha / 10000) := by
  have hm' : (m : ℝ) ≠ 0 := by exact_mod_cast hm.ne'
  set al := o.alpha with hal
  have hgrad : ∀ t : Fin 1 → ℝ, gaussGradient (fun (_ : Fin m) (_ : Fin 1) => (100 : ℝ)) (fun _ => 100) t 0 =
      10000 * (t 0 - 1) := by
    intro t
    simp only [gaussGradient, linPred, Fin.sum_univ_one, Finset.sum_const, Finset.card_univ, Fintype.card_fin,
      nsmul_eq_mul]
    field_simp
    ring
  have hstep : ∀ (g : ℝ) (t : Fin 1 → ℝ), gaussStep (fun (_ : Fin m) (_ : Fin 1) => (100 : ℝ)) (fun _ => 100) al g t 0 =
      softScalar (t 0 - g * (10000 * (t 0 - 1))) (al * g) := by
    intro g t
    rw [← hgrad t]
    rfl
  constructor
  · have hcall : (gaussFitCall o).alpha = al ∧ (gaussFitCall o).gamma = 1 / 1000 ∧ (gaussFitCall o).tol = 1 / 1000 :=
      ⟨rfl, rfl, rfl⟩
    rw [hcall.1, hcall.2.1, hcall.2.2]
    have hgrow : ∀ t : Fin 1 → ℝ, 1 / 2 ≤ |t 0 - 1| → 8 * |t 0 - 1| ≤
        |gaussStep (fun (_ : Fin m) (_ : Fin 1) => (100 : ℝ)) (fun _ => 100) al (1 / 1000) t 0 - 1| := by
      intro t h
      rw [hstep]
      have hs : |softScalar (t 0 - 1 / 1000 * (10000 * (t 0 - 1))) (al * (1 / 1000))
          - (t 0 - 1 / 1000 * (10000 * (t 0 - 1)))| ≤ al * (1 / 1000) := by
        generalize t 0 - 1 / 1000 * (10000 * (t 0 - 1)) = a
        have h0 : 0 ≤ al * (1 / 1000) := by positivity
        rcases le_or_gt (|a|) (al * (1 / 1000)) with h1 | h1
        · rw [softScalar_of_abs_le h1, zero_sub, abs_neg]; exact h1
        · rcases lt_abs.mp h1 with h2 | h2
          · rw [softScalar_of_pos h0 h2, sub_sub_cancel_left, abs_neg, abs_of_nonneg h0]
          · rw [softScalar_of_neg h0 (by linarith), add_sub_cancel_left, abs_of_nonneg h0]
      generalize softScalar (t 0 - 1 / 1000 * (10000 * (t 0 - 1))) (al * (1 / 1000)) = w at hs ⊢
      have e : t 0 - 1 / 1000 * (10000 * (t 0 - 1)) = 1 - 9 * (t 0 - 1) := by ring
      rw [e] at hs
      have h9 : |9 * (t 0 - 1)| = 9 * |t 0 - 1| := by rw [abs_mul]; norm_num
      have h3 : |9 * (t 0 - 1)| ≤ |w - 1| + |w - (1 - 9 * (t 0 - 1))| := by
        have := abs_sub (w - (1 - 9 * (t 0 - 1))) (w - 1)
        rw [show w - (1 - 9 * (t 0 - 1)) - (w - 1) = 9 * (t 0 - 1) by ring] at this
        linarith
      linarith
    have hall : ∀ (N : ℕ) (t : Fin 1 → ℝ), 1 / 2 ≤ |t 0 - 1| → 8 ^ N * |t 0 - 1| ≤
        |nodeLoop (gaussStep (fun (_ : Fin m) (_ : Fin 1) => (100 : ℝ)) (fun _ => 100) al (1 / 1000)) (1 / 1000) N t 0
          - 1| := by
      intro N
      induction N with
      | zero => intro t _; simp [nodeLoop]
      | succ N ih =>
        intro t h
        have h1 := hgrow t h
        unfold nodeLoop
        rw [if_neg]
        · refine le_trans ?_ (ih _ (by linarith))
          have := mul_le_mul_of_nonneg_left h1 (by positivity : (0 : ℝ) ≤ 8 ^ N)
          rw [pow_succ]
          linarith
        · rw [not_lt, Fin.sum_univ_one, Real.sqrt_sq_eq_abs]
          have := abs_sub_abs_le_abs_sub (gaussStep (fun (_ : Fin m) (_ : Fin 1) => (100 : ℝ)) (fun _ => 100) al
            (1 / 1000) t 0 - 1) (t 0 - 1)
          rw [sub_sub_sub_cancel_right, abs_sub_comm _ (t 0)] at this
          linarith
    have h := hall N (fun _ => 1 / 10 ^ 15) (by rw [abs_of_neg (by norm_num)]; norm_num)
    refine le_trans ?_ h
    have h2 : (1 / 2 : ℝ) ≤ |(1 / 10 ^ 15 : ℝ) - 1| := by rw [abs_of_neg (by norm_num)]; norm_num
    have := mul_le_mul_of_nonneg_left h2 (by positivity : (0 : ℝ) ≤ 8 ^ N)
    linarith
  · rw [← C64_stationary_iff _ _ ha one_pos]
    funext k
    rw [Subsingleton.elim k 0, hstep]
    rw [softScalar_of_pos (by linarith) (by linarith)]
    ring

end Verif.Props
