import Verif.Lemmas.Convex
import Verif.Lemmas.Soft
import Verif.Spec.TV
import Mathlib.Topology.MetricSpace.ProperSpace.Lemmas
import Mathlib.Topology.Order.Compact
import Mathlib.Topology.Instances.Real.Lemmas

/-! Total variation: convexity, homogeneity, splitting under soft-thresholding. -/

namespace Verif.Lemmas

open Verif.Spec Verif.Model

set_option autoImplicit false

variable {T : ℕ}

theorem tv_smul (c : ℝ) (x : Fin (T + 1) → ℝ) :
    totalVariation (c • x) = |c| * totalVariation x := by
  unfold totalVariation
  rw [Finset.mul_sum]
  refine Finset.sum_congr rfl fun p _ => ?_
  rw [Pi.smul_apply, Pi.smul_apply, smul_eq_mul, smul_eq_mul, ← mul_sub, abs_mul]

theorem tv_add_le (x y : Fin (T + 1) → ℝ) :
    totalVariation (x + y) ≤ totalVariation x + totalVariation y := by
  unfold totalVariation
  rw [← Finset.sum_add_distrib]
  refine Finset.sum_le_sum fun p _ => ?_
  rw [Pi.add_apply, Pi.add_apply]
  calc |x p.succ + y p.succ - (x p.castSucc + y p.castSucc)|
      = |(x p.succ - x p.castSucc) + (y p.succ - y p.castSucc)| := by congr 1; ring
    _ ≤ _ := abs_add_le _ _

theorem tv_nonneg (x : Fin (T + 1) → ℝ) : 0 ≤ totalVariation x :=
  Finset.sum_nonneg fun _ _ => abs_nonneg _

/-- Soft-thresholding and its residual are both monotone. -/
theorem softScalar_mono_split {lam : ℝ} (hl : 0 ≤ lam) (a b : ℝ) :
    |a - b| = |softScalar a lam - softScalar b lam|
      + |(a - softScalar a lam) - (b - softScalar b lam)| := by
  have hmono : ∀ {c d : ℝ}, c ≤ d → softScalar c lam ≤ softScalar d lam ∧
      c - softScalar c lam ≤ d - softScalar d lam := by
    intro c d hcd
    rcases le_or_gt (|c|) lam with hc | hc <;> rcases le_or_gt (|d|) lam with hd | hd
    · rw [softScalar_of_abs_le hc, softScalar_of_abs_le hd]; exact ⟨le_rfl, by linarith⟩
    · have := abs_le.mp hc
      rcases lt_abs.mp hd with h | h
      · rw [softScalar_of_abs_le hc, softScalar_of_pos hl h]; constructor <;> linarith
      · exfalso; linarith
    · have := abs_le.mp hd
      rcases lt_abs.mp hc with h | h
      · exfalso; linarith
      · rw [softScalar_of_abs_le hd, softScalar_of_neg hl (by linarith)]; constructor <;> linarith
    · rcases lt_abs.mp hc with h | h <;> rcases lt_abs.mp hd with h' | h'
      · rw [softScalar_of_pos hl h, softScalar_of_pos hl h']; constructor <;> linarith
      · exfalso; linarith
      · rw [softScalar_of_neg hl (by linarith), softScalar_of_pos hl h']; constructor <;> linarith
      · rw [softScalar_of_neg hl (by linarith), softScalar_of_neg hl (by linarith)]
        constructor <;> linarith
  rcases le_total a b with h | h
  · obtain ⟨h1, h2⟩ := hmono h
    rw [abs_of_nonpos (by linarith), abs_of_nonpos (by linarith), abs_of_nonpos (by linarith)]
    ring
  · obtain ⟨h1, h2⟩ := hmono h
    rw [abs_of_nonneg (by linarith), abs_of_nonneg (by linarith), abs_of_nonneg (by linarith)]
    ring

/-- `TV(y) = TV(soft y) + TV(y - soft y)`. -/
theorem tv_soft_split {lam : ℝ} (hl : 0 ≤ lam) (y : Fin (T + 1) → ℝ) :
    totalVariation y = totalVariation (softThresholding y lam)
      + totalVariation (y - softThresholding y lam) := by
  unfold totalVariation
  rw [← Finset.sum_add_distrib]
  exact Finset.sum_congr rfl fun p _ => softScalar_mono_split hl _ _

/-- Expansion of the squared distance. -/
theorem sqDist_expand {ι : Type*} [Fintype ι] (x y a : ι → ℝ) :
    sqDist x a = sqDist y a - 2 * ∑ i, (a i - y i) * (x i - y i) + sqDist x y := by
  unfold sqDist
  rw [Finset.mul_sum, ← Finset.sum_sub_distrib, ← Finset.sum_add_distrib]
  exact Finset.sum_congr rfl fun i _ => by ring

/-- Subgradient inequality of a total-variation minimiser. -/
theorem tv_subgrad {beta : ℝ} (hb : 0 ≤ beta) {a y : Fin (T + 1) → ℝ}
    (h : IsMin Set.univ (fusedObjective beta 0 a) y) (z : Fin (T + 1) → ℝ) :
    beta * totalVariation y + ∑ t, (a t - y t) * (z t - y t) ≤ beta * totalVariation z := by
  have key : 0 ≤ beta * totalVariation z - beta * totalVariation y
      - ∑ t, (a t - y t) * (z t - y t) := by
    refine nonneg_of_forall_small (b := 1 / 2 * sqDist z y) fun s h0 h1 => ?_
    have h2 := h.2 ((1 - s) • y + s • z) trivial
    unfold fusedObjective at h2
    rw [sqDist_expand ((1 - s) • y + s • z) y a] at h2
    have h3 : totalVariation ((1 - s) • y + s • z) ≤
        (1 - s) * totalVariation y + s * totalVariation z := by
      refine (tv_add_le _ _).trans ?_
      rw [tv_smul, tv_smul, abs_of_nonneg h0.le, abs_of_nonneg (by linarith : 0 ≤ 1 - s)]
    have h4 := mul_le_mul_of_nonneg_left h3 hb
    have e1 : ∑ i, (a i - y i) * (((1 - s) • y + s • z) i - y i) =
        s * ∑ i, (a i - y i) * (z i - y i) := by
      rw [Finset.mul_sum]
      refine Finset.sum_congr rfl fun i _ => ?_
      simp only [Pi.add_apply, Pi.smul_apply, smul_eq_mul]; ring
    have e2 : sqDist ((1 - s) • y + s • z) y = s ^ 2 * sqDist z y := by
      unfold sqDist
      rw [Finset.mul_sum]
      refine Finset.sum_congr rfl fun i _ => ?_
      simp only [Pi.add_apply, Pi.smul_apply, smul_eq_mul]; ring
    rw [e1, e2] at h2
    have h5 : 0 ≤ s * (beta * totalVariation z - beta * totalVariation y
      - ∑ t, (a t - y t) * (z t - y t) + s * (1 / 2 * sqDist z y)) := by nlinarith
    exact nonneg_of_mul_nonneg_right h5 h0
  linarith

/-- The residual of the TV minimiser stays a subgradient after soft-thresholding. -/
theorem tv_subgrad_soft {beta lam : ℝ} (hb : 0 ≤ beta) (hl : 0 ≤ lam) {a y : Fin (T + 1) → ℝ}
    (h : IsMin Set.univ (fusedObjective beta 0 a) y) (z : Fin (T + 1) → ℝ) :
    beta * totalVariation (softThresholding y lam)
      + ∑ t, (a t - y t) * (z t - softThresholding y lam t) ≤ beta * totalVariation z := by
  set x := softThresholding y lam with hx
  have hle : ∀ w : Fin (T + 1) → ℝ, ∑ t, (a t - y t) * w t ≤ beta * totalVariation w := by
    intro w
    have h1 := tv_subgrad hb h (y + w)
    have h2 := mul_le_mul_of_nonneg_left (tv_add_le y w) hb
    simp only [Pi.add_apply, add_sub_cancel_left] at h1
    linarith
  have heq : beta * totalVariation y ≤ ∑ t, (a t - y t) * y t := by
    have h1 := tv_subgrad hb h 0
    have h0 : totalVariation (0 : Fin (T + 1) → ℝ) = 0 := by simp [totalVariation]
    simp only [h0, Pi.zero_apply, zero_sub, mul_neg, Finset.sum_neg_distrib, mul_zero] at h1
    linarith
  have hz := hle z
  have hr := hle (y - x)
  have hs := tv_soft_split hl y
  rw [← hx] at hs
  rw [hs, mul_add] at heq
  have e1 : ∑ t, (a t - y t) * (z t - x t) = ∑ t, (a t - y t) * z t - ∑ t, (a t - y t) * x t := by
    rw [← Finset.sum_sub_distrib]; exact Finset.sum_congr rfl fun t _ => by ring
  have e2 : ∑ t, (a t - y t) * (y - x) t = ∑ t, (a t - y t) * y t - ∑ t, (a t - y t) * x t := by
    rw [← Finset.sum_sub_distrib]
    exact Finset.sum_congr rfl fun t _ => by rw [Pi.sub_apply]; ring
  rw [e2] at hr
  rw [e1]
  linarith

/-- Fused lasso: soft-thresholding a TV minimiser gives the unique minimiser. -/
theorem fused_of_tv {beta lam : ℝ} (hb : 0 ≤ beta) (hl : 0 ≤ lam) {a y : Fin (T + 1) → ℝ}
    (h : IsMin Set.univ (fusedObjective beta 0 a) y) :
    UniqueMin Set.univ (fusedObjective beta lam a) (softThresholding y lam) := by
  refine ⟨trivial, fun z _ hne => ?_⟩
  have h1 := tv_subgrad_soft hb hl h z
  set x := softThresholding y lam with hx
  have h2 : lam * absSum x + ∑ t, (y t - x t) * (z t - x t) ≤ lam * absSum z := by
    unfold absSum
    rw [Finset.mul_sum, Finset.mul_sum, ← Finset.sum_add_distrib]
    exact Finset.sum_le_sum fun t _ => softScalar_subgrad hl (y t) (z t)
  have h3 : 0 < sqDist z x := sum_sq_pos_of_ne hne
  unfold fusedObjective
  rw [sqDist_expand z x a]
  have e : ∑ t, (a t - x t) * (z t - x t) = ∑ t, (a t - y t) * (z t - x t)
      + ∑ t, (y t - x t) * (z t - x t) := by
    rw [← Finset.sum_add_distrib]; exact Finset.sum_congr rfl fun t _ => by ring
  rw [e]
  linarith

/-- Exact TV denoisers exist: the objective is continuous and coercive. -/
theorem exists_tvSolver (T : ℕ) :
    ∃ solve : (Fin (T + 1) → ℝ) → ℝ → Fin (T + 1) → ℝ, IsTVSolver solve := by
  have main : ∀ (a : Fin (T + 1) → ℝ) (beta : ℝ), ∃ y, 0 ≤ beta →
      IsMin Set.univ (fusedObjective beta 0 a) y := by
    intro a beta
    by_cases hb : 0 ≤ beta
    swap
    · exact ⟨a, fun h => absurd h hb⟩
    have hcont : Continuous (fusedObjective beta 0 a) := by
      unfold fusedObjective totalVariation absSum sqDist
      fun_prop
    set c := fusedObjective beta 0 a a with hc
    have hc0 : 0 ≤ c := by
      have h1 := mul_nonneg hb (tv_nonneg a)
      rw [hc]; unfold fusedObjective sqDist
      simp
      exact h1
    set R := Real.sqrt (2 * c)
    obtain ⟨y, hy, hmin⟩ := (isCompact_closedBall a R).exists_isMinOn
      ⟨a, Metric.mem_closedBall_self (Real.sqrt_nonneg _)⟩ hcont.continuousOn
    refine ⟨y, fun _ => ⟨trivial, fun z _ => ?_⟩⟩
    by_cases hz : z ∈ Metric.closedBall a R
    · exact hmin hz
    · have h1 : fusedObjective beta 0 a y ≤ c :=
        hmin (Metric.mem_closedBall_self (Real.sqrt_nonneg _))
      refine h1.trans ?_
      by_contra hlt
      push Not at hlt
      apply hz
      rw [Metric.mem_closedBall, dist_pi_le_iff (Real.sqrt_nonneg _)]
      intro t
      rw [Real.dist_eq]
      apply Real.abs_le_sqrt
      have h2 : (z t - a t) ^ 2 ≤ sqDist z a :=
        Finset.single_le_sum (f := fun i => (z i - a i) ^ 2) (fun i _ => sq_nonneg _)
          (Finset.mem_univ t)
      have h3 := mul_nonneg hb (tv_nonneg z)
      unfold fusedObjective at hlt
      linarith
  choose f hf using main
  exact ⟨f, fun a beta hb => hf a beta hb⟩

end Verif.Lemmas
