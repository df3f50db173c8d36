import Verif.Spec.Opt
import Mathlib.Topology.MetricSpace.Sequences
import Mathlib.Topology.Order.MonotoneConvergence
import Mathlib.Topology.Instances.Real.Lemmas
import Mathlib.Topology.MetricSpace.ProperSpace.Real
import Mathlib.Topology.Algebra.Monoid
import Mathlib.Analysis.Normed.Group.Constructions
import Mathlib.Analysis.Real.Sqrt
import Mathlib.Tactic.Linarith
import Mathlib.Tactic.Ring
import Mathlib.Tactic.Positivity

/-!
Convergence of the relaxed Douglas-Rachford iteration (the form over-relaxed ADMM takes after a change
of variables) in finite dimension.
-/

namespace Verif.Lemmas

open Verif.Spec Filter Topology

set_option autoImplicit false

variable {ι : Type*} [Fintype ι]

/-- Firm non-expansiveness, the property of every proximal map. -/
def Firm (J : (ι → ℝ) → ι → ℝ) : Prop :=
  ∀ x y, 0 ≤ ∑ i, (J x i - J y i) * ((x i - J x i) - (y i - J y i))

/-- One relaxed Douglas-Rachford step. -/
def drStep (J1 J2 : (ι → ℝ) → ι → ℝ) (alpha : ℝ) (s : ι → ℝ) : ι → ℝ :=
  s + alpha • (J2 ((2 : ℝ) • J1 s - s) - J1 s)

/-- Its iterates. -/
def drSeq (J1 J2 : (ι → ℝ) → ι → ℝ) (alpha : ℝ) (s0 : ι → ℝ) : ℕ → ι → ℝ
  | 0 => s0
  | k + 1 => drStep J1 J2 alpha (drSeq J1 J2 alpha s0 k)

theorem sqDist_nonneg' (x y : ι → ℝ) : 0 ≤ sqDist x y := Finset.sum_nonneg fun _ _ => sq_nonneg _

theorem sqDist_entry (x y : ι → ℝ) (i : ι) : (x i - y i) ^ 2 ≤ sqDist x y :=
  Finset.single_le_sum (f := fun i => (x i - y i) ^ 2) (fun _ _ => sq_nonneg _) (Finset.mem_univ i)

theorem sqDist_eq_zero {x y : ι → ℝ} (h : sqDist x y = 0) : x = y := by
  funext i
  have := sqDist_entry x y i
  rw [h] at this
  have : x i - y i = 0 := pow_eq_zero_iff (two_ne_zero) |>.mp (le_antisymm this (sq_nonneg _))
  linarith

theorem tendsto_of_sqDist {x : ℕ → ι → ℝ} {a : ι → ℝ}
    (h : Tendsto (fun k => sqDist (x k) a) atTop (𝓝 0)) : Tendsto x atTop (𝓝 a) := by
  rw [tendsto_pi_nhds]
  intro i
  rw [tendsto_iff_dist_tendsto_zero]
  have h1 : Tendsto (fun k => Real.sqrt (sqDist (x k) a)) atTop (𝓝 0) := by
    have := h.sqrt; rwa [Real.sqrt_zero] at this
  refine squeeze_zero (fun _ => dist_nonneg) (fun k => ?_) h1
  rw [Real.dist_eq, ← Real.sqrt_sq_eq_abs]
  exact Real.sqrt_le_sqrt (sqDist_entry _ _ _)

theorem tendsto_sqDist {x y : ℕ → ι → ℝ} {a b : ι → ℝ} (h : Tendsto x atTop (𝓝 a))
    (h' : Tendsto y atTop (𝓝 b)) : Tendsto (fun k => sqDist (x k) (y k)) atTop (𝓝 (sqDist a b)) := by
  unfold sqDist
  rw [tendsto_pi_nhds] at h h'
  exact tendsto_finsetSum _ fun i _ => ((h i).sub (h' i)).pow 2

theorem Firm.nonexpansive {J : (ι → ℝ) → ι → ℝ} (h : Firm J) (x y : ι → ℝ) :
    sqDist (J x) (J y) ≤ sqDist x y := by
  have h1 := h x y
  have h2 : 0 ≤ ∑ i, ((x i - y i) - (J x i - J y i)) ^ 2 := Finset.sum_nonneg fun _ _ => sq_nonneg _
  have e : sqDist x y = sqDist (J x) (J y) + (∑ i, ((x i - y i) - (J x i - J y i)) ^ 2)
      + 2 * ∑ i, (J x i - J y i) * ((x i - J x i) - (y i - J y i)) := by
    unfold sqDist
    rw [Finset.mul_sum, ← Finset.sum_add_distrib, ← Finset.sum_add_distrib]
    exact Finset.sum_congr rfl fun i _ => by ring
  linarith

theorem Firm.tendsto {J : (ι → ℝ) → ι → ℝ} (h : Firm J) {x : ℕ → ι → ℝ} {a : ι → ℝ}
    (hx : Tendsto x atTop (𝓝 a)) : Tendsto (fun k => J (x k)) atTop (𝓝 (J a)) := by
  refine tendsto_of_sqDist (squeeze_zero (fun _ => sqDist_nonneg' _ _)
    (fun k => h.nonexpansive (x k) a) ?_)
  have := tendsto_sqDist hx (tendsto_const_nhds (x := a))
  have e : sqDist a a = 0 := by unfold sqDist; simp
  rwa [e] at this

/-- Each step comes closer to every fixed point. -/
theorem dr_fejer {J1 J2 : (ι → ℝ) → ι → ℝ} (h1 : Firm J1) (h2 : Firm J2) {alpha : ℝ} (ha : 0 ≤ alpha)
    {sx : ι → ℝ} (hf : J2 ((2 : ℝ) • J1 sx - sx) = J1 sx) (s : ι → ℝ) :
    sqDist (drStep J1 J2 alpha s) sx ≤
      sqDist s sx - alpha * (2 - alpha) * sqDist (J2 ((2 : ℝ) • J1 s - s)) (J1 s) := by
  have m1 := h1 s sx
  have m2 := h2 ((2 : ℝ) • J1 s - s) ((2 : ℝ) • J1 sx - sx)
  rw [hf] at m2
  simp only [Pi.sub_apply, Pi.smul_apply, smul_eq_mul] at m2
  set p := J1 s
  set q := J2 ((2 : ℝ) • p - s) with hq
  set px := J1 sx
  have e1 : (∑ i, (p i - px i) * ((s i - p i) - (sx i - px i)))
      + (∑ i, (q i - px i) * ((2 * p i - s i - q i) - (2 * px i - sx i - px i)))
      = -(∑ i, (s i - sx i) * (q i - p i)) - sqDist q p := by
    unfold sqDist
    rw [← Finset.sum_neg_distrib, ← Finset.sum_sub_distrib, ← Finset.sum_add_distrib]
    exact Finset.sum_congr rfl fun i _ => by ring
  have e2 : sqDist (drStep J1 J2 alpha s) sx =
      sqDist s sx + 2 * alpha * (∑ i, (s i - sx i) * (q i - p i)) + alpha ^ 2 * sqDist q p := by
    unfold sqDist drStep
    rw [Finset.mul_sum, Finset.mul_sum, ← Finset.sum_add_distrib, ← Finset.sum_add_distrib]
    refine Finset.sum_congr rfl fun i _ => ?_
    simp only [Pi.add_apply, Pi.smul_apply, Pi.sub_apply, smul_eq_mul]
    change (s i + alpha * (q i - p i) - sx i) ^ 2 = _
    ring
  rw [e2]
  have : (∑ i, (s i - sx i) * (q i - p i)) ≤ -sqDist q p := by linarith
  nlinarith

/-- The iterates converge to a fixed point, and the residual vanishes. -/
theorem dr_converges {J1 J2 : (ι → ℝ) → ι → ℝ} (h1 : Firm J1) (h2 : Firm J2) {alpha : ℝ}
    (ha : 0 < alpha) (ha2 : alpha < 2) {sx : ι → ℝ} (hf : J2 ((2 : ℝ) • J1 sx - sx) = J1 sx)
    (s0 : ι → ℝ) :
    ∃ a, J2 ((2 : ℝ) • J1 a - a) = J1 a ∧
      Tendsto (drSeq J1 J2 alpha s0) atTop (𝓝 a) := by
  set s := drSeq J1 J2 alpha s0 with hs
  have hc : 0 < alpha * (2 - alpha) := mul_pos ha (by linarith)
  have step : ∀ b, J2 ((2 : ℝ) • J1 b - b) = J1 b → ∀ k, sqDist (s (k + 1)) b ≤
      sqDist (s k) b - alpha * (2 - alpha) * sqDist (J2 ((2 : ℝ) • J1 (s k) - s k)) (J1 (s k)) :=
    fun b hb k => dr_fejer h1 h2 ha.le hb (s k)
  have anti : ∀ b, J2 ((2 : ℝ) • J1 b - b) = J1 b → Antitone fun k => sqDist (s k) b := fun b hb =>
    antitone_nat_of_succ_le fun k => by
      have := step b hb k
      have := mul_nonneg hc.le (sqDist_nonneg' (J2 ((2 : ℝ) • J1 (s k) - s k)) (J1 (s k)))
      linarith
  -- the residual vanishes
  have hlim := tendsto_atTop_ciInf (anti sx hf)
    ⟨0, by rintro _ ⟨k, rfl⟩; exact sqDist_nonneg' _ _⟩
  have hdiff := hlim.sub (hlim.comp (tendsto_add_atTop_nat 1))
  rw [sub_self] at hdiff
  have hres : Tendsto (fun k => sqDist (J2 ((2 : ℝ) • J1 (s k) - s k)) (J1 (s k))) atTop (𝓝 0) := by
    have h3 := hdiff.div_const (alpha * (2 - alpha))
    rw [zero_div] at h3
    refine squeeze_zero (fun _ => sqDist_nonneg' _ _) (fun k => ?_) h3
    rw [le_div_iff₀ hc]
    have := step sx hf k
    simp only [Function.comp]
    linarith
  -- a convergent subsequence
  have hb : ∀ k, s k ∈ Metric.closedBall sx (Real.sqrt (sqDist (s 0) sx)) := by
    intro k
    rw [Metric.mem_closedBall, dist_pi_le_iff (Real.sqrt_nonneg _)]
    intro i
    rw [Real.dist_eq, ← Real.sqrt_sq_eq_abs]
    exact Real.sqrt_le_sqrt ((sqDist_entry _ _ _).trans (anti sx hf (Nat.zero_le k)))
  obtain ⟨a, -, φ, hφ, hφa⟩ := (isCompact_closedBall sx _).tendsto_subseq hb
  have hfa : J2 ((2 : ℝ) • J1 a - a) = J1 a := by
    have hp := h1.tendsto hφa
    have hr : Tendsto (fun k => (2 : ℝ) • J1 ((s ∘ φ) k) - (s ∘ φ) k) atTop
        (𝓝 ((2 : ℝ) • J1 a - a)) := (hp.const_smul (2 : ℝ)).sub hφa
    have hq := h2.tendsto hr
    have h3 := tendsto_sqDist hq hp
    have h4 := hres.comp hφ.tendsto_atTop
    exact sqDist_eq_zero (tendsto_nhds_unique h3 h4)
  refine ⟨a, hfa, tendsto_of_sqDist ?_⟩
  have h5 := tendsto_sqDist hφa (tendsto_const_nhds (x := a))
  have e : sqDist a a = 0 := by unfold sqDist; simp
  rw [e] at h5
  have h6 := tendsto_atTop_ciInf (anti a hfa) ⟨0, by rintro _ ⟨k, rfl⟩; exact sqDist_nonneg' _ _⟩
  have h7 := h6.comp hφ.tendsto_atTop
  have := tendsto_nhds_unique h7 h5
  rwa [this] at h6

end Verif.Lemmas
