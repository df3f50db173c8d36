import Verif.Lemmas.DR
import Verif.Lemmas.ProxGrad
import Verif.Lemmas.Lasso
import Verif.Lemmas.Frob
import Mathlib.Topology.Instances.Matrix

/-!
Convergence of an iteration that moves closer to each of its fixed points, and the proximal gradient step
as an instance.
-/

namespace Verif.Lemmas

open Verif.Model Verif.Spec Filter Topology

set_option autoImplicit false
set_option linter.unusedSectionVars false

variable {ι : Type*} [Fintype ι]

/-- An iteration by a continuous map with a fixed point whose squared distance to every fixed point drops by a
fixed multiple of the squared step converges to a fixed point, and the steps vanish. The inequality is asked on an
invariant set of points only. -/
theorem fejer_converges {step : (ι → ℝ) → ι → ℝ} {P : (ι → ℝ) → Prop} {c : ℝ} (hc : 0 < c)
    (hcont : Continuous step) (hP : ∀ x, P (step x))
    (hf : ∀ x z, P x → step z = z → sqDist (step x) z ≤ sqDist x z - c * sqDist (step x) x)
    {z0 : ι → ℝ} (hz0 : step z0 = z0) {x0 : ι → ℝ} (hx0 : P x0) :
    ∃ a, step a = a ∧ Tendsto (fun k => step^[k] x0) atTop (𝓝 a) ∧
      Tendsto (fun k => sqDist (step^[k + 1] x0) (step^[k] x0)) atTop (𝓝 0) := by
  set s : ℕ → ι → ℝ := fun k => step^[k] x0 with hs
  have hsucc : ∀ k, s (k + 1) = step (s k) := fun k => Function.iterate_succ_apply' step k x0
  have hPs : ∀ k, P (s k) := by
    intro k
    cases k with
    | zero => exact hx0
    | succ k => rw [hsucc]; exact hP _
  have hstep : ∀ b, step b = b → ∀ k, sqDist (s (k + 1)) b ≤ sqDist (s k) b - c * sqDist (s (k + 1)) (s k) :=
    fun b hb k => by rw [hsucc]; exact hf (s k) b (hPs k) hb
  have anti : ∀ b, step b = b → Antitone fun k => sqDist (s k) b := fun b hb =>
    antitone_nat_of_succ_le fun k => by
      have := hstep b hb k
      have := mul_nonneg hc.le (sqDist_nonneg' (s (k + 1)) (s k))
      linarith
  have hlim := tendsto_atTop_ciInf (anti z0 hz0) ⟨0, by rintro _ ⟨k, rfl⟩; exact sqDist_nonneg' _ _⟩
  have hdiff := hlim.sub (hlim.comp (tendsto_add_atTop_nat 1))
  rw [sub_self] at hdiff
  have hres : Tendsto (fun k => sqDist (s (k + 1)) (s k)) atTop (𝓝 0) := by
    have h3 := hdiff.div_const c
    rw [zero_div] at h3
    refine squeeze_zero (fun _ => sqDist_nonneg' _ _) (fun k => ?_) h3
    rw [le_div_iff₀ hc]
    have := hstep z0 hz0 k
    simp only [Function.comp]
    linarith
  have hb : ∀ k, s k ∈ Metric.closedBall z0 (Real.sqrt (sqDist (s 0) z0)) := by
    intro k
    rw [Metric.mem_closedBall, dist_pi_le_iff (Real.sqrt_nonneg _)]
    intro i
    rw [Real.dist_eq, ← Real.sqrt_sq_eq_abs]
    exact Real.sqrt_le_sqrt ((sqDist_entry _ _ _).trans (anti z0 hz0 (Nat.zero_le k)))
  obtain ⟨a, -, φ, hφ, hφa⟩ := (isCompact_closedBall z0 _).tendsto_subseq hb
  have hfa : step a = a := by
    have h1 : Tendsto (fun k => s (φ k + 1)) atTop (𝓝 (step a)) := by
      have := (hcont.tendsto a).comp hφa
      refine this.congr fun k => ?_
      simp only [Function.comp]
      exact (hsucc _).symm
    have h3 := tendsto_sqDist h1 hφa
    have h4 := hres.comp hφ.tendsto_atTop
    exact sqDist_eq_zero (tendsto_nhds_unique h3 h4)
  refine ⟨a, hfa, tendsto_of_sqDist ?_, hres⟩
  have h5 := tendsto_sqDist hφa (tendsto_const_nhds (x := a))
  have e : sqDist a a = 0 := by unfold sqDist; simp
  rw [e] at h5
  have h6 := tendsto_atTop_ciInf (anti a hfa) ⟨0, by rintro _ ⟨k, rfl⟩; exact sqDist_nonneg' _ _⟩
  have h7 := h6.comp hφ.tendsto_atTop
  have := tendsto_nhds_unique h7 h5
  rwa [this] at h6

/-- The proximal gradient step for a firmly non-expansive map `J` and a gradient `g` that satisfies, for a constant
`c < 2`, `2 gamma <r, g x - g z> ≤ c/2 ‖r‖² + 2 gamma <x - z, g x - g z>`. -/
theorem prox_grad_fejer {J : (ι → ℝ) → ι → ℝ} (hJ : Firm J) {gamma c : ℝ} {g : (ι → ℝ) → ι → ℝ} {x z : ι → ℝ}
    (hg : ∀ r : ι → ℝ, 2 * gamma * ∑ k, r k * (g x k - g z k) ≤
      c / 2 * (∑ k, r k ^ 2) + 2 * gamma * ∑ k, (x k - z k) * (g x k - g z k))
    (hz : J (fun k => z k - gamma * g z k) = z) :
    sqDist (J fun k => x k - gamma * g x k) z ≤
      sqDist x z - (1 - c / 2) * sqDist (J fun k => x k - gamma * g x k) x := by
  have h := hJ (fun k => x k - gamma * g x k) (fun k => z k - gamma * g z k)
  rw [hz] at h
  set p := J fun k => x k - gamma * g x k with hp
  have h2 := hg fun k => x k - p k
  unfold sqDist
  have e1 : (∑ k, (p k - z k) * (x k - gamma * g x k - p k - (z k - gamma * g z k - z k))) =
      (∑ k, (p k - z k) * (x k - p k)) - gamma * ∑ k, (p k - z k) * (g x k - g z k) := by
    rw [Finset.mul_sum, ← Finset.sum_sub_distrib]
    exact Finset.sum_congr rfl fun k _ => by ring
  have e2 : (∑ k, (p k - z k) * (x k - p k)) =
      (1 / 2) * (∑ k, (x k - z k) ^ 2) - (1 / 2) * (∑ k, (p k - z k) ^ 2) - (1 / 2) * ∑ k, (p k - x k) ^ 2 := by
    rw [Finset.mul_sum, Finset.mul_sum, Finset.mul_sum, ← Finset.sum_sub_distrib, ← Finset.sum_sub_distrib]
    exact Finset.sum_congr rfl fun k _ => by ring
  have e3 : (∑ k, (p k - z k) * (g x k - g z k)) =
      (∑ k, (x k - z k) * (g x k - g z k)) - ∑ k, (x k - p k) * (g x k - g z k) := by
    rw [← Finset.sum_sub_distrib]
    exact Finset.sum_congr rfl fun k _ => by ring
  have e4 : (∑ k, (x k - p k) ^ 2) = ∑ k, (p k - x k) ^ 2 := Finset.sum_congr rfl fun k _ => by ring
  rw [e1, e2, e3] at h
  rw [e4] at h2
  linarith

/-- A loop stopped by the first short step ends before any iteration limit, when the steps vanish. -/
theorem exists_short_step {s : ℕ → ι → ℝ} (h : Tendsto (fun k => sqDist (s (k + 1)) (s k)) atTop (𝓝 0)) {tol : ℝ}
    (ht : 0 < tol) : ∃ k, Real.sqrt (∑ i, (s k i - s (k + 1) i) ^ 2) < tol := by
  have h2 := h.sqrt
  rw [Real.sqrt_zero] at h2
  obtain ⟨k, hk⟩ := ((tendsto_order.mp h2).2 tol ht).exists
  refine ⟨k, ?_⟩
  have e : (∑ i, (s k i - s (k + 1) i) ^ 2) = sqDist (s (k + 1)) (s k) :=
    Finset.sum_congr rfl fun i _ => by ring
  rw [e]
  exact hk

/-! ### Matrices -/

section matrix

open Matrix

variable {n : Type*} [Fintype n]

/-- A matrix as an array over the pairs of indices. -/
def flat (A : Matrix n n ℝ) : n × n → ℝ := fun e => A e.1 e.2

/-- And back. -/
def unflat (u : n × n → ℝ) : Matrix n n ℝ := Matrix.of fun i j => u (i, j)

theorem flat_unflat (u : n × n → ℝ) : flat (unflat u) = u := rfl

theorem unflat_flat (A : Matrix n n ℝ) : unflat (flat A) = A := rfl

theorem sqDist_flat (A B : Matrix n n ℝ) : sqDist (flat A) (flat B) = frobSq (A - B) := by
  unfold sqDist frobSq flat
  rw [Fintype.sum_prod_type]
  rfl

theorem flat_continuous : Continuous (flat : Matrix n n ℝ → n × n → ℝ) :=
  continuous_pi fun e => continuous_id.matrix_elem e.1 e.2

theorem unflat_continuous : Continuous (unflat : (n × n → ℝ) → Matrix n n ℝ) :=
  continuous_matrix fun i j => continuous_apply (i, j)

/-- `fejer_converges` for matrices. -/
theorem fejer_converges_matrix {step : Matrix n n ℝ → Matrix n n ℝ} {P : Matrix n n ℝ → Prop} {c : ℝ} (hc : 0 < c)
    (hcont : Continuous step) (hP : ∀ x, P (step x))
    (hf : ∀ x z, P x → step z = z → frobSq (step x - z) ≤ frobSq (x - z) - c * frobSq (step x - x))
    {z0 : Matrix n n ℝ} (hz0 : step z0 = z0) {x0 : Matrix n n ℝ} (hx0 : P x0) :
    ∃ a, step a = a ∧ Tendsto (fun k => step^[k] x0) atTop (𝓝 a) ∧
      Tendsto (fun k => frobSq (step^[k + 1] x0 - step^[k] x0)) atTop (𝓝 0) := by
  set st : (n × n → ℝ) → n × n → ℝ := fun u => flat (step (unflat u)) with hst
  have hiter : ∀ k, st^[k] (flat x0) = flat (step^[k] x0) := by
    intro k
    induction k with
    | zero => rfl
    | succ k ih => rw [Function.iterate_succ_apply', Function.iterate_succ_apply', ih]; rfl
  obtain ⟨a, ha, hlim, hres⟩ := fejer_converges (step := st) (P := fun u => P (unflat u)) hc
    (flat_continuous.comp (hcont.comp unflat_continuous)) (fun x => hP _)
    (fun x z hx hz => by
      have h := hf (unflat x) (unflat z) hx (by
        have := congrArg unflat hz
        rwa [hst] at this)
      rw [← sqDist_flat, ← sqDist_flat, ← sqDist_flat] at h
      exact h)
    (z0 := flat z0) (by rw [hst]; simp only [unflat_flat, hz0]) (x0 := flat x0) hx0
  refine ⟨unflat a, congrArg unflat ha, ?_, ?_⟩
  · refine ((unflat_continuous.tendsto a).comp hlim).congr fun k => ?_
    simp only [Function.comp, hiter, unflat_flat]
  · refine hres.congr fun k => ?_
    rw [hiter, hiter, sqDist_flat]

/-- `prox_grad_fejer` for matrices: `J` is firmly non-expansive. -/
theorem prox_grad_fejer_matrix {J : Matrix n n ℝ → Matrix n n ℝ}
    (hJ : ∀ X Y, 0 ≤ frobInner (J X - J Y) ((X - J X) - (Y - J Y))) {gamma c : ℝ} {x z gx gz : Matrix n n ℝ}
    (hg : ∀ r, 2 * gamma * frobInner r (gx - gz) ≤ c / 2 * frobSq r + 2 * gamma * frobInner (x - z) (gx - gz))
    (hz : J (z - gamma • gz) = z) :
    frobSq (J (x - gamma • gx) - z) ≤ frobSq (x - z) - (1 - c / 2) * frobSq (J (x - gamma • gx) - x) := by
  have h := hJ (x - gamma • gx) (z - gamma • gz)
  rw [hz] at h
  set p := J (x - gamma • gx) with hp
  have h2 := hg (x - p)
  have e1 : x - gamma • gx - p - (z - gamma • gz - z) = (x - p) - gamma • (gx - gz) := by
    rw [smul_sub]; abel
  rw [e1, frobInner_sub_right, frobInner_smul_right] at h
  have e2 : frobSq (x - z) = frobSq (p - z) + 2 * frobInner (p - z) (x - p) + frobSq (x - p) := by
    rw [← frobSq_add]; congr 1; abel
  have e3 : frobInner (x - z) (gx - gz) = frobInner (p - z) (gx - gz) + frobInner (x - p) (gx - gz) := by
    rw [← frobInner_add_left]; congr 1; abel
  have e4 : frobSq (p - x) = frobSq (x - p) := by
    unfold frobSq
    exact Finset.sum_congr rfl fun i _ => Finset.sum_congr rfl fun j _ => by
      rw [Matrix.sub_apply, Matrix.sub_apply]; ring
  rw [e4]
  rw [e3] at h2
  linarith

end matrix

end Verif.Lemmas
