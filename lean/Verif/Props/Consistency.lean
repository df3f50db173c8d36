import Verif.Lemmas.Consistency
import Verif.Model.Estimators
import Verif.Props.Moments
import Verif.Props.GLExist
import Verif.Props.TimeConv
import Verif.Props.Screen
import Mathlib.Probability.StrongLaw
import Mathlib.Probability.Moments.Covariance
import Mathlib.Probability.IdentDistrib
import Mathlib.Probability.Independence.InfinitePi
import Mathlib.Probability.Distributions.Gaussian.Real

/-! Property theorems C211 and C212: with more data the estimates approach the precision matrices of the population. -/

namespace Verif.Props

open Verif.Model Verif.Spec Verif.Lemmas Matrix Filter Topology MeasureTheory ProbabilityTheory

set_option autoImplicit false
set_option linter.unusedSectionVars false

variable {n : Type*} [Fintype n] [DecidableEq n] {k T : ℕ}

/-! ### One network -/

theorem gl_cov_close {S Sg X : Matrix n n ℝ} {alpha : ℝ} (hal : 0 ≤ alpha) (hS : S.IsSymm)
    (hX : IsMin (PD n) (glObjective S alpha) X) :
    froNorm (X⁻¹ - Sg) ≤ froNorm (S - Sg) + Fintype.card n * alpha := by
  obtain ⟨hd, ho, -⟩ := (C193_optimum_iff hal hS hX.1).mp (gl_uniqueMin hS hal hX)
  have h1 : froNorm (X⁻¹ - S) ≤ Fintype.card n * alpha := by
    refine froNorm_le_of_entries hal fun i j => ?_
    rw [Matrix.sub_apply]
    by_cases hij : i = j
    · subst hij; rw [hd, sub_self, abs_zero]; exact hal
    · exact ho i j hij
  have e : X⁻¹ - Sg = (S - Sg) + (X⁻¹ - S) := by abel
  rw [e]
  exact (froNorm_triangle _ _).trans (by linarith)

/-- C211 (error). The error of the fitted precision is at most a constant of the population times the error of the sample
covariance plus `alpha` (times the number of variables), once these are small. -/
theorem C211_error_bound {S Sg X : Matrix n n ℝ} {alpha : ℝ} (hal : 0 ≤ alpha) (hS : S.IsSymm) (hSg : Sg.PosDef)
    (hX : IsMin (PD n) (glObjective S alpha) X)
    (hs : trace Sg⁻¹ * (froNorm (S - Sg) + Fintype.card n * alpha) ≤ 1 / 2) :
    froNorm (X - Sg⁻¹) ≤ 2 * trace Sg⁻¹ ^ 2 * (froNorm (S - Sg) + Fintype.card n * alpha) :=
  (inverse_close hX.1 hSg (gl_cov_close hal hS hX) hs).1

/-- C211 (edges). Every edge of the population precision stronger than that bound is found, with its sign. -/
theorem C211_edges {S Sg X : Matrix n n ℝ} {alpha : ℝ} (hal : 0 ≤ alpha) (hS : S.IsSymm) (hSg : Sg.PosDef)
    (hX : IsMin (PD n) (glObjective S alpha) X)
    (hs : trace Sg⁻¹ * (froNorm (S - Sg) + Fintype.card n * alpha) ≤ 1 / 2) (i j : n)
    (hij : 2 * trace Sg⁻¹ ^ 2 * (froNorm (S - Sg) + Fintype.card n * alpha) < |Sg⁻¹ i j|) :
    0 < Sg⁻¹ i j * X i j := by
  have h1 := (abs_entry_le_froNorm (X - Sg⁻¹) i j).trans (C211_error_bound hal hS hSg hX hs)
  rw [Matrix.sub_apply] at h1
  have h2 := h1.trans_lt hij
  rcases lt_trichotomy (Sg⁻¹ i j) 0 with h | h | h
  · rw [abs_of_neg h, abs_lt] at h2
    exact mul_pos_of_neg_of_neg h (by linarith [h2.2])
  · rw [h, abs_zero] at h2
    exact absurd (abs_nonneg _) (not_le.mpr h2)
  · rw [abs_of_pos h, abs_lt] at h2
    exact mul_pos h (by linarith [h2.1])

/-- C211 (latent variables). The observed precision `K - L` of the latent variable graphical lasso has the same error, for
every `tau`. -/
theorem C211_latent {S Sg K L : Matrix n n ℝ} (hS : S.IsSymm) (hSg : Sg.PosDef) {e : ℝ} (he : 0 ≤ e) (he1 : e ≤ 1)
    {alpha tau : ℝ} (hal : 0 ≤ alpha)
    (hX : IsMin (LatentFeasible n) (latentObjective S alpha tau (diagPen e)) (K, L))
    (hs : trace Sg⁻¹ * (froNorm (S - Sg) + Fintype.card n * alpha) ≤ 1 / 2) :
    froNorm (K - L - Sg⁻¹) ≤ 2 * trace Sg⁻¹ ^ 2 * (froNorm (S - Sg) + Fintype.card n * alpha) := by
  obtain ⟨hd, ho, -, -⟩ := C193_latent hS he hal hX
  have h1 : froNorm ((K - L)⁻¹ - S) ≤ Fintype.card n * alpha := by
    refine froNorm_le_of_entries hal fun i j => ?_
    rw [Matrix.sub_apply]
    by_cases hij : i = j
    · subst hij
      rw [hd, add_sub_cancel_left, abs_of_nonneg (mul_nonneg he hal)]
      exact mul_le_of_le_one_left hal he1
    · exact ho i j hij
  have e1 : (K - L)⁻¹ - Sg = (S - Sg) + ((K - L)⁻¹ - S) := by abel
  refine (inverse_close hX.1.1 hSg ?_ hs).1
  rw [e1]
  exact (froNorm_triangle _ _).trans (by linarith)

theorem froNorm_continuous : Continuous (froNorm : Matrix n n ℝ → ℝ) := by
  unfold froNorm
  refine Real.continuous_sqrt.comp (continuous_finsetSum _ fun i _ => continuous_finsetSum _ fun j _ => ?_)
  exact (continuous_apply_apply i j).pow 2

theorem tendsto_froNorm {f : ℕ → Matrix n n ℝ} {A : Matrix n n ℝ} (h : Tendsto f atTop (𝓝 A)) :
    Tendsto (fun m => froNorm (f m - A)) atTop (𝓝 0) := by
  have h1 := (froNorm_continuous (n := n)).continuousAt.tendsto.comp (h.sub_const A)
  have e : froNorm (A - A) = 0 := by rw [sub_self]; simp [froNorm]
  rw [e] at h1
  exact h1

theorem tendsto_of_froNorm {f : ℕ → Matrix n n ℝ} {A : Matrix n n ℝ}
    (h : Tendsto (fun m => froNorm (f m - A)) atTop (𝓝 0)) : Tendsto f atTop (𝓝 A) := by
  refine tendsto_pi_nhds.mpr fun i => tendsto_pi_nhds.mpr fun j => ?_
  rw [tendsto_iff_norm_sub_tendsto_zero]
  refine squeeze_zero (fun m => norm_nonneg _) (fun m => ?_) h
  rw [Real.norm_eq_abs]
  exact abs_entry_le_froNorm (f m - A) i j

/-- C211 (limit). When the sample covariances approach `Sg` and `alpha` goes to zero, eventually the optimum is as close to
`Sg⁻¹` as desired and has every edge of `Sg⁻¹` with its sign. -/
theorem C211_limit [Nonempty n] {S : ℕ → Matrix n n ℝ} {Sg : Matrix n n ℝ} (hS : ∀ m, (S m).IsSymm) (hSg : Sg.PosDef)
    (hlim : Tendsto S atTop (𝓝 Sg)) {alpha : ℕ → ℝ} (hal : ∀ m, 0 < alpha m) (hal0 : Tendsto alpha atTop (𝓝 0))
    {ε : ℝ} (hε : 0 < ε) :
    ∀ᶠ m in atTop, (S m).PosDef ∧ ∃ X, UniqueMin (PD n) (glObjective (S m) (alpha m)) X ∧ CloseMat ε X Sg⁻¹ ∧
      ∀ i j, Sg⁻¹ i j ≠ 0 → 0 < Sg⁻¹ i j * X i j := by
  have hd : Tendsto (fun m => froNorm (S m - Sg) + Fintype.card n * alpha m) atTop (𝓝 0) := by
    have := (tendsto_froNorm hlim).add (hal0.const_mul (Fintype.card n : ℝ))
    rwa [mul_zero, add_zero] at this
  have h1 : ∀ᶠ m in atTop, trace Sg⁻¹ * (froNorm (S m - Sg) + Fintype.card n * alpha m) ≤ 1 / 2 := by
    have := hd.const_mul (trace Sg⁻¹)
    rw [mul_zero] at this
    exact (this.eventually_lt_const (by norm_num : (0 : ℝ) < 1 / 2)).mono fun m h => h.le
  have h2 : ∀ {c : ℝ}, 0 < c → ∀ᶠ m in atTop,
      2 * trace Sg⁻¹ ^ 2 * (froNorm (S m - Sg) + Fintype.card n * alpha m) < c := by
    intro c hc
    have := hd.const_mul (2 * trace Sg⁻¹ ^ 2)
    rw [mul_zero] at this
    exact this.eventually_lt_const hc
  have h3 : ∀ᶠ m in atTop, ∀ i j, Sg⁻¹ i j ≠ 0 →
      2 * trace Sg⁻¹ ^ 2 * (froNorm (S m - Sg) + Fintype.card n * alpha m) < |Sg⁻¹ i j| := by
    refine eventually_all.mpr fun i => eventually_all.mpr fun j => ?_
    by_cases h : Sg⁻¹ i j = 0
    · exact Eventually.of_forall fun m hm => absurd h hm
    · exact (h2 (abs_pos.mpr h)).mono fun m hm _ => hm
  filter_upwards [h1, h2 hε, h3] with m hm1 hm2 hm3
  have htr : 0 ≤ trace Sg⁻¹ := hSg.inv.posSemidef.trace_nonneg
  have hpd : (S m).PosDef := by
    refine posDef_of_close (hS m) hSg (le_trans (mul_le_mul_of_nonneg_left ?_ htr) hm1)
    have := (hal m).le
    have : (0 : ℝ) ≤ Fintype.card n * alpha m := by positivity
    linarith
  obtain ⟨X, hX⟩ := gl_exists_min hpd.posSemidef (fun i => hpd.diag_pos) (hal m)
  refine ⟨hpd, X, gl_uniqueMin (hS m) (hal m).le hX, fun i j => ?_, fun i j hij =>
    C211_edges (hal m).le (hS m) hSg hX hm1 i j (hm3 i j hij)⟩
  have h := (abs_entry_le_froNorm (X - Sg⁻¹) i j).trans (C211_error_bound (hal m).le (hS m) hSg hX hm1)
  rw [Matrix.sub_apply] at h
  linarith

/-- C211 (fixed penalty). With a fixed `alpha` the limit is not the population precision: when that has an edge, it is not
even the optimum for the population covariance itself. -/
theorem C211_fixed_alpha {Sg : Matrix n n ℝ} (hSg : Sg.PosDef) {alpha : ℝ} (hal : 0 < alpha) {i j : n} (hij : i ≠ j)
    (he : Sg⁻¹ i j ≠ 0) : ¬ IsMin (PD n) (glObjective Sg alpha) Sg⁻¹ := by
  intro h
  have hs := hSg.isSymm'
  obtain ⟨-, -, h3⟩ := (C193_optimum_iff hal.le hs hSg.inv).mp (gl_uniqueMin hs hal.le h)
  rw [nonsing_inv_nonsing_inv _ (isUnit_iff_ne_zero.mpr hSg.det_pos.ne')] at h3
  rcases lt_or_gt_of_ne he with h4 | h4
  · have := (h3 i j hij).2 h4; linarith
  · have := (h3 i j hij).1 h4; linarith

/-! ### Sampled data -/

/-- Rows drawn pairwise independently from one distribution with finite second moments. -/
structure IidRows {Ω : Type*} [MeasurableSpace Ω] (μ : Measure Ω) (x : ℕ → Ω → n → ℝ) : Prop where
  indep : ∀ i j, i ≠ j → x i ⟂ᵢ[μ] x j
  ident : ∀ i, IdentDistrib (x i) (x 0) μ μ
  sq : ∀ a, MemLp (fun ω => x 0 ω a) 2 μ

/-- The matrix the empirical covariances estimate: second moments when the data are assumed centered, otherwise the
covariances. -/
noncomputable def popCov {Ω : Type*} [MeasurableSpace Ω] (μ : Measure Ω) (y : Ω → n → ℝ) (centered : Bool) :
    Matrix n n ℝ :=
  Matrix.of fun a b => if centered then ∫ ω, y ω a * y ω b ∂μ else cov[fun ω => y ω a, fun ω => y ω b; μ]

theorem empCov_isSymm {N : ℕ} (X : Fin N → n → ℝ) (R : Finset (Fin N)) (centered : Bool) :
    (empCov X R centered).IsSymm := by
  ext a b
  cases centered <;> simp [empCov, mul_comm]

theorem empCov_split {N : ℕ} (hN : 0 < N) (x : ℕ → n → ℝ) (centered : Bool) (a b : n) :
    empCov (fun i : Fin N => x i) Finset.univ centered a b = (∑ i ∈ Finset.range N, x i a * x i b) / N
      - if centered then 0 else ((∑ i ∈ Finset.range N, x i a) / N) * ((∑ i ∈ Finset.range N, x i b) / N) := by
  have hN' : (N : ℝ) ≠ 0 := by exact_mod_cast hN.ne'
  have e : ∀ f : ℕ → ℝ, ∑ i : Fin N, f i = ∑ i ∈ Finset.range N, f i := fun f => Fin.sum_univ_eq_sum_range f N
  cases centered
  · simp only [empCov, Bool.false_eq_true, if_false, Matrix.of_apply, rowMean, Finset.card_univ, Fintype.card_fin]
    rw [e fun i => x i a, e fun i => x i b]
    set A := ∑ i ∈ Finset.range N, x i a with hA
    set B := ∑ i ∈ Finset.range N, x i b with hB
    rw [e fun i => (x i a - A / N) * (x i b - B / N)]
    have h1 : ∀ i, (x i a - A / N) * (x i b - B / N) = x i a * x i b - x i a * (B / N) - A / N * x i b + A / N * (B / N) :=
      fun i => by ring
    simp only [h1, Finset.sum_add_distrib, Finset.sum_sub_distrib, ← Finset.sum_mul, ← Finset.mul_sum, Finset.sum_const,
      Finset.card_range, nsmul_eq_mul]
    rw [← hA, ← hB]
    field_simp
    ring
  · simp only [empCov, if_true, Matrix.of_apply, Finset.card_univ, Fintype.card_fin, sub_zero]
    rw [e fun i => x i a * x i b]

/-- C211 (data). The empirical covariance `fit` computes from the first `N` rows approaches the population matrix almost
surely. -/
theorem C211_data {Ω : Type*} [MeasurableSpace Ω] {μ : Measure Ω} [IsProbabilityMeasure μ] {x : ℕ → Ω → n → ℝ}
    (h : IidRows μ x) (centered : Bool) :
    ∀ᵐ ω ∂μ, Tendsto (fun N => empCov (fun i : Fin N => x i ω) Finset.univ centered) atTop
      (𝓝 (popCov μ (x 0) centered)) := by
  have hm1 : ∀ a : n, ∀ᵐ ω ∂μ, Tendsto (fun N : ℕ => (∑ i ∈ Finset.range N, x i ω a) / N) atTop
      (𝓝 (∫ ω, x 0 ω a ∂μ)) := by
    intro a
    have hmeas : Measurable fun v : n → ℝ => v a := measurable_pi_apply a
    refine strong_law_ae_real (fun i ω => x i ω a) ((h.sq a).integrable (by norm_num)) ?_ fun i => (h.ident i).comp hmeas
    intro i j hij
    exact (h.indep i j hij).comp hmeas hmeas
  have hm2 : ∀ a b : n, ∀ᵐ ω ∂μ, Tendsto (fun N : ℕ => (∑ i ∈ Finset.range N, x i ω a * x i ω b) / N) atTop
      (𝓝 (∫ ω, x 0 ω a * x 0 ω b ∂μ)) := by
    intro a b
    have hmeas : Measurable fun v : n → ℝ => v a * v b := (measurable_pi_apply a).mul (measurable_pi_apply b)
    refine strong_law_ae_real (fun i ω => x i ω a * x i ω b) ((h.sq a).integrable_mul (h.sq b)) ?_
      fun i => (h.ident i).comp hmeas
    intro i j hij
    exact (h.indep i j hij).comp hmeas hmeas
  filter_upwards [ae_all_iff.mpr hm1, ae_all_iff.mpr fun a => ae_all_iff.mpr (hm2 a)] with ω h1 h2
  refine tendsto_pi_nhds.mpr fun a => tendsto_pi_nhds.mpr fun b => ?_
  have hsplit : (fun N => empCov (fun i : Fin N => x i ω) Finset.univ centered a b) =ᶠ[atTop]
      fun N : ℕ => (∑ i ∈ Finset.range N, x i ω a * x i ω b) / N
        - if centered then 0 else ((∑ i ∈ Finset.range N, x i ω a) / N) * ((∑ i ∈ Finset.range N, x i ω b) / N) := by
    filter_upwards [eventually_gt_atTop 0] with N hN
    exact empCov_split hN (fun i => x i ω) centered a b
  refine Tendsto.congr' hsplit.symm ?_
  cases centered
  · have e : popCov μ (x 0) false a b = (∫ ω, x 0 ω a * x 0 ω b ∂μ) - (∫ ω, x 0 ω a ∂μ) * ∫ ω, x 0 ω b ∂μ := by
      simp only [popCov, Matrix.of_apply, Bool.false_eq_true, if_false]
      rw [covariance_eq_sub (h.sq a) (h.sq b)]
      rfl
    rw [e]
    simpa using (h2 a b).sub ((h1 a).mul (h1 b))
  · simpa [popCov] using h2 a b

/-- C211 (optimum of sampled data). Almost surely, with `alpha` going to zero, the optimum for the first `N` rows is
eventually as close to the population precision as desired and has every edge of it. -/
theorem C211_consistent [Nonempty n] {Ω : Type*} [MeasurableSpace Ω] {μ : Measure Ω} [IsProbabilityMeasure μ]
    {x : ℕ → Ω → n → ℝ} (h : IidRows μ x) (centered : Bool) (hpd : (popCov μ (x 0) centered).PosDef) :
    ∀ᵐ ω ∂μ, ∀ alpha : ℕ → ℝ, (∀ N, 0 < alpha N) → Tendsto alpha atTop (𝓝 0) → ∀ ε, 0 < ε → ∀ᶠ N in atTop,
      ∃ X, UniqueMin (PD n) (glObjective (empCov (fun i : Fin N => x i ω) Finset.univ centered) (alpha N)) X ∧
        CloseMat ε X (popCov μ (x 0) centered)⁻¹ ∧
        ∀ i j, (popCov μ (x 0) centered)⁻¹ i j ≠ 0 → 0 < (popCov μ (x 0) centered)⁻¹ i j * X i j := by
  filter_upwards [C211_data h centered] with ω hω alpha hal hal0 ε hε
  exact (C211_limit (fun N => empCov_isSymm _ _ _) hpd hω hal hal0 hε).mono fun N hN => hN.2

/-- C211 (calls). The same for what the calls return, at a constant penalty, with tolerances small enough and iterations
enough: for every initial matrix. -/
theorem C211_calls [Nonempty n] {Ω : Type*} [MeasurableSpace Ω] {μ : Measure Ω} [IsProbabilityMeasure μ]
    {x : ℕ → Ω → n → ℝ} (h : IidRows μ x) (centered : Bool) (hpd : (popCov μ (x 0) centered).PosDef)
    {eigh : Eigh n} (he : IsEighOracle eigh) {rho : ℝ} (hr : 0 < rho) {ro : RhoOptions} (hi : ro.tauInc = 1)
    (hd : ro.tauDec = 1) :
    ∀ᵐ ω ∂μ, ∀ alpha : ℕ → ℝ, (∀ N, 0 < alpha N) → Tendsto alpha atTop (𝓝 0) → ∀ ε, 0 < ε → ∀ᶠ N in atTop,
      ∀ Z0 : Matrix n n ℝ, Z0.IsSymm → ∃ δ, 0 < δ ∧ ∃ M, ∀ tol rtol, 0 ≤ tol → tol ≤ δ → 0 ≤ rtol → rtol ≤ δ →
        ∀ m, M ≤ m → ∀ rh rn, ∃ Z S hist it w,
          graphicalLasso eigh (⟨empCov (fun i : Fin N => x i ω) Finset.univ centered, alpha N, 1, tol, rtol, ro⟩ : GLArgs n)
            Z0 rho m rh rn = .ok Z S hist it w ∧
          CloseMat ε Z (popCov μ (x 0) centered)⁻¹ := by
  filter_upwards [C211_data h centered] with ω hω alpha hal hal0 ε hε
  filter_upwards [C211_limit (fun N => empCov_isSymm _ _ _) hpd hω hal hal0 (half_pos hε)] with N hN Z0 hZ0
  obtain ⟨hSpd, X, hX, hclose, -⟩ := hN
  have hcp : ConstPenalty eigh (⟨empCov (fun i : Fin N => x i ω) Finset.univ centered, alpha N, 1, 0, 0, ro⟩ : GLArgs n)
      Z0 rho :=
    ⟨he, empCov_isSymm _ _ _, (hal N).le, rfl, hi, hd, hZ0, hr⟩
  obtain ⟨X', hX', -, hret⟩ := C104_solves hcp hSpd.posSemidef (fun i => hSpd.diag_pos) (hal N)
  have hXX : X' = X := by
    by_contra hne
    have h1 := hX.2 X' hX'.1 hne
    exact absurd (hX'.isMin.2 X hX.1) (not_le.mpr h1)
  subst hXX
  obtain ⟨δ, hδ, M, hM⟩ := hret (ε / 2) (half_pos hε)
  refine ⟨δ, hδ, M, fun tol rtol h1 h2 h3 h4 m hm rh rn => ?_⟩
  obtain ⟨Z, S, hist, it, w, hcall, hZ⟩ := hM tol rtol h1 h2 h3 h4 m hm rh rn
  refine ⟨Z, S, hist, it, w, hcall, fun i j => ?_⟩
  have h5 := hZ i j
  have h6 := hclose i j
  rw [abs_le] at h5 h6 ⊢
  constructor <;> linarith [h5.1, h5.2, h6.1, h6.2]

/-! ### Networks that change in time -/

/-- The common core: what a penalised fit of a sequence keeps of the population precisions. -/
theorem sequence_error [Nonempty n] {S Sg R : Fin k → Matrix n n ℝ} {w : Fin k → ℝ} (hS : ∀ t, (S t).IsSymm)
    (hSg : ∀ t, (Sg t).PosDef) (hw : ∀ t, 0 < w t) (hR : ∀ t, (R t).PosDef)
    (hs : ∀ t, trace (Sg t)⁻¹ * froNorm (S t - Sg t) ≤ 1 / 2) {p q : ℝ} (hp : 0 ≤ p)
    (h : (∀ t, (S t).PosDef) → negLogLik S w R + p ≤ negLogLik S w (fun t => (S t)⁻¹) + q) (t : Fin k) :
    froNorm (R t - (Sg t)⁻¹) ≤ 2 * trace (Sg t)⁻¹ * (Real.sqrt (q / w t) * (2 + Real.sqrt (q / w t)))
      + 2 * trace (Sg t)⁻¹ ^ 2 * froNorm (S t - Sg t) := by
  have hSp : ∀ t, (S t).PosDef := fun t => posDef_of_close (hS t) (hSg t) (hs t)
  have h1 := penalised_close hSp hw hR hp (h hSp) t
  have hu : IsUnit (S t).det := isUnit_iff_ne_zero.mpr (hSp t).det_pos.ne'
  obtain ⟨h2, h3⟩ := inverse_close (X := (S t)⁻¹) (hSp t).inv (hSg t) (d := froNorm (S t - Sg t))
    (by rw [nonsing_inv_nonsing_inv _ hu]) (hs t)
  have e : R t - (Sg t)⁻¹ = (R t - (S t)⁻¹) + ((S t)⁻¹ - (Sg t)⁻¹) := by abel
  rw [e]
  refine (froNorm_triangle _ _).trans (add_le_add (h1.trans ?_) h2)
  exact mul_le_mul_of_nonneg_right h3 (by positivity)

theorem sequence_limit [Nonempty n] {S : ℕ → Fin k → Matrix n n ℝ} {Sg : Fin k → Matrix n n ℝ}
    (hS : ∀ m t, (S m t).IsSymm) (hSg : ∀ t, (Sg t).PosDef) (hlim : ∀ t, Tendsto (fun m => S m t) atTop (𝓝 (Sg t)))
    {w : ℕ → Fin k → ℝ} (hw : ∀ᶠ m in atTop, ∀ t, 0 < w m t) {R : ℕ → Fin k → Matrix n n ℝ} {p q : ℕ → ℝ}
    (hR : ∀ᶠ m in atTop, (∀ t, (R m t).PosDef) ∧ 0 ≤ p m ∧ ((∀ t, (S m t).PosDef) →
      negLogLik (S m) (w m) (R m) + p m ≤ negLogLik (S m) (w m) (fun t => (S m t)⁻¹) + q m))
    (hq : ∀ t, Tendsto (fun m => q m / w m t) atTop (𝓝 0)) (t : Fin k) :
    Tendsto (fun m => R m t) atTop (𝓝 (Sg t)⁻¹) := by
  refine tendsto_of_froNorm ?_
  have hd : ∀ t, Tendsto (fun m => froNorm (S m t - Sg t)) atTop (𝓝 0) := fun t => tendsto_froNorm (hlim t)
  have hs : ∀ᶠ m in atTop, ∀ t, trace (Sg t)⁻¹ * froNorm (S m t - Sg t) ≤ 1 / 2 := by
    refine eventually_all.mpr fun t => ?_
    have := (hd t).const_mul (trace (Sg t)⁻¹)
    rw [mul_zero] at this
    exact (this.eventually_lt_const (by norm_num : (0 : ℝ) < 1 / 2)).mono fun m h => h.le
  have hup : Tendsto (fun m => 2 * trace (Sg t)⁻¹ * (Real.sqrt (q m / w m t) * (2 + Real.sqrt (q m / w m t)))
      + 2 * trace (Sg t)⁻¹ ^ 2 * froNorm (S m t - Sg t)) atTop (𝓝 0) := by
    have h1 : Tendsto (fun m => Real.sqrt (q m / w m t)) atTop (𝓝 0) := by
      have := (Real.continuous_sqrt.tendsto 0).comp (hq t)
      rwa [Real.sqrt_zero] at this
    have h2 := ((h1.mul (h1.const_add 2)).const_mul (2 * trace (Sg t)⁻¹)).add
      ((hd t).const_mul (2 * trace (Sg t)⁻¹ ^ 2))
    simpa using h2
  refine squeeze_zero' (Eventually.of_forall fun m => froNorm_nonneg _) ?_ hup
  filter_upwards [hw, hR, hs] with m h1 h2 h3
  exact sequence_error (hS m) hSg h1 h2.1 h3 h2.2.1 h2.2.2 t

/-- C212 (error). At every time point the error of the time-varying graphical lasso is bounded by the error of the sample
covariance of that time point, and the square root of the penalties of the sample precisions over the number of samples. -/
theorem C212_error_bound [Nonempty n] {S Sg X : Fin (T + 1) → Matrix n n ℝ} {w : Fin (T + 1) → ℝ}
    (hS : ∀ t, (S t).IsSymm) (hSg : ∀ t, (Sg t).PosDef) (hw : ∀ t, 0 < w t)
    (hs : ∀ t, trace (Sg t)⁻¹ * froNorm (S t - Sg t) ≤ 1 / 2) {alpha beta : ℝ} (hal : 0 ≤ alpha) (hbe : 0 ≤ beta)
    {pen psi : Matrix n n ℝ → ℝ} (hpen : ∀ A, 0 ≤ pen A) (hpsi : ∀ A, 0 ≤ psi A)
    (hX : IsMin (PDSeq (T + 1) n) (timeObjective S w alpha beta pen psi) X) (t : Fin (T + 1)) :
    froNorm (X t - (Sg t)⁻¹) ≤
      2 * trace (Sg t)⁻¹ * (Real.sqrt ((alpha * ∑ t, pen (S t)⁻¹ + beta * ∑ p : Fin T, psi ((S p.succ)⁻¹ - (S p.castSucc)⁻¹)) / w t)
        * (2 + Real.sqrt ((alpha * ∑ t, pen (S t)⁻¹ + beta * ∑ p : Fin T, psi ((S p.succ)⁻¹ - (S p.castSucc)⁻¹)) / w t)))
      + 2 * trace (Sg t)⁻¹ ^ 2 * froNorm (S t - Sg t) := by
  refine sequence_error hS hSg hw hX.1 hs
    (p := alpha * ∑ t, pen (X t) + beta * ∑ p : Fin T, psi (X p.succ - X p.castSucc)) ?_ (fun hp => ?_) t
  · exact add_nonneg (mul_nonneg hal (Finset.sum_nonneg fun _ _ => hpen _))
      (mul_nonneg hbe (Finset.sum_nonneg fun _ _ => hpsi _))
  · have := hX.2 (fun t => (S t)⁻¹) fun t => (hp t).inv
    unfold timeObjective at this
    unfold negLogLik
    linarith

theorem tendsto_inv_of_posDef [Nonempty n] {S : ℕ → Matrix n n ℝ} {Sg : Matrix n n ℝ} (hS : ∀ m, (S m).IsSymm)
    (hSg : Sg.PosDef) (hlim : Tendsto S atTop (𝓝 Sg)) : Tendsto (fun m => (S m)⁻¹) atTop (𝓝 Sg⁻¹) := by
  refine tendsto_of_froNorm ?_
  have hd := tendsto_froNorm hlim
  have hs : ∀ᶠ m in atTop, trace Sg⁻¹ * froNorm (S m - Sg) ≤ 1 / 2 := by
    have := hd.const_mul (trace Sg⁻¹)
    rw [mul_zero] at this
    exact (this.eventually_lt_const (by norm_num : (0 : ℝ) < 1 / 2)).mono fun m h => h.le
  have hup := hd.const_mul (2 * trace Sg⁻¹ ^ 2)
  rw [mul_zero] at hup
  refine squeeze_zero' (Eventually.of_forall fun m => froNorm_nonneg _) ?_ hup
  filter_upwards [hs] with m hm
  have hp := posDef_of_close (hS m) hSg hm
  exact (inverse_close hp.inv hSg (by rw [nonsing_inv_nonsing_inv _ (isUnit_iff_ne_zero.mpr hp.det_pos.ne')]) hm).1

/-- C212 (limit). When every sample covariance approaches its population matrix and the penalties become small against the
numbers of samples (in particular: fixed penalties and growing numbers of samples), the fitted precisions of every time point
approach the population precisions, for every continuous non-negative coupling. -/
theorem C212_limit [Nonempty n] {S : ℕ → Fin (T + 1) → Matrix n n ℝ} {Sg : Fin (T + 1) → Matrix n n ℝ}
    (hS : ∀ m t, (S m t).IsSymm) (hSg : ∀ t, (Sg t).PosDef) (hlim : ∀ t, Tendsto (fun m => S m t) atTop (𝓝 (Sg t)))
    {w : ℕ → Fin (T + 1) → ℝ} (hw : ∀ᶠ m in atTop, ∀ t, 0 < w m t) {alpha beta : ℕ → ℝ} (hal : ∀ m, 0 ≤ alpha m)
    (hbe : ∀ m, 0 ≤ beta m) (ha0 : ∀ t, Tendsto (fun m => alpha m / w m t) atTop (𝓝 0))
    (hb0 : ∀ t, Tendsto (fun m => beta m / w m t) atTop (𝓝 0)) {pen psi : Matrix n n ℝ → ℝ} (hpen : ∀ A, 0 ≤ pen A)
    (hpsi : ∀ A, 0 ≤ psi A) (hpc : Continuous pen) (hsc : Continuous psi) {X : ℕ → Fin (T + 1) → Matrix n n ℝ}
    (hX : ∀ᶠ m in atTop, IsMin (PDSeq (T + 1) n) (timeObjective (S m) (w m) (alpha m) (beta m) pen psi) (X m))
    (t : Fin (T + 1)) : Tendsto (fun m => X m t) atTop (𝓝 (Sg t)⁻¹) := by
  refine sequence_limit hS hSg hlim hw
    (p := fun m => alpha m * ∑ t, pen (X m t) + beta m * ∑ p : Fin T, psi (X m p.succ - X m p.castSucc))
    (q := fun m => alpha m * ∑ t, pen (S m t)⁻¹ + beta m * ∑ p : Fin T, psi ((S m p.succ)⁻¹ - (S m p.castSucc)⁻¹))
    (hX.mono fun m hm => ⟨hm.1, ?_, fun hp => ?_⟩) (fun t => ?_) t
  · exact add_nonneg (mul_nonneg (hal m) (Finset.sum_nonneg fun _ _ => hpen _))
      (mul_nonneg (hbe m) (Finset.sum_nonneg fun _ _ => hpsi _))
  · have := hm.2 (fun t => (S m t)⁻¹) fun t => (hp t).inv
    unfold timeObjective at this
    unfold negLogLik
    linarith
  · have hi : ∀ t, Tendsto (fun m => (S m t)⁻¹) atTop (𝓝 (Sg t)⁻¹) := fun t =>
      tendsto_inv_of_posDef (fun m => hS m t) (hSg t) (hlim t)
    have h1 : Tendsto (fun m => ∑ t, pen (S m t)⁻¹) atTop (𝓝 (∑ t, pen (Sg t)⁻¹)) :=
      tendsto_finsetSum _ fun t _ => (hpc.tendsto _).comp (hi t)
    have h2 : Tendsto (fun m => ∑ p : Fin T, psi ((S m p.succ)⁻¹ - (S m p.castSucc)⁻¹)) atTop
        (𝓝 (∑ p : Fin T, psi ((Sg p.succ)⁻¹ - (Sg p.castSucc)⁻¹))) :=
      tendsto_finsetSum _ fun p _ => (hsc.tendsto _).comp ((hi _).sub (hi _))
    have h3 := ((ha0 t).mul h1).add ((hb0 t).mul h2)
    rw [zero_mul, zero_mul, add_zero] at h3
    refine h3.congr fun m => ?_
    ring

/-- C212 (kernel). The same for the kernel version, with a fixed kernel and weights growing without bound. -/
theorem C212_kernel [Nonempty n] {S : ℕ → Fin k → Matrix n n ℝ} {Sg : Fin k → Matrix n n ℝ}
    (hS : ∀ m t, (S m t).IsSymm) (hSg : ∀ t, (Sg t).PosDef) (hlim : ∀ t, Tendsto (fun m => S m t) atTop (𝓝 (Sg t)))
    {w : ℕ → Fin k → ℝ} (hw : ∀ t, Tendsto (fun m => w m t) atTop atTop) {alpha : ℝ} (hal : 0 ≤ alpha)
    {kernel : Fin k → Fin k → ℝ} (hk : ∀ s t, s < t → 0 ≤ kernel s t) {pen psi : Matrix n n ℝ → ℝ}
    (hpen : ∀ A, 0 ≤ pen A) (hpsi : ∀ A, 0 ≤ psi A) (hpc : Continuous pen) (hsc : Continuous psi)
    {X : ℕ → Fin k → Matrix n n ℝ}
    (hX : ∀ᶠ m in atTop, IsMin (PDSeq k n) (kernelObjective (S m) (w m) alpha kernel pen psi) (X m)) (t : Fin k) :
    Tendsto (fun m => X m t) atTop (𝓝 (Sg t)⁻¹) := by
  have hnn : ∀ K : Fin k → Matrix n n ℝ, 0 ≤ kernelCoupling kernel psi K := fun K =>
    Finset.sum_nonneg fun s _ => Finset.sum_nonneg fun t _ => by
      split_ifs with h
      · exact mul_nonneg (hk s t h) (hpsi _)
      · exact le_rfl
  refine sequence_limit hS hSg hlim (eventually_all.mpr fun t => (hw t).eventually_gt_atTop 0)
    (p := fun m => alpha * ∑ t, pen (X m t) + kernelCoupling kernel psi (X m))
    (q := fun m => alpha * ∑ t, pen (S m t)⁻¹ + kernelCoupling kernel psi (fun t => (S m t)⁻¹))
    (hX.mono fun m hm => ⟨hm.1, ?_, fun hp => ?_⟩) (fun t => ?_) t
  · exact add_nonneg (mul_nonneg hal (Finset.sum_nonneg fun _ _ => hpen _)) (hnn _)
  · have := hm.2 (fun t => (S m t)⁻¹) fun t => (hp t).inv
    unfold kernelObjective at this
    linarith
  · have hi : ∀ t, Tendsto (fun m => (S m t)⁻¹) atTop (𝓝 (Sg t)⁻¹) := fun t =>
      tendsto_inv_of_posDef (fun m => hS m t) (hSg t) (hlim t)
    have h1 : Tendsto (fun m => ∑ t, pen (S m t)⁻¹) atTop (𝓝 (∑ t, pen (Sg t)⁻¹)) :=
      tendsto_finsetSum _ fun t _ => (hpc.tendsto _).comp (hi t)
    have h2 : Tendsto (fun m => kernelCoupling kernel psi (fun t => (S m t)⁻¹)) atTop
        (𝓝 (kernelCoupling kernel psi (fun t => (Sg t)⁻¹))) := by
      unfold kernelCoupling
      refine tendsto_finsetSum _ fun s _ => tendsto_finsetSum _ fun t _ => ?_
      by_cases h : s < t
      · simp only [if_pos h]
        exact ((hsc.tendsto _).comp ((hi _).sub (hi _))).const_mul _
      · simp only [if_neg h]
        exact tendsto_const_nhds
    exact ((h1.const_mul alpha).add h2).div_atTop (hw t)

/-- C212 (latent variables). The observed precisions `K_t - L_t` of the latent variable time-varying graphical lasso approach
the population precisions, for every `tau` and `eta`. -/
theorem C212_latent [Nonempty n] {S : ℕ → Fin (T + 1) → Matrix n n ℝ} {Sg : Fin (T + 1) → Matrix n n ℝ}
    (hS : ∀ m t, (S m t).IsSymm) (hSg : ∀ t, (Sg t).PosDef) (hlim : ∀ t, Tendsto (fun m => S m t) atTop (𝓝 (Sg t)))
    {w : ℕ → Fin (T + 1) → ℝ} (hw : ∀ t, Tendsto (fun m => w m t) atTop atTop) {alpha tau beta eta : ℝ} (hal : 0 ≤ alpha)
    (hta : 0 ≤ tau) (hbe : 0 ≤ beta) (het : 0 ≤ eta) {pen psi phi : Matrix n n ℝ → ℝ}
    (hpen : ∀ A, 0 ≤ pen A) (hpsi : ∀ A, 0 ≤ psi A) (hphi : ∀ A, 0 ≤ phi A) (hpc : Continuous pen) (hsc : Continuous psi)
    {K L : ℕ → Fin (T + 1) → Matrix n n ℝ}
    (hX : ∀ᶠ m in atTop, IsMin (LatentSeqFeasible (T + 1) n)
      (latentTimeObjective (S m) (w m) alpha tau beta eta pen psi phi) (K m, L m)) (t : Fin (T + 1)) :
    Tendsto (fun m => K m t - L m t) atTop (𝓝 (Sg t)⁻¹) := by
  have hch : ∀ {f : Matrix n n ℝ → ℝ}, (∀ A, 0 ≤ f A) → ∀ K : Fin (T + 1) → Matrix n n ℝ, 0 ≤ chainCoupling f K :=
    fun hf K => Finset.sum_nonneg fun _ _ => hf _
  refine sequence_limit (R := fun m t => K m t - L m t) hS hSg hlim
    (eventually_all.mpr fun t => (hw t).eventually_gt_atTop 0)
    (p := fun m => alpha * ∑ t, pen (K m t) + tau * ∑ t, trace (L m t) + beta * chainCoupling psi (K m)
      + eta * chainCoupling phi (L m))
    (q := fun m => alpha * ∑ t, pen (S m t)⁻¹ + beta * chainCoupling psi (fun t => (S m t)⁻¹)
      + eta * chainCoupling phi (fun _ : Fin (T + 1) => (0 : Matrix n n ℝ)))
    (hX.mono fun m hm => ⟨fun t => (hm.1 t).1, ?_, fun hp => ?_⟩) (fun t => ?_) t
  · have h1 : 0 ≤ ∑ t, trace (L m t) := Finset.sum_nonneg fun t _ => (hm.1 t).2.trace_nonneg
    have h2 : 0 ≤ ∑ t, pen (K m t) := Finset.sum_nonneg fun _ _ => hpen _
    exact add_nonneg (add_nonneg (add_nonneg (mul_nonneg hal h2) (mul_nonneg hta h1)) (mul_nonneg hbe (hch hpsi _)))
      (mul_nonneg het (hch hphi _))
  · have := hm.2 (fun t => (S m t)⁻¹, fun _ => 0) fun t => ⟨by simpa using (hp t).inv, PosSemidef.zero⟩
    unfold latentTimeObjective at this
    simp only [sub_zero, trace_zero, Finset.sum_const_zero, mul_zero, add_zero] at this
    linarith
  · have hi : ∀ t, Tendsto (fun m => (S m t)⁻¹) atTop (𝓝 (Sg t)⁻¹) := fun t =>
      tendsto_inv_of_posDef (fun m => hS m t) (hSg t) (hlim t)
    have h1 : Tendsto (fun m => ∑ t, pen (S m t)⁻¹) atTop (𝓝 (∑ t, pen (Sg t)⁻¹)) :=
      tendsto_finsetSum _ fun t _ => (hpc.tendsto _).comp (hi t)
    have h2 : Tendsto (fun m => chainCoupling psi (fun t => (S m t)⁻¹)) atTop
        (𝓝 (chainCoupling psi (fun t => (Sg t)⁻¹))) :=
      tendsto_finsetSum _ fun p _ => (hsc.tendsto _).comp ((hi _).sub (hi _))
    exact (((h1.const_mul alpha).add (h2.const_mul beta)).add tendsto_const_nhds).div_atTop (hw t)

theorem absSumMat_continuous : Continuous (absSumMat : Matrix n n ℝ → ℝ) := by
  unfold absSumMat
  exact continuous_finsetSum _ fun i _ => continuous_finsetSum _ fun j _ => (continuous_apply_apply i j).abs

/-- C212 (calls on sampled data). `N_m t` rows of time point `t` are drawn from the distribution of that time point. Almost
surely, with fixed `alpha` and `beta` and numbers of rows growing without bound, what `time_graphical_lasso` returns at a
constant penalty is eventually as close to the population precisions as desired, with tolerances small enough and iterations
enough. -/
theorem C212_calls [Nonempty n] {Ω : Type*} [MeasurableSpace Ω] {μ : Measure Ω} [IsProbabilityMeasure μ]
    {x : Fin (T + 1) → ℕ → Ω → n → ℝ} (h : ∀ t, IidRows μ (x t)) (centered : Bool)
    (hpd : ∀ t, (popCov μ (x t 0) centered).PosDef) {N : ℕ → Fin (T + 1) → ℕ}
    (hN : ∀ t, Tendsto (fun m => N m t) atTop atTop)
    {eigh : Eigh n} (he : IsEighOracle eigh) (a : TGLArgs T n) (hal : 0 < a.alpha) (hbe : 0 ≤ a.beta)
    (hconv : ConvexPen a.psi) (hpos : ∀ X, 0 ≤ a.psi X) (hprox : IsProxOf a.psi a.prox)
    (hi : a.rhoOptions.tauInc = 1) (hd : a.rhoOptions.tauDec = 1) (hst : a.stopAt = none) {rho : ℝ} (hr : 0 < rho) :
    ∀ᵐ ω ∂μ, ∀ ε, 0 < ε → ∀ᶠ m in atTop, ∀ K0 : Batch (T + 1) n,
      ∃ δ, 0 < δ ∧ ∃ M, ∀ tol rtol, 0 ≤ tol → tol ≤ δ → 0 ≤ rtol → rtol ≤ δ → ∀ it, M ≤ it → ∀ rh rn, ∃ Z hist i w,
        timeGraphicalLasso eigh { a with
          empCov := fun t => empCov (fun i : Fin (N m t) => x t i ω) Finset.univ centered
          nSamples := fun t => N m t, tol := tol, rtol := rtol } K0 rho it rh rn = .ok Z hist i w ∧
        CloseSeq ε Z fun t => (popCov μ (x t 0) centered)⁻¹ := by
  filter_upwards [ae_all_iff.mpr fun t => C211_data (h t) centered] with ω hω ε hε
  set S : ℕ → Fin (T + 1) → Matrix n n ℝ := fun m t => empCov (fun i : Fin (N m t) => x t i ω) Finset.univ centered with hSdef
  have hlim : ∀ t, Tendsto (fun m => S m t) atTop (𝓝 (popCov μ (x t 0) centered)) := fun t => (hω t).comp (hN t)
  have hS : ∀ m t, (S m t).IsSymm := fun m t => empCov_isSymm _ _ _
  have hwt : ∀ t, Tendsto (fun m => ((N m t : ℕ) : ℝ)) atTop atTop := fun t => tendsto_natCast_atTop_atTop.comp (hN t)
  have hw : ∀ᶠ m in atTop, ∀ t, (0 : ℝ) < (N m t : ℝ) :=
    eventually_all.mpr fun t => (hwt t).eventually_gt_atTop 0
  have hSpd : ∀ᶠ m in atTop, ∀ t, (S m t).PosDef := by
    refine eventually_all.mpr fun t => ?_
    have := (tendsto_froNorm (hlim t)).const_mul (trace (popCov μ (x t 0) centered)⁻¹)
    rw [mul_zero] at this
    exact (this.eventually_lt_const (by norm_num : (0 : ℝ) < 1 / 2)).mono fun m hm =>
      posDef_of_close (hS m t) (hpd t) hm.le
  have hsolve : ∀ m, (∀ t, (0 : ℝ) < (N m t : ℝ)) → (∀ t, (S m t).PosDef) → ∀ K0 : Batch (T + 1) n, _ :=
    fun m h1 h2 K0 => C103_time_converges he { a with empCov := S m, nSamples := fun t => (N m t : ℝ) }
      (fun t => (h2 t).posSemidef) h1 hal hbe hconv hpos hprox hi hd hst K0 hr
  classical
  have hex : ∃ X : ℕ → Fin (T + 1) → Matrix n n ℝ, ∀ᶠ m in atTop, UniqueMin (PDSeq (T + 1) n)
      (timeObjective (S m) (fun t => (N m t : ℝ)) a.alpha a.beta absSumMat a.psi) (X m) := by
    have : ∀ m, ∃ X, (∀ t, (0 : ℝ) < (N m t : ℝ)) → (∀ t, (S m t).PosDef) → UniqueMin (PDSeq (T + 1) n)
        (timeObjective (S m) (fun t => (N m t : ℝ)) a.alpha a.beta absSumMat a.psi) X := by
      intro m
      by_cases h1 : (∀ t, (0 : ℝ) < (N m t : ℝ)) ∧ ∀ t, (S m t).PosDef
      · obtain ⟨X, hX, -⟩ := hsolve m h1.1 h1.2 0
        exact ⟨X, fun _ _ => hX⟩
      · exact ⟨0, fun h2 h3 => absurd ⟨h2, h3⟩ h1⟩
    choose X hX using this
    refine ⟨X, ?_⟩
    filter_upwards [hw, hSpd] with m h1 h2
    exact hX m h1 h2
  obtain ⟨X, hX⟩ := hex
  have hXlim := C212_limit hS hpd hlim hw (alpha := fun _ => a.alpha) (beta := fun _ => a.beta) (fun _ => hal.le)
    (fun _ => hbe) (fun t => tendsto_const_nhds.div_atTop (hwt t)) (fun t => tendsto_const_nhds.div_atTop (hwt t))
    (pen := absSumMat) (psi := a.psi) (fun A => absSumMat_nonneg' A) hpos absSumMat_continuous
    (ConvexPen.continuous hconv)
    (hX.mono fun m hm => hm.isMin)
  have hclose := closeSeq_eventually (f := X) (X := fun t => (popCov μ (x t 0) centered)⁻¹) hXlim (half_pos hε)
  filter_upwards [hw, hSpd, hX, hclose] with m h1 h2 h3 h4 K0
  obtain ⟨X', hX', -, hret⟩ := hsolve m h1 h2 K0
  have hXX : X' = X m := by
    by_contra hne
    have h5 := h3.2 X' hX'.1 hne
    exact absurd (hX'.isMin.2 (X m) h3.1) (not_le.mpr h5)
  subst hXX
  obtain ⟨δ, hδ, M, hM⟩ := hret (ε / 2) (half_pos hε)
  refine ⟨δ, hδ, M, fun tol rtol g1 g2 g3 g4 it hit rh rn => ?_⟩
  obtain ⟨Z, hist, i, w, hcall, hZ⟩ := hM tol rtol g1 g2 g3 g4 it hit rh rn
  refine ⟨Z, hist, i, w, hcall, fun t i j => ?_⟩
  have h5 := hZ t i j
  have h6 := h4 t i j
  rw [abs_le] at h5 h6 ⊢
  constructor <;> linarith [h5.1, h5.2, h6.1, h6.2]

/-! ### Cases -/

/-- Rows of independent standard normal entries meet the hypotheses, and their population matrix is the identity. -/
theorem normal_rows (n : Type*) [Fintype n] [DecidableEq n] :
    ∃ μ : Measure (ℕ → n → ℝ), IsProbabilityMeasure μ ∧ IidRows μ (fun i ω => ω i) ∧
      popCov μ (fun ω => ω 0) false = (1 : Matrix n n ℝ) ∧
      ∀ a b, MemLp (fun ω : ℕ → n → ℝ => ω 0 a * ω 0 b) 2 μ := by
  set ν : Measure (n → ℝ) := Measure.pi fun _ : n => gaussianReal 0 1 with hν
  set μ : Measure (ℕ → n → ℝ) := Measure.infinitePi fun _ : ℕ => ν with hμ
  have hev : ∀ i : ℕ, MeasurePreserving (fun ω : ℕ → n → ℝ => ω i) μ ν := fun i =>
    measurePreserving_eval_infinitePi (fun _ : ℕ => ν) i
  have hco : ∀ a : n, MeasurePreserving (fun v : n → ℝ => v a) ν (gaussianReal 0 1) := fun a =>
    measurePreserving_eval (fun _ : n => gaussianReal 0 1) a
  have hev2 : ∀ a : n, MeasurePreserving (fun ω : ℕ → n → ℝ => ω 0 a) μ (gaussianReal 0 1) := fun a =>
    (hco a).comp (hev 0)
  have hL2 : ∀ a : n, MemLp (fun ω : ℕ → n → ℝ => ω 0 a) 2 μ := fun a =>
    (memLp_id_gaussianReal' (μ := 0) (v := 1) 2 (by norm_num)).comp_measurePreserving (hev2 a)
  refine ⟨μ, inferInstance, ⟨?_, ?_, hL2⟩, ?_, fun a b => ?_⟩
  · intro i j hij
    have h := iIndepFun_infinitePi (P := fun _ : ℕ => ν) (X := fun _ v => v) (fun _ => measurable_id)
    exact h.indepFun hij
  · intro i
    exact ⟨(hev i).measurable.aemeasurable, (hev 0).measurable.aemeasurable, by rw [(hev i).map_eq, (hev 0).map_eq]⟩
  · ext a b
    simp only [popCov, Matrix.of_apply, Bool.false_eq_true, if_false]
    by_cases hab : a = b
    · subst hab
      rw [covariance_self (hev2 a).measurable.aemeasurable, Matrix.one_apply_eq]
      have h := (hev2 a).variance_fun_comp (f := id) measurable_id.aemeasurable
      rw [variance_id_gaussianReal] at h
      simpa using h
    · rw [Matrix.one_apply_ne hab]
      have h := iIndepFun_pi (μ := fun _ : n => gaussianReal 0 1) (X := fun _ v => v) (fun _ => aemeasurable_id)
      have h2 : (fun v : n → ℝ => v a) ⟂ᵢ[ν] fun v : n → ℝ => v b := h.indepFun hab
      have hL : ∀ a : n, MemLp (fun v : n → ℝ => v a) 2 ν := fun a =>
        (memLp_id_gaussianReal' (μ := 0) (v := 1) 2 (by norm_num)).comp_measurePreserving (hco a)
      have h3 := IndepFun.covariance_eq_zero h2 (hL a) (hL b)
      rw [← (hev 0).map_eq, covariance_map_fun (hco a).measurable.aestronglyMeasurable
        (hco b).measurable.aestronglyMeasurable (hev 0).measurable.aemeasurable] at h3
      exact h3
  · have h4 : ∀ a : n, MemLp (fun ω : ℕ → n → ℝ => ω 0 a) 4 μ := fun a =>
      (memLp_id_gaussianReal' (μ := 0) (v := 1) 4 (by norm_num)).comp_measurePreserving (hev2 a)
    have : ENNReal.HolderTriple 4 4 2 := ⟨by
      rw [← two_mul, ← ENNReal.toReal_eq_toReal_iff' (by finiteness) (by finiteness)]
      norm_num⟩
    exact (h4 b).mul (h4 a)

example : ∃ μ : Measure (ℕ → Fin 3 → ℝ), IsProbabilityMeasure μ ∧ IidRows μ (fun i ω => ω i) ∧
    (popCov μ (fun ω => ω 0) false).PosDef := by
  obtain ⟨μ, h1, h2, h3, -⟩ := normal_rows (Fin 3)
  exact ⟨μ, h1, h2, by rw [h3]; exact PosDef.one⟩

/-- Samples close to the identity and a small penalty meet the hypotheses of the error bounds. -/
example : ∃ X, IsMin (PD (Fin 2)) (glObjective (1 : Matrix (Fin 2) (Fin 2) ℝ) (1 / 16)) X ∧
    trace (1 : Matrix (Fin 2) (Fin 2) ℝ)⁻¹ * (froNorm ((1 : Matrix (Fin 2) (Fin 2) ℝ) - 1)
      + Fintype.card (Fin 2) * (1 / 16)) ≤ 1 / 2 := by
  obtain ⟨X, hX⟩ := gl_exists_min (S := (1 : Matrix (Fin 2) (Fin 2) ℝ)) PosSemidef.one (fun i => by simp)
    (by norm_num : (0 : ℝ) < 1 / 16)
  refine ⟨X, hX, ?_⟩
  simp [froNorm]
  norm_num

/-- A minimiser of the time-varying objective, for any weights. -/
example {w : Fin 3 → ℝ} (hw : ∀ t, 0 < w t) : IsMin (PDSeq 3 (Fin 2))
    (timeObjective (T := 2) (fun _ => 1) w 1 1 absSumOff absSumMat) (fun _ => 1) := by
  refine ⟨fun _ => PosDef.one, fun Y hY => ?_⟩
  have h1 : ∀ t, w t * (trace ((1 : Matrix (Fin 2) (Fin 2) ℝ) * 1) - Real.log (1 : Matrix (Fin 2) (Fin 2) ℝ).det)
      ≤ w t * (trace (1 * Y t) - Real.log (Y t).det) := fun t => by
    refine mul_le_mul_of_nonneg_left ?_ (hw t).le
    have h := log_det_le (hY t) (PosDef.one (n := Fin 2) (R := ℝ))
    rw [inv_one, frobInner_sub_right, frobInner_eq_trace_of_symm isSymm_one, frobInner_eq_trace_of_symm isSymm_one] at h
    linarith
  have h2 : ∀ A : Matrix (Fin 2) (Fin 2) ℝ, 0 ≤ absSumMat A := fun A => absSumMat_nonneg' A
  have h3 : ∀ A : Matrix (Fin 2) (Fin 2) ℝ, 0 ≤ absSumOff A := fun A => absSumOff_nonneg' A
  have h4 : absSumOff (1 : Matrix (Fin 2) (Fin 2) ℝ) = 0 := by simp [absSumOff, Fin.sum_univ_two]
  have h5 : absSumMat ((1 : Matrix (Fin 2) (Fin 2) ℝ) - 1) = 0 := by simp [absSumMat]
  unfold timeObjective
  simp only [h4, h5, Finset.sum_const_zero, mul_zero, add_zero, one_mul]
  have h6 := Finset.sum_le_sum fun t (_ : t ∈ Finset.univ) => h1 t
  have h7 : 0 ≤ ∑ t, absSumOff (Y t) := Finset.sum_nonneg fun _ _ => h3 _
  have h8 : 0 ≤ ∑ p : Fin 2, absSumMat (Y p.succ - Y p.castSucc) := Finset.sum_nonneg fun _ _ => h2 _
  simp only [one_mul] at h6
  linarith

end Verif.Props
