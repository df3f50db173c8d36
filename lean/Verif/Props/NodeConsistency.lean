import Verif.Props.Consistency
import Verif.Props.GLMConv

/-! Property theorems C215: Gaussian neighbourhood selection with more and more data. -/

namespace Verif.Props

open Verif.Model Verif.Spec Verif.Lemmas Matrix Filter Topology MeasureTheory ProbabilityTheory

set_option autoImplicit false
set_option linter.unusedSectionVars false

variable {n : Type*} [Fintype n] [DecidableEq n]

/-- The columns of a data matrix other than `r`. -/
def otherCols {N : ℕ} (X : Fin N → n → ℝ) (r : n) : Fin N → {j // j ≠ r} → ℝ := fun i j => X i j.1

/-- The coefficients of the best linear prediction of variable `r` from the others, in terms of the precision matrix. -/
noncomputable def popCoef (K : Matrix n n ℝ) (r : n) : {j // j ≠ r} → ℝ := fun j => -(K r j.1 / K r r)

/-- The coefficients with `-1` at the position of the response. -/
def withResponse (r : n) (theta : {j // j ≠ r} → ℝ) : n → ℝ := fun j => if h : j ≠ r then theta ⟨j, h⟩ else -1

theorem sum_other (r : n) (f : n → ℝ) : ∑ j, f j = f r + ∑ j : {j // j ≠ r}, f j.1 := by
  rw [← Finset.add_sum_erase _ _ (Finset.mem_univ r)]
  congr 1
  rw [← Finset.sum_subtype (Finset.univ.erase r) (by simp)]

theorem withResponse_other (r : n) (theta : {j // j ≠ r} → ℝ) (j : {j // j ≠ r}) : withResponse r theta j.1 = theta j := by
  simp [withResponse, j.2]

theorem withResponse_self (r : n) (theta : {j // j ≠ r} → ℝ) : withResponse r theta r = -1 := by simp [withResponse]

theorem gaussGradient_moments {N : ℕ} (X : Fin N → n → ℝ) (r : n) (theta : {j // j ≠ r} → ℝ) (k : {j // j ≠ r}) :
    gaussGradient (otherCols X r) (fun i => X i r) theta k =
      (empCov X Finset.univ true *ᵥ withResponse r theta) k.1 := by
  have e : (empCov X Finset.univ true *ᵥ withResponse r theta) k.1 =
      empCov X Finset.univ true k.1 r * -1 + ∑ j : {j // j ≠ r}, empCov X Finset.univ true k.1 j.1 * theta j := by
    rw [mulVec, dotProduct, sum_other r, withResponse_self]
    simp only [withResponse_other]
  rw [e]
  simp only [gaussGradient, linPred, otherCols, empCov, if_true, Matrix.of_apply, Finset.card_univ, Fintype.card_fin]
  have e1 : (∑ i, X i k.1 * ∑ j : {j // j ≠ r}, X i j.1 * theta j) =
      ∑ j : {j // j ≠ r}, (∑ i, X i k.1 * X i j.1) * theta j := by
    simp only [Finset.mul_sum, Finset.sum_mul]
    rw [Finset.sum_comm]
    exact Finset.sum_congr rfl fun j _ => Finset.sum_congr rfl fun i _ => by ring
  have e2 : (∑ i, X i r * X i k.1) = ∑ i, X i k.1 * X i r := Finset.sum_congr rfl fun i _ => mul_comm _ _
  rw [e1, e2]
  congr 1
  · ring
  · rw [Finset.mul_sum]
    exact Finset.sum_congr rfl fun j _ => by ring

theorem node_kkt {N : ℕ} (X : Fin N → n → ℝ) (r : n) {alpha : ℝ} (ha : 0 ≤ alpha) {theta : {j // j ≠ r} → ℝ}
    (h : IsMin Set.univ (nodeLasso (otherCols X r) (fun i => X i r) alpha) theta) (k : {j // j ≠ r}) :
    |(empCov X Finset.univ true *ᵥ withResponse r theta) k.1| ≤ alpha := by
  rw [← gaussGradient_moments]
  have h1 := congrFun ((C64_stationary_iff _ _ ha one_pos theta).mpr h) k
  have h2 : softScalar (theta k - 1 * gaussGradient (otherCols X r) (fun i => X i r) theta k) (alpha * 1) = theta k := h1
  rw [one_mul, mul_one] at h2
  generalize gaussGradient (otherCols X r) (fun i => X i r) theta k = g at h2 ⊢
  rcases lt_or_ge alpha (theta k - g) with h3 | h3
  · rw [softScalar_of_pos ha h3] at h2
    rw [abs_le]; constructor <;> linarith
  · rcases lt_or_ge (theta k - g) (-alpha) with h4 | h4
    · rw [softScalar_of_neg ha h4] at h2
      rw [abs_le]; constructor <;> linarith
    · rw [softScalar_of_abs_le (abs_le.mpr ⟨h4, h3⟩)] at h2
      rw [← h2] at h3 h4
      rw [abs_le]; constructor <;> linarith

/-- The best linear prediction is uncorrelated with its error. -/
theorem popCoef_normal {Sg : Matrix n n ℝ} (hSg : Sg.PosDef) (r : n) (k : {j // j ≠ r}) :
    (Sg *ᵥ withResponse r (popCoef Sg⁻¹ r)) k.1 = 0 := by
  have hK : 0 < Sg⁻¹ r r := hSg.inv.diag_pos
  have hsym : ∀ i j, Sg⁻¹ i j = Sg⁻¹ j i := fun i j => by
    have := hSg.inv.isHermitian.apply i j
    simpa using this.symm
  have e : withResponse r (popCoef Sg⁻¹ r) = fun j => -(Sg⁻¹ j r / Sg⁻¹ r r) := by
    funext j
    by_cases h : j = r
    · rw [h, withResponse_self, div_self hK.ne']
    · have := withResponse_other r (popCoef Sg⁻¹ r) ⟨j, h⟩
      rw [this, popCoef, hsym]
  have e2 : (Sg *ᵥ withResponse r (popCoef Sg⁻¹ r)) k.1 = -((Sg * Sg⁻¹) k.1 r / Sg⁻¹ r r) := by
    rw [e, mulVec, dotProduct, Matrix.mul_apply, Finset.sum_div, ← Finset.sum_neg_distrib]
    exact Finset.sum_congr rfl fun j _ => by ring
  rw [e2, Matrix.mul_nonsing_inv _ (isUnit_iff_ne_zero.mpr hSg.det_pos.ne'), Matrix.one_apply_ne k.2]
  simp

theorem sq_sum_abs_le (D : n → ℝ) : (∑ j, |D j|) ^ 2 ≤ Fintype.card n * ∑ j, D j ^ 2 := by
  have := sq_sum_le_card_mul_sum_sq (s := (Finset.univ : Finset n)) (f := fun j => |D j|)
  simpa using this

theorem abs_mulVec_le {A : Matrix n n ℝ} {e : ℝ} (hA : ∀ i j, |A i j| ≤ e) (v : n → ℝ) (k : n) :
    |(A *ᵥ v) k| ≤ e * ∑ j, |v j| := by
  rw [mulVec, dotProduct, Finset.mul_sum]
  refine (Finset.abs_sum_le_sum_abs _ _).trans (Finset.sum_le_sum fun j _ => ?_)
  rw [abs_mul]
  exact mul_le_mul_of_nonneg_right (hA k j) (abs_nonneg _)

theorem abs_dot_le {v w : n → ℝ} {q : ℝ} (h : ∀ k, |v k| * |w k| ≤ |v k| * q) : |v ⬝ᵥ w| ≤ q * ∑ k, |v k| := by
  rw [dotProduct, Finset.mul_sum]
  refine (Finset.abs_sum_le_sum_abs _ _).trans (Finset.sum_le_sum fun k _ => ?_)
  rw [abs_mul, mul_comm q]
  exact h k

/-- C215 (error bound). Second moments within `e` of those of the population, whose smallest eigenvalue is at least `mu`:
every solution of the regression of a variable on the others is close to the coefficients `-K r j / K r r` that the
population precision gives. -/
theorem C215_error_bound {N : ℕ} (X : Fin N → n → ℝ) (r : n) {Sg : Matrix n n ℝ} (hSg : Sg.PosDef) {alpha e mu : ℝ}
    (ha : 0 ≤ alpha) (he : ∀ i j, |empCov X Finset.univ true i j - Sg i j| ≤ e) (hmu : 0 < mu)
    (hcurv : ∀ v : n → ℝ, mu * ∑ j, v j ^ 2 ≤ v ⬝ᵥ Sg *ᵥ v) (hsmall : Fintype.card n * e ≤ mu / 2)
    {theta : {j // j ≠ r} → ℝ} (h : IsMin Set.univ (nodeLasso (otherCols X r) (fun i => X i r) alpha) theta) :
    ∑ k, (theta k - popCoef Sg⁻¹ r k) ^ 2 ≤
      Fintype.card n * (2 * (alpha + e * (1 + ∑ k, |popCoef Sg⁻¹ r k|)) / mu) ^ 2 := by
  obtain ⟨S, hS⟩ : ∃ S, S = empCov X Finset.univ true := ⟨_, rfl⟩
  obtain ⟨b, hb⟩ : ∃ b, b = withResponse r theta := ⟨_, rfl⟩
  obtain ⟨c, hc⟩ : ∃ c, c = withResponse r (popCoef Sg⁻¹ r) := ⟨_, rfl⟩
  obtain ⟨D, hD⟩ : ∃ D, D = b - c := ⟨_, rfl⟩
  have he0 : 0 ≤ e := (abs_nonneg _).trans (he r r)
  have hDr : D r = 0 := by rw [hD, Pi.sub_apply, hb, hc, withResponse_self, withResponse_self, sub_self]
  have hA : ∀ i j, |(S - Sg) i j| ≤ e := fun i j => by rw [Matrix.sub_apply, hS]; exact he i j
  have hc1 : ∑ j, |c j| = 1 + ∑ k, |popCoef Sg⁻¹ r k| := by
    rw [sum_other r, hc, withResponse_self]
    simp only [withResponse_other]
    norm_num
  have hDs : ∑ j, D j ^ 2 = ∑ k, (theta k - popCoef Sg⁻¹ r k) ^ 2 := by
    rw [sum_other r, hDr, hD, hb, hc]
    simp only [Pi.sub_apply, withResponse_other]
    norm_num
  obtain ⟨q, hq⟩ : ∃ q, q = alpha + e * ∑ j, |c j| := ⟨_, rfl⟩
  have hq0 : 0 ≤ q := by rw [hq]; positivity
  -- the residual correlations
  have hup : D ⬝ᵥ S *ᵥ D ≤ q * ∑ k, |D k| := by
    have e1 : D ⬝ᵥ S *ᵥ D = D ⬝ᵥ (S *ᵥ b - (S - Sg) *ᵥ c - Sg *ᵥ c) := by
      congr 1
      rw [Matrix.sub_mulVec, hD, Matrix.mulVec_sub]
      abel
    rw [e1]
    refine (le_abs_self _).trans (abs_dot_le fun k => ?_)
    by_cases hk : k = r
    · rw [hk, hDr]; simp
    · refine mul_le_mul_of_nonneg_left ?_ (abs_nonneg _)
      have h1 := node_kkt X r ha h ⟨k, hk⟩
      have h2 := abs_mulVec_le hA c k
      have h3 := popCoef_normal hSg r ⟨k, hk⟩
      rw [← hS, ← hb] at h1
      rw [← hc] at h3
      simp only at h1 h3
      rw [Pi.sub_apply, Pi.sub_apply, h3, sub_zero, hq]
      exact (abs_sub _ _).trans (add_le_add h1 h2)
  -- the curvature of the sample
  have hlow : mu / 2 * ∑ j, D j ^ 2 ≤ D ⬝ᵥ S *ᵥ D := by
    have e1 : D ⬝ᵥ S *ᵥ D = D ⬝ᵥ Sg *ᵥ D + D ⬝ᵥ (S - Sg) *ᵥ D := by
      rw [Matrix.sub_mulVec, dotProduct_sub]; ring
    have h1 := hcurv D
    have h2 : |D ⬝ᵥ (S - Sg) *ᵥ D| ≤ (e * ∑ j, |D j|) * ∑ k, |D k| :=
      abs_dot_le fun k => mul_le_mul_of_nonneg_left (abs_mulVec_le hA D k) (abs_nonneg _)
    have h3 := sq_sum_abs_le D
    have h4 : 0 ≤ ∑ j, D j ^ 2 := Finset.sum_nonneg fun _ _ => sq_nonneg _
    have h5 := neg_abs_le (D ⬝ᵥ (S - Sg) *ᵥ D)
    have h6 := mul_le_mul_of_nonneg_left h3 he0
    have h7 := mul_le_mul_of_nonneg_right hsmall h4
    rw [e1]
    nlinarith
  obtain ⟨A, hA'⟩ : ∃ A, A = ∑ j, D j ^ 2 := ⟨_, rfl⟩
  obtain ⟨B, hB'⟩ : ∃ B, B = ∑ k, |D k| := ⟨_, rfl⟩
  have hA0 : 0 ≤ A := by rw [hA']; exact Finset.sum_nonneg fun _ _ => sq_nonneg _
  have hB0 : 0 ≤ B := by rw [hB']; exact Finset.sum_nonneg fun _ _ => abs_nonneg _
  have hBA : B ^ 2 ≤ Fintype.card n * A := by rw [hA', hB']; exact sq_sum_abs_le D
  rw [← hA'] at hlow hDs
  rw [← hB'] at hup
  rw [← hDs, ← hc1, ← hq, div_pow, ← mul_div_assoc, le_div_iff₀ (by positivity)]
  have hAB : mu / 2 * A ≤ q * B := hlow.trans hup
  rcases eq_or_lt_of_le hA0 with h0 | h0
  · rw [← h0]; simp; positivity
  · have h1 : (mu / 2 * A) ^ 2 ≤ (q * B) ^ 2 := pow_le_pow_left₀ (by positivity) hAB 2
    have h2 : (q * B) ^ 2 ≤ q ^ 2 * (Fintype.card n * A) := by
      rw [mul_pow]; exact mul_le_mul_of_nonneg_left hBA (sq_nonneg _)
    have h3 : A * (A * mu ^ 2) ≤ A * (Fintype.card n * (2 * q) ^ 2) := by nlinarith
    exact le_of_mul_le_mul_left h3 h0

theorem exists_quad_lower {S : Matrix n n ℝ} (hS : S.PosDef) :
    ∃ c : ℝ, 0 < c ∧ ∀ v : n → ℝ, c * ∑ j, v j ^ 2 ≤ v ⬝ᵥ S *ᵥ v := by
  have h1 := posDef_add_smul hS (H := -(1 : Matrix n n ℝ)) (by simp [IsSymm])
  obtain ⟨c, hc, hc0⟩ := (h1.and self_mem_nhdsWithin).exists
  refine ⟨c, hc0, fun v => ?_⟩
  have h2 := hc.posSemidef.dotProduct_mulVec_nonneg v
  have e : v ⬝ᵥ v = ∑ j, v j ^ 2 := Finset.sum_congr rfl fun j _ => (sq _).symm
  rw [star_trivial, Matrix.add_mulVec, smul_neg, Matrix.neg_mulVec, Matrix.smul_mulVec, Matrix.one_mulVec, dotProduct_add,
    dotProduct_neg, dotProduct_smul, smul_eq_mul, e] at h2
  linarith

/-- C215 (limit). When the second moments approach those of the population and `alpha` goes to zero, the coefficients of
every regression approach `-K r j / K r r`, whichever solutions are taken. -/
theorem C215_limit (x : ℕ → n → ℝ) {Sg : Matrix n n ℝ} (hSg : Sg.PosDef)
    (hlim : Tendsto (fun N => empCov (fun i : Fin N => x i) Finset.univ true) atTop (𝓝 Sg)) {alpha : ℕ → ℝ}
    (hal : ∀ N, 0 ≤ alpha N) (hal0 : Tendsto alpha atTop (𝓝 0)) (r : n) {theta : ℕ → {j // j ≠ r} → ℝ}
    (h : ∀ N, IsMin Set.univ (nodeLasso (otherCols (fun i : Fin N => x i) r) (fun i => x i r) (alpha N)) (theta N)) :
    Tendsto theta atTop (𝓝 (popCoef Sg⁻¹ r)) := by
  obtain ⟨mu, hmu, hcurv⟩ := exists_quad_lower hSg
  obtain ⟨E, hE⟩ : ∃ E : ℕ → ℝ, E = fun N => ∑ i, ∑ j, |empCov (fun i : Fin N => x i) Finset.univ true i j - Sg i j| :=
    ⟨_, rfl⟩
  have hE0 : Tendsto E atTop (𝓝 0) := by
    have h1 : ∀ i j, Tendsto (fun N => |empCov (fun i : Fin N => x i) Finset.univ true i j - Sg i j|) atTop (𝓝 0) := by
      intro i j
      have h2 := tendsto_pi_nhds.mp (tendsto_pi_nhds.mp hlim i) j
      simpa using (h2.sub_const (Sg i j)).abs
    have := tendsto_finsetSum (Finset.univ : Finset n) fun i _ => tendsto_finsetSum (Finset.univ : Finset n) fun j _ => h1 i j
    rw [hE]
    simpa using this
  have hEle : ∀ N i j, |empCov (fun i : Fin N => x i) Finset.univ true i j - Sg i j| ≤ E N := by
    intro N i j
    rw [hE]
    refine le_trans ?_ (Finset.single_le_sum
      (f := fun i => ∑ j, |empCov (fun i : Fin N => x i) Finset.univ true i j - Sg i j|)
      (fun i _ => Finset.sum_nonneg fun j _ => abs_nonneg _) (Finset.mem_univ i))
    exact Finset.single_le_sum (f := fun j => |empCov (fun i : Fin N => x i) Finset.univ true i j - Sg i j|)
      (fun j _ => abs_nonneg _) (Finset.mem_univ j)
  have hbound : Tendsto (fun N => Fintype.card n * (2 * (alpha N + E N * (1 + ∑ k, |popCoef Sg⁻¹ r k|)) / mu) ^ 2) atTop
      (𝓝 0) := by
    have h1 := (((hal0.add (hE0.mul_const (1 + ∑ k, |popCoef Sg⁻¹ r k|))).const_mul 2).div_const mu).pow 2
    simpa using h1.const_mul (Fintype.card n : ℝ)
  have hsm : ∀ᶠ N in atTop, Fintype.card n * E N ≤ mu / 2 := by
    have := hE0.const_mul (Fintype.card n : ℝ)
    rw [mul_zero] at this
    exact (this.eventually_lt_const (half_pos hmu)).mono fun N h => h.le
  have hsum : Tendsto (fun N => ∑ k, (theta N k - popCoef Sg⁻¹ r k) ^ 2) atTop (𝓝 0) := by
    refine tendsto_of_tendsto_of_tendsto_of_le_of_le' tendsto_const_nhds hbound
      (Eventually.of_forall fun N => Finset.sum_nonneg fun _ _ => sq_nonneg _) ?_
    filter_upwards [hsm] with N hN
    exact C215_error_bound _ r hSg (hal N) (hEle N) hmu hcurv hN (h N)
  refine tendsto_pi_nhds.mpr fun k => ?_
  have hk : Tendsto (fun N => (theta N k - popCoef Sg⁻¹ r k) ^ 2) atTop (𝓝 0) :=
    squeeze_zero (fun N => sq_nonneg _) (fun N => Finset.single_le_sum
      (f := fun k => (theta N k - popCoef Sg⁻¹ r k) ^ 2) (fun _ _ => sq_nonneg _) (Finset.mem_univ k)) hsum
  have hk2 := (Real.continuous_sqrt.tendsto 0).comp hk
  rw [Real.sqrt_zero] at hk2
  have hk3 : Tendsto (fun N => |theta N k - popCoef Sg⁻¹ r k|) atTop (𝓝 0) :=
    hk2.congr fun N => by rw [Function.comp_apply, Real.sqrt_sq_eq_abs]
  rw [tendsto_iff_norm_sub_tendsto_zero]
  exact hk3

/-! ### The returned matrix -/

variable {d : ℕ}

/-- The estimates of all variables as `build_adjacency_matrix` reads them. -/
def nodeTable (theta : (r : Fin d) → {j // j ≠ r} → ℝ) : ℕ → ℕ → ℝ := fun i j =>
  if h : ∃ (hi : i < d) (hj : j < d), (⟨j, hj⟩ : Fin d) ≠ ⟨i, hi⟩ then theta ⟨i, h.1⟩ ⟨⟨j, h.2.1⟩, h.2.2⟩ else 0

theorem nodeTable_apply (theta : (r : Fin d) → {j // j ≠ r} → ℝ) {i j : Fin d} (h : j ≠ i) :
    nodeTable theta i j = theta i ⟨j, h⟩ := by
  rw [nodeTable, dif_pos ⟨i.2, j.2, h⟩]

/-- The estimates of a data set: one solution per variable. -/
def IsNodeFit {N : ℕ} (X : Fin N → Fin d → ℝ) (alpha : ℝ) (theta : (r : Fin d) → {j // j ≠ r} → ℝ) : Prop :=
  ∀ r, IsMin Set.univ (nodeLasso (otherCols X r) (fun i => X i r) alpha) (theta r)

/-- The limit of an entry of `precision_`: minus the entry of the precision times an average of inverse diagonal
entries (with `union` the later variable counts twice as much). -/
noncomputable def unionLimit (K : Matrix (Fin d) (Fin d) ℝ) (i j : Fin d) : ℝ := -K i j * (1 / (4 * K i i) + 1 / (2 * K j j))

/-- C215 (returned matrix). With rows whose second moments approach those of the population, the entries of `precision_`
approach minus the entries of the population precision, rescaled; the diagonal is one. -/
theorem C215_returned (x : ℕ → Fin d → ℝ) {Sg : Matrix (Fin d) (Fin d) ℝ} (hSg : Sg.PosDef)
    (hlim : Tendsto (fun N => empCov (fun i : Fin N => x i) Finset.univ true) atTop (𝓝 Sg)) {alpha : ℕ → ℝ}
    (hal : ∀ N, 0 ≤ alpha N) (hal0 : Tendsto alpha atTop (𝓝 0)) {theta : ℕ → (r : Fin d) → {j // j ≠ r} → ℝ}
    (h : ∀ N, IsNodeFit (fun i : Fin N => x i) (alpha N) (theta N)) {i j : Fin d} (hij : i < j) :
    Tendsto (fun N => buildAdjacency d (nodeTable (theta N)) "union" i j) atTop (𝓝 (unionLimit Sg⁻¹ i j)) ∧
      Tendsto (fun N => buildAdjacency d (nodeTable (theta N)) "intersection" i j) atTop
        (𝓝 (-Sg⁻¹ i j * (1 / (2 * Sg⁻¹ i i) + 1 / (2 * Sg⁻¹ j j)))) := by
  have hK : ∀ i, 0 < Sg⁻¹ i i := fun i => hSg.inv.diag_pos
  have hsym : Sg⁻¹ j i = Sg⁻¹ i j := by simpa using hSg.inv.isHermitian.apply i j
  have hl : ∀ r : Fin d, ∀ k : {j // j ≠ r}, Tendsto (fun N => theta N r k) atTop (𝓝 (popCoef Sg⁻¹ r k)) := fun r k =>
    tendsto_pi_nhds.mp (C215_limit x hSg hlim hal hal0 r fun N => h N r) k
  have h1 : Tendsto (fun N => nodeTable (theta N) i j) atTop (𝓝 (-(Sg⁻¹ i j / Sg⁻¹ i i))) := by
    simp only [nodeTable_apply _ hij.ne']
    exact hl i ⟨j, hij.ne'⟩
  have h2 : Tendsto (fun N => nodeTable (theta N) j i) atTop (𝓝 (-(Sg⁻¹ i j / Sg⁻¹ j j))) := by
    simp only [nodeTable_apply _ hij.ne]
    rw [← hsym]
    exact hl j ⟨i, hij.ne⟩
  constructor
  · have e : ∀ N, buildAdjacency d (nodeTable (theta N)) "union" i j =
        nodeTable (theta N) i j / 4 + nodeTable (theta N) j i / 2 := fun N => C40_union_value d _ _ _ hij j.2
    simp only [e]
    have e2 : unionLimit Sg⁻¹ i j = -(Sg⁻¹ i j / Sg⁻¹ i i) / 4 + -(Sg⁻¹ i j / Sg⁻¹ j j) / 2 := by
      rw [unionLimit]
      have := (hK i).ne'
      have := (hK j).ne'
      field_simp
      ring
    rw [e2]
    exact (h1.div_const 4).add (h2.div_const 2)
  · have havg : Tendsto (fun N => (nodeTable (theta N) i j + nodeTable (theta N) j i) / 2) atTop
        (𝓝 (-Sg⁻¹ i j * (1 / (2 * Sg⁻¹ i i) + 1 / (2 * Sg⁻¹ j j)))) := by
      have e2 : -Sg⁻¹ i j * (1 / (2 * Sg⁻¹ i i) + 1 / (2 * Sg⁻¹ j j)) =
          (-(Sg⁻¹ i j / Sg⁻¹ i i) + -(Sg⁻¹ i j / Sg⁻¹ j j)) / 2 := by
        have := (hK i).ne'
        have := (hK j).ne'
        field_simp
        ring
      rw [e2]
      exact (h1.add h2).div_const 2
    have hne : (i : ℕ) ≠ j := fun e => hij.ne (Fin.ext e)
    by_cases h0 : Sg⁻¹ i j = 0
    · rw [h0] at h1 h2
      simp only [zero_div, neg_zero] at h1 h2
      rw [h0]
      simp only [neg_zero, zero_mul]
      have hb : Tendsto (fun N => |nodeTable (theta N) i j| + |nodeTable (theta N) j i|) atTop (𝓝 0) := by
        simpa using h1.abs.add h2.abs
      rw [tendsto_zero_iff_abs_tendsto_zero]
      refine squeeze_zero (fun N => abs_nonneg _) (fun N => ?_) hb
      obtain ⟨hv1, hv2, -, -⟩ := C40_intersection_value d (nodeTable (theta N)) i j i.2 j.2
      by_cases hz : nodeTable (theta N) i j = 0 ∨ nodeTable (theta N) j i = 0
      · rw [Function.comp_apply, hv2 hne hz, abs_zero]; positivity
      · push Not at hz
        rw [Function.comp_apply, hv1 hne hz.1 hz.2, abs_div, abs_two]
        have h3 := abs_add_le (nodeTable (theta N) i j) (nodeTable (theta N) j i)
        have h4 := abs_nonneg (nodeTable (theta N) i j + nodeTable (theta N) j i)
        linarith
    · refine havg.congr' ?_
      have g1 := h1.eventually_ne (neg_ne_zero.mpr (div_ne_zero h0 (hK i).ne'))
      have g2 := h2.eventually_ne (neg_ne_zero.mpr (div_ne_zero h0 (hK j).ne'))
      filter_upwards [g1, g2] with N hN1 hN2
      exact ((C40_intersection_value d (nodeTable (theta N)) i j i.2 j.2).1 hne hN1 hN2).symm

/-- C215 (edges). Eventually every edge of the population is selected by both rules. -/
theorem C215_edges (x : ℕ → Fin d → ℝ) {Sg : Matrix (Fin d) (Fin d) ℝ} (hSg : Sg.PosDef)
    (hlim : Tendsto (fun N => empCov (fun i : Fin N => x i) Finset.univ true) atTop (𝓝 Sg)) {alpha : ℕ → ℝ}
    (hal : ∀ N, 0 ≤ alpha N) (hal0 : Tendsto alpha atTop (𝓝 0)) {theta : ℕ → (r : Fin d) → {j // j ≠ r} → ℝ}
    (h : ∀ N, IsNodeFit (fun i : Fin N => x i) (alpha N) (theta N)) :
    ∀ᶠ N in atTop, ∀ i j : Fin d, i < j → Sg⁻¹ i j ≠ 0 →
      buildAdjacency d (nodeTable (theta N)) "union" i j ≠ 0 ∧
      buildAdjacency d (nodeTable (theta N)) "intersection" i j ≠ 0 := by
  refine eventually_all.mpr fun i => eventually_all.mpr fun j => ?_
  by_cases hij : i < j
  · by_cases h0 : Sg⁻¹ i j = 0
    · exact Eventually.of_forall fun N _ hN => absurd h0 hN
    · obtain ⟨h1, h2⟩ := C215_returned x hSg hlim hal hal0 h hij
      have hi : 0 < Sg⁻¹ i i := hSg.inv.diag_pos
      have hj : 0 < Sg⁻¹ j j := hSg.inv.diag_pos
      filter_upwards [h1.eventually_ne (mul_ne_zero (neg_ne_zero.mpr h0) (by positivity)),
        h2.eventually_ne (mul_ne_zero (neg_ne_zero.mpr h0) (by positivity))] with N g1 g2 _ _
      exact ⟨g1, g2⟩
  · exact Eventually.of_forall fun N hN => absurd hN hij

/-- C215 is false for the values: every non-zero off-diagonal entry of the population precision is eventually reported
with the opposite sign, by both rules. `precision_` holds regression coefficients, not precisions. -/
theorem C215_sign_false (x : ℕ → Fin d → ℝ) {Sg : Matrix (Fin d) (Fin d) ℝ} (hSg : Sg.PosDef)
    (hlim : Tendsto (fun N => empCov (fun i : Fin N => x i) Finset.univ true) atTop (𝓝 Sg)) {alpha : ℕ → ℝ}
    (hal : ∀ N, 0 ≤ alpha N) (hal0 : Tendsto alpha atTop (𝓝 0)) {theta : ℕ → (r : Fin d) → {j // j ≠ r} → ℝ}
    (h : ∀ N, IsNodeFit (fun i : Fin N => x i) (alpha N) (theta N)) {i j : Fin d} (hij : i < j) (h0 : Sg⁻¹ i j ≠ 0) :
    ∀ᶠ N in atTop, buildAdjacency d (nodeTable (theta N)) "union" i j * Sg⁻¹ i j < 0 ∧
      buildAdjacency d (nodeTable (theta N)) "intersection" i j * Sg⁻¹ i j < 0 := by
  obtain ⟨h1, h2⟩ := C215_returned x hSg hlim hal hal0 h hij
  have hi : 0 < Sg⁻¹ i i := hSg.inv.diag_pos
  have hj : 0 < Sg⁻¹ j j := hSg.inv.diag_pos
  have hneg : ∀ c : ℝ, 0 < c → -Sg⁻¹ i j * c * Sg⁻¹ i j < 0 := fun c hc => by
    have : 0 < Sg⁻¹ i j * Sg⁻¹ i j := mul_self_pos.mpr h0
    nlinarith
  exact ((h1.mul_const _).eventually_lt_const (hneg _ (by positivity))).and
    ((h2.mul_const _).eventually_lt_const (hneg _ (by positivity)))

/-- C215 (sampled data). Rows drawn pairwise independently from a distribution with finite second moments: almost surely,
with `alpha` going to zero, the coefficients of every variable approach those of the best linear prediction without
intercept, and every edge is eventually selected. -/
theorem C215_consistent {Ω : Type*} [MeasurableSpace Ω] {μ : Measure Ω} [IsProbabilityMeasure μ] {x : ℕ → Ω → Fin d → ℝ}
    (h : IidRows μ x) (hpd : (popCov μ (x 0) true).PosDef) :
    ∀ᵐ ω ∂μ, ∀ alpha : ℕ → ℝ, (∀ N, 0 ≤ alpha N) → Tendsto alpha atTop (𝓝 0) →
      ∀ theta : ℕ → (r : Fin d) → {j // j ≠ r} → ℝ,
        (∀ N, IsNodeFit (fun i : Fin N => x i ω) (alpha N) (theta N)) →
        (∀ r, Tendsto (fun N => theta N r) atTop (𝓝 (popCoef (popCov μ (x 0) true)⁻¹ r))) ∧
        ∀ᶠ N in atTop, ∀ i j : Fin d, i < j → (popCov μ (x 0) true)⁻¹ i j ≠ 0 →
          buildAdjacency d (nodeTable (theta N)) "union" i j ≠ 0 ∧
          buildAdjacency d (nodeTable (theta N)) "intersection" i j ≠ 0 := by
  filter_upwards [C211_data h true] with ω hω alpha hal hal0 theta hth
  exact ⟨fun r => C215_limit (fun i => x i ω) hpd hω hal hal0 r fun N => hth N r,
    C215_edges (fun i => x i ω) hpd hω hal hal0 hth⟩

/-! ### Data that are not centred -/

theorem exists_shifted_rows : ∃ (μ : Measure (ℕ → Fin 2 → ℝ)) (x : ℕ → (ℕ → Fin 2 → ℝ) → Fin 2 → ℝ),
    IsProbabilityMeasure μ ∧ IidRows μ x ∧ popCov μ (x 0) false = 1 ∧ popCov μ (x 0) true = !![2, 1; 1, 2] := by
  obtain ⟨μ, h1, h2, h3, -⟩ := normal_rows (Fin 2)
  obtain ⟨c, hc⟩ : ∃ c : Fin 2 → ℝ, c = fun a => 1 - ∫ ω, ω 0 a ∂μ := ⟨_, rfl⟩
  have hmeas : Measurable fun v : Fin 2 → ℝ => v + c := measurable_id.add_const c
  have hid : ∀ a, Integrable (fun ω : ℕ → Fin 2 → ℝ => ω 0 a) μ := fun a => (h2.sq a).integrable (by norm_num)
  have hL2 : ∀ a, MemLp (fun ω : ℕ → Fin 2 → ℝ => (ω 0 + c) a) 2 μ := fun a => (h2.sq a).add (memLp_const (c a))
  have hmean : ∀ a, ∫ ω, (ω 0 + c) a ∂μ = 1 := by
    intro a
    have : ∫ ω, (ω 0 a + c a) ∂μ = 1 := by
      rw [integral_add (hid a) (integrable_const _), integral_const, hc]
      simp
    exact this
  have hcov : popCov μ (fun ω => ω 0 + c) false = 1 := by
    rw [← h3]
    ext a b
    simp only [popCov, Matrix.of_apply, Bool.false_eq_true, if_false, Pi.add_apply]
    rw [covariance_add_const_left (hid a), covariance_add_const_right (hid b)]
  refine ⟨μ, fun i ω => ω i + c, h1, ⟨fun i j hij => (h2.indep i j hij).comp hmeas hmeas,
    fun i => (h2.ident i).comp hmeas, hL2⟩, hcov, ?_⟩
  ext a b
  have e : popCov μ (fun ω => ω 0 + c) true a b = popCov μ (fun ω => ω 0 + c) false a b + 1 := by
    simp only [popCov, Matrix.of_apply, Bool.false_eq_true, if_false, if_true]
    rw [covariance_eq_sub (hL2 a) (hL2 b), hmean, hmean]
    simp [Pi.mul_apply]
  rw [e, hcov]
  fin_cases a <;> fin_cases b <;> norm_num [Matrix.one_apply]

theorem shifted_posDef : (!![2, 1; 1, 2] : Matrix (Fin 2) (Fin 2) ℝ).PosDef := by
  refine PosDef.of_dotProduct_mulVec_pos ?_ fun v hv => ?_
  · ext a b
    fin_cases a <;> fin_cases b <;> simp
  · have hne : v 0 ≠ 0 ∨ v 1 ≠ 0 := by
      by_contra hc
      push Not at hc
      exact hv (by ext a; fin_cases a; exacts [hc.1, hc.2])
    simp only [star_trivial, dotProduct, mulVec, Fin.sum_univ_two]
    simp
    rcases hne with h | h
    · nlinarith [sq_nonneg (v 0 + v 1), sq_nonneg (v 1), mul_self_pos.mpr h]
    · nlinarith [sq_nonneg (v 0 + v 1), sq_nonneg (v 0), mul_self_pos.mpr h]

theorem shifted_inv : (!![2, 1; 1, 2] : Matrix (Fin 2) (Fin 2) ℝ)⁻¹ = !![2 / 3, -1 / 3; -1 / 3, 2 / 3] := by
  refine Matrix.inv_eq_right_inv ?_
  ext a b
  fin_cases a <;> fin_cases b <;> norm_num [Matrix.mul_apply, Fin.sum_univ_two]

/-- C215 is false for data that are not centred: two uncorrelated variables of unit variance and mean one are almost surely
joined, by both rules, once there are enough rows and the penalty is small enough. -/
theorem C215_uncentered_false : ∃ (μ : Measure (ℕ → Fin 2 → ℝ)) (x : ℕ → (ℕ → Fin 2 → ℝ) → Fin 2 → ℝ),
    IsProbabilityMeasure μ ∧ IidRows μ x ∧ popCov μ (x 0) false = 1 ∧
      ∀ᵐ ω ∂μ, ∀ alpha : ℕ → ℝ, (∀ N, 0 ≤ alpha N) → Tendsto alpha atTop (𝓝 0) →
        ∀ theta : ℕ → (r : Fin 2) → {j // j ≠ r} → ℝ,
          (∀ N, IsNodeFit (fun i : Fin N => x i ω) (alpha N) (theta N)) → ∀ᶠ N in atTop,
            buildAdjacency 2 (nodeTable (theta N)) "union" 0 1 ≠ 0 ∧
            buildAdjacency 2 (nodeTable (theta N)) "intersection" 0 1 ≠ 0 := by
  obtain ⟨μ, x, h1, h2, h3, h4⟩ := exists_shifted_rows
  refine ⟨μ, x, h1, h2, h3, ?_⟩
  have hpd : (popCov μ (x 0) true).PosDef := by rw [h4]; exact shifted_posDef
  filter_upwards [C215_consistent h2 hpd] with ω hω alpha hal hal0 theta hth
  refine (hω alpha hal hal0 theta hth).2.mono fun N hN => hN 0 1 (by decide) ?_
  rw [h4, shifted_inv]
  norm_num

theorem exists_nodeLasso {ι : Type*} [Fintype ι] {N : ℕ} (Xs : Fin N → ι → ℝ) (xr : Fin N → ℝ) {alpha : ℝ}
    (ha : 0 ≤ alpha) : ∃ theta, IsMin Set.univ (nodeLasso Xs xr alpha) theta := by
  rcases Nat.eq_zero_or_pos N with h0 | hN
  · subst h0
    refine ⟨0, trivial, fun y _ => ?_⟩
    simp only [nodeLasso, Finset.univ_eq_empty, Finset.sum_empty, mul_zero, Pi.zero_apply, abs_zero,
      Finset.sum_const_zero, zero_add]
    exact mul_nonneg ha (Finset.sum_nonneg fun _ _ => abs_nonneg _)
  · obtain ⟨t, -, ht⟩ := nodeLasso_exists hN (fun i k => Xs i ((Fintype.equivFin ι).symm k)) xr ha
    have e : ∀ y : ι → ℝ, nodeLasso Xs xr alpha y =
        nodeLasso (fun i k => Xs i ((Fintype.equivFin ι).symm k)) xr alpha fun k => y ((Fintype.equivFin ι).symm k) := by
      intro y
      unfold nodeLasso
      rw [← Equiv.sum_comp (Fintype.equivFin ι).symm fun k => |y k|]
      congr 2
      refine Finset.sum_congr rfl fun i _ => ?_
      rw [← Equiv.sum_comp (Fintype.equivFin ι).symm fun k => Xs i k * y k]
    refine ⟨fun k => t (Fintype.equivFin ι k), trivial, fun y _ => ?_⟩
    rw [e, e y]
    simp only [Equiv.apply_symm_apply]
    exact ht _ trivial

/-- Non-vacuity for C215: for every sequence of data sets and penalties there are estimates as assumed. -/
example (x : ℕ → Fin d → ℝ) {alpha : ℕ → ℝ} (hal : ∀ N, 0 ≤ alpha N) :
    ∃ theta : ℕ → (r : Fin d) → {j // j ≠ r} → ℝ, ∀ N, IsNodeFit (fun i : Fin N => x i) (alpha N) (theta N) :=
  ⟨fun N r => (exists_nodeLasso (otherCols (fun i : Fin N => x i) r) (fun i => x i r) (hal N)).choose,
    fun N r => (exists_nodeLasso (otherCols (fun i : Fin N => x i) r) (fun i => x i r) (hal N)).choose_spec⟩

end Verif.Props
