import Verif.Props.OverlapRun
import Verif.Props.Lasso
import Mathlib.Topology.Order.MonotoneConvergence
import Mathlib.Topology.Sequences
import Mathlib.Topology.MetricSpace.ProperSpace

/-! Property theorems C176: convergence of the loop of `group_lasso_overlap`
(regain/linear_model/group_lasso_overlap_.py:91-180). -/

namespace Verif.Props

open Matrix Verif.Model Verif.Spec Verif.Lemmas Filter Topology

set_option autoImplicit false
set_option linter.unusedSectionVars false

variable {m p : ℕ}

/-- Coefficients and multipliers that satisfy the optimality conditions of the weighted lasso. -/
def OverlapKKT (A : Matrix (Fin m) (Fin p) ℝ) (b : Fin m → ℝ) (lamda : ℝ) (D : ℕ → ℕ) (x y : Fin p → ℝ) : Prop :=
  (∀ (i : Fin p) (t : ℝ), lamda * |x i| - y i * (t - x i) ≤ lamda * |t|) ∧
    ∀ i : Fin p, (Aᵀ *ᵥ (A *ᵥ x - b)) i = D i * y i

theorem OverlapKKT.min {A : Matrix (Fin m) (Fin p) ℝ} {b : Fin m → ℝ} {lamda : ℝ} {D : ℕ → ℕ} {x y : Fin p → ℝ}
    (h : OverlapKKT A b lamda D x y) : IsMin Set.univ (weightedLassoObj A b lamda fun i => D i) x := by
  refine ⟨trivial, fun w _ => ?_⟩
  have h1 := loss_convex A b x w
  simp only [h.2] at h1
  have h2 := Finset.sum_le_sum fun i (_ : i ∈ (Finset.univ : Finset (Fin p))) =>
    mul_le_mul_of_nonneg_left (h.1 i (w i)) (Nat.cast_nonneg (D i))
  have e1 : ∑ i : Fin p, (D i : ℝ) * (lamda * |x i| - y i * (w i - x i)) =
      lamda * ∑ i : Fin p, (D i : ℝ) * |x i| - ∑ i : Fin p, (D i : ℝ) * y i * (w i - x i) := by
    rw [Finset.mul_sum, ← Finset.sum_sub_distrib]
    exact Finset.sum_congr rfl fun i _ => by ring
  have e2 : ∑ i : Fin p, (D i : ℝ) * (lamda * |w i|) = lamda * ∑ i : Fin p, (D i : ℝ) * |w i| := by
    rw [Finset.mul_sum]
    exact Finset.sum_congr rfl fun i _ => by ring
  rw [e1, e2] at h2
  unfold weightedLassoObj
  linarith

/-- The weighted lasso has a solution with multipliers. -/
theorem exists_overlapKKT (A : Matrix (Fin m) (Fin p) ℝ) (b : Fin m → ℝ) {lamda : ℝ} (hl : 0 ≤ lamda)
    {D : ℕ → ℕ} (hD : ∀ i : Fin p, D i ≠ 0) : ∃ x y, OverlapKKT A b lamda D x y := by
  set B : Matrix (Fin m) (Fin p) ℝ := fun k i => A k i / D i with hB
  obtain ⟨w, -, hw⟩ := C46_solution_exists B b hl
  have hfix := (lasso_min_iff B b hl one_pos w).mpr fun z => hw z trivial
  have hD' : ∀ i : Fin p, (0 : ℝ) < D i := fun i => by exact_mod_cast Nat.pos_of_ne_zero (hD i)
  have hBA : B *ᵥ w = A *ᵥ fun i => w i / D i := by
    funext k
    unfold mulVec dotProduct
    exact Finset.sum_congr rfl fun i _ => by simp only [hB]; ring
  have hBt : ∀ (r : Fin m → ℝ) (i : Fin p), (D i : ℝ) * (Bᵀ *ᵥ r) i = (Aᵀ *ᵥ r) i := by
    intro r i
    unfold mulVec dotProduct
    rw [Finset.mul_sum]
    refine Finset.sum_congr rfl fun k _ => ?_
    have := (hD' i).ne'
    show (D i : ℝ) * (A k i / D i * r k) = A k i * r k
    field_simp
  refine ⟨fun i => w i / D i, Bᵀ *ᵥ (B *ᵥ w - b), fun i t => ?_, fun i => ?_⟩
  · have h1 := congrFun hfix i
    simp only [one_mul, mul_one] at h1
    have h1' : softScalar (w i - (Bᵀ *ᵥ (B *ᵥ w - b)) i) lamda = w i := h1
    have h2 := softScalar_subgrad hl (w i - (Bᵀ *ᵥ (B *ᵥ w - b)) i) (D i * t)
    rw [h1', abs_mul, abs_of_pos (hD' i)] at h2
    have h3 := (hD' i).ne'
    have e : w i = D i * (w i / D i) := by field_simp
    have e' : |w i| = D i * |w i / D i| := by
      conv_lhs => rw [e, abs_mul, abs_of_pos (hD' i)]
    generalize (Bᵀ *ᵥ (B *ᵥ w - b)) i = yi at *
    rw [e'] at h2
    have h4 : (D i : ℝ) * (lamda * |w i / D i| - yi * (t - w i / D i)) ≤ D i * (lamda * |t|) := by
      have : yi * (D i * t - w i) = D i * (yi * (t - w i / D i)) := by
        conv_lhs => rw [e]
        ring
      nlinarith
    exact le_of_mul_le_mul_left h4 (hD' i)
  · rw [← hBA, hBt]

/-- The energy of a state relative to a solution. -/
noncomputable def overlapEnergy (D : ℕ → ℕ) (rho : ℝ) (xs ys : Fin p → ℝ) (s : FeatState p) : ℝ :=
  ∑ i : Fin p, (D i : ℝ) * (rho / 2 * (s.x i - xs i - (s.y i - ys i) / rho) ^ 2 + 1 / (2 * rho) * (s.y i - ys i) ^ 2)

theorem overlapEnergy_nonneg (D : ℕ → ℕ) {rho : ℝ} (hr : 0 < rho) (xs ys : Fin p → ℝ) (s : FeatState p) :
    0 ≤ overlapEnergy D rho xs ys s :=
  Finset.sum_nonneg fun i _ => by positivity

/-- A pass decreases the energy when the penalty dominates half of the quadratic loss. -/
theorem overlapEnergy_step (A : Matrix (Fin m) (Fin p) ℝ) (b : Fin m → ℝ) {lamda rho c : ℝ} (hr : 0 < rho)
    (hl : 0 ≤ lamda) {D : ℕ → ℕ} {inv : Matrix (Fin p) (Fin p) ℝ}
    (hinv : (Aᵀ * A + rho • diagonal fun i : Fin p => (D i : ℝ)) * inv = 1) (hc0 : 0 < c)
    (hc : ∀ u : Fin p → ℝ, ∑ k, ((A *ᵥ u) k) ^ 2 ≤ c * rho * ∑ i : Fin p, (D i : ℝ) * u i ^ 2)
    {xs ys : Fin p → ℝ} (hs : OverlapKKT A b lamda D xs ys) (s : FeatState p) :
    overlapEnergy D rho xs ys (featStep A b lamda rho D inv s) +
      ((2 - c) / (2 * c * rho) * ∑ i : Fin p, (D i : ℝ) * ((featStep A b lamda rho D inv s).y i - ys i) ^ 2 +
      rho / 2 * ∑ i : Fin p, (D i : ℝ) * ((featStep A b lamda rho D inv s).x i - s.x i + (s.y i - ys i) / rho) ^ 2)
      ≤ overlapEnergy D rho xs ys s := by
  have hgrad := featStep_grad A b lamda hinv s
  have hsub := fun i => (featStep_sub A b hr hl D inv s i (xs i)).1
  have hy : ∀ i, (featStep A b lamda rho D inv s).y i = s.y i + rho * ((featStep A b lamda rho D inv s).x i -
    (featStep A b lamda rho D inv s).z i) := fun _ => rfl
  set s' := featStep A b lamda rho D inv s with hs'
  set u : Fin p → ℝ := s'.z - xs with hu
  set w : Fin p → ℝ := s'.y - ys with hw
  -- gradient of the difference
  have hg : ∀ i, (Aᵀ *ᵥ (A *ᵥ u)) i = D i * w i := by
    intro i
    have e : A *ᵥ u = (A *ᵥ s'.z - b) - (A *ᵥ xs - b) := by rw [hu, mulVec_sub]; abel
    rw [e, mulVec_sub, Pi.sub_apply, hgrad, hs.2, hw, Pi.sub_apply]
    ring
  have hpair : ∀ v : Fin p → ℝ, ∑ i : Fin p, (D i : ℝ) * (w i * v i) = ∑ k, (A *ᵥ u) k * (A *ᵥ v) k := by
    intro v
    have h1 : (Aᵀ *ᵥ (A *ᵥ u)) ⬝ᵥ v = (A *ᵥ u) ⬝ᵥ (A *ᵥ v) := by
      rw [mulVec_transpose, ← dotProduct_mulVec]
    have h2 : (Aᵀ *ᵥ (A *ᵥ u)) ⬝ᵥ v = ∑ i : Fin p, (D i : ℝ) * (w i * v i) := by
      unfold dotProduct
      exact Finset.sum_congr rfl fun i _ => by rw [hg]; ring
    rw [← h2, h1]
    rfl
  have hco : 1 / (c * rho) * ∑ i : Fin p, (D i : ℝ) * w i ^ 2 ≤ ∑ i : Fin p, (D i : ℝ) * (u i * w i) := by
    have e1 : ∑ i : Fin p, (D i : ℝ) * w i ^ 2 = ∑ k, (A *ᵥ u) k * (A *ᵥ w) k := by
      rw [← hpair w]; exact Finset.sum_congr rfl fun i _ => by ring
    have e2 : ∑ i : Fin p, (D i : ℝ) * (u i * w i) = ∑ k, (A *ᵥ u) k ^ 2 := by
      have := hpair u
      simp only [← pow_two] at this
      rw [← this]; exact Finset.sum_congr rfl fun i _ => by ring
    have hcr : 0 < c * rho := mul_pos hc0 hr
    have h3 : ∑ k, (A *ᵥ u) k * (A *ᵥ w) k ≤ c * rho / 2 * (∑ k, (A *ᵥ u) k ^ 2) +
        1 / (2 * (c * rho)) * ∑ k, (A *ᵥ w) k ^ 2 := by
      rw [Finset.mul_sum, Finset.mul_sum, ← Finset.sum_add_distrib]
      refine Finset.sum_le_sum fun k _ => ?_
      have h := sq_nonneg (c * rho * (A *ᵥ u) k - (A *ᵥ w) k)
      have h' : 0 ≤ 1 / (2 * (c * rho)) * (c * rho * (A *ᵥ u) k - (A *ᵥ w) k) ^ 2 := by positivity
      have e : 1 / (2 * (c * rho)) * (c * rho * (A *ᵥ u) k - (A *ᵥ w) k) ^ 2 =
          c * rho / 2 * (A *ᵥ u) k ^ 2 + 1 / (2 * (c * rho)) * (A *ᵥ w) k ^ 2 - (A *ᵥ u) k * (A *ᵥ w) k := by
        field_simp; ring
      linarith
    have h4 : 1 / (2 * (c * rho)) * ∑ k, (A *ᵥ w) k ^ 2 ≤ 1 / 2 * ∑ i : Fin p, (D i : ℝ) * w i ^ 2 := by
      have := mul_le_mul_of_nonneg_left (hc w) (by positivity : 0 ≤ 1 / (2 * (c * rho)))
      have e : 1 / (2 * (c * rho)) * (c * rho * ∑ i : Fin p, (D i : ℝ) * w i ^ 2) =
          1 / 2 * ∑ i : Fin p, (D i : ℝ) * w i ^ 2 := by field_simp
      rwa [e] at this
    rw [← e1, ← e2] at h3
    have h5 : ∑ i : Fin p, (D i : ℝ) * w i ^ 2 ≤ c * rho * ∑ i : Fin p, (D i : ℝ) * (u i * w i) := by linarith
    rw [one_div, ← div_eq_inv_mul, div_le_iff₀ hcr]
    linarith
  -- coordinates
  have key : ∀ i : Fin p, (D i : ℝ) * (rho / 2 * (s'.x i - xs i - (s'.y i - ys i) / rho) ^ 2 +
        1 / (2 * rho) * (s'.y i - ys i) ^ 2) + (D i : ℝ) * (u i * w i) - 1 / (2 * rho) * ((D i : ℝ) * w i ^ 2) +
      rho / 2 * ((D i : ℝ) * (s'.x i - s.x i + (s.y i - ys i) / rho) ^ 2) ≤
      (D i : ℝ) * (rho / 2 * (s.x i - xs i - (s.y i - ys i) / rho) ^ 2 + 1 / (2 * rho) * (s.y i - ys i) ^ 2) := by
    intro i
    have hDi : (0 : ℝ) ≤ D i := Nat.cast_nonneg _
    have h1 := hsub i
    have h2 := hs.1 i (s'.x i)
    have hz : s'.z i = s'.x i - (s'.y i - s.y i) / rho := by
      rw [hy i]; field_simp; ring
    have h3 : 0 ≤ (rho * (s.x i - s'.x i) - (s.y i - ys i)) * (s'.x i - xs i) := by
      rw [hz] at h1
      have e : rho * (s.x i - (s'.x i - (s'.y i - s.y i) / rho)) = rho * (s.x i - s'.x i) + (s'.y i - s.y i) := by
        field_simp; ring
      rw [e] at h1
      nlinarith
    have e : rho / 2 * (s.x i - xs i - (s.y i - ys i) / rho) ^ 2 + 1 / (2 * rho) * (s.y i - ys i) ^ 2 -
        (rho / 2 * (s'.x i - xs i - (s'.y i - ys i) / rho) ^ 2 + 1 / (2 * rho) * (s'.y i - ys i) ^ 2 +
          (s'.z i - xs i) * (s'.y i - ys i) - 1 / (2 * rho) * (s'.y i - ys i) ^ 2 +
          rho / 2 * (s'.x i - s.x i + (s.y i - ys i) / rho) ^ 2) =
        (rho * (s.x i - s'.x i) - (s.y i - ys i)) * (s'.x i - xs i) + 1 / (2 * rho) * (s'.y i - s.y i) ^ 2 := by
      rw [hz]; field_simp; ring
    have h4 : 0 ≤ 1 / (2 * rho) * (s'.y i - s.y i) ^ 2 := by positivity
    have h5 := mul_nonneg hDi (add_nonneg h3 h4)
    rw [← e] at h5
    simp only [hu, hw, Pi.sub_apply]
    linarith
  have hsum := Finset.sum_le_sum fun i (_ : i ∈ (Finset.univ : Finset (Fin p))) => key i
  simp only [Finset.sum_add_distrib, Finset.sum_sub_distrib, ← Finset.mul_sum] at hsum
  unfold overlapEnergy
  simp only [Finset.sum_add_distrib, mul_add] at hsum ⊢
  have e : (2 - c) / (2 * c * rho) * ∑ i : Fin p, (D i : ℝ) * (s'.y i - ys i) ^ 2 =
      1 / (c * rho) * (∑ i : Fin p, (D i : ℝ) * w i ^ 2) - 1 / (2 * rho) * ∑ i : Fin p, (D i : ℝ) * w i ^ 2 := by
    rw [← sub_mul]
    congr 1
    field_simp
  rw [e]
  linarith

/-- A non-increasing bounded sequence that loses at least `d k` in step `k`. -/
theorem tendsto_loss {V d : ℕ → ℝ} (hV : ∀ k, 0 ≤ V k) (hd : ∀ k, 0 ≤ d k) (h : ∀ k, V (k + 1) + d k ≤ V k) :
    Tendsto d atTop (𝓝 0) := by
  have hanti : Antitone V := antitone_nat_of_succ_le fun k => by linarith [h k, hd k]
  have hlim := tendsto_atTop_ciInf hanti ⟨0, by rintro _ ⟨k, rfl⟩; exact hV k⟩
  have h1 : Tendsto (fun k => V k - V (k + 1)) atTop (𝓝 0) := by
    have := hlim.sub (hlim.comp (tendsto_add_atTop_nat 1))
    rwa [sub_self] at this
  exact squeeze_zero hd (fun k => by linarith [h k]) h1

/-- A coordinate of a weighted sum of squares that tends to zero. -/
theorem tendsto_of_weighted {D : ℕ → ℕ} (hD : ∀ i : Fin p, D i ≠ 0) {f : ℕ → Fin p → ℝ}
    (h : Tendsto (fun k => ∑ i : Fin p, (D i : ℝ) * f k i ^ 2) atTop (𝓝 0)) (i : Fin p) :
    Tendsto (fun k => f k i) atTop (𝓝 0) := by
  have h1 : Tendsto (fun k => f k i ^ 2) atTop (𝓝 0) := by
    refine squeeze_zero (fun k => sq_nonneg _) (fun k => ?_) h
    have hD' : (1 : ℝ) ≤ D i := by exact_mod_cast Nat.one_le_iff_ne_zero.mpr (hD i)
    calc f k i ^ 2 ≤ D i * f k i ^ 2 := le_mul_of_one_le_left (sq_nonneg _) hD'
      _ ≤ _ := Finset.single_le_sum (f := fun i : Fin p => (D i : ℝ) * f k i ^ 2)
        (fun j _ => by positivity) (Finset.mem_univ i)
  have h2 := (Real.continuous_sqrt.tendsto _).comp h1
  rw [Real.sqrt_zero] at h2
  refine (tendsto_zero_iff_abs_tendsto_zero _).mpr (h2.congr fun k => ?_)
  exact Real.sqrt_sq_eq_abs _

/-- The passes converge to a solution of the weighted lasso. -/
theorem featStep_converges (A : Matrix (Fin m) (Fin p) ℝ) (b : Fin m → ℝ) {lamda rho c : ℝ} (hr : 0 < rho)
    (hl : 0 ≤ lamda) {D : ℕ → ℕ} (hD : ∀ i : Fin p, D i ≠ 0) {inv : Matrix (Fin p) (Fin p) ℝ}
    (hinv : (Aᵀ * A + rho • diagonal fun i : Fin p => (D i : ℝ)) * inv = 1) (hc0 : 0 < c) (hc2 : c < 2)
    (hc : ∀ u : Fin p → ℝ, ∑ k, ((A *ᵥ u) k) ^ 2 ≤ c * rho * ∑ i : Fin p, (D i : ℝ) * u i ^ 2)
    {s : ℕ → FeatState p} (hs : ∀ k, s (k + 1) = featStep A b lamda rho D inv (s k)) :
    ∃ x y, OverlapKKT A b lamda D x y ∧ Tendsto (fun k => (s k).x) atTop (𝓝 x) ∧
      Tendsto (fun k => (s k).z) atTop (𝓝 x) ∧ Tendsto (fun k => (s k).y) atTop (𝓝 y) := by
  obtain ⟨xs, ys, hk⟩ := exists_overlapKKT A b hl hD
  have hD1 : ∀ i : Fin p, (1 : ℝ) ≤ D i := fun i => by exact_mod_cast Nat.one_le_iff_ne_zero.mpr (hD i)
  have hcoef : 0 < (2 - c) / (2 * c * rho) := div_pos (by linarith) (by positivity)
  have hstep := fun k => overlapEnergy_step A b hr hl hinv hc0 hc hk (s k)
  simp only [← hs] at hstep
  have hn1 : ∀ k, 0 ≤ (2 - c) / (2 * c * rho) * ∑ i : Fin p, (D i : ℝ) * ((s (k + 1)).y i - ys i) ^ 2 :=
    fun k => mul_nonneg hcoef.le (Finset.sum_nonneg fun i _ => by positivity)
  have hn2 : ∀ k, 0 ≤ rho / 2 * ∑ i : Fin p, (D i : ℝ) *
      ((s (k + 1)).x i - (s k).x i + ((s k).y i - ys i) / rho) ^ 2 :=
    fun k => mul_nonneg (by positivity) (Finset.sum_nonneg fun i _ => by positivity)
  have hloss := tendsto_loss (fun k => overlapEnergy_nonneg D hr xs ys (s k))
    (fun k => add_nonneg (hn1 k) (hn2 k)) hstep
  -- multipliers
  have hy : ∀ i, Tendsto (fun k => (s k).y i) atTop (𝓝 (ys i)) := by
    intro i
    have h1 := squeeze_zero hn1 (fun k => le_add_of_nonneg_right (hn2 k)) hloss
    have h2 := h1.const_mul ((2 - c) / (2 * c * rho))⁻¹
    simp only [inv_mul_cancel_left₀ hcoef.ne', mul_zero] at h2
    have h3 := tendsto_of_weighted hD (f := fun k i => (s (k + 1)).y i - ys i) h2 i
    have h4 := h3.add_const (ys i)
    simp only [sub_add_cancel, zero_add] at h4
    exact (tendsto_add_atTop_iff_nat 1).mp h4
  have hdx : ∀ i, Tendsto (fun k => (s (k + 1)).x i - (s k).x i) atTop (𝓝 0) := by
    intro i
    have h1 := squeeze_zero hn2 (fun k => le_add_of_nonneg_left (hn1 k)) hloss
    have h2 := h1.const_mul (rho / 2)⁻¹
    simp only [inv_mul_cancel_left₀ (by positivity : rho / 2 ≠ 0), mul_zero] at h2
    have h3 := tendsto_of_weighted hD
      (f := fun k i => (s (k + 1)).x i - (s k).x i + ((s k).y i - ys i) / rho) h2 i
    have h4 : Tendsto (fun k => ((s k).y i - ys i) / rho) atTop (𝓝 0) := by
      have := ((hy i).sub_const (ys i)).div_const rho
      simpa using this
    have h5 := h3.sub h4
    simpa using h5
  have hzx : ∀ i, Tendsto (fun k => (s (k + 1)).z i - (s (k + 1)).x i) atTop (𝓝 0) := by
    intro i
    have h1 := (((hy i).comp (tendsto_add_atTop_nat 1)).sub (hy i)).div_const rho
    rw [sub_self, zero_div] at h1
    have h2 := h1.neg
    rw [neg_zero] at h2
    refine h2.congr fun k => ?_
    have e : (s (k + 1)).y i = (s k).y i + rho * ((s (k + 1)).x i - (s (k + 1)).z i) := by rw [hs]; rfl
    show -(((s (k + 1)).y i - (s k).y i) / rho) = _
    rw [e]; field_simp; ring
  -- bounded coefficients
  have hanti : ∀ {xs' ys' : Fin p → ℝ}, OverlapKKT A b lamda D xs' ys' →
      Antitone fun k => overlapEnergy D rho xs' ys' (s k) := by
    intro xs' ys' hk'
    refine antitone_nat_of_succ_le fun k => ?_
    have h := overlapEnergy_step A b hr hl hinv hc0 hc hk' (s k)
    rw [← hs] at h
    have h1 : 0 ≤ (2 - c) / (2 * c * rho) * ∑ i : Fin p, (D i : ℝ) * ((s (k + 1)).y i - ys' i) ^ 2 :=
      mul_nonneg hcoef.le (Finset.sum_nonneg fun i _ => by positivity)
    have h2 : 0 ≤ rho / 2 * ∑ i : Fin p, (D i : ℝ) *
        ((s (k + 1)).x i - (s k).x i + ((s k).y i - ys' i) / rho) ^ 2 :=
      mul_nonneg (by positivity) (Finset.sum_nonneg fun i _ => by positivity)
    linarith
  have hcoord : ∀ (xs' ys' : Fin p → ℝ) (t : FeatState p) (i : Fin p),
      rho / 2 * (t.x i - xs' i - (t.y i - ys' i) / rho) ^ 2 ≤ overlapEnergy D rho xs' ys' t := by
    intro xs' ys' t i
    have h1 : rho / 2 * (t.x i - xs' i - (t.y i - ys' i) / rho) ^ 2 ≤
        (D i : ℝ) * (rho / 2 * (t.x i - xs' i - (t.y i - ys' i) / rho) ^ 2 +
          1 / (2 * rho) * (t.y i - ys' i) ^ 2) := by
      have h2 : 0 ≤ rho / 2 * (t.x i - xs' i - (t.y i - ys' i) / rho) ^ 2 := by positivity
      have h3 : 0 ≤ 1 / (2 * rho) * (t.y i - ys' i) ^ 2 := by positivity
      nlinarith [hD1 i]
    exact h1.trans (Finset.single_le_sum (f := fun i : Fin p => (D i : ℝ) *
      (rho / 2 * (t.x i - xs' i - (t.y i - ys' i) / rho) ^ 2 + 1 / (2 * rho) * (t.y i - ys' i) ^ 2))
      (fun j _ => by positivity) (Finset.mem_univ i))
  obtain ⟨R, hR⟩ : ∃ R, ∀ k, (s k).x ∈ Metric.closedBall xs R := by
    have hyb : ∀ i, ∃ C, ∀ k, |(s k).y i - ys i| ≤ C := by
      intro i
      obtain ⟨C, hC⟩ := ((hy i).sub_const (ys i)).abs.bddAbove_range
      exact ⟨C, fun k => hC ⟨k, rfl⟩⟩
    choose C hC using hyb
    set E := overlapEnergy D rho xs ys (s 0) with hE
    have hE0 : 0 ≤ E := overlapEnergy_nonneg D hr xs ys (s 0)
    refine ⟨∑ i, (Real.sqrt (2 / rho * E) + C i / rho), fun k => ?_⟩
    have hCi : ∀ i, 0 ≤ Real.sqrt (2 / rho * E) + C i / rho := fun i =>
      add_nonneg (Real.sqrt_nonneg _) (div_nonneg ((abs_nonneg _).trans (hC i 0)) hr.le)
    rw [Metric.mem_closedBall, dist_pi_le_iff (Finset.sum_nonneg fun i _ => hCi i)]
    intro i
    refine le_trans ?_ (Finset.single_le_sum (fun j _ => hCi j) (Finset.mem_univ i))
    have h1 := (hcoord xs ys (s k) i).trans (hanti hk (Nat.zero_le k))
    have h2 : ((s k).x i - xs i - ((s k).y i - ys i) / rho) ^ 2 ≤ 2 / rho * E := by
      have := mul_le_mul_of_nonneg_left h1 (by positivity : 0 ≤ 2 / rho)
      have e : 2 / rho * (rho / 2 * ((s k).x i - xs i - ((s k).y i - ys i) / rho) ^ 2) =
          ((s k).x i - xs i - ((s k).y i - ys i) / rho) ^ 2 := by field_simp
      rwa [e] at this
    have h3 := Real.abs_le_sqrt h2
    have h4 : |((s k).y i - ys i) / rho| ≤ C i / rho := by
      rw [abs_div, abs_of_pos hr]
      exact div_le_div_of_nonneg_right (hC i k) hr.le
    rw [Real.dist_eq]
    have h5 := abs_add_le ((s k).x i - xs i - ((s k).y i - ys i) / rho) (((s k).y i - ys i) / rho)
    rw [sub_add_cancel] at h5
    linarith
  obtain ⟨xh, -, φ, hφ, hlim⟩ := (isCompact_closedBall xs R).tendsto_subseq hR
  have hlimi : ∀ i, Tendsto (fun n => (s (φ n)).x i) atTop (𝓝 (xh i)) := fun i =>
    (tendsto_pi_nhds.mp hlim) i
  have hlim1 : ∀ i, Tendsto (fun n => (s (φ n + 1)).x i) atTop (𝓝 (xh i)) := by
    intro i
    have h1 := ((hdx i).comp hφ.tendsto_atTop).add (hlimi i)
    rw [zero_add] at h1
    exact h1.congr fun n => by simp
  have hlimz : ∀ i, Tendsto (fun n => (s (φ n + 1)).z i) atTop (𝓝 (xh i)) := by
    intro i
    have h1 := ((hzx i).comp hφ.tendsto_atTop).add (hlim1 i)
    rw [zero_add] at h1
    exact h1.congr fun n => by simp
  have hlimy : ∀ i, Tendsto (fun n => (s (φ n + 1)).y i) atTop (𝓝 (ys i)) := fun i =>
    ((hy i).comp (tendsto_add_atTop_nat 1)).comp hφ.tendsto_atTop
  have hkh : OverlapKKT A b lamda D xh ys := by
    constructor
    · intro i t
      have h1 : ∀ n, lamda * |(s (φ n + 1)).x i| + (rho * ((s (φ n)).x i - (s (φ n + 1)).z i) -
          (s (φ n + 1)).y i) * (t - (s (φ n + 1)).x i) ≤ lamda * |t| := by
        intro n
        rw [hs]
        exact (featStep_sub A b hr hl D inv (s (φ n)) i t).1
      have h2 : Tendsto (fun n => lamda * |(s (φ n + 1)).x i| + (rho * ((s (φ n)).x i - (s (φ n + 1)).z i) -
          (s (φ n + 1)).y i) * (t - (s (φ n + 1)).x i)) atTop
          (𝓝 (lamda * |xh i| + (rho * (xh i - xh i) - ys i) * (t - xh i))) :=
        ((hlim1 i).abs.const_mul lamda).add
          (((((hlimi i).sub (hlimz i)).const_mul rho).sub (hlimy i)).mul ((hlim1 i).const_sub t))
      have h3 := le_of_tendsto' h2 h1
      rw [sub_self, mul_zero, zero_sub] at h3
      linarith
    · intro i
      have hcont : Continuous fun v : Fin p → ℝ => (Aᵀ *ᵥ (A *ᵥ v - b)) i := by fun_prop
      have hz : Tendsto (fun n => (s (φ n + 1)).z) atTop (𝓝 xh) := tendsto_pi_nhds.mpr hlimz
      have h1 := (hcont.tendsto xh).comp hz
      refine tendsto_nhds_unique h1 (((hlimy i).const_mul (D i : ℝ)).congr fun n => ?_)
      show _ = (Aᵀ *ᵥ (A *ᵥ (s (φ n + 1)).z - b)) i
      rw [hs, featStep_grad A b lamda hinv]
  -- the energy relative to the limit vanishes
  have hE0 : Tendsto (fun k => overlapEnergy D rho xh ys (s k)) atTop (𝓝 0) := by
    have hl1 := tendsto_atTop_ciInf (hanti hkh)
      ⟨0, by rintro _ ⟨k, rfl⟩; exact overlapEnergy_nonneg D hr xh ys (s k)⟩
    have hl2 : Tendsto (fun n => overlapEnergy D rho xh ys (s (φ n))) atTop (𝓝 0) := by
      have : Tendsto (fun n => overlapEnergy D rho xh ys (s (φ n))) atTop
          (𝓝 (∑ i : Fin p, (D i : ℝ) * (rho / 2 * (xh i - xh i - (ys i - ys i) / rho) ^ 2 +
            1 / (2 * rho) * (ys i - ys i) ^ 2))) := by
        refine tendsto_finsetSum _ fun i _ => ?_
        have hyi := (hy i).comp hφ.tendsto_atTop
        exact (((((hlimi i).sub_const _).sub ((hyi.sub_const _).div_const _)).pow 2).const_mul _).add
          (((hyi.sub_const _).pow 2).const_mul _) |>.const_mul _
      simpa using this
    have hl3 := hl1.comp hφ.tendsto_atTop
    rw [tendsto_nhds_unique hl3 hl2] at hl1
    exact hl1
  have hx : ∀ i, Tendsto (fun k => (s k).x i) atTop (𝓝 (xh i)) := by
    intro i
    have h1 : Tendsto (fun k => ((s k).x i - xh i - ((s k).y i - ys i) / rho) ^ 2) atTop (𝓝 0) := by
      have h2 := hE0.const_mul (2 / rho)
      rw [mul_zero] at h2
      refine squeeze_zero (fun k => sq_nonneg _) (fun k => ?_) h2
      have := mul_le_mul_of_nonneg_left (hcoord xh ys (s k) i) (by positivity : 0 ≤ 2 / rho)
      have e : 2 / rho * (rho / 2 * ((s k).x i - xh i - ((s k).y i - ys i) / rho) ^ 2) =
          ((s k).x i - xh i - ((s k).y i - ys i) / rho) ^ 2 := by field_simp
      rwa [e] at this
    have h2 := (Real.continuous_sqrt.tendsto _).comp h1
    rw [Real.sqrt_zero] at h2
    have h3 := (tendsto_zero_iff_abs_tendsto_zero _).mpr (h2.congr fun k => Real.sqrt_sq_eq_abs _)
    have h4 : Tendsto (fun k => ((s k).y i - ys i) / rho) atTop (𝓝 0) := by
      have := ((hy i).sub_const (ys i)).div_const rho
      simpa using this
    have h5 := (h3.add h4).add_const (xh i)
    simpa using h5
  refine ⟨xh, ys, hkh, tendsto_pi_nhds.mpr hx, tendsto_pi_nhds.mpr fun i => ?_, tendsto_pi_nhds.mpr hy⟩
  have h1 := (hzx i).add ((hx i).comp (tendsto_add_atTop_nat 1))
  rw [zero_add] at h1
  exact (tendsto_add_atTop_iff_nat 1).mp (h1.congr fun k => by simp)

/-- The squares of the entries bound the quadratic form. -/
theorem overlap_gram_le (A : Matrix (Fin m) (Fin p) ℝ) {K : ℝ} (hK : ∑ k, ∑ i, A k i ^ 2 ≤ K) {D : ℕ → ℕ}
    (hD : ∀ i : Fin p, D i ≠ 0) (u : Fin p → ℝ) :
    ∑ k, ((A *ᵥ u) k) ^ 2 ≤ K * ∑ i : Fin p, (D i : ℝ) * u i ^ 2 := by
  have hS : ∑ i, u i ^ 2 ≤ ∑ i : Fin p, (D i : ℝ) * u i ^ 2 := Finset.sum_le_sum fun i _ =>
    le_mul_of_one_le_left (sq_nonneg _) (by exact_mod_cast Nat.one_le_iff_ne_zero.mpr (hD i))
  have h1 : ∑ k, ((A *ᵥ u) k) ^ 2 ≤ (∑ k, ∑ i, A k i ^ 2) * ∑ i, u i ^ 2 := by
    rw [Finset.sum_mul]
    exact Finset.sum_le_sum fun k _ => Finset.sum_mul_sq_le_sq_mul_sq Finset.univ (fun i => A k i) u
  have h0 : 0 ≤ ∑ i, u i ^ 2 := Finset.sum_nonneg fun i _ => sq_nonneg _
  have h2 : 0 ≤ ∑ k, ∑ i, A k i ^ 2 := Finset.sum_nonneg fun k _ => Finset.sum_nonneg fun i _ => sq_nonneg _
  exact h1.trans (mul_le_mul hK hS h0 (h2.trans hK))

/-! ### The run -/

/-- The coefficients and multipliers after `k` passes. -/
noncomputable def featSeq (a : OverlapArgs m p) (inv : Matrix (Fin p) (Fin p) ℝ) : ℕ → FeatState p
  | 0 => ⟨0, 0, 0⟩
  | k + 1 => featStep a.A a.b a.lamda a.rho (groupCount a.groups) inv (featSeq a inv k)

theorem featBody_fst (a : OverlapArgs m p) (D : ℕ → ℕ) (inv : Matrix (Fin p) (Fin p) ℝ) (it : ℕ)
    (s : FeatState p × ℕ) : (featBody a D inv it s).1.1 = featStep a.A a.b a.lamda a.rho D inv s.1 := by
  unfold featBody
  simp only
  split_ifs <;> rfl

theorem featBody_pos (a : OverlapArgs m p) (D : ℕ → ℕ) (inv : Matrix (Fin p) (Fin p) ℝ) (it : ℕ)
    (s : FeatState p × ℕ) (h : lassoStop (featHist a D inv s.1 0) = true) :
    (featBody a D inv it s).1.2 = (if 10 < s.2 then s.2 else s.2 + 1) ∧
      (featBody a D inv it s).2.2 = decide (10 < s.2) := by
  unfold featBody
  simp only
  rw [if_pos h]
  exact ⟨rfl, rfl⟩

theorem featBody_seq (a : OverlapArgs m p) (inv : Matrix (Fin p) (Fin p) ℝ) (k : ℕ) :
    (stateAt (featBody a (groupCount a.groups) inv) (featInit p) k).1 = featSeq a inv k := by
  induction k with
  | zero => rfl
  | succ k ih =>
    show (featBody a (groupCount a.groups) inv k
      (stateAt (featBody a (groupCount a.groups) inv) (featInit p) k)).1.1 = _
    rw [featBody_fst, ih]
    rfl

/-- What a successful call returns. -/
theorem overlap_returns {rag : Bool} {npInv : Matrix (Fin p) (Fin p) ℝ → Matrix (Fin p) (Fin p) ℝ}
    {a : OverlapArgs m p} {z : Fin p → ℝ} {hist : List LassoHist} {k : ℕ}
    (hr : groupLassoOverlap rag npInv a = .ok (z, hist, k)) :
    z = (featSeq a (npInv (overlapGram a)) (k + 1)).z ∧ k + 1 ≤ a.maxIter ∧
      ∀ j < k, stopAt (featBody a (groupCount a.groups) (npInv (overlapGram a))) (featInit p) j = false := by
  unfold groupLassoOverlap at hr
  simp only [overlap_loop] at hr
  rcases runLoop_spec (featBody a (groupCount a.groups) (npInv (overlapGram a))) a.maxIter (featInit p) with
    ⟨j, hj, hn, -, hrun⟩ | ⟨hn, hrun⟩
  · simp only [hrun] at hr
    split_ifs at hr
    obtain ⟨rfl, h2⟩ := Prod.mk.inj (Except.ok.inj hr)
    obtain ⟨rfl, rfl⟩ := Prod.mk.inj h2
    refine ⟨?_, hj, hn⟩
    show (stateAt (featBody a (groupCount a.groups) (npInv (overlapGram a))) (featInit p) (j + 1)).1.z = _
    rw [featBody_seq]
  · simp only [hrun] at hr
    by_cases h0 : a.maxIter = 0
    · simp only [h0, if_true] at hr
      exact absurd hr (by simp)
    · simp only [if_neg h0] at hr
      split_ifs at hr
      obtain ⟨rfl, h2⟩ := Prod.mk.inj (Except.ok.inj hr)
      obtain ⟨rfl, rfl⟩ := Prod.mk.inj h2
      refine ⟨?_, by omega, fun j hj => hn j (by omega)⟩
      show (stateAt (featBody a (groupCount a.groups) (npInv (overlapGram a))) (featInit p) a.maxIter).1.z = _
      rw [featBody_seq, Nat.sub_add_cancel (Nat.pos_of_ne_zero h0)]

theorem overlapGram_count (a : OverlapArgs m p) : overlapGram a =
    a.Aᵀ * a.A + a.rho • diagonal fun i : Fin p => (groupCount a.groups i : ℝ) := by
  unfold overlapGram
  simp only [C48_D_function]

/-- Twelve good passes in a row stop the loop. -/
theorem featBody_stops (a : OverlapArgs m p) (inv : Matrix (Fin p) (Fin p) ℝ) {N : ℕ}
    (h : ∀ k, N ≤ k → lassoStop (featHist a (groupCount a.groups) inv (featSeq a inv k) 0) = true) :
    stopAt (featBody a (groupCount a.groups) inv) (featInit p) (N + 11) = true := by
  set body := featBody a (groupCount a.groups) inv with hb
  have hc : ∀ k, N ≤ k → (stateAt body (featInit p) (k + 1)).2 =
      if 10 < (stateAt body (featInit p) k).2 then (stateAt body (featInit p) k).2
      else (stateAt body (featInit p) k).2 + 1 := by
    intro k hk
    show (body k (stateAt body (featInit p) k)).1.2 = _
    have h1 := h k hk
    rw [← featBody_seq] at h1
    exact (featBody_pos a _ inv k _ h1).1
  have hge : ∀ j ≤ 11, j ≤ (stateAt body (featInit p) (N + j)).2 := by
    intro j
    induction j with
    | zero => intro _; exact Nat.zero_le _
    | succ j ih =>
      intro hj
      have h1 := ih (by omega)
      rw [← Nat.add_assoc, hc (N + j) (by omega)]
      split_ifs <;> omega
  have h11 := hge 11 le_rfl
  show (body (N + 11) (stateAt body (featInit p) (N + 11))).2.2 = true
  have h1 := h (N + 11) (by omega)
  rw [← featBody_seq] at h1
  refine ((featBody_pos a _ inv (N + 11) _ h1).2).trans (decide_eq_true ?_)
  show 10 < (stateAt body (featInit p) (N + 11)).2
  omega

/-- When the passes converge, every call that makes enough of them returns nearly the limit. -/
theorem overlap_close (npInv : Matrix (Fin p) (Fin p) ℝ → Matrix (Fin p) (Fin p) ℝ) (a : OverlapArgs m p)
    (hconv : ∃ x y, OverlapKKT a.A a.b a.lamda (groupCount a.groups) x y ∧
      Tendsto (fun k => (featSeq a (npInv (overlapGram a)) k).x) atTop (𝓝 x) ∧
      Tendsto (fun k => (featSeq a (npInv (overlapGram a)) k).z) atTop (𝓝 x) ∧
      Tendsto (fun k => (featSeq a (npInv (overlapGram a)) k).y) atTop (𝓝 y)) :
    ∃ w, IsMin Set.univ (weightedLassoObj a.A a.b a.lamda fun i => groupCount a.groups i) w ∧
      ∀ ε > 0, ∃ N, ∀ (rag : Bool) (tol rtol : ℝ) (maxIter : ℕ) (z : Fin p → ℝ) (hist : List LassoHist) (k : ℕ),
        groupLassoOverlap rag npInv { a with tol := tol, rtol := rtol, maxIter := maxIter } = .ok (z, hist, k) →
        N ≤ k → ∀ i, |z i - w i| < ε := by
  obtain ⟨w, y, hk, -, hz, -⟩ := hconv
  refine ⟨w, hk.min, fun ε hε => ?_⟩
  obtain ⟨N, hN⟩ := Metric.tendsto_atTop.mp hz ε hε
  refine ⟨N, fun rag tol rtol maxIter z hist k hret hkN i => ?_⟩
  obtain ⟨hz', -, -⟩ := overlap_returns hret
  have hseq : ∀ j, featSeq { a with tol := tol, rtol := rtol, maxIter := maxIter } (npInv (overlapGram a)) j =
      featSeq a (npInv (overlapGram a)) j := by
    intro j
    induction j with
    | zero => rfl
    | succ j ih => unfold featSeq; rw [ih]
  have hz2 : z = (featSeq a (npInv (overlapGram a)) (k + 1)).z := by rw [← hseq]; exact hz'
  have h1 := hN (k + 1) (by omega)
  rw [← hz2] at h1
  rw [← Real.dist_eq]
  exact (dist_le_pi_dist z w i).trans_lt h1

/-- When the passes converge and `tol > 0`, the loop stops by its own test. -/
theorem overlap_stops (npInv : Matrix (Fin p) (Fin p) ℝ → Matrix (Fin p) (Fin p) ℝ) (a : OverlapArgs m p)
    (hr : 0 < a.rho) (hp : 0 < p) (hcov : ∀ i : Fin p, groupCount a.groups i ≠ 0)
    (hconv : ∃ x y, OverlapKKT a.A a.b a.lamda (groupCount a.groups) x y ∧
      Tendsto (fun k => (featSeq a (npInv (overlapGram a)) k).x) atTop (𝓝 x) ∧
      Tendsto (fun k => (featSeq a (npInv (overlapGram a)) k).z) atTop (𝓝 x) ∧
      Tendsto (fun k => (featSeq a (npInv (overlapGram a)) k).y) atTop (𝓝 y))
    (ht : 0 < a.tol) (hrt : 0 ≤ a.rtol) :
    ∃ N, ∀ (rag : Bool) (maxIter : ℕ) (z : Fin p → ℝ) (hist : List LassoHist) (k : ℕ),
      groupLassoOverlap rag npInv { a with maxIter := maxIter } = .ok (z, hist, k) → k ≤ N := by
  obtain ⟨w, y, hk, hx, hz, -⟩ := hconv
  set inv := npInv (overlapGram a) with hinvdef
  set S := featSeq a inv with hS
  set D := groupCount a.groups with hDdef
  have hmean : ∀ v : Fin p → ℝ, featMean D v = v := by
    intro v; funext i; unfold featMean; rw [if_neg (hcov i)]
  set E := Real.sqrt p * a.tol with hE
  have hEpos : 0 < E := mul_pos (Real.sqrt_pos.mpr (by exact_mod_cast hp)) ht
  have h1 : Tendsto (fun k => npNorm ((S (k + 1)).x - (S (k + 1)).z)) atTop (𝓝 0) :=
    npNorm_tendsto (hx.comp (tendsto_add_atTop_nat 1)) (hz.comp (tendsto_add_atTop_nat 1))
  have h2 : Tendsto (fun k => a.rho * npNorm ((S (k + 1)).z - (S k).z)) atTop (𝓝 0) := by
    have := (npNorm_tendsto (hz.comp (tendsto_add_atTop_nat 1)) hz).const_mul a.rho
    rw [mul_zero] at this
    exact this
  obtain ⟨N, hN⟩ := (eventually_atTop.mp ((h1.eventually_lt_const hEpos).and (h2.eventually_lt_const hEpos)))
  refine ⟨N + 11, fun rag maxIter z hist k hret => ?_⟩
  have hgood : ∀ j, N ≤ j → lassoStop (featHist a D inv (S j) 0) = true := by
    intro j hj
    obtain ⟨g1, g2⟩ := hN j hj
    unfold lassoStop
    refine decide_eq_true ⟨?_, ?_⟩
    · show npNorm (featMean D (S (j + 1)).x - (S (j + 1)).z) < E + a.rtol * max _ _
      rw [hmean]
      exact g1.trans_le (le_add_of_nonneg_right (mul_nonneg hrt (le_max_of_le_left (npNorm_nonneg _))))
    · show npNorm ((-a.rho) • ((S (j + 1)).z - (S j).z)) < E + a.rtol * npNorm _
      have e := npNorm_smul (-a.rho) ((S (j + 1)).z - (S j).z)
      rw [abs_neg, abs_of_pos hr] at e
      have e' : npNorm ((-a.rho) • ((S (j + 1)).z - (S j).z)) = a.rho * npNorm ((S (j + 1)).z - (S j).z) := e
      rw [e']
      exact g2.trans_le (le_add_of_nonneg_right (mul_nonneg hrt (npNorm_nonneg _)))
  have hstop := featBody_stops a inv hgood
  obtain ⟨-, -, hn⟩ := overlap_returns hret
  by_contra hlt
  have := hn (N + 11) (by omega)
  have e : stopAt (featBody { a with maxIter := maxIter } (groupCount a.groups) inv) (featInit p) (N + 11) =
      stopAt (featBody a (groupCount a.groups) inv) (featInit p) (N + 11) := rfl
  rw [show stopAt (featBody { a with maxIter := maxIter } (groupCount a.groups) inv) (featInit p) (N + 11) =
    false from this] at e
  rw [hstop] at e
  exact absurd e (by decide)

/-- **C176, partial** `group_lasso_overlap` converges: every feature is in a group, the inverse is exact and
`rho` exceeds half of the largest curvature of the loss relative to the group counts (it is enough that
`2 * rho` exceeds the sum of the squares of the entries of `A`, `overlap_gram_le`). Then a minimiser `w` of
the lasso with every feature weighted by its number of groups exists such that whatever `tol`, `rtol` and
`max_iter`, a call that made enough passes returns coefficients as close to `w` as desired. Missing: `rho` between
this bound and the one of `C176_small_rho_partial`. -/
theorem C176_converges_partial (npInv : Matrix (Fin p) (Fin p) ℝ → Matrix (Fin p) (Fin p) ℝ)
    (a : OverlapArgs m p) (hr : 0 < a.rho) (hl : 0 ≤ a.lamda)
    (hcov : ∀ i : Fin p, groupCount a.groups i ≠ 0)
    (hinv : overlapGram a * npInv (overlapGram a) = 1) {c : ℝ} (hc0 : 0 < c) (hc2 : c < 2)
    (hc : ∀ u : Fin p → ℝ, ∑ k, ((a.A *ᵥ u) k) ^ 2 ≤
      c * a.rho * ∑ i : Fin p, (groupCount a.groups i : ℝ) * u i ^ 2) :
    ∃ w, IsMin Set.univ (weightedLassoObj a.A a.b a.lamda fun i => groupCount a.groups i) w ∧
      ∀ ε > 0, ∃ N, ∀ (rag : Bool) (tol rtol : ℝ) (maxIter : ℕ) (z : Fin p → ℝ) (hist : List LassoHist) (k : ℕ),
        groupLassoOverlap rag npInv { a with tol := tol, rtol := rtol, maxIter := maxIter } = .ok (z, hist, k) →
        N ≤ k → ∀ i, |z i - w i| < ε :=
  overlap_close npInv a (featStep_converges a.A a.b hr hl hcov (overlapGram_count a ▸ hinv) hc0 hc2 hc
    (s := featSeq a (npInv (overlapGram a))) fun _ => rfl)

/-- **C176, partial** under the same conditions and with `tol > 0` the loop stops by its own test: the number
of passes is bounded whatever `max_iter`. -/
theorem C176_stops_partial (npInv : Matrix (Fin p) (Fin p) ℝ → Matrix (Fin p) (Fin p) ℝ)
    (a : OverlapArgs m p) (hr : 0 < a.rho) (hl : 0 ≤ a.lamda) (hp : 0 < p)
    (hcov : ∀ i : Fin p, groupCount a.groups i ≠ 0)
    (hinv : overlapGram a * npInv (overlapGram a) = 1) {c : ℝ} (hc0 : 0 < c) (hc2 : c < 2)
    (hc : ∀ u : Fin p → ℝ, ∑ k, ((a.A *ᵥ u) k) ^ 2 ≤
      c * a.rho * ∑ i : Fin p, (groupCount a.groups i : ℝ) * u i ^ 2)
    (ht : 0 < a.tol) (hrt : 0 ≤ a.rtol) :
    ∃ N, ∀ (rag : Bool) (maxIter : ℕ) (z : Fin p → ℝ) (hist : List LassoHist) (k : ℕ),
      groupLassoOverlap rag npInv { a with maxIter := maxIter } = .ok (z, hist, k) → k ≤ N :=
  overlap_stops npInv a hr hp hcov (featStep_converges a.A a.b hr hl hcov (overlapGram_count a ▸ hinv) hc0 hc2 hc
    (s := featSeq a (npInv (overlapGram a))) fun _ => rfl) ht hrt

/-- Two features, two overlapping groups, `rho` large enough: the hypotheses hold. -/
noncomputable def overlapPair : OverlapArgs 1 2 := ⟨fun _ _ => 1, fun _ => 3, 1, [[0, 1], [1]], 2, 100, 1, 0⟩

example : 0 < overlapPair.rho ∧ 0 ≤ overlapPair.lamda ∧ 0 < overlapPair.tol ∧
    (∀ i : Fin 2, groupCount overlapPair.groups i ≠ 0) ∧
    (∃ npInv : Matrix (Fin 2) (Fin 2) ℝ → Matrix (Fin 2) (Fin 2) ℝ,
      overlapGram overlapPair * npInv (overlapGram overlapPair) = 1) ∧
    ∀ u : Fin 2 → ℝ, ∑ k, ((overlapPair.A *ᵥ u) k) ^ 2 ≤
      1 * overlapPair.rho * ∑ i : Fin 2, (groupCount overlapPair.groups i : ℝ) * u i ^ 2 := by
  have hcov : ∀ i : Fin 2, groupCount overlapPair.groups i ≠ 0 := by
    show ∀ i : Fin 2, groupCount [[0, 1], [1]] i ≠ 0
    decide
  refine ⟨by norm_num [overlapPair], by norm_num [overlapPair], by norm_num [overlapPair], hcov, ?_, ?_⟩
  · refine ⟨fun _ => !![5 / 14, -1 / 14; -1 / 14, 3 / 14], ?_⟩
    rw [overlapGram_count]
    have h0 : groupCount [[0, 1], [1]] 0 = 1 := by decide
    have h1 : groupCount [[0, 1], [1]] 1 = 2 := by decide
    have hA : ∀ i j : Fin 2, (overlapPair.Aᵀ * overlapPair.A) i j = 1 := by
      intro i j
      rw [Matrix.mul_apply, Fin.sum_univ_one]
      show (1 : ℝ) * 1 = 1
      norm_num
    have hr : overlapPair.rho = 2 := rfl
    have hg : overlapPair.groups = [[0, 1], [1]] := rfl
    funext i j
    rw [Matrix.mul_apply, Fin.sum_univ_two]
    simp only [Matrix.add_apply, Matrix.smul_apply, hA, hr, hg]
    fin_cases i <;> fin_cases j <;> simp [h0, h1] <;> norm_num
  · refine overlap_gram_le _ ?_ hcov
    show ∑ _k : Fin 1, ∑ _i : Fin 2, (1 : ℝ) ^ 2 ≤ 1 * 2
    norm_num

end Verif.Props
