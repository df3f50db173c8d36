import Verif.Model.GroupOld
import Mathlib.LinearAlgebra.Matrix.NonsingularInverse
import Mathlib.Topology.Order.IntermediateValue
import Mathlib.Topology.Algebra.Order.Field
import Mathlib.Analysis.Real.Pi.Bounds
import Mathlib.Tactic.Linarith
import Mathlib.Tactic.FieldSimp
import Mathlib.Tactic.Positivity

/-! Property theorem C223: the bisection of the group update. -/

namespace Verif.Props

open Verif.Model Matrix Filter

set_option autoImplicit false
set_option linter.unusedSectionVars false

variable {m n : Type*} [Fintype m] [Fintype n] [DecidableEq n]

/-- `V` and `D` are an orthonormal eigendecomposition of `Aᵀ A`. -/
structure IsGramEig (A : Matrix m n ℝ) (V : Matrix n n ℝ) (D : n → ℝ) : Prop where
  orth : Vᵀ * V = 1
  gram : Aᵀ * A = V * diagonal D * Vᵀ

/-- The problem of one group: squared error plus `kappa` times the Euclidean norm. -/
noncomputable def groupObjective (A : Matrix m n ℝ) (b : m → ℝ) (kappa : ℝ) (x : n → ℝ) : ℝ :=
  1 / 2 * ∑ i, ((A *ᵥ x) i - b i) ^ 2 + kappa * Real.sqrt (∑ j, x j ^ 2)

theorem eucNorm_eq (x : n → ℝ) : eucNorm x = Real.sqrt (∑ j, x j ^ 2) := by
  unfold eucNorm dotProduct
  simp only [sq]

theorem eucNorm_nonneg (x : n → ℝ) : 0 ≤ eucNorm x := Real.sqrt_nonneg _

theorem eucNorm_sq (x : n → ℝ) : eucNorm x ^ 2 = x ⬝ᵥ x :=
  Real.sq_sqrt (by rw [dotProduct]; exact Finset.sum_nonneg fun i _ => mul_self_nonneg _)

theorem dot_le_eucNorm (x y : n → ℝ) : x ⬝ᵥ y ≤ eucNorm x * eucNorm y := by
  rw [eucNorm_eq, eucNorm_eq]
  exact Real.sum_mul_le_sqrt_mul_sqrt _ _ _

/-- First order condition: `q - AᵀA x` is `t x`. -/
theorem group_optimal {A : Matrix m n ℝ} {b : m → ℝ} {kappa : ℝ} {x g : n → ℝ}
    (hg : ∀ y, g ⬝ᵥ (y - x) ≤ kappa * (eucNorm y - eucNorm x)) (hx : Aᵀ *ᵥ (A *ᵥ x) + g = Aᵀ *ᵥ b) (y : n → ℝ) :
    groupObjective A b kappa x ≤ groupObjective A b kappa y := by
  unfold groupObjective
  rw [← eucNorm_eq, ← eucNorm_eq]
  have h1 : ∑ i, ((A *ᵥ y) i - b i) ^ 2 = ∑ i, ((A *ᵥ x) i - b i) ^ 2 + ∑ i, ((A *ᵥ (y - x)) i) ^ 2 +
      2 * ((A *ᵥ x - b) ⬝ᵥ (A *ᵥ (y - x))) := by
    rw [dotProduct, Finset.mul_sum, ← Finset.sum_add_distrib, ← Finset.sum_add_distrib]
    refine Finset.sum_congr rfl fun i _ => ?_
    simp only [mulVec_sub, Pi.sub_apply]
    ring
  have h2 : (A *ᵥ x - b) ⬝ᵥ (A *ᵥ (y - x)) = -(g ⬝ᵥ (y - x)) := by
    rw [dotProduct_mulVec, ← mulVec_transpose, mulVec_sub, ← neg_dotProduct]
    congr 1
    rw [← hx]
    simp
  have h3 : 0 ≤ ∑ i, ((A *ᵥ (y - x)) i) ^ 2 := Finset.sum_nonneg fun i _ => sq_nonneg _
  have h4 := hg y
  rw [h1, h2]
  linarith

section Eig

variable {A : Matrix m n ℝ} {V : Matrix n n ℝ} {D : n → ℝ} {b : m → ℝ} {kappa : ℝ}

theorem dot_orth (hV : Vᵀ * V = 1) (x y : n → ℝ) : (V *ᵥ x) ⬝ᵥ (V *ᵥ y) = x ⬝ᵥ y := by
  rw [dotProduct_mulVec, ← mulVec_transpose, mulVec_mulVec, hV, one_mulVec]

theorem eig_nonneg (h : IsGramEig A V D) (i : n) : 0 ≤ D i := by
  have h1 : diagonal D = (A * V)ᵀ * (A * V) := by
    rw [transpose_mul, Matrix.mul_assoc, ← Matrix.mul_assoc Aᵀ, h.gram, Matrix.mul_assoc, Matrix.mul_assoc, h.orth,
      Matrix.mul_one, ← Matrix.mul_assoc, h.orth, Matrix.one_mul]
  have h2 := congrFun (congrFun h1 i) i
  rw [diagonal_apply_eq, mul_apply] at h2
  rw [h2]
  exact Finset.sum_nonneg fun j _ => by rw [transpose_apply]; exact mul_self_nonneg _

theorem eig_zero (h : IsGramEig A V D) (i : n) (hi : D i = 0) : (Vᵀ *ᵥ (Aᵀ *ᵥ b)) i = 0 := by
  have h1 : diagonal D = (A * V)ᵀ * (A * V) := by
    rw [transpose_mul, Matrix.mul_assoc, ← Matrix.mul_assoc Aᵀ, h.gram, Matrix.mul_assoc, Matrix.mul_assoc, h.orth,
      Matrix.mul_one, ← Matrix.mul_assoc, h.orth, Matrix.one_mul]
  have h2 := congrFun (congrFun h1 i) i
  rw [diagonal_apply_eq, hi, mul_apply] at h2
  have h3 : ∀ k, (A * V) k i = 0 := by
    intro k
    have := (Finset.sum_eq_zero_iff_of_nonneg (fun j _ => by
      rw [transpose_apply]; exact mul_self_nonneg ((A * V) j i))).mp h2.symm k (Finset.mem_univ k)
    rw [transpose_apply] at this
    exact mul_self_eq_zero.mp this
  rw [mulVec_mulVec, ← transpose_mul, mulVec, dotProduct]
  exact Finset.sum_eq_zero fun k _ => by rw [transpose_apply, h3 k, zero_mul]

theorem shifted_eq (h : IsGramEig A V D) {t : ℝ} (ht : 0 < t) :
    Aᵀ *ᵥ (A *ᵥ shiftedSolve V D (Aᵀ *ᵥ b) t) + t • shiftedSolve V D (Aᵀ *ᵥ b) t = Aᵀ *ᵥ b := by
  have hVV : V * Vᵀ = 1 := mul_eq_one_comm.mp h.orth
  set c := Vᵀ *ᵥ (Aᵀ *ᵥ b) with hc
  have hq : V *ᵥ c = Aᵀ *ᵥ b := by rw [hc, mulVec_mulVec, hVV, one_mulVec]
  unfold shiftedSolve
  rw [← hc, mulVec_mulVec, h.gram, mulVec_mulVec, Matrix.mul_assoc, h.orth, Matrix.mul_one, ← mulVec_mulVec,
    ← mulVec_smul, ← mulVec_add]
  conv_rhs => rw [← hq]
  congr 1
  funext i
  have := eig_nonneg h i
  simp only [Pi.add_apply, mulVec_diagonal, Pi.smul_apply, smul_eq_mul]
  field_simp

/-- `(t * norm(x(t)))^2`. -/
theorem phi_sq (h : IsGramEig A V D) (q : n → ℝ) (t : ℝ) :
    (t * eucNorm (shiftedSolve V D q t)) ^ 2 = ∑ i, (Vᵀ *ᵥ q) i ^ 2 * (t / (D i + t)) ^ 2 := by
  rw [mul_pow, eucNorm_sq]
  unfold shiftedSolve
  rw [dot_orth h.orth, dotProduct, Finset.mul_sum]
  refine Finset.sum_congr rfl fun i _ => ?_
  ring

theorem coef_norm (h : IsGramEig A V D) (q : n → ℝ) : ∑ i, (Vᵀ *ᵥ q) i ^ 2 = eucNorm q ^ 2 := by
  have hVV : V * Vᵀ = 1 := mul_eq_one_comm.mp h.orth
  have hq : V *ᵥ (Vᵀ *ᵥ q) = q := by rw [mulVec_mulVec, hVV, one_mulVec]
  rw [eucNorm_sq]
  conv_rhs => rw [← hq]
  rw [dot_orth h.orth, dotProduct]
  exact Finset.sum_congr rfl fun i _ => sq _

theorem ratio_lt {d s t : ℝ} (hd : 0 < d) (hs : 0 < s) (hst : s < t) : s / (d + s) < t / (d + t) := by
  rw [div_lt_div_iff₀ (by linarith) (by linarith)]
  nlinarith

theorem phi_strict (h : IsGramEig A V D) (hq : 0 < eucNorm (Aᵀ *ᵥ b)) {s t : ℝ} (hs : 0 < s) (hst : s < t) :
    s * eucNorm (shiftedSolve V D (Aᵀ *ᵥ b) s) < t * eucNorm (shiftedSolve V D (Aᵀ *ᵥ b) t) := by
  have ht : 0 < t := hs.trans hst
  refine lt_of_pow_lt_pow_left₀ 2 (mul_nonneg ht.le (eucNorm_nonneg _)) ?_
  rw [phi_sq h, phi_sq h]
  have hle : ∀ i, (Vᵀ *ᵥ (Aᵀ *ᵥ b)) i ^ 2 * (s / (D i + s)) ^ 2 ≤ (Vᵀ *ᵥ (Aᵀ *ᵥ b)) i ^ 2 * (t / (D i + t)) ^ 2 := by
    intro i
    rcases (eig_nonneg h i).eq_or_lt with e | e
    · rw [eig_zero h i e.symm]; simp
    · have h1 := ratio_lt e hs hst
      have h2 : 0 ≤ s / (D i + s) := by positivity
      gcongr
  obtain ⟨i, hi⟩ : ∃ i, (Vᵀ *ᵥ (Aᵀ *ᵥ b)) i ≠ 0 := by
    by_contra hc
    push Not at hc
    have := coef_norm h (Aᵀ *ᵥ b)
    rw [Finset.sum_eq_zero (fun i _ => by rw [hc i]; ring)] at this
    have := pow_pos hq 2
    linarith
  refine Finset.sum_lt_sum (fun i _ => hle i) ⟨i, Finset.mem_univ _, ?_⟩
  have hD : 0 < D i := lt_of_le_of_ne (eig_nonneg h i) fun e => hi (eig_zero h i e.symm)
  have h1 := ratio_lt hD hs hst
  have h2 : 0 ≤ s / (D i + s) := by positivity
  have h3 : 0 < (Vᵀ *ᵥ (Aᵀ *ᵥ b)) i ^ 2 := by positivity
  gcongr

/-- The multiplier exists. -/
theorem phi_root (h : IsGramEig A V D) (hk : 0 < kappa) (hq : kappa < eucNorm (Aᵀ *ᵥ b)) :
    ∃ t, 0 < t ∧ t * eucNorm (shiftedSolve V D (Aᵀ *ᵥ b) t) = kappa := by
  set c := Vᵀ *ᵥ (Aᵀ *ᵥ b) with hc
  set g : ℝ → ℝ := fun t => ∑ i, c i ^ 2 * (t / (D i + t)) ^ 2 with hg
  have hcont : ContinuousOn g (Set.Ici 0) := by
    refine continuousOn_finsetSum _ fun i _ => ?_
    rcases (eig_nonneg h i).eq_or_lt with e | e
    · have : (fun t : ℝ => c i ^ 2 * (t / (D i + t)) ^ 2) = fun _ => 0 := by
        funext t; rw [hc, eig_zero h i e.symm]; simp
      rw [this]; exact continuousOn_const
    · refine continuousOn_const.mul (ContinuousOn.pow (continuousOn_id.div (by fun_prop) fun t ht => ?_) 2)
      have : (0 : ℝ) ≤ t := ht
      linarith
  have hlim : Tendsto g atTop (nhds (eucNorm (Aᵀ *ᵥ b) ^ 2)) := by
    rw [← coef_norm h]
    refine tendsto_finsetSum _ fun i _ => ?_
    have h1 : Tendsto (fun t : ℝ => t / (D i + t)) atTop (nhds 1) := by
      have h2 : Tendsto (fun t : ℝ => 1 - D i / (D i + t)) atTop (nhds (1 - 0)) :=
        tendsto_const_nhds.sub (tendsto_const_nhds.div_atTop (tendsto_atTop_add_const_left _ _ tendsto_id))
      rw [sub_zero] at h2
      refine h2.congr' ?_
      filter_upwards [eventually_gt_atTop 0] with t ht
      have := eig_nonneg h i
      have : D i + t ≠ 0 := by linarith
      field_simp
      ring
    have h3 := (h1.pow 2).const_mul (c i ^ 2)
    rw [one_pow, mul_one] at h3
    exact h3
  have hk2 : kappa ^ 2 < eucNorm (Aᵀ *ᵥ b) ^ 2 := by gcongr
  obtain ⟨M, hM0, hM⟩ := ((eventually_gt_atTop (0 : ℝ)).and (hlim.eventually (lt_mem_nhds hk2))).exists
  have hg0 : g 0 = 0 := by simp [hg]
  obtain ⟨t, ht, hgt⟩ := intermediate_value_Icc hM0.le (hcont.mono Set.Icc_subset_Ici_self)
    (show kappa ^ 2 ∈ Set.Icc (g 0) (g M) from ⟨by rw [hg0]; positivity, hM.le⟩)
  have ht0 : 0 < t := lt_of_le_of_ne ht.1 fun e => by
    rw [← e, hg0] at hgt
    have := pow_pos hk 2
    linarith
  refine ⟨t, ht0, ?_⟩
  have h1 := phi_sq h (Aᵀ *ᵥ b) t
  rw [← hc] at h1
  have h2 : (t * eucNorm (shiftedSolve V D (Aᵀ *ᵥ b) t)) ^ 2 = kappa ^ 2 := h1.trans hgt
  exact (pow_left_inj₀ (mul_nonneg ht0.le (eucNorm_nonneg _)) hk.le two_ne_zero).mp h2

/-- The bisection finds the place where the comparison changes. -/
theorem bisectT_spec (V : Matrix n n ℝ) (D q : n → ℝ) (kappa tau : ℝ) (hi : ℝ)
    (hcmp : ∀ t, 0 < t → t ≤ hi →
      ((0 < eucNorm (shiftedSolve V D q t) ∧ t > kappa / eucNorm (shiftedSolve V D q t)) ↔ tau < t)) :
    ∀ (k : ℕ) (lower upper : ℝ) (x : n → ℝ), 0 ≤ lower → lower < upper → upper ≤ hi → lower ≤ tau → tau ≤ upper →
      upper - lower ≤ 1e-6 * 2 ^ (k + 1) →
      ∃ t, 0 < t ∧ |t - tau| ≤ 1e-6 ∧ bisectT V D q kappa (k + 1) lower upper x = shiftedSolve V D q t := by
  intro k
  induction k with
  | zero =>
      intro lower upper x h0 h1 h2 h3 h4 h5
      have ht : 0 < (upper + lower) / 2 := by linarith
      refine ⟨(upper + lower) / 2, ht, ?_, ?_⟩
      · rw [abs_le]; norm_num at h5 ⊢; constructor <;> linarith
      · rw [bisectT]
        rw [if_pos]
        norm_num at h5 ⊢
        split <;> simp only <;> linarith
  | succ k ih =>
      intro lower upper x h0 h1 h2 h3 h4 h5
      have ht : 0 < (upper + lower) / 2 := by linarith
      have hth : (upper + lower) / 2 ≤ hi := by linarith
      have hc := hcmp _ ht hth
      have h5' : (upper - lower) / 2 ≤ 1e-6 * 2 ^ (k + 1) := by
        rw [pow_succ] at h5; linarith
      rw [bisectT]
      by_cases htau : tau < (upper + lower) / 2
      · rw [if_pos (hc.mpr htau)]
        simp only
        by_cases hb : (upper + lower) / 2 - lower ≤ 1e-6
        · rw [if_pos hb]
          exact ⟨_, ht, by rw [abs_le]; constructor <;> linarith, rfl⟩
        · rw [if_neg hb]
          exact ih _ _ _ h0 (by linarith) hth h3 htau.le (by linarith)
      · rw [if_neg (fun h => htau (hc.mp h))]
        simp only
        rw [not_lt] at htau
        by_cases hb : upper - (upper + lower) / 2 ≤ 1e-6
        · rw [if_pos hb]
          exact ⟨_, ht, by rw [abs_le]; constructor <;> linarith, rfl⟩
        · rw [if_neg hb]
          exact ih _ _ _ ht.le (by linarith) h2 htau h4 (by linarith)

theorem cmp_iff (h : IsGramEig A V D) (hk : 0 < kappa) (hq : kappa < eucNorm (Aᵀ *ᵥ b)) {tau : ℝ} (h0 : 0 < tau)
    (hroot : tau * eucNorm (shiftedSolve V D (Aᵀ *ᵥ b) tau) = kappa) (t : ℝ) (ht : 0 < t) :
    (0 < eucNorm (shiftedSolve V D (Aᵀ *ᵥ b) t) ∧ t > kappa / eucNorm (shiftedSolve V D (Aᵀ *ᵥ b) t)) ↔ tau < t := by
  have hq0 : 0 < eucNorm (Aᵀ *ᵥ b) := hk.trans hq
  constructor
  · rintro ⟨h1, h2⟩
    by_contra hc
    rw [not_lt] at hc
    have h3 : kappa < t * eucNorm (shiftedSolve V D (Aᵀ *ᵥ b) t) := (div_lt_iff₀ h1).mp h2
    rcases hc.eq_or_lt with e | e
    · rw [e] at h3; linarith
    · have := phi_strict h hq0 ht e
      linarith
  · intro hlt
    have h3 := phi_strict h hq0 h0 hlt
    rw [hroot] at h3
    have h4 : 0 < eucNorm (shiftedSolve V D (Aᵀ *ᵥ b) t) := by
      by_contra hc
      have : eucNorm (shiftedSolve V D (Aᵀ *ᵥ b) t) = 0 := le_antisymm (not_lt.mp hc) (eucNorm_nonneg _)
      rw [this, mul_zero] at h3
      linarith
    exact ⟨h4, (div_lt_iff₀ h4).mpr h3⟩

/-- C223: a group whose correlation with the target is at most the penalty is set to zero, and zero is then a
minimiser. -/
theorem C223_zero (A : Matrix m n ℝ) (b : m → ℝ) (V : Matrix n n ℝ) (D : n → ℝ)
    (hq : Real.sqrt (∑ j, (Aᵀ *ᵥ b) j ^ 2) ≤ kappa) :
    groupXUpdate A b kappa V D = 0 ∧ ∀ y, groupObjective A b kappa 0 ≤ groupObjective A b kappa y := by
  rw [← eucNorm_eq] at hq
  constructor
  · unfold groupXUpdate
    simp only
    rw [if_neg (not_lt.mpr hq)]
  · refine group_optimal (g := Aᵀ *ᵥ b) (fun y => ?_) (by simp)
    have h0 : eucNorm (0 : n → ℝ) = 0 := by simp [eucNorm]
    rw [sub_zero, h0, sub_zero]
    exact (dot_le_eucNorm _ _).trans (mul_le_mul_of_nonneg_right hq (eucNorm_nonneg _))

/-- C223: otherwise there is a minimiser `x(t*)`, and if its multiplier `t*` is at most `1e10` the bisection returns the
solution of `(AᵀA + t) x = Aᵀb` for some `t` within `1e-6` of it - the limit of 100 passes is never what stops it - and
the relative error of the result is at most `1e-6 / t`. -/
theorem C223_bisection (A : Matrix m n ℝ) (b : m → ℝ) (V : Matrix n n ℝ) (D : n → ℝ) (h : IsGramEig A V D)
    (hk : 0 < kappa) (hq : kappa < Real.sqrt (∑ j, (Aᵀ *ᵥ b) j ^ 2)) :
    ∃ (ts : ℝ) (xs : n → ℝ), 0 < ts ∧ (∀ y, groupObjective A b kappa xs ≤ groupObjective A b kappa y) ∧
      Aᵀ *ᵥ (A *ᵥ xs) + ts • xs = Aᵀ *ᵥ b ∧ ts * Real.sqrt (∑ j, xs j ^ 2) = kappa ∧
      (ts ≤ 1e10 → ∃ t, 0 < t ∧ |t - ts| ≤ 1e-6 ∧
        Aᵀ *ᵥ (A *ᵥ groupXUpdate A b kappa V D) + t • groupXUpdate A b kappa V D = Aᵀ *ᵥ b ∧
        t * Real.sqrt (∑ j, (groupXUpdate A b kappa V D j - xs j) ^ 2) ≤ 1e-6 * Real.sqrt (∑ j, xs j ^ 2)) := by
  rw [← eucNorm_eq] at hq
  obtain ⟨ts, h0, hroot⟩ := phi_root h hk hq
  set xs := shiftedSolve V D (Aᵀ *ᵥ b) ts with hxs
  have heq := shifted_eq (b := b) h h0
  rw [← hxs] at heq
  refine ⟨ts, xs, h0, group_optimal (g := ts • xs) (fun y => ?_) heq, heq, by rw [← eucNorm_eq]; exact hroot, fun hcap => ?_⟩
  · rw [smul_dotProduct, dotProduct_sub, smul_eq_mul, ← eucNorm_sq]
    have h1 := mul_le_mul_of_nonneg_left (dot_le_eucNorm xs y) h0.le
    calc ts * (xs ⬝ᵥ y - eucNorm xs ^ 2) ≤ ts * (eucNorm xs * eucNorm y) - ts * eucNorm xs ^ 2 := by linarith
      _ = ts * eucNorm xs * (eucNorm y - eucNorm xs) := by ring
      _ = kappa * (eucNorm y - eucNorm xs) := by rw [hroot]
  · obtain ⟨t, ht, htt, hx⟩ := bisectT_spec V D (Aᵀ *ᵥ b) kappa ts 1e10
      (fun t ht _ => cmp_iff h hk hq h0 hroot t ht) 99 0 1e10 0 le_rfl (by norm_num) le_rfl h0.le hcap (by norm_num)
    have hup : groupXUpdate A b kappa V D = shiftedSolve V D (Aᵀ *ᵥ b) t := by
      unfold groupXUpdate
      simp only
      rw [if_pos hq]
      exact hx
    refine ⟨t, ht, htt, by rw [hup]; exact shifted_eq h ht, ?_⟩
    have hd : shiftedSolve V D (Aᵀ *ᵥ b) t - xs =
        V *ᵥ fun i => (Vᵀ *ᵥ (Aᵀ *ᵥ b)) i / (D i + t) - (Vᵀ *ᵥ (Aᵀ *ᵥ b)) i / (D i + ts) := by
      rw [hxs]; unfold shiftedSolve; rw [← mulVec_sub]; rfl
    have h1 : eucNorm (shiftedSolve V D (Aᵀ *ᵥ b) t - xs) = Real.sqrt (∑ j, (groupXUpdate A b kappa V D j - xs j) ^ 2) := by
      rw [eucNorm_eq, hup]; rfl
    rw [← h1, ← eucNorm_eq]
    refine le_of_sq_le_sq ?_ (mul_nonneg (by norm_num) (eucNorm_nonneg _))
    rw [mul_pow, mul_pow, eucNorm_sq, eucNorm_sq, hd, dot_orth h.orth]
    have hxx : xs ⬝ᵥ xs = ∑ i, ((Vᵀ *ᵥ (Aᵀ *ᵥ b)) i / (D i + ts)) ^ 2 := by
      rw [hxs]; unfold shiftedSolve; rw [dot_orth h.orth, dotProduct]
      exact Finset.sum_congr rfl fun i _ => (sq _).symm
    rw [hxx, dotProduct, Finset.mul_sum, Finset.mul_sum]
    refine Finset.sum_le_sum fun i _ => ?_
    have hD := eig_nonneg h i
    set ci := (Vᵀ *ᵥ (Aᵀ *ᵥ b)) i
    have e : ci / (D i + t) - ci / (D i + ts) = (ts - t) / (D i + t) * (ci / (D i + ts)) := by
      field_simp
      ring
    rw [e]
    have h2 : t ^ 2 * ((ts - t) / (D i + t)) ^ 2 ≤ 1e-6 ^ 2 := by
      rw [← mul_pow, sq_le_sq, abs_mul, abs_div, abs_of_pos ht, abs_of_pos (by linarith : 0 < D i + t),
        abs_of_pos (by norm_num : (0 : ℝ) < 1e-6), ← mul_div_assoc, div_le_iff₀ (by linarith), abs_sub_comm]
      nlinarith [abs_nonneg (t - ts)]
    calc t ^ 2 * ((ts - t) / (D i + t) * (ci / (D i + ts)) * ((ts - t) / (D i + t) * (ci / (D i + ts))))
        = t ^ 2 * ((ts - t) / (D i + t)) ^ 2 * (ci / (D i + ts)) ^ 2 := by ring
      _ ≤ 1e-6 ^ 2 * (ci / (D i + ts)) ^ 2 := mul_le_mul_of_nonneg_right h2 (sq_nonneg _)

end Eig

/-- C223, beyond the range: one column of length `1e6`, target `2e6`, penalty `1e12`. The number 1 minimises, but its
multiplier `1e12` lies outside the searched interval; the result is above 1.9 and its objective is larger. -/
theorem C223_range_false :
    let A : Matrix (Fin 1) (Fin 1) ℝ := diagonal fun _ => 1e6
    let b : Fin 1 → ℝ := fun _ => 2e6
    IsGramEig A 1 (fun _ => 1e12) ∧ 1.9 < groupXUpdate A b 1e12 1 (fun _ => 1e12) 0 ∧
      (∀ y, groupObjective A b 1e12 (fun _ => 1) ≤ groupObjective A b 1e12 y) ∧
      groupObjective A b 1e12 (fun _ => 1) < groupObjective A b 1e12 (groupXUpdate A b 1e12 1 fun _ => 1e12) := by
  intro A b
  have hnorm : ∀ x : Fin 1 → ℝ, Real.sqrt (∑ j, x j ^ 2) = |x 0| := by
    intro x; rw [Fin.sum_univ_one, Real.sqrt_sq_eq_abs]
  have hq : Aᵀ *ᵥ b = fun _ => 2e12 := by
    funext i
    simp only [A, b, diagonal_transpose, mulVec_diagonal]
    norm_num
  have hobj : ∀ x : Fin 1 → ℝ, groupObjective A b 1e12 x = 1 / 2 * (1e6 * x 0 - 2e6) ^ 2 + 1e12 * |x 0| := by
    intro x
    unfold groupObjective
    rw [hnorm, Fin.sum_univ_one, mulVec_diagonal]
  have hsolve : ∀ t, shiftedSolve (1 : Matrix (Fin 1) (Fin 1) ℝ) (fun _ => 1e12) (fun _ => 2e12) t =
      fun _ => 2e12 / (1e12 + t) := by
    intro t
    unfold shiftedSolve
    rw [one_mulVec, transpose_one, one_mulVec]
  have hval : 1.9 < groupXUpdate A b 1e12 1 (fun _ => 1e12) 0 := by
    obtain ⟨t, ht, htt, hx⟩ := bisectT_spec (1 : Matrix (Fin 1) (Fin 1) ℝ) (fun _ => 1e12) (fun _ => 2e12) 1e12 1e10 1e10
      (fun t ht hle => by
        refine ⟨fun hh => ?_, fun hh => absurd hh (not_lt.mpr hle)⟩
        exfalso
        obtain ⟨h1, h2⟩ := hh
        have h3 := (div_lt_iff₀ h1).mp h2
        rw [hsolve, eucNorm_eq, hnorm, abs_of_pos (by positivity), ← mul_div_assoc,
          lt_div_iff₀ (by positivity)] at h3
        norm_num at h3 hle
        linarith) 99 0 1e10 0 le_rfl (by norm_num) le_rfl (by norm_num) le_rfl (by norm_num)
    have hup : groupXUpdate A b 1e12 1 (fun _ => 1e12) = shiftedSolve 1 (fun _ => 1e12) (fun _ => 2e12) t := by
      unfold groupXUpdate
      simp only
      rw [hq, if_pos]
      · exact hx
      · rw [eucNorm_eq, hnorm]
        norm_num
    rw [hup, hsolve]
    have h4 := (abs_le.mp htt).2
    simp only
    rw [lt_div_iff₀ (by positivity)]
    norm_num at h4 ⊢
    linarith
  refine ⟨⟨by simp, ?_⟩, hval, fun y => ?_, ?_⟩
  · rw [diagonal_transpose, diagonal_mul_diagonal, Matrix.one_mul, transpose_one, Matrix.mul_one]
    congr 1
    funext i
    norm_num
  · rw [hobj, hobj]
    have h1 := le_abs_self (y 0)
    have h2 := sq_nonneg (y 0 - 1)
    norm_num
    nlinarith
  · rw [hobj, hobj]
    rw [abs_of_pos (by linarith : 0 < groupXUpdate A b 1e12 1 (fun _ => 1e12) 0)]
    set x := groupXUpdate A b 1e12 1 (fun _ => 1e12) 0
    norm_num at hval ⊢
    nlinarith

/-- A decomposition meeting the hypotheses: the matrix `diag(1, 2)`, with a target of norm above the penalty. -/
example : IsGramEig (diagonal ![1, 2] : Matrix (Fin 2) (Fin 2) ℝ) 1 ![1, 4] ∧
    (1 : ℝ) < Real.sqrt (∑ j, ((diagonal ![1, 2] : Matrix (Fin 2) (Fin 2) ℝ)ᵀ *ᵥ ![3, 0]) j ^ 2) := by
  refine ⟨⟨by simp, ?_⟩, ?_⟩
  · rw [diagonal_transpose, diagonal_mul_diagonal, Matrix.one_mul, transpose_one, Matrix.mul_one]
    congr 1
    funext i
    fin_cases i <;> simp <;> norm_num
  · rw [Real.lt_sqrt (by norm_num)]
    simp [Fin.sum_univ_two, mulVec_diagonal]

end Verif.Props
