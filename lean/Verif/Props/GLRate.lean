import Verif.Props.Adaptive

/-! Property theorem C202 (linear convergence of the graphical lasso at a constant penalty). -/

namespace Verif.Props

open Verif.Model Verif.Spec Verif.Lemmas Matrix Filter Topology

set_option autoImplicit false
set_option linter.unusedSectionVars false

variable {n : Type*} [Fintype n] [DecidableEq n] {eigh : Eigh n} {a : GLArgs n} {Z0 : Matrix n n ℝ} {rho : ℝ}

/-- The squared distance of the start (no multipliers) to the optimum `X` and its multiplier. -/
noncomputable def startDist (S X Z0 : Matrix n n ℝ) (rho : ℝ) : ℝ :=
  frobSq (Z0 - X) + frobSq (rho⁻¹ • (X⁻¹ - S))

/-- The conditioning constant: how far one pass can be from solving the problem. -/
noncomputable def rateConst (S X Z0 : Matrix n n ℝ) (rho : ℝ) : ℝ :=
  4 + rho * ((Fintype.card n + 8 * startDist S X Z0 rho + 2 * frobSq X) * trace X)
    + (Fintype.card n + 8 * rho ^ 2 * startDist S X Z0 rho + 2 * frobSq X⁻¹) * trace X⁻¹ / rho

/-- The contraction factor of a pass. -/
noncomputable def rateOf (S X Z0 : Matrix n n ℝ) (rho : ℝ) : ℝ := 1 - (rateConst S X Z0 rho)⁻¹

theorem startDist_nonneg (S X Z0 : Matrix n n ℝ) (rho : ℝ) : 0 ≤ startDist S X Z0 rho :=
  add_nonneg (frobSq_nonneg _) (frobSq_nonneg _)

theorem rateConst_ge {S X : Matrix n n ℝ} (hX : X.PosDef) (Z0 : Matrix n n ℝ) (hr : 0 < rho) :
    4 ≤ rateConst S X Z0 rho := by
  have h1 := startDist_nonneg S X Z0 rho
  have h2 := frobSq_nonneg X
  have h3 := frobSq_nonneg X⁻¹
  have h4 : 0 ≤ trace X := hX.posSemidef.trace_nonneg
  have h5 : 0 ≤ trace X⁻¹ := hX.inv.posSemidef.trace_nonneg
  have h6 : 0 ≤ rho * ((Fintype.card n + 8 * startDist S X Z0 rho + 2 * frobSq X) * trace X) := by positivity
  have h7 : 0 ≤ (Fintype.card n + 8 * rho ^ 2 * startDist S X Z0 rho + 2 * frobSq X⁻¹) * trace X⁻¹ / rho := by
    positivity
  unfold rateConst
  linarith

theorem rateOf_mem {S X : Matrix n n ℝ} (hX : X.PosDef) (Z0 : Matrix n n ℝ) (hr : 0 < rho) :
    0 < rateOf S X Z0 rho ∧ rateOf S X Z0 rho < 1 := by
  have h := rateConst_ge (S := S) hX Z0 hr
  have h1 : 0 < (rateConst S X Z0 rho)⁻¹ := by positivity
  have h2 : (rateConst S X Z0 rho)⁻¹ < 1 := inv_lt_one_of_one_lt₀ (by linarith)
  unfold rateOf
  exact ⟨by linarith, by linarith⟩

theorem lyap_zero (X : Matrix n n ℝ) : lyap eigh a Z0 rho X 0 = startDist a.empCov X Z0 rho := by
  simp only [lyap, startDist, stateAt, glInit, zero_sub, frobSq_neg]

/-- One pass contracts the distance. -/
theorem lyap_contract (h : ConstPenalty eigh a Z0 rho) {X : Matrix n n ℝ}
    (hX : IsMin (PD n) (glObjective a.empCov a.alpha) X) (k : ℕ) :
    lyap eigh a Z0 rho X (k + 1) ≤ rateOf a.empCov X Z0 rho * lyap eigh a Z0 rho X k := by
  have hr := h.rhoPos
  obtain ⟨h1, h2, h3⟩ := st_facts h k
  have hstep := lyap_step h hX k
  have hKp := Kit_posDef h k
  have hXp : X.PosDef := hX.1
  have hr' : 0 < (st eigh a Z0 rho k).rho := by rw [h1]; exact hr
  have hinv := glK_inv h.eighOk h.symS hr' (st eigh a Z0 rho k).Z (st eigh a Z0 rho k).U
  have hsym : ((st eigh a Z0 rho k).Z - (st eigh a Z0 rho k).U).IsSymm := h2.sub h3
  rw [symmetrize_of_isSymm hsym] at hinv
  change (Kit eigh a Z0 rho k)⁻¹ = _ + _ • Kit eigh a Z0 rho k at hinv
  rw [h1] at hinv
  have hV0 : lyap eigh a Z0 rho X k ≤ startDist a.empCov X Z0 rho := by
    rw [← lyap_zero (eigh := eigh) X]
    exact C18_distance_never_increases h hX 0 k (Nat.zero_le k)
  have hVn := lyap_nonneg (eigh := eigh) (a := a) (Z0 := Z0) (rho := rho) X (k + 1)
  have hVd : lyap eigh a Z0 rho X k = frobSq ((st eigh a Z0 rho k).Z - X)
      + frobSq ((st eigh a Z0 rho k).U - rho⁻¹ • (X⁻¹ - a.empCov)) := rfl
  have g0 := inv_mono hKp hXp
  have g1 := inv_strict_mono hKp hXp
  have g2 := inv_strict_mono hKp.inv hXp.inv
  rw [nonsing_inv_nonsing_inv X (isUnit_iff_ne_zero.mpr hXp.det_pos.ne'),
    nonsing_inv_nonsing_inv _ (isUnit_iff_ne_zero.mpr hKp.det_pos.ne')] at g2
  have eg : frobInner (X - Kit eigh a Z0 rho k) ((Kit eigh a Z0 rho k)⁻¹ - X⁻¹)
      = frobInner (X⁻¹ - (Kit eigh a Z0 rho k)⁻¹) (Kit eigh a Z0 rho k - X) := by
    rw [← neg_sub (Kit eigh a Z0 rho k) X, ← neg_sub X⁻¹ (Kit eigh a Z0 rho k)⁻¹, frobInner_neg_left,
      frobInner_neg_right, neg_neg, frobInner_comm]
  rw [eg] at g2
  set K := Kit eigh a Z0 rho k with hKd
  set Z := (st eigh a Z0 rho k).Z with hZd
  set U := (st eigh a Z0 rho k).U with hUd
  set V := lyap eigh a Z0 rho X k with hV
  set g := frobInner (X⁻¹ - K⁻¹) (K - X) with hg
  set D := startDist a.empCov X Z0 rho with hD
  have hri : 0 < rho⁻¹ := inv_pos.mpr hr
  have hgr : 0 ≤ 2 * rho⁻¹ * g := by positivity
  have d0 := frobSq_nonneg (Z - K)
  have z0 := frobSq_nonneg (Z - X)
  have u0 := frobSq_nonneg (U - rho⁻¹ • (X⁻¹ - a.empCov))
  -- distances
  have eK : K - X = -(Z - K) + (Z - X) := by abel
  have hKX : frobSq (K - X) ≤ 4 * D := by
    have := frobSq_add_le (-(Z - K)) (Z - X)
    rw [← eK, frobSq_neg] at this
    linarith
  have eI : K⁻¹ - X⁻¹ = rho • (-(Z - K) + (U - rho⁻¹ • (X⁻¹ - a.empCov))) := by
    rw [smul_add, smul_sub rho U, smul_smul, mul_inv_cancel₀ hr.ne', one_smul, hinv, smul_sub, smul_neg, smul_sub]
    abel
  have hKI : frobSq (K⁻¹ - X⁻¹) ≤ 4 * rho ^ 2 * D := by
    have := frobSq_add_le (-(Z - K)) (U - rho⁻¹ • (X⁻¹ - a.empCov))
    rw [frobSq_neg] at this
    rw [eI, frobSq_smul]
    have h4 : frobSq (-(Z - K) + (U - rho⁻¹ • (X⁻¹ - a.empCov))) ≤ 4 * D := by linarith
    calc rho ^ 2 * _ ≤ rho ^ 2 * (4 * D) := mul_le_mul_of_nonneg_left h4 (by positivity)
      _ = 4 * rho ^ 2 * D := by ring
  have tX : 0 ≤ trace X := hXp.posSemidef.trace_nonneg
  have tI : 0 ≤ trace X⁻¹ := hXp.inv.posSemidef.trace_nonneg
  have tK : trace K ≤ Fintype.card n + 8 * D + 2 * frobSq X := by
    have h4 := trace_le_frob K
    have h5 := frobSq_add_le (K - X) X
    rw [sub_add_cancel] at h5
    linarith
  have tKI : trace K⁻¹ ≤ Fintype.card n + 8 * rho ^ 2 * D + 2 * frobSq X⁻¹ := by
    have h4 := trace_le_frob K⁻¹
    have h5 := frobSq_add_le (K⁻¹ - X⁻¹) X⁻¹
    rw [sub_add_cancel] at h5
    linarith
  set C1 : ℝ := (Fintype.card n + 8 * D + 2 * frobSq X) * trace X with hC1
  set C2 : ℝ := (Fintype.card n + 8 * rho ^ 2 * D + 2 * frobSq X⁻¹) * trace X⁻¹ with hC2
  have g1' : frobSq (K - X) ≤ C1 * g :=
    g1.trans (mul_le_mul_of_nonneg_right (mul_le_mul_of_nonneg_right tK tX) g0)
  have g2' : frobSq (K⁻¹ - X⁻¹) ≤ C2 * g :=
    g2.trans (mul_le_mul_of_nonneg_right (mul_le_mul_of_nonneg_right tKI tI) g0)
  have zb : frobSq (Z - X) ≤ 2 * frobSq (Z - K) + 2 * (C1 * g) := by
    have := frobSq_add_le (Z - K) (K - X)
    rw [show Z - K + (K - X) = Z - X by abel] at this
    linarith
  have ub : frobSq (U - rho⁻¹ • (X⁻¹ - a.empCov)) ≤ 2 * frobSq (Z - K) + 2 * (rho⁻¹ ^ 2 * (C2 * g)) := by
    have e : U - rho⁻¹ • (X⁻¹ - a.empCov) = (Z - K) + rho⁻¹ • (K⁻¹ - X⁻¹) := by
      rw [eI, smul_smul, inv_mul_cancel₀ hr.ne', one_smul]
      abel
    have := frobSq_add_le (Z - K) (rho⁻¹ • (K⁻¹ - X⁻¹))
    rw [← e, frobSq_smul] at this
    have h4 : rho⁻¹ ^ 2 * frobSq (K⁻¹ - X⁻¹) ≤ rho⁻¹ ^ 2 * (C2 * g) :=
      mul_le_mul_of_nonneg_left g2' (by positivity)
    linarith
  have hM : 4 ≤ rateConst a.empCov X Z0 rho := rateConst_ge hXp Z0 hr
  have hMd : rateConst a.empCov X Z0 rho = 4 + rho * C1 + C2 / rho := rfl
  have hC10 : 0 ≤ C1 := by have := startDist_nonneg a.empCov X Z0 rho; have := frobSq_nonneg X; positivity
  have hC20 : 0 ≤ C2 := by have := startDist_nonneg a.empCov X Z0 rho; have := frobSq_nonneg X⁻¹; positivity
  have key : V ≤ rateConst a.empCov X Z0 rho * (frobSq (Z - K) + 2 * rho⁻¹ * g) := by
    have e1 : rateConst a.empCov X Z0 rho * (frobSq (Z - K) + 2 * rho⁻¹ * g)
        = 4 * frobSq (Z - K) + (rho * C1 + C2 / rho) * frobSq (Z - K) + 4 * (2 * rho⁻¹ * g)
          + 2 * (C1 * g) + 2 * (rho⁻¹ ^ 2 * (C2 * g)) := by
      rw [hMd]
      field_simp
      ring
    have e2 : 0 ≤ (rho * C1 + C2 / rho) * frobSq (Z - K) := by positivity
    rw [e1]
    linarith
  have hM0 : 0 < rateConst a.empCov X Z0 rho := by linarith
  have key2 : (rateConst a.empCov X Z0 rho)⁻¹ * V ≤ frobSq (Z - K) + 2 * rho⁻¹ * g := by
    rw [inv_mul_eq_div, div_le_iff₀ hM0, mul_comm]
    exact key
  unfold rateOf
  rw [sub_mul, one_mul]
  linarith

theorem lyap_rate (h : ConstPenalty eigh a Z0 rho) {X : Matrix n n ℝ}
    (hX : IsMin (PD n) (glObjective a.empCov a.alpha) X) (k : ℕ) :
    lyap eigh a Z0 rho X k ≤ rateOf a.empCov X Z0 rho ^ k * startDist a.empCov X Z0 rho := by
  obtain ⟨q0, -⟩ := rateOf_mem (S := a.empCov) hX.1 Z0 h.rhoPos
  induction k with
  | zero => rw [pow_zero, one_mul, lyap_zero]
  | succ k ih =>
    rw [pow_succ', mul_assoc]
    exact (lyap_contract h hX k).trans (mul_le_mul_of_nonneg_left ih q0.le)

/-- A pass (from the second on) at which the test fails costs a fixed amount (the argument of C18_terminates). -/
theorem lyap_cost [Nonempty n] (h : ConstPenalty eigh a Z0 rho) {X : Matrix n n ℝ}
    (hX : IsMin (PD n) (glObjective a.empCov a.alpha) X) (htol : 0 < a.tol) (hrtol : 0 ≤ a.rtol) (k : ℕ)
    (hk : Lemmas.stopAt (glBody eigh a) (glInit Z0 rho) (k + 1) = false) :
    lyap eigh a Z0 rho X (k + 2) + min ((Fintype.card n * a.tol) ^ 2) ((Fintype.card n * a.tol) ^ 2 / rho ^ 2)
      ≤ lyap eigh a Z0 rho X (k + 1) := by
  set V := lyap eigh a Z0 rho X with hV
  set eps := (Fintype.card n : ℝ) * a.tol with heps
  have hcard : (0 : ℝ) < Fintype.card n := by exact_mod_cast Fintype.card_pos
  have heps0 : 0 < eps := mul_pos hcard htol
  have hr := h.rhoPos
  set d := min (eps ^ 2) (eps ^ 2 / rho ^ 2) with hd
  have hstrong := lyap_step_strong h hX k
  have hmn := mul_nonneg (by positivity : 0 ≤ 2 * rho⁻¹)
    (inv_mono (Kit_posDef h (k + 1)) hX.1)
  obtain ⟨h1, _, _⟩ := st_facts h (k + 1)
  have hZold : (st eigh a Z0 rho (k + 1)).Zold = (st eigh a Z0 rho (k + 1)).Z := by
    rw [st_succ h k]
  have hnot : ¬ (glBody eigh a (k + 1) (st eigh a Z0 rho (k + 1))).2.2 = true := by
    have : (glBody eigh a (k + 1) (st eigh a Z0 rho (k + 1))).2.2 = false := hk
    rw [this]; simp
  rw [glBody_stop_iff] at hnot
  have hnz : nextZ eigh a (st eigh a Z0 rho (k + 1)) = (st eigh a Z0 rho (k + 2)).Z := by
    rw [st_succ h (k + 1)]
  unfold Converged glBody at hnot
  simp only [h.relax, glKhat_one] at hnot
  rw [← nextZ, hnz, hZold, h1] at hnot
  have hs2 : Real.sqrt ((Fintype.card n : ℝ) * Fintype.card n) = Fintype.card n :=
    Real.sqrt_mul_self hcard.le
  rw [hs2, ← heps] at hnot
  have hK : glK eigh a.empCov rho (st eigh a Z0 rho (k + 1)).Z (st eigh a Z0 rho (k + 1)).U
      = Kit eigh a Z0 rho (k + 1) := by simp only [Kit, h1]
  rw [hK] at hnot
  have hor : eps < froNorm (Kit eigh a Z0 rho (k + 1) - (st eigh a Z0 rho (k + 2)).Z) ∨
      eps < rho * froNorm ((st eigh a Z0 rho (k + 2)).Z - (st eigh a Z0 rho (k + 1)).Z) := by
    by_contra hc
    push Not at hc
    apply hnot
    constructor
    · refine le_trans hc.1 (le_add_of_nonneg_right (mul_nonneg hrtol ?_))
      exact le_max_of_le_left (froNorm_nonneg _)
    · refine le_trans hc.2 (le_add_of_nonneg_right (mul_nonneg (mul_nonneg hrtol hr.le) ?_))
      exact froNorm_nonneg _
  have hn1 := frobSq_nonneg ((st eigh a Z0 rho (k + 2)).Z - (st eigh a Z0 rho (k + 1)).Z)
  have hn2 := frobSq_nonneg (Kit eigh a Z0 rho (k + 1) - (st eigh a Z0 rho (k + 2)).Z)
  rcases hor with h2 | h2
  · have h3 : d ≤ frobSq (Kit eigh a Z0 rho (k + 1) - (st eigh a Z0 rho (k + 2)).Z) := by
      rw [← froNorm_sq]
      exact le_trans (min_le_left _ _) (pow_le_pow_left₀ heps0.le h2.le 2)
    linarith
  · have h3 : d ≤ frobSq ((st eigh a Z0 rho (k + 2)).Z - (st eigh a Z0 rho (k + 1)).Z) := by
      rw [← froNorm_sq]
      refine le_trans (min_le_right _ _) ?_
      rw [div_le_iff₀ (by positivity), ← mul_pow, mul_comm (froNorm _)]
      exact pow_le_pow_left₀ heps0.le h2.le 2
    linarith

/-- C202 (rate of the iterates): at a constant penalty, from every symmetric start, the squared distance of the precision
after `k` passes to the optimum is at most `q ^ k` times the distance of the start (precision and multiplier together),
where `q < 1` is an explicit function of the covariance, the optimum, the start and the penalty parameter. -/
theorem C202_linear_rate (h : ConstPenalty eigh a Z0 rho) {X : Matrix n n ℝ}
    (hX : IsMin (PD n) (glObjective a.empCov a.alpha) X) :
    0 < rateOf a.empCov X Z0 rho ∧ rateOf a.empCov X Z0 rho < 1 ∧
      ∀ k, frobSq ((stateAt (glBody eigh a) (glInit Z0 rho) k).Z - X)
        ≤ rateOf a.empCov X Z0 rho ^ k * startDist a.empCov X Z0 rho := by
  obtain ⟨q0, q1⟩ := rateOf_mem (S := a.empCov) hX.1 Z0 h.rhoPos
  exact ⟨q0, q1, fun k => (le_add_of_nonneg_right (frobSq_nonneg _)).trans (lyap_rate h hX k)⟩

/-- With `tol = rtol = 0` the test passes only at the optimum. -/
theorem const_stop_exact [Nonempty n] (h : ConstPenalty eigh a Z0 rho) {X : Matrix n n ℝ}
    (hX : IsMin (PD n) (glObjective a.empCov a.alpha) X) (h0 : a.tol = 0) (h1 : a.rtol = 0) {j : ℕ}
    (hs : Lemmas.stopAt (glBody eigh a) (glInit Z0 rho) j = true) : (st eigh a Z0 rho (j + 1)).Z = X := by
  obtain ⟨f1, f2, f3⟩ := st_facts h j
  have hr := h.rhoPos
  have hs' : (glBody eigh a j (st eigh a Z0 rho j)).2.2 = true := hs
  have hKZ : Kit eigh a Z0 rho j = (st eigh a Z0 rho (j + 1)).Z ∧
      (st eigh a Z0 rho (j + 1)).Z = (st eigh a Z0 rho j).Zold := by
    unfold glBody at hs'
    simp only [decide_eq_true_eq, h0, h1, mul_zero, zero_mul, add_zero, h.relax, glKhat_one] at hs'
    rw [← nextZ] at hs'
    have e : nextZ eigh a (st eigh a Z0 rho j) = (st eigh a Z0 rho (j + 1)).Z := by rw [st_succ h j]
    rw [e, f1] at hs'
    have hK : glK eigh a.empCov rho (st eigh a Z0 rho j).Z (st eigh a Z0 rho j).U = Kit eigh a Z0 rho j := by
      simp only [Kit, f1]
    rw [hK] at hs'
    exact ⟨sub_eq_zero.mp (froNorm_eq_zero' (le_antisymm hs'.1 (froNorm_nonneg _))),
      sub_eq_zero.mp (froNorm_eq_zero' (le_antisymm (nonpos_of_mul_nonpos_right hs'.2 hr) (froNorm_nonneg _)))⟩
  obtain ⟨hK, hZo⟩ := hKZ
  have hpd := Kit_posDef h j
  cases j with
  | zero =>
    exfalso
    rw [hK, hZo] at hpd
    have hz : (st eigh a Z0 rho 0).Zold = 0 := rfl
    rw [hz] at hpd
    exact absurd hpd.det_pos (by simp)
  | succ j =>
    have hZold : (st eigh a Z0 rho (j + 1)).Zold = (st eigh a Z0 rho (j + 1)).Z := by rw [st_succ h j]
    rw [hZold] at hZo
    have hU : (st eigh a Z0 rho (j + 2)).U = (st eigh a Z0 rho (j + 1)).U := by
      have e : (st eigh a Z0 rho (j + 2)).U = (st eigh a Z0 rho (j + 1)).U + (Kit eigh a Z0 rho (j + 1)
          - (st eigh a Z0 rho (j + 2)).Z) := by
        rw [st_succ h (j + 1)]
        simp only [nextU]
      rw [e, hK, sub_self, add_zero]
    have hc := lyap_contract h hX (j + 1)
    have hl : lyap eigh a Z0 rho X (j + 2) = lyap eigh a Z0 rho X (j + 1) := by
      unfold lyap
      rw [hU]
      rw [show (st eigh a Z0 rho (j + 2)).Z = (st eigh a Z0 rho (j + 1)).Z from hZo]
    rw [show j + 1 + 1 = j + 2 from rfl, hl] at hc
    obtain ⟨-, q1⟩ := rateOf_mem (S := a.empCov) hX.1 Z0 hr
    have hn := lyap_nonneg (eigh := eigh) (a := a) (Z0 := Z0) (rho := rho) X (j + 1)
    have hz : lyap eigh a Z0 rho X (j + 1) = 0 := by nlinarith
    have hZX : frobSq ((st eigh a Z0 rho (j + 1)).Z - X) = 0 := by
      have h4 := frobSq_nonneg ((st eigh a Z0 rho (j + 1)).Z - X)
      have h5 := frobSq_nonneg ((st eigh a Z0 rho (j + 1)).U - rho⁻¹ • (X⁻¹ - a.empCov))
      unfold lyap at hz
      linarith
    rw [hZo]
    exact sub_eq_zero.mp ((frobSq_eq_zero_iff _).mp hZX)

/-- C202 (rate of the calls): a call with `tol = rtol = 0` and `max_iter = m ≥ 1` returns a precision within
`q ^ m` (squared Frobenius distance, times the distance of the start) of the optimum. -/
theorem C202_call_rate [Nonempty n] (h : ConstPenalty eigh a Z0 rho) {X : Matrix n n ℝ}
    (hX : IsMin (PD n) (glObjective a.empCov a.alpha) X) (h0 : a.tol = 0) (h1 : a.rtol = 0) {m : ℕ} (hm : 1 ≤ m)
    (rh rn : Bool) : ∃ Z C hist it w, graphicalLasso eigh a Z0 rho m rh rn = .ok Z C hist it w ∧
      frobSq (Z - X) ≤ rateOf a.empCov X Z0 rho ^ m * startDist a.empCov X Z0 rho := by
  obtain ⟨C, hist, it, hcall⟩ := glCall_shape eigh a Z0 rho hm rh rn
  refine ⟨_, C, hist, it, _, hcall, ?_⟩
  obtain ⟨q0, -, hq⟩ := C202_linear_rate h hX
  rcases runLoop_spec (glBody eigh a) m (glInit Z0 rho) with ⟨j, -, -, hs, e⟩ | ⟨-, e⟩
  · rw [e]
    change frobSq ((st eigh a Z0 rho (j + 1)).Z - X) ≤ _
    rw [const_stop_exact h hX h0 h1 hs, sub_self, (frobSq_eq_zero_iff _).mpr rfl]
    exact mul_nonneg (pow_nonneg q0.le m) (startDist_nonneg _ _ _ _)
  · rw [e]
    exact hq m

/-- C202 (number of passes): with `tol > 0` the call ends by its own test, without the warning, as soon as
`max_iter ≥ k + 2` for a `k` with `q ^ (k + 1) * distance of the start < min (eps², eps² / rho²)`, `eps = tol * p`: the
number of passes grows with the logarithm of the tolerance, not with its inverse square as in C18. -/
theorem C202_passes [Nonempty n] (h : ConstPenalty eigh a Z0 rho) {X : Matrix n n ℝ}
    (hX : IsMin (PD n) (glObjective a.empCov a.alpha) X) (htol : 0 < a.tol) (hrtol : 0 ≤ a.rtol) {k m : ℕ}
    (hk : rateOf a.empCov X Z0 rho ^ (k + 1) * startDist a.empCov X Z0 rho
      < min ((Fintype.card n * a.tol) ^ 2) ((Fintype.card n * a.tol) ^ 2 / rho ^ 2))
    (hm : k + 2 ≤ m) (rh rn : Bool) :
    ∃ Z C hist it, graphicalLasso eigh a Z0 rho m rh rn = .ok Z C hist it false := by
  have hstop : Lemmas.stopAt (glBody eigh a) (glInit Z0 rho) (k + 1) = true := by
    by_contra hc
    rw [Bool.not_eq_true] at hc
    have h1 := lyap_cost h hX htol hrtol k hc
    have h2 := lyap_rate h hX (k + 1)
    have h3 := lyap_nonneg (eigh := eigh) (a := a) (Z0 := Z0) (rho := rho) X (k + 2)
    linarith
  obtain ⟨C, hist, it, hcall⟩ := glCall_shape eigh a Z0 rho (m := m) (by omega) rh rn
  rw [runLoop_broke _ _ hstop (by omega)] at hcall
  exact ⟨_, C, hist, it, hcall⟩

/-- Such a `k` always exists: the bound tends to zero. -/
theorem C202_passes_exist [Nonempty n] (h : ConstPenalty eigh a Z0 rho) {X : Matrix n n ℝ}
    (hX : IsMin (PD n) (glObjective a.empCov a.alpha) X) (htol : 0 < a.tol) :
    ∃ k : ℕ, rateOf a.empCov X Z0 rho ^ (k + 1) * startDist a.empCov X Z0 rho
      < min ((Fintype.card n * a.tol) ^ 2) ((Fintype.card n * a.tol) ^ 2 / rho ^ 2) := by
  obtain ⟨q0, q1⟩ := rateOf_mem (S := a.empCov) hX.1 Z0 h.rhoPos
  have hr := h.rhoPos
  have hcard : (0 : ℝ) < Fintype.card n := by exact_mod_cast Fintype.card_pos
  have hd : 0 < min ((Fintype.card n * a.tol) ^ 2) ((Fintype.card n * a.tol) ^ 2 / rho ^ 2) :=
    lt_min (by positivity) (by positivity)
  have hl := ((tendsto_pow_atTop_nhds_zero_of_lt_one q0.le q1).comp (tendsto_add_atTop_nat 1)).mul_const
    (startDist a.empCov X Z0 rho)
  rw [zero_mul] at hl
  exact (hl.eventually_lt_const hd).exists

/-- Non-vacuity for C202: the 1x1 problem `S = 1`, `alpha = 1`, started at `0`, with optimum `1`: the distance of the
start is `1` and the factor of a pass is `1 - 1 / 26`. -/
example : ∃ (eigh : Eigh (Fin 1)), ConstPenalty eigh ⟨1, 1, 1, 1, 0, ⟨10, 1, 1⟩⟩ 0 1 ∧
    IsMin (PD (Fin 1)) (glObjective 1 1) (1 : Matrix (Fin 1) (Fin 1) ℝ) ∧
    startDist (1 : Matrix (Fin 1) (Fin 1) ℝ) 1 0 1 = 1 ∧
    rateOf (1 : Matrix (Fin 1) (Fin 1) ℝ) 1 0 1 = 1 - 1 / 26 := by
  obtain ⟨eigh, he⟩ := exists_eighOracle (n := Fin 1)
  refine ⟨eigh, ⟨he, by simp [IsSymm], by norm_num, rfl, rfl, rfl, by simp [IsSymm], by norm_num⟩, ?_, ?_, ?_⟩
  · have := gl_optimal_of_subgrad (n := Fin 1) (S := 1) (K := 1) (G := 0) (alpha := 1)
      (by simp [IsSymm]) PosDef.one (by simp [symmetrize]) (by
        intro X
        simp [absSumOff, frobInner])
    exact this.isMin
  · simp [startDist, frobSq]
  · simp [rateOf, rateConst, startDist, frobSq, trace]
    norm_num

end Verif.Props
