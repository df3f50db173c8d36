import Verif.Lemmas.Lasso
import Verif.Lemmas.GLOpt
import Verif.Spec.Linear
import Mathlib.LinearAlgebra.Matrix.Notation
import Mathlib.LinearAlgebra.Matrix.Rank

/-! Property theorems C46: `lasso`. -/

namespace Verif.Props

open Matrix Verif.Model Verif.Spec Verif.Lemmas Filter Topology

set_option autoImplicit false

variable {m p : ℕ}

/-- The normal equations of least squares always have a solution. -/
theorem normal_eq_solvable (A : Matrix (Fin m) (Fin p) ℝ) (b : Fin m → ℝ) :
    ∃ x, Aᵀ *ᵥ (A *ᵥ x) = Aᵀ *ᵥ b := by
  have hle : LinearMap.range (Aᵀ * A).mulVecLin ≤ LinearMap.range Aᵀ.mulVecLin := by
    rintro _ ⟨x, rfl⟩
    exact ⟨A *ᵥ x, by simp⟩
  have heq := Submodule.eq_of_le_of_finrank_eq hle (by
    change (Aᵀ * A).rank = Aᵀ.rank
    rw [rank_transpose_mul_self, rank_transpose])
  have hmem : Aᵀ *ᵥ b ∈ LinearMap.range (Aᵀ * A).mulVecLin := by rw [heq]; exact ⟨b, rfl⟩
  obtain ⟨x, hx⟩ := hmem
  rw [mulVecLin_apply, ← mulVec_mulVec] at hx
  exact ⟨x, hx⟩

/-- Exact linear algebra exists, so the contract of the external routines can be met. -/
theorem exists_linAlg : ∃ la : LinAlg, la.Ok := by
  classical
  have hc : ∀ (k : ℕ) (M : Matrix (Fin k) (Fin k) ℝ), ∃ L : Matrix (Fin k) (Fin k) ℝ,
      M.PosDef → L * Lᵀ = M := by
    intro k M
    by_cases h : M.PosDef
    · obtain ⟨R, hR, h2⟩ := exists_sqrt h
      exact ⟨R, fun _ => by rw [hR.isSymm', h2]⟩
    · exact ⟨0, fun h' => absurd h' h⟩
  have hl : ∀ (k : ℕ) (M : Matrix (Fin k) (Fin k) ℝ) (q : Fin k → ℝ), ∃ x : Fin k → ℝ,
      Mᵀ *ᵥ (M *ᵥ x) = Mᵀ *ᵥ q := fun k M q => normal_eq_solvable M q
  choose c hc using hc
  choose l hl using hl
  exact ⟨⟨c, l⟩, hc, hl⟩

/-- The lasso problem has a solution for every penalty `lam ≥ 0`. -/
theorem C46_solution_exists (A : Matrix (Fin m) (Fin p) ℝ) (b : Fin m → ℝ) {lam : ℝ} (hl : 0 ≤ lam) :
    ∃ x, IsMin Set.univ (lassoObj A b lam) x := by
  rcases hl.eq_or_lt with h0 | hpos
  · obtain ⟨x, hx⟩ := normal_eq_solvable A b
    refine ⟨x, trivial, fun z _ => ?_⟩
    have h := lsLoss_convex A b x z
    have e : Aᵀ *ᵥ (A *ᵥ x - b) = 0 := by rw [mulVec_sub, hx, sub_self]
    simp only [e, Pi.zero_apply, zero_mul, Finset.sum_const_zero, add_zero] at h
    unfold lassoObj
    rw [← h0, zero_mul, zero_mul, add_zero, add_zero]
    exact h
  · have hcont : Continuous (lassoObj A b lam) := by
      unfold lassoObj absSum
      refine Continuous.add (continuous_const.mul (continuous_finsetSum _ fun i _ => ?_))
        (continuous_const.mul (continuous_finsetSum _ fun i _ => (continuous_apply i).abs))
      refine ((?_ : Continuous fun x => (A *ᵥ x) i).sub continuous_const).pow 2
      unfold mulVec dotProduct
      exact continuous_finsetSum _ fun j _ => continuous_const.mul (continuous_apply j)
    set R := lassoObj A b lam 0 / lam with hR
    have hnn : ∀ x, lam * absSum x ≤ lassoObj A b lam x := fun x => by
      unfold lassoObj
      have : 0 ≤ ∑ i, ((A *ᵥ x) i - b i) ^ 2 := Finset.sum_nonneg fun _ _ => sq_nonneg _
      linarith
    have habs : ∀ x : Fin p → ℝ, ∀ i, |x i| ≤ absSum x := fun x i =>
      Finset.single_le_sum (f := fun i => |x i|) (fun _ _ => abs_nonneg _) (Finset.mem_univ i)
    have hR0 : 0 ≤ R := div_nonneg ((mul_nonneg hl (by unfold absSum; simp)).trans (hnn 0)) hl
    obtain ⟨x, -, hx⟩ := (isCompact_closedBall (0 : Fin p → ℝ) R).exists_isMinOn
      ⟨0, by simpa using hR0⟩ hcont.continuousOn
    refine ⟨x, trivial, fun z _ => ?_⟩
    by_cases hz : z ∈ Metric.closedBall (0 : Fin p → ℝ) R
    · exact hx hz
    · have h1 : lassoObj A b lam x ≤ lassoObj A b lam 0 := hx (by simpa using hR0)
      refine h1.trans (le_of_lt ?_)
      rw [Metric.mem_closedBall, dist_zero_right, pi_norm_le_iff_of_nonneg hR0] at hz
      push Not at hz
      obtain ⟨i, hi⟩ := hz
      rw [Real.norm_eq_abs, hR, div_lt_iff₀ hpos] at hi
      have h2 := mul_le_mul_of_nonneg_left (habs z i) hl
      have h3 := hnn z
      linarith

/-- The first output of the loop body in terms of the two proximal maps. -/
theorem lassoStep_state (la : LinAlg) (a : LassoArgs m p) (k : ℕ) (s : LassoState p) :
    (lassoStep la a k s).1 =
      ⟨lsProx la a.A a.b a.rho (s.z - s.u),
       softThresholding (a.alpha • lsProx la a.A a.b a.rho (s.z - s.u) + (1 - a.alpha) • s.z + s.u)
        (a.lamda / a.rho),
       s.u + (a.alpha • lsProx la a.A a.b a.rho (s.z - s.u) + (1 - a.alpha) • s.z -
        softThresholding (a.alpha • lsProx la a.A a.b a.rho (s.z - s.u) + (1 - a.alpha) • s.z + s.u)
          (a.lamda / a.rho))⟩ := rfl

/-- C46: `z` belongs to a state that an iteration leaves unchanged exactly when it solves the lasso
problem, for every `rho > 0` and every over-relaxation `alpha ≠ 0`. -/
theorem C46_fixed_iff_optimal {la : LinAlg} (hla : la.Ok) (a : LassoArgs m p) (hr : 0 < a.rho)
    (hl : 0 ≤ a.lamda) (hal : a.alpha ≠ 0) (k : ℕ) (z : Fin p → ℝ) :
    (∃ x u, (lassoStep la a k ⟨x, z, u⟩).1.z = z ∧ (lassoStep la a k ⟨x, z, u⟩).1.u = u) ↔
      IsMin Set.univ (lassoObj a.A a.b a.lamda) z := by
  constructor
  · rintro ⟨x, u, hz, hu⟩
    rw [lassoStep_state] at hz hu
    simp only at hz hu
    rw [hz] at hu
    set y := lsProx la a.A a.b a.rho (z - u) with hy
    have h1 : a.alpha • y + (1 - a.alpha) • z = z := by
      have := add_eq_left.mp hu
      exact sub_eq_zero.mp this
    rw [h1] at hz
    have h2 : y = z := by
      have h3 : a.alpha • y = a.alpha • z := by
        have := eq_sub_of_add_eq h1
        rw [this, sub_smul, one_smul, sub_sub_cancel]
      exact smul_right_injective _ hal h3
    have h4 : lsProx la a.A a.b a.rho ((2 : ℝ) • softThresholding (z + u) (a.lamda / a.rho) - (z + u)) =
        softThresholding (z + u) (a.lamda / a.rho) := by
      rw [hz]
      have e : (2 : ℝ) • z - (z + u) = z - u := by rw [two_smul]; abel
      rw [e]; exact h2
    have h5 := lasso_dr_fixed hla a.A a.b hl hr h4
    rw [hz] at h5
    exact ⟨trivial, fun w _ => h5 w⟩
  · intro hmin
    obtain ⟨s, hs, hx⟩ := lasso_dr_fixed_of_min hla a.A a.b hl hr (fun w => hmin.2 w trivial)
    refine ⟨0, s - z, ?_⟩
    rw [lassoStep_state]
    simp only
    have e : z - (s - z) = (2 : ℝ) • z - s := by rw [two_smul]; abel
    have e2 : a.alpha • z + (1 - a.alpha) • z = z := by rw [← add_smul]; simp
    rw [e, hx, e2, add_sub_cancel, hs]
    exact ⟨rfl, by simp⟩

/-- The states of `lasso` follow the relaxed Douglas-Rachford iteration. -/
theorem lasso_state {la : LinAlg} (a : LassoArgs m p) (hlr : 0 ≤ a.lamda / a.rho) (k : ℕ) :
    let J1 := fun x : Fin p → ℝ => softThresholding x (a.lamda / a.rho)
    let J2 := lsProx la a.A a.b a.rho
    (stateAt (lassoStep la a) (lassoInit p) k).z = J1 (drSeq J1 J2 a.alpha 0 k) ∧
    (stateAt (lassoStep la a) (lassoInit p) k).u =
      drSeq J1 J2 a.alpha 0 k - J1 (drSeq J1 J2 a.alpha 0 k) ∧
    (stateAt (lassoStep la a) (lassoInit p) (k + 1)).x =
      J2 ((2 : ℝ) • J1 (drSeq J1 J2 a.alpha 0 k) - drSeq J1 J2 a.alpha 0 k) := by
  intro J1 J2
  have key : ∀ k, (stateAt (lassoStep la a) (lassoInit p) k).z = J1 (drSeq J1 J2 a.alpha 0 k) ∧
      (stateAt (lassoStep la a) (lassoInit p) k).u =
        drSeq J1 J2 a.alpha 0 k - J1 (drSeq J1 J2 a.alpha 0 k) := by
    intro k
    induction k with
    | zero =>
      have h0 : J1 0 = 0 := by
        funext i
        change softScalar 0 _ = 0
        exact softScalar_of_abs_le (by simpa using hlr)
      refine ⟨?_, ?_⟩
      · change (0 : Fin p → ℝ) = J1 0
        rw [h0]
      · change (0 : Fin p → ℝ) = 0 - J1 0
        rw [h0, sub_zero]
    | succ k ih =>
      change (lassoStep la a k (stateAt (lassoStep la a) (lassoInit p) k)).1.z = _ ∧
        (lassoStep la a k (stateAt (lassoStep la a) (lassoInit p) k)).1.u = _
      rw [lassoStep_state]
      simp only [ih.1, ih.2]
      set s := drSeq J1 J2 a.alpha 0 k with hs
      have hn : drSeq J1 J2 a.alpha 0 (k + 1) = drStep J1 J2 a.alpha s := rfl
      have e1 : J1 s - (s - J1 s) = (2 : ℝ) • J1 s - s := by rw [two_smul]; abel
      have e2 : a.alpha • J2 ((2 : ℝ) • J1 s - s) + (1 - a.alpha) • J1 s + (s - J1 s) =
          drSeq J1 J2 a.alpha 0 (k + 1) := by
        rw [hn]; unfold drStep; rw [sub_smul, one_smul, smul_sub]; abel
      change softThresholding (a.alpha • J2 (J1 s - (s - J1 s)) + (1 - a.alpha) • J1 s + (s - J1 s)) _ = _
        ∧ _
      rw [e1, e2]
      refine ⟨rfl, ?_⟩
      change s - J1 s + (a.alpha • J2 ((2 : ℝ) • J1 s - s) + (1 - a.alpha) • J1 s -
        softThresholding (drSeq J1 J2 a.alpha 0 (k + 1)) (a.lamda / a.rho)) = _
      change _ = drSeq J1 J2 a.alpha 0 (k + 1) -
        softThresholding (drSeq J1 J2 a.alpha 0 (k + 1)) (a.lamda / a.rho)
      generalize softThresholding (drSeq J1 J2 a.alpha 0 (k + 1)) (a.lamda / a.rho) = w
      rw [← e2]; abel
  refine ⟨(key k).1, (key k).2, ?_⟩
  change (lassoStep la a k (stateAt (lassoStep la a) (lassoInit p) k)).1.x = _
  rw [lassoStep_state]
  simp only [(key k).1, (key k).2]
  set s := drSeq J1 J2 a.alpha 0 k with hs
  have e1 : J1 s - (s - J1 s) = (2 : ℝ) • J1 s - s := by rw [two_smul]; abel
  rw [e1]

/-- C46: for `0 < alpha < 2` and `rho > 0` the iterates `x` and `z` of `lasso` converge to a common
solution of the lasso problem, for all data. -/
theorem C46_converges {la : LinAlg} (hla : la.Ok) (a : LassoArgs m p) (hr : 0 < a.rho)
    (hl : 0 ≤ a.lamda) (ha0 : 0 < a.alpha) (ha2 : a.alpha < 2) :
    ∃ z, IsMin Set.univ (lassoObj a.A a.b a.lamda) z ∧
      Tendsto (fun k => (stateAt (lassoStep la a) (lassoInit p) k).z) atTop (𝓝 z) ∧
      Tendsto (fun k => (stateAt (lassoStep la a) (lassoInit p) (k + 1)).x) atTop (𝓝 z) := by
  have hlr : 0 ≤ a.lamda / a.rho := div_nonneg hl hr.le
  obtain ⟨x, hx⟩ := C46_solution_exists a.A a.b hl
  obtain ⟨s, hs, hf⟩ := lasso_dr_fixed_of_min hla a.A a.b hl hr (fun w => hx.2 w trivial)
  have F1 := soft_firm (ι := Fin p) hlr
  have F2 := lsProx_firm hla a.A a.b hr
  obtain ⟨c, hc, hlim⟩ := dr_converges F1 F2 ha0 ha2 (sx := s) (by simp only [hs]; exact hf) 0
  have hp := F1.tendsto hlim
  refine ⟨softThresholding c (a.lamda / a.rho),
    ⟨trivial, fun w _ => lasso_dr_fixed hla a.A a.b hl hr hc w⟩, ?_, ?_⟩
  · refine hp.congr fun k => ?_
    exact (lasso_state a hlr k).1.symm
  · have hq := F2.tendsto ((hp.const_smul (2 : ℝ)).sub hlim)
    rw [← hc]
    exact hq.congr fun k => (lasso_state a hlr k).2.2.symm

theorem npNorm_tendsto {x y : ℕ → Fin p → ℝ} {z : Fin p → ℝ} (hx : Tendsto x atTop (𝓝 z))
    (hy : Tendsto y atTop (𝓝 z)) : Tendsto (fun k => npNorm (x k - y k)) atTop (𝓝 0) := by
  have h := (tendsto_sqDist hx hy).sqrt
  have e : sqDist z z = 0 := by unfold sqDist; simp
  rw [e, Real.sqrt_zero] at h
  exact h

/-- C46: with positive tolerances the loop stops on its own once `max_iter` is large enough. -/
theorem C46_terminates {la : LinAlg} (hla : la.Ok) (a : LassoArgs m p) (hp : 0 < p) (hr : 0 < a.rho)
    (hl : 0 ≤ a.lamda) (ha0 : 0 < a.alpha) (ha2 : a.alpha < 2) (ht : 0 < a.tol) (hrt : 0 ≤ a.rtol) :
    ∃ N, ∀ maxIter > N, (runLoop (lassoStep la a) maxIter (lassoInit p)).broke = true := by
  obtain ⟨z, -, hz, hx⟩ := C46_converges hla a hr hl ha0 ha2
  have hz1 := hz.comp (tendsto_add_atTop_nat 1)
  have hr0 := npNorm_tendsto hx hz1
  have hs0 : Tendsto (fun k => npNorm ((-a.rho) • ((stateAt (lassoStep la a) (lassoInit p) (k + 1)).z -
      (stateAt (lassoStep la a) (lassoInit p) k).z))) atTop (𝓝 0) := by
    have h := (npNorm_tendsto hz1 hz).const_mul a.rho
    rw [mul_zero] at h
    refine h.congr fun k => ?_
    simp only [Function.comp]
    have := npNorm_smul (-a.rho) ((stateAt (lassoStep la a) (lassoInit p) (k + 1)).z -
      (stateAt (lassoStep la a) (lassoInit p) k).z)
    rw [abs_neg, abs_of_pos hr] at this
    exact this.symm
  set eps := Real.sqrt p * a.tol with heps
  have hpos : 0 < eps := mul_pos (Real.sqrt_pos.mpr (by exact_mod_cast hp)) ht
  have h1 := hr0.eventually (gt_mem_nhds hpos)
  have h2 := hs0.eventually (gt_mem_nhds hpos)
  obtain ⟨N, hN⟩ := (h1.and h2).exists
  refine ⟨N, fun maxIter hm => ?_⟩
  have hstop : stopAt (lassoStep la a) (lassoInit p) N = true := by
    change lassoStop _ = true
    unfold lassoStop
    rw [decide_eq_true_eq]
    have hnn : ∀ v : Fin p → ℝ, 0 ≤ npNorm v := fun v => Real.sqrt_nonneg _
    refine ⟨lt_of_lt_of_le hN.1 (le_add_of_nonneg_right (mul_nonneg hrt ((hnn _).trans
      (le_max_left _ _)))), lt_of_lt_of_le hN.2 (le_add_of_nonneg_right (mul_nonneg hrt (hnn _)))⟩
  rcases runLoop_spec (lassoStep la a) maxIter (lassoInit p) with ⟨j, hj, h3, h4, h5⟩ | ⟨h6, -⟩
  · rw [h5]
  · exact absurd (h6 N hm) (by rw [hstop]; simp)

/-- C46, the claim about the returned value fails for every call: without `return_history` the result
is a pair `(z, z)` and never the array `z`. -/
theorem C46_return_false (la : LinAlg) (a : LassoArgs m p) (h : a.returnHistory = false) :
    (∃ z, lasso la a = .ok (.tuple (.arr z) (.arr z))) ∧ ∀ z, lasso la a ≠ .ok (.arr z) := by
  unfold lasso
  simp only [h, Bool.false_eq_true, if_false]
  exact ⟨⟨_, rfl⟩, fun z hz => by simp at hz⟩

/-- C46: with `return_history` the second component is the record of the last iteration only, whatever
the number of iterations, and with `max_iter = 0` the call fails. -/
theorem C46_history_false (la : LinAlg) (a : LassoArgs m p) (h : a.returnHistory = true) :
    (a.maxIter = 0 → lasso la a = .error .name) ∧
    (0 < a.maxIter → ∃ k < a.maxIter, lasso la a =
      .ok (.tuple (.arr (stateAt (lassoStep la a) (lassoInit p) (k + 1)).z)
        (.hist (checkAt (lassoStep la a) (lassoInit p) k)))) := by
  unfold lasso
  simp only [h, if_true]
  refine ⟨fun h0 => by rw [h0]; rfl, fun hpos => ?_⟩
  rcases runLoop_spec (lassoStep la a) a.maxIter (lassoInit p) with ⟨j, hj, -, -, h5⟩ | ⟨-, h5⟩
  · refine ⟨j, hj, ?_⟩
    rw [h5]
    simp [List.range_succ]
  · obtain ⟨k, hk⟩ : ∃ k, a.maxIter = k + 1 := ⟨a.maxIter - 1, by omega⟩
    refine ⟨k, by omega, ?_⟩
    rw [h5, hk]
    simp [List.range_succ]

/-- A concrete lasso call: the hypotheses of C46 hold. -/
noncomputable def lassoDemo (rh : Bool) : LassoArgs 1 2 :=
  { A := !![1, 2], b := fun _ => 3, lamda := 1, rho := 2, alpha := 3 / 2, maxIter := 5, tol := 1,
    rtol := 0, returnHistory := rh }

example : ∃ la : LinAlg, la.Ok ∧ 0 < (lassoDemo false).rho ∧ 0 ≤ (lassoDemo false).lamda ∧
    0 < (lassoDemo false).alpha ∧ (lassoDemo false).alpha < 2 ∧ 0 < (lassoDemo false).tol ∧
    (lassoDemo false).returnHistory = false ∧ (lassoDemo true).returnHistory = true := by
  obtain ⟨la, h⟩ := exists_linAlg
  refine ⟨la, h, ?_, ?_, ?_, ?_, ?_, rfl, rfl⟩ <;> norm_num [lassoDemo]

end Verif.Props
