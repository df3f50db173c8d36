import Verif.Model.Infimal
import Verif.Props.LTGL

/-! Property theorems C100 (infimal convolution). -/

namespace Verif.Props

open Verif.Model Verif.Spec Verif.Lemmas Matrix

set_option autoImplicit false
set_option linter.unusedSectionVars false

variable {n : Type*} [Fintype n] [DecidableEq n]

/-- "One iteration leaves the state unchanged": `K`, `L` and the unscaled dual. -/
def InfStationary (eigh : Eigh n) (a : InfArgs n) (s : InfState n) : Prop :=
  (infBody eigh a 0 s).1.K = s.K ∧ (infBody eigh a 0 s).1.L = s.L ∧
    (infBody eigh a 0 s).1.rho • (infBody eigh a 0 s).1.U = s.rho • s.U

theorem infStationary_iff (eigh : Eigh n) (a : InfArgs n) (hi : 0 < a.rhoOptions.tauInc)
    (hd : 0 < a.rhoOptions.tauDec) (s : InfState n) (hr : 0 < s.rho) :
    InfStationary eigh a s ↔
      infR a.S s.rho s.K s.L s.U = s.K - s.L ∧
      softThresholdingMat (s.K + s.U) (a.alpha / s.rho) = s.K ∧
      infL eigh a.tau s.rho s.K (s.K - s.L) s.U = s.L := by
  set R := infR a.S s.rho s.K s.L s.U with hR
  set K := infK a.alpha s.rho s.L R s.U with hK
  set L := infL eigh a.tau s.rho K R s.U with hL
  have h1 : (infBody eigh a 0 s).1.K = K := by unfold infBody; simp only; split <;> rfl
  have h2 : (infBody eigh a 0 s).1.L = L := by unfold infBody; simp only; split <;> rfl
  have h3 : (infBody eigh a 0 s).1.rho • (infBody eigh a 0 s).1.U =
      s.rho • (s.U + (R - K + L)) := by
    unfold infBody
    simp only
    split
    · rfl
    · simp only
      rw [smul_smul, mul_div_cancel₀ _ (updateRho_pos hi hd hr _ _).ne']
  unfold InfStationary
  rw [h1, h2, h3]
  constructor
  · rintro ⟨e1, e2, e3⟩
    have e4 : s.U + (R - K + L) = s.U := smul_right_injective _ hr.ne' e3
    have e5 : R = s.K - s.L := by
      have h0 : R - K + L = 0 := by simpa using e4
      rw [e1, e2] at h0
      rw [sub_add, sub_eq_zero] at h0
      exact h0
    refine ⟨e5, ?_, ?_⟩
    · rw [hK, infK, e5] at e1
      rw [add_sub_cancel] at e1
      exact e1
    · rw [hL, e1, e5] at e2
      exact e2
  · rintro ⟨e1, e2, e3⟩
    have e4 : K = s.K := by rw [hK, infK, e1, add_sub_cancel, e2]
    have e5 : L = s.L := by rw [hL, e4, e1, e3]
    refine ⟨e4, e5, ?_⟩
    rw [e4, e5, e1]
    simp

theorem absSumMat_symmetrize_le (X : Matrix n n ℝ) : absSumMat (symmetrize X) ≤ absSumMat X := by
  have h := absSumMat_convex X Xᵀ (1 / 2) (by norm_num) (by norm_num)
  have e : X + (1 / 2 : ℝ) • (Xᵀ - X) = symmetrize X := by
    unfold symmetrize
    ext i j
    simp only [Matrix.add_apply, Matrix.smul_apply, Matrix.sub_apply, smul_eq_mul]
    ring
  have et : absSumMat Xᵀ = absSumMat X := by
    unfold absSumMat
    rw [Finset.sum_comm]
    rfl
  rw [e, et] at h
  linarith

theorem symmetrize_adjoint (A B : Matrix n n ℝ) :
    frobInner (symmetrize A) B = frobInner A (symmetrize B) := by
  have h1 : frobInner (symmetrize A) B = frobInner (symmetrize A) (symmetrize B) := by
    rw [frobInner_comm, frobInner_comm (symmetrize A), frobInner_symmetrize (symmetrize_isSymm A)]
  rw [h1, frobInner_symmetrize (symmetrize_isSymm B)]

/-- C100 (part that holds): a stationary state of `infimal_convolution` minimises
`1/2 ‖S - (K - L)‖² + alpha ‖K‖_1 + tau tr(L)` over all `K` and all PSD `L` (full l1 norm), and every other
minimiser has the same `K - L`. The docstring announces the log-likelihood problem and the off-diagonal norm:
refuted by `C100_loglik_false` and `C100_diagonal_false`. -/
theorem C100_stationary_partial {eigh : Eigh n} (he : IsEighOracle eigh) (a : InfArgs n)
    (hS : a.S.IsSymm) (hal : 0 ≤ a.alpha) (hi : 0 < a.rhoOptions.tauInc) (hd : 0 < a.rhoOptions.tauDec)
    (s : InfState n) (hr : 0 < s.rho) (h : InfStationary eigh a s) :
    IsMin {p | p.2.PosSemidef} (squareLatentObjective a.S a.alpha a.tau absSumMat) (s.K, s.L) ∧
    ∀ q, IsMin {p | p.2.PosSemidef} (squareLatentObjective a.S a.alpha a.tau absSumMat) q →
      q.1 - q.2 = s.K - s.L := by
  obtain ⟨h1, h2, h3⟩ := (infStationary_iff eigh a hi hd s hr).mp h
  have hpsd : s.L.PosSemidef := h3 ▸ recompose_posSemidef _ fun _ => le_max_right _ _
  have e0 : (1 + s.rho) • (s.K - s.L) = a.S + s.rho • symmetrize (s.K - s.L - s.U) := by
    nth_rewrite 1 [← h1]
    unfold infR
    ext i j
    simp only [proxLaplacianMat, Matrix.smul_apply, smul_eq_mul]
    have : 1 + 2 * (s.rho / 2) = 1 + s.rho := by ring
    rw [this]
    field_simp
  have hRs : (s.K - s.L).IsSymm := by
    have e1 : s.K - s.L = (1 + s.rho)⁻¹ • (a.S + s.rho • symmetrize (s.K - s.L - s.U)) := by
      rw [← e0, smul_smul, inv_mul_cancel₀ (by positivity), one_smul]
    rw [e1, IsSymm, transpose_smul, transpose_add, transpose_smul, (symmetrize_isSymm _).eq, hS.eq]
  have hKs : s.K.IsSymm := by
    have : s.K = (s.K - s.L) + s.L := by abel
    rw [this, IsSymm, transpose_add, hRs.eq, hpsd.isSymm'.eq]
  have hG : a.S - (s.K - s.L) = s.rho • symmetrize s.U := by
    rw [symmetrize_sub, symmetrize_of_isSymm hRs, smul_sub s.rho, add_smul, one_smul] at e0
    have := congrArg (fun M => M - s.rho • (s.K - s.L) + s.rho • symmetrize s.U) e0
    simp only [add_sub_cancel_right] at this
    have e2 : a.S = (s.K - s.L) + s.rho • symmetrize s.U := by
      rw [this]; abel
    nth_rewrite 1 [e2]
    abel
  have hpenK : ∀ X : Matrix n n ℝ, a.alpha * absSumMat s.K + frobInner (s.rho • symmetrize s.U) (X - s.K)
      ≤ a.alpha * absSumMat X := by
    intro X
    have h4 := softMat_subgrad (lam := a.alpha / s.rho) (by positivity) (s.K + s.U) (symmetrize X)
    rw [h2, add_sub_cancel_left] at h4
    have h5 := mul_le_mul_of_nonneg_left h4 hr.le
    have e : ∀ c : ℝ, s.rho * (a.alpha / s.rho * c) = a.alpha * c := by intro c; field_simp
    rw [mul_add, e, e] at h5
    have h6 : frobInner (symmetrize s.U) (X - s.K) = frobInner s.U (symmetrize X - s.K) := by
      rw [symmetrize_adjoint, symmetrize_sub, symmetrize_of_isSymm hKs]
    rw [frobInner_smul_left, h6]
    have h7 := mul_le_mul_of_nonneg_left (absSumMat_symmetrize_le X) hal
    linarith
  have hpenL : ∀ X : Matrix n n ℝ, X.PosSemidef →
      a.tau * trace s.L - frobInner (s.rho • symmetrize s.U) (X - s.L) ≤ a.tau * trace X := by
    intro X hX
    have hM : symmetrize (s.K - (s.K - s.L) - s.U) = s.L - symmetrize s.U := by
      have : s.K - (s.K - s.L) - s.U = s.L - s.U := by abel
      rw [this, symmetrize_sub, symmetrize_of_isSymm hpsd.isSymm']
    have hE := he _ (symmetrize_isSymm (s.K - (s.K - s.L) - s.U))
    have h4 := proxTrace_vi hE (a.tau / s.rho) hX
    have h3' : proxTraceIndicator (eigh (symmetrize (s.K - (s.K - s.L) - s.U))).1
        (eigh (symmetrize (s.K - (s.K - s.L) - s.U))).2 (a.tau / s.rho) = s.L := h3
    rw [h3', hM] at h4
    have e1 : s.L - symmetrize s.U - s.L = -symmetrize s.U := by abel
    rw [e1, frobInner_neg_left] at h4
    have h5 := mul_le_mul_of_nonneg_left h4 hr.le
    have e : ∀ c : ℝ, s.rho * (a.tau / s.rho * c) = a.tau * c := by intro c; field_simp
    rw [mul_add, e, e] at h5
    rw [frobInner_smul_left]
    linarith
  have key : ∀ q : Matrix n n ℝ × Matrix n n ℝ, q.2.PosSemidef →
      squareLatentObjective a.S a.alpha a.tau absSumMat (s.K, s.L)
        + 1 / 2 * frobSq ((q.1 - q.2) - (s.K - s.L)) ≤
      squareLatentObjective a.S a.alpha a.tau absSumMat q := by
    intro q hq
    have k1 := hpenK q.1
    have k2 := hpenL q.2 hq
    have e : a.S - (q.1 - q.2) = (a.S - (s.K - s.L)) - ((q.1 - q.2) - (s.K - s.L)) := by abel
    have e' : (q.1 - q.2) - (s.K - s.L) = (q.1 - s.K) - (q.2 - s.L) := by abel
    have k3 : frobSq (a.S - (q.1 - q.2)) = frobSq (a.S - (s.K - s.L))
        - 2 * (frobInner (s.rho • symmetrize s.U) (q.1 - s.K)
          - frobInner (s.rho • symmetrize s.U) (q.2 - s.L)) + frobSq ((q.1 - q.2) - (s.K - s.L)) := by
      rw [e, frobSq_sub, hG, ← frobInner_sub_right, ← e']
    unfold squareLatentObjective
    simp only
    rw [k3]
    linarith
  refine ⟨⟨hpsd, fun q hq => ?_⟩, fun q hq => ?_⟩
  · have := key q hq
    have := frobSq_nonneg ((q.1 - q.2) - (s.K - s.L))
    linarith
  · have h4 := key q hq.1
    have h5 := hq.2 (s.K, s.L) hpsd
    have h6 := frobSq_nonneg ((q.1 - q.2) - (s.K - s.L))
    have h7 : frobSq ((q.1 - q.2) - (s.K - s.L)) = 0 := le_antisymm (by linarith) h6
    exact sub_eq_zero.mp ((frobSq_eq_zero_iff _).mp h7)

/-- The witness: `S = 3` (1x1), `alpha = tau = rho = 1`, `K = 2`, `L = 0`, `U = 1`. -/
theorem inf_witness {eigh : Eigh (Fin 1)} (he : IsEighOracle eigh) :
    InfStationary eigh (⟨(3 : ℝ) • 1, 1, 1, 1, 1, {}⟩ : InfArgs (Fin 1)) ⟨(2 : ℝ) • 1, 0, 1, 0, 1⟩ := by
  rw [infStationary_iff _ _ (by norm_num) (by norm_num) _ (by norm_num)]
  refine ⟨?_, ?_, ?_⟩
  · unfold infR
    rw [symmetrize_of_isSymm (isSymm_fin_one _)]
    ext i j
    have : i = j := Subsingleton.elim _ _
    subst this
    simp [proxLaplacianMat]
    norm_num
  · ext i j
    have : i = j := Subsingleton.elim _ _
    subst this
    simp only [softThresholdingMat, Matrix.add_apply, Matrix.smul_apply, Matrix.one_apply_eq]
    rw [softScalar_of_pos (by norm_num) (by norm_num)]
    norm_num
  · unfold infL
    have hM : symmetrize ((2 : ℝ) • (1 : Matrix (Fin 1) (Fin 1) ℝ) - ((2 : ℝ) • 1 - 0) - 1) = (-1 : ℝ) • 1 := by
      rw [symmetrize_of_isSymm (isSymm_fin_one _)]; simp
    simp only
    rw [hM]
    exact proxTrace_neg he (by norm_num)

/-- C100, the docstring: the result is not a minimiser of the announced log-likelihood problem
`-log_likelihood(S, K-L) + alpha ‖K‖_{od,1} + tau ‖L‖_*`, nor of its version with the full norm: for `S = 3` the
solver is stationary at `K = 2`, while `K = 1/3` is feasible and better. -/
theorem C100_loglik_false {eigh : Eigh (Fin 1)} (he : IsEighOracle eigh) :
    ∃ (a : InfArgs (Fin 1)) (s : InfState (Fin 1)), a.S.IsSymm ∧ 0 ≤ a.alpha ∧ 0 ≤ a.tau ∧ 0 < s.rho ∧
      InfStationary eigh a s ∧
      ¬ IsMin (LatentFeasible (Fin 1)) (latentObjective a.S a.alpha a.tau absSumOff) (s.K, s.L) ∧
      ¬ IsMin (LatentFeasible (Fin 1)) (latentObjective a.S a.alpha a.tau absSumMat) (s.K, s.L) := by
  have hfeas : (((1 / 3 : ℝ) • 1, 0) : Matrix (Fin 1) (Fin 1) ℝ × Matrix (Fin 1) (Fin 1) ℝ) ∈
      LatentFeasible (Fin 1) :=
    ⟨by simpa using (PosDef.one (n := Fin 1) (R := ℝ)).smul (by norm_num : (0 : ℝ) < 3⁻¹), PosSemidef.zero⟩
  have hlog : Real.log (3⁻¹ : ℝ) = -Real.log 3 := Real.log_inv 3
  have hl2 : Real.log 2 ≤ 1 := by have := Real.log_le_sub_one_of_pos (by norm_num : (0 : ℝ) < 2); linarith
  have hl3 : Real.log 3 ≤ 2 := by have := Real.log_le_sub_one_of_pos (by norm_num : (0 : ℝ) < 3); linarith
  refine ⟨⟨(3 : ℝ) • 1, 1, 1, 1, 1, {}⟩, ⟨(2 : ℝ) • 1, 0, 1, 0, 1⟩, isSymm_fin_one _, by norm_num, by norm_num,
    by norm_num, inf_witness he, fun hmin => ?_, fun hmin => ?_⟩
  · have h := hmin.2 _ hfeas
    simp [latentObjective, absSumOff, hlog] at h
    linarith
  · have h := hmin.2 _ hfeas
    simp [latentObjective, absSumMat, hlog] at h
    norm_num at h
    linarith

/-- C100, the diagonal: the result is not a minimiser of the objective the code reports either
(`0.5 ‖S - R‖² + alpha l1_od_norm(K) + tau ‖L‖_*`): `K = S` costs nothing there. -/
theorem C100_diagonal_false {eigh : Eigh (Fin 1)} (he : IsEighOracle eigh) :
    ∃ (a : InfArgs (Fin 1)) (s : InfState (Fin 1)), a.S.IsSymm ∧ 0 ≤ a.alpha ∧ 0 ≤ a.tau ∧ 0 < s.rho ∧
      InfStationary eigh a s ∧
      ¬ IsMin {p | p.2.PosSemidef} (squareLatentObjective a.S a.alpha a.tau absSumOff) (s.K, s.L) := by
  refine ⟨⟨(3 : ℝ) • 1, 1, 1, 1, 1, {}⟩, ⟨(2 : ℝ) • 1, 0, 1, 0, 1⟩, isSymm_fin_one _, by norm_num, by norm_num,
    by norm_num, inf_witness he, fun hmin => ?_⟩
  have h := hmin.2 ((3 : ℝ) • 1, 0) PosSemidef.zero
  simp [squareLatentObjective, absSumOff, frobSq] at h
  norm_num at h

/-- Non-vacuity for `C100_stationary_partial`: the witness meets its hypotheses. -/
example : ∃ (eigh : Eigh (Fin 1)) (a : InfArgs (Fin 1)) (s : InfState (Fin 1)), IsEighOracle eigh ∧
    a.S.IsSymm ∧ 0 ≤ a.alpha ∧ 0 < a.rhoOptions.tauInc ∧ 0 < a.rhoOptions.tauDec ∧ 0 < s.rho ∧
    InfStationary eigh a s := by
  obtain ⟨eigh, he⟩ := exists_eighOracle (n := Fin 1)
  exact ⟨eigh, _, _, he, isSymm_fin_one _, by norm_num, by norm_num, by norm_num, by norm_num, inf_witness he⟩

theorem infBody_stop_iff (eigh : Eigh n) (a : InfArgs n) (it : ℕ) (s : InfState n) :
    (infBody eigh a it s).2.2 = true ↔ LTStops (infBody eigh a it s).2.1 := by
  unfold infBody LTStops
  simp only
  split <;> simp_all

theorem infBody_L (eigh : Eigh n) (a : InfArgs n) (it : ℕ) (s : InfState n) :
    (infBody eigh a it s).1.L.PosSemidef := by
  unfold infBody
  simp only
  split <;> exact recompose_posSemidef _ fun _ => le_max_right _ _

/-- C100, every call: the returned `L` is PSD; the history has one entry more than the returned iteration count
(so the count is one too small), only the last entry can satisfy the stopping rule, and the call warns exactly
when none does. -/
theorem C100_call (eigh : Eigh n) (a : InfArgs n) (rho : ℝ) {m : ℕ} (hm : 1 ≤ m) :
    ∃ (K L : Matrix n n ℝ) (hist : List GLCheck) (nIter : ℕ) (warned : Bool),
      infimalConvolution eigh a rho m true true = .ok K L (some hist) (some nIter) warned ∧
      L.PosSemidef ∧ hist.length = nIter + 1 ∧ nIter < m ∧ (∀ c ∈ hist.dropLast, ¬ LTStops c) ∧
      (warned = true ↔ ∀ c ∈ hist, ¬ LTStops c) ∧ (warned = true → nIter + 1 = m) := by
  obtain ⟨j, h1, h2, h3, h4, h5, h6, h7⟩ :=
    runLoop_outcome (infBody eigh a) LTStops (infBody_stop_iff eigh a) hm ⟨0, 0, 0, 0, rho⟩
  have hinv := runLoop_invariant (infBody eigh a) (fun s => s.L.PosSemidef)
    (fun it s _ => infBody_L eigh a it s) m (s := ⟨0, 0, 0, 0, rho⟩) PosSemidef.zero
  refine ⟨(runLoop (infBody eigh a) m ⟨0, 0, 0, 0, rho⟩).state.K,
    (runLoop (infBody eigh a) m ⟨0, 0, 0, 0, rho⟩).state.L,
    (runLoop (infBody eigh a) m ⟨0, 0, 0, 0, rho⟩).checks, j,
    !(runLoop (infBody eigh a) m ⟨0, 0, 0, 0, rho⟩).broke, ?_, hinv, h4.symm, by omega, h5, h6,
    fun hw => by rw [h4]; exact h7 hw⟩
  unfold infimalConvolution
  simp only [if_true, h1]

end Verif.Props
