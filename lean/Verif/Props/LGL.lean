import Verif.Model.LGL
import Verif.Lemmas.ProxSub
import Verif.Lemmas.Loop
import Verif.Props.GLLoop
import Verif.Spec.Objectives
import Mathlib.Analysis.Complex.ExponentialBounds

/-! Property theorems C19, C20 (latent variable graphical lasso). -/

namespace Verif.Props

open Verif.Model Verif.Spec Verif.Lemmas Matrix

variable {n : Type*} [Fintype n] [DecidableEq n]

/-! ### C19 -/

theorem lglL_posSemidef (eigh : Eigh n) (tau rho : ℝ) (K R U : Matrix n n ℝ) :
    (lglL eigh tau rho K R U).PosSemidef :=
  recompose_posSemidef _ fun _ => le_max_right _ _

theorem lglBody_L (eigh : Eigh n) (a : LGLArgs n) (it : ℕ) (s : LGLState n) :
    (lglBody eigh a it s).1.L.PosSemidef := by
  unfold lglBody
  simp only
  split <;> exact lglL_posSemidef _ _ _ _ _ _

/-- C19: whatever the data, the options, the start, the iteration budget and even the output of the
eigensolver, the latent matrix returned by `latent_graphical_lasso` is symmetric positive
semidefinite, and the observed precision differs from `precision_` by exactly that matrix. -/
theorem C19_latent_psd (eigh : Eigh n) (a : LGLArgs n) (K0 : Matrix n n ℝ) (rho : ℝ)
    (m : ℕ) (rh rn : Bool) {K L : Matrix n n ℝ} {hist : Option (List LGLCheck)} {it : Option ℕ}
    {w : Bool} (h : latentGraphicalLasso eigh a K0 rho m rh rn = .ok K L hist it w) :
    L.IsSymm ∧ L.PosSemidef ∧ K - lglGetPrecision K L = L := by
  have hinv : (runLoop (lglBody eigh a) m (lglInit K0 rho)).state.L.PosSemidef :=
    runLoop_invariant (lglBody eigh a) (fun s => s.L.PosSemidef)
      (fun it s _ => lglBody_L eigh a it s) m (by simpa [lglInit] using PosSemidef.zero)
  have hL : L = (runLoop (lglBody eigh a) m (lglInit K0 rho)).state.L := by
    unfold latentGraphicalLasso at h
    simp only at h
    split at h
    · split at h
      · cases h
      · injection h with _ h2 _ _ _; exact h2.symm
    · injection h with _ h2 _ _ _; exact h2.symm
  rw [← hL] at hinv
  exact ⟨hinv.isSymm', hinv, by simp [lglGetPrecision]⟩

/-- Non-vacuity for C19: every call with `max_iter ≥ 1` returns. -/
example (eigh : Eigh n) (a : LGLArgs n) (K0 : Matrix n n ℝ) (rho : ℝ) (m : ℕ) :
    ∃ K L hist it w, latentGraphicalLasso eigh a K0 rho (m + 1) true true = .ok K L hist it w := by
  rcases runLoop_spec (lglBody eigh a) (m + 1) (lglInit K0 rho) with ⟨j, _, _, _, he⟩ | ⟨_, he⟩
  · exact ⟨_, _, _, _, _, by
      unfold latentGraphicalLasso; simp only [he, if_true]; rfl⟩
  · refine ⟨_, _, _, _, _, by
      unfold latentGraphicalLasso; simp only [he, if_true, Nat.succ_ne_zero, if_false]; rfl⟩

/-! ### C20 -/

/-- "One iteration leaves the state unchanged": `K`, `L` and the unscaled dual `rho * U`. -/
def LGLStationary (eigh : Eigh n) (a : LGLArgs n) (s : LGLState n) : Prop :=
  (lglBody eigh a 0 s).1.K = s.K ∧ (lglBody eigh a 0 s).1.L = s.L ∧
    (lglBody eigh a 0 s).1.rho • (lglBody eigh a 0 s).1.U = s.rho • s.U

theorem lglStationary_iff (eigh : Eigh n) (a : LGLArgs n) (hi : 0 < a.rhoOptions.tauInc)
    (hd : 0 < a.rhoOptions.tauDec) (s : LGLState n) (hr : 0 < s.rho) :
    LGLStationary eigh a s ↔
      lglR eigh a.empCov s.rho s.K s.L s.U = s.K - s.L ∧
      softThresholdingMat (s.K + s.U) (a.alpha / s.rho) = s.K ∧
      lglL eigh a.tau s.rho s.K (s.K - s.L) s.U = s.L := by
  set R := lglR eigh a.empCov s.rho s.K s.L s.U with hR
  set K := lglK a.alpha s.rho s.L R s.U with hK
  set L := lglL eigh a.tau s.rho K R s.U with hL
  have h1 : (lglBody eigh a 0 s).1.K = K := by unfold lglBody; simp only; split <;> rfl
  have h2 : (lglBody eigh a 0 s).1.L = L := by unfold lglBody; simp only; split <;> rfl
  have h3 : (lglBody eigh a 0 s).1.rho • (lglBody eigh a 0 s).1.U =
      s.rho • (s.U + (R - K + L)) := by
    unfold lglBody
    simp only
    split
    · rfl
    · simp only
      rw [smul_smul, mul_div_cancel₀ _ (updateRho_pos hi hd hr _ _).ne']
  unfold LGLStationary
  rw [h1, h2, h3]
  constructor
  · rintro ⟨e1, e2, e3⟩
    have e4 : s.U + (R - K + L) = s.U := smul_right_injective _ hr.ne' e3
    have e5 : R = s.K - s.L := by
      have h0 : R - K + L = 0 := by simpa using e4
      rw [e1, e2] at h0
      rw [sub_add, sub_eq_zero] at h0
      exact h0
    refine ⟨e5, ?_, ?_⟩
    · rw [hK, lglK, e5] at e1
      rw [add_sub_cancel] at e1
      exact e1
    · rw [hL, e1, e5] at e2
      exact e2
  · rintro ⟨e1, e2, e3⟩
    have e4 : K = s.K := by rw [hK, lglK, e1, add_sub_cancel, e2]
    have e5 : L = s.L := by rw [hL, e4, e1, e3]
    refine ⟨e4, e5, ?_⟩
    rw [e4, e5, e1]
    simp

/-- First-order conditions are sufficient for the latent problem with any penalty `pen`. -/
theorem latent_optimal_of_subgrad {S K L G : Matrix n n ℝ} {alpha tau : ℝ}
    {pen : Matrix n n ℝ → ℝ} (hS : S.IsSymm) (hR : (K - L).PosDef) (hL : L.PosSemidef)
    (hG : (K - L)⁻¹ = S + symmetrize G)
    (hK : ∀ X : Matrix n n ℝ, alpha * pen K + frobInner G (X - K) ≤ alpha * pen X)
    (hLv : ∀ X : Matrix n n ℝ, X.PosSemidef →
      tau * trace L - frobInner (symmetrize G) (X - L) ≤ tau * trace X) :
    IsMin (LatentFeasible n) (latentObjective S alpha tau pen) (K, L) ∧
      ∀ q, IsMin (LatentFeasible n) (latentObjective S alpha tau pen) q → q.1 - q.2 = K - L := by
  have key : ∀ q ∈ LatentFeasible n,
      latentObjective S alpha tau pen (K, L) ≤ latentObjective S alpha tau pen q ∧
      (q.1 - q.2 ≠ K - L →
        latentObjective S alpha tau pen (K, L) < latentObjective S alpha tau pen q) := by
    rintro ⟨K', L'⟩ ⟨hR', hL'⟩
    simp only at hR' hL' ⊢
    have hKs : K.IsSymm := by
      have h1 := hR.isSymm'
      have h2 := hL.isSymm'
      have : K = (K - L) + L := by abel
      rw [this, IsSymm, transpose_add, h1.eq, h2.eq]
    have hKs' : K'.IsSymm := by
      have h1 := hR'.isSymm'
      have h2 := hL'.isSymm'
      have : K' = (K' - L') + L' := by abel
      rw [this, IsSymm, transpose_add, h1.eq, h2.eq]
    have h1 := hK K'
    rw [← frobInner_symmetrize (X := K' - K)
      (by rw [IsSymm, transpose_sub, hKs.eq, hKs'.eq])] at h1
    have h2 := hLv L' hL'
    have e1 : ∀ Y : Matrix n n ℝ, trace (S * Y) = frobInner S Y :=
      fun Y => (frobInner_eq_trace_of_symm hS Y).symm
    have e2 : frobInner (K - L)⁻¹ (K' - L' - (K - L)) =
        frobInner S (K' - L') - frobInner S (K - L) + frobInner (symmetrize G) (K' - K)
          - frobInner (symmetrize G) (L' - L) := by
      rw [hG, frobInner_add_left]
      have : K' - L' - (K - L) = (K' - K) - (L' - L) := by abel
      rw [frobInner_sub_right S, this, frobInner_sub_right (symmetrize G)]
      ring
    unfold latentObjective
    simp only [e1]
    constructor
    · have h3 := log_det_le hR' hR
      rw [e2] at h3
      linarith
    · intro hne
      have h3 := log_det_lt hR' hR hne
      rw [e2] at h3
      linarith
  refine ⟨⟨⟨hR, hL⟩, fun q hq => (key q hq).1⟩, fun q hq => ?_⟩
  by_contra hne
  exact absurd ((key q hq.1).2 hne) (not_lt.mpr (hq.2 (K, L) ⟨hR, hL⟩))

/-- C20 (part that holds): a stationary state of `latent_graphical_lasso` has `K - L` PD, `L` PSD
and minimises the latent problem with the FULL l1 norm of `K` (diagonal included); the observed
precision `K - L` is the unique one. The full statement asks for the off-diagonal l1 norm and is
refuted by `C20_diagonal_false`. -/
theorem C20_stationary_partial {eigh : Eigh n} (he : IsEighOracle eigh) (a : LGLArgs n)
    (hS : a.empCov.IsSymm) (hal : 0 ≤ a.alpha)
    (hi : 0 < a.rhoOptions.tauInc) (hd : 0 < a.rhoOptions.tauDec) (s : LGLState n) (hr : 0 < s.rho)
    (h : LGLStationary eigh a s) :
    (s.K - s.L).PosDef ∧ s.L.PosSemidef ∧
    IsMin (LatentFeasible n) (latentObjective a.empCov a.alpha a.tau absSumMat) (s.K, s.L) ∧
    ∀ q, IsMin (LatentFeasible n) (latentObjective a.empCov a.alpha a.tau absSumMat) q →
      q.1 - q.2 = s.K - s.L := by
  obtain ⟨h1, h2, h3⟩ := (lglStationary_iff eigh a hi hd s hr).mp h
  have hglK : lglR eigh a.empCov s.rho s.K s.L s.U = glK eigh a.empCov s.rho (s.K - s.L) s.U := rfl
  have hpd : (s.K - s.L).PosDef := by
    rw [← h1, hglK]; exact glK_posDef he hS hr _ _
  have hpsd : s.L.PosSemidef := h3 ▸ lglL_posSemidef _ _ _ _ _ _
  have hinv := glK_inv he hS hr (s.K - s.L) s.U
  rw [← hglK, h1] at hinv
  have esymm : symmetrize (s.K - s.L - s.U) = (s.K - s.L) - symmetrize s.U := by
    conv_rhs => rw [← symmetrize_of_isSymm hpd.isSymm']
    unfold symmetrize
    rw [transpose_sub (s.K - s.L), ← smul_sub]
    congr 1; abel
  have esm : symmetrize (s.rho • s.U) = s.rho • symmetrize s.U := by
    unfold symmetrize
    rw [transpose_smul, ← smul_add, smul_comm]
  refine ⟨hpd, hpsd, latent_optimal_of_subgrad (G := s.rho • s.U) hS hpd hpsd ?_ ?_ ?_⟩
  · rw [hinv, esymm, esm, smul_sub]; abel
  · intro X
    have h4 := softMat_subgrad (lam := a.alpha / s.rho) (by positivity) (s.K + s.U) X
    rw [h2, add_sub_cancel_left] at h4
    have h5 := mul_le_mul_of_nonneg_left h4 hr.le
    have e : ∀ c : ℝ, s.rho * (a.alpha / s.rho * c) = a.alpha * c := by intro c; field_simp
    rw [mul_add, e, e] at h5
    rw [frobInner_smul_left]
    exact h5
  · intro X hX
    have hM : symmetrize (s.K - (s.K - s.L) - s.U) = s.L - symmetrize s.U := by
      have : s.K - (s.K - s.L) - s.U = s.L - s.U := by abel
      rw [this]
      conv_rhs => rw [← symmetrize_of_isSymm hpsd.isSymm']
      unfold symmetrize
      rw [transpose_sub, ← smul_sub]
      congr 1; abel
    have hE := he _ (symmetrize_isSymm (s.K - (s.K - s.L) - s.U))
    have h4 := proxTrace_vi hE (a.tau / s.rho) hX
    have h3' : proxTraceIndicator (eigh (symmetrize (s.K - (s.K - s.L) - s.U))).1
        (eigh (symmetrize (s.K - (s.K - s.L) - s.U))).2 (a.tau / s.rho) = s.L := h3
    rw [h3', hM] at h4
    have e1 : s.L - symmetrize s.U - s.L = -symmetrize s.U := by abel
    rw [e1, frobInner_neg_left] at h4
    have h5 := mul_le_mul_of_nonneg_left h4 hr.le
    have e : ∀ c : ℝ, s.rho * (a.tau / s.rho * c) = a.tau * c := by intro c; field_simp
    rw [mul_add, e, e] at h5
    rw [esm, frobInner_smul_left]
    linarith

/-- The 1x1 state used as witness: `S = 1`, `alpha = tau = rho = 1`, `K = 1/2`, `L = 0`, `U = 1`. -/
theorem lgl_witness {eigh : Eigh (Fin 1)} (he : IsEighOracle eigh) :
    LGLStationary eigh (⟨1, 1, 1, 1, 1, {}, true⟩ : LGLArgs (Fin 1))
      ⟨(1 / 2 : ℝ) • 1, 0, 1, 0, 1⟩ := by
  rw [lglStationary_iff _ _ (by norm_num) (by norm_num) _ (by norm_num)]
  simp only [sub_zero]
  refine ⟨?_, ?_, ?_⟩
  · change glK eigh 1 1 ((1 / 2 : ℝ) • 1 - 0) 1 = _
    have hpd : ((1 / 2 : ℝ) • (1 : Matrix (Fin 1) (Fin 1) ℝ)).PosDef :=
      PosDef.one.smul (by norm_num)
    refine glK_unique he (by simp [IsSymm]) (by norm_num) _ _ hpd ?_
    have hs : ((1 / 2 : ℝ) • 1 - 0 - 1 : Matrix (Fin 1) (Fin 1) ℝ).IsSymm := by
      ext i j; simp [Subsingleton.elim i j]
    have hinv : ((1 / 2 : ℝ) • (1 : Matrix (Fin 1) (Fin 1) ℝ))⁻¹ = (2 : ℝ) • 1 := by
      apply inv_eq_left_inv
      rw [smul_mul_smul_comm, Matrix.one_mul]; norm_num
    rw [symmetrize_of_isSymm hs, hinv]
    ext i j
    have : i = j := Subsingleton.elim _ _
    subst this
    simp; norm_num
  · ext i j
    have : i = j := Subsingleton.elim _ _
    subst this
    simp only [softThresholdingMat, Matrix.add_apply, Matrix.smul_apply, Matrix.one_apply_eq]
    rw [softScalar_of_pos (by norm_num) (by norm_num)]
    norm_num
  · set M := symmetrize ((1 / 2 : ℝ) • (1 : Matrix (Fin 1) (Fin 1) ℝ) - (1 / 2 : ℝ) • 1 - 1) with hM
    have hE := he M (symmetrize_isSymm _)
    have hz : (0 : Matrix (Fin 1) (Fin 1) ℝ) =
        proxTraceIndicator (eigh M).1 (eigh M).2 (1 / 1) := by
      have hneg : ∀ i, (eigh M).2 i = -1 := by
        intro i
        rw [hE.eigen_eq i]
        have : M = -1 := by
          rw [hM]; ext i j
          have : i = j := Subsingleton.elim _ _
          subst this
          simp [symmetrize]; norm_num
        have hq := hE.orth'
        generalize (eigh M).1 = Q at hq ⊢
        rw [this, Matrix.mul_neg, Matrix.mul_one, Matrix.neg_mul, hq]
        simp
      unfold proxTraceIndicator
      rw [← recompose_zero (eigh M).1]
      congr 1
      funext i
      rw [hneg]; norm_num
    exact hz.symm

/-- The full statement of C20 is false: for `S = 1` (1x1), `alpha = tau = rho = 1` the state
`K = 1/2, L = 0, U = 1` is stationary but does not minimise the documented objective (whose
l1 penalty leaves the diagonal out): `K = 1, L = 0` is feasible and strictly better. -/
theorem C20_diagonal_false {eigh : Eigh (Fin 1)} (he : IsEighOracle eigh) :
    ∃ (a : LGLArgs (Fin 1)) (s : LGLState (Fin 1)), a.empCov.IsSymm ∧ 0 ≤ a.alpha ∧ 0 < s.rho ∧
      0 < a.rhoOptions.tauInc ∧ 0 < a.rhoOptions.tauDec ∧ LGLStationary eigh a s ∧
      ¬ IsMin (LatentFeasible (Fin 1)) (latentObjective a.empCov a.alpha a.tau absSumOff)
        (s.K, s.L) := by
  refine ⟨⟨1, 1, 1, 1, 1, {}, true⟩, ⟨(1 / 2 : ℝ) • 1, 0, 1, 0, 1⟩, by simp [IsSymm], by norm_num,
    by norm_num, by norm_num, by norm_num, lgl_witness he, fun hmin => ?_⟩
  have h := hmin.2 (1, 0) ⟨by simpa using PosDef.one, PosSemidef.zero⟩
  simp only [latentObjective, sub_zero, absSumOff, Matrix.mul_one, Matrix.one_mul, trace_zero, trace_smul, trace_one,
    det_one, Real.log_one, Fintype.card_fin, det_smul, Finset.univ_unique,
    Finset.sum_singleton, if_true, smul_eq_mul] at h
  norm_num at h
  have := Real.log_two_gt_d9
  have h2 : Real.log (1 / 2) = -Real.log 2 := by rw [one_div, Real.log_inv]
  linarith

/-- Non-vacuity for `C20_stationary_partial`: the witness above satisfies its hypotheses. -/
example : ∃ (eigh : Eigh (Fin 1)) (a : LGLArgs (Fin 1)) (s : LGLState (Fin 1)),
    IsEighOracle eigh ∧ a.empCov.IsSymm ∧ 0 ≤ a.alpha ∧ 0 < s.rho ∧ LGLStationary eigh a s := by
  obtain ⟨eigh, he⟩ := exists_eighOracle (n := Fin 1)
  exact ⟨eigh, _, _, he, by simp [IsSymm], by norm_num, by norm_num, lgl_witness he⟩

end Verif.Props
