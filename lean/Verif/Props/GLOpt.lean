import Verif.Lemmas.GLOpt
import Verif.Props.GLLoop

/-! Property theorems C16, C17, C18 (optimality and convergence of the graphical lasso solver). -/

namespace Verif.Props

open Verif.Model Verif.Spec Verif.Lemmas Matrix Filter Topology

variable {n : Type*} [Fintype n] [DecidableEq n]

/-- "One iteration leaves the state unchanged": the sparse iterate `Z` and the unscaled dual
`rho * U` after the iteration are those before it (whatever the penalty update did). -/
def Stationary (eigh : Eigh n) (a : GLArgs n) (s : GLState n) : Prop :=
  (glBody eigh a 0 s).1.Z = s.Z ∧
    (glBody eigh a 0 s).1.rho • (glBody eigh a 0 s).1.U = s.rho • s.U

/-- The stationarity of an iteration in terms of the three updates. -/
theorem stationary_iff (eigh : Eigh n) (a : GLArgs n) (hi : 0 < a.rhoOptions.tauInc)
    (hd : 0 < a.rhoOptions.tauDec) (s : GLState n) (hr : 0 < s.rho) :
    Stationary eigh a s ↔
      glKhat a.overRelax (glK eigh a.empCov s.rho s.Z s.U) s.Z = s.Z ∧
      softThresholdingOffDiagonal (s.Z + s.U) (a.alpha / s.rho) = s.Z := by
  set Khat := glKhat a.overRelax (glK eigh a.empCov s.rho s.Z s.U) s.Z with hKh
  have hZ : (glBody eigh a 0 s).1.Z = glZ a.alpha s.rho Khat s.U := by
    unfold glBody; simp only; split <;> rfl
  have hU : (glBody eigh a 0 s).1.rho • (glBody eigh a 0 s).1.U =
      s.rho • (s.U + (Khat - glZ a.alpha s.rho Khat s.U)) := by
    have hpos := gl_rho_pos eigh a hi hd 0 s hr
    unfold glBody at hpos ⊢
    simp only at hpos ⊢
    split
    · rfl
    · rename_i hstop
      rw [if_neg hstop] at hpos
      simp only at hpos ⊢
      rw [smul_smul, mul_div_cancel₀ _ hpos.ne']
  unfold Stationary
  rw [hZ, hU]
  constructor
  · rintro ⟨h1, h2⟩
    rw [h1] at h2
    have h3 : s.U + (Khat - s.Z) = s.U := smul_right_injective _ hr.ne' h2
    have h4 : Khat = s.Z := by
      have : Khat - s.Z = 0 := by simpa using h3
      exact sub_eq_zero.mp this
    rw [h4] at h1
    exact ⟨h4, h1⟩
  · rintro ⟨h1, h2⟩
    have h3 : glZ a.alpha s.rho Khat s.U = s.Z := by rw [glZ, h1, h2]
    rw [h3, h1]
    simp

/-! ### C16 -/

/-- C16: with `over_relax = 1`, a stationary state of the solver is the unique optimum of the
graphical lasso problem (in particular symmetric positive definite). -/
theorem C16_stationary_is_optimal {eigh : Eigh n} (he : IsEighOracle eigh) (a : GLArgs n)
    (hS : a.empCov.IsSymm) (hal : 0 ≤ a.alpha) (hor : a.overRelax = 1)
    (hi : 0 < a.rhoOptions.tauInc) (hd : 0 < a.rhoOptions.tauDec) (s : GLState n) (hr : 0 < s.rho)
    (h : Stationary eigh a s) :
    UniqueMin (PD n) (glObjective a.empCov a.alpha) s.Z := by
  obtain ⟨h1, h2⟩ := (stationary_iff eigh a hi hd s hr).mp h
  have hK : glK eigh a.empCov s.rho s.Z s.U = s.Z := by
    rw [hor, glKhat] at h1
    simpa using h1
  have hpd : s.Z.PosDef := hK ▸ glK_posDef he hS hr s.Z s.U
  have hinv := glK_inv he hS hr s.Z s.U
  rw [hK] at hinv
  refine gl_optimal_of_subgrad (G := s.rho • s.U) hS hpd ?_ fun X => ?_
  · have e : symmetrize (s.Z - s.U) = s.Z - symmetrize s.U := by
      conv_rhs => rw [← symmetrize_of_isSymm hpd.isSymm']
      unfold symmetrize
      rw [transpose_sub, ← smul_sub]
      congr 1; abel
    have e2 : symmetrize (s.rho • s.U) = s.rho • symmetrize s.U := by
      unfold symmetrize
      rw [transpose_smul, ← smul_add, smul_comm]
    rw [hinv, e, e2, smul_sub]; abel
  · have h3 := softOff_subgrad (lam := a.alpha / s.rho) (by positivity) (s.Z + s.U) X
    rw [h2, add_sub_cancel_left] at h3
    have h4 := mul_le_mul_of_nonneg_left h3 hr.le
    rw [frobInner_smul_left]
    have e : s.rho * (a.alpha / s.rho * absSumOff s.Z + frobInner s.U (X - s.Z))
        = a.alpha * absSumOff s.Z + s.rho * frobInner s.U (X - s.Z) := by
      field_simp
    have e2 : s.rho * (a.alpha / s.rho * absSumOff X) = a.alpha * absSumOff X := by field_simp
    rw [e, e2] at h4
    exact h4

/-- C16, converse: the optimum of the problem, with a suitable symmetric dual, is a stationary state
for every penalty. -/
theorem C16_optimal_is_stationary {eigh : Eigh n} (he : IsEighOracle eigh) (a : GLArgs n)
    (hS : a.empCov.IsSymm) (hal : 0 ≤ a.alpha) (hor : a.overRelax = 1)
    (hi : 0 < a.rhoOptions.tauInc) (hd : 0 < a.rhoOptions.tauDec) {rho : ℝ} (hr : 0 < rho)
    {X : Matrix n n ℝ} (hX : IsMin (PD n) (glObjective a.empCov a.alpha) X) :
    ∃ U : Matrix n n ℝ, U.IsSymm ∧ ∀ Zold, Stationary eigh a ⟨X, U, Zold, rho⟩ := by
  have hpd : X.PosDef := hX.1
  have hsub := gl_subgrad_of_optimal hal hS hX
  have hGs : (X⁻¹ - a.empCov).IsSymm := by
    rw [IsSymm, transpose_sub, hpd.inv.isSymm'.eq, hS.eq]
  refine ⟨rho⁻¹ • (X⁻¹ - a.empCov), isSymm_smul _ hGs, fun Zold => ?_⟩
  rw [stationary_iff eigh a hi hd _ hr]
  simp only
  have hsymU : (rho⁻¹ • (X⁻¹ - a.empCov)).IsSymm := isSymm_smul _ hGs
  constructor
  · have hK : glK eigh a.empCov rho X (rho⁻¹ • (X⁻¹ - a.empCov)) = X := by
      refine glK_unique he hS hr _ _ hpd ?_
      have hsym : (X - rho⁻¹ • (X⁻¹ - a.empCov)).IsSymm := by
        rw [IsSymm, transpose_sub, hpd.isSymm'.eq, hsymU.eq]
      rw [symmetrize_of_isSymm hsym, smul_sub, smul_smul, mul_inv_cancel₀ hr.ne', one_smul]
      abel
    rw [hK, hor, glKhat]; simp
  · refine softOff_eq_of_subgrad (by positivity) fun Y => ?_
    have h := hsub Y
    rw [add_sub_cancel_left, frobInner_smul_left]
    have h2 := mul_le_mul_of_nonneg_left h (inv_pos.mpr hr).le
    have e : ∀ c : ℝ, a.alpha / rho * c = rho⁻¹ * (a.alpha * c) := by intro c; field_simp
    rw [e, e]
    linarith

/-- Non-vacuity for C16: `S = 1` (1x1), `alpha = 1`, `rho = 1`: the state `Z = 1`, `U = 0` is
stationary, hence `1` is the optimum. -/
example {eigh : Eigh (Fin 1)} (he : IsEighOracle eigh) :
    Stationary eigh (⟨1, 1, 1, 1, 1, {}⟩ : GLArgs (Fin 1)) ⟨1, 0, 0, 1⟩ := by
  rw [stationary_iff _ _ (by norm_num) (by norm_num) _ (by norm_num)]
  have hK : glK eigh (1 : Matrix (Fin 1) (Fin 1) ℝ) 1 1 0 = 1 := by
    refine glK_unique he (by simp [IsSymm]) (by norm_num) _ _ PosDef.one ?_
    have : (1 - 0 : Matrix (Fin 1) (Fin 1) ℝ).IsSymm := by simp [IsSymm]
    rw [symmetrize_of_isSymm this]
    simp
  constructor
  · simp only [hK, glKhat]; simp
  · ext i j
    have : i = j := Subsingleton.elim _ _
    subst this
    rw [softOff_apply]
    simp [softScalar_zero_right]

/-! ### C17 -/

/-- C17, what a stationary state satisfies for every `over_relax = w`: `w K = (2 - w) Z`, so its
primal residual `K - Z` vanishes only for `w = 1` (or `Z = 0`). -/
theorem C17_stationary_relation (eigh : Eigh n) (a : GLArgs n)
    (hi : 0 < a.rhoOptions.tauInc) (hd : 0 < a.rhoOptions.tauDec) (s : GLState n) (hr : 0 < s.rho)
    (h : Stationary eigh a s) :
    a.overRelax • glK eigh a.empCov s.rho s.Z s.U = (2 - a.overRelax) • s.Z ∧
      (glK eigh a.empCov s.rho s.Z s.U = s.Z → s.Z ≠ 0 → a.overRelax = 1) := by
  obtain ⟨h1, _⟩ := (stationary_iff eigh a hi hd s hr).mp h
  have h2 : a.overRelax • glK eigh a.empCov s.rho s.Z s.U = (2 - a.overRelax) • s.Z := by
    unfold glKhat at h1
    have : a.overRelax • glK eigh a.empCov s.rho s.Z s.U = s.Z + (1 - a.overRelax) • s.Z := by
      rw [sub_eq_iff_eq_add] at h1; exact h1
    rw [this, show (2 - a.overRelax) = 1 + (1 - a.overRelax) by ring, add_smul, one_smul]
  refine ⟨h2, fun hK hZ => ?_⟩
  rw [hK] at h2
  have h3 : (a.overRelax - (2 - a.overRelax)) • s.Z = 0 := by rw [sub_smul, h2, sub_self]
  rcases smul_eq_zero.mp h3 with h4 | h4
  · linarith
  · exact absurd h4 hZ

/-- C17, the part that holds: `over_relax = 1` (that is C16). The full statement, for every
relaxation in (0,2), is refuted below. -/
theorem C17_over_relax_partial {eigh : Eigh n} (he : IsEighOracle eigh) (a : GLArgs n)
    (hS : a.empCov.IsSymm) (hal : 0 ≤ a.alpha) (hor : a.overRelax = 1)
    (hi : 0 < a.rhoOptions.tauInc) (hd : 0 < a.rhoOptions.tauDec) (s : GLState n) (hr : 0 < s.rho)
    (h : Stationary eigh a s) : IsMin (PD n) (glObjective a.empCov a.alpha) s.Z :=
  (C16_stationary_is_optimal he a hS hal hor hi hd s hr h).isMin

/-- C17 is false: with `over_relax = 3/2` on the 1x1 problem `S = 3` (optimum `1/3`), the state
`Z = 3`, `U = 0` is stationary for every eigensolver. -/
theorem C17_over_relax_false {eigh : Eigh (Fin 1)} (he : IsEighOracle eigh) :
    ∃ (a : GLArgs (Fin 1)) (s : GLState (Fin 1)), a.empCov.IsSymm ∧ 0 ≤ a.alpha ∧
      a.overRelax = 3 / 2 ∧ 0 < s.rho ∧ Stationary eigh a s ∧
      ¬ IsMin (PD (Fin 1)) (glObjective a.empCov a.alpha) s.Z := by
  have hsmul : ∀ c : ℝ, (c • (1 : Matrix (Fin 1) (Fin 1) ℝ)).IsSymm := fun c => by
    rw [IsSymm, transpose_smul, transpose_one]
  refine ⟨⟨(3 : ℝ) • 1, 1, 3 / 2, 1, 1, {}⟩, ⟨(3 : ℝ) • 1, 0, 0, 1⟩, hsmul 3, by norm_num, rfl,
    by norm_num, ?_, ?_⟩
  · rw [stationary_iff _ _ (by norm_num) (by norm_num) _ (by norm_num)]
    have hK : glK eigh ((3 : ℝ) • (1 : Matrix (Fin 1) (Fin 1) ℝ)) 1 ((3 : ℝ) • 1) 0 = 1 := by
      refine glK_unique he (hsmul 3) (by norm_num) _ _ PosDef.one ?_
      have : ((3 : ℝ) • (1 : Matrix (Fin 1) (Fin 1) ℝ) - 0).IsSymm := by rw [sub_zero]; exact hsmul 3
      rw [symmetrize_of_isSymm this]
      simp
    constructor
    · simp only [hK, glKhat, smul_smul, ← sub_smul]; norm_num
    · ext i j
      have : i = j := Subsingleton.elim _ _
      subst this
      rw [softOff_apply]
      simp [softScalar_zero_right]
  · intro hmin
    have h1 := hmin.2 1 (show (1 : Matrix (Fin 1) (Fin 1) ℝ).PosDef from PosDef.one)
    simp only [glObjective, absSumOff, Matrix.mul_one, trace_smul, trace_one, det_one, Real.log_one,
      Fin.sum_univ_one, Fintype.card_fin, det_fin_one, Matrix.mul_smul,
      Matrix.smul_apply, Matrix.one_apply_eq, smul_eq_mul, if_true] at h1
    have h3 : Real.log (3 * 1) ≤ 3 * 1 - 1 := Real.log_le_sub_one_of_pos (by norm_num)
    norm_num at h1 h3
    linarith

end Verif.Props
