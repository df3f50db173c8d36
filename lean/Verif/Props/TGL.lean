import Verif.Lemmas.TGL
import Verif.Props.GLLoop
import Verif.Props.Soft
import Mathlib.Analysis.Complex.ExponentialBounds

/-! Property theorems C21, C22, C23 (time-varying graphical lasso). -/

namespace Verif.Props

open Verif.Model Verif.Spec Verif.Lemmas Matrix

set_option autoImplicit false

variable {n : Type*} [Fintype n] [DecidableEq n] {T : ℕ}

/-! ### C22 -/

/-- The joint subproblem of the pair `(Z_1, Z_2)`. -/
noncomputable def pairObjective (psi : Matrix n n ℝ → ℝ) (beta rho : ℝ) (A1 A2 : Matrix n n ℝ)
    (p : Matrix n n ℝ × Matrix n n ℝ) : ℝ :=
  beta * psi (p.2 - p.1) + rho / 2 * (frobSq (p.1 - A1) + frobSq (p.2 - A2))

omit [DecidableEq n] in
/-- C22: the pair update is the unique minimiser of the joint subproblem, for every penalty whose
prox is exact. -/
theorem C22_pair_update {psi : Matrix n n ℝ → ℝ} {prox : Matrix n n ℝ → ℝ → Matrix n n ℝ}
    (hprox : IsProxOf psi prox) {beta rho : ℝ} (hb : 0 ≤ beta) (hr : 0 < rho)
    (A1 A2 : Matrix n n ℝ) :
    UniqueMin Set.univ (pairObjective psi beta rho A1 A2)
      (tglZ1 prox beta rho A1 A2, tglZ2 prox beta rho A1 A2) := by
  set e := prox (A2 - A1) (2 * beta / rho) with he
  have hp := hprox (A2 - A1) (2 * beta / rho) (by positivity)
  have hdec : ∀ X Y : Matrix n n ℝ, pairObjective psi beta rho A1 A2 (X, Y) =
      rho / 2 * proxObjMat psi (2 * beta / rho) (A2 - A1) (Y - X)
        + rho / 4 * frobSq (X + Y - (A1 + A2)) := by
    intro X Y
    unfold pairObjective proxObjMat
    have e1 : Y - X - (A2 - A1) = (Y - A2) - (X - A1) := by abel
    have e2 : X + Y - (A1 + A2) = (Y - A2) + (X - A1) := by abel
    simp only [e1, e2]
    rw [frobSq_sub (Y - A2), frobSq_add (Y - A2)]
    have : rho / 2 * (2 * beta / rho * psi (Y - X)) = beta * psi (Y - X) := by field_simp
    linear_combination -this
  have hd : tglZ2 prox beta rho A1 A2 - tglZ1 prox beta rho A1 A2 = e := by
    unfold tglZ1 tglZ2
    rw [← he, ← smul_sub]
    have : A1 + A2 + e - (A1 + A2 - e) = (2 : ℝ) • e := by rw [two_smul]; abel
    rw [this, smul_smul]; norm_num
  have hs : tglZ1 prox beta rho A1 A2 + tglZ2 prox beta rho A1 A2 - (A1 + A2) = 0 := by
    unfold tglZ1 tglZ2
    rw [← he, ← smul_add]
    have : A1 + A2 - e + (A1 + A2 + e) = (2 : ℝ) • (A1 + A2) := by rw [two_smul]; abel
    rw [this, smul_smul]; norm_num
  refine ⟨trivial, ?_⟩
  rintro ⟨X, Y⟩ _ hne
  rw [hdec, hdec, hd, hs]
  have h0 : frobSq (0 : Matrix n n ℝ) = 0 := (frobSq_eq_zero_iff _).mpr rfl
  rw [h0, mul_zero, add_zero]
  have hq := frobSq_nonneg (X + Y - (A1 + A2))
  by_cases hY : Y - X = e
  · rw [hY]
    have hXY : X + Y - (A1 + A2) ≠ 0 := by
      intro h
      apply hne
      have hX : X = tglZ1 prox beta rho A1 A2 := by
        unfold tglZ1
        rw [← he, ← hY]
        have : A1 + A2 - (Y - X) = (2 : ℝ) • X := by
          rw [← sub_eq_zero.mp h, two_smul]; abel
        rw [this, smul_smul]; norm_num
      have hY' : Y = tglZ2 prox beta rho A1 A2 := by
        unfold tglZ2
        rw [← he, ← hY]
        have : A1 + A2 + (Y - X) = (2 : ℝ) • Y := by
          rw [← sub_eq_zero.mp h, two_smul]; abel
        rw [this, smul_smul]; norm_num
      rw [← hX, ← hY']
    have : 0 < frobSq (X + Y - (A1 + A2)) := lt_of_le_of_ne hq fun h =>
      hXY ((frobSq_eq_zero_iff _).mp h.symm)
    have : 0 < rho / 4 * frobSq (X + Y - (A1 + A2)) := by positivity
    linarith
  · have h1 := hp.2 (Y - X) trivial hY
    have h2 : rho / 2 * proxObjMat psi (2 * beta / rho) (A2 - A1) e <
        rho / 2 * proxObjMat psi (2 * beta / rho) (A2 - A1) (Y - X) :=
      mul_lt_mul_of_pos_left h1 (by positivity)
    have h3 : 0 ≤ rho / 4 * frobSq (X + Y - (A1 + A2)) := by positivity
    linarith

/-- Non-vacuity for C22: soft-thresholding is an exact prox of the l1 norm. -/
theorem soft_isProxOf {m k : Type*} [Fintype m] [Fintype k] :
    IsProxOf (absSumMat (m := m) (n := k)) softThresholdingMat :=
  fun A _ hl => C01_soft_thresholding_prox_matrix A hl

example (A1 A2 : Matrix (Fin 2) (Fin 2) ℝ) :
    UniqueMin Set.univ (pairObjective absSumMat 1 1 A1 A2)
      (tglZ1 softThresholdingMat 1 1 A1 A2, tglZ2 softThresholdingMat 1 1 A1 A2) :=
  C22_pair_update soft_isProxOf zero_le_one one_pos A1 A2

/-! ### C21 -/

/-- "One iteration leaves the state unchanged": all consensus variables and all unscaled duals. -/
def TGLStationary (eigh : Eigh n) (a : TGLArgs T n) (s : TGLState T n) : Prop :=
  let s' := (tglBody eigh a 0 s).1
  s'.Z0 = s.Z0 ∧ s'.Z1 = s.Z1 ∧ s'.Z2 = s.Z2 ∧
    (∀ t, s'.rho • s'.U0 t = s.rho • s.U0 t) ∧
    (∀ p, s'.rho • s'.U1 p = s.rho • s.U1 p) ∧ (∀ p, s'.rho • s'.U2 p = s.rho • s.U2 p)

theorem tglStationary_iff (eigh : Eigh n) (a : TGLArgs T n) (hi : 0 < a.rhoOptions.tauInc)
    (hd : 0 < a.rhoOptions.tauDec) (s : TGLState T n) (hr : 0 < s.rho) :
    TGLStationary eigh a s ↔
      (∀ t, tglK eigh a s t = s.Z0 t) ∧ (∀ p, s.Z1 p = s.Z0 p.castSucc) ∧
      (∀ p, s.Z2 p = s.Z0 p.succ) ∧
      (∀ t, tglZ0 a.alpha s.rho (s.Z0 t) (s.U0 t) = s.Z0 t) ∧
      (∀ p, tglZ1 a.prox a.beta s.rho (s.Z1 p + s.U1 p) (s.Z2 p + s.U2 p) = s.Z1 p) ∧
      (∀ p, tglZ2 a.prox a.beta s.rho (s.Z1 p + s.U1 p) (s.Z2 p + s.U2 p) = s.Z2 p) := by
  set K := tglK eigh a s with hK
  set Z0 : Batch (T + 1) n := fun t => tglZ0 a.alpha s.rho (K t) (s.U0 t) with hZ0
  set Z1 : Batch T n := fun p =>
    tglZ1 a.prox a.beta s.rho (init K p + s.U1 p) (tail K p + s.U2 p) with hZ1
  set Z2 : Batch T n := fun p =>
    tglZ2 a.prox a.beta s.rho (init K p + s.U1 p) (tail K p + s.U2 p) with hZ2
  obtain ⟨r, hr', hb⟩ : ∃ r, r ≠ 0 ∧ ((tglBody eigh a 0 s).1 = tglNext eigh a s ∨
      (tglBody eigh a 0 s).1 = tglRescale r (tglNext eigh a s)) := by
    refine ⟨updateRho a.rhoOptions s.rho (tglDiagnose a K s (tglNext eigh a s)).rnorm
      (tglDiagnose a K s (tglNext eigh a s)).snorm, (updateRho_pos hi hd hr _ _).ne', ?_⟩
    unfold tglBody
    simp only
    split
    · exact Or.inl rfl
    · exact Or.inr rfl
  have h1 : (tglBody eigh a 0 s).1.Z0 = Z0 := by rcases hb with h | h <;> rw [h] <;> rfl
  have h2 : (tglBody eigh a 0 s).1.Z1 = Z1 := by rcases hb with h | h <;> rw [h] <;> rfl
  have h3 : (tglBody eigh a 0 s).1.Z2 = Z2 := by rcases hb with h | h <;> rw [h] <;> rfl
  have hc : r * (s.rho / r) = s.rho := mul_div_cancel₀ _ hr'
  have h4 : ∀ t, (tglBody eigh a 0 s).1.rho • (tglBody eigh a 0 s).1.U0 t =
      s.rho • (s.U0 t + (K t - Z0 t)) := by
    intro t
    rcases hb with h | h <;> rw [h]
    · rfl
    · change r • ((s.rho / r) • (s.U0 t + (K t - Z0 t))) = _
      rw [smul_smul, hc]
  have h5 : ∀ p, (tglBody eigh a 0 s).1.rho • (tglBody eigh a 0 s).1.U1 p =
      s.rho • (s.U1 p + (init K p - Z1 p)) := by
    intro p
    rcases hb with h | h <;> rw [h]
    · rfl
    · change r • ((s.rho / r) • (s.U1 p + (init K p - Z1 p))) = _
      rw [smul_smul, hc]
  have h6 : ∀ p, (tglBody eigh a 0 s).1.rho • (tglBody eigh a 0 s).1.U2 p =
      s.rho • (s.U2 p + (tail K p - Z2 p)) := by
    intro p
    rcases hb with h | h <;> rw [h]
    · rfl
    · change r • ((s.rho / r) • (s.U2 p + (tail K p - Z2 p))) = _
      rw [smul_smul, hc]
  have hcancel : ∀ U X Y : Matrix n n ℝ, s.rho • (U + (X - Y)) = s.rho • U ↔ X = Y := by
    intro U X Y
    constructor
    · intro h
      have h0 : U + (X - Y) = U := smul_right_injective _ hr.ne' h
      exact sub_eq_zero.mp (by simpa using h0)
    · rintro rfl; simp
  unfold TGLStationary
  simp only [h1, h2, h3, h4, h5, h6, hcancel]
  constructor
  · rintro ⟨e1, e2, e3, e4, e5, e6⟩
    have k0 : ∀ t, K t = s.Z0 t := fun t => by rw [e4 t, e1]
    have k1 : ∀ p, s.Z1 p = s.Z0 p.castSucc := fun p => by
      rw [← e2, ← e5 p, init, k0]
    have k2 : ∀ p, s.Z2 p = s.Z0 p.succ := fun p => by
      rw [← e3, ← e6 p, tail, k0]
    have f0 := fun t => congrFun e1 t
    have f1 := fun p => congrFun e2 p
    have f2 := fun p => congrFun e3 p
    simp only [hZ0, hZ1, hZ2, init, tail, k0] at f0 f1 f2
    refine ⟨k0, k1, k2, f0, fun p => ?_, fun p => ?_⟩
    · have h := f1 p
      rw [← k1 p, ← k2 p] at h
      exact h
    · have h := f2 p
      rw [← k1 p, ← k2 p] at h
      exact h
  · rintro ⟨k0, k1, k2, f0, f1, f2⟩
    have g0 : Z0 = s.Z0 := by funext t; simp only [hZ0, k0]; exact f0 t
    have g1 : Z1 = s.Z1 := by
      funext p; simp only [hZ1, init, tail, k0]; rw [← k1 p, ← k2 p]; exact f1 p
    have g2 : Z2 = s.Z2 := by
      funext p; simp only [hZ2, init, tail, k0]; rw [← k1 p, ← k2 p]; exact f2 p
    refine ⟨g0, g1, g2, fun t => ?_, fun p => ?_, fun p => ?_⟩
    · rw [g0, k0]
    · rw [g1, k1, init, k0]
    · rw [g2, k2, tail, k0]

/-- First-order sufficient conditions for the time-varying problem. -/
theorem time_optimal_of_subgrad {S : Batch (T + 1) n} {nS : Fin (T + 1) → ℝ} {alpha beta : ℝ}
    {pen psi : Matrix n n ℝ → ℝ} {K G0 : Batch (T + 1) n} {G1 G2 : Batch T n}
    (hS : ∀ t, (S t).IsSymm) (hn : ∀ t, 0 < nS t) (hK : ∀ t, (K t).PosDef)
    (hG : ∀ t, nS t • (S t - (K t)⁻¹) + symmetrize (G0 t + padLast G1 t + padFirst G2 t) = 0)
    (h12 : ∀ p, G1 p = -G2 p)
    (hpen : ∀ t X, X.IsSymm → alpha * pen (K t) + frobInner (G0 t) (X - K t) ≤ alpha * pen X)
    (hpsi : ∀ p X, beta * psi (K p.succ - K p.castSucc)
      + frobInner (G2 p) (X - (K p.succ - K p.castSucc)) ≤ beta * psi X) :
    UniqueMin (PDSeq (T + 1) n) (timeObjective S nS alpha beta pen psi) K := by
  refine ⟨hK, fun X hX hne => ?_⟩
  have e1 : ∀ t, ∀ Y : Matrix n n ℝ, trace (S t * Y) = frobInner (S t) Y :=
    fun t Y => (frobInner_eq_trace_of_symm (hS t) Y).symm
  -- log-det part
  have hlin : ∀ t, nS t * frobInner (S t - (K t)⁻¹) (X t - K t) =
      -(frobInner (G0 t) (X t - K t) + frobInner (padLast G1 t) (X t - K t)
        + frobInner (padFirst G2 t) (X t - K t)) := by
    intro t
    have hsym : (X t - K t).IsSymm := by
      rw [IsSymm, transpose_sub, (hX t).isSymm'.eq, (hK t).isSymm'.eq]
    have h := congrArg (fun M => frobInner M (X t - K t)) (hG t)
    simp only [frobInner_add_left, frobInner_smul_left] at h
    rw [frobInner_symmetrize hsym, frobInner_add_left, frobInner_add_left] at h
    have h0 : frobInner (0 : Matrix n n ℝ) (X t - K t) = 0 := by simp [frobInner]
    rw [h0] at h
    linarith
  have hle : ∀ t, nS t * (trace (S t * K t) - Real.log (K t).det)
      + nS t * frobInner (S t - (K t)⁻¹) (X t - K t)
      ≤ nS t * (trace (S t * X t) - Real.log (X t).det) := by
    intro t
    rw [← mul_add]
    refine mul_le_mul_of_nonneg_left ?_ (hn t).le
    rw [e1, e1, frobInner_sub_left, frobInner_sub_right (S t)]
    have := log_det_le (hX t) (hK t)
    linarith
  obtain ⟨t0, ht0⟩ : ∃ t, X t ≠ K t := by
    by_contra h
    push Not at h
    exact hne (funext h)
  have hlt : nS t0 * (trace (S t0 * K t0) - Real.log (K t0).det)
      + nS t0 * frobInner (S t0 - (K t0)⁻¹) (X t0 - K t0)
      < nS t0 * (trace (S t0 * X t0) - Real.log (X t0).det) := by
    rw [← mul_add]
    refine mul_lt_mul_of_pos_left ?_ (hn t0)
    rw [e1, e1, frobInner_sub_left, frobInner_sub_right (S t0)]
    have := log_det_lt (hX t0) (hK t0) ht0
    linarith
  have hsum := Finset.sum_lt_sum (s := Finset.univ) (fun t _ => hle t) ⟨t0, Finset.mem_univ _, hlt⟩
  rw [Finset.sum_add_distrib] at hsum
  simp only [hlin] at hsum
  rw [Finset.sum_neg_distrib, Finset.sum_add_distrib, Finset.sum_add_distrib,
    sum_padLast G1 (fun t => X t - K t), sum_padFirst G2 (fun t => X t - K t)] at hsum
  -- l1 part
  have hp := Finset.sum_le_sum (s := Finset.univ)
    (fun t (_ : t ∈ Finset.univ) => hpen t (X t) (hX t).isSymm')
  rw [Finset.sum_add_distrib, ← Finset.mul_sum, ← Finset.mul_sum] at hp
  -- temporal part
  have hq := Finset.sum_le_sum (s := Finset.univ)
    (fun p (_ : p ∈ Finset.univ) => hpsi p (X p.succ - X p.castSucc))
  rw [Finset.sum_add_distrib, ← Finset.mul_sum, ← Finset.mul_sum] at hq
  have e2 : ∑ p : Fin T, frobInner (G2 p) (X p.succ - X p.castSucc - (K p.succ - K p.castSucc)) =
      ∑ p, frobInner (G2 p) (X p.succ - K p.succ)
        + ∑ p, frobInner (G1 p) (X p.castSucc - K p.castSucc) := by
    rw [← Finset.sum_add_distrib]
    refine Finset.sum_congr rfl fun p _ => ?_
    have : X p.succ - X p.castSucc - (K p.succ - K p.castSucc) =
        (X p.succ - K p.succ) - (X p.castSucc - K p.castSucc) := by abel
    rw [this, frobInner_sub_right, h12 p, frobInner_neg_left]
    ring
  rw [e2] at hq
  unfold timeObjective
  linarith

/-- C21 (part that holds): a stationary state has `K = Z_0`, consistent consensus variables, and
`Z_0` is the unique minimiser over PD sequences of the time-varying problem with the FULL l1 norm
(diagonal included), for every convex temporal penalty whose prox is exact and every number of time
points. The full statement asks for the off-diagonal norm and is refuted by `C21_diagonal_false`. -/
theorem C21_stationary_partial {eigh : Eigh n} (he : IsEighOracle eigh) (a : TGLArgs T n)
    (hS : ∀ t, (a.empCov t).IsSymm) (hn : ∀ t, 0 < a.nSamples t) (hal : 0 ≤ a.alpha)
    (hbe : 0 ≤ a.beta) (hconv : ConvexPen a.psi) (hprox : IsProxOf a.psi a.prox)
    (hi : 0 < a.rhoOptions.tauInc) (hd : 0 < a.rhoOptions.tauDec) (s : TGLState T n) (hr : 0 < s.rho)
    (h : TGLStationary eigh a s) :
    (∀ t, tglK eigh a s t = s.Z0 t) ∧
    UniqueMin (PDSeq (T + 1) n)
      (timeObjective a.empCov a.nSamples a.alpha a.beta absSumMat a.psi) s.Z0 := by
  obtain ⟨k0, k1, k2, f0, f1, f2⟩ := (tglStationary_iff eigh a hi hd s hr).mp h
  refine ⟨k0, ?_⟩
  have hspec := fun t => tglK_spec he a s t (hS t) (hn t) hr
  simp only [k0] at hspec
  have hpair : ∀ p, s.U1 p = -s.U2 p ∧
      a.prox (s.Z0 p.succ - s.Z0 p.castSucc + (2 : ℝ) • s.U2 p) (2 * a.beta / s.rho) =
        s.Z0 p.succ - s.Z0 p.castSucc := by
    intro p
    have g1 := f1 p
    have g2 := f2 p
    unfold tglZ1 at g1
    unfold tglZ2 at g2
    set e := a.prox (s.Z2 p + s.U2 p - (s.Z1 p + s.U1 p)) (2 * a.beta / s.rho) with hE
    have hsum : s.Z1 p + s.U1 p + (s.Z2 p + s.U2 p) = s.Z1 p + s.Z2 p := by
      have h3 := congrArg₂ (· + ·) g1 g2
      rw [← smul_add] at h3
      have : s.Z1 p + s.U1 p + (s.Z2 p + s.U2 p) - e + (s.Z1 p + s.U1 p + (s.Z2 p + s.U2 p) + e)
          = (2 : ℝ) • (s.Z1 p + s.U1 p + (s.Z2 p + s.U2 p)) := by rw [two_smul]; abel
      rw [this, smul_smul] at h3
      norm_num at h3
      exact h3
    have hU : s.U1 p = -s.U2 p := by
      have h3 : s.U1 p + s.U2 p = 0 := by
        have : s.Z1 p + s.U1 p + (s.Z2 p + s.U2 p) = (s.Z1 p + s.Z2 p) + (s.U1 p + s.U2 p) := by abel
        rw [this] at hsum
        simpa using hsum
      exact eq_neg_of_add_eq_zero_left h3
    have hdiff : e = s.Z2 p - s.Z1 p := by
      have h3 := congrArg₂ (· - ·) g2 g1
      rw [← smul_sub] at h3
      have : s.Z1 p + s.U1 p + (s.Z2 p + s.U2 p) + e - (s.Z1 p + s.U1 p + (s.Z2 p + s.U2 p) - e)
          = (2 : ℝ) • e := by rw [two_smul]; abel
      rw [this, smul_smul] at h3
      norm_num at h3
      exact h3
    refine ⟨hU, ?_⟩
    have harg : s.Z2 p + s.U2 p - (s.Z1 p + s.U1 p) =
        s.Z0 p.succ - s.Z0 p.castSucc + (2 : ℝ) • s.U2 p := by
      rw [hU, k1, k2, two_smul]; abel
    rw [← harg, ← k1 p, ← k2 p]
    exact hdiff
  refine time_optimal_of_subgrad (G0 := fun t => s.rho • s.U0 t) (G1 := fun p => s.rho • s.U1 p)
    (G2 := fun p => s.rho • s.U2 p) hS hn (fun t => (hspec t).1) (fun t => ?_) (fun p => ?_)
    (fun t X hX => ?_) (fun p X => ?_)
  · have h1 := (hspec t).2
    have hB : tglB s t = tglDivisor t • s.Z0 t - (s.U0 t + padLast s.U1 t + padFirst s.U2 t) := by
      unfold tglB
      have e1 : s.Z1 = init s.Z0 := funext k1
      have e2 : s.Z2 = tail s.Z0 := funext k2
      rw [padLast_sub, padFirst_sub, ← tglDivisor_smul, e1, e2]
      abel
    have hZs : (s.Z0 t).IsSymm := (hspec t).1.isSymm'
    rw [hB, symmetrize_sub, symmetrize_smul, symmetrize_of_isSymm hZs,
      smul_sub s.rho, smul_smul s.rho] at h1
    have e3 : s.rho • s.U0 t + padLast (fun p => s.rho • s.U1 p) t
        + padFirst (fun p => s.rho • s.U2 p) t
        = s.rho • (s.U0 t + padLast s.U1 t + padFirst s.U2 t) := by
      have l1 : padLast (fun p => s.rho • s.U1 p) t = s.rho • padLast s.U1 t := by
        refine Fin.lastCases ?_ (fun p => ?_) t <;> simp [padLast]
      have l2 : padFirst (fun p => s.rho • s.U2 p) t = s.rho • padFirst s.U2 t := by
        refine Fin.cases ?_ (fun p => ?_) t <;> simp [padFirst]
      rw [l1, l2, smul_add, smul_add]
    rw [e3, symmetrize_smul, ← h1]
    abel
  · rw [(hpair p).1, smul_neg]
  · have h4 := softMat_subgrad (lam := a.alpha / s.rho) (by positivity)
      (symmetrize (s.Z0 t + s.U0 t)) X
    have h5 : softThresholdingMat (symmetrize (s.Z0 t + s.U0 t)) (a.alpha / s.rho) = s.Z0 t := f0 t
    have hZs : (s.Z0 t).IsSymm := (hspec t).1.isSymm'
    rw [h5, symmetrize_add, symmetrize_of_isSymm hZs, add_sub_cancel_left,
      frobInner_symmetrize (by rw [IsSymm, transpose_sub, hX.eq, hZs.eq])] at h4
    have h6 := mul_le_mul_of_nonneg_left h4 hr.le
    have e : ∀ c : ℝ, s.rho * (a.alpha / s.rho * c) = a.alpha * c := by intro c; field_simp
    rw [mul_add, e, e] at h6
    simp only [frobInner_smul_left]
    exact h6
  · have h4 := prox_subgrad hconv (lam := 2 * a.beta / s.rho) (by positivity)
      (hprox (s.Z0 p.succ - s.Z0 p.castSucc + (2 : ℝ) • s.U2 p) _ (by positivity)).isMin X
    rw [(hpair p).2, add_sub_cancel_left, frobInner_smul_left] at h4
    have h6 := mul_le_mul_of_nonneg_left h4 (by positivity : 0 ≤ s.rho / 2)
    have e : ∀ c : ℝ, s.rho / 2 * (2 * a.beta / s.rho * c) = a.beta * c := by
      intro c; field_simp
    rw [mul_add, e, e] at h6
    simp only [frobInner_smul_left]
    linarith

/-- Convexity of the l1 norm of a matrix. -/
theorem absSumMat_convex {m k : Type*} [Fintype m] [Fintype k] :
    ConvexPen (absSumMat (m := m) (n := k)) := by
  intro X Y t h0 h1
  unfold absSumMat
  rw [Finset.mul_sum, Finset.mul_sum, ← Finset.sum_add_distrib]
  refine Finset.sum_le_sum fun i _ => ?_
  rw [Finset.mul_sum, Finset.mul_sum, ← Finset.sum_add_distrib]
  refine Finset.sum_le_sum fun j _ => ?_
  have e : (X + t • (Y - X)) i j = (1 - t) * X i j + t * Y i j := by
    simp only [Matrix.add_apply, Matrix.smul_apply, Matrix.sub_apply, smul_eq_mul]; ring
  rw [e]
  refine le_trans (abs_add_le _ _) ?_
  rw [abs_mul, abs_mul, abs_of_nonneg h0, abs_of_nonneg (by linarith : 0 ≤ 1 - t)]

/-- The arguments of the witness below: `S_t = 1` (1x1), one sample per time point, `alpha = beta =
1`, temporal penalty `'l1'`. -/
noncomputable def tglWitnessArgs (T : ℕ) : TGLArgs T (Fin 1) where
  empCov := fun _ => 1
  nSamples := fun _ => 1
  alpha := 1
  beta := 1
  psi := absSumMat
  prox := softThresholdingMat
  tol := 1
  rtol := 1

/-- The stationary state of the witness: `K_t = 1/2`. -/
noncomputable def tglWitnessState (T : ℕ) : TGLState T (Fin 1) :=
  ⟨fun _ => (1 / 2 : ℝ) • 1, fun _ => (1 / 2 : ℝ) • 1, fun _ => (1 / 2 : ℝ) • 1, fun _ => 1, 0, 0,
    0, 0, 0, 1⟩

theorem tglWitness_stationary {eigh : Eigh (Fin 1)} (he : IsEighOracle eigh) (T : ℕ) :
    TGLStationary eigh (tglWitnessArgs T) (tglWitnessState T) := by
  have hS1 : ∀ c : ℝ, (c • (1 : Matrix (Fin 1) (Fin 1) ℝ)).IsSymm := by
    intro c; ext i j; simp [Subsingleton.elim i j]
  rw [tglStationary_iff _ _ (by norm_num [tglWitnessArgs]) (by norm_num [tglWitnessArgs]) _
    (by norm_num [tglWitnessState])]
  refine ⟨fun t => ?_, fun p => rfl, fun p => rfl, fun t => ?_, fun p => ?_, fun p => ?_⟩
  · have hpd : ((1 / 2 : ℝ) • (1 : Matrix (Fin 1) (Fin 1) ℝ)).PosDef :=
      PosDef.one.smul (by norm_num)
    refine tglK_unique he _ _ t (by simp [tglWitnessArgs, IsSymm]) (by norm_num [tglWitnessArgs])
      (by norm_num [tglWitnessState]) hpd ?_
    have hinv : ((1 / 2 : ℝ) • (1 : Matrix (Fin 1) (Fin 1) ℝ))⁻¹ = (2 : ℝ) • 1 := by
      apply inv_eq_left_inv
      rw [smul_mul_smul_comm, Matrix.one_mul]; norm_num
    have hB : tglB (tglWitnessState T) t = (tglDivisor t / 2 - 1) • 1 := by
      have h := tglDivisor_smul (fun _ => (1 / 2 : ℝ) • (1 : Matrix (Fin 1) (Fin 1) ℝ)) t
      have h1 : tglB (tglWitnessState T) t = ((1 / 2 : ℝ) • (1 : Matrix (Fin 1) (Fin 1) ℝ)
          + padLast (init fun _ : Fin (T + 1) => (1 / 2 : ℝ) • (1 : Matrix (Fin 1) (Fin 1) ℝ)) t
          + padFirst (tail fun _ : Fin (T + 1) => (1 / 2 : ℝ) • (1 : Matrix (Fin 1) (Fin 1) ℝ)) t)
          - 1 := by
        unfold tglB
        simp only [tglWitnessState, Pi.zero_apply, sub_zero]
        have e1 : (fun _ : Fin T => (1 / 2 : ℝ) • (1 : Matrix (Fin 1) (Fin 1) ℝ)) =
          init fun _ : Fin (T + 1) => (1 / 2 : ℝ) • (1 : Matrix (Fin 1) (Fin 1) ℝ) := rfl
        have e2 : (fun _ : Fin T => (1 / 2 : ℝ) • (1 : Matrix (Fin 1) (Fin 1) ℝ)) =
          tail fun _ : Fin (T + 1) => (1 / 2 : ℝ) • (1 : Matrix (Fin 1) (Fin 1) ℝ) := rfl
        conv_lhs => rw [show padLast (fun _ : Fin T => (1 / 2 : ℝ) • (1 : Matrix (Fin 1) (Fin 1) ℝ)) t
          = padLast (init fun _ : Fin (T + 1) => (1 / 2 : ℝ) • (1 : Matrix (Fin 1) (Fin 1) ℝ)) t from rfl]
        conv_lhs => rw [show padFirst (fun _ : Fin T => (1 / 2 : ℝ) • (1 : Matrix (Fin 1) (Fin 1) ℝ)) t
          = padFirst (tail fun _ : Fin (T + 1) => (1 / 2 : ℝ) • (1 : Matrix (Fin 1) (Fin 1) ℝ)) t from rfl]
        abel
      rw [h1, h, smul_smul, sub_smul, one_smul]
      congr 2; ring
    change (tglWitnessArgs T).nSamples t • ((tglWitnessArgs T).empCov t -
      ((1 / 2 : ℝ) • (1 : Matrix (Fin 1) (Fin 1) ℝ))⁻¹) +
        ((tglWitnessState T).rho * tglDivisor t) • ((1 / 2 : ℝ) • (1 : Matrix (Fin 1) (Fin 1) ℝ)) - _ = 0
    rw [hinv, hB, symmetrize_of_isSymm (hS1 _)]
    ext i j
    have : i = j := Subsingleton.elim _ _
    subst this
    simp [tglWitnessArgs, tglWitnessState]
    ring
  · unfold tglZ0
    have : ((1 / 2 : ℝ) • 1 + 1 : Matrix (Fin 1) (Fin 1) ℝ) = (3 / 2 : ℝ) • 1 := by
      nth_rewrite 2 [← one_smul ℝ (1 : Matrix (Fin 1) (Fin 1) ℝ)]
      rw [← add_smul]; norm_num
    simp only [tglWitnessState, tglWitnessArgs, this]
    rw [symmetrize_of_isSymm (hS1 _)]
    ext i j
    have : i = j := Subsingleton.elim _ _
    subst this
    simp only [softThresholdingMat, Matrix.smul_apply, Matrix.one_apply_eq]
    rw [softScalar_of_pos (by norm_num) (by norm_num)]
    norm_num
  · unfold tglZ1
    ext i j
    have : i = j := Subsingleton.elim _ _
    subst this
    simp [tglWitnessState, tglWitnessArgs, softThresholdingMat, softScalar, npSign]
    norm_num
  · unfold tglZ2
    ext i j
    have : i = j := Subsingleton.elim _ _
    subst this
    simp [tglWitnessState, tglWitnessArgs, softThresholdingMat, softScalar, npSign]
    norm_num

/-- The full statement of C21 is false for every number of time points: with `S_t = 1` (1x1),
`alpha = beta = rho = 1` the constant sequence `K_t = 1/2` is a stationary state, but `K_t = 1` has a
strictly smaller documented objective (off-diagonal penalty). -/
theorem C21_diagonal_false {eigh : Eigh (Fin 1)} (he : IsEighOracle eigh) (T : ℕ) :
    ∃ (a : TGLArgs T (Fin 1)) (s : TGLState T (Fin 1)), (∀ t, (a.empCov t).IsSymm) ∧
      (∀ t, 0 < a.nSamples t) ∧ 0 ≤ a.alpha ∧ 0 ≤ a.beta ∧ ConvexPen a.psi ∧ IsProxOf a.psi a.prox ∧
      0 < a.rhoOptions.tauInc ∧ 0 < a.rhoOptions.tauDec ∧ 0 < s.rho ∧ TGLStationary eigh a s ∧
      ¬ IsMin (PDSeq (T + 1) (Fin 1))
        (timeObjective a.empCov a.nSamples a.alpha a.beta absSumOff a.psi) s.Z0 := by
  refine ⟨tglWitnessArgs T, tglWitnessState T, fun t => by simp [tglWitnessArgs, IsSymm],
    fun t => by norm_num [tglWitnessArgs], by norm_num [tglWitnessArgs],
    by norm_num [tglWitnessArgs], absSumMat_convex, soft_isProxOf, by norm_num [tglWitnessArgs],
    by norm_num [tglWitnessArgs], by norm_num [tglWitnessState], tglWitness_stationary he T,
    fun hmin => ?_⟩
  have h := hmin.2 (fun _ => 1) (fun _ => PosDef.one)
  have hlog : Real.log (2⁻¹ : ℝ) = -Real.log 2 := Real.log_inv 2
  have hl2 := Real.log_two_gt_d9
  simp [timeObjective, tglWitnessArgs, tglWitnessState, absSumOff, absSumMat, hlog] at h
  have hT : (0 : ℝ) ≤ T := Nat.cast_nonneg T
  nlinarith

/-- Non-vacuity for `C21_stationary_partial`: the witness satisfies all of its hypotheses, with any
number of time points. -/
example (T : ℕ) : ∃ (eigh : Eigh (Fin 1)), IsEighOracle eigh ∧
    TGLStationary eigh (tglWitnessArgs T) (tglWitnessState T) := by
  obtain ⟨eigh, he⟩ := exists_eighOracle (n := Fin 1)
  exact ⟨eigh, he, tglWitness_stationary he T⟩

/-! ### C23 -/

/-- The target rule: a nonzero `stop_at` is given and the recorded objective is a number whose relative distance to it is
below `stop_when`. -/
def NearTarget (stopAt : Option ℝ) (stopWhen : ℝ) (obj : XF) : Prop :=
  ∃ v x, stopAt = some v ∧ obj = .fin x ∧ v ≠ 0 ∧ |x - v| < stopWhen * |v|

theorem stopAtTest_iff (stopAt : Option ℝ) (stopWhen : ℝ) (obj : XF) :
    stopAtTest stopAt stopWhen obj = true ↔ NearTarget stopAt stopWhen obj := by
  unfold stopAtTest NearTarget
  cases stopAt with
  | none => simp
  | some v =>
    have hv : (0 : ℝ) ≤ |v| := abs_nonneg v
    cases obj with
    | fin x =>
      simp only [decide_eq_true_eq]
      simp only [XF.sub, XF.neg, XF.add, XF.abs, Option.some.injEq, XF.fin.injEq]
      by_cases h0 : v = 0
      · subst h0
        simp only [XF.div, abs_zero, ne_eq, not_true_eq_false, if_false]
        constructor
        · intro h
          split at h
          · exact h.elim
          · split at h
            · rename_i h1 h2
              exact absurd h2 (not_lt.mpr (abs_nonneg _))
            · exact h.elim
        · rintro ⟨v', _, rfl, _, h, _⟩
          exact absurd rfl h
      · have hp : 0 < |v| := abs_pos.mpr h0
        simp only [XF.div, ne_eq, hp.ne', not_false_eq_true, if_true, XF.lt, div_lt_iff₀ hp]
        constructor
        · intro h
          exact ⟨v, x, rfl, rfl, h0, by rwa [sub_eq_add_neg]⟩
        · rintro ⟨v', x', rfl, rfl, _, h⟩
          rwa [← sub_eq_add_neg]
    | pinf => simp [XF.sub, XF.neg, XF.add, XF.abs, XF.div, XF.lt]
    | ninf => simp [XF.sub, XF.neg, XF.add, XF.abs, XF.div, XF.lt]
    | nan =>
      simp only [decide_eq_true_eq]
      simp [XF.sub, XF.add, XF.abs, XF.div, XF.lt]

/-- The stopping rule as a user reads it off the history. -/
def TGLStops (a : TGLArgs T n) (c : TGLCheck) : Prop :=
  NearTarget a.stopAt a.stopWhen c.obj ∨ (c.rnorm ≤ c.ePri ∧ c.snorm ≤ c.eDual)

theorem tglBody_stop_iff (eigh : Eigh n) (a : TGLArgs T n) (it : ℕ) (s : TGLState T n) :
    (tglBody eigh a it s).2.2 = true ↔ TGLStops a (tglBody eigh a it s).2.1 := by
  unfold tglBody TGLStops
  simp only [Bool.or_eq_true, decide_eq_true_eq, stopAtTest_iff]

/-- C23: a call with `max_iter = m ≥ 1` returns a history with exactly one entry more than the
iteration count, which lies in `1..m`; only the last iteration can satisfy the stopping rule; the
call warns exactly when no iteration did, and then all `m` iterations ran. -/
theorem C23_history (eigh : Eigh n) (a : TGLArgs T n) (K0 : Batch (T + 1) n) (rho : ℝ) (m : ℕ)
    (hm : 1 ≤ m) :
    ∃ (Z : Batch (T + 1) n) (first : TGLCheck) (hist : List TGLCheck) (nIter : ℕ) (warned : Bool),
      timeGraphicalLasso eigh a K0 rho m true true =
        .ok Z (some (first :: hist)) (some nIter) warned ∧
      hist.length = nIter ∧ 1 ≤ nIter ∧ nIter ≤ m ∧
      (∀ c ∈ hist.dropLast, ¬ TGLStops a c) ∧
      (warned = true ↔ ∀ c ∈ hist, ¬ TGLStops a c) ∧
      (warned = true → nIter = m) := by
  obtain ⟨k, h1, h2, h3, h4, h5, h6, h7⟩ :=
    runLoop_outcome (tglBody eigh a) (TGLStops a) (tglBody_stop_iff eigh a) hm (tglInit K0 rho)
  refine ⟨(runLoop (tglBody eigh a) m (tglInit K0 rho)).state.Z0,
    { obj := tglObjectiveCode a K0 K0 (init K0) (tail K0) },
    (runLoop (tglBody eigh a) m (tglInit K0 rho)).checks, k + 1,
    !(runLoop (tglBody eigh a) m (tglInit K0 rho)).broke, ?_, h4.symm, by omega, by omega, h5, h6,
    fun hw => by rw [h4]; exact h7 hw⟩
  unfold timeGraphicalLasso
  simp only [if_true, h1]

/-- C23, boundary: `max_iter = 0` raises when an iteration count is asked for, and otherwise
returns the start with a warning. -/
theorem C23_max_iter_zero (eigh : Eigh n) (a : TGLArgs T n) (K0 : Batch (T + 1) n) (rho : ℝ) :
    timeGraphicalLasso eigh a K0 rho 0 true true = .unbound ∧
    ∃ h : TGLCheck, timeGraphicalLasso eigh a K0 rho 0 true false = .ok K0 (some [h]) none true := by
  constructor
  · simp [timeGraphicalLasso, runLoop, forElse]
  · exact ⟨{ obj := tglObjectiveCode a K0 K0 (init K0) (tail K0) }, by
      simp [timeGraphicalLasso, runLoop, forElse, tglInit]⟩

/-- Non-vacuity for C23: without `stop_at`, the stopping rule is the residual test alone. -/
example (a : TGLArgs T n) (h : a.stopAt = none) (c : TGLCheck) :
    TGLStops a c ↔ (c.rnorm ≤ c.ePri ∧ c.snorm ≤ c.eDual) := by
  simp [TGLStops, NearTarget, h]

end Verif.Props
