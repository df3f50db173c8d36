import Verif.Model.TGL
import Verif.Lemmas.Convex
import Verif.Lemmas.ProxSub
import Verif.Lemmas.GLConv

/-! Helper lemmas for the time-varying graphical lasso. -/

namespace Verif.Lemmas

open Verif.Model Verif.Spec Matrix

set_option autoImplicit false
set_option linter.unusedSectionVars false

variable {n : Type*} [Fintype n] [DecidableEq n] {T : ℕ}

theorem symmetrize_add (A B : Matrix n n ℝ) :
    symmetrize (A + B) = symmetrize A + symmetrize B := by
  unfold symmetrize; rw [transpose_add, ← smul_add]; congr 1; abel

theorem symmetrize_sub (A B : Matrix n n ℝ) :
    symmetrize (A - B) = symmetrize A - symmetrize B := by
  unfold symmetrize; rw [transpose_sub, ← smul_sub]; congr 1; abel

theorem symmetrize_smul (c : ℝ) (A : Matrix n n ℝ) : symmetrize (c • A) = c • symmetrize A := by
  unfold symmetrize; rw [transpose_smul, ← smul_add, smul_comm]

theorem tglDivisor_pos (t : Fin (T + 1)) : 0 < tglDivisor t := by
  unfold tglDivisor
  split <;> split <;> norm_num

/-- `padLast 1 + padFirst 1 + 1` is the divisor. -/
theorem tglDivisor_smul (X : Batch (T + 1) n) (t : Fin (T + 1)) :
    X t + padLast (init X) t + padFirst (tail X) t = tglDivisor t • X t := by
  have h1 : padLast (init X) t = (if t = Fin.last T then (0 : ℝ) else 1) • X t := by
    refine Fin.lastCases ?_ (fun p => ?_) t
    · simp [padLast]
    · simp [padLast, init, (Fin.castSucc_lt_last p).ne]
  have h2 : padFirst (tail X) t = (if t = 0 then (0 : ℝ) else 1) • X t := by
    refine Fin.cases ?_ (fun p => ?_) t
    · simp [padFirst]
    · simp [padFirst, tail, Fin.succ_ne_zero]
  rw [h1, h2]
  nth_rewrite 1 [← one_smul ℝ (X t)]
  rw [← add_smul, ← add_smul]
  congr 1
  unfold tglDivisor
  split <;> split <;> norm_num

theorem padLast_sub (X Y : Batch T n) (t : Fin (T + 1)) :
    padLast (fun p => X p - Y p) t = padLast X t - padLast Y t := by
  refine Fin.lastCases ?_ (fun p => ?_) t <;> simp [padLast]

theorem padFirst_sub (X Y : Batch T n) (t : Fin (T + 1)) :
    padFirst (fun p => X p - Y p) t = padFirst X t - padFirst Y t := by
  refine Fin.cases ?_ (fun p => ?_) t <;> simp [padFirst]

theorem sum_padLast (U : Batch T n) (D : Batch (T + 1) n) :
    ∑ t, frobInner (padLast U t) (D t) = ∑ p, frobInner (U p) (D p.castSucc) := by
  rw [Fin.sum_univ_castSucc]
  simp [padLast, frobInner]

theorem sum_padFirst (U : Batch T n) (D : Batch (T + 1) n) :
    ∑ t, frobInner (padFirst U t) (D t) = ∑ p, frobInner (U p) (D p.succ) := by
  rw [Fin.sum_univ_succ]
  simp [padFirst, frobInner]

/-- The consensus matrix entering the K-update (before division by the divisor). -/
noncomputable def tglB (s : TGLState T n) (t : Fin (T + 1)) : Matrix n n ℝ :=
  s.Z0 t - s.U0 t + padLast (fun p => s.Z1 p - s.U1 p) t + padFirst (fun p => s.Z2 p - s.U2 p) t

theorem tglK_spec {eigh : Eigh n} (he : IsEighOracle eigh) (a : TGLArgs T n) (s : TGLState T n)
    (t : Fin (T + 1)) (hS : (a.empCov t).IsSymm) (hn : 0 < a.nSamples t) (hr : 0 < s.rho) :
    (tglK eigh a s t).PosDef ∧
      a.nSamples t • (a.empCov t - (tglK eigh a s t)⁻¹)
        + (s.rho * tglDivisor t) • tglK eigh a s t - s.rho • symmetrize (tglB s t) = 0 := by
  have hd := tglDivisor_pos t
  set M := (-s.rho * tglDivisor t / a.nSamples t) •
    symmetrize ((tglDivisor t)⁻¹ • tglB s t) + a.empCov t with hM
  have hMs : M.IsSymm := by
    rw [hM, IsSymm, transpose_add, transpose_smul, (symmetrize_isSymm _).eq, hS.eq]
  have hE := he M hMs
  have hK : tglK eigh a s t = proxLogdet (eigh M).1 (eigh M).2 (a.nSamples t / (s.rho * tglDivisor t)) :=
    rfl
  have hl : 0 < a.nSamples t / (s.rho * tglDivisor t) := by positivity
  refine ⟨hK ▸ proxLogdet_posDef hE.orth _ hl, ?_⟩
  have h1 := proxLogdet_stationary hE hl
  rw [← hK] at h1
  have h2 : a.nSamples t • (M - (tglK eigh a s t)⁻¹
      + (a.nSamples t / (s.rho * tglDivisor t))⁻¹ • tglK eigh a s t) = 0 := by rw [h1, smul_zero]
  rw [hM, symmetrize_smul, smul_smul] at h2
  rw [smul_add, smul_sub, smul_add, smul_smul, smul_smul] at h2
  have e1 : a.nSamples t * (-s.rho * tglDivisor t / a.nSamples t * (tglDivisor t)⁻¹) = -s.rho := by
    field_simp
  have e2 : a.nSamples t * (a.nSamples t / (s.rho * tglDivisor t))⁻¹ = s.rho * tglDivisor t := by
    field_simp
  rw [e1, e2, neg_smul] at h2
  rw [smul_sub, ← h2]
  abel

/-- The K-update is characterised by its stationarity equation. -/
theorem tglK_unique {eigh : Eigh n} (he : IsEighOracle eigh) (a : TGLArgs T n) (s : TGLState T n)
    (t : Fin (T + 1)) (hS : (a.empCov t).IsSymm) (hn : 0 < a.nSamples t) (hr : 0 < s.rho)
    {X : Matrix n n ℝ} (hX : X.PosDef)
    (hst : a.nSamples t • (a.empCov t - X⁻¹) + (s.rho * tglDivisor t) • X
      - s.rho • symmetrize (tglB s t) = 0) : tglK eigh a s t = X := by
  obtain ⟨hK, h1⟩ := tglK_spec he a s t hS hn hr
  have hd := tglDivisor_pos t
  set K := tglK eigh a s t
  -- subtract the two equations and pair with K - X
  have h2 : a.nSamples t • (X⁻¹ - K⁻¹) + (s.rho * tglDivisor t) • (K - X) = 0 := by
    have : a.nSamples t • (X⁻¹ - K⁻¹) + (s.rho * tglDivisor t) • (K - X) =
      (a.nSamples t • (a.empCov t - K⁻¹) + (s.rho * tglDivisor t) • K
        - s.rho • symmetrize (tglB s t)) -
      (a.nSamples t • (a.empCov t - X⁻¹) + (s.rho * tglDivisor t) • X
        - s.rho • symmetrize (tglB s t)) := by
      simp only [smul_sub]; abel
    rw [this, h1, hst, sub_zero]
  have h3 := congrArg (fun M => frobInner M (K - X)) h2
  simp only [frobInner_add_left, frobInner_smul_left, frobInner_self] at h3
  have h0 : frobInner (0 : Matrix n n ℝ) (K - X) = 0 := by simp [frobInner]
  rw [h0] at h3
  have h4 := inv_mono hK hX
  have h5 := frobSq_nonneg (K - X)
  have h6 : 0 ≤ a.nSamples t * frobInner (X⁻¹ - K⁻¹) (K - X) := by positivity
  have h7 : (s.rho * tglDivisor t) * frobSq (K - X) ≤ 0 := by linarith
  have h8 : frobSq (K - X) = 0 := by
    have : 0 < s.rho * tglDivisor t := by positivity
    nlinarith
  exact sub_eq_zero.mp ((frobSq_eq_zero_iff _).mp h8)

end Verif.Lemmas
