import Verif.Props.KTGL
import Verif.Props.LGL

/-! Property theorems C96 - C99, C101 (latent variable temporal solvers). -/

namespace Verif.Props

open Verif.Model Verif.Spec Verif.Lemmas Matrix

set_option autoImplicit false
set_option linter.unusedSectionVars false
set_option linter.unnecessarySeqFocus false

variable {n : Type*} [Fintype n] [DecidableEq n] {k : ℕ} {E : Type*} [Fintype E]

/-- "One iteration leaves the state unchanged": all variables and all unscaled duals. -/
def LTStationary (eigh : Eigh n) (rUpd : ℝ → Batch k n → Batch k n) (g : TimePairs k E)
    (a : LTArgs k E n) (s : LTState k E n) : Prop :=
  let s' := (ltBody eigh rUpd g a 0 s).1
  s'.Z0 = s.Z0 ∧ s'.ZL = s.ZL ∧ s'.ZR = s.ZR ∧ s'.W0 = s.W0 ∧ s'.WL = s.WL ∧ s'.WR = s.WR ∧
    (∀ t, s'.rho • s'.X0 t = s.rho • s.X0 t) ∧
    (∀ e, s'.rho • s'.XL e = s.rho • s.XL e) ∧ (∀ e, s'.rho • s'.XR e = s.rho • s.XR e) ∧
    (∀ e, s'.rho • s'.UL e = s.rho • s.UL e) ∧ (∀ e, s'.rho • s'.UR e = s.rho • s.UR e)

/-- The equations of a stationary state. -/
structure LTFixed (eigh : Eigh n) (rUpd : ℝ → Batch k n → Batch k n) (g : TimePairs k E)
    (a : LTArgs k E n) (s : LTState k E n) : Prop where
  r : rUpd s.rho (fun t => s.Z0 t - s.W0 t - s.X0 t) = fun t => s.Z0 t - s.W0 t
  z0 : ltZ0 g a s (fun t => s.Z0 t - s.W0 t) = s.Z0
  w0 : ltW0 eigh g a s (fun t => s.Z0 t - s.W0 t) s.Z0 = s.W0
  zl : ∀ e, s.ZL e = s.Z0 (g.src e)
  zr : ∀ e, s.ZR e = s.Z0 (g.dst e)
  wl : ∀ e, s.WL e = s.W0 (g.src e)
  wr : ∀ e, s.WR e = s.W0 (g.dst e)
  pz1 : ∀ e, tglZ1 a.proxPsi (a.wPsi e) s.rho (s.ZL e + s.XL e) (s.ZR e + s.XR e) = s.ZL e
  pz2 : ∀ e, tglZ2 a.proxPsi (a.wPsi e) s.rho (s.ZL e + s.XL e) (s.ZR e + s.XR e) = s.ZR e
  pw1 : ∀ e, tglZ1 a.proxPhi (a.wPhi e) s.rho (s.WL e + s.UL e) (s.WR e + s.UR e) = s.WL e
  pw2 : ∀ e, tglZ2 a.proxPhi (a.wPhi e) s.rho (s.WL e + s.UL e) (s.WR e + s.UR e) = s.WR e

theorem ltStationary_iff (eigh : Eigh n) (rUpd : ℝ → Batch k n → Batch k n) (g : TimePairs k E)
    (a : LTArgs k E n) (hi : 0 < a.rhoOptions.tauInc) (hd : 0 < a.rhoOptions.tauDec)
    (s : LTState k E n) (hr : 0 < s.rho) :
    LTStationary eigh rUpd g a s ↔ LTFixed eigh rUpd g a s := by
  set s1 := ltNext eigh rUpd g a s with hs1
  set R : Batch k n := rUpd s.rho (fun t => s.Z0 t - s.W0 t - s.X0 t) with hR
  obtain ⟨r, hr', hb⟩ : ∃ r, r ≠ 0 ∧ ((ltBody eigh rUpd g a 0 s).1 = s1 ∨
      (ltBody eigh rUpd g a 0 s).1 = ltRescale r s1) := by
    refine ⟨updateRho a.rhoOptions s.rho (ltDiagnose g a s s1).rnorm
      (ltDiagnose g a s s1).snorm, (updateRho_pos hi hd hr _ _).ne', ?_⟩
    unfold ltBody
    simp only
    split
    · exact Or.inl rfl
    · exact Or.inr rfl
  have hc : r * (s.rho / r) = s.rho := mul_div_cancel₀ _ hr'
  have hrho : s1.rho = s.rho := rfl
  have hz0 : (ltBody eigh rUpd g a 0 s).1.Z0 = s1.Z0 := by
    rcases hb with h | h <;> rw [h] <;> rfl
  have hzl : (ltBody eigh rUpd g a 0 s).1.ZL = s1.ZL := by
    rcases hb with h | h <;> rw [h] <;> rfl
  have hzr : (ltBody eigh rUpd g a 0 s).1.ZR = s1.ZR := by
    rcases hb with h | h <;> rw [h] <;> rfl
  have hw0 : (ltBody eigh rUpd g a 0 s).1.W0 = s1.W0 := by
    rcases hb with h | h <;> rw [h] <;> rfl
  have hwl : (ltBody eigh rUpd g a 0 s).1.WL = s1.WL := by
    rcases hb with h | h <;> rw [h] <;> rfl
  have hwr : (ltBody eigh rUpd g a 0 s).1.WR = s1.WR := by
    rcases hb with h | h <;> rw [h] <;> rfl
  have hx0 : ∀ t, (ltBody eigh rUpd g a 0 s).1.rho • (ltBody eigh rUpd g a 0 s).1.X0 t =
      s.rho • (s.X0 t + (R t - s1.Z0 t + s1.W0 t)) := by
    intro t
    rcases hb with h | h <;> rw [h]
    · rfl
    · change r • ((s.rho / r) • (s.X0 t + (R t - s1.Z0 t + s1.W0 t))) = _
      rw [smul_smul, hc]
  have hxl : ∀ e, (ltBody eigh rUpd g a 0 s).1.rho • (ltBody eigh rUpd g a 0 s).1.XL e =
      s.rho • (s.XL e + (s1.Z0 (g.src e) - s1.ZL e)) := by
    intro e
    rcases hb with h | h <;> rw [h]
    · rfl
    · change r • ((s.rho / r) • (s.XL e + (s1.Z0 (g.src e) - s1.ZL e))) = _
      rw [smul_smul, hc]
  have hxr : ∀ e, (ltBody eigh rUpd g a 0 s).1.rho • (ltBody eigh rUpd g a 0 s).1.XR e =
      s.rho • (s.XR e + (s1.Z0 (g.dst e) - s1.ZR e)) := by
    intro e
    rcases hb with h | h <;> rw [h]
    · rfl
    · change r • ((s.rho / r) • (s.XR e + (s1.Z0 (g.dst e) - s1.ZR e))) = _
      rw [smul_smul, hc]
  have hul : ∀ e, (ltBody eigh rUpd g a 0 s).1.rho • (ltBody eigh rUpd g a 0 s).1.UL e =
      s.rho • (s.UL e + (s1.W0 (g.src e) - s1.WL e)) := by
    intro e
    rcases hb with h | h <;> rw [h]
    · rfl
    · change r • ((s.rho / r) • (s.UL e + (s1.W0 (g.src e) - s1.WL e))) = _
      rw [smul_smul, hc]
  have hur : ∀ e, (ltBody eigh rUpd g a 0 s).1.rho • (ltBody eigh rUpd g a 0 s).1.UR e =
      s.rho • (s.UR e + (s1.W0 (g.dst e) - s1.WR e)) := by
    intro e
    rcases hb with h | h <;> rw [h]
    · rfl
    · change r • ((s.rho / r) • (s.UR e + (s1.W0 (g.dst e) - s1.WR e))) = _
      rw [smul_smul, hc]
  have hcancel : ∀ U X Y : Matrix n n ℝ, s.rho • (U + (X - Y)) = s.rho • U ↔ X = Y := by
    intro U X Y
    constructor
    · intro h
      have h0 : U + (X - Y) = U := smul_right_injective _ hr.ne' h
      exact sub_eq_zero.mp (by simpa using h0)
    · rintro rfl; simp
  have hcancel3 : ∀ U X Y W : Matrix n n ℝ, s.rho • (U + (X - Y + W)) = s.rho • U ↔ X = Y - W := by
    intro U X Y W
    have : X - Y + W = X - (Y - W) := by abel
    rw [this, hcancel]
  -- the components of one pass
  have dz0 : s1.Z0 = ltZ0 g a s R := rfl
  have dw0 : s1.W0 = ltW0 eigh g a s R s1.Z0 := rfl
  have dzl : s1.ZL = fun e =>
    tglZ1 a.proxPsi (a.wPsi e) s.rho (s1.Z0 (g.src e) + s.XL e) (s1.Z0 (g.dst e) + s.XR e) := rfl
  have dzr : s1.ZR = fun e =>
    tglZ2 a.proxPsi (a.wPsi e) s.rho (s1.Z0 (g.src e) + s.XL e) (s1.Z0 (g.dst e) + s.XR e) := rfl
  have dwl : s1.WL = fun e =>
    tglZ1 a.proxPhi (a.wPhi e) s.rho (s1.W0 (g.src e) + s.UL e) (s1.W0 (g.dst e) + s.UR e) := rfl
  have dwr : s1.WR = fun e =>
    tglZ2 a.proxPhi (a.wPhi e) s.rho (s1.W0 (g.src e) + s.UL e) (s1.W0 (g.dst e) + s.UR e) := rfl
  unfold LTStationary
  simp only [hz0, hzl, hzr, hw0, hwl, hwr, hx0, hxl, hxr, hul, hur, hcancel, hcancel3]
  clear_value s1
  constructor
  · rintro ⟨e1, e2, e3, e4, e5, e6, e7, e8, e9, e10, e11⟩
    rw [e1, e4] at e7
    rw [e1, e2] at e8
    rw [e1, e3] at e9
    rw [e4, e5] at e10
    rw [e4, e6] at e11
    have eR : R = fun t => s.Z0 t - s.W0 t := funext e7
    rw [eR, e1] at dz0
    rw [eR, e1, e4] at dw0
    rw [e1, e2] at dzl
    rw [e1, e3] at dzr
    rw [e4, e5] at dwl
    rw [e4, e6] at dwr
    refine ⟨eR, dz0.symm, dw0.symm, fun e => (e8 e).symm, fun e => (e9 e).symm, fun e => (e10 e).symm,
      fun e => (e11 e).symm, fun e => ?_, fun e => ?_, fun e => ?_, fun e => ?_⟩
    · have h := congrFun dzl e
      simp only [e8 e, e9 e] at h
      exact h.symm
    · have h := congrFun dzr e
      simp only [e8 e, e9 e] at h
      exact h.symm
    · have h := congrFun dwl e
      simp only [e10 e, e11 e] at h
      exact h.symm
    · have h := congrFun dwr e
      simp only [e10 e, e11 e] at h
      exact h.symm
  · rintro ⟨f1, f2, f3, f4, f5, f6, f7, f8, f9, f10, f11⟩
    rw [f1] at hR
    rw [hR, f2] at dz0
    rw [hR, dz0, f3] at dw0
    rw [dz0] at dzl dzr
    rw [dw0] at dwl dwr
    have g1 : s1.ZL = s.ZL := by rw [dzl]; funext e; rw [← f4, ← f5]; exact f8 e
    have g2 : s1.ZR = s.ZR := by rw [dzr]; funext e; rw [← f4, ← f5]; exact f9 e
    have g3 : s1.WL = s.WL := by rw [dwl]; funext e; rw [← f6, ← f7]; exact f10 e
    have g4 : s1.WR = s.WR := by rw [dwr]; funext e; rw [← f6, ← f7]; exact f11 e
    refine ⟨dz0, g1, g2, dw0, g3, g4, fun t => ?_, fun e => ?_, fun e => ?_, fun e => ?_, fun e => ?_⟩
    · rw [hR, dz0, dw0]
    · rw [dz0, g1, f4]
    · rw [dz0, g2, f5]
    · rw [dw0, g3, f6]
    · rw [dw0, g4, f7]

/-- At a stationary state the penalties satisfy the first-order inequality with multiplier `rho X_0`, against
every competitor with PSD latent part. -/
theorem lt_penalties_le {eigh : Eigh n} (he : IsEighOracle eigh) {rUpd : ℝ → Batch k n → Batch k n}
    {g : TimePairs k E} {a : LTArgs k E n} (hcov : Covers g a.divisor n) (hdiv : ∀ t, 0 < a.divisor t)
    (hal : 0 ≤ a.alpha) (hw : ∀ e, 0 ≤ a.wPsi e) (hv : ∀ e, 0 ≤ a.wPhi e)
    {psi phi : Matrix n n ℝ → ℝ} (cpsi : ConvexPen psi) (cphi : ConvexPen phi)
    (ppsi : IsProxOf psi a.proxPsi) (pphi : IsProxOf phi a.proxPhi)
    {s : LTState k E n} (hr : 0 < s.rho) (h : LTFixed eigh rUpd g a s)
    (K L : Batch k n) (hL : ∀ t, (L t).PosSemidef) :
    (a.alpha * ∑ t, absSumMat (s.Z0 t) + ∑ e, a.wPsi e * psi (s.Z0 (g.dst e) - s.Z0 (g.src e)))
      + (a.tau * ∑ t, trace (s.W0 t) + ∑ e, a.wPhi e * phi (s.W0 (g.dst e) - s.W0 (g.src e)))
      + ∑ t, frobInner (s.rho • s.X0 t) ((K t - L t) - (s.Z0 t - s.W0 t)) ≤
    (a.alpha * ∑ t, absSumMat (K t) + ∑ e, a.wPsi e * psi (K (g.dst e) - K (g.src e)))
      + (a.tau * ∑ t, trace (L t) + ∑ e, a.wPhi e * phi (L (g.dst e) - L (g.src e))) := by
  have hpz := fun e => pair_fixed (h.pz1 e) (h.pz2 e)
  have hpw := fun e => pair_fixed (h.pw1 e) (h.pw2 e)
  have hWpsd : ∀ t, (s.W0 t).PosSemidef := by
    intro t
    rw [← h.w0]
    exact recompose_posSemidef _ fun _ => le_max_right _ _
  have hK := block_le g (pen := absSumMat) (c := a.alpha) (psi := fun e X => a.wPsi e * psi X)
    (K := s.Z0) (X := K) (G := fun t => s.rho • s.X0 t) (YL := fun e => s.rho • s.XL e)
    (YR := fun e => s.rho • s.XR e) (fun e => by rw [(hpz e).1, smul_neg])
    (fun t => by
      have hd := hdiv t
      have h5 := congrFun h.z0 t
      unfold ltZ0 at h5
      have harg : (a.divisor t)⁻¹ • (s.Z0 t - s.W0 t + s.W0 t + s.X0 t
          + scatter g.src (fun e => s.ZL e - s.XL e) t + scatter g.dst (fun e => s.ZR e - s.XR e) t) =
          s.Z0 t + (a.divisor t)⁻¹ • (s.X0 t - scatter g.src s.XL t - scatter g.dst s.XR t) := by
        have e1 : s.ZL = fun e => s.Z0 (g.src e) := funext h.zl
        have e2 : s.ZR = fun e => s.Z0 (g.dst e) := funext h.zr
        have hcv := hcov s.Z0 t
        have e3 : s.Z0 t = (a.divisor t)⁻¹ • (a.divisor t • s.Z0 t) := by
          rw [smul_smul, inv_mul_cancel₀ hd.ne', one_smul]
        conv_rhs => rw [e3, ← hcv, ← smul_add]
        rw [scatter_sub, scatter_sub, e1, e2]
        congr 1
        unfold scatter
        abel
      rw [harg] at h5
      have h4 := softMat_subgrad (lam := a.alpha / (s.rho * a.divisor t)) (by positivity)
        (s.Z0 t + (a.divisor t)⁻¹ • (s.X0 t - scatter g.src s.XL t - scatter g.dst s.XR t)) (K t)
      rw [h5, add_sub_cancel_left, frobInner_smul_left] at h4
      have h6 := mul_le_mul_of_nonneg_left h4 (mul_pos hr hd).le
      have e : ∀ c : ℝ, s.rho * a.divisor t * (a.alpha / (s.rho * a.divisor t) * c) = a.alpha * c := by
        intro c; field_simp
      have e' : ∀ c : ℝ, s.rho * a.divisor t * ((a.divisor t)⁻¹ * c) = s.rho * c := by
        intro c; field_simp
      rw [mul_add, e, e, e'] at h6
      rw [scatter_smul, scatter_smul, ← smul_sub, ← smul_sub, frobInner_smul_left]
      exact h6)
    (fun e => by
      have hp := (hpz e).2
      rw [h.zl e, h.zr e] at hp
      exact pair_subgrad cpsi ppsi (hw e) hr hp _)
  have hLb := block_le g (pen := trace) (c := a.tau) (psi := fun e X => a.wPhi e * phi X)
    (K := s.W0) (X := L) (G := fun t => -(s.rho • s.X0 t)) (YL := fun e => s.rho • s.UL e)
    (YR := fun e => s.rho • s.UR e) (fun e => by rw [(hpw e).1, smul_neg])
    (fun t => by
      have hd := hdiv t
      have h5 := congrFun h.w0 t
      unfold ltW0 at h5
      simp only at h5
      have harg : symmetrize ((a.divisor t)⁻¹ • (s.Z0 t - (s.Z0 t - s.W0 t) - s.X0 t
          + scatter g.src (fun e => s.WL e - s.UL e) t + scatter g.dst (fun e => s.WR e - s.UR e) t)) =
          s.W0 t + symmetrize ((a.divisor t)⁻¹ •
            (-s.X0 t - scatter g.src s.UL t - scatter g.dst s.UR t)) := by
        have e1 : s.WL = fun e => s.W0 (g.src e) := funext h.wl
        have e2 : s.WR = fun e => s.W0 (g.dst e) := funext h.wr
        have hcv := hcov s.W0 t
        have e3 : s.W0 t = symmetrize ((a.divisor t)⁻¹ • (a.divisor t • s.W0 t)) := by
          rw [smul_smul, inv_mul_cancel₀ hd.ne', one_smul, symmetrize_of_isSymm (hWpsd t).isSymm']
        conv_rhs => rw [e3, ← hcv, ← symmetrize_add, ← smul_add]
        rw [scatter_sub, scatter_sub, e1, e2]
        congr 2
        unfold scatter
        abel
      rw [harg] at h5
      have hsym : (s.W0 t + symmetrize ((a.divisor t)⁻¹ •
            (-s.X0 t - scatter g.src s.UL t - scatter g.dst s.UR t))).IsSymm := by
        rw [IsSymm, transpose_add, (hWpsd t).isSymm'.eq, (symmetrize_isSymm _).eq]
      have h4 := proxTrace_vi (he _ hsym) (a.tau / (s.rho * a.divisor t)) (hL t)
      rw [h5, add_sub_cancel_left, frobInner_symmetrize (by
        rw [IsSymm, transpose_sub, (hL t).isSymm'.eq, (hWpsd t).isSymm'.eq]), frobInner_smul_left] at h4
      have h6 := mul_le_mul_of_nonneg_left h4 (mul_pos hr hd).le
      have e : ∀ c : ℝ, s.rho * a.divisor t * (a.tau / (s.rho * a.divisor t) * c) = a.tau * c := by
        intro c; field_simp
      have e' : ∀ c : ℝ, s.rho * a.divisor t * ((a.divisor t)⁻¹ * c) = s.rho * c := by
        intro c; field_simp
      rw [mul_add, e, e, e'] at h6
      rw [scatter_smul, scatter_smul, ← smul_neg, ← smul_sub, ← smul_sub, frobInner_smul_left]
      exact h6)
    (fun e => by
      have hp := (hpw e).2
      rw [h.wl e, h.wr e] at hp
      exact pair_subgrad cphi pphi (hv e) hr hp _)
  have hG : ∑ t, frobInner (s.rho • s.X0 t) ((K t - L t) - (s.Z0 t - s.W0 t)) =
      ∑ t, frobInner (s.rho • s.X0 t) (K t - s.Z0 t) + ∑ t, frobInner (-(s.rho • s.X0 t)) (L t - s.W0 t) := by
    rw [← Finset.sum_add_distrib]
    refine Finset.sum_congr rfl fun t _ => ?_
    have : K t - L t - (s.Z0 t - s.W0 t) = (K t - s.Z0 t) - (L t - s.W0 t) := by abel
    rw [this, frobInner_sub_right, frobInner_neg_left]; ring
  rw [hG]
  linarith

/-- The R-update with the log-likelihood at a stationary state. -/
theorem ltLogdetR_fixed {eigh : Eigh n} (he : IsEighOracle eigh) {a : LTArgs k E n}
    (hS : ∀ t, (a.empCov t).IsSymm) (hn : ∀ t, 0 < a.nSamples t) {rho : ℝ} (hr : 0 < rho)
    {R X : Batch k n} (h : ltLogdetR eigh a rho (fun t => R t - X t) = R) (t : Fin k) :
    (R t).PosDef ∧ a.nSamples t • (a.empCov t - (R t)⁻¹) + symmetrize (rho • X t) = 0 := by
  obtain ⟨p1, p2⟩ := logdetStep_spec he (hS t) (hn t) hr (R t - X t)
  have ht : proxLogdet (eigh ((-rho / a.nSamples t) • symmetrize (R t - X t) + a.empCov t)).1
    (eigh ((-rho / a.nSamples t) • symmetrize (R t - X t) + a.empCov t)).2 (a.nSamples t / rho) = R t :=
    congrFun h t
  rw [ht] at p1 p2
  refine ⟨p1, ?_⟩
  rw [symmetrize_sub, symmetrize_of_isSymm p1.isSymm', smul_sub rho] at p2
  rw [symmetrize_smul, ← p2]
  abel

theorem lt_logdet_optimal {eigh : Eigh n} (he : IsEighOracle eigh) {g : TimePairs k E} {a : LTArgs k E n}
    (hS : ∀ t, (a.empCov t).IsSymm) (hn : ∀ t, 0 < a.nSamples t)
    (hcov : Covers g a.divisor n) (hdiv : ∀ t, 0 < a.divisor t)
    (hal : 0 ≤ a.alpha) (hw : ∀ e, 0 ≤ a.wPsi e) (hv : ∀ e, 0 ≤ a.wPhi e)
    {psi phi : Matrix n n ℝ → ℝ} (cpsi : ConvexPen psi) (cphi : ConvexPen phi)
    (ppsi : IsProxOf psi a.proxPsi) (pphi : IsProxOf phi a.proxPhi)
    {s : LTState k E n} (hr : 0 < s.rho) (h : LTFixed eigh (ltLogdetR eigh a) g a s)
    (obj : (Batch k n) × (Batch k n) → ℝ)
    (hobj : ∀ p, obj p = negLogLik a.empCov a.nSamples (fun t => p.1 t - p.2 t)
      + ((a.alpha * ∑ t, absSumMat (p.1 t) + ∑ e, a.wPsi e * psi (p.1 (g.dst e) - p.1 (g.src e)))
      + (a.tau * ∑ t, trace (p.2 t) + ∑ e, a.wPhi e * phi (p.2 (g.dst e) - p.2 (g.src e))))) :
    IsMin (LatentSeqFeasible k n) obj (s.Z0, s.W0) ∧
    ∀ q, IsMin (LatentSeqFeasible k n) obj q → ∀ t, q.1 t - q.2 t = s.Z0 t - s.W0 t := by
  have hR := fun t => ltLogdetR_fixed he hS hn hr (R := fun t => s.Z0 t - s.W0 t) h.r t
  have hW : ∀ t, (s.W0 t).PosSemidef := by
    intro t
    rw [← h.w0]
    exact recompose_posSemidef _ fun _ => le_max_right _ _
  have key : ∀ q ∈ LatentSeqFeasible k n, obj (s.Z0, s.W0) ≤ obj q ∧
      ((fun t => q.1 t - q.2 t) ≠ (fun t => s.Z0 t - s.W0 t) → obj (s.Z0, s.W0) < obj q) := by
    intro q hq
    have h1 := lt_penalties_le he hcov hdiv hal hw hv cpsi cphi ppsi pphi hr h q.1 q.2 (fun t => (hq t).2)
    have h2 := negLogLik_le hS hn (fun t => (hR t).1) (fun t => (hq t).1) (fun t => (hR t).2)
    rw [hobj, hobj]
    refine ⟨?_, fun hne => ?_⟩
    · have := h2.1; linarith
    · have := h2.2 hne; linarith
  have hmem : (s.Z0, s.W0) ∈ LatentSeqFeasible k n := fun t => ⟨(hR t).1, hW t⟩
  refine ⟨⟨hmem, fun q hq => (key q hq).1⟩, fun q hq t => ?_⟩
  by_contra hne
  have h3 := (key q hq.1).2 (fun hc => hne (congrFun hc t))
  exact absurd (hq.2 _ hmem) (not_le.mpr h3)

/-! ### C96 -/

/-- C96 (part that holds): a stationary state of `latent_time_graphical_lasso` minimises the latent
time-varying problem over all sequences with `K_t - L_t` PD and `L_t` PSD, with the FULL l1 norm, and every
other minimiser has the same `K_t - L_t`. The documented problem leaves the diagonal out: refuted by
`C96_diagonal_false`. -/
theorem C96_stationary_partial {T : ℕ} {eigh : Eigh n} (he : IsEighOracle eigh) (o : LTOptions (T + 1) n)
    (beta eta : ℝ) (hS : ∀ t, (o.empCov t).IsSymm) (hn : ∀ t, 0 < o.nSamples t) (hal : 0 ≤ o.alpha)
    (hb : 0 ≤ beta) (heta : 0 ≤ eta)
    {psi phi : Matrix n n ℝ → ℝ} (cpsi : ConvexPen psi) (cphi : ConvexPen phi)
    (ppsi : IsProxOf psi o.proxPsi) (pphi : IsProxOf phi o.proxPhi)
    (hi : 0 < o.rhoOptions.tauInc) (hd : 0 < o.rhoOptions.tauDec)
    (s : LTState (T + 1) (Fin T) n) (hr : 0 < s.rho)
    (h : LTStationary eigh (ltLogdetR eigh (chainArgs o beta eta)) (chainPairs T) (chainArgs o beta eta) s) :
    IsMin (LatentSeqFeasible (T + 1) n)
      (latentTimeObjective o.empCov o.nSamples o.alpha o.tau beta eta absSumMat psi phi) (s.Z0, s.W0) ∧
    ∀ q, IsMin (LatentSeqFeasible (T + 1) n)
      (latentTimeObjective o.empCov o.nSamples o.alpha o.tau beta eta absSumMat psi phi) q →
      ∀ t, q.1 t - q.2 t = s.Z0 t - s.W0 t := by
  have hf := (ltStationary_iff eigh _ (chainPairs T) (chainArgs o beta eta) hi hd s hr).mp h
  refine lt_logdet_optimal (a := chainArgs o beta eta) he hS hn covers_chain tglDivisor_pos hal
    (fun _ => hb) (fun _ => heta) cpsi cphi ppsi pphi hr hf _ fun p => ?_
  unfold latentTimeObjective chainCoupling
  simp only [chainArgs, chainPairs]
  rw [← Finset.mul_sum, ← Finset.mul_sum]
  ring

/-! ### C97 -/

/-- C97 (part that holds): the same for `kernel_latent_time_graphical_lasso`. -/
theorem C97_stationary_partial {eigh : Eigh n} (he : IsEighOracle eigh) (o : LTOptions k n)
    (kpsi kphi : Option (Fin k → Fin k → ℝ)) (hpsi : ∀ s t, s < t → 0 ≤ kernelOf kpsi s t)
    (hphi : ∀ s t, s < t → 0 ≤ kernelOf kphi s t)
    (hS : ∀ t, (o.empCov t).IsSymm) (hn : ∀ t, 0 < o.nSamples t) (hal : 0 ≤ o.alpha)
    {psi phi : Matrix n n ℝ → ℝ} (cpsi : ConvexPen psi) (cphi : ConvexPen phi)
    (ppsi : IsProxOf psi o.proxPsi) (pphi : IsProxOf phi o.proxPhi)
    (hi : 0 < o.rhoOptions.tauInc) (hd : 0 < o.rhoOptions.tauDec)
    (s : LTState k (PairIdx k) n) (hr : 0 < s.rho)
    (h : LTStationary eigh (ltLogdetR eigh (kernelArgs o kpsi kphi)) (allPairs k) (kernelArgs o kpsi kphi) s) :
    IsMin (LatentSeqFeasible k n)
      (kernelLatentObjective o.empCov o.nSamples o.alpha o.tau (kernelOf kpsi) (kernelOf kphi) absSumMat psi phi)
      (s.Z0, s.W0) ∧
    ∀ q, IsMin (LatentSeqFeasible k n)
      (kernelLatentObjective o.empCov o.nSamples o.alpha o.tau (kernelOf kpsi) (kernelOf kphi) absSumMat psi phi)
      q → ∀ t, q.1 t - q.2 t = s.Z0 t - s.W0 t := by
  have hf := (ltStationary_iff eigh _ (allPairs k) (kernelArgs o kpsi kphi) hi hd s hr).mp h
  have hw : ∀ (kk : Option (Fin k → Fin k → ℝ)), (∀ s t, s < t → 0 ≤ kernelOf kk s t) →
      ∀ e : PairIdx k, 0 ≤ kernelWeight kk e := by
    intro kk hkk e
    have := hkk e.1.1 e.1.2 e.2
    cases kk <;> exact this
  refine lt_logdet_optimal (a := kernelArgs o kpsi kphi) he hS hn covers_all (fun t => ?_) hal
    (hw kpsi hpsi) (hw kphi hphi) cpsi cphi ppsi pphi hr hf _ fun p => ?_
  · have : 0 < k := t.pos
    change (0 : ℝ) < (k : ℝ)
    exact_mod_cast this
  · unfold kernelLatentObjective
    rw [kernelCoupling_eq, kernelCoupling_eq]
    simp only [kernelArgs]
    ring

/-- The dimension written in `kernel_latent_time_graphical_lasso` is the square root of the number of entries
of `R` and of the four variables of every pair. -/
theorem C97_dimension (k d : ℕ) (hk : 0 < k) :
    Real.sqrt (k * ((d : ℝ) * d) + 4 * (Fintype.card (PairIdx k) * ((d : ℝ) * d))) =
      d * Real.sqrt (k * (2 * k - 1)) := by
  have hcard : (2 : ℝ) * Fintype.card (PairIdx k) = k * (k - 1) := by
    have h1 := sum_pairIdx (k := k) (fun _ _ => (1 : ℝ))
    have h0 : (Fintype.card (PairIdx k) : ℝ) = ∑ s : Fin k, ∑ t : Fin k, if s < t then (1 : ℝ) else 0 := by
      rw [← h1]; simp
    have h2 : (Fintype.card (PairIdx k) : ℝ) = ∑ s : Fin k, ∑ t : Fin k, if t < s then (1 : ℝ) else 0 := by
      rw [h0, Finset.sum_comm]
    have h3 : (∑ s : Fin k, ∑ t : Fin k, if s = t then (1 : ℝ) else 0) = k := by simp
    have h4 : (∑ _s : Fin k, ∑ _t : Fin k, (1 : ℝ)) = k * k := by simp
    have h5 : (∑ s : Fin k, ∑ t : Fin k, if s < t then (1 : ℝ) else 0)
        + (∑ s : Fin k, ∑ t : Fin k, if t < s then (1 : ℝ) else 0)
        + (∑ s : Fin k, ∑ t : Fin k, if s = t then (1 : ℝ) else 0) = ∑ _s : Fin k, ∑ _t : Fin k, (1 : ℝ) := by
      rw [← Finset.sum_add_distrib, ← Finset.sum_add_distrib]
      refine Finset.sum_congr rfl fun s _ => ?_
      rw [← Finset.sum_add_distrib, ← Finset.sum_add_distrib]
      refine Finset.sum_congr rfl fun t _ => ?_
      rcases lt_trichotomy s t with h | h | h
      · simp [h, h.ne, h.not_gt]
      · simp [h]
      · simp [h, h.ne', h.not_gt]
    rw [← h0, ← h2, h3, h4] at h5
    linarith
  have e : k * ((d : ℝ) * d) + 4 * (Fintype.card (PairIdx k) * ((d : ℝ) * d)) =
      (d : ℝ) ^ 2 * (k * (2 * k - 1)) := by
    linear_combination 2 * (d : ℝ) ^ 2 * hcard
  have hk1 : (1 : ℝ) ≤ k := by exact_mod_cast hk
  rw [e, Real.sqrt_mul (by positivity), Real.sqrt_sq (by positivity)]

/-! ### C98 -/

theorem ltNext_W0_posSemidef (eigh : Eigh n) (rUpd : ℝ → Batch k n → Batch k n) (g : TimePairs k E)
    (a : LTArgs k E n) (s : LTState k E n) (t : Fin k) : ((ltNext eigh rUpd g a s).W0 t).PosSemidef :=
  recompose_posSemidef _ fun _ => le_max_right _ _

theorem ltBody_W0_posSemidef (eigh : Eigh n) (rUpd : ℝ → Batch k n → Batch k n) (g : TimePairs k E)
    (a : LTArgs k E n) (it : ℕ) (s : LTState k E n) (t : Fin k) :
    ((ltBody eigh rUpd g a it s).1.W0 t).PosSemidef := by
  have h := ltNext_W0_posSemidef eigh rUpd g a s t
  unfold ltBody
  simp only
  split
  · exact h
  · exact h

theorem ltRun_W0 (eigh : Eigh n) (rUpd : ℝ → Batch k n → Batch k n) (g : TimePairs k E)
    (a : LTArgs k E n) (K0 : Batch k n) (rho : ℝ) (m : ℕ) (rh rn : Bool) {K L : Batch k n}
    {hist : Option (List GLCheck)} {ni : Option ℕ} {w : Bool}
    (h : ltRun eigh rUpd g a K0 rho m rh rn = .ok K L hist ni w) (t : Fin k) : (L t).PosSemidef := by
  have hinv := runLoop_invariant (ltBody eigh rUpd g a) (fun s => ∀ t, (s.W0 t).PosSemidef)
    (fun it s _ t => ltBody_W0_posSemidef eigh rUpd g a it s t) m
    (s := ltInit g K0 rho) (fun t => PosSemidef.zero)
  unfold ltRun at h
  simp only at h
  split at h
  · split at h
    · exact absurd h (by simp)
    · injection h with _ h2
      rw [← h2]; exact hinv t
  · injection h with _ h2
    rw [← h2]; exact hinv t

/-- C98: whatever the inputs, the number of iterations and the eigenvalue routine returns, the latent part
returned by the three latent solvers is positive semidefinite at every time point. -/
theorem C98_latent_psd {T : ℕ} (eigh : Eigh n) (o : LTOptions (T + 1) n) (beta eta : ℝ)
    (kpsi kphi : Option (Fin (T + 1) → Fin (T + 1) → ℝ)) (K0 : Batch (T + 1) n) (rho : ℝ) (m : ℕ)
    (rh rn : Bool) {K L : Batch (T + 1) n} {hist : Option (List GLCheck)} {ni : Option ℕ} {w : Bool}
    (h : latentTimeGraphicalLasso eigh o beta eta K0 rho m rh rn = .ok K L hist ni w ∨
      kernelLatentTimeGraphicalLasso eigh o kpsi kphi K0 rho m rh rn = .ok K L hist ni w ∨
      latentTimeMatrixDecomposition eigh o beta eta rho m rh rn = .ok K L hist ni w) (t : Fin (T + 1)) :
    (L t).PosSemidef := by
  rcases h with h | h | h
  · exact ltRun_W0 _ _ _ _ _ _ _ _ _ h t
  · exact ltRun_W0 _ _ _ _ _ _ _ _ _ h t
  · exact ltRun_W0 _ _ _ _ _ _ _ _ _ h t

/-! ### C99 -/

/-- C99 (part that holds): a stationary state of `latent_time_matrix_decomposition` minimises
`∑ ‖S_t - (K_t - L_t)‖² + …` over all sequences with `L_t` PSD, with the FULL l1 norm; every other minimiser
has the same `K_t - L_t`. The documented problem leaves the diagonal out: `C99_diagonal_false`. -/
theorem C99_stationary_partial {T : ℕ} {eigh : Eigh n} (he : IsEighOracle eigh) (o : LTOptions (T + 1) n)
    (beta eta : ℝ) (hal : 0 ≤ o.alpha) (hb : 0 ≤ beta) (heta : 0 ≤ eta)
    {psi phi : Matrix n n ℝ → ℝ} (cpsi : ConvexPen psi) (cphi : ConvexPen phi)
    (ppsi : IsProxOf psi o.proxPsi) (pphi : IsProxOf phi o.proxPhi)
    (hi : 0 < o.rhoOptions.tauInc) (hd : 0 < o.rhoOptions.tauDec)
    (s : LTState (T + 1) (Fin T) n) (hr : 0 < s.rho)
    (h : LTStationary eigh (ltSquareR (chainArgs o beta eta)) (chainPairs T) (chainArgs o beta eta) s) :
    IsMin (PSDSecond (T + 1) n)
      (decompositionObjective o.empCov o.alpha o.tau beta eta absSumMat psi phi) (s.Z0, s.W0) ∧
    ∀ q, IsMin (PSDSecond (T + 1) n)
      (decompositionObjective o.empCov o.alpha o.tau beta eta absSumMat psi phi) q →
      ∀ t, q.1 t - q.2 t = s.Z0 t - s.W0 t := by
  have hf := (ltStationary_iff eigh _ (chainPairs T) (chainArgs o beta eta) hi hd s hr).mp h
  have hW : ∀ t, (s.W0 t).PosSemidef := by
    intro t
    rw [← hf.w0]
    exact recompose_posSemidef _ fun _ => le_max_right _ _
  -- 2 (R - S) = - rho X_0
  have hR : ∀ t, (2 : ℝ) • (o.empCov t - (s.Z0 t - s.W0 t)) = s.rho • s.X0 t := by
    intro t
    have h1 := congrFun hf.r t
    unfold ltSquareR at h1
    simp only [chainArgs] at h1
    have h2 := congrArg (fun M => (2 + s.rho) • M) h1
    simp only [smul_smul] at h2
    rw [mul_inv_cancel₀ (by positivity), one_smul, add_smul, smul_sub s.rho] at h2
    have h3 : (2 : ℝ) • o.empCov t = (2 : ℝ) • (s.Z0 t - s.W0 t) + s.rho • s.X0 t := by
      have := congrArg (fun M => M - s.rho • (s.Z0 t - s.W0 t) + s.rho • s.X0 t) h2
      rw [add_sub_cancel_right] at this
      rw [← this]
      abel
    rw [smul_sub, h3]
    abel
  have key : ∀ q ∈ PSDSecond (T + 1) n,
      decompositionObjective o.empCov o.alpha o.tau beta eta absSumMat psi phi (s.Z0, s.W0)
        + ∑ t, frobSq ((q.1 t - q.2 t) - (s.Z0 t - s.W0 t)) ≤
      decompositionObjective o.empCov o.alpha o.tau beta eta absSumMat psi phi q := by
    intro q hq
    have h1 := lt_penalties_le (a := chainArgs o beta eta) he covers_chain tglDivisor_pos hal
      (fun _ => hb) (fun _ => heta) cpsi cphi ppsi pphi hr hf q.1 q.2 hq
    simp only [chainArgs, chainPairs] at h1
    have h2 : ∑ t, frobSq (o.empCov t - (q.1 t - q.2 t)) =
        ∑ t, frobSq (o.empCov t - (s.Z0 t - s.W0 t))
        - ∑ t, frobInner (s.rho • s.X0 t) ((q.1 t - q.2 t) - (s.Z0 t - s.W0 t))
        + ∑ t, frobSq ((q.1 t - q.2 t) - (s.Z0 t - s.W0 t)) := by
      rw [← Finset.sum_sub_distrib, ← Finset.sum_add_distrib]
      refine Finset.sum_congr rfl fun t _ => ?_
      have e : o.empCov t - (q.1 t - q.2 t) =
        (o.empCov t - (s.Z0 t - s.W0 t)) - ((q.1 t - q.2 t) - (s.Z0 t - s.W0 t)) := by abel
      rw [e, frobSq_sub, ← hR t, frobInner_smul_left]
    unfold decompositionObjective chainCoupling
    simp only
    rw [h2]
    rw [← Finset.mul_sum, ← Finset.mul_sum, ← Finset.mul_sum, ← Finset.mul_sum] at h1
    linarith
  have hmem : (s.Z0, s.W0) ∈ PSDSecond (T + 1) n := hW
  have hnn : ∀ q : Batch (T + 1) n × Batch (T + 1) n, 0 ≤ ∑ t, frobSq ((q.1 t - q.2 t) - (s.Z0 t - s.W0 t)) :=
    fun q => Finset.sum_nonneg fun t _ => frobSq_nonneg _
  refine ⟨⟨hmem, fun q hq => by have := key q hq; have := hnn q; linarith⟩, fun q hq t => ?_⟩
  have h1 := key q hq.1
  have h2 := hq.2 _ hmem
  have h3 : ∑ t, frobSq ((q.1 t - q.2 t) - (s.Z0 t - s.W0 t)) = 0 :=
    le_antisymm (by linarith) (hnn q)
  have h4 := (Finset.sum_eq_zero_iff_of_nonneg (fun t _ => frobSq_nonneg _)).mp h3 t (Finset.mem_univ _)
  exact sub_eq_zero.mp ((frobSq_eq_zero_iff _).mp h4)

/-! ### Witnesses -/

/-- Options of the witness: `S_t = 1` (1x1), one sample per time point, `alpha = tau = 1`, l1 penalties. -/
noncomputable def ltWitnessOptions (k : ℕ) : LTOptions k (Fin 1) where
  empCov := fun _ => 1
  nSamples := fun _ => 1
  alpha := 1
  tau := 1
  proxPsi := softThresholdingMat
  proxPhi := softThresholdingMat
  tol := 1
  rtol := 1

/-- The stationary state of the witness: `K_t = 1/2`, `L_t = 0`, multiplier 1. -/
noncomputable def ltWitnessState (k : ℕ) (E : Type*) : LTState k E (Fin 1) :=
  ⟨fun _ => (1 / 2 : ℝ) • 1, fun _ => (1 / 2 : ℝ) • 1, fun _ => (1 / 2 : ℝ) • 1, 0, 0, 0, fun _ => 1,
    0, 0, 0, 0, 0, 0, 0, 0, 0, 1⟩

theorem proxTrace_neg {eigh : Eigh (Fin 1)} (he : IsEighOracle eigh) {c lam : ℝ} (h : c - lam ≤ 0) :
    proxTraceIndicator (eigh (c • 1)).1 (eigh (c • 1)).2 lam = 0 := by
  have hE := he (c • 1) (isSymm_fin_one _)
  have heig : ∀ i, (eigh (c • 1)).2 i = c := by
    intro i
    rw [hE.eigen_eq i]
    have hq := hE.orth'
    generalize (eigh (c • 1)).1 = Q at hq ⊢
    rw [Matrix.mul_smul, Matrix.mul_one, Matrix.smul_mul, hq]
    simp
  unfold proxTraceIndicator
  rw [← recompose_zero (eigh (c • 1)).1]
  congr 1
  funext i
  rw [heig]
  exact max_eq_right h

theorem ltWitness_fixed {eigh : Eigh (Fin 1)} (he : IsEighOracle eigh)
    {rUpd : ℝ → Batch k (Fin 1) → Batch k (Fin 1)} {g : TimePairs k E} {a : LTArgs k E (Fin 1)}
    (hcov : Covers g a.divisor (Fin 1)) (hdiv : ∀ t, 0 < a.divisor t) (h1 : a.alpha = 1) (h2 : a.tau = 1)
    (h3 : a.proxPsi = softThresholdingMat) (h4 : a.proxPhi = softThresholdingMat)
    (hR : rUpd 1 (fun _ => (1 / 2 : ℝ) • 1 - 0 - 1) = fun _ => (1 / 2 : ℝ) • 1 - 0) :
    LTFixed eigh rUpd g a (ltWitnessState k E) := by
  have hpair : ∀ (w : ℝ) (Z : Matrix (Fin 1) (Fin 1) ℝ), tglZ1 softThresholdingMat w 1 (Z + 0) (Z + 0) = Z ∧
      tglZ2 softThresholdingMat w 1 (Z + 0) (Z + 0) = Z := by
    intro w Z
    refine pair_fixed_of (by simp) ?_
    rw [sub_self, smul_zero, add_zero]
    exact soft_zero_eq _
  refine ⟨hR, ?_, ?_, fun _ => rfl, fun _ => rfl, fun _ => rfl, fun _ => rfl, fun e => ?_, fun e => ?_,
    fun e => ?_, fun e => ?_⟩
  · funext t
    have hd := hdiv t
    have hcv := hcov (fun _ => (1 / 2 : ℝ) • (1 : Matrix (Fin 1) (Fin 1) ℝ)) t
    unfold ltZ0
    have hB : (ltWitnessState k E).Z0 t - (ltWitnessState k E).W0 t + (ltWitnessState k E).W0 t
        + (ltWitnessState k E).X0 t
        + scatter g.src (fun e => (ltWitnessState k E).ZL e - (ltWitnessState k E).XL e) t
        + scatter g.dst (fun e => (ltWitnessState k E).ZR e - (ltWitnessState k E).XR e) t =
        a.divisor t • ((1 / 2 : ℝ) • 1) + 1 := by
      refine Eq.trans ?_ (congrArg (· + (1 : Matrix (Fin 1) (Fin 1) ℝ)) hcv)
      simp only [ltWitnessState, Pi.zero_apply, sub_zero, scatter]
      abel
    rw [hB, h1]
    ext i j
    have : i = j := Subsingleton.elim _ _
    subst this
    simp only [softThresholdingMat, ltWitnessState, Matrix.add_apply, Matrix.smul_apply, Matrix.one_apply_eq,
      smul_eq_mul, one_mul]
    have hval : (a.divisor t)⁻¹ * (a.divisor t * (1 / 2 * 1) + 1) = 1 / 2 + 1 / a.divisor t := by
      field_simp
    rw [hval, softScalar_of_pos (by positivity) (by linarith)]
    ring
  · funext t
    have hd := hdiv t
    unfold ltW0
    simp only
    have hz : ∀ f : E → Fin k, scatter f (fun e => (0 : E → Matrix (Fin 1) (Fin 1) ℝ) e
        - (0 : E → Matrix (Fin 1) (Fin 1) ℝ) e) t = 0 := by
      intro f; unfold scatter; simp
    have hB : symmetrize ((a.divisor t)⁻¹ • ((ltWitnessState k E).Z0 t
        - ((ltWitnessState k E).Z0 t - (ltWitnessState k E).W0 t) - (ltWitnessState k E).X0 t
        + scatter g.src (fun e => (ltWitnessState k E).WL e - (ltWitnessState k E).UL e) t
        + scatter g.dst (fun e => (ltWitnessState k E).WR e - (ltWitnessState k E).UR e) t)) =
        (-(a.divisor t)⁻¹) • 1 := by
      rw [symmetrize_of_isSymm (isSymm_fin_one _)]
      have e1 := hz g.src
      have e2 := hz g.dst
      simp only [ltWitnessState]
      rw [e1, e2]
      simp
    rw [hB, h2]
    refine proxTrace_neg he ?_
    have : 0 < (a.divisor t)⁻¹ := by positivity
    have h5 : 1 / ((ltWitnessState k E).rho * a.divisor t) = (a.divisor t)⁻¹ := by
      simp [ltWitnessState]
    rw [h5]; linarith
  · rw [h3]; exact (hpair _ _).1
  · rw [h3]; exact (hpair _ _).2
  · rw [h4]; exact (hpair _ _).1
  · rw [h4]; exact (hpair _ _).2

theorem ltLogdetR_witness {eigh : Eigh (Fin 1)} (he : IsEighOracle eigh) {a : LTArgs k E (Fin 1)}
    (h1 : ∀ t, a.empCov t = 1) (h2 : ∀ t, a.nSamples t = 1) :
    ltLogdetR eigh a 1 (fun _ => (1 / 2 : ℝ) • 1 - 0 - 1) = fun _ => (1 / 2 : ℝ) • 1 - 0 := by
  funext t
  have hpd : ((1 / 2 : ℝ) • (1 : Matrix (Fin 1) (Fin 1) ℝ) - 0).PosDef := by
    rw [sub_zero]; exact PosDef.one.smul (by norm_num)
  unfold ltLogdetR
  simp only
  refine logdetStep_unique he (isSymm_fin_one _) (by rw [h2]; norm_num) one_pos _ hpd ?_
  rw [h1, h2, sub_zero, half_inv, symmetrize_of_isSymm (isSymm_fin_one _)]
  ext i j
  have : i = j := Subsingleton.elim _ _
  subst this
  simp
  norm_num

theorem ltSquareR_witness {a : LTArgs k E (Fin 1)} (h1 : ∀ t, a.empCov t = 1) :
    ltSquareR a 1 (fun _ => (1 / 2 : ℝ) • 1 - 0 - 1) = fun _ => (1 / 2 : ℝ) • 1 - 0 := by
  funext t
  unfold ltSquareR
  rw [h1]
  ext i j
  have : i = j := Subsingleton.elim _ _
  subst this
  simp
  norm_num

theorem ltWitness_chain {T : ℕ} {eigh : Eigh (Fin 1)} (he : IsEighOracle eigh) (beta eta : ℝ) :
    LTStationary eigh (ltLogdetR eigh (chainArgs (ltWitnessOptions (T + 1)) beta eta)) (chainPairs T)
      (chainArgs (ltWitnessOptions (T + 1)) beta eta) (ltWitnessState (T + 1) (Fin T)) := by
  rw [ltStationary_iff _ _ _ _ (by norm_num [chainArgs, ltWitnessOptions])
    (by norm_num [chainArgs, ltWitnessOptions]) _ (by norm_num [ltWitnessState])]
  exact ltWitness_fixed he covers_chain tglDivisor_pos rfl rfl rfl rfl
    (ltLogdetR_witness he (fun _ => rfl) fun _ => rfl)

theorem ltWitness_kernel {eigh : Eigh (Fin 1)} (he : IsEighOracle eigh)
    (kpsi kphi : Option (Fin k → Fin k → ℝ)) :
    LTStationary eigh (ltLogdetR eigh (kernelArgs (ltWitnessOptions k) kpsi kphi)) (allPairs k)
      (kernelArgs (ltWitnessOptions k) kpsi kphi) (ltWitnessState k (PairIdx k)) := by
  rw [ltStationary_iff _ _ _ _ (by norm_num [kernelArgs, ltWitnessOptions])
    (by norm_num [kernelArgs, ltWitnessOptions]) _ (by norm_num [ltWitnessState])]
  refine ltWitness_fixed he covers_all (fun t => ?_) rfl rfl rfl rfl
    (ltLogdetR_witness he (fun _ => rfl) fun _ => rfl)
  have : 0 < k := t.pos
  change (0 : ℝ) < (k : ℝ)
  exact_mod_cast this

theorem ltWitness_square {T : ℕ} {eigh : Eigh (Fin 1)} (he : IsEighOracle eigh) (beta eta : ℝ) :
    LTStationary eigh (ltSquareR (chainArgs (ltWitnessOptions (T + 1)) beta eta)) (chainPairs T)
      (chainArgs (ltWitnessOptions (T + 1)) beta eta) (ltWitnessState (T + 1) (Fin T)) := by
  rw [ltStationary_iff _ _ _ _ (by norm_num [chainArgs, ltWitnessOptions])
    (by norm_num [chainArgs, ltWitnessOptions]) _ (by norm_num [ltWitnessState])]
  exact ltWitness_fixed he covers_chain tglDivisor_pos rfl rfl rfl rfl (ltSquareR_witness fun _ => rfl)

/-- The full statement of C96 is false for every number of time points and all weights: the state `K_t = 1/2`,
`L_t = 0` is stationary for `S_t = 1`, `alpha = tau = 1`, but `K_t = 1`, `L_t = 0` is feasible and strictly better
for the documented off-diagonal penalty. -/
theorem C96_diagonal_false {T : ℕ} {eigh : Eigh (Fin 1)} (he : IsEighOracle eigh) (beta eta : ℝ) :
    ∃ (o : LTOptions (T + 1) (Fin 1)) (s : LTState (T + 1) (Fin T) (Fin 1)),
      (∀ t, (o.empCov t).IsSymm) ∧ (∀ t, 0 < o.nSamples t) ∧ 0 ≤ o.alpha ∧
      IsProxOf absSumMat o.proxPsi ∧ IsProxOf absSumMat o.proxPhi ∧
      0 < o.rhoOptions.tauInc ∧ 0 < o.rhoOptions.tauDec ∧ 0 < s.rho ∧
      LTStationary eigh (ltLogdetR eigh (chainArgs o beta eta)) (chainPairs T) (chainArgs o beta eta) s ∧
      ¬ IsMin (LatentSeqFeasible (T + 1) (Fin 1))
        (latentTimeObjective o.empCov o.nSamples o.alpha o.tau beta eta absSumOff absSumMat absSumMat)
        (s.Z0, s.W0) := by
  refine ⟨ltWitnessOptions (T + 1), ltWitnessState (T + 1) (Fin T), fun t => isSymm_fin_one _,
    fun t => by norm_num [ltWitnessOptions], by norm_num [ltWitnessOptions], soft_isProxOf, soft_isProxOf,
    by norm_num [ltWitnessOptions], by norm_num [ltWitnessOptions], by norm_num [ltWitnessState],
    ltWitness_chain he beta eta, fun hmin => ?_⟩
  have h := hmin.2 (fun _ => 1, 0) (fun t => ⟨by simpa using PosDef.one, PosSemidef.zero⟩)
  have hlog : Real.log (2⁻¹ : ℝ) = -Real.log 2 := Real.log_inv 2
  have hl2 := Real.log_two_gt_d9
  simp [latentTimeObjective, chainCoupling, negLogLik, ltWitnessOptions, ltWitnessState, absSumOff, absSumMat,
    hlog] at h
  have hT : (0 : ℝ) ≤ T := Nat.cast_nonneg T
  nlinarith

/-- The full statement of C97 is false for every number `k ≥ 1` of time points and all kernels, for the same
reason. -/
theorem C97_diagonal_false {eigh : Eigh (Fin 1)} (he : IsEighOracle eigh) (hk : 0 < k)
    (kpsi kphi : Option (Fin k → Fin k → ℝ)) :
    ∃ (o : LTOptions k (Fin 1)) (s : LTState k (PairIdx k) (Fin 1)),
      (∀ t, (o.empCov t).IsSymm) ∧ (∀ t, 0 < o.nSamples t) ∧ 0 ≤ o.alpha ∧
      IsProxOf absSumMat o.proxPsi ∧ IsProxOf absSumMat o.proxPhi ∧
      0 < o.rhoOptions.tauInc ∧ 0 < o.rhoOptions.tauDec ∧ 0 < s.rho ∧
      LTStationary eigh (ltLogdetR eigh (kernelArgs o kpsi kphi)) (allPairs k) (kernelArgs o kpsi kphi) s ∧
      ¬ IsMin (LatentSeqFeasible k (Fin 1))
        (kernelLatentObjective o.empCov o.nSamples o.alpha o.tau (kernelOf kpsi) (kernelOf kphi) absSumOff
          absSumMat absSumMat) (s.Z0, s.W0) := by
  refine ⟨ltWitnessOptions k, ltWitnessState k (PairIdx k), fun t => isSymm_fin_one _,
    fun t => by norm_num [ltWitnessOptions], by norm_num [ltWitnessOptions], soft_isProxOf, soft_isProxOf,
    by norm_num [ltWitnessOptions], by norm_num [ltWitnessOptions], by norm_num [ltWitnessState],
    ltWitness_kernel he kpsi kphi, fun hmin => ?_⟩
  have h := hmin.2 (fun _ => 1, 0) (fun t => ⟨by simpa using PosDef.one, PosSemidef.zero⟩)
  have hlog : Real.log (2⁻¹ : ℝ) = -Real.log 2 := Real.log_inv 2
  have hl2 := Real.log_two_gt_d9
  simp [kernelLatentObjective, kernelCoupling, negLogLik, ltWitnessOptions, ltWitnessState, absSumOff, absSumMat,
    hlog] at h
  have hT : (1 : ℝ) ≤ k := by exact_mod_cast hk
  nlinarith

/-- The full statement of C99 is false for every number of time points: `K_t = 1/2`, `L_t = 0` is stationary for
`S_t = 1`, `alpha = tau = 1`, but `K_t = 1` fits exactly at no cost for the off-diagonal penalty. -/
theorem C99_diagonal_false {T : ℕ} {eigh : Eigh (Fin 1)} (he : IsEighOracle eigh) (beta eta : ℝ) :
    ∃ (o : LTOptions (T + 1) (Fin 1)) (s : LTState (T + 1) (Fin T) (Fin 1)), 0 ≤ o.alpha ∧
      IsProxOf absSumMat o.proxPsi ∧ IsProxOf absSumMat o.proxPhi ∧
      0 < o.rhoOptions.tauInc ∧ 0 < o.rhoOptions.tauDec ∧ 0 < s.rho ∧
      LTStationary eigh (ltSquareR (chainArgs o beta eta)) (chainPairs T) (chainArgs o beta eta) s ∧
      ¬ IsMin (PSDSecond (T + 1) (Fin 1))
        (decompositionObjective o.empCov o.alpha o.tau beta eta absSumOff absSumMat absSumMat)
        (s.Z0, s.W0) := by
  refine ⟨ltWitnessOptions (T + 1), ltWitnessState (T + 1) (Fin T), by norm_num [ltWitnessOptions],
    soft_isProxOf, soft_isProxOf, by norm_num [ltWitnessOptions], by norm_num [ltWitnessOptions],
    by norm_num [ltWitnessState], ltWitness_square he beta eta, fun hmin => ?_⟩
  have h := hmin.2 (fun _ => 1, 0) (fun t => PosSemidef.zero)
  simp [decompositionObjective, chainCoupling, ltWitnessOptions, ltWitnessState, absSumOff, absSumMat,
    frobSq] at h
  have hT : (0 : ℝ) ≤ T := Nat.cast_nonneg T
  norm_num at h
  nlinarith

/-- Non-vacuity for `C96_stationary_partial`, `C97_stationary_partial` and `C99_stationary_partial`: the witness is
stationary for each of them, with any number of time points. -/
example (T : ℕ) : ∃ eigh : Eigh (Fin 1), IsEighOracle eigh ∧
    LTStationary eigh (ltLogdetR eigh (chainArgs (ltWitnessOptions (T + 1)) 1 1)) (chainPairs T)
      (chainArgs (ltWitnessOptions (T + 1)) 1 1) (ltWitnessState (T + 1) (Fin T)) ∧
    LTStationary eigh (ltSquareR (chainArgs (ltWitnessOptions (T + 1)) 1 1)) (chainPairs T)
      (chainArgs (ltWitnessOptions (T + 1)) 1 1) (ltWitnessState (T + 1) (Fin T)) ∧
    LTStationary eigh (ltLogdetR eigh (kernelArgs (ltWitnessOptions T) (some fun _ _ => 1) none)) (allPairs T)
      (kernelArgs (ltWitnessOptions T) (some fun _ _ => 1) none) (ltWitnessState T (PairIdx T)) := by
  obtain ⟨eigh, he⟩ := exists_eighOracle (n := Fin 1)
  exact ⟨eigh, he, ltWitness_chain he 1 1, ltWitness_square he 1 1, ltWitness_kernel he _ _⟩

/-! ### C101 -/

/-- The stopping rule of the latent temporal solvers, as a user reads it off the history. -/
def LTStops (c : GLCheck) : Prop := c.rnorm ≤ c.ePri ∧ c.snorm ≤ c.eDual

theorem ltBody_stop_iff (eigh : Eigh n) (rUpd : ℝ → Batch k n → Batch k n) (g : TimePairs k E)
    (a : LTArgs k E n) (it : ℕ) (s : LTState k E n) :
    (ltBody eigh rUpd g a it s).2.2 = true ↔ LTStops (ltBody eigh rUpd g a it s).2.1 := by
  unfold ltBody LTStops
  simp only [decide_eq_true_eq]

theorem ltRun_history (eigh : Eigh n) (rUpd : ℝ → Batch k n → Batch k n) (g : TimePairs k E)
    (a : LTArgs k E n) (K0 : Batch k n) (rho : ℝ) {m : ℕ} (hm : 1 ≤ m) :
    ∃ (K L : Batch k n) (hist : List GLCheck) (nIter : ℕ) (warned : Bool),
      ltRun eigh rUpd g a K0 rho m true true = .ok K L (some hist) (some nIter) warned ∧
      hist.length = nIter + 1 ∧ nIter < m ∧ (∀ c ∈ hist.dropLast, ¬ LTStops c) ∧
      (warned = true ↔ ∀ c ∈ hist, ¬ LTStops c) ∧ (warned = true → nIter + 1 = m) := by
  obtain ⟨j, h1, h2, h3, h4, h5, h6, h7⟩ :=
    runLoop_outcome (ltBody eigh rUpd g a) LTStops (ltBody_stop_iff eigh rUpd g a) hm (ltInit g K0 rho)
  refine ⟨(runLoop (ltBody eigh rUpd g a) m (ltInit g K0 rho)).state.Z0,
    (runLoop (ltBody eigh rUpd g a) m (ltInit g K0 rho)).state.W0,
    (runLoop (ltBody eigh rUpd g a) m (ltInit g K0 rho)).checks, j,
    !(runLoop (ltBody eigh rUpd g a) m (ltInit g K0 rho)).broke, ?_, h4.symm, by omega, h5, h6,
    fun hw => by rw [h4]; exact h7 hw⟩
  unfold ltRun
  simp only [if_true, h1]

/-- What a user expects from the iteration count: it is the number of recorded iterations. -/
def CountsIterations {k : ℕ} {n : Type*} : LTReturn k n → Prop
  | .ok _ _ (some hist) (some nIter) _ => nIter = hist.length
  | _ => False

/-- C101 (part that holds): for `max_iter = m ≥ 1` the history of each latent temporal solver has one entry per
iteration, only the last one can satisfy the stopping rule, the call warns exactly when none does and then
`m` iterations ran. The returned iteration count is one less than the number of iterations: see
`C101_count_false`. -/
theorem C101_history_partial {T : ℕ} (eigh : Eigh n) (o : LTOptions (T + 1) n) (beta eta : ℝ)
    (kpsi kphi : Option (Fin (T + 1) → Fin (T + 1) → ℝ)) (K0 : Batch (T + 1) n) (rho : ℝ) {m : ℕ} (hm : 1 ≤ m)
    (r : LTReturn (T + 1) n)
    (hr : r = latentTimeGraphicalLasso eigh o beta eta K0 rho m true true ∨
      r = kernelLatentTimeGraphicalLasso eigh o kpsi kphi K0 rho m true true ∨
      r = latentTimeMatrixDecomposition eigh o beta eta rho m true true) :
    ∃ (K L : Batch (T + 1) n) (hist : List GLCheck) (nIter : ℕ) (warned : Bool),
      r = .ok K L (some hist) (some nIter) warned ∧
      hist.length = nIter + 1 ∧ nIter < m ∧ (∀ c ∈ hist.dropLast, ¬ LTStops c) ∧
      (warned = true ↔ ∀ c ∈ hist, ¬ LTStops c) ∧ (warned = true → nIter + 1 = m) := by
  rcases hr with rfl | rfl | rfl
  · exact ltRun_history eigh _ _ _ _ _ hm
  · exact ltRun_history eigh _ _ _ _ _ hm
  · exact ltRun_history eigh _ _ _ _ _ hm

/-- C101, the count: in every call with `max_iter ≥ 1` the returned number of iterations of the three latent
temporal solvers differs from the number of recorded iterations. -/
theorem C101_count_false {T : ℕ} (eigh : Eigh n) (o : LTOptions (T + 1) n) (beta eta : ℝ)
    (kpsi kphi : Option (Fin (T + 1) → Fin (T + 1) → ℝ)) (K0 : Batch (T + 1) n) (rho : ℝ) {m : ℕ} (hm : 1 ≤ m)
    (r : LTReturn (T + 1) n)
    (hr : r = latentTimeGraphicalLasso eigh o beta eta K0 rho m true true ∨
      r = kernelLatentTimeGraphicalLasso eigh o kpsi kphi K0 rho m true true ∨
      r = latentTimeMatrixDecomposition eigh o beta eta rho m true true) : ¬ CountsIterations r := by
  obtain ⟨K, L, hist, nIter, w, rfl, h, -⟩ := C101_history_partial eigh o beta eta kpsi kphi K0 rho hm r hr
  simp only [CountsIterations]
  omega

/-- The stopping rule of the kernel solver. -/
def KTStops (a : KTArgs k E n) (c : TGLCheck) : Prop :=
  NearTarget a.stopAt a.stopWhen c.obj ∨ (c.rnorm ≤ c.ePri ∧ c.snorm ≤ c.eDual)

theorem ktBody_stop_iff (eigh : Eigh n) (g : TimePairs k E) (a : KTArgs k E n) (it : ℕ) (s : KTState k E n) :
    (ktBody eigh g a it s).2.2 = true ↔ KTStops a (ktBody eigh g a it s).2.1 := by
  unfold ktBody KTStops
  simp only [Bool.or_eq_true, decide_eq_true_eq, stopAtTest_iff]

/-- C101 for the kernel solver without latent variables, where the count is right: the history has one entry per
iteration plus the start. -/
theorem C101_kernel (eigh : Eigh n) (a : KTArgs k Empty n) (kernel : Option (Fin k → Fin k → ℝ))
    (K0 : Batch k n) (rho : ℝ) {m : ℕ} (hm : 1 ≤ m) :
    ∃ (Z : Batch k n) (first : TGLCheck) (hist : List TGLCheck) (nIter : ℕ) (warned : Bool),
      kernelTimeGraphicalLasso eigh a kernel K0 rho m true true =
        .ok Z (some (first :: hist)) (some nIter) warned ∧
      hist.length = nIter ∧ 1 ≤ nIter ∧ nIter ≤ m ∧
      (∀ c ∈ hist.dropLast, ¬ KTStops a c) ∧ (warned = true ↔ ∀ c ∈ hist, ¬ KTStops a c) ∧
      (warned = true → nIter = m) := by
  obtain ⟨j, h1, h2, h3, h4, h5, h6, h7⟩ :=
    runLoop_outcome (ktBody eigh (allPairs k) (ktArgsOf a kernel)) (KTStops (ktArgsOf a kernel))
      (ktBody_stop_iff eigh _ _) hm (ktInit (allPairs k) K0 rho)
  refine ⟨(runLoop (ktBody eigh (allPairs k) (ktArgsOf a kernel)) m (ktInit (allPairs k) K0 rho)).state.Z0,
    { obj := (ktObjectiveCode (ktArgsOf a kernel) K0 K0 (ktInit (allPairs k) K0 rho).ZL
        (ktInit (allPairs k) K0 rho).ZR) },
    (runLoop (ktBody eigh (allPairs k) (ktArgsOf a kernel)) m (ktInit (allPairs k) K0 rho)).checks, j + 1,
    !(runLoop (ktBody eigh (allPairs k) (ktArgsOf a kernel)) m (ktInit (allPairs k) K0 rho)).broke,
    ?_, h4.symm, by omega, by omega, h5, h6, fun hw => by rw [h4]; exact h7 hw⟩
  unfold kernelTimeGraphicalLasso
  simp only [if_true, h1]

/-- Non-vacuity for C101: a check that meets the stopping rule and one that does not. -/
example : LTStops { rnorm := 0, snorm := 0, ePri := 1, eDual := 1 } ∧
    ¬ LTStops { rnorm := 2, snorm := 0, ePri := 1, eDual := 1 } := by
  constructor
  · exact ⟨zero_le_one, zero_le_one⟩
  · rintro ⟨h, -⟩; norm_num at h

end Verif.Props
