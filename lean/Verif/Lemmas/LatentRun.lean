import Verif.Lemmas.LatentAdmm

/-! The passes of the latent variable temporal solvers in the form used by `LPass`. -/

namespace Verif.Lemmas

open Verif.Model Verif.Spec Matrix Filter Topology

set_option autoImplicit false
set_option linter.unusedSectionVars false

variable {n : Type*} [Fintype n] [DecidableEq n] {k : ℕ} {E : Type*} [Fintype E]

/-- The endpoint of a copy: the first time of a pair, then the second. -/
def pairEp (g : TimePairs k E) : E ⊕ E → Fin k := Sum.elim g.src g.dst

/-- `∑_e w_e psi(second copy - first copy)`. -/
def pairPen (w : E → ℝ) (psi : Matrix n n ℝ → ℝ) (Y : E ⊕ E → Matrix n n ℝ) : ℝ :=
  ∑ e, w e * psi (Y (Sum.inr e) - Y (Sum.inl e))

/-- The problem of a latent solver. -/
noncomputable def ltProb (g : TimePairs k E) (a : LTArgs k E n) (DR : Set (Batch k n)) (grad : Batch k n → Batch k n)
    (psi phi : Matrix n n ℝ → ℝ) : LProb (Fin k) (E ⊕ E) n where
  ep := pairEp g
  DR := DR
  grad := grad
  g := fun Z => a.alpha * ∑ t, absSumMat (Z t)
  h := fun W => a.tau * ∑ t, trace (W t)
  DW := {W | ∀ t, (W t).PosSemidef}
  psi := pairPen a.wPsi psi
  phi := pairPen a.wPhi phi

/-- The state of a latent solver. -/
def ltLSt (s : LTState k E n) : LSt (Fin k) (E ⊕ E) n where
  R := s.Rold
  Z := s.Z0
  W := s.W0
  X := s.X0
  ZP := Sum.elim s.ZL s.ZR
  WP := Sum.elim s.WL s.WR
  XP := Sum.elim s.XL s.XR
  UP := Sum.elim s.UL s.UR

/-- The pair update gives a subgradient. -/
theorem pair_update_sub {psi : Matrix n n ℝ → ℝ} {prox : Matrix n n ℝ → ℝ → Matrix n n ℝ} (hconv : ConvexPen psi)
    (hprox : IsProxOf psi prox) {w rho : ℝ} (hw : 0 ≤ w) (hr : 0 < rho) (AL AR YL YR : Matrix n n ℝ) :
    w * psi (tglZ2 prox w rho AL AR - tglZ1 prox w rho AL AR)
      + rho * (frobInner (AL - tglZ1 prox w rho AL AR) (YL - tglZ1 prox w rho AL AR)
      + frobInner (AR - tglZ2 prox w rho AL AR) (YR - tglZ2 prox w rho AL AR)) ≤ w * psi (YR - YL) := by
  set ZL := tglZ1 prox w rho AL AR with hZL'
  set ZR := tglZ2 prox w rho AL AR with hZR'
  set d := prox (AR - AL) (2 * w / rho) with hd
  have hZL : ZL = (1 / 2 : ℝ) • (AL + AR - d) := rfl
  have hZR : ZR = (1 / 2 : ℝ) • (AL + AR + d) := rfl
  have hdz : ZR - ZL = d := by rw [hZL, hZR]; module
  have hUR : AR - ZR = (1 / 2 : ℝ) • (AR - AL - d) := by rw [hZR]; module
  have hUL : AL - ZL = -((1 / 2 : ℝ) • (AR - AL - d)) := by rw [hZL]; module
  have hp : prox (d + (2 : ℝ) • ((1 / 2 : ℝ) • (AR - AL - d))) (2 * w / rho) = d := by
    have : d + (2 : ℝ) • ((1 / 2 : ℝ) • (AR - AL - d)) = AR - AL := by module
    rw [this]
  have h1 := pair_subgrad hconv hprox hw hr hp (YR - YL)
  rw [hUL, hUR, hdz, frobInner_neg_left, ← sub_eq_neg_add, ← frobInner_sub_right]
  have e2 : YR - ZR - (YL - ZL) = YR - YL - d := by rw [← hdz]; abel
  rw [e2, ← frobInner_smul_left]
  exact h1

theorem famIn_sum (A B : E ⊕ E → Matrix n n ℝ) :
    famIn A B = ∑ e, frobInner (A (Sum.inl e)) (B (Sum.inl e)) + ∑ e, frobInner (A (Sum.inr e)) (B (Sum.inr e)) :=
  Fintype.sum_sum_type _

/-- One pass of a latent solver is an `LPass`. -/
theorem ltNext_pass {eigh : Eigh n} (he : IsEighOracle eigh) {rUpd : ℝ → Batch k n → Batch k n}
    {g : TimePairs k E} {a : LTArgs k E n} (hcov : Covers g a.divisor n) (hdiv : ∀ t, 0 < a.divisor t)
    (hal : 0 ≤ a.alpha) (hw : ∀ e, 0 ≤ a.wPsi e) (hv : ∀ e, 0 ≤ a.wPhi e)
    {psi phi : Matrix n n ℝ → ℝ} (cpsi : ConvexPen psi) (cphi : ConvexPen phi)
    (ppsi : IsProxOf psi a.proxPsi) (pphi : IsProxOf phi a.proxPhi)
    {DR : Set (Batch k n)} {grad : Batch k n → Batch k n} {s : LTState k E n} (hr : 0 < s.rho)
    (hmem : rUpd s.rho (fun t => s.Z0 t - s.W0 t - s.X0 t) ∈ DR)
    (hR : ∀ Y ∈ DR, famIn (grad (rUpd s.rho fun t => s.Z0 t - s.W0 t - s.X0 t) +
      s.rho • ((rUpd s.rho fun t => s.Z0 t - s.W0 t - s.X0 t) - fun t => s.Z0 t - s.W0 t - s.X0 t))
      (Y - rUpd s.rho fun t => s.Z0 t - s.W0 t - s.X0 t) = 0) :
    LPass (ltProb g a DR grad psi phi) s.rho (ltLSt s) (ltLSt (ltNext eigh rUpd g a s)) := by
  set R : Batch k n := rUpd s.rho fun t => s.Z0 t - s.W0 t - s.X0 t with hRd
  set Z0 : Batch k n := ltZ0 g a s R with hZ0
  set W0 : Batch k n := ltW0 eigh g a s R Z0 with hW0
  have hWpsd : ∀ t, (W0 t).PosSemidef := fun t => recompose_posSemidef _ fun _ => le_max_right _ _
  have dR : (ltNext eigh rUpd g a s).Rold = R := rfl
  have dZ : (ltNext eigh rUpd g a s).Z0 = Z0 := rfl
  have dW : (ltNext eigh rUpd g a s).W0 = W0 := rfl
  have dX : (ltNext eigh rUpd g a s).X0 = s.X0 + (R - Z0 + W0) := rfl
  set s' := ltNext eigh rUpd g a s with hs'
  have dXL : ∀ e, s'.XL e = s.XL e + (Z0 (g.src e) - s'.ZL e) := fun e => rfl
  have dXR : ∀ e, s'.XR e = s.XR e + (Z0 (g.dst e) - s'.ZR e) := fun e => rfl
  have dUL : ∀ e, s'.UL e = s.UL e + (W0 (g.src e) - s'.WL e) := fun e => rfl
  have dUR : ∀ e, s'.UR e = s.UR e + (W0 (g.dst e) - s'.WR e) := fun e => rfl
  have dZL : ∀ e, s'.ZL e = tglZ1 a.proxPsi (a.wPsi e) s.rho (Z0 (g.src e) + s.XL e) (Z0 (g.dst e) + s.XR e) :=
    fun e => rfl
  have dZR : ∀ e, s'.ZR e = tglZ2 a.proxPsi (a.wPsi e) s.rho (Z0 (g.src e) + s.XL e) (Z0 (g.dst e) + s.XR e) :=
    fun e => rfl
  have dWL : ∀ e, s'.WL e = tglZ1 a.proxPhi (a.wPhi e) s.rho (W0 (g.src e) + s.UL e) (W0 (g.dst e) + s.UR e) :=
    fun e => rfl
  have dWR : ∀ e, s'.WR e = tglZ2 a.proxPhi (a.wPhi e) s.rho (W0 (g.src e) + s.UL e) (W0 (g.dst e) + s.UR e) :=
    fun e => rfl
  clear_value s'
  refine ⟨?_, fun Y hY => ?_, fun Y => ?_, fun Y => ?_, ?_, fun Y hY => ?_, fun Y => ?_, ?_, ?_, ?_⟩
  · change s'.Rold ∈ DR
    rw [dR]; exact hmem
  · change famIn (grad s'.Rold + s.rho • (s'.X0 + (s'.Z0 - s.Z0) - (s'.W0 - s.W0))) (Y - s'.Rold) = 0
    rw [dR, dZ, dW, dX]
    have e : s.X0 + (R - Z0 + W0) + (Z0 - s.Z0) - (W0 - s.W0) = R - fun t => s.Z0 t - s.W0 t - s.X0 t := by
      funext t
      simp only [Pi.add_apply, Pi.sub_apply]
      abel
    rw [e]
    exact hR Y hY
  · change a.alpha * ∑ t, absSumMat (s'.Z0 t) + s.rho * (famIn (s'.X0 - (s'.W0 - s.W0)) (Y - s'.Z0)
      - famIn (Sum.elim s'.XL s'.XR + (Sum.elim s'.ZL s'.ZR - Sum.elim s.ZL s.ZR)) (pull (pairEp g) (Y - s'.Z0)))
      ≤ a.alpha * ∑ t, absSumMat (Y t)
    rw [dZ, dW, dX, famIn_sum]
    have hpt : ∀ t, a.alpha * absSumMat (Z0 t) + s.rho * (frobInner (s.X0 t + R t - Z0 t + s.W0 t) (Y t - Z0 t)
        + frobInner (scatter g.src (fun e => s.ZL e - s.XL e - Z0 (g.src e)) t) (Y t - Z0 t)
        + frobInner (scatter g.dst (fun e => s.ZR e - s.XR e - Z0 (g.dst e)) t) (Y t - Z0 t)) ≤
        a.alpha * absSumMat (Y t) := by
      intro t
      have hd := hdiv t
      have h4 := softMat_subgrad (lam := a.alpha / (s.rho * a.divisor t)) (by positivity)
        ((a.divisor t)⁻¹ • (R t + s.W0 t + s.X0 t
          + scatter g.src (fun e => s.ZL e - s.XL e) t + scatter g.dst (fun e => s.ZR e - s.XR e) t)) (Y t)
      have h5 : softThresholdingMat ((a.divisor t)⁻¹ • (R t + s.W0 t + s.X0 t
          + scatter g.src (fun e => s.ZL e - s.XL e) t + scatter g.dst (fun e => s.ZR e - s.XR e) t))
          (a.alpha / (s.rho * a.divisor t)) = Z0 t := rfl
      rw [h5] at h4
      have hcv := hcov Z0 t
      have e3 : Z0 t = (a.divisor t)⁻¹ • (a.divisor t • Z0 t) := by
        rw [smul_smul, inv_mul_cancel₀ hd.ne', one_smul]
      have e4 : (a.divisor t)⁻¹ • (R t + s.W0 t + s.X0 t
          + scatter g.src (fun e => s.ZL e - s.XL e) t + scatter g.dst (fun e => s.ZR e - s.XR e) t) - Z0 t =
          (a.divisor t)⁻¹ • ((s.X0 t + R t - Z0 t + s.W0 t)
          + scatter g.src (fun e => s.ZL e - s.XL e - Z0 (g.src e)) t
          + scatter g.dst (fun e => s.ZR e - s.XR e - Z0 (g.dst e)) t) := by
        conv_lhs => rw [e3, ← hcv, ← smul_sub]
        rw [scatter_sub g.src (fun e => s.ZL e - s.XL e), scatter_sub g.dst (fun e => s.ZR e - s.XR e)]
        congr 1
        unfold scatter
        abel
      rw [e4, frobInner_smul_left] at h4
      have h6 := mul_le_mul_of_nonneg_left h4 (mul_pos hr hd).le
      have e : ∀ c : ℝ, s.rho * a.divisor t * (a.alpha / (s.rho * a.divisor t) * c) = a.alpha * c := by
        intro c; field_simp
      have e' : ∀ c : ℝ, s.rho * a.divisor t * ((a.divisor t)⁻¹ * c) = s.rho * c := by
        intro c; field_simp
      rw [mul_add, e, e, e', frobInner_add_left, frobInner_add_left] at h6
      exact h6
    have hsum := Finset.sum_le_sum fun t (_ : t ∈ Finset.univ) => hpt t
    simp only [Finset.sum_add_distrib, ← Finset.mul_sum] at hsum
    rw [sum_scatter g.src _ (fun t => Y t - Z0 t), sum_scatter g.dst _ (fun t => Y t - Z0 t)] at hsum
    have f1 : famIn (s.X0 + (R - Z0 + W0) - (W0 - s.W0)) (Y - Z0) =
        ∑ t, frobInner (s.X0 t + R t - Z0 t + s.W0 t) (Y t - Z0 t) := by
      refine Finset.sum_congr rfl fun t _ => ?_
      congr 1
      simp only [Pi.add_apply, Pi.sub_apply]
      abel
    have f2 : (∑ e, frobInner ((Sum.elim s'.XL s'.XR + (Sum.elim s'.ZL s'.ZR - Sum.elim s.ZL s.ZR)) (Sum.inl e))
        (pull (pairEp g) (Y - Z0) (Sum.inl e))) =
        -∑ e, frobInner (s.ZL e - s.XL e - Z0 (g.src e)) (Y (g.src e) - Z0 (g.src e)) := by
      rw [← Finset.sum_neg_distrib]
      refine Finset.sum_congr rfl fun e _ => ?_
      rw [← frobInner_neg_left]
      simp only [Pi.add_apply, Pi.sub_apply, Sum.elim_inl, dXL, pull, pairEp]
      congr 1
      abel
    have f3 : (∑ e, frobInner ((Sum.elim s'.XL s'.XR + (Sum.elim s'.ZL s'.ZR - Sum.elim s.ZL s.ZR)) (Sum.inr e))
        (pull (pairEp g) (Y - Z0) (Sum.inr e))) =
        -∑ e, frobInner (s.ZR e - s.XR e - Z0 (g.dst e)) (Y (g.dst e) - Z0 (g.dst e)) := by
      rw [← Finset.sum_neg_distrib]
      refine Finset.sum_congr rfl fun e _ => ?_
      rw [← frobInner_neg_left]
      simp only [Pi.add_apply, Pi.sub_apply, Sum.elim_inr, dXR, pull, pairEp]
      congr 1
      abel
    rw [f1, f2, f3]
    linarith
  · change pairPen a.wPsi psi (Sum.elim s'.ZL s'.ZR) + s.rho * famIn (Sum.elim s'.XL s'.XR)
      (Y - Sum.elim s'.ZL s'.ZR) ≤ pairPen a.wPsi psi Y
    rw [famIn_sum]
    unfold pairPen
    have hpt := fun e => pair_update_sub cpsi ppsi (hw e) hr (Z0 (g.src e) + s.XL e) (Z0 (g.dst e) + s.XR e)
      (Y (Sum.inl e)) (Y (Sum.inr e))
    have hsum := Finset.sum_le_sum fun e (_ : e ∈ Finset.univ) => hpt e
    simp only [Finset.sum_add_distrib, ← Finset.mul_sum, ← dZL, ← dZR] at hsum
    have f2 : (∑ e, frobInner (Sum.elim s'.XL s'.XR (Sum.inl e)) ((Y - Sum.elim s'.ZL s'.ZR) (Sum.inl e))) =
        ∑ e, frobInner (Z0 (g.src e) + s.XL e - s'.ZL e) (Y (Sum.inl e) - s'.ZL e) := by
      refine Finset.sum_congr rfl fun e _ => ?_
      simp only [Pi.sub_apply, Sum.elim_inl, dXL]
      congr 1
      abel
    have f3 : (∑ e, frobInner (Sum.elim s'.XL s'.XR (Sum.inr e)) ((Y - Sum.elim s'.ZL s'.ZR) (Sum.inr e))) =
        ∑ e, frobInner (Z0 (g.dst e) + s.XR e - s'.ZR e) (Y (Sum.inr e) - s'.ZR e) := by
      refine Finset.sum_congr rfl fun e _ => ?_
      simp only [Pi.sub_apply, Sum.elim_inr, dXR]
      congr 1
      abel
    rw [f2, f3]
    exact hsum
  · change ∀ t, (s'.W0 t).PosSemidef
    rw [dW]; exact hWpsd
  · change a.tau * ∑ t, trace (s'.W0 t) - s.rho * (famIn s'.X0 (Y - s'.W0)
      + famIn (Sum.elim s'.UL s'.UR + (Sum.elim s'.WL s'.WR - Sum.elim s.WL s.WR)) (pull (pairEp g) (Y - s'.W0)))
      ≤ a.tau * ∑ t, trace (Y t)
    have hYp : ∀ t, (Y t).PosSemidef := hY
    rw [dW, dX, famIn_sum]
    have hpt : ∀ t, a.tau * trace (W0 t) + s.rho * (frobInner (-(s.X0 t + (R t - Z0 t + W0 t))) (Y t - W0 t)
        + frobInner (scatter g.src (fun e => s.WL e - s.UL e - W0 (g.src e)) t) (Y t - W0 t)
        + frobInner (scatter g.dst (fun e => s.WR e - s.UR e - W0 (g.dst e)) t) (Y t - W0 t)) ≤
        a.tau * trace (Y t) := by
      intro t
      have hd := hdiv t
      have hsY : (Y t - W0 t).IsSymm := by rw [IsSymm, transpose_sub, (hYp t).isSymm'.eq, (hWpsd t).isSymm'.eq]
      have h4 := proxTrace_vi (he _ (symmetrize_isSymm ((a.divisor t)⁻¹ • (Z0 t - R t - s.X0 t
        + scatter g.src (fun e => s.WL e - s.UL e) t + scatter g.dst (fun e => s.WR e - s.UR e) t))))
        (a.tau / (s.rho * a.divisor t)) (hYp t)
      have h5 : proxTraceIndicator (eigh (symmetrize ((a.divisor t)⁻¹ • (Z0 t - R t - s.X0 t
        + scatter g.src (fun e => s.WL e - s.UL e) t + scatter g.dst (fun e => s.WR e - s.UR e) t)))).1
        (eigh (symmetrize ((a.divisor t)⁻¹ • (Z0 t - R t - s.X0 t
        + scatter g.src (fun e => s.WL e - s.UL e) t + scatter g.dst (fun e => s.WR e - s.UR e) t)))).2
        (a.tau / (s.rho * a.divisor t)) = W0 t := rfl
      rw [h5, frobInner_sub_left, frobInner_symmetrize hsY, ← frobInner_sub_left] at h4
      have hcv := hcov W0 t
      have e3 : W0 t = (a.divisor t)⁻¹ • (a.divisor t • W0 t) := by
        rw [smul_smul, inv_mul_cancel₀ hd.ne', one_smul]
      have e4 : (a.divisor t)⁻¹ • (Z0 t - R t - s.X0 t
          + scatter g.src (fun e => s.WL e - s.UL e) t + scatter g.dst (fun e => s.WR e - s.UR e) t) - W0 t =
          (a.divisor t)⁻¹ • ((-(s.X0 t + (R t - Z0 t + W0 t)))
          + scatter g.src (fun e => s.WL e - s.UL e - W0 (g.src e)) t
          + scatter g.dst (fun e => s.WR e - s.UR e - W0 (g.dst e)) t) := by
        conv_lhs => rw [e3, ← hcv, ← smul_sub]
        rw [scatter_sub g.src (fun e => s.WL e - s.UL e), scatter_sub g.dst (fun e => s.WR e - s.UR e)]
        congr 1
        unfold scatter
        abel
      rw [e4, frobInner_smul_left] at h4
      have h6 := mul_le_mul_of_nonneg_left h4 (mul_pos hr hd).le
      have e : ∀ c : ℝ, s.rho * a.divisor t * (a.tau / (s.rho * a.divisor t) * c) = a.tau * c := by
        intro c; field_simp
      have e' : ∀ c : ℝ, s.rho * a.divisor t * ((a.divisor t)⁻¹ * c) = s.rho * c := by
        intro c; field_simp
      rw [mul_add, e, e, e', frobInner_add_left, frobInner_add_left] at h6
      exact h6
    have hsum := Finset.sum_le_sum fun t (_ : t ∈ Finset.univ) => hpt t
    simp only [Finset.sum_add_distrib, ← Finset.mul_sum] at hsum
    rw [sum_scatter g.src _ (fun t => Y t - W0 t), sum_scatter g.dst _ (fun t => Y t - W0 t)] at hsum
    have f1 : famIn (s.X0 + (R - Z0 + W0)) (Y - W0) =
        -∑ t, frobInner (-(s.X0 t + (R t - Z0 t + W0 t))) (Y t - W0 t) := by
      rw [← Finset.sum_neg_distrib]
      refine Finset.sum_congr rfl fun t _ => ?_
      rw [frobInner_neg_left, neg_neg]
      rfl
    have f2 : (∑ e, frobInner ((Sum.elim s'.UL s'.UR + (Sum.elim s'.WL s'.WR - Sum.elim s.WL s.WR)) (Sum.inl e))
        (pull (pairEp g) (Y - W0) (Sum.inl e))) =
        -∑ e, frobInner (s.WL e - s.UL e - W0 (g.src e)) (Y (g.src e) - W0 (g.src e)) := by
      rw [← Finset.sum_neg_distrib]
      refine Finset.sum_congr rfl fun e _ => ?_
      rw [← frobInner_neg_left]
      simp only [Pi.add_apply, Pi.sub_apply, Sum.elim_inl, dUL, pull, pairEp]
      congr 1
      abel
    have f3 : (∑ e, frobInner ((Sum.elim s'.UL s'.UR + (Sum.elim s'.WL s'.WR - Sum.elim s.WL s.WR)) (Sum.inr e))
        (pull (pairEp g) (Y - W0) (Sum.inr e))) =
        -∑ e, frobInner (s.WR e - s.UR e - W0 (g.dst e)) (Y (g.dst e) - W0 (g.dst e)) := by
      rw [← Finset.sum_neg_distrib]
      refine Finset.sum_congr rfl fun e _ => ?_
      rw [← frobInner_neg_left]
      simp only [Pi.add_apply, Pi.sub_apply, Sum.elim_inr, dUR, pull, pairEp]
      congr 1
      abel
    rw [f1, f2, f3]
    linarith
  · change pairPen a.wPhi phi (Sum.elim s'.WL s'.WR) + s.rho * famIn (Sum.elim s'.UL s'.UR)
      (Y - Sum.elim s'.WL s'.WR) ≤ pairPen a.wPhi phi Y
    rw [famIn_sum]
    unfold pairPen
    have hpt := fun e => pair_update_sub cphi pphi (hv e) hr (W0 (g.src e) + s.UL e) (W0 (g.dst e) + s.UR e)
      (Y (Sum.inl e)) (Y (Sum.inr e))
    have hsum := Finset.sum_le_sum fun e (_ : e ∈ Finset.univ) => hpt e
    simp only [Finset.sum_add_distrib, ← Finset.mul_sum, ← dWL, ← dWR] at hsum
    have f2 : (∑ e, frobInner (Sum.elim s'.UL s'.UR (Sum.inl e)) ((Y - Sum.elim s'.WL s'.WR) (Sum.inl e))) =
        ∑ e, frobInner (W0 (g.src e) + s.UL e - s'.WL e) (Y (Sum.inl e) - s'.WL e) := by
      refine Finset.sum_congr rfl fun e _ => ?_
      simp only [Pi.sub_apply, Sum.elim_inl, dUL]
      congr 1
      abel
    have f3 : (∑ e, frobInner (Sum.elim s'.UL s'.UR (Sum.inr e)) ((Y - Sum.elim s'.WL s'.WR) (Sum.inr e))) =
        ∑ e, frobInner (W0 (g.dst e) + s.UR e - s'.WR e) (Y (Sum.inr e) - s'.WR e) := by
      refine Finset.sum_congr rfl fun e _ => ?_
      simp only [Pi.sub_apply, Sum.elim_inr, dUR]
      congr 1
      abel
    rw [f2, f3]
    exact hsum
  · change s'.X0 = s.X0 + (s'.Rold - s'.Z0 + s'.W0)
    rw [dX, dR, dZ, dW]
  · change Sum.elim s'.XL s'.XR = Sum.elim s.XL s.XR + (pull (pairEp g) s'.Z0 - Sum.elim s'.ZL s'.ZR)
    rw [dZ]
    funext i
    rcases i with e | e
    · exact dXL e
    · exact dXR e
  · change Sum.elim s'.UL s'.UR = Sum.elim s.UL s.UR + (pull (pairEp g) s'.W0 - Sum.elim s'.WL s'.WR)
    rw [dW]
    funext i
    rcases i with e | e
    · exact dUL e
    · exact dUR e

end Verif.Lemmas
