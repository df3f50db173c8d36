import Verif.Lemmas.LatentLocal
import Verif.Props.LatentStatic
import Verif.Props.ObjectiveLimit

/-! Property theorems C132, C158, C161 for small penalties: convergence without an assumption on the iterates. -/

namespace Verif.Props

open Verif.Model Verif.Spec Verif.Lemmas Matrix Filter Topology

set_option autoImplicit false
set_option linter.unusedSectionVars false

variable {n : Type*} [Fintype n] [DecidableEq n] {k : ℕ} {E : Type*} [Fintype E]

/-- The first `R` times `rho` is small when `rho` is. -/
theorem logdetStep_small {eigh : Eigh n} (he : IsEighOracle eigh) {S : Matrix n n ℝ} (hS : S.PosSemidef)
    {N rho : ℝ} (hN : 0 < N) (hr : 0 < rho) (A : Matrix n n ℝ) {ε : ℝ} (hε : 0 < ε)
    (h : rho * (N * Fintype.card n / ε + froNorm (symmetrize A)) ≤ ε) :
    let M := (-rho / N) • symmetrize A + S
    rho * froNorm (proxLogdet (eigh M).1 (eigh M).2 (N / rho)) ≤ ε := by
  intro M
  obtain ⟨hpd, heq⟩ := logdetStep_spec he hS.isSymm' hN hr A
  set K := proxLogdet (eigh M).1 (eigh M).2 (N / rho) with hK
  have h1 := congrArg (fun X => frobInner X K) heq
  simp only [frobInner_add_left, frobInner_sub_left, frobInner_smul_left, frobInner_zero_left'] at h1
  have e1 : frobInner K⁻¹ K = Fintype.card n := by
    rw [frobInner_eq_trace_of_symm hpd.inv.isSymm',
      Matrix.nonsing_inv_mul _ (isUnit_iff_ne_zero.mpr hpd.det_pos.ne'), trace_one]
  have e2 : 0 ≤ frobInner S K := by
    rw [frobInner_eq_trace_of_symm hS.isSymm']
    exact trace_mul_nonneg' hS hpd
  rw [e1, frobInner_self, ← froNorm_sq] at h1
  have h2 := (abs_le.mp (abs_frobInner_le (symmetrize A) K)).2
  set x := froNorm K with hx
  set d : ℝ := (Fintype.card n : ℝ) with hd
  have hx0 : 0 ≤ x := froNorm_nonneg K
  by_contra hcon
  push Not at hcon
  have h3 : rho * x ^ 2 ≤ N * d + rho * (froNorm (symmetrize A) * x) := by
    have h4 := mul_le_mul_of_nonneg_left h2 hr.le
    have h5 := mul_nonneg hN.le e2
    nlinarith
  have h4 : (rho * x) * (rho * x) ≤ rho * (N * d / ε + froNorm (symmetrize A)) * (rho * x) := by
    have h5 := mul_le_mul_of_nonneg_left h3 hr.le
    have h6 : rho * (N * d) ≤ rho * (N * d / ε) * (rho * x) := by
      have h7 : 0 ≤ rho * (N * d / ε) := by positivity
      have h8 := mul_le_mul_of_nonneg_left hcon.le h7
      have e8 : rho * (N * d / ε) * ε = rho * (N * d) := by field_simp
      rw [e8] at h8
      exact h8
    nlinarith
  have h5 := le_of_mul_le_mul_right h4 (hε.trans hcon)
  linarith

theorem proxTrace_neg_zero {eigh : Eigh n} (he : IsEighOracle eigh) {R : Matrix n n ℝ} (hR : R.PosDef) {c t : ℝ}
    (hc : 0 ≤ c) (ht : 0 ≤ t) :
    proxTraceIndicator (eigh (symmetrize (c • -R))).1 (eigh (symmetrize (c • -R))).2 t = 0 := by
  set L := proxTraceIndicator (eigh (symmetrize (c • -R))).1 (eigh (symmetrize (c • -R))).2 t with hLd
  have hL : L.PosSemidef := recompose_posSemidef _ fun _ => le_max_right _ _
  have h := proxTrace_vi (he _ (symmetrize_isSymm (c • -R))) t (PosSemidef.zero (n := n) (R := ℝ))
  rw [← hLd, zero_sub, frobInner_neg_right, frobInner_sub_left, frobInner_symmetrize hL.isSymm', trace_zero,
    mul_zero, frobInner_smul_left, frobInner_neg_left, frobInner_self] at h
  have h1 : 0 ≤ frobInner R L := by
    rw [frobInner_comm, frobInner_eq_trace_of_symm hL.isSymm']
    exact trace_mul_nonneg' hL hR
  have h2 := mul_nonneg ht hL.trace_nonneg
  have h3 := mul_nonneg hc h1
  exact (frobSq_eq_zero_iff _).mp (le_antisymm (by linarith) (frobSq_nonneg _))

theorem prox_zero_of_min {psi : Matrix n n ℝ → ℝ} {prox : Matrix n n ℝ → ℝ → Matrix n n ℝ} (hp : IsProxOf psi prox)
    (h0 : ∀ X, psi 0 ≤ psi X) {lam : ℝ} (hl : 0 ≤ lam) : prox 0 lam = 0 := by
  by_contra hne
  have h1 := (hp 0 lam hl).2 0 (Set.mem_univ _) (Ne.symm hne)
  unfold proxObjMat at h1
  have h2 := mul_le_mul_of_nonneg_left (h0 (prox 0 lam)) hl
  have h3 := frobSq_nonneg (prox 0 lam - 0)
  have h4 : frobSq ((0 : Matrix n n ℝ) - 0) = 0 := by rw [sub_zero]; exact (frobSq_eq_zero_iff _).mpr rfl
  rw [h4] at h1
  linarith

theorem abs_entry_le_froNorm' (A : Matrix n n ℝ) (i j : n) : |A i j| ≤ froNorm A := by
  rw [froNorm_eq_sqrt]
  refine Real.abs_le_sqrt ?_
  unfold frobSq
  exact (Finset.single_le_sum (f := fun j => A i j ^ 2) (fun j _ => sq_nonneg _) (Finset.mem_univ j)).trans
    (Finset.single_le_sum (f := fun i => ∑ j, A i j ^ 2) (fun i _ => Finset.sum_nonneg fun j _ => sq_nonneg _)
      (Finset.mem_univ i))

theorem soft_zero_of_small {A : Matrix n n ℝ} {c : ℝ} (h : froNorm A ≤ c) : softThresholdingMat A c = 0 := by
  ext i j
  change softScalar (A i j) c = 0
  exact softScalar_of_abs_le ((abs_entry_le_froNorm' A i j).trans h)

theorem froNorm_smul' {c : ℝ} (hc : 0 ≤ c) (A : Matrix n n ℝ) : froNorm (c • A) = c * froNorm A := by
  rw [froNorm_eq_sqrt, froNorm_eq_sqrt]
  have e : frobSq (c • A) = c ^ 2 * frobSq A := by
    unfold frobSq
    rw [Finset.mul_sum]
    refine Finset.sum_congr rfl fun i _ => ?_
    rw [Finset.mul_sum]
    refine Finset.sum_congr rfl fun j _ => ?_
    rw [Matrix.smul_apply, smul_eq_mul]; ring
  rw [e, Real.sqrt_mul (sq_nonneg c), Real.sqrt_sq hc]

/-- The contribution of the copies of the starting point to the first `Z_0`-update. -/
noncomputable def startCopies (g : TimePairs k E) (K0 : Batch k n) (t : Fin k) : Matrix n n ℝ :=
  scatter g.src (fun e => K0 (g.src e)) t + scatter g.dst (fun e => K0 (g.dst e)) t

/-- The first pass for small `rho`: everything but `R` and its dual is zero. -/
theorem ltFirst {eigh : Eigh n} (he : IsEighOracle eigh) {g : TimePairs k E} {a : LTArgs k E n}
    (hS : ∀ t, (a.empCov t).PosSemidef) (hn : ∀ t, 0 < a.nSamples t) (hdiv : ∀ t, 0 < a.divisor t)
    (hta : 0 ≤ a.tau) (hw : ∀ e, 0 ≤ a.wPsi e) (hv : ∀ e, 0 ≤ a.wPhi e)
    {psi phi : Matrix n n ℝ → ℝ} (ppsi : IsProxOf psi a.proxPsi) (pphi : IsProxOf phi a.proxPhi)
    (npsi : ∀ X, psi 0 ≤ psi X) (nphi : ∀ X, phi 0 ≤ phi X) (K0 : Batch k n) {rho ε : ℝ} (hr : 0 < rho) (hε : 0 < ε)
    (hεa : ε ≤ a.alpha / 2)
    (h1 : ∀ t, rho * (a.nSamples t * Fintype.card n / ε + froNorm (symmetrize (K0 t))) ≤ ε)
    (h2 : ∀ t, rho * froNorm (startCopies g K0 t) ≤ a.alpha / 2) :
    let s := ltLSt (ltIter eigh (ltLogdetR eigh a) g a K0 rho 1)
    s.Z = 0 ∧ s.W = 0 ∧ s.X = s.R ∧ s.ZP = 0 ∧ s.WP = 0 ∧ s.XP = 0 ∧ s.UP = 0 ∧ ∀ t, rho * froNorm (s.R t) ≤ ε := by
  intro s
  rw [show s = ltLSt (ltIter eigh (ltLogdetR eigh a) g a K0 rho 1) from rfl]
  clear s
  set R : Batch k n := ltLogdetR eigh a rho fun t => K0 t - 0 - 0 with hR
  have hA : ∀ t, K0 t - 0 - 0 = K0 t := fun t => by rw [sub_zero, sub_zero]
  have hRs : ∀ t, rho * froNorm (R t) ≤ ε := fun t => by
    have := logdetStep_small he (hS t) (hn t) hr (K0 t - 0 - 0) hε (by rw [hA]; exact h1 t)
    exact this
  have hRpd : ∀ t, (R t).PosDef := fun t => (logdetStep_spec he (hS t).isSymm' (hn t) hr (K0 t - 0 - 0)).1
  have hZ : ltZ0 g a (ltInit g K0 rho) R = 0 := by
    funext t
    unfold ltZ0
    refine soft_zero_of_small ?_
    have e1 : R t + (ltInit g K0 rho).W0 t + (ltInit g K0 rho).X0 t
        + scatter g.src (fun e => (ltInit g K0 rho).ZL e - (ltInit g K0 rho).XL e) t
        + scatter g.dst (fun e => (ltInit g K0 rho).ZR e - (ltInit g K0 rho).XR e) t = R t + startCopies g K0 t := by
      unfold startCopies ltInit
      simp only [Pi.zero_apply, sub_zero, add_zero]
      abel
    rw [e1, froNorm_smul' (inv_nonneg.mpr (hdiv t).le)]
    have h3 := froNorm_triangle (R t) (startCopies g K0 t)
    have h4 : froNorm (R t + startCopies g K0 t) ≤ a.alpha / rho := by
      rw [le_div_iff₀ hr]
      have h5 := mul_le_mul_of_nonneg_left h3 hr.le
      have := hRs t
      have := h2 t
      linarith
    change (a.divisor t)⁻¹ * _ ≤ a.alpha / (rho * a.divisor t)
    have h5 := mul_le_mul_of_nonneg_left h4 (inv_nonneg.mpr (hdiv t).le)
    have e5 : (a.divisor t)⁻¹ * (a.alpha / rho) = a.alpha / (rho * a.divisor t) := by
      rw [inv_mul_eq_div, div_div]
    rwa [e5] at h5
  have hscz : ∀ (f : E → Fin k) t, scatter f (fun _ => (0 : Matrix n n ℝ)) t = 0 := fun f t => by
    unfold scatter
    simp
  have hW : ltW0 eigh g a (ltInit g K0 rho) R 0 = 0 := by
    funext t
    unfold ltW0
    have e1 : (0 : Batch k n) t - R t - (ltInit g K0 rho).X0 t
        + scatter g.src (fun e => (ltInit g K0 rho).WL e - (ltInit g K0 rho).UL e) t
        + scatter g.dst (fun e => (ltInit g K0 rho).WR e - (ltInit g K0 rho).UR e) t = -R t := by
      unfold ltInit
      simp only [Pi.zero_apply, sub_zero, hscz, add_zero, zero_sub]
    rw [e1]
    exact proxTrace_neg_zero he (hRpd t) (inv_nonneg.mpr (hdiv t).le)
      (div_nonneg hta (mul_pos hr (hdiv t)).le)
  have hz1 : ∀ {pen : Matrix n n ℝ → ℝ} {prox : Matrix n n ℝ → ℝ → Matrix n n ℝ}, IsProxOf pen prox →
      (∀ X, pen 0 ≤ pen X) → ∀ w, 0 ≤ w → tglZ1 prox w rho (0 + 0) (0 + 0) = 0 ∧ tglZ2 prox w rho (0 + 0) (0 + 0) = 0 := by
    intro pen prox hp h0 w hw0
    have e := prox_zero_of_min hp h0 (lam := 2 * w / rho) (by positivity)
    unfold tglZ1 tglZ2
    simp only [add_zero, sub_zero, e, smul_zero, and_self]
  have hRr : (ltIter eigh (ltLogdetR eigh a) g a K0 rho 1).Rold = R := rfl
  have hs : ltIter eigh (ltLogdetR eigh a) g a K0 rho 1 = ltNext eigh (ltLogdetR eigh a) g a (ltInit g K0 rho) := rfl
  have rZ : (ltIter eigh (ltLogdetR eigh a) g a K0 rho 1).Z0 = 0 := hZ
  have rW : (ltIter eigh (ltLogdetR eigh a) g a K0 rho 1).W0 = 0 := by
    rw [← hW, ← hZ]; rfl
  set s1 := ltIter eigh (ltLogdetR eigh a) g a K0 rho 1 with hs1
  have dX : ∀ t, s1.X0 t = 0 + (R t - s1.Z0 t + s1.W0 t) := fun t => rfl
  have dZL : ∀ e, s1.ZL e = tglZ1 a.proxPsi (a.wPsi e) rho (s1.Z0 (g.src e) + 0) (s1.Z0 (g.dst e) + 0) := fun e => rfl
  have dZR : ∀ e, s1.ZR e = tglZ2 a.proxPsi (a.wPsi e) rho (s1.Z0 (g.src e) + 0) (s1.Z0 (g.dst e) + 0) := fun e => rfl
  have dWL : ∀ e, s1.WL e = tglZ1 a.proxPhi (a.wPhi e) rho (s1.W0 (g.src e) + 0) (s1.W0 (g.dst e) + 0) := fun e => rfl
  have dWR : ∀ e, s1.WR e = tglZ2 a.proxPhi (a.wPhi e) rho (s1.W0 (g.src e) + 0) (s1.W0 (g.dst e) + 0) := fun e => rfl
  have dXL : ∀ e, s1.XL e = 0 + (s1.Z0 (g.src e) - s1.ZL e) := fun e => rfl
  have dXR : ∀ e, s1.XR e = 0 + (s1.Z0 (g.dst e) - s1.ZR e) := fun e => rfl
  have dUL : ∀ e, s1.UL e = 0 + (s1.W0 (g.src e) - s1.WL e) := fun e => rfl
  have dUR : ∀ e, s1.UR e = 0 + (s1.W0 (g.dst e) - s1.WR e) := fun e => rfl
  clear_value s1
  have zZL : ∀ e, s1.ZL e = 0 := fun e => by rw [dZL, rZ]; exact (hz1 ppsi npsi _ (hw e)).1
  have zZR : ∀ e, s1.ZR e = 0 := fun e => by rw [dZR, rZ]; exact (hz1 ppsi npsi _ (hw e)).2
  have zWL : ∀ e, s1.WL e = 0 := fun e => by rw [dWL, rW]; exact (hz1 pphi nphi _ (hv e)).1
  have zWR : ∀ e, s1.WR e = 0 := fun e => by rw [dWR, rW]; exact (hz1 pphi nphi _ (hv e)).2
  refine ⟨rZ, rW, ?_, ?_, ?_, ?_, ?_, fun t => ?_⟩
  · change s1.X0 = s1.Rold
    funext t
    rw [dX, rZ, rW, hRr]
    simp
  · funext i
    cases i with
    | inl e => exact zZL e
    | inr e => exact zZR e
  · funext i
    cases i with
    | inl e => exact zWL e
    | inr e => exact zWR e
  · funext i
    cases i with
    | inl e => change s1.XL e = 0; rw [dXL, rZ, zZL]; simp
    | inr e => change s1.XR e = 0; rw [dXR, rZ, zZR]; simp
  · funext i
    cases i with
    | inl e => change s1.UL e = 0; rw [dUL, rW, zWL]; simp
    | inr e => change s1.UR e = 0; rw [dUR, rW, zWR]; simp
  · change rho * froNorm (s1.Rold t) ≤ ε
    rw [hRr]
    exact hRs t

/-- What the energy after such a first pass consists of. -/
theorem energy_first {I : Type*} [Fintype I] {st s0 s1 : LSt (Fin k) I n} {rho : ℝ} (hr : 0 < rho)
    (z : s1.Z = 0) (w : s1.W = 0) (x : s1.X = s1.R) (zp : s1.ZP = 0) (wp : s1.WP = 0) (xp : s1.XP = 0) (up : s1.UP = 0)
    (w0 : s0.W = 0) (wp0 : s0.WP = 0) (xp0 : s0.XP = 0) (up0 : s0.UP = 0) :
    rho ^ 2 * lEnergy (scaleSt rho st) s0 s1 = famSq (rho • s1.R - st.X) + famSq st.XP + famSq st.UP
      + rho ^ 2 * (famSq (st.Z - st.W) + famSq st.W + famSq st.ZP + famSq st.WP + famSq s0.ZP) := by
  have h0 : famSq (0 : Fin k → Matrix n n ℝ) = 0 := by
    have := famSq_smul 0 (0 : Fin k → Matrix n n ℝ)
    rw [zero_smul] at this
    rw [this]; ring
  have h0' : famSq (0 : I → Matrix n n ℝ) = 0 := by
    have := famSq_smul 0 (0 : I → Matrix n n ℝ)
    rw [zero_smul] at this
    rw [this]; ring
  have e1 : rho ^ 2 * famSq (s1.R - rho⁻¹ • st.X) = famSq (rho • s1.R - st.X) := by
    rw [← famSq_smul, smul_sub, smul_smul, mul_inv_cancel₀ hr.ne', one_smul]
  have e2 : ∀ A : I → Matrix n n ℝ, rho ^ 2 * famSq (0 - rho⁻¹ • A) = famSq A := fun A => by
    rw [← famSq_smul, smul_sub, smul_smul, mul_inv_cancel₀ hr.ne', one_smul, smul_zero, zero_sub, famSq_neg]
  have e3 : (0 : Fin k → Matrix n n ℝ) - st.Z - (0 - st.W) = -(st.Z - st.W) := by abel
  unfold lEnergy scaleSt
  simp only [z, w, x, zp, wp, xp, up, w0, wp0, xp0, up0, sub_self, h0, h0', mul_add, mul_zero, add_zero]
  rw [e1, e2, e2, e3, famSq_neg]
  simp only [zero_sub, famSq_neg]
  ring

theorem famSq_small {R X : Batch k n} {rho ε : ℝ} (hr : 0 < rho) (hε : 0 < ε) (h1 : ε ≤ 1)
    (h : ∀ t, rho * froNorm (R t) ≤ ε) :
    famSq (rho • R - X) ≤ famSq X + ε * (k + 2 * ∑ t, froNorm (X t)) := by
  rw [famSq_sub, famSq_smul, famIn_smul_left]
  have a1 : rho ^ 2 * famSq R ≤ ε * k := by
    unfold famSq
    rw [Finset.mul_sum]
    have : ∀ t ∈ Finset.univ, rho ^ 2 * frobSq (R t) ≤ ε := fun t _ => by
      rw [← froNorm_sq, ← mul_pow]
      have h0 : 0 ≤ rho * froNorm (R t) := mul_nonneg hr.le (froNorm_nonneg _)
      have := h t
      nlinarith
    have h2 := Finset.sum_le_sum this
    rw [Finset.sum_const, Finset.card_univ, Fintype.card_fin, nsmul_eq_mul] at h2
    linarith
  have a2 : -(rho * famIn R X) ≤ ε * ∑ t, froNorm (X t) := by
    unfold famIn
    rw [Finset.mul_sum, Finset.mul_sum, ← Finset.sum_neg_distrib]
    refine Finset.sum_le_sum fun t _ => ?_
    have h2 := (abs_le.mp (abs_frobInner_le (R t) (X t))).1
    have h3 := mul_le_mul_of_nonneg_left h2 hr.le
    have h4 := mul_le_mul_of_nonneg_right (h t) (froNorm_nonneg (X t))
    linarith
  linarith

theorem eventually_mul_lt (C : ℝ) {c : ℝ} (hc : 0 < c) : ∀ᶠ rho in 𝓝[>] (0 : ℝ), rho * C < c := by
  have h : Tendsto (fun rho : ℝ => rho * C) (𝓝 0) (𝓝 (0 * C)) := tendsto_id.mul_const C
  rw [zero_mul] at h
  exact (h.eventually_lt_const hc).filter_mono nhdsWithin_le_nhds

/-- For small `rho` the passes stay bounded, if the multipliers of a stationary state are small compared with the
inverse of its first block. -/
theorem ltLogdet_bounded_small_rho [Nonempty n] {eigh : Eigh n} (he : IsEighOracle eigh) {g : TimePairs k E}
    (a : LTArgs k E n) (hS : ∀ t, (a.empCov t).PosSemidef) {m : ℝ} (hm : 0 < m) (hn : ∀ t, m ≤ a.nSamples t)
    (hcov : Covers g a.divisor n) (hdiv : ∀ t, 0 < a.divisor t)
    (hal : 0 < a.alpha) (hta : 0 ≤ a.tau) (hw : ∀ e, 0 ≤ a.wPsi e) (hv : ∀ e, 0 ≤ a.wPhi e)
    {psi phi : Matrix n n ℝ → ℝ} (cpsi : ConvexPen psi) (cphi : ConvexPen phi)
    (ppsi : IsProxOf psi a.proxPsi) (pphi : IsProxOf phi a.proxPhi) (npsi : ∀ X, psi 0 ≤ psi X)
    (nphi : ∀ X, phi 0 ≤ phi X) (K0 : Batch k n) {b : ℝ} (hb : 0 < b) {st : LSt (Fin k) (E ⊕ E) n}
    (hst : LPass (ldProb (pairEp g) a.empCov a.nSamples a.alpha a.tau (pairPen a.wPsi psi) (pairPen a.wPhi phi)) 1 st st)
    (hstpd : ∀ t, (st.R t).PosDef) (hstb : ∀ t, (b • 1 - st.R t).PosSemidef)
    (hP : (famSq st.X + famSq st.XP + famSq st.UP) * b ^ 2 < 2 * m ^ 2) :
    ∀ᶠ rho in 𝓝[>] (0 : ℝ), ∃ c, 0 < c ∧ rho * (c * b) < 2 * m ∧
      ∀ᶠ j in atTop, ∀ t, (c • 1 - (ltIter eigh (ltLogdetR eigh a) g a K0 rho j).Rold t).PosSemidef := by
  have hn0 : ∀ t, 0 < a.nSamples t := fun t => hm.trans_le (hn t)
  set P := famSq st.X + famSq st.XP + famSq st.UP with hPd
  set D : ℝ := k + 2 * ∑ t, froNorm (st.X t) with hD
  have hD0 : 0 ≤ D := by
    have : 0 ≤ ∑ t, froNorm (st.X t) := Finset.sum_nonneg fun t _ => froNorm_nonneg _
    positivity
  set s0 : LSt (Fin k) (E ⊕ E) n := ltLSt (ltInit g K0 1) with hs0
  set C := famSq (st.Z - st.W) + famSq st.W + famSq st.ZP + famSq st.WP + famSq s0.ZP with hC
  have hC0 : 0 ≤ C := by
    have a1 := famSq_nonneg (st.Z - st.W)
    have a2 := famSq_nonneg st.W
    have a3 := famSq_nonneg st.ZP
    have a4 := famSq_nonneg st.WP
    have a5 := famSq_nonneg s0.ZP
    linarith
  set G := 2 * m ^ 2 / b ^ 2 - P with hG
  have hG0 : 0 < G := by
    rw [hG, sub_pos, lt_div_iff₀ (by positivity)]
    exact hP
  set ε := min (min 1 (a.alpha / 2)) (G / (2 * (D + 1))) with hε
  have hε0 : 0 < ε := by
    rw [hε]
    refine lt_min (lt_min one_pos (by positivity)) (by positivity)
  have hε1 : ε ≤ 1 := (min_le_left _ _).trans (min_le_left _ _)
  have hε2 : ε ≤ a.alpha / 2 := (min_le_left _ _).trans (min_le_right _ _)
  have hε3 : ε * D ≤ G / 2 := by
    have h1 : ε ≤ G / (2 * (D + 1)) := min_le_right _ _
    rw [le_div_iff₀ (by positivity)] at h1
    nlinarith
  have f1 : ∀ᶠ rho in 𝓝[>] (0 : ℝ), ∀ t : Fin k,
      rho * (a.nSamples t * Fintype.card n / ε + froNorm (symmetrize (K0 t))) < ε :=
    eventually_all.mpr fun t => eventually_mul_lt _ hε0
  have f2 : ∀ᶠ rho in 𝓝[>] (0 : ℝ), ∀ t : Fin k, rho * froNorm (startCopies g K0 t) < a.alpha / 2 :=
    eventually_all.mpr fun t => eventually_mul_lt _ (by positivity)
  filter_upwards [f1, f2, eventually_mul_lt 1 one_pos, eventually_mul_lt (C + 2 * m) (half_pos hG0),
    eventually_mul_lt b (show 0 < 2 * m / b by positivity), self_mem_nhdsWithin] with rho q1 q2 q3 q4 q5 hr'
  have hr : 0 < rho := hr'
  obtain ⟨z, w, x, zp, wp, xp, up, hR⟩ := ltFirst he hS hn0 hdiv hta hw hv ppsi pphi npsi nphi K0 hr hε0 hε2
    (fun t => (q1 t).le) (fun t => (q2 t).le)
  have hpass := fun j => ltLogdet_pass he hS hn0 hcov hdiv hal.le hw hv cpsi cphi ppsi pphi K0 hr j
  set s : ℕ → LSt (Fin k) (E ⊕ E) n := fun j => ltLSt (ltIter eigh (ltLogdetR eigh a) g a K0 rho j) with hs
  have hsum0 : Sum.elim (0 : E → Matrix n n ℝ) (0 : E → Matrix n n ℝ) = 0 := by
    funext i
    cases i <;> rfl
  have hE := energy_first (st := st) (s0 := s 0) (s1 := s 1) hr z w x zp wp xp up rfl hsum0 hsum0 hsum0
  have hsm := famSq_small (X := st.X) hr hε0 hε1 hR
  have hZP : (s 0).ZP = s0.ZP := rfl
  rw [hZP] at hE
  set e := lEnergy (scaleSt rho st) (s 0) (s 1) with he'
  have hle : rho ^ 2 * e ≤ P + ε * D + rho * C := by
    rw [hE]
    have h1 : rho ^ 2 * C ≤ rho * C := by
      refine mul_le_mul_of_nonneg_right ?_ hC0
      nlinarith
    have h2 : famSq (rho • (s 1).R - st.X) ≤ famSq st.X + ε * D := hsm
    linarith
  have hkey : rho * ((b + Real.sqrt (2 * e)) * b) < 2 * m := by
    have h1 : rho * Real.sqrt (2 * e) < 2 * m / b - rho * b := by
      have e1 : rho * Real.sqrt (2 * e) = Real.sqrt (2 * (rho ^ 2 * e)) := by
        rw [show 2 * (rho ^ 2 * e) = rho ^ 2 * (2 * e) by ring, Real.sqrt_mul (sq_nonneg rho), Real.sqrt_sq hr.le]
      rw [e1, Real.sqrt_lt' (by linarith)]
      have e2 : (2 * m / b - rho * b) ^ 2 = 2 * (G + P) - 4 * m * rho + (rho * b) ^ 2 := by
        rw [hG]
        field_simp
        ring
      rw [e2]
      have := sq_nonneg (rho * b)
      nlinarith
    have h2 := mul_lt_mul_of_pos_right h1 hb
    have e3 : (2 * m / b - rho * b) * b = 2 * m - rho * b * b := by field_simp
    rw [e3] at h2
    nlinarith
  have hc : 0 < b + Real.sqrt (2 * e) := by
    have := Real.sqrt_nonneg (2 * e)
    linarith
  exact ⟨b + Real.sqrt (2 * e), hc, hkey, ld_eventually_bounded hm hn hr hb (hst.rescale hr) hstpd hstb
    (fun j => (hpass j).1) (fun j => (hpass j).2) (N := 0) le_rfl hkey⟩

theorem inv_bound_of_le {R : Matrix n n ℝ} (hR : R.PosDef) {σ : ℝ} (hσ : 0 < σ) (h : (R⁻¹ - σ • 1).PosSemidef) :
    (σ⁻¹ • 1 - R).PosSemidef := by
  obtain ⟨T, hT, hTT⟩ := exists_sqrt hR
  have hTu : IsUnit T.det := isUnit_iff_ne_zero.mpr hT.det_pos.ne'
  have h1 := h.mul_mul_conjTranspose_same T
  rw [conjTranspose_eq_transpose_of_trivial, hT.isSymm'.eq] at h1
  have e1 : T * (R⁻¹ - σ • 1) * T = 1 - σ • R := by
    rw [← hTT, Matrix.mul_inv_rev, Matrix.mul_sub, Matrix.sub_mul, ← Matrix.mul_assoc, Matrix.mul_nonsing_inv _ hTu,
      Matrix.one_mul, Matrix.nonsing_inv_mul _ hTu, Matrix.mul_smul, Matrix.mul_one, Matrix.smul_mul]
  rw [e1] at h1
  have h2 := h1.smul (inv_nonneg.mpr hσ.le)
  rw [smul_sub, smul_smul, inv_mul_cancel₀ hσ.ne', one_smul] at h2
  exact h2

theorem froNorm_symmetrize_le (A : Matrix n n ℝ) : froNorm (symmetrize A) ≤ froNorm A := by
  unfold symmetrize
  rw [froNorm_smul' (by norm_num)]
  have h := froNorm_triangle A Aᵀ
  have e : froNorm Aᵀ = froNorm A := by
    rw [froNorm_eq_sqrt, froNorm_eq_sqrt]
    congr 1
    unfold frobSq
    rw [Finset.sum_comm]
    rfl
  rw [e] at h
  linarith

/-- The condition on `R` at a stationary state. -/
theorem saddle_inv {I : Type*} [Fintype I] {ep : I → Fin k} {S : Batch k n} {nS : Fin k → ℝ} {alpha tau : ℝ}
    {psi phi : (I → Matrix n n ℝ) → ℝ} (hS : ∀ t, (S t).IsSymm) {st : LSt (Fin k) I n}
    (hst : LPass (ldProb ep S nS alpha tau psi phi) 1 st st) (hpd : ∀ t, (st.R t).PosDef) (t : Fin k) :
    nS t • (S t - (st.R t)⁻¹) + symmetrize (st.X t) = 0 := by
  set D := nS t • (S t - (st.R t)⁻¹) + symmetrize (st.X t) with hD
  have hGs : (nS t • (S t - (st.R t)⁻¹)).IsSymm := by
    rw [IsSymm, transpose_smul, transpose_sub, (hS t).eq, (hpd t).inv.isSymm'.eq]
  have hDs : D.IsSymm := by rw [IsSymm, hD, transpose_add, hGs.eq, (symmetrize_isSymm _).eq]
  have hr : ∀ Y : Batch k n, (∀ t, (Y t).IsSymm) → famIn (ldGrad S nS st.R + st.X) (Y - st.R) = 0 := by
    intro Y hY
    have h := hst.r Y hY
    simp only [sub_self, add_zero, sub_zero, one_smul] at h
    exact h
  have h1 := hr (st.R + Pi.single t D) fun t' => by
    rw [Pi.add_apply, IsSymm, transpose_add, (hpd t').isSymm'.eq]
    by_cases ht : t' = t
    · subst ht
      rw [Pi.single_eq_same, hDs.eq]
    · rw [Pi.single_eq_of_ne ht, transpose_zero]
  rw [add_sub_cancel_left, famIn_single, Pi.add_apply, frobInner_add_left,
    ← frobInner_symmetrize hDs (st.X t), ← frobInner_add_left] at h1
  have h2 : frobInner D D = 0 := h1
  rw [frobInner_self] at h2
  exact (frobSq_eq_zero_iff _).mp h2

/-- With penalties small compared with the smallest eigenvalue of the covariances, the passes stay bounded for every
small `rho`. -/
theorem ltLogdet_bounded_small [Nonempty n] (hk : 0 < k) {eigh : Eigh n} (he : IsEighOracle eigh) {g : TimePairs k E}
    (a : LTArgs k E n) {m : ℝ} (hm : 0 < m) (hn : ∀ t, m ≤ a.nSamples t)
    (hcov : Covers g a.divisor n) (hdiv : ∀ t, 0 < a.divisor t)
    (hal : 0 < a.alpha) (hta : 0 ≤ a.tau) (hw : ∀ e, 0 ≤ a.wPsi e) (hv : ∀ e, 0 ≤ a.wPhi e)
    {psi phi : Matrix n n ℝ → ℝ} (cpsi : ConvexPen psi) (cphi : ConvexPen phi)
    (ppsi : IsProxOf psi a.proxPsi) (pphi : IsProxOf phi a.proxPhi) (npsi : ∀ X, 0 ≤ psi X) (nphi : ∀ X, 0 ≤ phi X)
    (zpsi : psi 0 = 0) (zphi : phi 0 = 0) {kpsi kphi : ℝ} (kpsi0 : 0 ≤ kpsi) (kphi0 : 0 ≤ kphi)
    (lpsi : FroLip psi kpsi) (lphi : FroLip phi kphi) (K0 : Batch k n) {σ : ℝ} (hS0 : ∀ t, (a.empCov t).PosSemidef)
    (hS : ∀ t, (a.empCov t - σ • 1).PosSemidef)
    (hQ : 2 * Real.sqrt k * (Fintype.card n * a.alpha + 4 * (kpsi * ∑ e, a.wPsi e) + 2 * (kphi * ∑ e, a.wPhi e)) ≤ m * σ) :
    ∃ b, 0 < b ∧ (∀ p, IsMin (LatentSeqFeasible k n) (ldObj (pairEp g) a.empCov a.nSamples a.alpha a.tau
        (pairPen a.wPsi psi) (pairPen a.wPhi phi)) p → ∀ t, (b • 1 - (p.1 t - p.2 t)).PosSemidef) ∧
      ∀ᶠ rho in 𝓝[>] (0 : ℝ), ∃ c, 0 < c ∧ rho * (c * b) < 2 * m ∧
      ∀ᶠ j in atTop, ∀ t, (c • 1 - (ltIter eigh (ltLogdetR eigh a) g a K0 rho j).Rold t).PosSemidef := by
  have hn0 : ∀ t, 0 < a.nSamples t := fun t => hm.trans_le (hn t)
  have hcard : (0 : ℝ) < Fintype.card n := by exact_mod_cast Fintype.card_pos
  obtain ⟨st, hst, hpd, -⟩ := ld_saddle (ep := pairEp g) hS0 hn0 (latPens_pair hal hta hw hv cpsi cphi npsi nphi)
    (rho := 1) one_pos
  set Bw := kpsi * ∑ e, a.wPsi e with hBw
  set Bv := kphi * ∑ e, a.wPhi e with hBv
  have hBw0 : 0 ≤ Bw := mul_nonneg kpsi0 (Finset.sum_nonneg fun e _ => hw e)
  have hBv0 : 0 ≤ Bv := mul_nonneg kphi0 (Finset.sum_nonneg fun e _ => hv e)
  set Q := Fintype.card n * a.alpha + 4 * Bw + 2 * Bv with hQd
  have hQ0 : 0 < Q := by
    have : 0 < Fintype.card n * a.alpha := mul_pos hcard hal
    linarith
  have hXP := famSq_copies_le hw (pairPen_sub_bound hw kpsi0 lpsi (Z := st.ZP) (V := st.XP) fun Y => by
    have h := hst.zp Y
    rw [one_mul] at h
    exact h)
  have hUP := famSq_copies_le hv (pairPen_sub_bound hv kphi0 lphi (Z := st.WP) (V := st.UP) fun Y => by
    have h := hst.wp Y
    rw [one_mul] at h
    exact h)
  have hX := saddle_X_bound hal.le hst hXP.2
  have hXQ : ∀ t, froNorm (st.X t) ≤ Q := fun t => (hX t).trans (by linarith)
  have hk1 : (1 : ℝ) ≤ k := by exact_mod_cast hk
  have hsk : 1 ≤ Real.sqrt k := Real.one_le_sqrt.mpr hk1
  have hgap : Real.sqrt k * Q ≤ m * σ - Q := by nlinarith
  have hgap0 : 0 < m * σ - Q := lt_of_lt_of_le (by positivity) hgap
  set τ := σ - Q / m with hτ
  have hτm : m * τ = m * σ - Q := by rw [hτ]; field_simp
  have hτ0 : 0 < τ := by
    by_contra hc
    push Not at hc
    nlinarith
  have hstb : ∀ t, (τ⁻¹ • 1 - st.R t).PosSemidef := by
    intro t
    refine inv_bound_of_le (hpd t) hτ0 ?_
    have h1 := saddle_inv (fun t => (hS0 t).isSymm') hst hpd t
    have e1 : (st.R t)⁻¹ = a.empCov t + (a.nSamples t)⁻¹ • symmetrize (st.X t) := by
      have h2 := congrArg (fun M => (a.nSamples t)⁻¹ • M) h1
      simp only [smul_add, smul_smul, inv_mul_cancel₀ (hn0 t).ne', one_smul, smul_zero] at h2
      rw [eq_comm, ← sub_eq_zero, ← h2]
      abel
    set M := -((a.nSamples t)⁻¹ • symmetrize (st.X t)) with hM
    have hMs : M.IsSymm := by rw [IsSymm, hM, transpose_neg, transpose_smul, (symmetrize_isSymm _).eq]
    have hMn : froNorm M ≤ Q / m := by
      rw [hM, froNorm_neg', froNorm_smul' (inv_nonneg.mpr (hn0 t).le), inv_mul_eq_div]
      exact div_le_div₀ hQ0.le ((froNorm_symmetrize_le _).trans (hXQ t)) hm (hn t)
    have h3 := (hS t).add (froNorm_smul_sub_posSemidef hMs hMn)
    have e3 : a.empCov t - σ • 1 + ((Q / m) • (1 : Matrix n n ℝ) - M) = (st.R t)⁻¹ - τ • 1 := by
      rw [e1, hM, hτ, sub_smul]; abel
    rwa [e3] at h3
  refine ⟨τ⁻¹, inv_pos.mpr hτ0, fun p hp t => ?_, ltLogdet_bounded_small_rho he a hS0 hm hn hcov hdiv hal hta hw hv
    cpsi cphi ppsi pphi (fun X => by rw [zpsi]; exact npsi X) (fun X => by rw [zphi]; exact nphi X) K0
    (inv_pos.mpr hτ0) hst hpd hstb ?_⟩
  · rw [(ld_min_of_pass hS0 hn0 hst hpd).2 p hp t]
    have e : st.Z t - st.W t = st.R t := (congrFun hst.penalties.1 t).symm
    rw [e]
    exact hstb t
  · have p1 : famSq st.X ≤ k * (Fintype.card n * a.alpha + 2 * Bw) ^ 2 := by
      unfold famSq
      have : ∀ t ∈ Finset.univ, frobSq (st.X t) ≤ (Fintype.card n * a.alpha + 2 * Bw) ^ 2 := fun t _ => by
        rw [← froNorm_sq]
        exact pow_le_pow_left₀ (froNorm_nonneg _) (hX t) 2
      have h2 := Finset.sum_le_sum this
      rwa [Finset.sum_const, Finset.card_univ, Fintype.card_fin, nsmul_eq_mul] at h2
    have p2 : famSq st.X + famSq st.XP + famSq st.UP ≤ k * Q ^ 2 := by
      have h1 := hXP.1
      have h2 := hUP.1
      have h3 : 2 * Bw ^ 2 ≤ k * (2 * Bw ^ 2) := le_mul_of_one_le_left (by positivity) hk1
      have h4 : 2 * Bv ^ 2 ≤ k * (2 * Bv ^ 2) := le_mul_of_one_le_left (by positivity) hk1
      have h5 : (Fintype.card n * a.alpha + 2 * Bw) ^ 2 + 2 * Bw ^ 2 + 2 * Bv ^ 2 ≤ Q ^ 2 := by
        have : 0 < Fintype.card n * a.alpha := mul_pos hcard hal
        rw [hQd]
        nlinarith [mul_nonneg this.le hBw0, mul_nonneg this.le hBv0, mul_nonneg hBw0 hBv0]
      have h6 := mul_le_mul_of_nonneg_left h5 (zero_le_one.trans hk1)
      nlinarith
    have p3 : k * Q ^ 2 ≤ (m * τ) ^ 2 := by
      rw [hτm]
      have h1 : 0 ≤ Real.sqrt k * Q := by positivity
      have h2 := pow_le_pow_left₀ h1 hgap 2
      rwa [mul_pow, Real.sq_sqrt (zero_le_one.trans hk1)] at h2
    have p4 : (famSq st.X + famSq st.XP + famSq st.UP) ≤ (m * τ) ^ 2 := p2.trans p3
    rw [inv_pow, ← div_eq_mul_inv, div_lt_iff₀ (by positivity)]
    have : 0 < (m * τ) ^ 2 := by positivity
    rw [mul_pow] at p4 this
    linarith

theorem exists_of_small {P : ℝ → Prop} (h : ∀ᶠ rho in 𝓝[>] (0 : ℝ), P rho) :
    ∃ rho0, 0 < rho0 ∧ ∀ rho, 0 < rho → rho < rho0 → P rho := by
  obtain ⟨u, hu, hsub⟩ := mem_nhdsGT_iff_exists_Ioo_subset.mp h
  exact ⟨u, hu, fun rho h1 h2 => hsub ⟨h1, h2⟩⟩

/-- The bound behind `C158_chain_small_penalties`. -/
theorem chain_small [Nonempty n] {T : ℕ} {eigh : Eigh n} (he : IsEighOracle eigh)
    (o : LTOptions (T + 1) n) {beta eta : ℝ} (hS0 : ∀ t, (o.empCov t).PosSemidef) {m : ℝ} (hm : 0 < m)
    (hn : ∀ t, m ≤ o.nSamples t) (hal : 0 < o.alpha) (hta : 0 ≤ o.tau) (hbe : 0 ≤ beta) (het : 0 ≤ eta)
    {psi phi : Matrix n n ℝ → ℝ} (cpsi : ConvexPen psi) (cphi : ConvexPen phi)
    (ppsi : IsProxOf psi o.proxPsi) (pphi : IsProxOf phi o.proxPhi) (npsi : ∀ X, 0 ≤ psi X) (nphi : ∀ X, 0 ≤ phi X)
    (zpsi : psi 0 = 0) (zphi : phi 0 = 0) {kpsi kphi : ℝ} (kpsi0 : 0 ≤ kpsi) (kphi0 : 0 ≤ kphi)
    (lpsi : ∀ A B, psi (A + B) ≤ psi A + kpsi * froNorm B) (lphi : ∀ A B, phi (A + B) ≤ phi A + kphi * froNorm B)
    (K0 : Batch (T + 1) n)
    {σ : ℝ} (hS : ∀ t, (o.empCov t - σ • 1).PosSemidef)
    (hQ : 2 * Real.sqrt (T + 1 : ℕ) * (Fintype.card n * o.alpha + 4 * (kpsi * (T * beta)) + 2 * (kphi * (T * eta))) ≤
      m * σ) :
    ∃ rho0, 0 < rho0 ∧ ∀ rho, 0 < rho → rho < rho0 → ∃ c b, 0 < c ∧ 0 < b ∧ rho * (c * b) < 2 * m ∧
      (∀ p, IsMin (LatentSeqFeasible (T + 1) n)
        (latentTimeObjective o.empCov o.nSamples o.alpha o.tau beta eta absSumMat psi phi) p →
        ∀ t, (b • 1 - (p.1 t - p.2 t)).PosSemidef) ∧
      ∀ᶠ j in atTop, ∀ t, (c • 1 - (ltIter eigh (ltLogdetR eigh (chainArgs o beta eta)) (chainPairs T)
        (chainArgs o beta eta) K0 rho j).Rold t).PosSemidef := by
  obtain ⟨b, hb, hopt, hev⟩ := ltLogdet_bounded_small (Nat.succ_pos T) he (chainArgs o beta eta) hm hn covers_chain
    tglDivisor_pos hal hta (fun _ => hbe) (fun _ => het) cpsi cphi ppsi pphi npsi nphi zpsi zphi kpsi0 kphi0 lpsi lphi
    K0 hS0 hS (by
      simp only [chainArgs, Finset.sum_const, Finset.card_univ, Fintype.card_fin, nsmul_eq_mul]
      exact hQ)
  obtain ⟨rho0, h0, hsm⟩ := exists_of_small hev
  refine ⟨rho0, h0, fun rho hr hlt => ?_⟩
  obtain ⟨c, hc, hrc, hbd⟩ := hsm rho hr hlt
  refine ⟨c, b, hc, hb, hrc, fun p hp => hopt p ?_, hbd⟩
  have e : latentTimeObjective o.empCov o.nSamples o.alpha o.tau beta eta absSumMat psi phi =
      ldObj (pairEp (chainPairs T)) (chainArgs o beta eta).empCov (chainArgs o beta eta).nSamples
        (chainArgs o beta eta).alpha (chainArgs o beta eta).tau (pairPen (chainArgs o beta eta).wPsi psi)
        (pairPen (chainArgs o beta eta).wPhi phi) := by
    funext p
    rw [ldObj_pair]
    unfold latentTimeObjective chainCoupling
    simp only [chainPairs, chainArgs]
    rw [← Finset.mul_sum, ← Finset.mul_sum]
    ring
  rw [← e]
  exact hp

/-- C158: let `alpha > 0`, `tau, beta, eta ≥ 0`, the penalties convex, zero at zero, `≥ 0`, with Lipschitz constants
`kpsi`, `kphi` in the Frobenius norm and exact prox, the sample sizes at least `m` and the eigenvalues of the covariances
at least `σ`. If `2 √(number of times) (d alpha + 4 kpsi T beta + 2 kphi T eta) ≤ m σ`, then from every starting point
and for every constant `rho` small enough, `latent_time_graphical_lasso` solves its problem: nothing is assumed about
the iterates. -/
theorem C158_chain_small_penalties [Nonempty n] {T : ℕ} {eigh : Eigh n} (he : IsEighOracle eigh)
    (o : LTOptions (T + 1) n) {beta eta : ℝ} (hS0 : ∀ t, (o.empCov t).PosSemidef) {m : ℝ} (hm : 0 < m)
    (hn : ∀ t, m ≤ o.nSamples t) (hal : 0 < o.alpha) (hta : 0 ≤ o.tau) (hbe : 0 ≤ beta) (het : 0 ≤ eta)
    {psi phi : Matrix n n ℝ → ℝ} (cpsi : ConvexPen psi) (cphi : ConvexPen phi)
    (ppsi : IsProxOf psi o.proxPsi) (pphi : IsProxOf phi o.proxPhi) (npsi : ∀ X, 0 ≤ psi X) (nphi : ∀ X, 0 ≤ phi X)
    (zpsi : psi 0 = 0) (zphi : phi 0 = 0) {kpsi kphi : ℝ} (kpsi0 : 0 ≤ kpsi) (kphi0 : 0 ≤ kphi)
    (lpsi : ∀ A B, psi (A + B) ≤ psi A + kpsi * froNorm B) (lphi : ∀ A B, phi (A + B) ≤ phi A + kphi * froNorm B)
    (hi : o.rhoOptions.tauInc = 1) (hd : o.rhoOptions.tauDec = 1) (K0 : Batch (T + 1) n)
    {σ : ℝ} (hS : ∀ t, (o.empCov t - σ • 1).PosSemidef)
    (hQ : 2 * Real.sqrt (T + 1 : ℕ) * (Fintype.card n * o.alpha + 4 * (kpsi * (T * beta)) + 2 * (kphi * (T * eta))) ≤
      m * σ) :
    ∃ rho0, 0 < rho0 ∧ ∀ rho, 0 < rho → rho < rho0 → ∃ p, IsMin (LatentSeqFeasible (T + 1) n)
        (latentTimeObjective o.empCov o.nSamples o.alpha o.tau beta eta absSumMat psi phi) p ∧
      (0 < o.tol → 0 ≤ o.rtol → ∃ M, ∀ m, M ≤ m → ∀ rh rn, ∃ K L h it,
        latentTimeGraphicalLasso eigh o beta eta K0 rho m rh rn = .ok K L h it false) ∧
      (∀ ε, 0 < ε → ∃ M, ∀ tol rtol m rh K L h it w,
        latentTimeGraphicalLasso eigh { o with tol := tol, rtol := rtol } beta eta K0 rho m rh true =
          .ok K L h (some it) w → M ≤ it → CloseSeq ε K p.1 ∧ CloseSeq ε L p.2) ∧
      ∀ ε, 0 < ε → ∃ δ, 0 < δ ∧ ∃ M, ∀ tol rtol, 0 ≤ tol → tol ≤ δ → 0 ≤ rtol → rtol ≤ δ → ∀ m, M ≤ m → ∀ rn,
        ∃ K L hist it w,
          latentTimeGraphicalLasso eigh { o with tol := tol, rtol := rtol } beta eta K0 rho m true rn =
            .ok K L (some hist) it w ∧
          ((CloseSeq ε K p.1 ∧ CloseSeq ε L p.2) ∨ ∃ c ∈ hist, c.rnorm = 0 ∧ c.snorm = 0) := by
  obtain ⟨rho0, h0, hsm⟩ := chain_small he o hS0 hm hn hal hta hbe het cpsi cphi ppsi pphi npsi nphi zpsi zphi kpsi0 kphi0
    lpsi lphi K0 hS hQ
  refine ⟨rho0, h0, fun rho hr hlt => ?_⟩
  obtain ⟨c, b, hc, hb, hrc, hopt, hbd⟩ := hsm rho hr hlt
  exact C158_chain_partial he o hS0 hm hn hal hta hbe het cpsi cphi ppsi pphi npsi nphi hi hd K0 hr hc hb hrc hopt hbd

/-- The bound behind `C158_kernel_small_penalties`. -/
theorem kernel_small [Nonempty n] (hk : 0 < k) {eigh : Eigh n} (he : IsEighOracle eigh)
    (o : LTOptions k n) (Kpsi Kphi : Option (Fin k → Fin k → ℝ)) (hpsi : ∀ s t, s < t → 0 ≤ kernelOf Kpsi s t)
    (hphi : ∀ s t, s < t → 0 ≤ kernelOf Kphi s t)
    (hS0 : ∀ t, (o.empCov t).PosSemidef) {m : ℝ} (hm : 0 < m)
    (hn : ∀ t, m ≤ o.nSamples t) (hal : 0 < o.alpha) (hta : 0 ≤ o.tau)
    {psi phi : Matrix n n ℝ → ℝ} (cpsi : ConvexPen psi) (cphi : ConvexPen phi)
    (ppsi : IsProxOf psi o.proxPsi) (pphi : IsProxOf phi o.proxPhi) (npsi : ∀ X, 0 ≤ psi X) (nphi : ∀ X, 0 ≤ phi X)
    (zpsi : psi 0 = 0) (zphi : phi 0 = 0) {kpsi kphi : ℝ} (kpsi0 : 0 ≤ kpsi) (kphi0 : 0 ≤ kphi)
    (lpsi : ∀ A B, psi (A + B) ≤ psi A + kpsi * froNorm B) (lphi : ∀ A B, phi (A + B) ≤ phi A + kphi * froNorm B)
    (K0 : Batch k n)
    {σ : ℝ} (hS : ∀ t, (o.empCov t - σ • 1).PosSemidef)
    (hQ : 2 * Real.sqrt k * (Fintype.card n * o.alpha
      + 4 * (kpsi * ∑ s, ∑ t, if s < t then kernelOf Kpsi s t else 0)
      + 2 * (kphi * ∑ s, ∑ t, if s < t then kernelOf Kphi s t else 0)) ≤ m * σ) :
    ∃ rho0, 0 < rho0 ∧ ∀ rho, 0 < rho → rho < rho0 → ∃ c b, 0 < c ∧ 0 < b ∧ rho * (c * b) < 2 * m ∧
      (∀ p, IsMin (LatentSeqFeasible k n)
        (kernelLatentObjective o.empCov o.nSamples o.alpha o.tau (kernelOf Kpsi) (kernelOf Kphi) absSumMat psi phi) p →
        ∀ t, (b • 1 - (p.1 t - p.2 t)).PosSemidef) ∧
      ∀ᶠ j in atTop, ∀ t, (c • 1 - (ltIter eigh (ltLogdetR eigh (kernelArgs o Kpsi Kphi)) (allPairs k)
        (kernelArgs o Kpsi Kphi) K0 rho j).Rold t).PosSemidef := by
  obtain ⟨b, hb, hopt, hev⟩ := ltLogdet_bounded_small hk he (kernelArgs o Kpsi Kphi) hm hn covers_all (fun _ => by
      have : (0 : ℝ) < k := by exact_mod_cast hk
      exact this) hal hta
    (kernelWeight_nonneg hpsi) (kernelWeight_nonneg hphi) cpsi cphi ppsi pphi npsi nphi zpsi zphi kpsi0 kphi0 lpsi lphi
    K0 hS0 hS (by
      have e : ∀ kk : Option (Fin k → Fin k → ℝ), ∑ e, kernelWeight kk e =
          ∑ s, ∑ t, if s < t then kernelOf kk s t else 0 := by
        intro kk
        rw [← sum_pairIdx (k := k) fun s t => kernelOf kk s t]
        exact Finset.sum_congr rfl fun e _ => by cases kk <;> rfl
      change 2 * Real.sqrt k * (_ + 4 * (kpsi * ∑ e, kernelWeight Kpsi e) + 2 * (kphi * ∑ e, kernelWeight Kphi e)) ≤ _
      rw [e, e]
      exact hQ)
  obtain ⟨rho0, h0, hsm⟩ := exists_of_small hev
  refine ⟨rho0, h0, fun rho hr hlt => ?_⟩
  obtain ⟨c, hc, hrc, hbd⟩ := hsm rho hr hlt
  refine ⟨c, b, hc, hb, hrc, fun p hp => hopt p ?_, hbd⟩
  have e := kernelObj_eq o.empCov o.nSamples o.alpha o.tau Kpsi Kphi psi phi
  exact e ▸ hp

/-- C158: the same for `kernel_latent_time_graphical_lasso`, the sums of the kernels over the pairs in place of
`T beta` and `T eta`. -/
theorem C158_kernel_small_penalties [Nonempty n] (hk : 0 < k) {eigh : Eigh n} (he : IsEighOracle eigh)
    (o : LTOptions k n) (Kpsi Kphi : Option (Fin k → Fin k → ℝ)) (hpsi : ∀ s t, s < t → 0 ≤ kernelOf Kpsi s t)
    (hphi : ∀ s t, s < t → 0 ≤ kernelOf Kphi s t)
    (hS0 : ∀ t, (o.empCov t).PosSemidef) {m : ℝ} (hm : 0 < m)
    (hn : ∀ t, m ≤ o.nSamples t) (hal : 0 < o.alpha) (hta : 0 ≤ o.tau)
    {psi phi : Matrix n n ℝ → ℝ} (cpsi : ConvexPen psi) (cphi : ConvexPen phi)
    (ppsi : IsProxOf psi o.proxPsi) (pphi : IsProxOf phi o.proxPhi) (npsi : ∀ X, 0 ≤ psi X) (nphi : ∀ X, 0 ≤ phi X)
    (zpsi : psi 0 = 0) (zphi : phi 0 = 0) {kpsi kphi : ℝ} (kpsi0 : 0 ≤ kpsi) (kphi0 : 0 ≤ kphi)
    (lpsi : ∀ A B, psi (A + B) ≤ psi A + kpsi * froNorm B) (lphi : ∀ A B, phi (A + B) ≤ phi A + kphi * froNorm B)
    (hi : o.rhoOptions.tauInc = 1) (hd : o.rhoOptions.tauDec = 1) (K0 : Batch k n)
    {σ : ℝ} (hS : ∀ t, (o.empCov t - σ • 1).PosSemidef)
    (hQ : 2 * Real.sqrt k * (Fintype.card n * o.alpha
      + 4 * (kpsi * ∑ s, ∑ t, if s < t then kernelOf Kpsi s t else 0)
      + 2 * (kphi * ∑ s, ∑ t, if s < t then kernelOf Kphi s t else 0)) ≤ m * σ) :
    ∃ rho0, 0 < rho0 ∧ ∀ rho, 0 < rho → rho < rho0 → ∃ p, IsMin (LatentSeqFeasible k n)
        (kernelLatentObjective o.empCov o.nSamples o.alpha o.tau (kernelOf Kpsi) (kernelOf Kphi) absSumMat psi phi) p ∧
      (0 < o.tol → 0 ≤ o.rtol → ∃ M, ∀ m, M ≤ m → ∀ rh rn, ∃ K L h it,
        kernelLatentTimeGraphicalLasso eigh o Kpsi Kphi K0 rho m rh rn = .ok K L h it false) ∧
      (∀ ε, 0 < ε → ∃ M, ∀ tol rtol m rh K L h it w,
        kernelLatentTimeGraphicalLasso eigh { o with tol := tol, rtol := rtol } Kpsi Kphi K0 rho m rh true =
          .ok K L h (some it) w → M ≤ it → CloseSeq ε K p.1 ∧ CloseSeq ε L p.2) ∧
      ∀ ε, 0 < ε → ∃ δ, 0 < δ ∧ ∃ M, ∀ tol rtol, 0 ≤ tol → tol ≤ δ → 0 ≤ rtol → rtol ≤ δ → ∀ m, M ≤ m → ∀ rn,
        ∃ K L hist it w,
          kernelLatentTimeGraphicalLasso eigh { o with tol := tol, rtol := rtol } Kpsi Kphi K0 rho m true rn =
            .ok K L (some hist) it w ∧
          ((CloseSeq ε K p.1 ∧ CloseSeq ε L p.2) ∨ ∃ c ∈ hist, c.rnorm = 0 ∧ c.snorm = 0) := by
  obtain ⟨rho0, h0, hsm⟩ := kernel_small hk he o Kpsi Kphi hpsi hphi hS0 hm hn hal hta cpsi cphi ppsi pphi npsi nphi zpsi
    zphi kpsi0 kphi0 lpsi lphi K0 hS hQ
  refine ⟨rho0, h0, fun rho hr hlt => ?_⟩
  obtain ⟨c, b, hc, hb, hrc, hopt, hbd⟩ := hsm rho hr hlt
  exact C158_kernel_partial hk he o Kpsi Kphi hpsi hphi hS0 hm hn hal hta cpsi cphi ppsi pphi npsi nphi hi hd K0 hr hc
    hb hrc hopt hbd

/-- The bound behind `C161_small_penalties`. -/
theorem lgl_small [Nonempty n] {eigh : Eigh n} (he : IsEighOracle eigh) (a : LGLArgs n)
    (hS0 : a.empCov.PosSemidef) (hal : 0 < a.alpha) (hta : 0 ≤ a.tau)
    (hi : a.rhoOptions.tauInc = 1) (hd : a.rhoOptions.tauDec = 1) (K0 : Matrix n n ℝ)
    {σ : ℝ} (hS : (a.empCov - σ • 1).PosSemidef) (hσ : 2 * (Fintype.card n * a.alpha) ≤ σ) :
    ∃ rho0, 0 < rho0 ∧ ∀ rho, 0 < rho → rho < rho0 → ∃ c b, 0 < c ∧ 0 < b ∧ rho * (c * b) < 2 ∧
      (∀ p, IsMin (LatentFeasible n) (latentObjective a.empCov a.alpha a.tau absSumMat) p →
        (b • 1 - (p.1 - p.2)).PosSemidef) ∧
      ∀ᶠ j in atTop, (c • 1 - (lglState eigh a K0 rho j).Rold).PosSemidef := by
  have hcov : Covers onePairs (oneArgs a).divisor n := by
    intro X t
    rw [Finset.univ_eq_empty]
    simp [oneArgs]
  obtain ⟨b, hb, hopt, hev⟩ := ltLogdet_bounded_small (k := 1) one_pos he (g := onePairs) (oneArgs a) (m := 1) one_pos
    (fun _ => le_rfl) hcov (fun _ => one_pos) hal hta (fun e => e.elim) (fun e => e.elim) absSumMat_convexPen
    absSumMat_convexPen soft_isProxOf soft_isProxOf absSumMat_nonneg' absSumMat_nonneg' (by simp [absSumMat]) (by simp [absSumMat])
    (Nat.cast_nonneg _) (Nat.cast_nonneg _) absSumMat_froLip absSumMat_froLip (fun _ => K0) (fun _ => hS0) (fun _ => hS) (by
      rw [Finset.univ_eq_empty, Finset.sum_empty, Finset.sum_empty, Nat.cast_one, Real.sqrt_one]
      change 2 * 1 * ((Fintype.card n : ℝ) * a.alpha + _ + _) ≤ 1 * σ
      linarith)
  obtain ⟨rho0, h0, hsm⟩ := exists_of_small hev
  refine ⟨rho0, h0, fun rho hr hlt => ?_⟩
  obtain ⟨c, hc, hrc, hbd⟩ := hsm rho hr hlt
  have hst := fun j => lglState_one he (oneArgs_ok a) onePairs hS0.isSymm' hi hd K0 hr j
  refine ⟨c, b, hc, hb, by linarith, fun p hp => ?_, hbd.mono fun j h => ?_⟩
  · exact hopt (fun _ => p.1, fun _ => p.2) ((oneMin a _).mpr hp) 0
  · have h0 := h 0
    rw [hst] at h0
    exact h0

/-- C161: let `alpha > 0`, `tau ≥ 0` and the eigenvalues of `S` be at least `σ ≥ 2 d alpha`. Then from every starting
point and for every constant `rho` small enough `latent_graphical_lasso` solves its problem: there is a minimiser `p`
such that for positive `tol` every call with `max_iter` large enough ends without the warning; every call that ran long
enough returns a pair as close to `p` as desired, whatever the tolerances; and for tolerances small enough a call runs
that long, unless it recorded a pass with both residuals exactly zero. Nothing is assumed about the iterates. -/
theorem C161_small_penalties [Nonempty n] {eigh : Eigh n} (he : IsEighOracle eigh) (a : LGLArgs n)
    (hS0 : a.empCov.PosSemidef) (hal : 0 < a.alpha) (hta : 0 ≤ a.tau)
    (hi : a.rhoOptions.tauInc = 1) (hd : a.rhoOptions.tauDec = 1) (K0 : Matrix n n ℝ)
    {σ : ℝ} (hS : (a.empCov - σ • 1).PosSemidef) (hσ : 2 * (Fintype.card n * a.alpha) ≤ σ) :
    ∃ rho0, 0 < rho0 ∧ ∀ rho, 0 < rho → rho < rho0 →
    ∃ p, IsMin (LatentFeasible n) (latentObjective a.empCov a.alpha a.tau absSumMat) p ∧
      (0 < a.tol → 0 ≤ a.rtol → ∃ M, ∀ m, M ≤ m → ∀ rh rn, ∃ K L h it,
        latentGraphicalLasso eigh a K0 rho m rh rn = .ok K L h it false) ∧
      (∀ ε, 0 < ε → ∃ M, ∀ tol rtol m rh K L h it w,
        latentGraphicalLasso eigh { a with tol := tol, rtol := rtol } K0 rho m rh true = .ok K L h (some it) w →
          M ≤ it → (∀ i j, |K i j - p.1 i j| ≤ ε) ∧ ∀ i j, |L i j - p.2 i j| ≤ ε) ∧
      ∀ ε, 0 < ε → ∃ δ, 0 < δ ∧ ∃ M, ∀ tol rtol, 0 ≤ tol → tol ≤ δ → 0 ≤ rtol → rtol ≤ δ → ∀ m, M ≤ m → ∀ rn,
        ∃ K L hist it w,
          latentGraphicalLasso eigh { a with tol := tol, rtol := rtol } K0 rho m true rn = .ok K L (some hist) it w ∧
          (((∀ i j, |K i j - p.1 i j| ≤ ε) ∧ ∀ i j, |L i j - p.2 i j| ≤ ε) ∨
            ∃ c ∈ hist, c.rnorm = 0 ∧ c.snorm = 0) := by
  obtain ⟨rho0, h0, hsm⟩ := lgl_small he a hS0 hal hta hi hd K0 hS hσ
  refine ⟨rho0, h0, fun rho hr hlt => ?_⟩
  obtain ⟨c, b, hc, hb, hrc, hopt, hbd⟩ := hsm rho hr hlt
  exact C161_converges_partial he a hS0 hal hta hi hd K0 hr hc hb hrc hopt hbd

/-- C132 (latent variable time-varying graphical lasso, limit): under the same condition the recorded objectives are
finite and converge to the documented objective at the limit. -/
theorem C132_latent_time_small_penalties [Nonempty n] {T : ℕ} {eigh : Eigh n} (he : IsEighOracle eigh) {sv : Svdvals n}
    (hsv : IsSvdOracle sv)
    (o : LTOptions (T + 1) n) {beta eta : ℝ} (hS0 : ∀ t, (o.empCov t).PosSemidef) {m : ℝ} (hm : 0 < m)
    (hn : ∀ t, m ≤ o.nSamples t) (hal : 0 < o.alpha) (hta : 0 ≤ o.tau) (hbe : 0 ≤ beta) (het : 0 ≤ eta)
    {psi phi : Matrix n n ℝ → ℝ} (cpsi : ConvexPen psi) (cphi : ConvexPen phi)
    (ppsi : IsProxOf psi o.proxPsi) (pphi : IsProxOf phi o.proxPhi) (npsi : ∀ X, 0 ≤ psi X) (nphi : ∀ X, 0 ≤ phi X)
    (zpsi : psi 0 = 0) (zphi : phi 0 = 0) {kpsi kphi : ℝ} (kpsi0 : 0 ≤ kpsi) (kphi0 : 0 ≤ kphi)
    (lpsi : ∀ A B, psi (A + B) ≤ psi A + kpsi * froNorm B) (lphi : ∀ A B, phi (A + B) ≤ phi A + kphi * froNorm B)
    (hi : o.rhoOptions.tauInc = 1) (hd : o.rhoOptions.tauDec = 1) (K0 : Batch (T + 1) n)
    {σ : ℝ} (hS : ∀ t, (o.empCov t - σ • 1).PosSemidef)
    (hQ : 2 * Real.sqrt (T + 1 : ℕ) * (Fintype.card n * o.alpha + 4 * (kpsi * (T * beta)) + 2 * (kphi * (T * eta))) ≤
      m * σ) :
    ∃ rho0, 0 < rho0 ∧ ∀ rho, 0 < rho → rho < rho0 →
    let s := stateAt (ltBody eigh (ltLogdetR eigh (chainArgs o beta eta)) (chainPairs T) (chainArgs o beta eta))
      (ltInit (chainPairs T) K0 rho)
    ∃ (p : Batch (T + 1) n × Batch (T + 1) n) (v : ℕ → ℝ), IsMin (LatentSeqFeasible (T + 1) n)
        (latentTimeObjective o.empCov o.nSamples o.alpha o.tau beta eta absSumMat psi phi) p ∧
      Tendsto (fun j => (s j).Z0) atTop (𝓝 p.1) ∧ Tendsto (fun j => (s j).W0) atTop (𝓝 p.2) ∧
      (∀ j, ltReported eigh sv (chainPairs T) (chainArgs o beta eta) psi phi (s j) = .fin (v j)) ∧
      Tendsto v atTop
        (𝓝 (latentTimeObjective o.empCov o.nSamples o.alpha o.tau beta eta absSumOff psi phi p)) := by
  obtain ⟨rho0, h0, hsm⟩ := chain_small he o hS0 hm hn hal hta hbe het cpsi cphi ppsi pphi npsi nphi zpsi zphi kpsi0 kphi0
    lpsi lphi K0 hS hQ
  refine ⟨rho0, h0, fun rho hr hlt => ?_⟩
  obtain ⟨c, b, hc, hb, hrc, hopt, hbd⟩ := hsm rho hr hlt
  refine C132_latent_time_limit_partial he hsv o hS0 hm hn hal hta hbe het cpsi cphi ppsi pphi npsi nphi hi hd K0 hr hc hb
    hrc hopt (hbd.mono fun j h => ?_)
  rw [stateAt_lt eigh (ltLogdetR eigh (chainArgs o beta eta)) (chainPairs T) (a := chainArgs o beta eta) hi hd K0 hr.ne']
  exact h

/-- C132 (kernel latent variable time-varying graphical lasso, limit): the same for the kernel version. -/
theorem C132_kernel_latent_small_penalties [Nonempty n] (hk : 0 < k) {eigh : Eigh n} (he : IsEighOracle eigh) {sv : Svdvals n}
    (hsv : IsSvdOracle sv)
    (o : LTOptions k n) (Kpsi Kphi : Option (Fin k → Fin k → ℝ)) (hpsi : ∀ s t, s < t → 0 ≤ kernelOf Kpsi s t)
    (hphi : ∀ s t, s < t → 0 ≤ kernelOf Kphi s t)
    (hS0 : ∀ t, (o.empCov t).PosSemidef) {m : ℝ} (hm : 0 < m)
    (hn : ∀ t, m ≤ o.nSamples t) (hal : 0 < o.alpha) (hta : 0 ≤ o.tau)
    {psi phi : Matrix n n ℝ → ℝ} (cpsi : ConvexPen psi) (cphi : ConvexPen phi)
    (ppsi : IsProxOf psi o.proxPsi) (pphi : IsProxOf phi o.proxPhi) (npsi : ∀ X, 0 ≤ psi X) (nphi : ∀ X, 0 ≤ phi X)
    (zpsi : psi 0 = 0) (zphi : phi 0 = 0) {kpsi kphi : ℝ} (kpsi0 : 0 ≤ kpsi) (kphi0 : 0 ≤ kphi)
    (lpsi : ∀ A B, psi (A + B) ≤ psi A + kpsi * froNorm B) (lphi : ∀ A B, phi (A + B) ≤ phi A + kphi * froNorm B)
    (hi : o.rhoOptions.tauInc = 1) (hd : o.rhoOptions.tauDec = 1) (K0 : Batch k n)
    {σ : ℝ} (hS : ∀ t, (o.empCov t - σ • 1).PosSemidef)
    (hQ : 2 * Real.sqrt k * (Fintype.card n * o.alpha
      + 4 * (kpsi * ∑ s, ∑ t, if s < t then kernelOf Kpsi s t else 0)
      + 2 * (kphi * ∑ s, ∑ t, if s < t then kernelOf Kphi s t else 0)) ≤ m * σ) :
    ∃ rho0, 0 < rho0 ∧ ∀ rho, 0 < rho → rho < rho0 →
    let s := stateAt (ltBody eigh (ltLogdetR eigh (kernelArgs o Kpsi Kphi)) (allPairs k) (kernelArgs o Kpsi Kphi))
      (ltInit (allPairs k) K0 rho)
    ∃ (p : Batch k n × Batch k n) (v : ℕ → ℝ), IsMin (LatentSeqFeasible k n)
        (kernelLatentObjective o.empCov o.nSamples o.alpha o.tau (kernelOf Kpsi) (kernelOf Kphi) absSumMat psi phi) p ∧
      Tendsto (fun j => (s j).Z0) atTop (𝓝 p.1) ∧ Tendsto (fun j => (s j).W0) atTop (𝓝 p.2) ∧
      (∀ j, ltReported eigh sv (allPairs k) (kernelArgs o Kpsi Kphi) psi phi (s j) = .fin (v j)) ∧
      Tendsto v atTop (𝓝 (kernelLatentObjective o.empCov o.nSamples o.alpha o.tau (kernelOf Kpsi) (kernelOf Kphi)
        absSumOff psi phi p)) := by
  obtain ⟨rho0, h0, hsm⟩ := kernel_small hk he o Kpsi Kphi hpsi hphi hS0 hm hn hal hta cpsi cphi ppsi pphi npsi nphi zpsi
    zphi kpsi0 kphi0 lpsi lphi K0 hS hQ
  refine ⟨rho0, h0, fun rho hr hlt => ?_⟩
  obtain ⟨c, b, hc, hb, hrc, hopt, hbd⟩ := hsm rho hr hlt
  refine C132_kernel_latent_limit_partial hk he hsv o Kpsi Kphi hpsi hphi hS0 hm hn hal hta cpsi cphi ppsi pphi npsi nphi
    hi hd K0 hr hc hb hrc hopt (hbd.mono fun j h => ?_)
  rw [stateAt_lt eigh (ltLogdetR eigh (kernelArgs o Kpsi Kphi)) (allPairs k) (a := kernelArgs o Kpsi Kphi) hi hd K0 hr.ne']
  exact h

/-- C132 (latent graphical lasso, limit): for small `alpha`, any `tau ≥ 0` and every `rho` small enough the recorded
objectives are finite and converge to the documented objective at the limit. -/
theorem C132_latent_small_penalties [Nonempty n] {eigh : Eigh n} (he : IsEighOracle eigh) {sv : Svdvals n}
    (hsv : IsSvdOracle sv) (a : LGLArgs n)
    (hS0 : a.empCov.PosSemidef) (hal : 0 < a.alpha) (hta : 0 ≤ a.tau)
    (hi : a.rhoOptions.tauInc = 1) (hd : a.rhoOptions.tauDec = 1) (K0 : Matrix n n ℝ)
    {σ : ℝ} (hS : (a.empCov - σ • 1).PosSemidef) (hσ : 2 * (Fintype.card n * a.alpha) ≤ σ) :
    ∃ rho0, 0 < rho0 ∧ ∀ rho, 0 < rho → rho < rho0 →
    ∃ (p : Matrix n n ℝ × Matrix n n ℝ) (v : ℕ → ℝ),
      IsMin (LatentFeasible n) (latentObjective a.empCov a.alpha a.tau absSumMat) p ∧
      Tendsto (fun j => (stateAt (lglBody eigh a) (lglInit K0 rho) j).K) atTop (𝓝 p.1) ∧
      Tendsto (fun j => (stateAt (lglBody eigh a) (lglInit K0 rho) j).L) atTop (𝓝 p.2) ∧
      (∀ j, lglReported eigh sv a (stateAt (lglBody eigh a) (lglInit K0 rho) j) = .fin (v j)) ∧
      Tendsto v atTop (𝓝 (latentObjective a.empCov a.alpha a.tau absSumOff p)) := by
  obtain ⟨rho0, h0, hsm⟩ := lgl_small he a hS0 hal hta hi hd K0 hS hσ
  refine ⟨rho0, h0, fun rho hr hlt => ?_⟩
  obtain ⟨c, b, hc, hb, hrc, hopt, hbd⟩ := hsm rho hr hlt
  exact C132_latent_limit_partial he hsv a hS0 hal hta hi hd K0 hr hc hb hrc hopt hbd

/-- Non-vacuity: three time points, two variables, the `l1` norm as both couplings, 100 samples, every penalty
positive and `tau` small enough for latent variables to be allowed. -/
example : ∃ (eigh : Eigh (Fin 2)) (o : LTOptions (2 + 1) (Fin 2)) (beta eta kap : ℝ), IsEighOracle eigh ∧
    (∀ t, (o.empCov t).PosSemidef) ∧ (∀ t, 100 ≤ o.nSamples t) ∧ 0 < o.alpha ∧ 0 < o.tau ∧
    o.tau < Fintype.card (Fin 2) * o.alpha ∧ 0 < beta ∧ 0 < eta ∧
    ConvexPen (absSumMat (m := Fin 2) (n := Fin 2)) ∧ IsProxOf absSumMat o.proxPsi ∧ IsProxOf absSumMat o.proxPhi ∧
    absSumMat (0 : Matrix (Fin 2) (Fin 2) ℝ) = 0 ∧ 0 ≤ kap ∧
    (∀ A B : Matrix (Fin 2) (Fin 2) ℝ, absSumMat (A + B) ≤ absSumMat A + kap * froNorm B) ∧
    o.rhoOptions.tauInc = 1 ∧ o.rhoOptions.tauDec = 1 ∧ (∀ t, (o.empCov t - (1 : ℝ) • 1).PosSemidef) ∧
    2 * Real.sqrt (2 + 1 : ℕ) * (Fintype.card (Fin 2) * o.alpha + 4 * (kap * ((2 : ℕ) * beta))
      + 2 * (kap * ((2 : ℕ) * eta))) ≤ 100 * 1 := by
  obtain ⟨eigh, he⟩ := exists_eighOracle (n := Fin 2)
  refine ⟨eigh, ⟨fun _ => 1, fun _ => 100, 1, 1, softThresholdingMat, softThresholdingMat, 1, 1,
    { tauInc := 1, tauDec := 1 }⟩, 1, 1, Fintype.card (Fin 2), he, fun _ => PosSemidef.one, fun _ => le_rfl, one_pos,
    one_pos, by norm_num, one_pos, one_pos, absSumMat_convexPen, soft_isProxOf, soft_isProxOf, by simp [absSumMat],
    by norm_num, absSumMat_froLip, rfl, rfl, fun _ => by rw [one_smul, sub_self]; exact PosSemidef.zero, ?_⟩
  have h : Real.sqrt (2 + 1 : ℕ) ≤ 9 / 5 := by
    rw [Real.sqrt_le_left (by norm_num)]
    norm_num
  norm_num at h ⊢
  linarith

/-- Non-vacuity: `S = 1`, two variables, `alpha = 1/4`, `tau = 1/8`. -/
example : ∃ (eigh : Eigh (Fin 2)) (a : LGLArgs (Fin 2)), IsEighOracle eigh ∧ a.empCov.PosSemidef ∧ 0 < a.alpha ∧
    0 < a.tau ∧ a.tau < Fintype.card (Fin 2) * a.alpha ∧ a.rhoOptions.tauInc = 1 ∧ a.rhoOptions.tauDec = 1 ∧
    (a.empCov - (1 : ℝ) • 1).PosSemidef ∧ 2 * (Fintype.card (Fin 2) * a.alpha) ≤ 1 := by
  obtain ⟨eigh, he⟩ := exists_eighOracle (n := Fin 2)
  refine ⟨eigh, ⟨1, 1 / 4, 1 / 8, 1, 1, { tauInc := 1, tauDec := 1 }, true⟩, he, PosSemidef.one, by norm_num, by norm_num,
    by norm_num, rfl, rfl, by rw [one_smul, sub_self]; exact PosSemidef.zero, by norm_num⟩

end Verif.Props
