import Verif.Lemmas.Saddle

/-! Convergence of the passes of the time-varying solvers at a constant penalty. -/

namespace Verif.Lemmas

open Verif.Model Verif.Spec Matrix Filter Topology

set_option autoImplicit false
set_option linter.unusedSectionVars false

variable {n : Type*} [Fintype n] [DecidableEq n] {k : ℕ} {E : Type*} [Fintype E]

/-- The relations between consecutive passes. -/
structure PassRun (g : TimePairs k E) (divisor : Fin k → ℝ) (S : Batch k n) (nS : Fin k → ℝ) (alpha : ℝ)
    (w : E → ℝ) (prox : Matrix n n ℝ → ℝ → Matrix n n ℝ) (rho : ℝ) (K Z0 U0 : ℕ → Batch k n)
    (ZL ZR UL UR : ℕ → E → Matrix n n ℝ) : Prop where
  Kpd : ∀ j t, (K j t).PosDef
  Kst : ∀ j t, nS t • (S t - (K j t)⁻¹) + (rho * divisor t) • K j t - rho • symmetrize (Z0 j t - U0 j t
    + scatter g.src (fun e => ZL j e - UL j e) t + scatter g.dst (fun e => ZR j e - UR j e) t) = 0
  Z0n : ∀ j t, Z0 (j + 1) t = tglZ0 alpha rho (K j t) (U0 j t)
  ZLn : ∀ j e, ZL (j + 1) e = tglZ1 prox (w e) rho (K j (g.src e) + UL j e) (K j (g.dst e) + UR j e)
  ZRn : ∀ j e, ZR (j + 1) e = tglZ2 prox (w e) rho (K j (g.src e) + UL j e) (K j (g.dst e) + UR j e)
  U0n : ∀ j t, U0 (j + 1) t = U0 j t + (K j t - Z0 (j + 1) t)
  ULn : ∀ j e, UL (j + 1) e = UL j e + (K j (g.src e) - ZL (j + 1) e)
  URn : ∀ j e, UR (j + 1) e = UR j e + (K j (g.dst e) - ZR (j + 1) e)

variable {g : TimePairs k E} {divisor : Fin k → ℝ} {S : Batch k n} {nS : Fin k → ℝ} {alpha : ℝ}
  {w : E → ℝ} {psi : Matrix n n ℝ → ℝ} {prox : Matrix n n ℝ → ℝ → Matrix n n ℝ} {rho : ℝ}
  {K Z0 U0 : ℕ → Batch k n} {ZL ZR UL UR : ℕ → E → Matrix n n ℝ}

theorem PassRun.sub (h : PassRun g divisor S nS alpha w prox rho K Z0 U0 ZL ZR UL UR) (hal : 0 ≤ alpha)
    (hr : 0 < rho) (hw : ∀ e, 0 ≤ w e) (hconv : ConvexPen psi) (hprox : IsProxOf psi prox) (j : ℕ) :
    CopySub alpha w psi rho (copies (Z0 (j + 1)) (ZL (j + 1)) (ZR (j + 1)))
      (copies (U0 (j + 1)) (UL (j + 1)) (UR (j + 1))) := by
  have e1 : U0 (j + 1) = fun t => U0 j t + (K j t - Z0 (j + 1) t) := funext (h.U0n j)
  have e2 : UL (j + 1) = fun e => UL j e + (K j (g.src e) - ZL (j + 1) e) := funext (h.ULn j)
  have e3 : UR (j + 1) = fun e => UR j e + (K j (g.dst e) - ZR (j + 1) e) := funext (h.URn j)
  rw [e1, e2, e3]
  exact copySub_next g hal hr hw hconv hprox (fun t => (h.Kpd j t).isSymm') (h.Z0n j) (h.ZLn j) (h.ZRn j)

theorem PassRun.admm (h : PassRun g divisor S nS alpha w prox rho K Z0 U0 ZL ZR UL UR)
    (hcov : Covers g divisor n) (hS : ∀ t, (S t).IsSymm) (hn : ∀ t, 0 < nS t) (hal : 0 ≤ alpha)
    (hr : 0 < rho) (hw : ∀ e, 0 ≤ w e) (hconv : ConvexPen psi) (hprox : IsProxOf psi prox) {X : Batch k n}
    (hX : IsMin (PDSeq k n) (pairTimeObjective g S nS alpha w psi) X) :
    ∃ V, AdmmRun (copyEp g) S nS rho K (fun j => copies (Z0 j) (ZL j) (ZR j))
      (fun j => copies (U0 j) (UL j) (UR j)) X V := by
  have hsurj : ∀ t, ∃ i, copyEp g i = t := fun t => ⟨Sum.inl t, rfl⟩
  obtain ⟨V, h1, h2⟩ := exists_saddle (ep := copyEp g) (F := copyPen alpha w psi) hsurj hS hn
    (copyPen_convex hal hw hconv) hX hr
  have hXpd : ∀ t, (X t).PosDef := hX.1
  refine ⟨V, hsurj, hn, hr, h.Kpd, fun j t => kst_of_divisor g hcov t (h.Kpd j t) (h.Kst j t), ?_,
    fun j => ?_, hXpd, h1, fun j => ?_⟩
  · rintro j (t | e | e)
    · exact h.U0n j t
    · exact h.ULn j e
    · exact h.URn j e
  · exact (h.sub hal hr hw hconv hprox (j + 1)).mono hr (h.sub hal hr hw hconv hprox j)
  · have hs := h.sub hal hr hw hconv hprox j
    set Z := copies (Z0 (j + 1)) (ZL (j + 1)) (ZR (j + 1)) with hZ
    set U := copies (U0 (j + 1)) (UL (j + 1)) (UR (j + 1)) with hU
    have a1 := hs.2 (fun i => X (copyEp g i)) (fun t => (hXpd t).isSymm')
    have a2 := h2 Z
    have e : ∑ i, frobInner (U i - V i) (Z i - X (copyEp g i)) =
        -∑ i, frobInner (U i) (X (copyEp g i) - Z i) - ∑ i, frobInner (V i) (Z i - X (copyEp g i)) := by
      rw [← Finset.sum_neg_distrib, ← Finset.sum_sub_distrib]
      refine Finset.sum_congr rfl fun i _ => ?_
      rw [frobInner_sub_left, ← neg_sub (Z i) (X (copyEp g i)), frobInner_neg_right, neg_neg]
    change 0 ≤ ∑ i, frobInner (U i - V i) (Z i - X (copyEp g i))
    rw [e]
    have h3 : 0 ≤ rho * (-∑ i, frobInner (U i) (X (copyEp g i) - Z i)
        - ∑ i, frobInner (V i) (Z i - X (copyEp g i))) := by
      rw [mul_sub, mul_neg]; linarith
    exact nonneg_of_mul_nonneg_right h3 hr

/-- No residual, no error. -/
theorem AdmmRun.exact {I : Type*} [Fintype I] {ep : I → Fin k} {Z U : ℕ → I → Matrix n n ℝ} {X : Batch k n}
    {V : I → Matrix n n ℝ} (h : AdmmRun ep S nS rho K Z U X V) {j : ℕ}
    (h1 : ∀ i, K j (ep i) = Z (j + 1) i) (h2 : ∀ i, Z (j + 1) i = Z j i) : K j = X := by
  have hg := h.gap_eq j
  have hm := h.monoX j
  have e : ∑ i, frobInner (Z j i - Z (j + 1) i - (U (j + 1) i - V i)) (K j (ep i) - X (ep i)) =
      -∑ i, frobInner (U (j + 1) i - V i) (Z (j + 1) i - X (ep i)) := by
    rw [← Finset.sum_neg_distrib]
    refine Finset.sum_congr rfl fun i _ => ?_
    rw [h1 i, h2 i, sub_self, zero_sub, frobInner_neg_left]
  rw [e, mul_neg] at hg
  have hle : logdetGap nS X (K j) ≤ 0 := by
    have := mul_nonneg h.rhoPos.le hm
    linarith
  funext t
  by_contra hne
  have hin : 0 < frobInner ((X t)⁻¹ - (K j t)⁻¹) (K j t - X t) := by
    refine lt_of_le_of_ne (inv_mono (h.Kpd j t) (h.Xpd t)) fun h0 => ?_
    have h3 := inv_strict_mono (h.Kpd j t) (h.Xpd t)
    rw [← h0, mul_zero] at h3
    exact hne (sub_eq_zero.mp ((frobSq_eq_zero_iff _).mp (le_antisymm h3 (frobSq_nonneg _))))
  have hpos : 0 < logdetGap nS X (K j) := by
    refine Finset.sum_pos' (fun t _ => mul_nonneg (h.nPos t).le (inv_mono (h.Kpd j t) (h.Xpd t)))
      ⟨t, Finset.mem_univ _, mul_pos (h.nPos t) hin⟩
  linarith

/-- Squared residual of a pass: distance of the copies from `K`. -/
noncomputable def passPri (g : TimePairs k E) (K Z0 : ℕ → Batch k n) (ZL ZR : ℕ → E → Matrix n n ℝ) (j : ℕ) :
    ℝ :=
  ∑ t, frobSq (K j t - Z0 (j + 1) t) + (∑ e, frobSq (K j (g.src e) - ZL (j + 1) e)
    + ∑ e, frobSq (K j (g.dst e) - ZR (j + 1) e))

/-- Squared change of the copies in a pass. -/
noncomputable def passDual (Z0 : ℕ → Batch k n) (ZL ZR : ℕ → E → Matrix n n ℝ) (j : ℕ) : ℝ :=
  ∑ t, frobSq (Z0 (j + 1) t - Z0 j t) + (∑ e, frobSq (ZL (j + 1) e - ZL j e)
    + ∑ e, frobSq (ZR (j + 1) e - ZR j e))

/-- Existence and uniqueness of the optimum and convergence. -/
theorem PassRun.main (h : PassRun g divisor S nS alpha w prox rho K Z0 U0 ZL ZR UL UR)
    (hcov : Covers g divisor n) (hS : ∀ t, (S t).PosSemidef) (hn : ∀ t, 0 < nS t) (hal : 0 < alpha)
    (hr : 0 < rho) (hw : ∀ e, 0 ≤ w e) (hconv : ConvexPen psi) (hpos : ∀ X, 0 ≤ psi X)
    (hprox : IsProxOf psi prox) :
    ∃ X, UniqueMin (PDSeq k n) (pairTimeObjective g S nS alpha w psi) X ∧
      Tendsto (passPri g K Z0 ZL ZR) atTop (𝓝 0) ∧ Tendsto (passDual Z0 ZL ZR) atTop (𝓝 0) ∧
      (∀ t, Tendsto (fun j => K j t) atTop (𝓝 (X t))) ∧
      (∀ t, Tendsto (fun j => Z0 j t) atTop (𝓝 (X t))) ∧
      ∀ j, passPri g K Z0 ZL ZR j = 0 → passDual Z0 ZL ZR j = 0 → Z0 (j + 1) = X := by
  have hSs : ∀ t, (S t).IsSymm := fun t => by
    have := (hS t).isHermitian
    rwa [IsHermitian, conjTranspose_eq_transpose_of_trivial] at this
  obtain ⟨X, hX⟩ := exists_pairTime_min g hS hn hal hw hconv hpos
  obtain ⟨V, hV⟩ := h.admm hcov hSs hn hal.le hr hw hconv hprox hX
  obtain ⟨c1, c2, c3, c4⟩ := hV.converges
  have hsurj : ∀ t, ∃ i, copyEp g i = t := fun t => ⟨Sum.inl t, rfl⟩
  refine ⟨X, uniqueMin_of_isMin (ep := copyEp g) (F := copyPen alpha w psi) hsurj hSs hn
    (copyPen_convex hal.le hw hconv) hX, ?_, ?_, c3, fun t => c4 (Sum.inl t), fun j hp hd => ?_⟩
  · refine c1.congr fun j => ?_
    rw [sum_copy]
    rfl
  · refine c2.congr fun j => ?_
    rw [sum_copy]
    rfl
  · have hzero : ∀ f : Copy k E → Matrix n n ℝ, ∑ i, frobSq (f i) = 0 → ∀ i, f i = 0 := by
      intro f hf i
      have := (Finset.sum_eq_zero_iff_of_nonneg fun i _ => frobSq_nonneg (f i)).mp hf i (Finset.mem_univ _)
      exact (frobSq_eq_zero_iff _).mp this
    have z1 := hzero (fun i => K j (copyEp g i) - copies (Z0 (j + 1)) (ZL (j + 1)) (ZR (j + 1)) i) (by
      rw [sum_copy]; exact hp)
    have z2 := hzero (fun i => copies (Z0 (j + 1)) (ZL (j + 1)) (ZR (j + 1)) i
      - copies (Z0 j) (ZL j) (ZR j) i) (by rw [sum_copy]; exact hd)
    have hK := hV.exact (j := j) (fun i => sub_eq_zero.mp (z1 i)) (fun i => sub_eq_zero.mp (z2 i))
    rw [← hK]
    funext t
    exact (sub_eq_zero.mp (z1 (Sum.inl t))).symm

/-- A stopping test with tolerances that go to zero is only passed close to the limit. -/
theorem accuracy_of_limit {P : ℕ → Prop} (hev : ∀ᶠ j in atTop, P j) {r s A B : ℕ → ℝ} (c : ℝ)
    (hr : ∀ j, 0 ≤ r j) (hs : ∀ j, 0 ≤ s j) (hex : ∀ j, r j = 0 → s j = 0 → P (j + 1)) :
    ∃ δ : ℝ, 0 < δ ∧ ∀ tol rtol, 0 ≤ tol → tol ≤ δ → 0 ≤ rtol → rtol ≤ δ → ∀ j,
      r j ≤ c * tol + rtol * A j → s j ≤ c * tol + rtol * B j → P (j + 1) := by
  have hsmall : ∀ (x y : ℝ), 0 < x → ∃ δ : ℝ, 0 < δ ∧ ∀ tol rtol, 0 ≤ tol → tol ≤ δ → 0 ≤ rtol → rtol ≤ δ →
      ¬ x ≤ c * tol + rtol * y := by
    intro x y hx
    have hp : 0 < |c| + |y| + 1 := by positivity
    refine ⟨x / (|c| + |y| + 1), by positivity, fun tol rtol t0 t1 r0 r1 hle => ?_⟩
    have h1 : c * tol ≤ |c| * (x / (|c| + |y| + 1)) :=
      (mul_le_mul_of_nonneg_right (le_abs_self c) t0).trans (mul_le_mul_of_nonneg_left t1 (abs_nonneg c))
    have h2 : rtol * y ≤ |y| * (x / (|c| + |y| + 1)) := by
      rw [mul_comm]
      exact (mul_le_mul_of_nonneg_right (le_abs_self y) r0).trans
        (mul_le_mul_of_nonneg_left r1 (abs_nonneg y))
    have h3 : (|c| + |y| + 1) * (x / (|c| + |y| + 1)) = x := mul_div_cancel₀ _ hp.ne'
    have h4 : 0 < x / (|c| + |y| + 1) := by positivity
    nlinarith
  have hone : ∀ j, ∃ δ : ℝ, 0 < δ ∧ ∀ tol rtol, 0 ≤ tol → tol ≤ δ → 0 ≤ rtol → rtol ≤ δ →
      r j ≤ c * tol + rtol * A j → s j ≤ c * tol + rtol * B j → P (j + 1) := by
    intro j
    by_cases h1 : r j = 0
    · by_cases h2 : s j = 0
      · exact ⟨1, one_pos, fun _ _ _ _ _ _ _ _ => hex j h1 h2⟩
      · obtain ⟨δ, hδ, h⟩ := hsmall (s j) (B j) (lt_of_le_of_ne (hs j) (Ne.symm h2))
        exact ⟨δ, hδ, fun tol rtol a b c' d _ e => absurd e (h tol rtol a b c' d)⟩
    · obtain ⟨δ, hδ, h⟩ := hsmall (r j) (A j) (lt_of_le_of_ne (hr j) (Ne.symm h1))
      exact ⟨δ, hδ, fun tol rtol a b c' d e _ => absurd e (h tol rtol a b c' d)⟩
  obtain ⟨J, hJ⟩ := eventually_atTop.mp hev
  have hfin : ∀ N : ℕ, ∃ δ : ℝ, 0 < δ ∧ ∀ tol rtol, 0 ≤ tol → tol ≤ δ → 0 ≤ rtol → rtol ≤ δ → ∀ j < N,
      r j ≤ c * tol + rtol * A j → s j ≤ c * tol + rtol * B j → P (j + 1) := by
    intro N
    induction N with
    | zero => exact ⟨1, one_pos, fun _ _ _ _ _ _ j hj => absurd hj (Nat.not_lt_zero _)⟩
    | succ N ih =>
      obtain ⟨d1, hd1, h1⟩ := ih
      obtain ⟨d2, hd2, h2⟩ := hone N
      refine ⟨min d1 d2, lt_min hd1 hd2, fun tol rtol a b c' d j hj => ?_⟩
      rcases Nat.lt_succ_iff_lt_or_eq.mp hj with hj | rfl
      · exact h1 tol rtol a (b.trans (min_le_left _ _)) c' (d.trans (min_le_left _ _)) j hj
      · exact h2 tol rtol a (b.trans (min_le_right _ _)) c' (d.trans (min_le_right _ _))
  obtain ⟨δ, hδ, h⟩ := hfin J
  refine ⟨δ, hδ, fun tol rtol a b c' d j e1 e2 => ?_⟩
  by_cases hj : j < J
  · exact h tol rtol a b c' d j hj e1 e2
  · exact hJ (j + 1) (by omega)

end Verif.Lemmas
