import Verif.Lemmas.Temporal
import Verif.Props.TGL

/-! Property theorems C94, C95 (kernel time-varying graphical lasso). -/

namespace Verif.Props

open Verif.Model Verif.Spec Verif.Lemmas Matrix

set_option autoImplicit false
set_option linter.unusedSectionVars false

variable {n : Type*} [Fintype n] [DecidableEq n] {k : ℕ} {E : Type*} [Fintype E]

/-- "One iteration leaves the state unchanged": all consensus variables and all unscaled duals. -/
def KTStationary (eigh : Eigh n) (g : TimePairs k E) (a : KTArgs k E n) (s : KTState k E n) : Prop :=
  let s' := (ktBody eigh g a 0 s).1
  s'.Z0 = s.Z0 ∧ s'.ZL = s.ZL ∧ s'.ZR = s.ZR ∧
    (∀ t, s'.rho • s'.U0 t = s.rho • s.U0 t) ∧
    (∀ e, s'.rho • s'.UL e = s.rho • s.UL e) ∧ (∀ e, s'.rho • s'.UR e = s.rho • s.UR e)

theorem ktStationary_iff (eigh : Eigh n) (g : TimePairs k E) (a : KTArgs k E n)
    (hi : 0 < a.rhoOptions.tauInc) (hd : 0 < a.rhoOptions.tauDec) (s : KTState k E n) (hr : 0 < s.rho) :
    KTStationary eigh g a s ↔
      (∀ t, ktK eigh g a s t = s.Z0 t) ∧ (∀ e, s.ZL e = s.Z0 (g.src e)) ∧
      (∀ e, s.ZR e = s.Z0 (g.dst e)) ∧
      (∀ t, tglZ0 a.alpha s.rho (s.Z0 t) (s.U0 t) = s.Z0 t) ∧
      (∀ e, tglZ1 a.prox (a.weight e) s.rho (s.ZL e + s.UL e) (s.ZR e + s.UR e) = s.ZL e) ∧
      (∀ e, tglZ2 a.prox (a.weight e) s.rho (s.ZL e + s.UL e) (s.ZR e + s.UR e) = s.ZR e) := by
  set K := ktK eigh g a s with hK
  set Z0 : Batch k n := fun t => tglZ0 a.alpha s.rho (K t) (s.U0 t) with hZ0
  set ZL : E → Matrix n n ℝ := fun e =>
    tglZ1 a.prox (a.weight e) s.rho (K (g.src e) + s.UL e) (K (g.dst e) + s.UR e) with hZL
  set ZR : E → Matrix n n ℝ := fun e =>
    tglZ2 a.prox (a.weight e) s.rho (K (g.src e) + s.UL e) (K (g.dst e) + s.UR e) with hZR
  obtain ⟨r, hr', hb⟩ : ∃ r, r ≠ 0 ∧ ((ktBody eigh g a 0 s).1 = ktNext eigh g a s ∨
      (ktBody eigh g a 0 s).1 = ktRescale r (ktNext eigh g a s)) := by
    refine ⟨updateRho a.rhoOptions s.rho (ktDiagnose g a K s (ktNext eigh g a s)).rnorm
      (ktDiagnose g a K s (ktNext eigh g a s)).snorm, (updateRho_pos hi hd hr _ _).ne', ?_⟩
    unfold ktBody
    simp only
    split
    · exact Or.inl rfl
    · exact Or.inr rfl
  have h1 : (ktBody eigh g a 0 s).1.Z0 = Z0 := by rcases hb with h | h <;> rw [h] <;> rfl
  have h2 : (ktBody eigh g a 0 s).1.ZL = ZL := by rcases hb with h | h <;> rw [h] <;> rfl
  have h3 : (ktBody eigh g a 0 s).1.ZR = ZR := by rcases hb with h | h <;> rw [h] <;> rfl
  have hc : r * (s.rho / r) = s.rho := mul_div_cancel₀ _ hr'
  have h4 : ∀ t, (ktBody eigh g a 0 s).1.rho • (ktBody eigh g a 0 s).1.U0 t =
      s.rho • (s.U0 t + (K t - Z0 t)) := by
    intro t
    rcases hb with h | h <;> rw [h]
    · rfl
    · change r • ((s.rho / r) • (s.U0 t + (K t - Z0 t))) = _
      rw [smul_smul, hc]
  have h5 : ∀ e, (ktBody eigh g a 0 s).1.rho • (ktBody eigh g a 0 s).1.UL e =
      s.rho • (s.UL e + (K (g.src e) - ZL e)) := by
    intro e
    rcases hb with h | h <;> rw [h]
    · rfl
    · change r • ((s.rho / r) • (s.UL e + (K (g.src e) - ZL e))) = _
      rw [smul_smul, hc]
  have h6 : ∀ e, (ktBody eigh g a 0 s).1.rho • (ktBody eigh g a 0 s).1.UR e =
      s.rho • (s.UR e + (K (g.dst e) - ZR e)) := by
    intro e
    rcases hb with h | h <;> rw [h]
    · rfl
    · change r • ((s.rho / r) • (s.UR e + (K (g.dst e) - ZR e))) = _
      rw [smul_smul, hc]
  have hcancel : ∀ U X Y : Matrix n n ℝ, s.rho • (U + (X - Y)) = s.rho • U ↔ X = Y := by
    intro U X Y
    constructor
    · intro h
      have h0 : U + (X - Y) = U := smul_right_injective _ hr.ne' h
      exact sub_eq_zero.mp (by simpa using h0)
    · rintro rfl; simp
  unfold KTStationary
  simp only [h1, h2, h3, h4, h5, h6, hcancel]
  constructor
  · rintro ⟨e1, e2, e3, e4, e5, e6⟩
    have k0 : ∀ t, K t = s.Z0 t := fun t => by rw [e4 t, e1]
    have k1 : ∀ e, s.ZL e = s.Z0 (g.src e) := fun e => by
      rw [← e2, ← e5 e, k0]
    have k2 : ∀ e, s.ZR e = s.Z0 (g.dst e) := fun e => by
      rw [← e3, ← e6 e, k0]
    have f0 := fun t => congrFun e1 t
    have f1 := fun e => congrFun e2 e
    have f2 := fun e => congrFun e3 e
    simp only [hZ0, hZL, hZR, k0] at f0 f1 f2
    refine ⟨k0, k1, k2, f0, fun e => ?_, fun e => ?_⟩
    · have h := f1 e
      rw [← k1 e, ← k2 e] at h
      exact h
    · have h := f2 e
      rw [← k1 e, ← k2 e] at h
      exact h
  · rintro ⟨k0, k1, k2, f0, f1, f2⟩
    have g0 : Z0 = s.Z0 := by funext t; simp only [hZ0, k0]; exact f0 t
    have g1 : ZL = s.ZL := by
      funext e; simp only [hZL, k0]; rw [← k1 e, ← k2 e]; exact f1 e
    have g2 : ZR = s.ZR := by
      funext e; simp only [hZR, k0]; rw [← k1 e, ← k2 e]; exact f2 e
    refine ⟨g0, g1, g2, fun t => ?_, fun e => ?_, fun e => ?_⟩
    · rw [g0, k0]
    · rw [g1, k1, k0]
    · rw [g2, k2, k0]

/-- The kernel of the documentation: the argument, or the identity when it is `None`. -/
def kernelOf (kernel : Option (Fin k → Fin k → ℝ)) : Fin k → Fin k → ℝ :=
  kernel.getD fun s t => if s = t then 1 else 0

theorem kernelCoupling_eq (kernel : Option (Fin k → Fin k → ℝ)) (psi : Matrix n n ℝ → ℝ) (K : Batch k n) :
    kernelCoupling (kernelOf kernel) psi K =
      ∑ e : PairIdx k, kernelWeight kernel e * psi (K ((allPairs k).dst e) - K ((allPairs k).src e)) := by
  have h := sum_pairIdx (k := k) (fun s t => kernelOf kernel s t * psi (K t - K s))
  unfold kernelCoupling
  rw [← h]
  refine Finset.sum_congr rfl fun e _ => ?_
  cases kernel <;> rfl

/-- C94 (part that holds): a stationary state of the kernel solver is the unique minimiser over PD
sequences of the kernel time-varying problem with the FULL l1 norm (diagonal included), for every number
of time points, every kernel with entries `≥ 0` above the diagonal and every convex penalty with an exact
prox. The documented problem leaves the diagonal out: refuted by `C94_diagonal_false`. -/
theorem C94_stationary_partial {eigh : Eigh n} (he : IsEighOracle eigh) (a : KTArgs k Empty n)
    (kernel : Option (Fin k → Fin k → ℝ)) (hker : ∀ s t, s < t → 0 ≤ kernelOf kernel s t)
    (hS : ∀ t, (a.empCov t).IsSymm) (hn : ∀ t, 0 < a.nSamples t) (hal : 0 ≤ a.alpha)
    (hconv : ConvexPen a.psi) (hprox : IsProxOf a.psi a.prox)
    (hi : 0 < a.rhoOptions.tauInc) (hd : 0 < a.rhoOptions.tauDec)
    (s : KTState k (PairIdx k) n) (hr : 0 < s.rho)
    (h : KTStationary eigh (allPairs k) (ktArgsOf a kernel) s) :
    UniqueMin (PDSeq k n)
      (kernelObjective a.empCov a.nSamples a.alpha (kernelOf kernel) absSumMat a.psi) s.Z0 := by
  obtain ⟨k0, k1, k2, f0, f1, f2⟩ := (ktStationary_iff eigh (allPairs k) (ktArgsOf a kernel) hi hd s hr).mp h
  have hw : ∀ e : PairIdx k, 0 ≤ kernelWeight kernel e := by
    intro e
    have := hker e.1.1 e.1.2 e.2
    cases kernel <;> exact this
  have hpair := fun e => pair_fixed (f1 e) (f2 e)
  -- the K-update
  have hspec : ∀ t, (s.Z0 t).PosDef ∧ a.nSamples t • (a.empCov t - (s.Z0 t)⁻¹)
      + symmetrize (s.rho • (s.U0 t + scatter (allPairs k).src s.UL t + scatter (allPairs k).dst s.UR t))
      = 0 := by
    intro t
    have hk : (0 : ℝ) < k := by
      have : 0 < k := t.pos
      exact_mod_cast this
    obtain ⟨p1, p2⟩ := logdetStep_spec he (hS t) (hn t) (c := s.rho * k) (by positivity)
      ((k : ℝ)⁻¹ • (s.Z0 t - s.U0 t + scatter (allPairs k).src (fun e => s.ZL e - s.UL e) t
        + scatter (allPairs k).dst (fun e => s.ZR e - s.UR e) t))
    rw [← neg_mul] at p1 p2
    have hKe := k0 t
    unfold ktK at hKe
    simp only [ktArgsOf] at hKe
    rw [hKe] at p1 p2
    refine ⟨p1, ?_⟩
    have hB : s.Z0 t - s.U0 t + scatter (allPairs k).src (fun e => s.ZL e - s.UL e) t
        + scatter (allPairs k).dst (fun e => s.ZR e - s.UR e) t = (k : ℝ) • s.Z0 t
        - (s.U0 t + scatter (allPairs k).src s.UL t + scatter (allPairs k).dst s.UR t) := by
      have hcov := covers_all (n := n) s.Z0 t
      have e1 : s.ZL = fun e => s.Z0 ((allPairs k).src e) := funext k1
      have e2 : s.ZR = fun e => s.Z0 ((allPairs k).dst e) := funext k2
      rw [scatter_sub, scatter_sub, ← hcov, e1, e2]
      unfold scatter
      abel
    rw [hB, symmetrize_smul, smul_smul, mul_assoc, mul_inv_cancel₀ hk.ne', mul_one, symmetrize_sub,
      symmetrize_smul, symmetrize_of_isSymm p1.isSymm', smul_sub s.rho, smul_smul] at p2
    rw [symmetrize_smul, ← p2]
    abel
  refine ⟨fun t => (hspec t).1, fun X hX hne => ?_⟩
  have hlik := (negLogLik_le hS hn (fun t => (hspec t).1) hX (fun t => (hspec t).2)).2 hne
  have hblock := block_le (allPairs k) (pen := absSumMat) (c := a.alpha)
    (psi := fun e X => kernelWeight kernel e * a.psi X) (K := s.Z0) (X := X)
    (G := fun t => s.rho • (s.U0 t + scatter (allPairs k).src s.UL t + scatter (allPairs k).dst s.UR t))
    (YL := fun e => s.rho • s.UL e) (YR := fun e => s.rho • s.UR e)
    (fun e => by rw [(hpair e).1, smul_neg])
    (fun t => by
      have h4 := softMat_subgrad (lam := a.alpha / s.rho) (by positivity)
        (symmetrize (s.Z0 t + s.U0 t)) (X t)
      have h5 : softThresholdingMat (symmetrize (s.Z0 t + s.U0 t)) (a.alpha / s.rho) = s.Z0 t := f0 t
      have hZs : (s.Z0 t).IsSymm := (hspec t).1.isSymm'
      rw [h5, symmetrize_add, symmetrize_of_isSymm hZs, add_sub_cancel_left,
        frobInner_symmetrize (by rw [IsSymm, transpose_sub, (hX t).isSymm'.eq, hZs.eq])] at h4
      have h6 := mul_le_mul_of_nonneg_left h4 hr.le
      have e : ∀ c : ℝ, s.rho * (a.alpha / s.rho * c) = a.alpha * c := by intro c; field_simp
      rw [mul_add, e, e] at h6
      rw [scatter_smul, scatter_smul, ← smul_sub, ← smul_sub]
      have e2 : s.U0 t + scatter (allPairs k).src s.UL t + scatter (allPairs k).dst s.UR t
        - scatter (allPairs k).src s.UL t - scatter (allPairs k).dst s.UR t = s.U0 t := by abel
      rw [e2, frobInner_smul_left]
      exact h6)
    (fun e => by
      have hp := (hpair e).2
      rw [k1 e, k2 e] at hp
      exact pair_subgrad hconv hprox (hw e) hr hp _)
  unfold kernelObjective
  rw [kernelCoupling_eq, kernelCoupling_eq]
  linarith

/-- Arguments of the witness: `S_t = 1` (1x1), one sample per time point, `alpha = 1`, penalty `'l1'`. -/
noncomputable def ktWitnessArgs (k : ℕ) : KTArgs k Empty (Fin 1) where
  empCov := fun _ => 1
  nSamples := fun _ => 1
  alpha := 1
  weight := fun e => e.elim
  psi := absSumMat
  prox := softThresholdingMat
  tol := 1
  rtol := 1

/-- The stationary state of the witness: `K_t = 1/2`. -/
noncomputable def ktWitnessState (k : ℕ) : KTState k (PairIdx k) (Fin 1) :=
  ⟨fun _ => (1 / 2 : ℝ) • 1, fun _ => (1 / 2 : ℝ) • 1, fun _ => (1 / 2 : ℝ) • 1, fun _ => 1, 0, 0,
    0, 0, 0, 1⟩

theorem isSymm_fin_one (A : Matrix (Fin 1) (Fin 1) ℝ) : A.IsSymm := by
  ext i j; rw [Matrix.transpose_apply, Subsingleton.elim i j]

theorem half_inv : ((1 / 2 : ℝ) • (1 : Matrix (Fin 1) (Fin 1) ℝ))⁻¹ = (2 : ℝ) • 1 := by
  apply inv_eq_left_inv
  rw [smul_mul_smul_comm, Matrix.one_mul]; norm_num

theorem soft_zero_eq {m : Type*} [Fintype m] [DecidableEq m] (lam : ℝ) :
    softThresholdingMat (0 : Matrix m m ℝ) lam = 0 := by
  ext i j
  simp only [softThresholdingMat, Matrix.zero_apply]
  unfold softScalar npSign
  simp

theorem ktWitness_stationary {eigh : Eigh (Fin 1)} (he : IsEighOracle eigh) (k : ℕ)
    (kernel : Option (Fin k → Fin k → ℝ)) :
    KTStationary eigh (allPairs k) (ktArgsOf (ktWitnessArgs k) kernel) (ktWitnessState k) := by
  rw [ktStationary_iff _ _ _ (by norm_num [ktArgsOf, ktWitnessArgs])
    (by norm_num [ktArgsOf, ktWitnessArgs]) _ (by norm_num [ktWitnessState])]
  have hpd : ((1 / 2 : ℝ) • (1 : Matrix (Fin 1) (Fin 1) ℝ)).PosDef := PosDef.one.smul (by norm_num)
  have hpair : ∀ e : PairIdx k, tglZ1 softThresholdingMat (kernelWeight kernel e) 1
        ((1 / 2 : ℝ) • (1 : Matrix (Fin 1) (Fin 1) ℝ) + 0) ((1 / 2 : ℝ) • 1 + 0) = (1 / 2 : ℝ) • 1 ∧
      tglZ2 softThresholdingMat (kernelWeight kernel e) 1
        ((1 / 2 : ℝ) • (1 : Matrix (Fin 1) (Fin 1) ℝ) + 0) ((1 / 2 : ℝ) • 1 + 0) = (1 / 2 : ℝ) • 1 := by
    intro e
    refine pair_fixed_of (by simp) ?_
    rw [sub_self, smul_zero, add_zero]
    exact soft_zero_eq _
  refine ⟨fun t => ?_, fun p => rfl, fun p => rfl, fun t => ?_, fun e => (hpair e).1, fun e => (hpair e).2⟩
  · have hk : (0 : ℝ) < k := by
      have : 0 < k := t.pos
      exact_mod_cast this
    unfold ktK
    simp only [ktArgsOf]
    rw [neg_mul]
    refine logdetStep_unique he (isSymm_fin_one _) (by norm_num [ktWitnessArgs])
      (by simpa [ktWitnessState] using hk) _ hpd ?_
    have hcov := covers_all (n := Fin 1) (fun _ : Fin k => (1 / 2 : ℝ) • (1 : Matrix (Fin 1) (Fin 1) ℝ)) t
    have hB : (ktWitnessState k).Z0 t - (ktWitnessState k).U0 t
        + scatter (allPairs k).src (fun e => (ktWitnessState k).ZL e - (ktWitnessState k).UL e) t
        + scatter (allPairs k).dst (fun e => (ktWitnessState k).ZR e - (ktWitnessState k).UR e) t =
        (k : ℝ) • ((1 / 2 : ℝ) • 1) - 1 := by
      refine Eq.trans ?_ (congrArg (· - (1 : Matrix (Fin 1) (Fin 1) ℝ)) hcov)
      simp only [ktWitnessState, Pi.zero_apply, sub_zero, scatter]
      abel
    rw [hB, symmetrize_of_isSymm (isSymm_fin_one _)]
    change (1 : ℝ) • ((1 : Matrix (Fin 1) (Fin 1) ℝ) - ((1 / 2 : ℝ) • (1 : Matrix (Fin 1) (Fin 1) ℝ))⁻¹)
      + ((1 : ℝ) * k) • ((1 / 2 : ℝ) • (1 : Matrix (Fin 1) (Fin 1) ℝ)) - _ = 0
    rw [half_inv]
    ext i j
    have : i = j := Subsingleton.elim _ _
    subst this
    simp [ktWitnessState]
    field_simp
    ring
  · change tglZ0 1 1 ((1 / 2 : ℝ) • (1 : Matrix (Fin 1) (Fin 1) ℝ)) 1 = (1 / 2 : ℝ) • 1
    unfold tglZ0
    rw [symmetrize_of_isSymm (isSymm_fin_one _)]
    ext i j
    have : i = j := Subsingleton.elim _ _
    subst this
    simp only [softThresholdingMat, Matrix.add_apply, Matrix.smul_apply, Matrix.one_apply_eq]
    rw [softScalar_of_pos (by norm_num) (by norm_num)]
    norm_num

/-- The full statement of C94 is false, for every number `k ≥ 1` of time points and every
kernel: with `S_t = 1` (1x1) and `alpha = 1` the constant sequence `K_t = 1/2` is stationary but
`K_t = 1` has a strictly smaller documented objective. -/
theorem C94_diagonal_false {eigh : Eigh (Fin 1)} (he : IsEighOracle eigh) (k : ℕ) (hk : 0 < k)
    (kernel : Option (Fin k → Fin k → ℝ)) :
    ∃ (a : KTArgs k Empty (Fin 1)) (s : KTState k (PairIdx k) (Fin 1)), (∀ t, (a.empCov t).IsSymm) ∧
      (∀ t, 0 < a.nSamples t) ∧ 0 ≤ a.alpha ∧ ConvexPen a.psi ∧ IsProxOf a.psi a.prox ∧
      0 < a.rhoOptions.tauInc ∧ 0 < a.rhoOptions.tauDec ∧ 0 < s.rho ∧
      KTStationary eigh (allPairs k) (ktArgsOf a kernel) s ∧
      ¬ IsMin (PDSeq k (Fin 1))
        (kernelObjective a.empCov a.nSamples a.alpha (kernelOf kernel) absSumOff a.psi) s.Z0 := by
  refine ⟨ktWitnessArgs k, ktWitnessState k, fun t => isSymm_fin_one _,
    fun t => by norm_num [ktWitnessArgs], by norm_num [ktWitnessArgs],
    absSumMat_convex, soft_isProxOf, by norm_num [ktWitnessArgs],
    by norm_num [ktWitnessArgs], by norm_num [ktWitnessState], ktWitness_stationary he k kernel,
    fun hmin => ?_⟩
  have h := hmin.2 (fun _ => 1) (fun _ => PosDef.one)
  have hlog : Real.log (2⁻¹ : ℝ) = -Real.log 2 := Real.log_inv 2
  have hl2 := Real.log_two_gt_d9
  simp [kernelObjective, kernelCoupling, negLogLik, ktWitnessArgs, ktWitnessState, absSumOff, absSumMat, hlog] at h
  have hT : (1 : ℝ) ≤ k := by exact_mod_cast hk
  nlinarith

/-- Non-vacuity for `C94_stationary_partial`: three time points, a kernel with all entries 1. -/
example : ∃ (eigh : Eigh (Fin 1)), IsEighOracle eigh ∧
    KTStationary eigh (allPairs 3) (ktArgsOf (ktWitnessArgs 3) (some fun _ _ => 1)) (ktWitnessState 3) := by
  obtain ⟨eigh, he⟩ := exists_eighOracle (n := Fin 1)
  exact ⟨eigh, he, ktWitness_stationary he 3 _⟩

/-! ### C95 -/

theorem kernelCoupling_none (psi : Matrix n n ℝ → ℝ) (K : Batch k n) :
    kernelCoupling (kernelOf none) psi K = 0 := by
  unfold kernelCoupling kernelOf
  refine Finset.sum_eq_zero fun s _ => Finset.sum_eq_zero fun t _ => ?_
  split
  · rename_i h
    simp [h.ne]
  · rfl

/-- C95: without a kernel (`kernel=None`) the time points are fitted independently: at a stationary state
every `Z_0[t]` is the unique minimiser of its own single-time problem, whatever the other time points
are. -/
theorem C95_none_independent {eigh : Eigh n} (he : IsEighOracle eigh) (a : KTArgs k Empty n)
    (hS : ∀ t, (a.empCov t).IsSymm) (hn : ∀ t, 0 < a.nSamples t) (hal : 0 ≤ a.alpha)
    (hconv : ConvexPen a.psi) (hprox : IsProxOf a.psi a.prox)
    (hi : 0 < a.rhoOptions.tauInc) (hd : 0 < a.rhoOptions.tauDec)
    (s : KTState k (PairIdx k) n) (hr : 0 < s.rho)
    (h : KTStationary eigh (allPairs k) (ktArgsOf a none) s) (t : Fin k) :
    UniqueMin (PD n) (fun X => a.nSamples t * (trace (a.empCov t * X) - Real.log X.det)
      + a.alpha * absSumMat X) (s.Z0 t) := by
  have hmin := C94_stationary_partial he a none (fun s t hst => by simp [kernelOf, hst.ne]) hS hn hal
    hconv hprox hi hd s hr h
  refine ⟨hmin.1 t, fun X hX hne => ?_⟩
  have h1 := hmin.2 (Function.update s.Z0 t X) (fun u => by
    by_cases hu : u = t
    · subst hu; rw [Function.update_self]; exact hX
    · rw [Function.update_of_ne hu]; exact hmin.1 u) (fun hc => hne (by
      rw [← hc, Function.update_self]))
  unfold kernelObjective at h1
  rw [kernelCoupling_none, kernelCoupling_none, add_zero, add_zero] at h1
  unfold negLogLik at h1
  rw [Finset.mul_sum, Finset.mul_sum, ← Finset.sum_add_distrib, ← Finset.sum_add_distrib,
    ← Finset.add_sum_erase _ _ (Finset.mem_univ t),
    ← Finset.add_sum_erase _ _ (Finset.mem_univ t)] at h1
  have h2 : ∑ u ∈ Finset.univ.erase t, (a.nSamples u *
      (trace (a.empCov u * Function.update s.Z0 t X u) - Real.log (Function.update s.Z0 t X u).det)
      + a.alpha * absSumMat (Function.update s.Z0 t X u)) =
      ∑ u ∈ Finset.univ.erase t, (a.nSamples u * (trace (a.empCov u * s.Z0 u) - Real.log (s.Z0 u).det)
      + a.alpha * absSumMat (s.Z0 u)) := by
    refine Finset.sum_congr rfl fun u hu => ?_
    have : u ≠ t := by simpa using hu
    rw [Function.update_of_ne this]
  rw [h2, Function.update_self] at h1
  linarith

/-- Non-vacuity for `C95_none_independent`. -/
example : ∃ (eigh : Eigh (Fin 1)), IsEighOracle eigh ∧
    KTStationary eigh (allPairs 3) (ktArgsOf (ktWitnessArgs 3) none) (ktWitnessState 3) := by
  obtain ⟨eigh, he⟩ := exists_eighOracle (n := Fin 1)
  exact ⟨eigh, he, ktWitness_stationary he 3 none⟩

/-- C95: with the tridiagonal kernel `beta` on the first super-diagonal the kernel problem is the
time-varying problem with weight `beta`. -/
theorem C95_tridiagonal {T : ℕ} (S : Batch (T + 1) n) (nS : Fin (T + 1) → ℝ) (alpha beta : ℝ)
    (kernel : Fin (T + 1) → Fin (T + 1) → ℝ)
    (hk : ∀ s t : Fin (T + 1), s < t → kernel s t = if (t : ℕ) = s + 1 then beta else 0)
    (pen psi : Matrix n n ℝ → ℝ) :
    kernelObjective S nS alpha kernel pen psi = timeObjective S nS alpha beta pen psi := by
  funext K
  unfold kernelObjective timeObjective negLogLik kernelCoupling
  congr 1
  rw [Fin.sum_univ_castSucc]
  have hlast : (∑ t, if Fin.last T < t then kernel (Fin.last T) t * psi (K t - K (Fin.last T)) else 0) = 0 :=
    Finset.sum_eq_zero fun t _ => if_neg (not_lt.mpr (Fin.le_last t))
  rw [hlast, add_zero, Finset.mul_sum]
  refine Finset.sum_congr rfl fun p _ => ?_
  rw [Finset.sum_eq_single p.succ]
  · rw [if_pos (Fin.castSucc_lt_succ), hk _ _ Fin.castSucc_lt_succ]
    simp
  · intro t _ ht
    split
    · rename_i hlt
      rw [hk _ _ hlt, if_neg, zero_mul]
      intro h
      apply ht
      ext
      simpa using h
    · rfl
  · intro h; exact absurd (Finset.mem_univ _) h

/-- Non-vacuity for `C95_tridiagonal`: such a kernel exists for every number of time points. -/
example (T : ℕ) (beta : ℝ) : ∃ kernel : Fin (T + 1) → Fin (T + 1) → ℝ, ∀ s t : Fin (T + 1), s < t →
    kernel s t = if (t : ℕ) = s + 1 then beta else 0 :=
  ⟨fun s t => if (t : ℕ) = s + 1 then beta else 0, fun _ _ _ => rfl⟩

end Verif.Props
