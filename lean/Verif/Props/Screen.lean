import Verif.Lemmas.Screen
import Verif.Props.GLExist
import Verif.Props.TimeConv

/-! Property theorems C185 (screening: groups of variables with weak covariances between them are separated by the
penalty) and C186 (the network of the returned precision). -/

namespace Verif.Props

open Verif.Model Verif.Spec Verif.Lemmas Matrix Filter Topology

set_option autoImplicit false
set_option linter.unusedSectionVars false

variable {n : Type*} [Fintype n] [DecidableEq n]

/-- The first order conditions of the graphical lasso, entry by entry. -/
theorem gl_entry_move {S X : Matrix n n ℝ} {alpha : ℝ} (hal : 0 ≤ alpha) (hS : S.IsSymm)
    (hX : IsMin (PD n) (glObjective S alpha) X) {i j : n} (t : ℝ) :
    t * (X⁻¹ - S) i j ≤ if i = j then 0 else alpha * (|X i j + t| - |X i j|) := by
  have h := gl_subgrad_of_optimal hal hS hX (X + t • Matrix.single i j 1)
  rw [add_sub_cancel_left, frobInner_smul_right] at h
  have h1 : frobInner (X⁻¹ - S) (Matrix.single i j (1 : ℝ)) = (X⁻¹ - S) i j := by
    unfold frobInner
    rw [Finset.sum_eq_single i, Finset.sum_eq_single j]
    · simp
    · intro b _ hb
      rw [Matrix.single_apply_of_ne _ _ _ _ _ (by tauto), mul_zero]
    · simp
    · intro b _ hb
      refine Finset.sum_eq_zero fun c _ => ?_
      rw [Matrix.single_apply_of_ne _ _ _ _ _ (by tauto), mul_zero]
    · simp
  have h2 : absSumOff (X + t • Matrix.single i j 1) - absSumOff X = if i = j then 0 else |X i j + t| - |X i j| := by
    unfold absSumOff
    rw [← Finset.sum_sub_distrib, Finset.sum_eq_single i]
    · rw [← Finset.sum_sub_distrib, Finset.sum_eq_single j]
      · by_cases hij : i = j
        · simp [hij]
        · simp [hij]
      · intro b _ hb
        rw [Matrix.add_apply, Matrix.smul_apply, Matrix.single_apply_of_ne _ _ _ _ _ (by tauto)]
        simp
      · simp
    · intro b _ hb
      rw [← Finset.sum_sub_distrib]
      refine Finset.sum_eq_zero fun c _ => ?_
      rw [Matrix.add_apply, Matrix.smul_apply, Matrix.single_apply_of_ne _ _ _ _ _ (by tauto)]
      simp
    · simp
  rw [h1] at h
  by_cases hij : i = j
  · rw [if_pos hij] at h2 ⊢
    have : absSumOff (X + t • Matrix.single i j 1) = absSumOff X := by linarith
    rw [this] at h
    linarith
  · rw [if_neg hij] at h2 ⊢
    have : absSumOff (X + t • Matrix.single i j 1) = absSumOff X + (|X i j + t| - |X i j|) := by linarith
    rw [this] at h
    linarith

theorem gl_diag {S X : Matrix n n ℝ} {alpha : ℝ} (hal : 0 ≤ alpha) (hS : S.IsSymm)
    (hX : IsMin (PD n) (glObjective S alpha) X) (i : n) : X⁻¹ i i = S i i := by
  have h1 := gl_entry_move hal hS hX (i := i) (j := i) 1
  have h2 := gl_entry_move hal hS hX (i := i) (j := i) (-1)
  rw [if_pos rfl, Matrix.sub_apply] at h1 h2
  linarith

theorem gl_dual_entry {S X : Matrix n n ℝ} {alpha : ℝ} (hal : 0 ≤ alpha) (hS : S.IsSymm)
    (hX : IsMin (PD n) (glObjective S alpha) X) {i j : n} (hij : i ≠ j) : |(X⁻¹ - S) i j| ≤ alpha := by
  have h1 := gl_entry_move hal hS hX (i := i) (j := j) 1
  have h2 := gl_entry_move hal hS hX (i := i) (j := j) (-1)
  rw [if_neg hij] at h1 h2
  have h3 : |X i j + 1| - |X i j| ≤ 1 := by
    have := abs_add_le (X i j) 1
    rw [abs_one] at this
    linarith
  have h4 : |X i j + -1| - |X i j| ≤ 1 := by
    have := abs_add_le (X i j) (-1)
    rw [abs_neg, abs_one] at this
    linarith
  rw [abs_le]
  constructor <;> nlinarith

/-- A positive definite matrix without entries between the groups has an inverse without entries between them. -/
theorem inv_groups {κ : Type*} {c : n → κ} {X : Matrix n n ℝ} (hX : X.PosDef)
    (h : ∀ i j, c i ≠ c j → X i j = 0) (i j : n) (hij : c i ≠ c j) : X⁻¹ i j = 0 := by
  classical
  set B : n → Prop := fun l => c l = c i with hB
  have hcut : cutGroup B X = X := by
    ext k l
    by_cases hkl : B k ↔ B l
    · exact cutGroup_same B X hkl
    · rw [cutGroup_cross B X hkl, h k l]
      intro e
      exact hkl (by simp only [hB, e])
  have hflip : (flipGroup B).mat X = X := by
    have h1 : (1 / 2 : ℝ) • (X + (flipGroup B).mat X) = X := hcut
    ext k l
    have h2 := congrFun (congrFun h1 k) l
    simp only [Matrix.smul_apply, Matrix.add_apply, smul_eq_mul] at h2
    linarith
  have hinv : (flipGroup B).mat X⁻¹ = X⁻¹ := by
    have hu : X * X⁻¹ = 1 := Matrix.mul_nonsing_inv _ ((Matrix.isUnit_iff_isUnit_det _).mp hX.isUnit)
    refine (Matrix.inv_eq_right_inv ?_).symm
    ext k l
    have e := congrFun (congrFun hu k) l
    rw [Matrix.mul_apply] at e ⊢
    have hs := (flipGroup B).sign_sq
    have e2 : ∀ m, X k m * (flipGroup B).mat X⁻¹ m l =
        (flipGroup B).sign k * (flipGroup B).sign l * (X k m * X⁻¹ m l) := by
      intro m
      have h3 : (flipGroup B).sign k * (flipGroup B).sign m * X k m = X k m := congrFun (congrFun hflip k) m
      have h4 := hs m
      show X k m * ((flipGroup B).sign m * (flipGroup B).sign l * X⁻¹ m l) = _
      linear_combination (-((flipGroup B).sign m * (flipGroup B).sign l * X⁻¹ m l)) * h3 +
        ((flipGroup B).sign k * (flipGroup B).sign l * X k m * X⁻¹ m l) * h4
    rw [Finset.sum_congr rfl fun m _ => e2 m, ← Finset.mul_sum, e]
    by_cases hkl : k = l
    · subst hkl
      rw [Matrix.one_apply_eq, mul_one]
      have := hs k
      nlinarith
    · rw [Matrix.one_apply_ne hkl, mul_zero]
  have h5 := congrFun (congrFun hinv i) j
  have hi : B i := rfl
  have hj : ¬ B j := fun e => hij e.symm
  simp only [Relabel.mat, flipGroup, Equiv.refl_apply, hi, hj, if_true, if_false] at h5
  linarith

/-- C185: the optimum of the graphical lasso has no entry between the groups of a grouping of the variables if and
only if every covariance between different groups is at most `alpha` in absolute value. -/
theorem C185_groups_iff {S X : Matrix n n ℝ} {alpha : ℝ} (hal : 0 ≤ alpha) (hS : S.IsSymm)
    (hX : UniqueMin (PD n) (glObjective S alpha) X) {κ : Type*} (c : n → κ) :
    (∀ i j, c i ≠ c j → X i j = 0) ↔ ∀ i j, c i ≠ c j → |S i j| ≤ alpha := by
  classical
  have hXpd : X.PosDef := hX.1
  constructor
  · intro h i j hij
    have h1 := inv_groups hXpd h i j hij
    have h2 := gl_dual_entry hal hS hX.isMin (i := i) (j := j) (fun e => hij (by rw [e]))
    rwa [Matrix.sub_apply, h1, zero_sub, abs_neg] at h2
  · intro h i j hij
    set B : n → Prop := fun l => c l = c i with hB
    have hcr : ∀ k l, ¬ (B k ↔ B l) → |S k l| ≤ alpha := fun k l hkl =>
      h k l fun e => hkl (by simp only [hB, e])
    have hle := glObjective_cut B hS hcr hXpd
    have he : cutGroup B X = X := by
      by_contra hne
      exact absurd (hX.2 _ (cutGroup_posDef B hXpd) hne) (not_lt.mpr hle)
    rw [← he]
    refine cutGroup_cross B X fun e => hij ?_
    exact (e.mp rfl).symm

/-- C185 (no edges): the optimum is diagonal exactly when `alpha` is at least the largest absolute covariance of two
different variables; it then has the inverse variances on the diagonal. -/
theorem C185_alpha_max {S X : Matrix n n ℝ} {alpha : ℝ} (hal : 0 ≤ alpha) (hS : S.IsSymm)
    (hX : UniqueMin (PD n) (glObjective S alpha) X) :
    ((∀ i j, i ≠ j → X i j = 0) ↔ ∀ i j, i ≠ j → |S i j| ≤ alpha) ∧
      ((∀ i j, i ≠ j → |S i j| ≤ alpha) → ∀ i, X i i = 1 / S i i) := by
  have hiff := C185_groups_iff hal hS hX (c := (id : n → n))
  refine ⟨hiff, fun h i => ?_⟩
  have hd := hiff.mpr h
  have hXpd : X.PosDef := hX.1
  have e : X = diagonal fun k => X k k := by
    ext k l
    by_cases hkl : k = l
    · rw [hkl, diagonal_apply_eq]
    · rw [diagonal_apply_ne _ hkl, hd k l hkl]
  have hp : ∀ k, 0 < X k k := fun k => hXpd.diag_pos
  have hinv : X⁻¹ = diagonal fun k => (X k k)⁻¹ := by
    refine Matrix.inv_eq_right_inv ?_
    conv_lhs => rw [e]
    rw [diagonal_mul_diagonal, ← diagonal_one]
    congr 1
    funext k
    rw [diagonal_apply_eq]
    exact mul_inv_cancel₀ (hp k).ne'
  have h1 := gl_diag hal hS hX.isMin i
  rw [hinv, diagonal_apply_eq] at h1
  rw [← h1, one_div, inv_inv]

/-- C185 (time-varying): if at every time point the covariances between different groups, times the number of samples,
are at most `alpha` in absolute value, no time point of the optimum has an entry between them. -/
theorem C185_time {T : ℕ} {S X : Fin (T + 1) → Matrix n n ℝ} {nS : Fin (T + 1) → ℝ} {alpha beta : ℝ} (hbe : 0 ≤ beta)
    (hn : ∀ t, 0 ≤ nS t) (hS : ∀ t, (S t).IsSymm) {psi : Matrix n n ℝ → ℝ} (hconv : ConvexPen psi)
    (hinv : SignInvariant psi)
    (hX : UniqueMin (PDSeq (T + 1) n) (timeObjective S nS alpha beta absSumMat psi) X) {κ : Type*} (c : n → κ)
    (h : ∀ t i j, c i ≠ c j → nS t * |S t i j| ≤ alpha) : ∀ t i j, c i ≠ c j → X t i j = 0 := by
  classical
  intro t i j hij
  set B : n → Prop := fun l => c l = c i with hB
  have hcr : ∀ t k l, ¬ (B k ↔ B l) → nS t * |S t k l| ≤ alpha := fun t k l hkl =>
    h t k l fun e => hkl (by simp only [hB, e])
  have hle := timeTerms_cut B hS hn hcr (fun t => hX.1 t)
  have hle2 : ∑ p : Fin T, psi (cutGroup B (X p.succ) - cutGroup B (X p.castSucc)) ≤
      ∑ p : Fin T, psi (X p.succ - X p.castSucc) := Finset.sum_le_sum fun p _ => psi_cut B hconv hinv _ _
  have hle3 := mul_le_mul_of_nonneg_left hle2 hbe
  have he : (fun t => cutGroup B (X t)) = X := by
    by_contra hne
    refine absurd (hX.2 _ (fun t => cutGroup_posDef B (hX.1 t)) hne) (not_lt.mpr ?_)
    unfold timeObjective
    unfold negLogLik at hle
    linarith
  rw [← he]
  refine cutGroup_cross B (X t) fun e => hij ?_
  exact (e.mp rfl).symm

/-- C185 (kernel): the same with a kernel between the time points. -/
theorem C185_kernel {k : ℕ} {S X : Fin k → Matrix n n ℝ} {nS : Fin k → ℝ} {alpha : ℝ} {kernel : Fin k → Fin k → ℝ}
    (hker : ∀ s t, s < t → 0 ≤ kernel s t)
    (hn : ∀ t, 0 ≤ nS t) (hS : ∀ t, (S t).IsSymm) {psi : Matrix n n ℝ → ℝ} (hconv : ConvexPen psi)
    (hinv : SignInvariant psi)
    (hX : UniqueMin (PDSeq k n) (kernelObjective S nS alpha kernel absSumMat psi) X) {κ : Type*} (c : n → κ)
    (h : ∀ t i j, c i ≠ c j → nS t * |S t i j| ≤ alpha) : ∀ t i j, c i ≠ c j → X t i j = 0 := by
  classical
  intro t i j hij
  set B : n → Prop := fun l => c l = c i with hB
  have hcr : ∀ t k l, ¬ (B k ↔ B l) → nS t * |S t k l| ≤ alpha := fun t k l hkl =>
    h t k l fun e => hkl (by simp only [hB, e])
  have hle := timeTerms_cut B hS hn hcr (fun t => hX.1 t)
  have hle2 : kernelCoupling kernel psi (fun t => cutGroup B (X t)) ≤ kernelCoupling kernel psi X := by
    unfold kernelCoupling
    refine Finset.sum_le_sum fun s _ => Finset.sum_le_sum fun t _ => ?_
    by_cases hst : s < t
    · rw [if_pos hst, if_pos hst]
      exact mul_le_mul_of_nonneg_left (psi_cut B hconv hinv _ _) (hker s t hst)
    · rw [if_neg hst, if_neg hst]
  have he : (fun t => cutGroup B (X t)) = X := by
    by_contra hne
    refine absurd (hX.2 _ (fun t => cutGroup_posDef B (hX.1 t)) hne) (not_lt.mpr ?_)
    unfold kernelObjective
    linarith
  rw [← he]
  refine cutGroup_cross B (X t) fun e => hij ?_
  exact (e.mp rfl).symm

/-- C185 (returned by the time-varying solver): the entries between the groups are as small as wanted. -/
theorem C185_time_returned [Nonempty n] {T : ℕ} {eigh : Eigh n} (he : IsEighOracle eigh)
    (a : TGLArgs T n) (hS : ∀ t, (a.empCov t).PosSemidef) (hn : ∀ t, 0 < a.nSamples t) (hal : 0 < a.alpha)
    (hbe : 0 ≤ a.beta) (hconv : ConvexPen a.psi) (hpos : ∀ X, 0 ≤ a.psi X) (hinv : SignInvariant a.psi)
    (hprox : IsProxOf a.psi a.prox) (hi : a.rhoOptions.tauInc = 1) (hd : a.rhoOptions.tauDec = 1)
    (hst : a.stopAt = none) (K0 : Batch (T + 1) n) {rho : ℝ} (hr : 0 < rho) {κ : Type*} (c : n → κ)
    (h : ∀ t i j, c i ≠ c j → a.nSamples t * |a.empCov t i j| ≤ a.alpha) (ε : ℝ) (hε : 0 < ε) :
    ∃ δ, 0 < δ ∧ ∃ M, ∀ tol rtol, 0 ≤ tol → tol ≤ δ → 0 ≤ rtol → rtol ≤ δ → ∀ m, M ≤ m →
      ∀ rh rn, ∃ Z hist it w,
        timeGraphicalLasso eigh { a with tol := tol, rtol := rtol } K0 rho m rh rn = .ok Z hist it w
          ∧ ∀ t i j, c i ≠ c j → |Z t i j| ≤ ε := by
  have hSs : ∀ t, (a.empCov t).IsSymm := fun t => by
    have := (hS t).isHermitian
    rwa [IsHermitian, conjTranspose_eq_transpose_of_trivial] at this
  obtain ⟨X, hX, -, hacc⟩ := C103_time_converges he a hS hn hal hbe hconv hpos hprox hi hd hst K0 hr
  have hz := C185_time hbe (fun t => (hn t).le) hSs hconv hinv hX c h
  obtain ⟨δ, hδ, M, hM⟩ := hacc ε hε
  refine ⟨δ, hδ, M, fun tol rtol h1 h2 h3 h4 m hm rh rn => ?_⟩
  obtain ⟨Z, hist, it, w, hrun, hcl⟩ := hM tol rtol h1 h2 h3 h4 m hm rh rn
  refine ⟨Z, hist, it, w, hrun, fun t i j hij => ?_⟩
  have := hcl t i j
  rwa [hz t i j hij, sub_zero] at this

/-- C185 (returned by the kernel solver). -/
theorem C185_kernel_returned [Nonempty n] {k : ℕ} (hk : 0 < k) {eigh : Eigh n} (he : IsEighOracle eigh)
    (a : KTArgs k Empty n) (kernel : Option (Fin k → Fin k → ℝ))
    (hker : ∀ s t, s < t → 0 ≤ kernelOf kernel s t) (hS : ∀ t, (a.empCov t).PosSemidef)
    (hn : ∀ t, 0 < a.nSamples t) (hal : 0 < a.alpha) (hconv : ConvexPen a.psi) (hpos : ∀ X, 0 ≤ a.psi X)
    (hinv : SignInvariant a.psi) (hprox : IsProxOf a.psi a.prox) (hi : a.rhoOptions.tauInc = 1)
    (hd : a.rhoOptions.tauDec = 1) (hst : a.stopAt = none) (K0 : Batch k n) {rho : ℝ} (hr : 0 < rho)
    {κ : Type*} (c : n → κ) (h : ∀ t i j, c i ≠ c j → a.nSamples t * |a.empCov t i j| ≤ a.alpha) (ε : ℝ)
    (hε : 0 < ε) :
    ∃ δ, 0 < δ ∧ ∃ M, ∀ tol rtol, 0 ≤ tol → tol ≤ δ → 0 ≤ rtol → rtol ≤ δ → ∀ m, M ≤ m →
      ∀ rh rn, ∃ Z hist it w,
        kernelTimeGraphicalLasso eigh { a with tol := tol, rtol := rtol } kernel K0 rho m rh rn = .ok Z hist it w
          ∧ ∀ t i j, c i ≠ c j → |Z t i j| ≤ ε := by
  have hSs : ∀ t, (a.empCov t).IsSymm := fun t => by
    have := (hS t).isHermitian
    rwa [IsHermitian, conjTranspose_eq_transpose_of_trivial] at this
  obtain ⟨X, hX, -, hacc⟩ := C102_kernel_converges hk he a kernel hker hS hn hal hconv hpos hprox hi hd hst K0 hr
  have hz := C185_kernel hker (fun t => (hn t).le) hSs hconv hinv hX c h
  obtain ⟨δ, hδ, M, hM⟩ := hacc ε hε
  refine ⟨δ, hδ, M, fun tol rtol h1 h2 h3 h4 m hm rh rn => ?_⟩
  obtain ⟨Z, hist, it, w, hrun, hcl⟩ := hM tol rtol h1 h2 h3 h4 m hm rh rn
  refine ⟨Z, hist, it, w, hrun, fun t i j hij => ?_⟩
  have := hcl t i j
  rwa [hz t i j hij, sub_zero] at this

/-- The penalties on differences: `psi="l1"`. -/
theorem C185_psi_l1 : SignInvariant (l1Norm : Matrix n n ℝ → ℝ) := fun r _ M => mat_l1 r M

/-- `psi="laplacian"`. -/
theorem C185_psi_laplacian : SignInvariant (fun M : Matrix n n ℝ => ∑ i, ∑ j, M i j ^ 2) :=
  fun r _ M => mat_sumSq r M

/-- The sum of the column norms, the penalty whose proximal map `psi="l2"` applies. -/
theorem C185_psi_l2 : SignInvariant (colNormSum : Matrix n n ℝ → ℝ) := by
  intro r hr M
  unfold colNormSum
  refine Finset.sum_congr rfl fun j _ => ?_
  congr 1
  refine Finset.sum_congr rfl fun i _ => ?_
  simp only [Relabel.mat, hr, Equiv.refl_apply]
  rw [mul_pow, mul_pow]
  have h1 := r.sign_sq i
  have h2 := r.sign_sq j
  rw [sq, sq (r.sign j), h1, h2, one_mul, one_mul]

/-- A covariance of three variables with two groups, `{0, 1}` and `{2}`: the hypotheses of C185 hold, and the group of
the first two variables is not split. -/
example : ∃ S : Matrix (Fin 3) (Fin 3) ℝ, S.IsSymm ∧ ∃ c : Fin 3 → Bool, (∀ i j, c i ≠ c j → |S i j| ≤ 1 / 2) ∧
    (∃ i j, c i ≠ c j ∧ S i j ≠ 0) ∧ ∃ i j, i ≠ j ∧ 1 / 2 < |S i j| := by
  refine ⟨!![2, 1, 1 / 3; 1, 2, 0; 1 / 3, 0, 1], ?_, fun i => decide (i = 2), ?_, ⟨0, 2, by decide, by simp⟩,
    0, 1, by decide, by norm_num⟩
  · ext i j; fin_cases i <;> fin_cases j <;> rfl
  · intro i j
    fin_cases i <;> fin_cases j <;> norm_num <;> decide

/-- What the network of a matrix is: the off-diagonal entries that are not zero, with their signs. -/
def SameNetwork (Z X : Matrix n n ℝ) : Prop := ∀ i j, i ≠ j → SignType.sign (Z i j) = SignType.sign (X i j)

section

variable {eigh : Eigh n} {a : GLArgs n} {Z0 : Matrix n n ℝ} {rho : ℝ}

theorem gl_dual_tendsto (h : ConstPenalty eigh a Z0 rho) {X : Matrix n n ℝ}
    (hX : IsMin (PD n) (glObjective a.empCov a.alpha) X) :
    Tendsto (fun k => (st eigh a Z0 rho k).U) atTop (𝓝 (rho⁻¹ • (X⁻¹ - a.empCov))) := by
  obtain ⟨-, -, hK, hZ⟩ := C18_converges h hX
  have hinv : Tendsto (fun k => (Kit eigh a Z0 rho k)⁻¹) atTop (𝓝 X⁻¹) := by
    have hXpd : X.PosDef := hX.1
    have hdet : Tendsto (fun k => (Kit eigh a Z0 rho k).det) atTop (𝓝 X.det) :=
      ((continuous_id.matrix_det).tendsto X).comp hK
    have hadj : Tendsto (fun k => (Kit eigh a Z0 rho k).adjugate) atTop (𝓝 X.adjugate) :=
      ((continuous_id.matrix_adjugate).tendsto X).comp hK
    have := (hdet.inv₀ hXpd.det_pos.ne').smul hadj
    simpa only [Matrix.inv_def, Ring.inverse_eq_inv'] using this
  have e : ∀ k, (st eigh a Z0 rho k).U = rho⁻¹ • ((Kit eigh a Z0 rho k)⁻¹ - a.empCov) + (st eigh a Z0 rho k).Z
      - Kit eigh a Z0 rho k := by
    intro k
    obtain ⟨h1, h2, h3⟩ := st_facts h k
    have hi := glK_inv h.eighOk h.symS h.rhoPos (st eigh a Z0 rho k).Z (st eigh a Z0 rho k).U
    have hk : Kit eigh a Z0 rho k = glK eigh a.empCov rho (st eigh a Z0 rho k).Z (st eigh a Z0 rho k).U := by
      show glK _ _ _ _ _ = _
      rw [h1]
    have hsy : (st eigh a Z0 rho k).Z.IsSymm := h2
    rw [symmetrize_of_isSymm (by rw [IsSymm, transpose_sub, h2.eq, h3.eq])] at hi
    rw [hk, hi]
    ext i j
    simp only [Matrix.add_apply, Matrix.sub_apply, Matrix.smul_apply, smul_eq_mul]
    have hr := h.rhoPos.ne'
    field_simp
    ring
  have := ((hinv.sub_const a.empCov).const_smul rho⁻¹).add hZ |>.sub hK
  rw [add_sub_cancel_right] at this
  exact this.congr fun k => (e k).symm

theorem softOff_ne {A : Matrix n n ℝ} {lam : ℝ} {i j : n} (hij : i ≠ j) :
    softThresholdingOffDiagonal A lam i j = softScalar (A i j) lam := by
  unfold softThresholdingOffDiagonal fillDiagonal
  rw [if_neg hij]
  rfl

/-- An entry whose dual is strictly inside its interval is exactly zero from some iteration on. -/
theorem gl_entry_eventually_zero (h : ConstPenalty eigh a Z0 rho) {X : Matrix n n ℝ}
    (hX : IsMin (PD n) (glObjective a.empCov a.alpha) X) {i j : n} (hij : i ≠ j) (hx : X i j = 0)
    (hd : |X⁻¹ i j - a.empCov i j| < a.alpha) : ∀ᶠ k in atTop, (st eigh a Z0 rho k).Z i j = 0 := by
  obtain ⟨-, -, hK, -⟩ := C18_converges h hX
  have hU := gl_dual_tendsto h hX
  have hlim := hK.add hU
  have hent : Tendsto (fun k => (Kit eigh a Z0 rho k + (st eigh a Z0 rho k).U) i j) atTop
      (𝓝 ((X + rho⁻¹ • (X⁻¹ - a.empCov)) i j)) := by
    exact tendsto_pi_nhds.mp (tendsto_pi_nhds.mp hlim i) j
  have hlt : |(X + rho⁻¹ • (X⁻¹ - a.empCov)) i j| < a.alpha / rho := by
    rw [Matrix.add_apply, Matrix.smul_apply, Matrix.sub_apply, hx, zero_add, smul_eq_mul, abs_mul,
      abs_of_pos (inv_pos.mpr h.rhoPos), div_eq_inv_mul]
    exact mul_lt_mul_of_pos_left hd (inv_pos.mpr h.rhoPos)
  have hev := hent.abs.eventually_lt_const hlt
  have hev2 : ∀ᶠ k in atTop, (st eigh a Z0 rho (k + 1)).Z i j = 0 := by
    filter_upwards [hev] with k hk
    rw [st_succ h k]
    show glZ a.alpha _ _ _ i j = 0
    unfold glZ
    rw [softOff_ne hij]
    refine softScalar_of_abs_le ?_
    have e : a.alpha / (st eigh a Z0 rho k).rho = a.alpha / rho := by rw [(st_facts h k).1]
    exact hk.le.trans_eq e.symm
  obtain ⟨N, hN⟩ := eventually_atTop.mp hev2
  refine eventually_atTop.mpr ⟨N + 1, fun k hk => ?_⟩
  obtain ⟨m, rfl⟩ : ∃ m, k = m + 1 := ⟨k - 1, by omega⟩
  exact hN m (by omega)

/-- An entry of the optimum that is not zero is found with its sign from some iteration on. -/
theorem gl_entry_eventually_sign (h : ConstPenalty eigh a Z0 rho) {X : Matrix n n ℝ}
    (hX : IsMin (PD n) (glObjective a.empCov a.alpha) X) {i j : n} (hx : X i j ≠ 0) :
    ∀ᶠ k in atTop, SignType.sign ((st eigh a Z0 rho k).Z i j) = SignType.sign (X i j) := by
  obtain ⟨-, -, -, hZ⟩ := C18_converges h hX
  have hent : Tendsto (fun k => (st eigh a Z0 rho k).Z i j) atTop (𝓝 (X i j)) := by
    exact tendsto_pi_nhds.mp (tendsto_pi_nhds.mp hZ i) j
  rcases lt_or_gt_of_ne hx with hneg | hpos
  · filter_upwards [hent.eventually_lt_const hneg] with k hk
    rw [sign_neg hk, sign_neg hneg]
  · filter_upwards [hent.eventually_const_lt hpos] with k hk
    rw [sign_pos hk, sign_pos hpos]

/-- C186: `graphical_lasso` finds the network of the optimum exactly. If no off-diagonal entry of the optimum that is
zero has its dual on the boundary (`|(X⁻¹ - S)_ij| < alpha`), every call with small enough tolerances and large enough
`max_iter` returns a precision with exact zeros exactly where the optimum has them, and with the right signs elsewhere. -/
theorem C186_network [Nonempty n] (h : ConstPenalty eigh a Z0 rho) {X : Matrix n n ℝ}
    (hX : IsMin (PD n) (glObjective a.empCov a.alpha) X)
    (hstrict : ∀ i j, i ≠ j → X i j = 0 → |X⁻¹ i j - a.empCov i j| < a.alpha) :
    ∃ δ, 0 < δ ∧ ∃ M, ∀ tol rtol, 0 ≤ tol → tol ≤ δ → 0 ≤ rtol → rtol ≤ δ → ∀ m, M ≤ m →
      ∀ rh rn, ∃ Z S hist it w,
        graphicalLasso eigh { a with tol := tol, rtol := rtol } Z0 rho m rh rn = .ok Z S hist it w ∧
          SameNetwork Z X := by
  refine gl_accuracy h hX (P := fun Z => SameNetwork Z X) ?_ fun i j _ => rfl
  unfold SameNetwork
  rw [eventually_all]
  intro i
  rw [eventually_all]
  intro j
  by_cases hij : i = j
  · exact Eventually.of_forall fun k hne => absurd hij hne
  · by_cases hx : X i j = 0
    · filter_upwards [gl_entry_eventually_zero h hX hij hx (hstrict i j hij hx)] with k hk _
      rw [hk, hx]
    · filter_upwards [gl_entry_eventually_sign h hX hx] with k hk _
      exact hk

/-- A problem with an edge and with two missing edges whose optimum satisfies the condition of C186. -/
example : ∃ S X : Matrix (Fin 3) (Fin 3) ℝ, S.IsSymm ∧ IsMin (PD (Fin 3)) (glObjective S (1 / 2)) X ∧
    (∀ i j, i ≠ j → X i j = 0 → |X⁻¹ i j - S i j| < 1 / 2) ∧ X 0 1 ≠ 0 ∧ X 0 2 = 0 ∧ S 0 2 ≠ 0 := by
  set S : Matrix (Fin 3) (Fin 3) ℝ := !![2, 1, 1 / 4; 1, 2, 0; 1 / 4, 0, 1] with hSdef
  have hSs : S.IsSymm := by ext i j; fin_cases i <;> fin_cases j <;> rfl
  have hpsd : S.PosSemidef := by
    refine PosSemidef.of_dotProduct_mulVec_nonneg ?_ fun v => ?_
    · rw [IsHermitian, conjTranspose_eq_transpose_of_trivial]; exact hSs
    · have : star v ⬝ᵥ (S *ᵥ v) = 2 * v 0 ^ 2 + 2 * v 0 * v 1 + 2 * v 1 ^ 2 + 1 / 2 * (v 0 * v 2) + v 2 ^ 2 := by
        simp [hSdef, dotProduct, mulVec, Fin.sum_univ_three]
        ring
      rw [this]
      nlinarith [sq_nonneg (v 0 + v 1), sq_nonneg (v 0 + 1 / 4 * v 2), sq_nonneg (v 2), sq_nonneg (v 1)]
  obtain ⟨X, hX⟩ := gl_exists_min hpsd (fun i => by fin_cases i <;> simp [hSdef]) (alpha := 1 / 2) (by norm_num)
  have hun := gl_uniqueMin hSs (by norm_num) hX
  have hXs : X.IsSymm := PosDef.isSymm' hX.1
  have hz := (C185_groups_iff (by norm_num) hSs hun (fun i : Fin 3 => decide (i = 2))).mpr (by
    intro i j
    fin_cases i <;> fin_cases j <;> norm_num [hSdef] <;> decide)
  have h02 := hz 0 2 (by decide)
  have h12 := hz 1 2 (by decide)
  have hinv := inv_groups hX.1 hz
  have h01 : X 0 1 ≠ 0 := by
    intro h0
    have := (C185_alpha_max (by norm_num) hSs hun).1.mp (by
      intro i j hij
      fin_cases i <;> fin_cases j <;> first
        | exact absurd rfl hij | exact h0 | exact h02 | exact h12 | exact (hXs.apply _ _).trans h0
        | exact (hXs.apply _ _).trans h02 | exact (hXs.apply _ _).trans h12) 0 1 (by decide)
    norm_num [hSdef] at this
  refine ⟨S, X, hSs, hX, ?_, h01, h02, by simp [hSdef]⟩
  intro i j hij hx
  have h10 : X 1 0 ≠ 0 := by rw [hXs.apply 0 1]; exact h01
  by_cases hg : decide (i = 2) = decide (j = 2)
  · exfalso
    fin_cases i <;> fin_cases j <;> first
      | exact absurd rfl hij | exact h01 hx | exact h10 hx | exact absurd hg (by decide)
  · rw [hinv i j hg, zero_sub, abs_neg]
    fin_cases i <;> fin_cases j <;> first
      | exact absurd rfl hij | exact absurd rfl hg | norm_num [hSdef]

/-- C186 (edges are never missed): without any further condition every edge of the optimum is in the returned network,
with its sign. -/
theorem C186_edges_found [Nonempty n] (h : ConstPenalty eigh a Z0 rho) {X : Matrix n n ℝ}
    (hX : IsMin (PD n) (glObjective a.empCov a.alpha) X) :
    ∃ δ, 0 < δ ∧ ∃ M, ∀ tol rtol, 0 ≤ tol → tol ≤ δ → 0 ≤ rtol → rtol ≤ δ → ∀ m, M ≤ m →
      ∀ rh rn, ∃ Z S hist it w,
        graphicalLasso eigh { a with tol := tol, rtol := rtol } Z0 rho m rh rn = .ok Z S hist it w ∧
          ∀ i j, X i j ≠ 0 → SignType.sign (Z i j) = SignType.sign (X i j) := by
  refine gl_accuracy h hX (P := fun Z => ∀ i j, X i j ≠ 0 → SignType.sign (Z i j) = SignType.sign (X i j)) ?_
    fun i j _ => rfl
  rw [eventually_all]
  intro i
  rw [eventually_all]
  intro j
  by_cases hx : X i j = 0
  · exact Eventually.of_forall fun k hne => absurd hx hne
  · filter_upwards [gl_entry_eventually_sign h hX hx] with k hk _
    exact hk

/-- C185 (returned precision): if the covariances between different groups are smaller than `alpha` in absolute value,
every call with small enough tolerances and large enough `max_iter` returns exact zeros between the groups. -/
theorem C185_returned [Nonempty n] (h : ConstPenalty eigh a Z0 rho) (hS : a.empCov.PosSemidef)
    (hdiag : ∀ i, 0 < a.empCov i i) (hal : 0 < a.alpha) {κ : Type*} (c : n → κ)
    (hc : ∀ i j, c i ≠ c j → |a.empCov i j| < a.alpha) :
    ∃ δ, 0 < δ ∧ ∃ M, ∀ tol rtol, 0 ≤ tol → tol ≤ δ → 0 ≤ rtol → rtol ≤ δ → ∀ m, M ≤ m →
      ∀ rh rn, ∃ Z S hist it w,
        graphicalLasso eigh { a with tol := tol, rtol := rtol } Z0 rho m rh rn = .ok Z S hist it w ∧
          ∀ i j, c i ≠ c j → Z i j = 0 := by
  obtain ⟨X, hX⟩ := gl_exists_min hS hdiag hal
  have hun := gl_uniqueMin h.symS hal.le hX
  have hz := (C185_groups_iff hal.le h.symS hun c).mpr fun i j hij => (hc i j hij).le
  refine gl_accuracy h hX (P := fun Z => ∀ i j, c i ≠ c j → Z i j = 0) ?_ hz
  rw [eventually_all]
  intro i
  rw [eventually_all]
  intro j
  by_cases hij : c i = c j
  · exact Eventually.of_forall fun k hne => absurd hij hne
  · have hne : i ≠ j := fun e => hij (by rw [e])
    have hd : |X⁻¹ i j - a.empCov i j| < a.alpha := by
      rw [inv_groups hX.1 hz i j hij, zero_sub, abs_neg]
      exact hc i j hij
    filter_upwards [gl_entry_eventually_zero h hX hne (hz i j hij) hd] with k hk _
    exact hk

/-- C185 (no edges returned): with `alpha` above every absolute covariance, the returned precision is exactly diagonal. -/
theorem C185_returned_empty [Nonempty n] (h : ConstPenalty eigh a Z0 rho) (hS : a.empCov.PosSemidef)
    (hdiag : ∀ i, 0 < a.empCov i i) (hal : 0 < a.alpha) (hc : ∀ i j, i ≠ j → |a.empCov i j| < a.alpha) :
    ∃ δ, 0 < δ ∧ ∃ M, ∀ tol rtol, 0 ≤ tol → tol ≤ δ → 0 ≤ rtol → rtol ≤ δ → ∀ m, M ≤ m →
      ∀ rh rn, ∃ Z S hist it w,
        graphicalLasso eigh { a with tol := tol, rtol := rtol } Z0 rho m rh rn = .ok Z S hist it w ∧
          ∀ i j, i ≠ j → Z i j = 0 :=
  C185_returned h hS hdiag hal (id : n → n) hc

end

end Verif.Props
