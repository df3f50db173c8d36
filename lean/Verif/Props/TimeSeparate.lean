import Verif.Props.TimeConst
import Verif.Props.TimeConv
import Verif.Props.GLExist
import Verif.Props.Moments
import Verif.Props.AutoKernel

/-! C205: time-varying fits without coupling, and the static graphical lasso of every time point. -/

namespace Verif.Props

open Verif.Model Verif.Spec Verif.Lemmas Matrix

set_option autoImplicit false
set_option linter.unusedSectionVars false

variable {n : Type*} [Fintype n] [DecidableEq n]

/-- The full absolute sum of a positive definite matrix is the off-diagonal one plus the trace. -/
theorem absSumMat_posDef {X : Matrix n n ℝ} (hX : X.PosDef) : absSumMat X = absSumOff X + trace X := by
  unfold absSumMat absSumOff trace
  rw [← Finset.sum_add_distrib]
  refine Finset.sum_congr rfl fun i _ => ?_
  have h : ∀ j, |X i j| = (if i = j then 0 else |X i j|) + (if i = j then X i j else 0) := by
    intro j
    by_cases hij : i = j
    · subst hij; simp [abs_of_pos hX.diag_pos]
    · simp [hij]
  rw [Finset.sum_congr rfl fun j _ => h j, Finset.sum_add_distrib]
  simp

/-- The problem of one time point is the graphical lasso of a covariance with larger variances. -/
theorem static_eq_gl {S X : Matrix n n ℝ} {w alpha : ℝ} (hw : 0 < w) (hX : X.PosDef) :
    staticObjective S w alpha X = w * glObjective (S + (alpha / w) • (1 : Matrix n n ℝ)) (alpha / w) X := by
  unfold staticObjective glObjective
  rw [absSumMat_posDef hX, add_mul, trace_add, smul_mul_assoc, one_mul, trace_smul, smul_eq_mul]
  field_simp
  ring

theorem static_uniqueMin {S X : Matrix n n ℝ} {w alpha : ℝ} (hw : 0 < w) :
    UniqueMin (PD n) (staticObjective S w alpha) X ↔
      UniqueMin (PD n) (glObjective (S + (alpha / w) • (1 : Matrix n n ℝ)) (alpha / w)) X := by
  constructor
  · intro h
    refine ⟨h.1, fun Y hY hne => ?_⟩
    have := h.2 Y hY hne
    rw [static_eq_gl hw h.1, static_eq_gl hw hY] at this
    exact lt_of_mul_lt_mul_left this hw.le
  · intro h
    refine ⟨h.1, fun Y hY hne => ?_⟩
    rw [static_eq_gl hw h.1, static_eq_gl hw hY]
    exact mul_lt_mul_of_pos_left (h.2 Y hY hne) hw

/-- A sum of separate problems is solved by solving each of them. -/
theorem separate_uniqueMin {k : ℕ} {s : Set (Matrix n n ℝ)} {f : Fin k → Matrix n n ℝ → ℝ} {X : Fin k → Matrix n n ℝ} :
    UniqueMin {K : Fin k → Matrix n n ℝ | ∀ t, K t ∈ s} (fun K => ∑ t, f t (K t)) X ↔
      ∀ t, UniqueMin s (f t) (X t) := by
  constructor
  · intro h t
    refine ⟨h.1 t, fun Y hY hne => ?_⟩
    have h1 := h.2 (Function.update X t Y) (by
      intro u
      by_cases hu : u = t
      · subst hu; simpa using hY
      · simpa [hu] using h.1 u) (by
      intro e
      exact hne (by rw [← e]; simp))
    beta_reduce at h1
    rw [← Finset.add_sum_erase _ _ (Finset.mem_univ t), ← Finset.add_sum_erase _ (fun u => f u (Function.update X t Y u))
      (Finset.mem_univ t)] at h1
    have e : ∑ u ∈ Finset.univ.erase t, f u (Function.update X t Y u) = ∑ u ∈ Finset.univ.erase t, f u (X u) :=
      Finset.sum_congr rfl fun u hu => by rw [Function.update_of_ne (Finset.ne_of_mem_erase hu)]
    rw [e, Function.update_self] at h1
    linarith
  · intro h
    refine ⟨fun t => (h t).1, fun K hK hne => ?_⟩
    obtain ⟨t, ht⟩ : ∃ t, K t ≠ X t := by
      by_contra hc
      push Not at hc
      exact hne (funext hc)
    refine Finset.sum_lt_sum (fun u _ => ?_) ⟨t, Finset.mem_univ t, (h t).2 _ (hK t) ht⟩
    exact (h u).isMin.2 _ (hK u)

/-- **C205**: without coupling (`beta = 0`) the optimum of the time-varying problem is, time by time, exactly the
graphical lasso optimum of the covariance `S_t + (alpha / n_t) I` with penalty `alpha / n_t`; and conversely. -/
theorem C205_uncoupled {T : ℕ} {S : Fin (T + 1) → Matrix n n ℝ} {w : Fin (T + 1) → ℝ} (hw : ∀ t, 0 < w t) {alpha : ℝ}
    {psi : Matrix n n ℝ → ℝ} {X : Fin (T + 1) → Matrix n n ℝ} :
    UniqueMin (PDSeq (T + 1) n) (timeObjective S w alpha 0 absSumMat psi) X ↔
      ∀ t, UniqueMin (PD n) (glObjective (S t + (alpha / w t) • (1 : Matrix n n ℝ)) (alpha / w t)) (X t) := by
  have e : timeObjective S w alpha 0 absSumMat psi = fun K => ∑ t, staticObjective (S t) (w t) alpha (K t) := by
    funext K
    rw [timeObjective_eq_static, zero_mul, add_zero]
  rw [e]
  exact (separate_uniqueMin (s := PD n)).trans (forall_congr' fun t => static_uniqueMin (hw t))

/-- **C205**: the same for the kernel problem, for every kernel that is zero between different times (the value
of the kernel that `ker_param="auto"` ends with, see C204). -/
theorem C205_uncoupled_kernel {k : ℕ} {S : Fin k → Matrix n n ℝ} {w : Fin k → ℝ} (hw : ∀ t, 0 < w t) {alpha : ℝ}
    {kernel : Fin k → Fin k → ℝ} (hker : ∀ s t, s < t → kernel s t = 0)
    {psi : Matrix n n ℝ → ℝ} {X : Fin k → Matrix n n ℝ} :
    UniqueMin (PDSeq k n) (kernelObjective S w alpha kernel absSumMat psi) X ↔
      ∀ t, UniqueMin (PD n) (glObjective (S t + (alpha / w t) • (1 : Matrix n n ℝ)) (alpha / w t)) (X t) := by
  have e : kernelObjective S w alpha kernel absSumMat psi = fun K => ∑ t, staticObjective (S t) (w t) alpha (K t) := by
    funext K
    rw [kernelObjective_eq_static, add_eq_left]
    unfold kernelCoupling
    refine Finset.sum_eq_zero fun s _ => Finset.sum_eq_zero fun t _ => ?_
    split
    · rename_i h; rw [hker s t h, zero_mul]
    · rfl
  rw [e]
  exact (separate_uniqueMin (s := PD n)).trans (forall_congr' fun t => static_uniqueMin (hw t))

/-- Larger variances keep a covariance positive semidefinite, with positive diagonal. -/
theorem shifted_cov {S : Matrix n n ℝ} (hS : S.PosSemidef) {c : ℝ} (hc : 0 < c) :
    (S + c • (1 : Matrix n n ℝ)).PosDef :=
  Matrix.PosDef.posSemidef_add hS (Matrix.PosDef.one.smul hc)

/-- **C205**: the calls agree. With `beta = 0`, constant penalty parameter and tolerances small enough, every time
point returned by `time_graphical_lasso` is within any given distance of what `graphical_lasso` returns for
`S_t + (alpha / n_t) I` and `alpha / n_t`, whatever the starting matrices and penalty parameters of the calls. -/
theorem C205_calls_agree [Nonempty n] {T : ℕ} {eigh : Eigh n} (he : IsEighOracle eigh)
    (a : TGLArgs T n) (hS : ∀ t, (a.empCov t).PosSemidef) (hw : ∀ t, 0 < a.nSamples t) (hal : 0 < a.alpha)
    (hbe : a.beta = 0) (hconv : ConvexPen a.psi) (hpos : ∀ X, 0 ≤ a.psi X) (hprox : IsProxOf a.psi a.prox)
    (hi : a.rhoOptions.tauInc = 1) (hd : a.rhoOptions.tauDec = 1) (hst : a.stopAt = none) (K0 : Batch (T + 1) n)
    {rho : ℝ} (hr : 0 < rho) (t : Fin (T + 1)) {b : GLArgs n} {Z0 : Matrix n n ℝ} {rho' : ℝ}
    (hb : ConstPenalty eigh b Z0 rho') (hbS : b.empCov = a.empCov t + (a.alpha / a.nSamples t) • (1 : Matrix n n ℝ))
    (hba : b.alpha = a.alpha / a.nSamples t) (ε : ℝ) (hε : 0 < ε) :
    ∃ δ, 0 < δ ∧ ∃ M, ∀ tol rtol, 0 ≤ tol → tol ≤ δ → 0 ≤ rtol → rtol ≤ δ → ∀ m, M ≤ m → ∀ rh rn,
      ∃ Z h it w Z' C h' it' w',
        timeGraphicalLasso eigh { a with tol := tol, rtol := rtol } K0 rho m rh rn = .ok Z h it w ∧
        graphicalLasso eigh { b with tol := tol, rtol := rtol } Z0 rho' m rh rn = .ok Z' C h' it' w' ∧
        CloseMat ε (Z t) Z' := by
  obtain ⟨X, hX, -, h1⟩ := C103_time_converges he a hS hw hal hbe.ge hconv hpos hprox hi hd hst K0 hr
  have hc : 0 < a.alpha / a.nSamples t := div_pos hal (hw t)
  have hpd := shifted_cov (hS t) hc
  obtain ⟨Y, hY, -, h2⟩ := C104_solves hb (by rw [hbS]; exact hpd.posSemidef) (fun i => by rw [hbS]; exact hpd.diag_pos)
    (by rw [hba]; exact hc)
  rw [hbe] at hX
  rw [hbS, hba] at hY
  have hXY : X t = Y := hY.eq_of_isMin ((C205_uncoupled hw).mp hX t).isMin
  obtain ⟨d1, hd1, M1, h1⟩ := h1 (ε / 2) (half_pos hε)
  obtain ⟨d2, hd2, M2, h2⟩ := h2 (ε / 2) (half_pos hε)
  refine ⟨min d1 d2, lt_min hd1 hd2, max M1 M2, fun tol rtol ht0 ht hr0 hrt m hm rh rn => ?_⟩
  obtain ⟨Z, h, it, w, e1, c1⟩ := h1 tol rtol ht0 (ht.trans (min_le_left _ _)) hr0 (hrt.trans (min_le_left _ _)) m
    ((le_max_left _ _).trans hm) rh rn
  obtain ⟨Z', C, h', it', w', e2, c2⟩ := h2 tol rtol ht0 (ht.trans (min_le_right _ _)) hr0
    (hrt.trans (min_le_right _ _)) m ((le_max_right _ _).trans hm) rh rn
  refine ⟨Z, h, it, w, Z', C, h', it', w', e1, e2, fun i j => ?_⟩
  have a1 := c1 t i j
  have a2 := c2 i j
  rw [hXY] at a1
  rw [abs_le] at *
  constructor <;> linarith [a1.1, a1.2, a2.1, a2.2]

/-- **C205**: the fitted variances of an uncoupled time point are the sample variances plus `alpha / n_t`, exactly. -/
theorem C205_variances {T : ℕ} {S : Fin (T + 1) → Matrix n n ℝ} {w : Fin (T + 1) → ℝ} (hS : ∀ t, (S t).IsSymm)
    (hw : ∀ t, 0 < w t) {alpha : ℝ} (hal : 0 ≤ alpha)
    {psi : Matrix n n ℝ → ℝ} {X : Fin (T + 1) → Matrix n n ℝ}
    (hX : UniqueMin (PDSeq (T + 1) n) (timeObjective S w alpha 0 absSumMat psi) X) (t : Fin (T + 1)) (i : n) :
    (X t)⁻¹ i i = S t i i + alpha / w t := by
  have h := (C205_uncoupled hw).mp hX t
  have h1 := ((C193_optimum_iff (div_nonneg hal (hw t).le) (by
    rw [Matrix.IsSymm, transpose_add, transpose_smul, transpose_one, (hS t).eq]) h.1).mp h).1 i
  simpa using h1

/-- **C205**, finding: without coupling no time point of the fit is the fit of `graphical_lasso` on the data of that
time, for any penalty `alpha' ≥ 0` whatever. -/
theorem C205_separate_fits_false [Nonempty n] {T : ℕ} {S : Fin (T + 1) → Matrix n n ℝ} {w : Fin (T + 1) → ℝ}
    (hS : ∀ t, (S t).IsSymm) (hw : ∀ t, 0 < w t) {alpha : ℝ} (hal : 0 < alpha)
    {psi : Matrix n n ℝ → ℝ} {X : Fin (T + 1) → Matrix n n ℝ}
    (hX : UniqueMin (PDSeq (T + 1) n) (timeObjective S w alpha 0 absSumMat psi) X) (t : Fin (T + 1)) (alpha' : ℝ)
    (hal' : 0 ≤ alpha') : ¬ UniqueMin (PD n) (glObjective (S t) alpha') (X t) := by
  intro h
  obtain ⟨i⟩ := ‹Nonempty n›
  have h1 := ((C193_optimum_iff hal' (hS t) h.1).mp h).1 i
  rw [C205_variances hS hw hal.le hX t i] at h1
  have := div_pos hal (hw t)
  linarith

/-- **C205**: under the documented off-diagonal penalty the uncoupled optimum would be the graphical lasso of the
time point with penalty `alpha / n_t`. -/
theorem C205_documented {T : ℕ} {S : Fin (T + 1) → Matrix n n ℝ} {w : Fin (T + 1) → ℝ} (hw : ∀ t, 0 < w t) {alpha : ℝ}
    {psi : Matrix n n ℝ → ℝ} {X : Fin (T + 1) → Matrix n n ℝ} :
    UniqueMin (PDSeq (T + 1) n) (timeObjective S w alpha 0 absSumOff psi) X ↔
      ∀ t, UniqueMin (PD n) (glObjective (S t) (alpha / w t)) (X t) := by
  have e : timeObjective S w alpha 0 absSumOff psi = fun K => ∑ t, (fun t Y => w t * glObjective (S t) (alpha / w t) Y) t (K t) := by
    funext K
    unfold timeObjective glObjective
    rw [zero_mul, add_zero, Finset.mul_sum, ← Finset.sum_add_distrib]
    refine Finset.sum_congr rfl fun t _ => ?_
    have := (hw t).ne'
    field_simp
  rw [e]
  refine (separate_uniqueMin (s := PD n) (f := fun t Y => w t * glObjective (S t) (alpha / w t) Y)).trans
    (forall_congr' fun t => ?_)
  constructor
  · exact fun h => ⟨h.1, fun Y hY hne => lt_of_mul_lt_mul_left (h.2 Y hY hne) (hw t).le⟩
  · exact fun h => ⟨h.1, fun Y hY hne => mul_lt_mul_of_pos_left (h.2 Y hY hne) (hw t)⟩

/-- The hypotheses are met: one variable, two time points with variances 1 and 2 and 10 and 20 samples. -/
example : ∃ X : Fin 2 → Matrix (Fin 1) (Fin 1) ℝ,
    UniqueMin (PDSeq 2 (Fin 1)) (timeObjective (fun t => ((t : ℝ) + 1) • (1 : Matrix (Fin 1) (Fin 1) ℝ))
      (fun t => 10 * ((t : ℝ) + 1)) 1 0 absSumMat (fun _ => 0)) X := by
  have hw : ∀ t : Fin 2, (0 : ℝ) < 10 * (((t : ℕ) : ℝ) + 1) := fun t => by positivity
  have hpd : ∀ t : Fin 2, ((((t : ℕ) : ℝ) + 1) • (1 : Matrix (Fin 1) (Fin 1) ℝ)).PosSemidef := fun t =>
    (Matrix.PosDef.one.smul (by positivity)).posSemidef
  have hex : ∀ t : Fin 2, ∃ Y, UniqueMin (PD (Fin 1)) (glObjective ((((t : ℕ) : ℝ) + 1) • (1 : Matrix (Fin 1) (Fin 1) ℝ)
      + (1 / (10 * (((t : ℕ) : ℝ) + 1))) • (1 : Matrix (Fin 1) (Fin 1) ℝ)) (1 / (10 * (((t : ℕ) : ℝ) + 1)))) Y := by
    intro t
    have hc : (0 : ℝ) < 1 / (10 * (((t : ℕ) : ℝ) + 1)) := one_div_pos.mpr (hw t)
    have h := shifted_cov (hpd t) hc
    obtain ⟨Y, hY⟩ := gl_exists_min h.posSemidef (fun i => h.diag_pos) hc
    have hs := h.isHermitian
    rw [IsHermitian, conjTranspose_eq_transpose_of_trivial] at hs
    exact ⟨Y, gl_uniqueMin hs hc.le hY⟩
  choose X hX using hex
  exact ⟨X, (C205_uncoupled hw).mpr hX⟩

end Verif.Props
