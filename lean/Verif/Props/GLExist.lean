import Verif.Lemmas.TimeRun
import Verif.Props.GLConv
import Verif.Props.TimeConv

/-! Property theorem C104 (the graphical lasso problem has an optimum exactly when all variances are positive;
convergence without assuming an optimum). -/

namespace Verif.Props

open Verif.Model Verif.Spec Verif.Lemmas Matrix Filter Topology

set_option autoImplicit false
set_option linter.unusedSectionVars false

variable {n : Type*} [Fintype n] [DecidableEq n]

theorem trace_mul_ge {S K : Matrix n n ℝ} {M : ℝ} (hM : ∀ i j, |S i j| ≤ M) (hK : K.IsSymm) :
    ∑ i, S i i * K i i - M * absSumOff K ≤ trace (S * K) := by
  unfold trace absSumOff
  rw [Finset.mul_sum, ← Finset.sum_sub_distrib]
  refine Finset.sum_le_sum fun i _ => ?_
  simp only [Matrix.diag_apply, Matrix.mul_apply]
  rw [Finset.mul_sum, ← Finset.add_sum_erase _ (fun j => S i j * K j i) (Finset.mem_univ i),
    ← Finset.add_sum_erase _ (fun j => M * if i = j then 0 else |K i j|) (Finset.mem_univ i)]
  simp only [if_true, mul_zero, zero_add, sub_eq_add_neg, ← Finset.sum_neg_distrib]
  refine add_le_add le_rfl (Finset.sum_le_sum fun j hj => ?_)
  rw [if_neg (Finset.ne_of_mem_erase hj).symm, hK.apply i j]
  have h1 := neg_abs_le (S i j * K i j)
  rw [abs_mul] at h1
  have h2 := mul_le_mul_of_nonneg_right (hM i j) (abs_nonneg (K i j))
  linarith

theorem absSumOff_nonneg' (K : Matrix n n ℝ) : 0 ≤ absSumOff K :=
  Finset.sum_nonneg fun i _ => Finset.sum_nonneg fun j _ => by split <;> positivity

theorem absSumOff_continuous : Continuous (absSumOff (n := n)) := by
  unfold absSumOff
  refine continuous_finsetSum _ fun i _ => continuous_finsetSum _ fun j _ => ?_
  split
  · exact continuous_const
  · exact (continuous_id.matrix_elem i j).abs

theorem gl_exists_min {S : Matrix n n ℝ} (hS : S.PosSemidef) (hdiag : ∀ i, 0 < S i i) {alpha : ℝ}
    (hal : 0 < alpha) : ∃ X, IsMin (PD n) (glObjective S alpha) X := by
  -- a positive lower bound of the variances and a bound of the entries
  obtain ⟨s, hs0, hs⟩ : ∃ s : ℝ, 0 < s ∧ ∀ i, s ≤ S i i := by
    rcases isEmpty_or_nonempty n with h | h
    · exact ⟨1, one_pos, fun i => isEmptyElim i⟩
    · obtain ⟨i, -, hi⟩ := Finset.exists_min_image Finset.univ (fun i => S i i) Finset.univ_nonempty
      exact ⟨S i i, hdiag i, fun j => hi j (Finset.mem_univ _)⟩
  set M : ℝ := ∑ i, ∑ j, |S i j| with hMdef
  have hM : ∀ i j, |S i j| ≤ M := fun i j =>
    (Finset.single_le_sum (f := fun j => |S i j|) (fun j _ => abs_nonneg _) (Finset.mem_univ j)).trans
      (Finset.single_le_sum (f := fun i => ∑ j, |S i j|)
        (fun i _ => Finset.sum_nonneg fun j _ => abs_nonneg _) (Finset.mem_univ i))
  have hM0 : 0 ≤ M := Finset.sum_nonneg fun i _ => Finset.sum_nonneg fun j _ => abs_nonneg _
  set ε : ℝ := min 1 (alpha / (M + 1)) with hε
  have hε0 : 0 < ε := lt_min one_pos (by positivity)
  have hε1 : ε ≤ 1 := min_le_left _ _
  have hεM : ε * M ≤ alpha := by
    have h1 : ε ≤ alpha / (M + 1) := min_le_right _ _
    rw [le_div_iff₀ (by positivity)] at h1
    linarith
  obtain ⟨X, hX1, hX2⟩ := exists_min_logdet (ι := Fin 1) (n := n) (N := fun _ => 1) (c := fun _ => ε * s) (b := 0)
    (P := fun K => trace (S * K 0) + alpha * absSumOff (K 0)) (fun _ => one_pos) (fun _ => by positivity)
    (by
      have hproj : Continuous fun K : Fin 1 → Matrix n n ℝ => K 0 := continuous_apply 0
      exact ((continuous_const.matrix_mul hproj).matrix_trace).add
        (continuous_const.mul (absSumOff_continuous.comp hproj)))
    (by
      intro K hK
      rw [Fin.sum_univ_one, zero_add]
      have hK0 := hK 0
      have h1 := trace_mul_nonneg' hS hK0
      have h2 := trace_mul_ge hM hK0.isSymm'
      have h3 : s * trace (K 0) ≤ ∑ i, S i i * K 0 i i := by
        unfold trace
        rw [Finset.mul_sum]
        exact Finset.sum_le_sum fun i _ => mul_le_mul_of_nonneg_right (hs i) hK0.diag_pos.le
      have h4 := absSumOff_nonneg' (K 0)
      have h5 := mul_le_mul_of_nonneg_right hεM h4
      have h6 := mul_le_mul_of_nonneg_left h2 hε0.le
      have h7 := mul_le_mul_of_nonneg_left h3 hε0.le
      have h8 := mul_nonneg (by linarith : 0 ≤ 1 - ε) h1
      nlinarith)
  refine ⟨X 0, hX1 0, fun Y hY => ?_⟩
  have h := hX2 (fun _ => Y) (fun _ => hY)
  simp only [Fin.sum_univ_one, one_mul] at h
  unfold glObjective
  linarith

theorem gl_min_diag_pos {S X : Matrix n n ℝ} {alpha : ℝ} (hX : IsMin (PD n) (glObjective S alpha) X) (i : n) :
    0 < S i i := by
  by_contra hc
  push Not at hc
  have hXpd : X.PosDef := hX.1
  have hE : (Matrix.single i i (1 : ℝ)).PosSemidef := by
    have h := posSemidef_vecMulVec_self_star (R := ℝ) (Pi.single i (1 : ℝ) : n → ℝ)
    have e : vecMulVec (Pi.single i (1 : ℝ) : n → ℝ) (star (Pi.single i (1 : ℝ) : n → ℝ)) =
        Matrix.single i i 1 := by
      ext a b
      simp only [vecMulVec_apply, star_trivial, Matrix.single_apply, Pi.single_apply]
      by_cases h1 : a = i
      · by_cases h2 : b = i
        · rw [if_pos h1, if_pos h2, if_pos ⟨h1.symm, h2.symm⟩, mul_one]
        · rw [if_neg h2, mul_zero, if_neg (fun h : i = a ∧ i = b => h2 h.2.symm)]
      · rw [if_neg h1, zero_mul, if_neg (fun h : i = a ∧ i = b => h1 h.1.symm)]
    rwa [e] at h
  set Y := X + Matrix.single i i (1 : ℝ) with hY
  have hYpd : Y.PosDef := hXpd.add_posSemidef hE
  have hne : X ≠ Y := by
    intro h
    have : Y i i = X i i + 1 := by rw [hY, Matrix.add_apply, Matrix.single_apply_same]
    rw [← h] at this
    linarith
  have h1 := log_det_lt hXpd hYpd hne
  have h2 : frobInner Y⁻¹ (X - Y) = -Y⁻¹ i i := by
    rw [hY, sub_add_cancel_left, frobInner_neg_right, ← hY]
    congr 1
    unfold frobInner
    rw [Finset.sum_eq_single i, Finset.sum_eq_single i, Matrix.single_apply_same, mul_one]
    · intro b _ hb
      rw [Matrix.single_apply, if_neg (fun h => hb h.2.symm), mul_zero]
    · intro h; exact absurd (Finset.mem_univ _) h
    · intro b _ hb
      exact Finset.sum_eq_zero fun c _ => by
        rw [Matrix.single_apply, if_neg (fun h => hb h.1.symm), mul_zero]
    · intro h; exact absurd (Finset.mem_univ _) h
  have h3 : 0 < Y⁻¹ i i := hYpd.inv.diag_pos
  have h4 := hX.2 Y hYpd
  have h5 : trace (S * Y) = trace (S * X) + S i i := by
    rw [hY, Matrix.mul_add, trace_add]
    congr 1
    rw [Matrix.trace_mul_single]
    simp
  have h6 : absSumOff Y = absSumOff X := by
    unfold absSumOff
    refine Finset.sum_congr rfl fun a _ => Finset.sum_congr rfl fun b _ => ?_
    split
    · rfl
    · rename_i hab
      rw [hY, Matrix.add_apply, Matrix.single_apply, if_neg (fun h => hab (h.1.symm.trans h.2)), add_zero]
  unfold glObjective at h4
  rw [h5, h6] at h4
  rw [h2] at h1
  linarith

theorem gl_uniqueMin {S X : Matrix n n ℝ} {alpha : ℝ} (hS : S.IsSymm) (hal : 0 ≤ alpha)
    (hX : IsMin (PD n) (glObjective S alpha) X) : UniqueMin (PD n) (glObjective S alpha) X := by
  have hXpd : X.PosDef := hX.1
  refine gl_optimal_of_subgrad (G := X⁻¹ - S) hS hXpd ?_ (fun Y => gl_subgrad_of_optimal hal hS hX Y)
  rw [symmetrize_of_isSymm (by rw [IsSymm, transpose_sub, hXpd.inv.isSymm'.eq, hS.eq])]
  abel

/-- C104: for a positive semidefinite covariance and `alpha > 0` the graphical lasso problem has an optimum
over positive definite matrices if and only if every variance is positive; it is then unique. In particular a
constant feature leaves `graphical_lasso` without a solution to converge to. -/
theorem C104_optimum_iff {S : Matrix n n ℝ} (hS : S.PosSemidef) {alpha : ℝ} (hal : 0 < alpha) :
    (∃ X, UniqueMin (PD n) (glObjective S alpha) X) ↔ ∀ i, 0 < S i i := by
  have hSs : S.IsSymm := by
    have := hS.isHermitian
    rwa [IsHermitian, conjTranspose_eq_transpose_of_trivial] at this
  constructor
  · rintro ⟨X, hX⟩ i
    exact gl_min_diag_pos hX.isMin i
  · intro h
    obtain ⟨X, hX⟩ := gl_exists_min hS h hal
    exact ⟨X, gl_uniqueMin hSs hal.le hX⟩

example : ∃ S : Matrix (Fin 2) (Fin 2) ℝ, S.PosSemidef ∧ ∀ i, 0 < S i i :=
  ⟨1, PosSemidef.one, fun i => by simp⟩

/-- Every entry agrees up to `ε`. -/
def CloseMat (ε : ℝ) (X Y : Matrix n n ℝ) : Prop := ∀ i j, |X i j - Y i j| ≤ ε

theorem closeMat_eventually {X : Matrix n n ℝ} {f : ℕ → Matrix n n ℝ} (h : Tendsto f atTop (𝓝 X)) {ε : ℝ}
    (hε : 0 < ε) : ∀ᶠ j in atTop, CloseMat ε (f j) X :=
  (closeSeq_eventually (k := 1) (f := fun j _ => f j) (X := fun _ => X) (fun _ => h) hε).mono
    fun _ hj => hj 0

/-- States do not depend on the tolerances. -/
theorem st_tol {eigh : Eigh n} {a : GLArgs n} {Z0 : Matrix n n ℝ} {rho : ℝ} (h : ConstPenalty eigh a Z0 rho)
    (tol rtol : ℝ) (j : ℕ) : st eigh { a with tol := tol, rtol := rtol } Z0 rho j = st eigh a Z0 rho j := by
  have h' : ConstPenalty eigh { a with tol := tol, rtol := rtol } Z0 rho :=
    ⟨h.eighOk, h.symS, h.alphaNonneg, h.relax, h.inc, h.dec, h.symZ0, h.rhoPos⟩
  induction j with
  | zero => rfl
  | succ j ih => rw [st_succ h', st_succ h, ih]; rfl

theorem glStop_iff {eigh : Eigh n} {a : GLArgs n} {Z0 : Matrix n n ℝ} {rho : ℝ}
    (h : ConstPenalty eigh a Z0 rho) (j : ℕ) :
    Lemmas.stopAt (glBody eigh a) (glInit Z0 rho) j = true ↔
      froNorm (Kit eigh a Z0 rho j - (st eigh a Z0 rho (j + 1)).Z) ≤
        Real.sqrt ((Fintype.card n : ℝ) * Fintype.card n) * a.tol
          + a.rtol * max (froNorm (Kit eigh a Z0 rho j)) (froNorm (st eigh a Z0 rho (j + 1)).Z) ∧
      rho * froNorm ((st eigh a Z0 rho (j + 1)).Z - (st eigh a Z0 rho j).Zold) ≤
        Real.sqrt ((Fintype.card n : ℝ) * Fintype.card n) * a.tol
          + a.rtol * rho * froNorm (st eigh a Z0 rho (j + 1)).U := by
  have key : ∀ s : GLState n, s.rho = rho → ((glBody eigh a j s).2.2 = true ↔
      froNorm (glK eigh a.empCov s.rho s.Z s.U - nextZ eigh a s) ≤
        Real.sqrt ((Fintype.card n : ℝ) * Fintype.card n) * a.tol
          + a.rtol * max (froNorm (glK eigh a.empCov s.rho s.Z s.U)) (froNorm (nextZ eigh a s)) ∧
      rho * froNorm (nextZ eigh a s - s.Zold) ≤
        Real.sqrt ((Fintype.card n : ℝ) * Fintype.card n) * a.tol
          + a.rtol * rho * froNorm (nextU eigh a s)) := by
    intro s hs
    unfold glBody
    simp only [h.relax, glKhat_one, decide_eq_true_eq, nextU, nextZ, hs]
  have h1 := key (st eigh a Z0 rho j) (st_facts h j).1
  unfold Lemmas.stopAt
  rw [st_succ h j]
  exact h1

/-- No residual, no error (second iteration on). -/
theorem gl_exact {eigh : Eigh n} {a : GLArgs n} {Z0 : Matrix n n ℝ} {rho : ℝ} (h : ConstPenalty eigh a Z0 rho)
    {X : Matrix n n ℝ} (hX : IsMin (PD n) (glObjective a.empCov a.alpha) X) {j : ℕ}
    (h1 : Kit eigh a Z0 rho j = (st eigh a Z0 rho (j + 1)).Z)
    (h2 : (st eigh a Z0 rho (j + 1)).Z = (st eigh a Z0 rho j).Z) : (st eigh a Z0 rho (j + 1)).Z = X := by
  have hl := lyap_step h hX j
  have hU : (st eigh a Z0 rho (j + 1)).U = (st eigh a Z0 rho j).U := by
    have e : (st eigh a Z0 rho (j + 1)).U = (st eigh a Z0 rho j).U
        + (Kit eigh a Z0 rho j - (st eigh a Z0 rho (j + 1)).Z) := by
      rw [st_succ h j]; rfl
    rw [e, h1, sub_self, add_zero]
  unfold lyap at hl
  rw [hU, h2] at hl
  have h3 := frobSq_nonneg ((st eigh a Z0 rho j).Z - Kit eigh a Z0 rho j)
  have hr := inv_pos.mpr h.rhoPos
  have h4 := inv_strict_mono (Kit_posDef h j) hX.1
  have h5 := inv_mono (Kit_posDef h j) hX.1
  have h6 : frobInner (X⁻¹ - (Kit eigh a Z0 rho j)⁻¹) (Kit eigh a Z0 rho j - X) = 0 := by
    refine le_antisymm ?_ h5
    by_contra hc
    push Not at hc
    have : 0 < 2 * rho⁻¹ * frobInner (X⁻¹ - (Kit eigh a Z0 rho j)⁻¹) (Kit eigh a Z0 rho j - X) := by positivity
    linarith
  rw [h6, mul_zero] at h4
  rw [← h1]
  exact sub_eq_zero.mp ((frobSq_eq_zero_iff _).mp (le_antisymm h4 (frobSq_nonneg _)))

theorem froNorm_eq_zero' {m : Type*} [Fintype m] {A : Matrix m m ℝ} (h : froNorm A = 0) : A = 0 := by
  have h1 : froNorm A ^ 2 = frobSq A := froNorm_sq A
  rw [h, zero_pow two_ne_zero] at h1
  exact (frobSq_eq_zero_iff _).mp h1.symm

/-- A property that the optimum has and that late iterates have holds for the result of every call with tolerances small
enough and `max_iter` large enough. -/
theorem gl_accuracy [Nonempty n] {eigh : Eigh n} {a : GLArgs n} {Z0 : Matrix n n ℝ} {rho : ℝ}
    (h : ConstPenalty eigh a Z0 rho) {X : Matrix n n ℝ} (hX : IsMin (PD n) (glObjective a.empCov a.alpha) X)
    {P : Matrix n n ℝ → Prop} (hev : ∀ᶠ j in atTop, P (st eigh a Z0 rho j).Z) (hPX : P X) :
    ∃ δ, 0 < δ ∧ ∃ M, ∀ tol rtol, 0 ≤ tol → tol ≤ δ → 0 ≤ rtol → rtol ≤ δ → ∀ m, M ≤ m →
      ∀ rh rn, ∃ Z S hist it w,
        graphicalLasso eigh { a with tol := tol, rtol := rtol } Z0 rho m rh rn = .ok Z S hist it w ∧ P Z := by
  obtain ⟨δ, hδ, hacc⟩ := accuracy_of_limit hev (c := Real.sqrt ((Fintype.card n : ℝ) * Fintype.card n))
    (r := fun j => froNorm (Kit eigh a Z0 rho j - (st eigh a Z0 rho (j + 1)).Z))
    (s := fun j => rho * froNorm ((st eigh a Z0 rho (j + 1)).Z - (st eigh a Z0 rho j).Zold))
    (A := fun j => max (froNorm (Kit eigh a Z0 rho j)) (froNorm (st eigh a Z0 rho (j + 1)).Z))
    (B := fun j => rho * froNorm (st eigh a Z0 rho (j + 1)).U)
    (fun j => froNorm_nonneg _) (fun j => mul_nonneg h.rhoPos.le (froNorm_nonneg _))
    (fun j h1 h2 => by
      have h1' := sub_eq_zero.mp (froNorm_eq_zero' h1)
      have h2' := sub_eq_zero.mp (froNorm_eq_zero' ((mul_eq_zero.mp h2).resolve_left h.rhoPos.ne'))
      cases j with
      | zero =>
        exfalso
        have hpd := Kit_posDef h 0
        rw [h1', h2'] at hpd
        have hz : (st eigh a Z0 rho 0).Zold = 0 := rfl
        rw [hz] at hpd
        have := hpd.det_pos
        simp at this
      | succ j =>
        have hold : (st eigh a Z0 rho (j + 1)).Zold = (st eigh a Z0 rho (j + 1)).Z := by rw [st_succ h j]
        rw [hold] at h2'
        rw [gl_exact h hX h1' h2']
        exact hPX)
  obtain ⟨M, hM⟩ := eventually_atTop.mp hev
  refine ⟨δ, hδ, max M 1, fun tol rtol t0 t1 r0 r1 m hm rh rn => ?_⟩
  set b : GLArgs n := { a with tol := tol, rtol := rtol } with hb
  have h' : ConstPenalty eigh b Z0 rho :=
    ⟨h.eighOk, h.symS, h.alphaNonneg, h.relax, h.inc, h.dec, h.symZ0, h.rhoPos⟩
  have hQ : P (runLoop (glBody eigh b) m (glInit Z0 rho)).state.Z := by
    refine runLoop_property (glBody eigh b) (glInit Z0 rho) (Q := fun s => P s.Z) (M := M)
      (fun j hj => ?_) (fun j hj => ?_) (le_of_max_le_left hm)
    · have e : stateAt (glBody eigh b) (glInit Z0 rho) j = st eigh a Z0 rho j := st_tol h tol rtol j
      rw [e]
      exact hM j hj
    · have e : stateAt (glBody eigh b) (glInit Z0 rho) (j + 1) = st eigh a Z0 rho (j + 1) :=
        st_tol h tol rtol (j + 1)
      rw [e]
      have e0 : st eigh b Z0 rho (j + 1) = st eigh a Z0 rho (j + 1) := e
      have e1 : st eigh b Z0 rho j = st eigh a Z0 rho j := st_tol h tol rtol j
      rw [glStop_iff h'] at hj
      simp only [Kit] at hj
      rw [e0, e1] at hj
      refine hacc tol rtol t0 t1 r0 r1 j hj.1 (hj.2.trans (le_of_eq ?_))
      rw [mul_assoc b.rtol]
  obtain ⟨it, hit⟩ := runLoop_lastIter (glBody eigh b) (glInit Z0 rho) (le_of_max_le_right hm)
  unfold graphicalLasso
  simp only
  rw [hit]
  cases rn
  · exact ⟨_, _, _, _, _, rfl, hQ⟩
  · exact ⟨_, _, _, _, _, rfl, hQ⟩

/-- C104: at a constant penalty, for a positive semidefinite covariance with positive variances and `alpha > 0`,
`graphical_lasso` solves its problem from every symmetric start: for positive `tol` every call with `max_iter`
large enough ends without the warning, and for tolerances small enough (and `max_iter` large enough) the
returned precision is as close to the unique optimum as desired. -/
theorem C104_solves [Nonempty n] {eigh : Eigh n} {a : GLArgs n} {Z0 : Matrix n n ℝ} {rho : ℝ}
    (h : ConstPenalty eigh a Z0 rho) (hS : a.empCov.PosSemidef) (hdiag : ∀ i, 0 < a.empCov i i)
    (hal : 0 < a.alpha) :
    ∃ X, UniqueMin (PD n) (glObjective a.empCov a.alpha) X ∧
      (0 < a.tol → 0 ≤ a.rtol → ∃ M, ∀ m, M ≤ m → ∀ rh rn, ∃ Z S hist it,
        graphicalLasso eigh a Z0 rho m rh rn = .ok Z S hist it false) ∧
      ∀ ε, 0 < ε → ∃ δ, 0 < δ ∧ ∃ M, ∀ tol rtol, 0 ≤ tol → tol ≤ δ → 0 ≤ rtol → rtol ≤ δ → ∀ m, M ≤ m →
        ∀ rh rn, ∃ Z S hist it w,
          graphicalLasso eigh { a with tol := tol, rtol := rtol } Z0 rho m rh rn = .ok Z S hist it w
            ∧ CloseMat ε Z X := by
  obtain ⟨X, hX⟩ := gl_exists_min hS hdiag hal
  obtain ⟨-, -, -, hZ⟩ := C18_converges h hX
  refine ⟨X, gl_uniqueMin h.symS hal.le hX, fun htol hrtol => ?_, fun ε hε => ?_⟩
  · have hcard : (0 : ℝ) < Fintype.card n := by exact_mod_cast Fintype.card_pos
    have hr := h.rhoPos
    have hd : 0 < min ((Fintype.card n * a.tol) ^ 2) ((Fintype.card n * a.tol) ^ 2 / rho ^ 2) :=
      lt_min (by positivity) (by positivity)
    obtain ⟨N, hN⟩ := exists_nat_gt ((frobSq (Z0 - X) + frobSq (rho⁻¹ • (X⁻¹ - a.empCov)))
      / min ((Fintype.card n * a.tol) ^ 2) ((Fintype.card n * a.tol) ^ 2 / rho ^ 2))
    rw [div_lt_iff₀ hd] at hN
    refine ⟨N + 1, fun m hm rh rn => C18_terminates h hX htol hrtol m (hN.trans_le ?_) rh rn⟩
    refine mul_le_mul_of_nonneg_right ?_ hd.le
    exact_mod_cast (by omega : N ≤ m - 1)
  · refine gl_accuracy h hX (P := fun Z => CloseMat ε Z X) (closeMat_eventually hZ hε) fun i l => ?_
    rw [sub_self, abs_zero]
    exact hε.le

example : ∃ eigh : Eigh (Fin 1), ConstPenalty eigh ⟨1, 1, 1, 1, 0, ⟨10, 1, 1⟩⟩ 0 1 := by
  obtain ⟨eigh, he⟩ := exists_eighOracle (n := Fin 1)
  exact ⟨eigh, he, by simp [IsSymm], by norm_num, rfl, rfl, rfl, by simp [IsSymm], by norm_num⟩

end Verif.Props
