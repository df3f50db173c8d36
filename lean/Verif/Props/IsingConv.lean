import Verif.Props.TimeGLM
import Verif.Lemmas.Fejer
import Mathlib.Analysis.Calculus.MeanValue
import Mathlib.Analysis.Calculus.Deriv.MeanValue

/-! Property theorems C153: convergence of the Ising fit. -/

namespace Verif.Props

open Matrix Verif.Model Verif.Spec Verif.Lemmas Filter Topology

set_option autoImplicit false
set_option linter.unusedSectionVars false

/-! ### The scalar functions -/

/-- `(e^a - e^(-a)) / (e^a + e^(-a))`. -/
noncomputable def th (a : ℝ) : ℝ := (Real.exp a - Real.exp (-a)) / (Real.exp a + Real.exp (-a))

/-- `log (e^a + e^(-a))`. -/
noncomputable def lc (a : ℝ) : ℝ := Real.log (Real.exp a + Real.exp (-a))

theorem exp_sum_pos (a : ℝ) : 0 < Real.exp a + Real.exp (-a) := by positivity

theorem hasDerivAt_expneg (a : ℝ) : HasDerivAt (fun a => Real.exp (-a)) (-Real.exp (-a)) a := by
  have := (hasDerivAt_neg a).exp
  simpa using this

theorem lc_hasDerivAt (a : ℝ) : HasDerivAt lc (th a) a := by
  have h := ((Real.hasDerivAt_exp a).add (hasDerivAt_expneg a)).log (exp_sum_pos a).ne'
  exact h.congr_deriv (by rw [th, ← sub_eq_add_neg]; rfl)

theorem th_hasDerivAt (a : ℝ) : HasDerivAt th (4 / (Real.exp a + Real.exp (-a)) ^ 2) a := by
  have h := ((Real.hasDerivAt_exp a).sub (hasDerivAt_expneg a)).div
    ((Real.hasDerivAt_exp a).add (hasDerivAt_expneg a)) (exp_sum_pos a).ne'
  refine h.congr_deriv ?_
  have e : Real.exp a * Real.exp (-a) = 1 := by rw [← Real.exp_add, add_neg_cancel, Real.exp_zero]
  simp only [Pi.add_apply, Pi.sub_apply]
  congr 1
  nlinarith

theorem th_continuous : Continuous th := continuous_iff_continuousAt.mpr fun a => (th_hasDerivAt a).continuousAt

theorem lc_continuous : Continuous lc := continuous_iff_continuousAt.mpr fun a => (lc_hasDerivAt a).continuousAt

theorem th_deriv_le (a : ℝ) : 4 / (Real.exp a + Real.exp (-a)) ^ 2 ≤ 1 := by
  rw [div_le_one (pow_pos (exp_sum_pos a) 2)]
  have e : Real.exp a * Real.exp (-a) = 1 := by rw [← Real.exp_add, add_neg_cancel, Real.exp_zero]
  nlinarith [sq_nonneg (Real.exp a - Real.exp (-a))]

theorem th_mono : Monotone th := monotone_of_hasDerivAt_nonneg th_hasDerivAt fun a => by positivity

theorem sub_th_mono : Monotone fun a => a - th a :=
  monotone_of_hasDerivAt_nonneg (fun a => (hasDerivAt_id a).sub (th_hasDerivAt a)) fun a => by
    have := th_deriv_le a
    simp only [Pi.zero_apply]
    linarith

/-- `th` is non-decreasing and 1-Lipschitz. -/
theorem th_firm (a b : ℝ) : (th a - th b) ^ 2 ≤ (th a - th b) * (a - b) := by
  rcases le_total a b with h | h
  · have h1 := th_mono h
    have h2 := sub_th_mono h
    simp only at h2
    nlinarith
  · have h1 := th_mono h
    have h2 := sub_th_mono h
    simp only at h2
    nlinarith

/-- Upper bound with curvature 1. -/
theorem lc_upper (a b : ℝ) : lc b ≤ lc a + th a * (b - a) + 1 / 2 * (b - a) ^ 2 := by
  set φ : ℝ → ℝ := fun x => x ^ 2 / 2 - lc x with hφ
  have hd : ∀ x, HasDerivAt φ (x - th x) x := fun x => by
    have h := ((hasDerivAt_pow 2 x).div_const 2).sub (lc_hasDerivAt x)
    exact h.congr_deriv (by simp)
  have key : φ a + (a - th a) * (b - a) ≤ φ b := by
    rcases lt_trichotomy a b with h | h | h
    · obtain ⟨c, hc, he⟩ := exists_hasDerivAt_eq_slope φ (fun x => x - th x) h
        (fun x _ => (hd x).continuousAt.continuousWithinAt) fun x _ => hd x
      rw [eq_div_iff (by linarith)] at he
      have := sub_th_mono hc.1.le
      simp only at this
      nlinarith
    · rw [h]; simp
    · obtain ⟨c, hc, he⟩ := exists_hasDerivAt_eq_slope φ (fun x => x - th x) h
        (fun x _ => (hd x).continuousAt.continuousWithinAt) fun x _ => hd x
      rw [eq_div_iff (by linarith)] at he
      have := sub_th_mono hc.2.le
      simp only at this
      nlinarith
  simp only [hφ] at key
  nlinarith

theorem lc_lower (a b : ℝ) : lc a + th a * (b - a) ≤ lc b := logcosh_tangent a b

theorem abs_le_lc (a : ℝ) : |a| ≤ lc a := by
  unfold lc
  rw [Real.le_log_iff_exp_le (exp_sum_pos a)]
  rcases abs_cases a with ⟨h, -⟩ | ⟨h, -⟩ <;> rw [h] <;> linarith [Real.exp_pos a, Real.exp_pos (-a)]

/-! ### The smooth part -/

variable {d : ℕ}

/-- The field of node `r` under the weights `w` of one sample. -/
noncomputable def fld (w : Fin d → ℝ) (Y : Matrix (Fin d) (Fin d) ℝ) (r : Fin d) : ℝ :=
  ∑ k, if k ≠ r then w k * Y k r else 0

theorem fld_sub (w : Fin d → ℝ) (Y Z : Matrix (Fin d) (Fin d) ℝ) (r : Fin d) :
    fld w (Y - Z) r = fld w Y r - fld w Z r := by
  unfold fld
  rw [← Finset.sum_sub_distrib]
  refine Finset.sum_congr rfl fun k _ => ?_
  split
  · rw [Matrix.sub_apply]; ring
  · ring

theorem fld_continuous (w : Fin d → ℝ) (r : Fin d) : Continuous fun Y : Matrix (Fin d) (Fin d) ℝ => fld w Y r := by
  unfold fld
  refine continuous_finsetSum _ fun k _ => ?_
  split
  · exact continuous_const.mul (continuous_id.matrix_elem k r)
  · exact continuous_const

/-- The pseudo-likelihood of one sample through the fields. -/
theorem isingNLL_one (w : Fin d → ℝ) (Y : Matrix (Fin d) (Fin d) ℝ) :
    isingNLL (fun _ : Fin 1 => w) Y = ∑ r, (lc (fld w Y r) - w r * fld w Y r) := by
  unfold isingNLL nodeNLL
  refine Finset.sum_congr rfl fun r _ => ?_
  simp only [Fin.sum_univ_one, Nat.cast_one, div_one, one_mul]
  rfl

/-- What the iteration of the Ising fit minimises: the pseudo-likelihood of the first sample divided by the number of
samples, the off-diagonal l1 penalty and a quadratic term around `A`. -/
noncomputable def isingTarget {m : ℕ} (X : Fin (m + 1) → Fin d → ℝ) (alpha : ℝ) (A : Matrix (Fin d) (Fin d) ℝ) (q : ℝ)
    (Y : Matrix (Fin d) (Fin d) ℝ) : ℝ :=
  1 / ((m + 1 : ℕ) : ℝ) * isingNLL (fun _ : Fin 1 => X 0) Y + alpha * absSumOff Y + q / 2 * frobSq (Y - A)

/-- Its smooth part. -/
noncomputable def isingSmooth {m : ℕ} (X : Fin (m + 1) → Fin d → ℝ) (A : Matrix (Fin d) (Fin d) ℝ) (q : ℝ)
    (Y : Matrix (Fin d) (Fin d) ℝ) : ℝ :=
  1 / ((m + 1 : ℕ) : ℝ) * isingNLL (fun _ : Fin 1 => X 0) Y + q / 2 * frobSq (Y - A)

variable {m : ℕ}

/-- A row of weights against the entries of a matrix with the diagonal left out. -/
theorem row_inner (w c : Fin d → ℝ) (s : ℝ) (R : Matrix (Fin d) (Fin d) ℝ) :
    frobInner R (Matrix.of fun r j => if j = r then 0 else s * w j * c r) = s * ∑ r, c r * fld w Rᵀ r := by
  unfold frobInner fld
  rw [Finset.mul_sum]
  refine Finset.sum_congr rfl fun r _ => ?_
  rw [Finset.mul_sum, Finset.mul_sum]
  refine Finset.sum_congr rfl fun j _ => ?_
  rw [Matrix.of_apply, transpose_apply]
  by_cases h : j = r
  · simp [h]
  · simp only [h, if_false, ne_eq, not_false_eq_true, if_true]; ring

theorem isingGradA_eq (X : Fin (m + 1) → Fin d → ℝ) (A : Matrix (Fin d) (Fin d) ℝ) (rho T : ℝ)
    (Y : Matrix (Fin d) (Fin d) ℝ) : isingGradA X A rho T Y =
      (Matrix.of fun r j => if j = r then 0 else
        1 / ((m + 1 : ℕ) : ℝ) * X 0 j * (th (fld (X 0) Y r) - X 0 r)) + (rho * T) • (Y - A) := by
  ext r j
  rw [isingGradA, Matrix.add_apply, Matrix.of_apply, Matrix.of_apply, Matrix.smul_apply, Matrix.sub_apply, smul_eq_mul]
  rfl

theorem grad_inner (X : Fin (m + 1) → Fin d → ℝ) (A : Matrix (Fin d) (Fin d) ℝ) (rho T : ℝ)
    (Y R : Matrix (Fin d) (Fin d) ℝ) : frobInner R (isingGradA X A rho T Y) =
      1 / ((m + 1 : ℕ) : ℝ) * (∑ r, (th (fld (X 0) Y r) - X 0 r) * fld (X 0) Rᵀ r)
        + rho * T * frobInner R (Y - A) := by
  rw [isingGradA_eq, frobInner_add_right, row_inner, frobInner_smul_right]

/-- The squared field is bounded by the squared row. -/
theorem fld_sq_le {w : Fin d → ℝ} {B : ℝ} (hB : ∀ r, (∑ j, if j = r then 0 else w j ^ 2) ≤ B)
    (R : Matrix (Fin d) (Fin d) ℝ) : (∑ r, fld w Rᵀ r ^ 2) ≤ B * frobSq R := by
  unfold frobSq
  rw [Finset.mul_sum]
  refine Finset.sum_le_sum fun r _ => ?_
  have h := Finset.sum_mul_sq_le_sq_mul_sq Finset.univ (fun j => if j = r then 0 else w j) (fun j => R r j)
  have e : fld w Rᵀ r = ∑ j, (if j = r then 0 else w j) * R r j := by
    unfold fld
    refine Finset.sum_congr rfl fun j _ => ?_
    by_cases hj : j = r
    · simp [hj]
    · simp [hj, transpose_apply]
  rw [e]
  refine h.trans (mul_le_mul_of_nonneg_right ?_ (Finset.sum_nonneg fun _ _ => sq_nonneg _))
  refine le_trans (le_of_eq ?_) (hB r)
  refine Finset.sum_congr rfl fun j _ => ?_
  split <;> simp

/-- Convexity of the smooth part. -/
theorem isingSmooth_tangent (X : Fin (m + 1) → Fin d → ℝ) (A : Matrix (Fin d) (Fin d) ℝ) {rho T : ℝ} (hq : 0 ≤ rho * T)
    {x z : Matrix (Fin d) (Fin d) ℝ} (hx : x.IsSymm) (hz : z.IsSymm) :
    isingSmooth X A (rho * T) x + frobInner (z - x) (isingGradA X A rho T x) ≤ isingSmooth X A (rho * T) z := by
  have hs : (z - x)ᵀ = z - x := by rw [transpose_sub, hx.eq, hz.eq]
  rw [grad_inner, hs]
  unfold isingSmooth
  rw [isingNLL_one, isingNLL_one]
  have h1 : (∑ r, (lc (fld (X 0) x r) - X 0 r * fld (X 0) x r))
      + (∑ r, (th (fld (X 0) x r) - X 0 r) * fld (X 0) (z - x) r) ≤
      ∑ r, (lc (fld (X 0) z r) - X 0 r * fld (X 0) z r) := by
    rw [← Finset.sum_add_distrib]
    refine Finset.sum_le_sum fun r _ => ?_
    have := lc_lower (fld (X 0) x r) (fld (X 0) z r)
    rw [fld_sub]
    nlinarith
  have h2 := mul_le_mul_of_nonneg_left h1 (by positivity : 0 ≤ 1 / ((m + 1 : ℕ) : ℝ))
  have h3 : frobSq (z - A) = frobSq (x - A) + 2 * frobInner (z - x) (x - A) + frobSq (z - x) := by
    have := frobSq_add (x - A) (z - x)
    rw [show x - A + (z - x) = z - A by abel, frobInner_comm] at this
    exact this
  rw [h3]
  nlinarith [mul_nonneg hq (frobSq_nonneg (z - x))]

/-- Its upper bound. -/
theorem isingSmooth_upper (X : Fin (m + 1) → Fin d → ℝ) (A : Matrix (Fin d) (Fin d) ℝ) {rho T B : ℝ}
    (hB : ∀ r, (∑ j, if j = r then 0 else X 0 j ^ 2) ≤ B)
    {x z : Matrix (Fin d) (Fin d) ℝ} (hx : x.IsSymm) (hz : z.IsSymm) :
    isingSmooth X A (rho * T) z ≤ isingSmooth X A (rho * T) x + frobInner (z - x) (isingGradA X A rho T x)
      + (B / ((m + 1 : ℕ) : ℝ) + rho * T) / 2 * frobSq (z - x) := by
  have hs : (z - x)ᵀ = z - x := by rw [transpose_sub, hx.eq, hz.eq]
  have hf := fld_sq_le hB (z - x)
  rw [hs] at hf
  rw [grad_inner, hs]
  unfold isingSmooth
  rw [isingNLL_one, isingNLL_one]
  have h1 : (∑ r, (lc (fld (X 0) z r) - X 0 r * fld (X 0) z r)) ≤
      (∑ r, (lc (fld (X 0) x r) - X 0 r * fld (X 0) x r))
      + (∑ r, (th (fld (X 0) x r) - X 0 r) * fld (X 0) (z - x) r) + 1 / 2 * ∑ r, fld (X 0) (z - x) r ^ 2 := by
    rw [Finset.mul_sum, ← Finset.sum_add_distrib, ← Finset.sum_add_distrib]
    refine Finset.sum_le_sum fun r _ => ?_
    have := lc_upper (fld (X 0) x r) (fld (X 0) z r)
    rw [fld_sub]
    nlinarith
  have h2 := mul_le_mul_of_nonneg_left (h1.trans (add_le_add_right (mul_le_mul_of_nonneg_left hf
    (by norm_num : (0 : ℝ) ≤ 1 / 2)) _)) (by positivity : 0 ≤ 1 / ((m + 1 : ℕ) : ℝ))
  have h3 : frobSq (z - A) = frobSq (x - A) + 2 * frobInner (z - x) (x - A) + frobSq (z - x) := by
    have := frobSq_add (x - A) (z - x)
    rw [show x - A + (z - x) = z - A by abel, frobInner_comm] at this
    exact this
  rw [h3]
  have e : B / ((m + 1 : ℕ) : ℝ) = 1 / ((m + 1 : ℕ) : ℝ) * B := by rw [div_eq_mul_inv, one_div, mul_comm]
  rw [e]
  nlinarith

/-! ### The step -/

/-- The proximal map of the iteration. -/
noncomputable def isingProx (lam : ℝ) (V : Matrix (Fin d) (Fin d) ℝ) : Matrix (Fin d) (Fin d) ℝ :=
  softThresholdingOffDiagonal ((1 / 2 : ℝ) • (V + Vᵀ)) lam

theorem isingFitStep_eq (X : Fin (m + 1) → Fin d → ℝ) (alpha gamma : ℝ) (A : Matrix (Fin d) (Fin d) ℝ) (rho T : ℝ)
    (Y : Matrix (Fin d) (Fin d) ℝ) :
    isingFitStep X alpha gamma A rho T Y = isingProx (alpha * gamma) (Y - gamma • isingGradA X A rho T Y) := rfl

theorem isingProx_symm (lam : ℝ) (V : Matrix (Fin d) (Fin d) ℝ) : (isingProx lam V).IsSymm := by
  ext i j
  unfold isingProx
  simp only [transpose_apply]
  rw [softOff_apply, softOff_apply]
  have h1 : (if j = i then (0 : ℝ) else lam) = if i = j then 0 else lam := by
    by_cases h : i = j
    · rw [if_pos h, if_pos h.symm]
    · rw [if_neg h, if_neg fun h' => h h'.symm]
  rw [h1]
  congr 1
  simp only [Matrix.smul_apply, Matrix.add_apply, transpose_apply]
  rw [add_comm]

/-- The subgradient inequality of the proximal map, tested with symmetric matrices. -/
theorem isingProx_subgrad {lam : ℝ} (hl : 0 ≤ lam) (V : Matrix (Fin d) (Fin d) ℝ) {Z : Matrix (Fin d) (Fin d) ℝ}
    (hZ : Z.IsSymm) :
    lam * absSumOff (isingProx lam V) + frobInner (Z - isingProx lam V) (V - isingProx lam V) ≤ lam * absSumOff Z := by
  set p := isingProx lam V with hp
  have hps : p.IsSymm := isingProx_symm lam V
  have hsym : (Z - p).IsSymm := by rw [IsSymm, transpose_sub, hZ.eq, hps.eq]
  have h1 : frobInner (Z - p) (V - p) = frobInner (symmetrize V - p) (Z - p) := by
    rw [frobInner_comm, frobInner_sub_left, frobInner_sub_left, frobInner_symmetrize hsym]
  rw [h1]
  have hentry : ∀ i j, lam * (if i = j then 0 else |p i j|) + (symmetrize V i j - p i j) * (Z i j - p i j) ≤
      lam * (if i = j then 0 else |Z i j|) := by
    intro i j
    have hpij : p i j = softScalar (symmetrize V i j) (if i = j then 0 else lam) := by
      rw [hp]; unfold isingProx; rw [softOff_apply]; rfl
    have h2 := softScalar_subgrad (lam := if i = j then 0 else lam) (by split <;> [exact le_rfl; exact hl])
      (symmetrize V i j) (Z i j)
    rw [← hpij] at h2
    by_cases hij : i = j
    · simp only [hij, if_true] at h2 ⊢
      linarith
    · simp only [hij, if_false] at h2 ⊢
      exact h2
  have hsum := Finset.sum_le_sum (s := Finset.univ) fun i (_ : i ∈ Finset.univ) =>
    Finset.sum_le_sum (s := Finset.univ) fun j (_ : j ∈ Finset.univ) => hentry i j
  simp only [Finset.sum_add_distrib, ← Finset.mul_sum] at hsum
  exact hsum

theorem isingProx_firm {lam : ℝ} (hl : 0 ≤ lam) (V W : Matrix (Fin d) (Fin d) ℝ) :
    0 ≤ frobInner (isingProx lam V - isingProx lam W) ((V - isingProx lam V) - (W - isingProx lam W)) := by
  have h1 := isingProx_subgrad hl V (isingProx_symm lam W)
  have h2 := isingProx_subgrad hl W (isingProx_symm lam V)
  set p := isingProx lam V
  set r := isingProx lam W
  rw [frobInner_sub_right]
  have e : frobInner (r - p) (V - p) = -frobInner (p - r) (V - p) := by
    rw [← frobInner_neg_left]; congr 1; abel
  rw [e] at h1
  linarith

theorem isingProx_continuous {lam : ℝ} (hl : 0 ≤ lam) : Continuous (isingProx (d := d) lam) := by
  refine continuous_matrix fun i j => ?_
  have hs : ∀ l : ℝ, 0 ≤ l → Continuous fun a : ℝ => softScalar a l := fun l hl => by
    have h : Firm (fun x : Unit → ℝ => softThresholding x l) := soft_firm hl
    have hc : Continuous fun x : Unit → ℝ => softThresholding x l :=
      SeqContinuous.continuous fun _ _ hx => h.tendsto hx
    exact (continuous_apply ()).comp (hc.comp (continuous_pi fun _ => continuous_id))
  have e : (fun V : Matrix (Fin d) (Fin d) ℝ => isingProx lam V i j) =
      fun V => softScalar (1 / 2 * (V i j + V j i)) (if i = j then 0 else lam) := by
    funext V
    unfold isingProx
    rw [softOff_apply]
    rfl
  rw [e]
  refine (hs _ (by split <;> [exact le_rfl; exact hl])).comp ?_
  exact continuous_const.mul ((continuous_id.matrix_elem i j).add (continuous_id.matrix_elem j i))

theorem isingFitStep_continuous (X : Fin (m + 1) → Fin d → ℝ) {alpha gamma : ℝ} (h : 0 ≤ alpha * gamma)
    (A : Matrix (Fin d) (Fin d) ℝ) (rho T : ℝ) : Continuous (isingFitStep X alpha gamma A rho T) := by
  have hg : Continuous (isingGradA X A rho T) := by
    refine continuous_matrix fun r j => ?_
    have e : (fun Y => isingGradA X A rho T Y r j) = fun Y : Matrix (Fin d) (Fin d) ℝ =>
        (if j = r then 0 else 1 / ((m + 1 : ℕ) : ℝ) * X 0 j * (th (fld (X 0) Y r) - X 0 r))
          + rho * T * (Y r j - A r j) := by
      funext Y
      rw [isingGradA_eq, Matrix.add_apply, Matrix.of_apply, Matrix.smul_apply, Matrix.sub_apply, smul_eq_mul]
    rw [e]
    refine Continuous.add ?_ (continuous_const.mul ((continuous_id.matrix_elem r j).sub continuous_const))
    split
    · exact continuous_const
    · exact continuous_const.mul ((th_continuous.comp (fld_continuous _ _)).sub continuous_const)
  exact (isingProx_continuous h).comp (continuous_id.sub (hg.const_smul gamma))

/-- Each step from a symmetric matrix comes closer to every fixed point. -/
theorem ising_fejer (X : Fin (m + 1) → Fin d → ℝ) {alpha gamma rho T B : ℝ} (hal : 0 ≤ alpha) (hg : 0 < gamma)
    (hq : 0 ≤ rho * T) (hB : ∀ r, (∑ j, if j = r then 0 else X 0 j ^ 2) ≤ B) (A : Matrix (Fin d) (Fin d) ℝ)
    {x z : Matrix (Fin d) (Fin d) ℝ} (hx : x.IsSymm) (hz : isingFitStep X alpha gamma A rho T z = z) :
    frobSq (isingFitStep X alpha gamma A rho T x - z) ≤ frobSq (x - z)
      - (1 - gamma * (B / ((m + 1 : ℕ) : ℝ) + rho * T) / 2) * frobSq (isingFitStep X alpha gamma A rho T x - x) := by
  have hzs : z.IsSymm := by rw [← hz]; exact isingFitStep_symm ..
  have hs : (x - z)ᵀ = x - z := by rw [transpose_sub, hx.eq, hzs.eq]
  have hin : ∀ R, frobInner R (isingGradA X A rho T x - isingGradA X A rho T z) =
      1 / ((m + 1 : ℕ) : ℝ) * (∑ r, (th (fld (X 0) x r) - th (fld (X 0) z r)) * fld (X 0) Rᵀ r)
        + rho * T * frobInner R (x - z) := by
    intro R
    rw [frobInner_sub_right, grad_inner, grad_inner]
    have e1 : frobInner R (x - z) = frobInner R (x - A) - frobInner R (z - A) := by
      rw [← frobInner_sub_right]; congr 1; abel
    have e2 : (∑ r, (th (fld (X 0) x r) - th (fld (X 0) z r)) * fld (X 0) Rᵀ r) =
        (∑ r, (th (fld (X 0) x r) - X 0 r) * fld (X 0) Rᵀ r) - ∑ r, (th (fld (X 0) z r) - X 0 r) * fld (X 0) Rᵀ r := by
      rw [← Finset.sum_sub_distrib]
      exact Finset.sum_congr rfl fun r _ => by ring
    rw [e1, e2]; ring
  have h := prox_grad_fejer_matrix (J := isingProx (alpha * gamma)) (gamma := gamma)
    (c := gamma * (B / ((m + 1 : ℕ) : ℝ) + rho * T)) (x := x) (z := z) (gx := isingGradA X A rho T x)
    (gz := isingGradA X A rho T z) (isingProx_firm (mul_nonneg hal hg.le)) ?_ hz
  · exact h
  intro R
  rw [hin, hin, hs, frobInner_self]
  have hf := fld_sq_le hB R
  set s : ℝ := 1 / ((m + 1 : ℕ) : ℝ) with hsd
  have hs0 : 0 ≤ s := by positivity
  have e : B / ((m + 1 : ℕ) : ℝ) = s * B := by rw [hsd, div_eq_mul_inv, one_div, mul_comm]
  rw [e]
  have h1 : (∑ r, (th (fld (X 0) x r) - th (fld (X 0) z r)) * fld (X 0) Rᵀ r) ≤
      1 / 4 * (∑ r, fld (X 0) Rᵀ r ^ 2)
        + ∑ r, (th (fld (X 0) x r) - th (fld (X 0) z r)) * fld (X 0) (x - z) r := by
    rw [Finset.mul_sum, ← Finset.sum_add_distrib]
    refine Finset.sum_le_sum fun r _ => ?_
    have h2 := th_firm (fld (X 0) x r) (fld (X 0) z r)
    rw [fld_sub]
    nlinarith [sq_nonneg (fld (X 0) Rᵀ r - 2 * (th (fld (X 0) x r) - th (fld (X 0) z r)))]
  have h2 := mul_le_mul_of_nonneg_left (h1.trans (add_le_add_left (mul_le_mul_of_nonneg_left hf
    (by norm_num : (0 : ℝ) ≤ 1 / 4)) _)) (mul_nonneg hg.le hs0)
  have h3 : frobInner R (x - z) ≤ 1 / 4 * frobSq R + frobSq (x - z) := by
    have h4 := frobSq_nonneg (R - (2 : ℝ) • (x - z))
    have h5 := frobSq_add R ((-2 : ℝ) • (x - z))
    rw [frobInner_smul_right] at h5
    have e2 : R + (-2 : ℝ) • (x - z) = R - (2 : ℝ) • (x - z) := by rw [neg_smul]; abel
    have e3 : frobSq ((-2 : ℝ) • (x - z)) = 4 * frobSq (x - z) := by
      rw [← frobInner_self, frobInner_smul_left, frobInner_smul_right, frobInner_self]; ring
    rw [e2, e3] at h5
    linarith
  have h4 := mul_le_mul_of_nonneg_left h3 (mul_nonneg hg.le hq)
  nlinarith

/-- Fixed points of the step are the minimisers over the symmetric matrices, for step sizes below twice the inverse
curvature; that fixed points are minimisers holds for every step size. -/
theorem ising_fixed_min (X : Fin (m + 1) → Fin d → ℝ) {alpha gamma rho T : ℝ} (hal : 0 ≤ alpha) (hg : 0 < gamma)
    (hq : 0 ≤ rho * T) (A : Matrix (Fin d) (Fin d) ℝ) {x : Matrix (Fin d) (Fin d) ℝ}
    (h : isingFitStep X alpha gamma A rho T x = x) :
    IsMin {Y : Matrix (Fin d) (Fin d) ℝ | Y.IsSymm} (isingTarget X alpha A (rho * T)) x := by
  have hx : x.IsSymm := by rw [← h]; exact isingFitStep_symm ..
  refine ⟨hx, fun z hz => ?_⟩
  have h1 := isingProx_subgrad (mul_nonneg hal hg.le) (x - gamma • isingGradA X A rho T x) (Z := z) hz
  rw [← isingFitStep_eq, h] at h1
  have e : x - gamma • isingGradA X A rho T x - x = -(gamma • isingGradA X A rho T x) := by abel
  rw [e, frobInner_neg_right, frobInner_smul_right] at h1
  have h2 := isingSmooth_tangent X A hq hx hz
  have h3 : alpha * absSumOff x - frobInner (z - x) (isingGradA X A rho T x) ≤ alpha * absSumOff z := by
    refine le_of_mul_le_mul_left ?_ hg
    nlinarith
  unfold isingTarget
  unfold isingSmooth at h2
  linarith

theorem ising_min_fixed (X : Fin (m + 1) → Fin d → ℝ) {alpha gamma rho T B : ℝ} (hal : 0 ≤ alpha) (hg : 0 < gamma)
    (hB : ∀ r, (∑ j, if j = r then 0 else X 0 j ^ 2) ≤ B)
    (hL : gamma * (B / ((m + 1 : ℕ) : ℝ) + rho * T) < 2)
    (A : Matrix (Fin d) (Fin d) ℝ) {x : Matrix (Fin d) (Fin d) ℝ}
    (h : IsMin {Y : Matrix (Fin d) (Fin d) ℝ | Y.IsSymm} (isingTarget X alpha A (rho * T)) x) :
    isingFitStep X alpha gamma A rho T x = x := by
  obtain ⟨hx, hmin⟩ := h
  have hx' : x.IsSymm := hx
  set p := isingFitStep X alpha gamma A rho T x with hp
  have hps : p.IsSymm := isingFitStep_symm ..
  have h1 := isingProx_subgrad (mul_nonneg hal hg.le) (x - gamma • isingGradA X A rho T x) (Z := x) hx'
  rw [← isingFitStep_eq, ← hp] at h1
  have e : x - gamma • isingGradA X A rho T x - p = (x - p) - gamma • isingGradA X A rho T x := by abel
  rw [e, frobInner_sub_right, frobInner_smul_right, frobInner_self] at h1
  have h2 := isingSmooth_upper X A (rho := rho) (T := T) hB hx' hps
  have h3 := hmin p hps
  unfold isingTarget at h3
  unfold isingSmooth at h2
  have e1 : frobInner (p - x) (isingGradA X A rho T x) = -frobInner (x - p) (isingGradA X A rho T x) := by
    rw [← frobInner_neg_left]; congr 1; abel
  have e2 : frobSq (p - x) = frobSq (x - p) := by
    rw [← frobInner_self, ← frobInner_self, ← neg_sub x p, frobInner_neg_left, frobInner_neg_right, neg_neg]
  rw [e1, e2] at h2
  have h5 : 0 ≤ (gamma * (B / ((m + 1 : ℕ) : ℝ) + rho * T) / 2 - 1) * frobSq (x - p) := by
    have h6 : 0 ≤ alpha * absSumOff p - alpha * absSumOff x - frobInner (x - p) (isingGradA X A rho T x)
        + (B / ((m + 1 : ℕ) : ℝ) + rho * T) / 2 * frobSq (x - p) := by linarith
    have h7 := mul_nonneg hg.le h6
    nlinarith
  have h6 : frobSq (x - p) ≤ 0 := by
    by_contra hc
    push Not at hc
    nlinarith
  have h7 : x - p = 0 := (frobSq_eq_zero_iff _).mp (le_antisymm h6 (frobSq_nonneg _))
  exact (sub_eq_zero.mp h7).symm

/-- A minimiser exists: the entries of the first sample are at most 1 in absolute value and the penalty is positive. -/
theorem ising_exists (X : Fin (m + 1) → Fin d → ℝ) (hX : ∀ r, |X 0 r| ≤ 1) {alpha q : ℝ} (hal : 0 < alpha) (hq : 0 ≤ q)
    (A : Matrix (Fin d) (Fin d) ℝ) :
    ∃ x, IsMin {Y : Matrix (Fin d) (Fin d) ℝ | Y.IsSymm} (isingTarget X alpha A q) x := by
  have hnll : ∀ Y, 0 ≤ isingNLL (fun _ : Fin 1 => X 0) Y := fun Y => by
    rw [isingNLL_one]
    refine Finset.sum_nonneg fun r _ => ?_
    have h1 := abs_le_lc (fld (X 0) Y r)
    have h2 : X 0 r * fld (X 0) Y r ≤ |fld (X 0) Y r| := by
      refine (le_abs_self _).trans ?_
      rw [abs_mul]
      exact mul_le_of_le_one_left (abs_nonneg _) (hX r)
    linarith
  have hcont : Continuous (isingTarget X alpha A q) := by
    unfold isingTarget
    simp only [isingNLL_one]
    refine ((continuous_const.mul (continuous_finsetSum _ fun r _ => ?_)).add (continuous_const.mul ?_)).add
      (continuous_const.mul ?_)
    · exact (lc_continuous.comp (fld_continuous _ _)).sub (continuous_const.mul (fld_continuous _ _))
    · unfold absSumOff
      refine continuous_finsetSum _ fun i _ => continuous_finsetSum _ fun j _ => ?_
      split
      · exact continuous_const
      · exact (continuous_id.matrix_elem i j).abs
    · unfold frobSq
      exact continuous_finsetSum _ fun i _ => continuous_finsetSum _ fun j _ =>
        (((continuous_id.sub continuous_const).matrix_elem i j)).pow 2
  -- replace the diagonal by that of `A`
  set fix : Matrix (Fin d) (Fin d) ℝ → Matrix (Fin d) (Fin d) ℝ := fun Y =>
    Matrix.of fun i j => if i = j then A i i else Y i j with hfix
  have hfixle : ∀ Y, isingTarget X alpha A q (fix Y) ≤ isingTarget X alpha A q Y := by
    intro Y
    have e1 : isingNLL (fun _ : Fin 1 => X 0) (fix Y) = isingNLL (fun _ : Fin 1 => X 0) Y := by
      rw [isingNLL_one, isingNLL_one]
      have : ∀ r, fld (X 0) (fix Y) r = fld (X 0) Y r := fun r => by
        unfold fld
        refine Finset.sum_congr rfl fun k _ => ?_
        by_cases hk : k = r
        · simp [hk]
        · simp [hk, hfix]
      simp only [this]
    have e2 : absSumOff (fix Y) = absSumOff Y := by
      unfold absSumOff
      refine Finset.sum_congr rfl fun i _ => Finset.sum_congr rfl fun j _ => ?_
      by_cases hk : i = j
      · simp [hk]
      · simp [hk, hfix]
    have e3 : frobSq (fix Y - A) ≤ frobSq (Y - A) := by
      unfold frobSq
      refine Finset.sum_le_sum fun i _ => Finset.sum_le_sum fun j _ => ?_
      by_cases hk : i = j
      · simp only [hfix, Matrix.sub_apply, Matrix.of_apply, hk, if_true, sub_self]
        rw [zero_pow two_ne_zero]
        exact sq_nonneg _
      · simp [hk, hfix]
    unfold isingTarget
    rw [e1, e2]
    have := mul_le_mul_of_nonneg_left e3 (by positivity : 0 ≤ q / 2)
    linarith
  set R := isingTarget X alpha A q 0 / alpha + ∑ i, |A i i| with hR
  have hF0 : 0 ≤ isingTarget X alpha A q 0 := by
    unfold isingTarget
    have h1 := hnll 0
    have h2 : 0 ≤ absSumOff (0 : Matrix (Fin d) (Fin d) ℝ) := by simp [absSumOff]
    have h3 := frobSq_nonneg (0 - A)
    have h4 : 0 ≤ 1 / ((m + 1 : ℕ) : ℝ) * isingNLL (fun _ : Fin 1 => X 0) 0 := by positivity
    positivity
  have hR0 : 0 ≤ R := by
    rw [hR]
    have : 0 ≤ ∑ i, |A i i| := Finset.sum_nonneg fun _ _ => abs_nonneg _
    positivity
  set C : Set (Matrix (Fin d) (Fin d) ℝ) := {Y | Y.IsSymm ∧ ∀ i j, |Y i j| ≤ R} with hC
  have hcomp : IsCompact C := by
    have hbox : IsCompact (Set.pi Set.univ fun _ : Fin d => Set.pi Set.univ fun _ : Fin d => Set.Icc (-R) R) :=
      isCompact_univ_pi fun _ => isCompact_univ_pi fun _ => isCompact_Icc
    have hclosed : IsClosed {Y : Matrix (Fin d) (Fin d) ℝ | Y.IsSymm} :=
      isClosed_eq continuous_id.matrix_transpose continuous_id
    have e : C = (Set.pi Set.univ fun _ : Fin d => Set.pi Set.univ fun _ : Fin d => Set.Icc (-R) R)
        ∩ {Y : Matrix (Fin d) (Fin d) ℝ | Y.IsSymm} := by
      ext Y
      constructor
      · rintro ⟨h1, h2⟩
        exact ⟨Set.mem_univ_pi.mpr fun i => Set.mem_univ_pi.mpr fun j => abs_le.mp (h2 i j), h1⟩
      · rintro ⟨h1, h2⟩
        exact ⟨h2, fun i j => abs_le.mpr (Set.mem_univ_pi.mp (Set.mem_univ_pi.mp h1 i) j)⟩
    rw [e]
    exact hbox.inter_right hclosed
  have h0 : (0 : Matrix (Fin d) (Fin d) ℝ) ∈ C := ⟨by simp [IsSymm], fun i j => by simpa using hR0⟩
  obtain ⟨x, hxC, hx⟩ := hcomp.exists_isMinOn ⟨0, h0⟩ hcont.continuousOn
  refine ⟨x, hxC.1, fun Y hY => ?_⟩
  by_cases hbig : isingTarget X alpha A q 0 < isingTarget X alpha A q Y
  · exact (hx h0).trans hbig.le
  · push Not at hbig
    refine le_trans (hx (⟨?_, fun i j => ?_⟩ : fix Y ∈ C)) (hfixle Y)
    · ext i j
      have hY' : Y.IsSymm := hY
      simp only [hfix, transpose_apply, Matrix.of_apply]
      by_cases hij : i = j
      · simp [hij]
      · rw [if_neg hij, if_neg fun h => hij h.symm]; exact hY'.apply i j
    · have hsum : 0 ≤ ∑ i, |A i i| := Finset.sum_nonneg fun _ _ => abs_nonneg _
      by_cases hij : i = j
      · have h1 : |A i i| ≤ ∑ i, |A i i| :=
          Finset.single_le_sum (f := fun i => |A i i|) (fun _ _ => abs_nonneg _) (Finset.mem_univ i)
        simp only [hfix, Matrix.of_apply, hij, if_true]
        rw [hij] at h1
        have : 0 ≤ isingTarget X alpha A q 0 / alpha := by positivity
        linarith
      · simp only [hfix, Matrix.of_apply, hij, if_false]
        have h1 : |Y i j| ≤ absSumOff Y := by
          unfold absSumOff
          refine le_trans ?_ (Finset.single_le_sum (f := fun i => ∑ j, if i = j then 0 else |Y i j|)
            (fun _ _ => Finset.sum_nonneg fun _ _ => by split <;> positivity) (Finset.mem_univ i))
          refine le_trans (by simp [hij]) (Finset.single_le_sum (f := fun j => if i = j then 0 else |Y i j|)
            (fun _ _ => by split <;> positivity) (Finset.mem_univ j))
        have h2 : alpha * absSumOff Y ≤ isingTarget X alpha A q 0 := by
          refine le_trans ?_ hbig
          unfold isingTarget
          have h3 : 0 ≤ 1 / ((m + 1 : ℕ) : ℝ) * isingNLL (fun _ : Fin 1 => X 0) Y := mul_nonneg (by positivity) (hnll Y)
          have h4 := mul_nonneg (by positivity : 0 ≤ q / 2) (frobSq_nonneg (Y - A))
          linarith
        have h3 : absSumOff Y ≤ isingTarget X alpha A q 0 / alpha := by
          rw [le_div_iff₀ hal, mul_comm]; exact h2
        linarith

/-! ### C153 -/

/-- C153 (partial): for a first sample with entries at most 1 in absolute value (as data in {-1, 1}), a positive penalty and a
step size below twice the inverse curvature, the iterates of the Ising fit converge, from every symmetric start, to a
minimiser over the symmetric matrices of the problem built from the first sample alone. Missing: the remaining samples,
which the gradient ignores (C41, `C153_first_sample_false`). -/
theorem C153_converges_partial (X : Fin (m + 1) → Fin d → ℝ) (hX : ∀ r, |X 0 r| ≤ 1) {alpha gamma rho T B : ℝ}
    (hal : 0 < alpha) (hg : 0 < gamma) (hq : 0 ≤ rho * T) (hB : ∀ r, (∑ j, if j = r then 0 else X 0 j ^ 2) ≤ B)
    (hL : gamma * (B / ((m + 1 : ℕ) : ℝ) + rho * T) < 2) (A : Matrix (Fin d) (Fin d) ℝ)
    {theta0 : Matrix (Fin d) (Fin d) ℝ} (h0 : theta0.IsSymm) :
    ∃ theta, IsMin {Y : Matrix (Fin d) (Fin d) ℝ | Y.IsSymm} (fun Y =>
        1 / ((m + 1 : ℕ) : ℝ) * isingNLL (fun _ : Fin 1 => X 0) Y + alpha * absSumOff Y + rho * T / 2 * frobSq (Y - A))
        theta ∧
      Tendsto (fun k => (isingFitStep X alpha gamma A rho T)^[k] theta0) atTop (𝓝 theta) ∧
      Tendsto (fun k => frobSq ((isingFitStep X alpha gamma A rho T)^[k + 1] theta0
        - (isingFitStep X alpha gamma A rho T)^[k] theta0)) atTop (𝓝 0) := by
  obtain ⟨z, hz⟩ := ising_exists X hX hal hq A
  have hz' := ising_min_fixed X hal.le hg hB hL A hz
  obtain ⟨a, ha, hlim, hres⟩ := fejer_converges_matrix (P := fun Y : Matrix (Fin d) (Fin d) ℝ => Y.IsSymm)
    (c := 1 - gamma * (B / ((m + 1 : ℕ) : ℝ) + rho * T) / 2) (by linarith)
    (isingFitStep_continuous X (mul_nonneg hal.le hg.le) A rho T) (fun x => isingFitStep_symm ..)
    (fun x z hx hz => ising_fejer X hal.le hg hq hB A hx hz) hz' (x0 := theta0) h0
  exact ⟨a, ising_fixed_min X hal.le hg hq A ha, hlim, hres⟩

theorem isingFitLoop_stops (step : Matrix (Fin d) (Fin d) ℝ → Matrix (Fin d) (Fin d) ℝ) (tol : ℝ) (K : ℕ) :
    ∀ x0 : Matrix (Fin d) (Fin d) ℝ, Real.sqrt (∑ i, ∑ j, (step^[K] x0 i j - step^[K + 1] x0 i j) ^ 2) < tol →
    ∃ k ≤ K, Real.sqrt (∑ i, ∑ j, (step^[k] x0 i j - step^[k + 1] x0 i j) ^ 2) < tol ∧
      ∀ N > K, isingFitLoop step tol N x0 = step^[k + 1] x0 := by
  induction K with
  | zero =>
    intro x0 h
    refine ⟨0, le_rfl, h, fun N hN => ?_⟩
    obtain ⟨N, rfl⟩ : ∃ M, N = M + 1 := ⟨N - 1, by omega⟩
    unfold isingFitLoop
    rw [if_pos (by simpa using h)]
    rfl
  | succ K ih =>
    intro x0 h
    by_cases h0 : Real.sqrt (∑ i, ∑ j, (x0 i j - step x0 i j) ^ 2) < tol
    · refine ⟨0, Nat.zero_le _, h0, fun N hN => ?_⟩
      obtain ⟨N, rfl⟩ : ∃ M, N = M + 1 := ⟨N - 1, by omega⟩
      unfold isingFitLoop
      rw [if_pos h0]
      rfl
    · obtain ⟨k, hk, h1, h2⟩ := ih (step x0) h
      refine ⟨k + 1, by omega, h1, fun N hN => ?_⟩
      obtain ⟨N, rfl⟩ : ∃ M, N = M + 1 := ⟨N - 1, by omega⟩
      unfold isingFitLoop
      rw [if_neg h0]
      exact h2 N (by omega)

/-- C153 (partial): with a positive tolerance the fit stops by the tolerance once `max_iter` is large enough, and the
result then no longer depends on `max_iter`. Missing: data with entries beyond 1, zero penalties. -/
theorem C153_stops_partial (X : Fin (m + 1) → Fin d → ℝ) (hX : ∀ r, |X 0 r| ≤ 1) {alpha gamma rho T B tol : ℝ}
    (hal : 0 < alpha) (hg : 0 < gamma) (hq : 0 ≤ rho * T) (hB : ∀ r, (∑ j, if j = r then 0 else X 0 j ^ 2) ≤ B)
    (hL : gamma * (B / ((m + 1 : ℕ) : ℝ) + rho * T) < 2) (ht : 0 < tol) (A : Matrix (Fin d) (Fin d) ℝ) :
    ∃ k, froNorm ((isingFitStep X alpha gamma A rho T)^[k] 0 - (isingFitStep X alpha gamma A rho T)^[k + 1] 0) < tol ∧
      ∃ K, ∀ N > K, isingFit X alpha gamma tol N T A rho = (isingFitStep X alpha gamma A rho T)^[k + 1] 0 := by
  obtain ⟨a, -, -, hres⟩ := C153_converges_partial X hX hal hg hq hB hL A (theta0 := 0) (by simp [IsSymm])
  have h2 := hres.sqrt
  rw [Real.sqrt_zero] at h2
  obtain ⟨K, hK⟩ := ((tendsto_order.mp h2).2 tol ht).exists
  have hK' : Real.sqrt (∑ i, ∑ j, ((isingFitStep X alpha gamma A rho T)^[K] 0 i j
      - (isingFitStep X alpha gamma A rho T)^[K + 1] 0 i j) ^ 2) < tol := by
    refine lt_of_le_of_lt (le_of_eq ?_) hK
    congr 1
    unfold frobSq
    exact Finset.sum_congr rfl fun i _ => Finset.sum_congr rfl fun j _ => by rw [Matrix.sub_apply]; ring
  obtain ⟨k, -, h1, h3⟩ := isingFitLoop_stops (isingFitStep X alpha gamma A rho T) tol K 0 hK'
  exact ⟨k, h1, K, h3⟩

/-- C153 is false for the documented problem: the result is the same for any two data sets of equal size with the same
first sample. -/
theorem C153_first_sample_false (X Y : Fin (m + 1) → Fin d → ℝ) (h : X 0 = Y 0) (alpha gamma tol : ℝ) (N : ℕ) (T : ℝ)
    (A : Matrix (Fin d) (Fin d) ℝ) (rho : ℝ) : isingFit X alpha gamma tol N T A rho = isingFit Y alpha gamma tol N T A rho := by
  have e : isingFitStep X alpha gamma A rho T = isingFitStep Y alpha gamma A rho T := by
    funext theta
    rw [isingFitStep_eq, isingFitStep_eq, isingGradA_eq, isingGradA_eq, h]
  unfold isingFit
  rw [e]

/-- Non-vacuity for C153: four variables and two samples, the default step size 1. -/
example : ∀ r : Fin 4, |(1 : ℝ)| ≤ 1 ∧ (∑ j : Fin 4, if j = r then 0 else (1 : ℝ) ^ 2) ≤ 3 ∧
    (1 : ℝ) * (3 / ((1 + 1 : ℕ) : ℝ) + 1 * 0) < 2 := by
  intro r
  refine ⟨by simp, ?_, by norm_num⟩
  fin_cases r <;> simp [Fin.sum_univ_four] <;> norm_num

end Verif.Props
