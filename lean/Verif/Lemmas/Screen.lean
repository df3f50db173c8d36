import Verif.Lemmas.Relabel
import Verif.Lemmas.GLOpt
import Verif.Lemmas.Frob
import Verif.Spec.Temporal

/-! Averaging a matrix with its copy under a change of signs removes the entries between two groups of variables; the
objectives of the graphical lassos do not increase when these entries are weak in the covariance. -/

namespace Verif.Lemmas

open Matrix Verif.Model Verif.Spec

set_option autoImplicit false
set_option linter.unusedSectionVars false

variable {n : Type*} [Fintype n] [DecidableEq n]

/-- The variables of a group change their sign. -/
def flipGroup (B : n → Prop) [DecidablePred B] : Relabel n where
  perm := Equiv.refl n
  sign := fun i => if B i then -1 else 1
  sign_sq := by intro i; split <;> norm_num

/-- The matrix without the entries between the group and the other variables. -/
noncomputable def cutGroup (B : n → Prop) [DecidablePred B] (K : Matrix n n ℝ) : Matrix n n ℝ :=
  (1 / 2 : ℝ) • (K + (flipGroup B).mat K)

variable (B : n → Prop) [DecidablePred B]

theorem cutGroup_same (K : Matrix n n ℝ) {i j : n} (h : B i ↔ B j) : cutGroup B K i j = K i j := by
  simp only [cutGroup, Matrix.smul_apply, Matrix.add_apply, Relabel.mat, flipGroup, smul_eq_mul, Equiv.refl_apply]
  by_cases hi : B i
  · have hj := h.mp hi
    simp only [hi, hj, if_true]; ring
  · have hj : ¬ B j := fun hh => hi (h.mpr hh)
    simp only [hi, hj, if_false]; ring

theorem cutGroup_cross (K : Matrix n n ℝ) {i j : n} (h : ¬ (B i ↔ B j)) : cutGroup B K i j = 0 := by
  simp only [cutGroup, Matrix.smul_apply, Matrix.add_apply, Relabel.mat, flipGroup, smul_eq_mul, Equiv.refl_apply]
  by_cases hi : B i
  · have hj : ¬ B j := fun hh => h ⟨fun _ => hh, fun _ => hi⟩
    simp only [hi, hj, if_true, if_false]; ring
  · have hj : B j := by
      by_contra hh
      exact h ⟨fun x => absurd x hi, fun x => absurd x hh⟩
    simp only [hi, hj, if_true, if_false]; ring

theorem mat_posDef (r : Relabel n) {K : Matrix n n ℝ} (hK : K.PosDef) : (r.mat K).PosDef := by
  rw [mat_eq]
  have hu : IsUnit (perMat r).det := by
    have := congrArg Matrix.det (perMat_orth r)
    rw [det_mul, det_transpose, det_one] at this
    exact IsUnit.of_mul_eq_one _ this
  have hinj : Function.Injective (perMat r).vecMul :=
    Matrix.vecMul_injective_of_isUnit ((Matrix.isUnit_iff_isUnit_det _).mpr hu)
  have := hK.mul_mul_conjTranspose_same (B := perMat r) hinj
  rwa [conjTranspose_eq_transpose_of_trivial] at this

theorem cutGroup_posDef {K : Matrix n n ℝ} (hK : K.PosDef) : (cutGroup B K).PosDef :=
  (hK.add (mat_posDef _ hK)).smul (by norm_num)

theorem cutGroup_logdet {K : Matrix n n ℝ} (hK : K.PosDef) :
    Real.log K.det ≤ Real.log (cutGroup B K).det := by
  have hM := cutGroup_posDef B hK
  have h1 := log_det_le hK hM
  have h2 := log_det_le (mat_posDef (flipGroup B) hK) hM
  rw [mat_det] at h2
  have h3 : frobInner (cutGroup B K)⁻¹ (K - cutGroup B K) +
      frobInner (cutGroup B K)⁻¹ ((flipGroup B).mat K - cutGroup B K) = 0 := by
    rw [← frobInner_add_right]
    have : K - cutGroup B K + ((flipGroup B).mat K - cutGroup B K) = 0 := by
      unfold cutGroup
      ext i j
      simp only [Matrix.add_apply, Matrix.sub_apply, Matrix.smul_apply, smul_eq_mul, Matrix.zero_apply]
      ring
    rw [this]
    simp [frobInner]
  linarith

/-- The linear term and a penalty on the absolute values of the entries do not increase. -/
theorem cutGroup_linear {S : Matrix n n ℝ} {w c : ℝ} {pen : n → n → Prop} [∀ i j, Decidable (pen i j)]
    (hp : ∀ i j, ¬ (B i ↔ B j) → pen i j) (hS : ∀ i j, ¬ (B i ↔ B j) → w * |S i j| ≤ c) (hw : 0 ≤ w)
    (K : Matrix n n ℝ) :
    w * frobInner S (cutGroup B K) + c * ∑ i, ∑ j, (if pen i j then |cutGroup B K i j| else 0) ≤
      w * frobInner S K + c * ∑ i, ∑ j, (if pen i j then |K i j| else 0) := by
  unfold frobInner
  simp only [Finset.mul_sum, ← Finset.sum_add_distrib]
  refine Finset.sum_le_sum fun i _ => Finset.sum_le_sum fun j _ => ?_
  by_cases h : B i ↔ B j
  · rw [cutGroup_same B K h]
  · rw [cutGroup_cross B K h]
    simp only [hp i j h, if_true, abs_zero, mul_zero, add_zero]
    have h1 := hS i j h
    have h2 : w * (S i j * K i j) ≥ -(w * |S i j| * |K i j|) := by
      have := neg_abs_le (S i j * K i j)
      rw [abs_mul] at this
      nlinarith
    have h3 : w * |S i j| * |K i j| ≤ c * |K i j| := mul_le_mul_of_nonneg_right h1 (abs_nonneg _)
    linarith

theorem absSumOff_eq' (X : Matrix n n ℝ) : absSumOff X = ∑ i, ∑ j, if i ≠ j then |X i j| else 0 := by
  unfold absSumOff
  refine Finset.sum_congr rfl fun i _ => Finset.sum_congr rfl fun j _ => ?_
  by_cases h : i = j <;> simp [h]

theorem absSumMat_eq' (X : Matrix n n ℝ) : absSumMat X = ∑ i, ∑ j, if True then |X i j| else 0 := by
  simp [absSumMat]

theorem glObjective_cut {S : Matrix n n ℝ} (hSs : S.IsSymm) {alpha : ℝ}
    (hS : ∀ i j, ¬ (B i ↔ B j) → |S i j| ≤ alpha) {K : Matrix n n ℝ} (hK : K.PosDef) :
    glObjective S alpha (cutGroup B K) ≤ glObjective S alpha K := by
  unfold glObjective
  have h1 := cutGroup_logdet B hK
  have h2 := cutGroup_linear B (S := S) (w := 1) (c := alpha) (pen := fun i j => i ≠ j)
    (fun i j h hij => h (by rw [hij])) (fun i j h => by rw [one_mul]; exact hS i j h) zero_le_one K
  rw [← absSumOff_eq', ← absSumOff_eq', one_mul, one_mul] at h2
  rw [← frobInner_eq_trace_of_symm hSs, ← frobInner_eq_trace_of_symm hSs]
  linarith

/-- The same for the sum over time points, with any penalty on differences that does not change under changes of signs. -/
theorem timeTerms_cut {k : ℕ} {S : Fin k → Matrix n n ℝ} (hSs : ∀ t, (S t).IsSymm) {nS : Fin k → ℝ}
    (hn : ∀ t, 0 ≤ nS t) {alpha : ℝ} (hS : ∀ t i j, ¬ (B i ↔ B j) → nS t * |S t i j| ≤ alpha)
    {K : Fin k → Matrix n n ℝ} (hK : ∀ t, (K t).PosDef) :
    negLogLik S nS (fun t => cutGroup B (K t)) + alpha * ∑ t, absSumMat (cutGroup B (K t)) ≤
      negLogLik S nS K + alpha * ∑ t, absSumMat (K t) := by
  unfold negLogLik
  rw [Finset.mul_sum, Finset.mul_sum, ← Finset.sum_add_distrib, ← Finset.sum_add_distrib]
  refine Finset.sum_le_sum fun t _ => ?_
  have h1 := mul_le_mul_of_nonneg_left (cutGroup_logdet B (hK t)) (hn t)
  have h2 := cutGroup_linear B (S := S t) (w := nS t) (c := alpha) (pen := fun _ _ => True)
    (fun i j _ => trivial) (hS t) (hn t) (K t)
  rw [← absSumMat_eq', ← absSumMat_eq'] at h2
  rw [← frobInner_eq_trace_of_symm (hSs t), ← frobInner_eq_trace_of_symm (hSs t)]
  rw [mul_sub, mul_sub]
  linarith

/-- What is asked of a penalty on differences of time points. -/
def SignInvariant (psi : Matrix n n ℝ → ℝ) : Prop := ∀ (r : Relabel n), r.perm = Equiv.refl n → ∀ M, psi (r.mat M) = psi M

theorem psi_cut {psi : Matrix n n ℝ → ℝ} (hc : ConvexPen psi) (hi : SignInvariant psi) (K L : Matrix n n ℝ) :
    psi (cutGroup B K - cutGroup B L) ≤ psi (K - L) := by
  have h := hc (K - L) ((flipGroup B).mat (K - L)) (1 / 2) (by norm_num) (by norm_num)
  rw [hi (flipGroup B) rfl] at h
  have e : K - L + (1 / 2 : ℝ) • ((flipGroup B).mat (K - L) - (K - L)) = cutGroup B K - cutGroup B L := by
    unfold cutGroup
    rw [mat_sub]
    ext i j
    simp only [Matrix.add_apply, Matrix.sub_apply, Matrix.smul_apply, smul_eq_mul]
    ring
  rw [e] at h
  linarith

end Verif.Lemmas
