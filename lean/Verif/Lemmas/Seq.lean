import Verif.Lemmas.GL
import Verif.Lemmas.TV
import Verif.Spec.Seq
import Mathlib.LinearAlgebra.Matrix.Charpoly.Coeff
import Mathlib.Analysis.Calculus.Deriv.Polynomial
import Mathlib.Analysis.SpecialFunctions.Log.Deriv
import Mathlib.Analysis.Calculus.Deriv.Pow

/-! Sequences of matrices: inner product, convexity and derivative of the smooth time-varying loss,
and the generic inequality behind a proximal gradient step with line search. -/

namespace Verif.Lemmas

open Matrix Verif.Spec Verif.Model

set_option autoImplicit false
set_option linter.unusedSectionVars false

variable {n : Type*} [Fintype n] [DecidableEq n] {k T : ℕ}

/-! ### Inner product -/

theorem seqInner_comm (A B : Fin k → Matrix n n ℝ) : seqInner A B = seqInner B A :=
  Finset.sum_congr rfl fun _ _ => frobInner_comm _ _

theorem seqInner_add_left (A B C : Fin k → Matrix n n ℝ) :
    seqInner (A + B) C = seqInner A C + seqInner B C := by
  unfold seqInner
  rw [← Finset.sum_add_distrib]
  exact Finset.sum_congr rfl fun t _ => by rw [Pi.add_apply, frobInner_add_left]

theorem seqInner_add_right (A B C : Fin k → Matrix n n ℝ) :
    seqInner A (B + C) = seqInner A B + seqInner A C := by
  rw [seqInner_comm, seqInner_add_left, seqInner_comm B, seqInner_comm C]

theorem seqInner_sub_left (A B C : Fin k → Matrix n n ℝ) :
    seqInner (A - B) C = seqInner A C - seqInner B C := by
  unfold seqInner
  rw [← Finset.sum_sub_distrib]
  exact Finset.sum_congr rfl fun t _ => by rw [Pi.sub_apply, frobInner_sub_left]

theorem seqInner_sub_right (A B C : Fin k → Matrix n n ℝ) :
    seqInner A (B - C) = seqInner A B - seqInner A C := by
  rw [seqInner_comm, seqInner_sub_left, seqInner_comm B, seqInner_comm C]

theorem seqInner_smul_left (c : ℝ) (A B : Fin k → Matrix n n ℝ) :
    seqInner (c • A) B = c * seqInner A B := by
  unfold seqInner
  rw [Finset.mul_sum]
  exact Finset.sum_congr rfl fun t _ => by rw [Pi.smul_apply, frobInner_smul_left]

theorem seqInner_smul_right (c : ℝ) (A B : Fin k → Matrix n n ℝ) :
    seqInner A (c • B) = c * seqInner A B := by
  rw [seqInner_comm, seqInner_smul_left, seqInner_comm]

theorem seqInner_neg_left (A B : Fin k → Matrix n n ℝ) : seqInner (-A) B = -seqInner A B := by
  have := seqInner_smul_left (-1) A B
  rw [neg_one_smul, neg_one_mul] at this
  exact this

theorem seqInner_zero_left (B : Fin k → Matrix n n ℝ) : seqInner 0 B = 0 := by
  have := seqInner_smul_left 0 0 B
  rw [zero_smul, zero_mul] at this
  exact this

theorem seqInner_self (A : Fin k → Matrix n n ℝ) : seqInner A A = seqSq A :=
  Finset.sum_congr rfl fun _ _ => frobInner_self _

theorem seqSq_nonneg (A : Fin k → Matrix n n ℝ) : 0 ≤ seqSq A :=
  Finset.sum_nonneg fun _ _ => frobSq_nonneg _

theorem seqSq_pos_of_ne {A B : Fin k → Matrix n n ℝ} (h : A ≠ B) : 0 < seqSq (A - B) := by
  obtain ⟨t, ht⟩ := Function.ne_iff.mp h
  refine Finset.sum_pos' (fun _ _ => frobSq_nonneg _) ⟨t, Finset.mem_univ _, ?_⟩
  exact frobSq_pos_of_ne ht

/-! ### One proximal gradient step -/

/-- `y` is the proximal point of `xhat` for `gamma * g`, as a variational inequality. -/
def ProxIneq (g : (Fin k → Matrix n n ℝ) → ℝ) (gamma : ℝ) (xhat y : Fin k → Matrix n n ℝ) : Prop :=
  ∀ z, gamma * g y + seqInner (xhat - y) (z - y) ≤ gamma * g z

/-- The variational inequality characterises the unique minimiser of the proximal objective. -/
theorem ProxIneq.uniqueMin {g : (Fin k → Matrix n n ℝ) → ℝ} {gamma : ℝ}
    {xhat y : Fin k → Matrix n n ℝ} (h : ProxIneq g gamma xhat y) :
    UniqueMin Set.univ (fun z => gamma * g z + 1 / 2 * seqSq (z - xhat)) y := by
  refine ⟨trivial, fun z _ hne => ?_⟩
  have h1 := h z
  have h2 := seqSq_pos_of_ne hne
  have e : seqSq (z - xhat) = seqSq (y - xhat) - 2 * seqInner (xhat - y) (z - y)
      + seqSq (z - y) := by
    rw [← seqInner_self, ← seqInner_self, ← seqInner_self]
    simp only [seqInner_sub_left, seqInner_sub_right]
    rw [seqInner_comm z xhat, seqInner_comm y xhat, seqInner_comm z y]
    ring
  change gamma * g y + 1 / 2 * seqSq (y - xhat) < gamma * g z + 1 / 2 * seqSq (z - xhat)
  linarith

theorem ProxIneq.eq {g : (Fin k → Matrix n n ℝ) → ℝ} {gamma : ℝ}
    {xhat y y' : Fin k → Matrix n n ℝ} (h : ProxIneq g gamma xhat y)
    (h' : ProxIneq g gamma xhat y') : y' = y :=
  h.uniqueMin.eq_of_isMin h'.uniqueMin.isMin

/-- Penalty drop along the step. -/
theorem ProxIneq.drop {g : (Fin k → Matrix n n ℝ) → ℝ} {gamma : ℝ} (hg : 0 < gamma)
    {x grad y : Fin k → Matrix n n ℝ} (h : ProxIneq g gamma (x - gamma • grad) y) :
    g y - g x ≤ -seqInner (y - x) grad - 1 / gamma * seqSq (y - x) := by
  have h1 := h x
  have e : seqInner (x - gamma • grad - y) (x - y) =
      seqSq (y - x) + gamma * seqInner (y - x) grad := by
    rw [← seqInner_self]
    simp only [seqInner_sub_left, seqInner_sub_right, seqInner_smul_left]
    rw [seqInner_comm y x, seqInner_comm y grad, seqInner_comm x grad]
    ring
  rw [e] at h1
  have h2 := mul_le_mul_of_nonneg_left h1 (one_div_pos.mpr hg).le
  have e1 : 1 / gamma * (gamma * g y + (seqSq (y - x) + gamma * seqInner (y - x) grad)) =
      g y + 1 / gamma * seqSq (y - x) + seqInner (y - x) grad := by field_simp; ring
  have e2 : 1 / gamma * (gamma * g x) = g x := by field_simp
  rw [e1, e2] at h2
  linarith

/-! ### Separable convexity -/

/-- Convexity of a function of sequences. -/
def SeqConvex (g : (Fin k → Matrix n n ℝ) → ℝ) : Prop :=
  ∀ X Y : Fin k → Matrix n n ℝ, ∀ s : ℝ, 0 ≤ s → s ≤ 1 →
    g (X + s • (Y - X)) ≤ (1 - s) * g X + s * g Y

theorem abs_convex (a b s : ℝ) (h0 : 0 ≤ s) (h1 : s ≤ 1) :
    |a + s * (b - a)| ≤ (1 - s) * |a| + s * |b| := by
  have e : a + s * (b - a) = (1 - s) * a + s * b := by ring
  rw [e]
  calc |(1 - s) * a + s * b| ≤ |(1 - s) * a| + |s * b| := abs_add_le _ _
    _ = _ := by rw [abs_mul, abs_mul, abs_of_nonneg h0, abs_of_nonneg (sub_nonneg.mpr h1)]

theorem absSumOff_convex (X Y : Matrix n n ℝ) (s : ℝ) (h0 : 0 ≤ s) (h1 : s ≤ 1) :
    absSumOff (X + s • (Y - X)) ≤ (1 - s) * absSumOff X + s * absSumOff Y := by
  unfold absSumOff
  rw [Finset.mul_sum, Finset.mul_sum, ← Finset.sum_add_distrib]
  refine Finset.sum_le_sum fun i _ => ?_
  rw [Finset.mul_sum, Finset.mul_sum, ← Finset.sum_add_distrib]
  refine Finset.sum_le_sum fun j _ => ?_
  by_cases h : i = j
  · simp [h]
  · simp only [if_neg h, Matrix.add_apply, Matrix.smul_apply, Matrix.sub_apply, smul_eq_mul]
    exact abs_convex _ _ _ h0 h1

theorem absSumMat_convex' (X Y : Matrix n n ℝ) (s : ℝ) (h0 : 0 ≤ s) (h1 : s ≤ 1) :
    absSumMat (X + s • (Y - X)) ≤ (1 - s) * absSumMat X + s * absSumMat Y := by
  unfold absSumMat
  rw [Finset.mul_sum, Finset.mul_sum, ← Finset.sum_add_distrib]
  refine Finset.sum_le_sum fun i _ => ?_
  rw [Finset.mul_sum, Finset.mul_sum, ← Finset.sum_add_distrib]
  refine Finset.sum_le_sum fun j _ => ?_
  simp only [Matrix.add_apply, Matrix.smul_apply, Matrix.sub_apply, smul_eq_mul]
  exact abs_convex _ _ _ h0 h1

theorem sparsePenalty_convex {alpha : ℝ} (ha : 0 ≤ alpha) :
    SeqConvex (sparsePenalty (n := n) (k := k) alpha) := by
  intro X Y s h0 h1
  unfold sparsePenalty
  have : ∑ t, absSumOff ((X + s • (Y - X)) t)
      ≤ (1 - s) * ∑ t, absSumOff (X t) + s * ∑ t, absSumOff (Y t) := by
    rw [Finset.mul_sum, Finset.mul_sum, ← Finset.sum_add_distrib]
    exact Finset.sum_le_sum fun t _ => absSumOff_convex _ _ _ h0 h1
  have := mul_le_mul_of_nonneg_left this ha
  linarith

theorem fusedPenalty_convex {alpha beta : ℝ} (ha : 0 ≤ alpha) (hb : 0 ≤ beta) :
    SeqConvex (fusedPenalty (n := n) (T := T) alpha beta) := by
  intro X Y s h0 h1
  have h2 := sparsePenalty_convex (n := n) ha X Y s h0 h1
  unfold sparsePenalty at h2
  unfold fusedPenalty
  have : ∑ p : Fin T, absSumMat ((X + s • (Y - X)) p.succ - (X + s • (Y - X)) p.castSucc)
      ≤ (1 - s) * ∑ p : Fin T, absSumMat (X p.succ - X p.castSucc)
        + s * ∑ p : Fin T, absSumMat (Y p.succ - Y p.castSucc) := by
    rw [Finset.mul_sum, Finset.mul_sum, ← Finset.sum_add_distrib]
    refine Finset.sum_le_sum fun p _ => ?_
    have e : (X + s • (Y - X)) p.succ - (X + s • (Y - X)) p.castSucc =
        (X p.succ - X p.castSucc) + s • ((Y p.succ - Y p.castSucc) - (X p.succ - X p.castSucc)) := by
      simp only [Pi.add_apply, Pi.smul_apply, Pi.sub_apply, smul_sub]
      abel
    rw [e]
    exact absSumMat_convex' _ _ _ h0 h1
  have := mul_le_mul_of_nonneg_left this hb
  linarith

/-! ### The smooth part -/

/-- Derivative of `log det` along any direction at a symmetric positive definite matrix. -/
theorem hasDerivAt_logdet {K : Matrix n n ℝ} (hK : K.PosDef) (V : Matrix n n ℝ) :
    HasDerivAt (fun s : ℝ => Real.log (K + s • V).det) (frobInner K⁻¹ V) 0 := by
  have hu : IsUnit K.det := hK.det_pos.ne'.isUnit
  set M := K⁻¹ * V with hM
  have hdet : ∀ s : ℝ, (K + s • V).det = K.det * (1 + s • M).det := by
    intro s
    rw [← Matrix.det_mul, Matrix.mul_add, Matrix.mul_one, Matrix.mul_smul, hM, ← Matrix.mul_assoc,
      Matrix.mul_nonsing_inv _ hu, Matrix.one_mul]
  have h1 : HasDerivAt (fun s : ℝ => (1 + s • M).det) (trace M) 0 := by
    have : (fun s : ℝ => (1 + s • M).det) = fun s : ℝ => 1 + trace M * s
        + ((det (1 + (Polynomial.X : Polynomial ℝ) • M.map Polynomial.C)).divX.divX).eval s
          * s ^ 2 := by
      funext s; exact Matrix.det_one_add_smul s M
    rw [this]
    set q := (det (1 + (Polynomial.X : Polynomial ℝ) • M.map Polynomial.C)).divX.divX
    have hq := (q.hasDerivAt (0 : ℝ)).mul (hasDerivAt_pow 2 (0 : ℝ))
    have hl := ((hasDerivAt_id (0 : ℝ)).const_mul (trace M)).const_add 1
    refine (hl.add hq).congr_deriv ?_
    simp
  have h2 : HasDerivAt (fun s : ℝ => K.det * (1 + s • M).det) (K.det * trace M) 0 :=
    h1.const_mul _
  have h3 : K.det * (1 + (0 : ℝ) • M).det ≠ 0 := by
    rw [zero_smul, add_zero, Matrix.det_one, mul_one]; exact hK.det_pos.ne'
  have h4 := h2.log h3
  have e : (fun s : ℝ => Real.log (K + s • V).det) = fun s => Real.log (K.det * (1 + s • M).det) := by
    funext s; rw [hdet]
  rw [e]
  refine h4.congr_deriv ?_
  rw [zero_smul, add_zero, Matrix.det_one, mul_one, mul_div_cancel_left₀ _ hK.det_pos.ne', hM,
    frobInner_eq_trace_of_symm (PosDef.isSymm' hK.inv)]

theorem hasDerivAt_frobSq (A V : Matrix n n ℝ) :
    HasDerivAt (fun s : ℝ => frobSq (A + s • V)) (2 * frobInner A V) 0 := by
  have e : (fun s : ℝ => frobSq (A + s • V)) =
      fun s : ℝ => frobSq A + 2 * frobInner A V * s + frobSq V * s ^ 2 := by
    funext s
    rw [frobSq_add, frobInner_smul_right, frobSq_smul]; ring
  rw [e]
  have h := (((hasDerivAt_id (0 : ℝ)).const_mul (2 * frobInner A V)).const_add (frobSq A)).add
    ((hasDerivAt_pow 2 (0 : ℝ)).const_mul (frobSq V))
  refine h.congr_deriv ?_
  simp

/-- Directional derivative of the smooth time-varying loss. -/
theorem hasDerivAt_smoothTime (S : Fin (T + 1) → Matrix n n ℝ) (nS : Fin (T + 1) → ℝ) (e b : ℝ)
    {K : Fin (T + 1) → Matrix n n ℝ} (hK : ∀ t, (K t).PosDef) (V : Fin (T + 1) → Matrix n n ℝ) :
    HasDerivAt (fun s : ℝ => smoothTime S nS e b (K + s • V))
      (∑ t, nS t * (frobInner (S t) (V t) - frobInner (K t)⁻¹ (V t)) + e * seqInner K V
        + 2 * b * ∑ p : Fin T, frobInner (K p.succ - K p.castSucc) (V p.succ - V p.castSucc)) 0 := by
  unfold smoothTime
  have h1 : HasDerivAt (fun s : ℝ => ∑ t, nS t * (frobInner (S t) ((K + s • V) t)
      - Real.log ((K + s • V) t).det))
      (∑ t, nS t * (frobInner (S t) (V t) - frobInner (K t)⁻¹ (V t))) 0 := by
    refine HasDerivAt.fun_sum fun t _ => HasDerivAt.const_mul _ ?_
    refine HasDerivAt.sub ?_ (hasDerivAt_logdet (hK t) (V t))
    have e : (fun s : ℝ => frobInner (S t) ((K + s • V) t)) =
        fun s => frobInner (S t) (K t) + frobInner (S t) (V t) * s := by
      funext s
      rw [Pi.add_apply, Pi.smul_apply, frobInner_add_right, frobInner_smul_right]; ring
    rw [e]
    refine (((hasDerivAt_id (0 : ℝ)).const_mul (frobInner (S t) (V t))).const_add
      (frobInner (S t) (K t))).congr_deriv (by simp)
  have h2 : HasDerivAt (fun s : ℝ => e / 2 * seqSq (K + s • V)) (e * seqInner K V) 0 := by
    have : HasDerivAt (fun s : ℝ => seqSq (K + s • V)) (∑ t, 2 * frobInner (K t) (V t)) 0 :=
      HasDerivAt.fun_sum fun t _ => hasDerivAt_frobSq (K t) (V t)
    refine (this.const_mul (e / 2)).congr_deriv ?_
    rw [← Finset.mul_sum]
    unfold seqInner
    ring
  have h3 : HasDerivAt (fun s : ℝ => b * ∑ p : Fin T,
      frobSq ((K + s • V) p.succ - (K + s • V) p.castSucc))
      (2 * b * ∑ p : Fin T, frobInner (K p.succ - K p.castSucc) (V p.succ - V p.castSucc)) 0 := by
    have : HasDerivAt (fun s : ℝ => ∑ p : Fin T,
        frobSq ((K + s • V) p.succ - (K + s • V) p.castSucc))
        (∑ p : Fin T, 2 * frobInner (K p.succ - K p.castSucc) (V p.succ - V p.castSucc)) 0 := by
      refine HasDerivAt.fun_sum fun p _ => ?_
      have e : (fun s : ℝ => frobSq ((K + s • V) p.succ - (K + s • V) p.castSucc)) =
          fun s => frobSq ((K p.succ - K p.castSucc) + s • (V p.succ - V p.castSucc)) := by
        funext s
        congr 1
        simp only [Pi.add_apply, Pi.smul_apply, smul_sub]
        abel
      rw [e]
      exact hasDerivAt_frobSq _ _
    refine (this.const_mul b).congr_deriv ?_
    rw [← Finset.mul_sum]; ring
  exact (h1.add h2).add h3

/-- Gradient inequality of the smooth loss; strict for a different sequence when every sample count
is positive. -/
theorem smoothTime_lt (S : Fin (T + 1) → Matrix n n ℝ) {nS : Fin (T + 1) → ℝ}
    (hn : ∀ t, 0 < nS t) {e b : ℝ} (he : 0 ≤ e) (hb : 0 ≤ b)
    {K Z : Fin (T + 1) → Matrix n n ℝ} (hK : ∀ t, (K t).PosDef) (hZ : ∀ t, (Z t).PosDef)
    (hne : Z ≠ K) :
    smoothTime S nS e b K
      + (∑ t, nS t * (frobInner (S t) ((Z - K) t) - frobInner (K t)⁻¹ ((Z - K) t))
        + e * seqInner K (Z - K)
        + 2 * b * ∑ p : Fin T, frobInner (K p.succ - K p.castSucc)
            ((Z - K) p.succ - (Z - K) p.castSucc))
      < smoothTime S nS e b Z := by
  unfold smoothTime
  have h1 : ∑ t, nS t * (frobInner (S t) (K t) - Real.log (K t).det)
      + ∑ t, nS t * (frobInner (S t) ((Z - K) t) - frobInner (K t)⁻¹ ((Z - K) t))
      < ∑ t, nS t * (frobInner (S t) (Z t) - Real.log (Z t).det) := by
    rw [← Finset.sum_add_distrib]
    obtain ⟨t0, ht0⟩ := Function.ne_iff.mp hne
    refine Finset.sum_lt_sum (fun t _ => ?_) ⟨t0, Finset.mem_univ _, ?_⟩
    · have h := mul_le_mul_of_nonneg_left (log_det_le (hZ t) (hK t)) (hn t).le
      rw [Pi.sub_apply, frobInner_sub_right]
      linarith
    · have h := mul_lt_mul_of_pos_left (log_det_lt (hZ t0) (hK t0) ht0) (hn t0)
      rw [Pi.sub_apply, frobInner_sub_right]
      linarith
  have h2 : e / 2 * seqSq K + e * seqInner K (Z - K) ≤ e / 2 * seqSq Z := by
    have : seqSq Z = seqSq K + 2 * seqInner K (Z - K) + seqSq (Z - K) := by
      rw [← seqInner_self, ← seqInner_self, ← seqInner_self]
      simp only [seqInner_sub_left, seqInner_sub_right]
      rw [seqInner_comm Z K]; ring
    have h := mul_nonneg (half_pos (by norm_num : (0:ℝ) < 1)).le (mul_nonneg he (seqSq_nonneg (Z - K)))
    rw [this]; linarith
  have h3 : b * ∑ p : Fin T, frobSq (K p.succ - K p.castSucc)
      + 2 * b * ∑ p : Fin T, frobInner (K p.succ - K p.castSucc)
            ((Z - K) p.succ - (Z - K) p.castSucc)
      ≤ b * ∑ p : Fin T, frobSq (Z p.succ - Z p.castSucc) := by
    rw [mul_comm 2 b, mul_assoc, ← mul_add]
    refine mul_le_mul_of_nonneg_left ?_ hb
    rw [Finset.mul_sum, ← Finset.sum_add_distrib]
    refine Finset.sum_le_sum fun p _ => ?_
    have e : Z p.succ - Z p.castSucc = (K p.succ - K p.castSucc)
        + ((Z - K) p.succ - (Z - K) p.castSucc) := by
      simp only [Pi.sub_apply]; abel
    rw [e, frobSq_add]
    have := frobSq_nonneg ((Z - K) p.succ - (Z - K) p.castSucc)
    linarith
  linarith

end Verif.Lemmas
