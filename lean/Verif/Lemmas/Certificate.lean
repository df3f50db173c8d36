import Mathlib.Analysis.SpecialFunctions.Pow.NNReal
import Mathlib.Analysis.MeanInequalities
import Mathlib.Algebra.Order.Chebyshev
import Verif.Lemmas.Saddle

/-! Bounds on the distance to the optimal value from the residuals of one pass of ADMM. -/

namespace Verif.Lemmas

open Verif.Model Verif.Spec Matrix

set_option autoImplicit false
set_option linter.unusedSectionVars false

variable {n : Type*} [Fintype n] [DecidableEq n] {k : ℕ} {I : Type*} [Fintype I]

/-- Frobenius norm of a family of matrices. -/
noncomputable def famNorm (f : I → Matrix n n ℝ) : ℝ := Real.sqrt (∑ i, frobSq (f i))

theorem froNorm_eq_sqrt (A : Matrix n n ℝ) : froNorm A = Real.sqrt (frobSq A) := rfl

theorem famNorm_nonneg (f : I → Matrix n n ℝ) : 0 ≤ famNorm f := Real.sqrt_nonneg _

theorem abs_frobInner_le (A B : Matrix n n ℝ) : |frobInner A B| ≤ froNorm A * froNorm B := by
  rw [froNorm_eq_sqrt, froNorm_eq_sqrt, ← Real.sqrt_mul (frobSq_nonneg A)]
  exact Real.abs_le_sqrt (frobInner_sq_le A B)

theorem abs_famInner_le (f g : I → Matrix n n ℝ) : |∑ i, frobInner (f i) (g i)| ≤ famNorm f * famNorm g :=
  calc |∑ i, frobInner (f i) (g i)| ≤ ∑ i, |frobInner (f i) (g i)| := Finset.abs_sum_le_sum_abs _ _
    _ ≤ ∑ i, Real.sqrt (frobSq (f i)) * Real.sqrt (frobSq (g i)) :=
        Finset.sum_le_sum fun i _ => abs_frobInner_le _ _
    _ ≤ _ := Real.sum_sqrt_mul_sqrt_le _ (fun i => frobSq_nonneg _) fun i => frobSq_nonneg _

theorem froNorm_le_famNorm (f : I → Matrix n n ℝ) (i : I) : froNorm (f i) ≤ famNorm f :=
  Real.sqrt_le_sqrt (Finset.single_le_sum (f := fun i => frobSq (f i)) (fun i _ => frobSq_nonneg _)
    (Finset.mem_univ i))

/-- The log-likelihood lies above its tangents. -/
theorem loglik_tangent {S K X : Matrix n n ℝ} (hS : S.IsSymm) (hK : K.PosDef) (hX : X.PosDef) :
    trace (S * K) - Real.log K.det + frobInner (S - K⁻¹) (X - K) ≤ trace (S * X) - Real.log X.det := by
  have h := log_det_le hX hK
  rw [← frobInner_eq_trace_of_symm hS, ← frobInner_eq_trace_of_symm hS, frobInner_sub_left, frobInner_sub_right S]
  linarith

/-- The bound for problems with several copies of each time point. -/
theorem pass_certificate {ep : I → Fin k} {S : Batch k n} {nS : Fin k → ℝ} {rho : ℝ} {K X : Batch k n}
    {Z U Z' U' : I → Matrix n n ℝ} {F : (I → Matrix n n ℝ) → ℝ} (hS : ∀ t, (S t).IsSymm) (hn : ∀ t, 0 ≤ nS t)
    (hr : 0 ≤ rho) (hK : ∀ t, (K t).PosDef) (hX : ∀ t, (X t).PosDef)
    (hst : ∀ t, nS t • (S t - (K t)⁻¹)
      + rho • symmetrize (∑ i, if ep i = t then K (ep i) - Z i + U i else 0) = 0)
    (hU : ∀ i, U' i = U i + (K (ep i) - Z' i))
    (hsub : F Z' + rho * ∑ i, frobInner (U' i) (X (ep i) - Z' i) ≤ F fun i => X (ep i)) :
    negLogLik S nS K + F Z' ≤ negLogLik S nS X + F (fun i => X (ep i))
      + rho * famNorm U' * famNorm (fun i => K (ep i) - Z' i)
      + rho * famNorm (fun i => Z' i - Z i) * famNorm (fun i => K (ep i) - X (ep i)) := by
  have hsym : ∀ t, (X t - K t).IsSymm := fun t => by
    rw [IsSymm, transpose_sub, (hK t).isSymm'.eq, (hX t).isSymm'.eq]
  have h1 : negLogLik S nS K + ∑ t, nS t * frobInner (S t - (K t)⁻¹) (X t - K t) ≤ negLogLik S nS X := by
    unfold negLogLik
    rw [← Finset.sum_add_distrib]
    refine Finset.sum_le_sum fun t _ => ?_
    rw [← mul_add]
    exact mul_le_mul_of_nonneg_left (loglik_tangent (hS t) (hK t) (hX t)) (hn t)
  have h2 : ∑ t, nS t * frobInner (S t - (K t)⁻¹) (X t - K t)
      + rho * ∑ i, frobInner (K (ep i) - Z i + U i) (X (ep i) - K (ep i)) = 0 := by
    have s1 := sum_scatter ep (fun i => K (ep i) - Z i + U i) (fun t => X t - K t)
    unfold scatter at s1
    rw [← s1, Finset.mul_sum, ← Finset.sum_add_distrib]
    refine Finset.sum_eq_zero fun t _ => ?_
    have h3 := congrArg (fun M => frobInner M (X t - K t)) (hst t)
    simp only [frobInner_add_left, frobInner_smul_left] at h3
    rwa [frobInner_symmetrize (hsym t), frobInner_zero_left'] at h3
  have h3 : ∑ i, frobInner (K (ep i) - Z i + U i) (X (ep i) - K (ep i)) =
      ∑ i, frobInner (U' i) (X (ep i) - Z' i) - ∑ i, frobInner (U' i) (K (ep i) - Z' i)
        - ∑ i, frobInner (Z' i - Z i) (K (ep i) - X (ep i)) := by
    rw [← Finset.sum_sub_distrib, ← Finset.sum_sub_distrib]
    refine Finset.sum_congr rfl fun i _ => ?_
    have e : K (ep i) - Z i + U i = U' i + (Z' i - Z i) := by rw [hU]; abel
    have e2 : X (ep i) - K (ep i) = -(K (ep i) - X (ep i)) := by abel
    rw [e, frobInner_add_left, e2, frobInner_neg_right, frobInner_neg_right, ← frobInner_sub_right]
    have e3 : X (ep i) - Z' i - (K (ep i) - Z' i) = -(K (ep i) - X (ep i)) := by abel
    rw [e3, frobInner_neg_right]
    ring
  have b1 := (abs_le.mp (abs_famInner_le U' fun i => K (ep i) - Z' i)).1
  have b2 := (abs_le.mp (abs_famInner_le (fun i => Z' i - Z i) fun i => K (ep i) - X (ep i))).1
  rw [h3] at h2
  have m1 := mul_le_mul_of_nonneg_left b1 hr
  have m2 := mul_le_mul_of_nonneg_left b2 hr
  linarith

theorem froNorm_triangle (A B : Matrix n n ℝ) : froNorm (A + B) ≤ froNorm A + froNorm B := by
  have h0 := froNorm_nonneg A
  have h1 := froNorm_nonneg B
  have e : ∀ M : Matrix n n ℝ, froNorm M ^ 2 = frobSq M := fun M => Real.sq_sqrt (frobSq_nonneg M)
  refine abs_le_of_sq_le_sq' ?_ (by positivity) |>.2
  have h2 := (abs_le.mp (abs_frobInner_le A B)).2
  rw [e, frobSq_add, add_sq, e, e]
  linarith

theorem absSumMat_lipschitz (A B : Matrix n n ℝ) :
    absSumMat A ≤ absSumMat B + Fintype.card n * froNorm (A - B) := by
  have h1 : absSumMat A ≤ absSumMat B + absSumMat (A - B) := by
    unfold absSumMat
    rw [← Finset.sum_add_distrib]
    refine Finset.sum_le_sum fun i _ => ?_
    rw [← Finset.sum_add_distrib]
    refine Finset.sum_le_sum fun j _ => ?_
    have := abs_add_le (B i j) ((A - B) i j)
    rwa [Matrix.sub_apply, add_sub_cancel] at this
  have h2 : absSumMat (A - B) ≤ Fintype.card n * froNorm (A - B) := by
    set M := A - B
    have hc : absSumMat M ^ 2 ≤ (Fintype.card n * froNorm M) ^ 2 := by
      have e1 : absSumMat M = ∑ p : n × n, |M p.1 p.2| := by
        rw [Fintype.sum_prod_type]; rfl
      have e2 : froNorm M ^ 2 = ∑ p : n × n, |M p.1 p.2| ^ 2 := by
        rw [Fintype.sum_prod_type]
        simp only [sq_abs]
        exact Real.sq_sqrt (frobSq_nonneg M)
      rw [e1, mul_pow, e2]
      have h := sq_sum_le_card_mul_sum_sq (s := Finset.univ) (f := fun p : n × n => |M p.1 p.2|)
      rw [Finset.card_univ, Fintype.card_prod] at h
      push_cast at h
      rw [sq (Fintype.card n : ℝ)]
      exact h
    exact (abs_le_of_sq_le_sq' hc (mul_nonneg (Nat.cast_nonneg _) (froNorm_nonneg _))).2
  linarith

variable {E : Type*} [Fintype E]

/-- `psi` does not grow faster than `L` times the distance. -/
def LipschitzPen (L : ℝ) (psi : Matrix n n ℝ → ℝ) : Prop := ∀ A B, psi A ≤ psi B + L * froNorm (A - B)

/-- Lipschitz constant of the non-smooth part. -/
noncomputable def copyConst (n : Type*) [Fintype n] (k : ℕ) (alpha L : ℝ) (w : E → ℝ) : ℝ :=
  alpha * Fintype.card n * k + 2 * L * ∑ e, w e

theorem copyPen_lipschitz {alpha L : ℝ} (hal : 0 ≤ alpha) {w : E → ℝ} (hw : ∀ e, 0 ≤ w e)
    {psi : Matrix n n ℝ → ℝ} (hL : LipschitzPen L psi) (hL0 : 0 ≤ L) (Y Z : Copy k E → Matrix n n ℝ) :
    copyPen alpha w psi Y ≤ copyPen alpha w psi Z + copyConst n k alpha L w * famNorm (fun i => Y i - Z i) := by
  set N := famNorm (fun i => Y i - Z i) with hN
  have hi : ∀ i, froNorm (Y i - Z i) ≤ N := fun i => froNorm_le_famNorm (fun i => Y i - Z i) i
  have h1 : ∑ t, absSumMat (Y (Sum.inl t)) ≤ ∑ t, absSumMat (Z (Sum.inl t)) + Fintype.card n * k * N := by
    have : ∑ t : Fin k, absSumMat (Y (Sum.inl t)) ≤
        ∑ t : Fin k, (absSumMat (Z (Sum.inl t)) + Fintype.card n * N) :=
      Finset.sum_le_sum fun t _ => (absSumMat_lipschitz _ (Z (Sum.inl t))).trans
        (add_le_add le_rfl (mul_le_mul_of_nonneg_left (hi _) (Nat.cast_nonneg _)))
    rw [Finset.sum_add_distrib, Finset.sum_const, Finset.card_univ, Fintype.card_fin, nsmul_eq_mul] at this
    linarith
  have h2 : ∑ e, w e * psi (Y (Sum.inr (Sum.inr e)) - Y (Sum.inr (Sum.inl e))) ≤
      ∑ e, w e * psi (Z (Sum.inr (Sum.inr e)) - Z (Sum.inr (Sum.inl e))) + (∑ e, w e) * (L * (N + N)) := by
    rw [Finset.sum_mul, ← Finset.sum_add_distrib]
    refine Finset.sum_le_sum fun e _ => ?_
    rw [← mul_add]
    refine mul_le_mul_of_nonneg_left ((hL _ (Z (Sum.inr (Sum.inr e)) - Z (Sum.inr (Sum.inl e)))).trans
      (add_le_add le_rfl (mul_le_mul_of_nonneg_left ?_ hL0))) (hw e)
    have e1 : Y (Sum.inr (Sum.inr e)) - Y (Sum.inr (Sum.inl e)) - (Z (Sum.inr (Sum.inr e)) - Z (Sum.inr (Sum.inl e)))
        = (Y (Sum.inr (Sum.inr e)) - Z (Sum.inr (Sum.inr e)))
          + -(Y (Sum.inr (Sum.inl e)) - Z (Sum.inr (Sum.inl e))) := by abel
    rw [e1]
    refine (froNorm_triangle _ _).trans (add_le_add (hi _) ?_)
    rw [froNorm_eq_sqrt, frobSq_neg]
    exact hi _
  unfold copyPen copyConst
  have := mul_le_mul_of_nonneg_left h1 hal
  linarith

theorem copySub_dual_bound {alpha L rho : ℝ} (hal : 0 ≤ alpha) {w : E → ℝ} (hw : ∀ e, 0 ≤ w e)
    {psi : Matrix n n ℝ → ℝ} (hL : LipschitzPen L psi) (hL0 : 0 ≤ L) {Z U : Copy k E → Matrix n n ℝ}
    (h : CopySub alpha w psi rho Z U) (hU : ∀ t, (U (Sum.inl t)).IsSymm) :
    rho * famNorm U ≤ copyConst n k alpha L w := by
  have h1 := h.2 (fun i => Z i + U i) fun t => by
    rw [IsSymm, transpose_add, (h.1 t).eq, (hU t).eq]
  have h2 := copyPen_lipschitz (k := k) hal hw hL hL0 (fun i => Z i + U i) Z
  simp only [add_sub_cancel_left, frobInner_self] at h1 h2
  have h3 : famNorm U * famNorm U = ∑ i, frobSq (U i) :=
    Real.mul_self_sqrt (Finset.sum_nonneg fun _ _ => frobSq_nonneg _)
  have h4 : famNorm (fun i => U i) = famNorm U := rfl
  rw [h4] at h2
  rw [← h3] at h1
  rcases eq_or_lt_of_le (famNorm_nonneg U) with h0 | h0
  · rw [← h0, mul_zero]
    unfold copyConst
    have := Finset.sum_nonneg fun e (_ : e ∈ Finset.univ) => hw e
    positivity
  · refine le_of_mul_le_mul_right ?_ h0
    linarith

/-- Bound on the objective at the positive definite iterate of a pass. -/
theorem pass_bound {g : TimePairs k E} {S : Batch k n} {nS : Fin k → ℝ} {alpha L rho : ℝ} (hal : 0 ≤ alpha)
    {w : E → ℝ} (hw : ∀ e, 0 ≤ w e) {psi : Matrix n n ℝ → ℝ} (hL : LipschitzPen L psi) (hL0 : 0 ≤ L)
    {K X : Batch k n} {Z U Z' U' : Copy k E → Matrix n n ℝ} (hS : ∀ t, (S t).IsSymm) (hn : ∀ t, 0 ≤ nS t)
    (hr : 0 ≤ rho) (hK : ∀ t, (K t).PosDef) (hX : ∀ t, (X t).PosDef)
    (hst : ∀ t, nS t • (S t - (K t)⁻¹) + rho • symmetrize (∑ i : Copy k E, if copyEp g i = t then
      K (copyEp g i) - Z i + U i else 0) = 0)
    (hU : ∀ i, U' i = U i + (K (copyEp g i) - Z' i)) (hsub : CopySub alpha w psi rho Z' U')
    (hUs : ∀ t, (U' (Sum.inl t)).IsSymm) :
    pairTimeObjective g S nS alpha w psi K ≤ pairTimeObjective g S nS alpha w psi X
      + 2 * copyConst n k alpha L w * famNorm (fun i => K (copyEp g i) - Z' i)
      + rho * famNorm (fun i => Z' i - Z i) * famNorm (fun i => K (copyEp g i) - X (copyEp g i)) := by
  have h1 := pass_certificate (F := copyPen alpha w psi) hS hn hr hK hX hst hU
    (hsub.2 _ fun t => (hX t).isSymm')
  have h2 := copyPen_lipschitz (k := k) hal hw hL hL0 (fun i => K (copyEp g i)) Z'
  have h3 := mul_le_mul_of_nonneg_right (copySub_dual_bound hal hw hL hL0 hsub hUs)
    (famNorm_nonneg (fun i => K (copyEp g i) - Z' i))
  rw [pairTimeObjective_eq, pairTimeObjective_eq]
  linarith

/-- Copies of the same family: the distance counts every time point as often as it is copied. -/
theorem famNorm_copies {g : TimePairs k E} {divisor : Fin k → ℝ} (hcov : Covers g divisor n) {d : ℝ}
    (hd : ∀ t, divisor t ≤ d) (hd0 : 0 ≤ d) (D : Batch k n) :
    famNorm (fun i => D (copyEp g i)) ≤ Real.sqrt d * famNorm D := by
  unfold famNorm
  rw [← Real.sqrt_mul hd0]
  refine Real.sqrt_le_sqrt ?_
  have h1 := sum_scatter (copyEp g) (fun i => D (copyEp g i)) D
  have h2 : ∀ t, scatter (copyEp g) (fun i => D (copyEp g i)) t = divisor t • D t := by
    intro t
    rw [← hcov D t]
    unfold scatter
    rw [sum_copy]
    have e : (∑ t', if copyEp g (Sum.inl t') = t then D (copyEp g (Sum.inl t')) else 0) = D t := by
      change (∑ t', if t' = t then D t' else 0) = D t
      simp
    rw [e, add_assoc]
    rfl
  simp only [h2, frobInner_smul_left, frobInner_self] at h1
  rw [← h1, Finset.mul_sum]
  exact Finset.sum_le_sum fun t _ => mul_le_mul_of_nonneg_right (hd t) (frobSq_nonneg _)

end Verif.Lemmas
