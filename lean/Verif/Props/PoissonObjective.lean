import Verif.Model.PoissonTime
import Verif.Props.TimeGLM
import Mathlib.Analysis.SpecialFunctions.Log.Basic
import Mathlib.Analysis.SpecialFunctions.Exponential

/-! C197: the objective reported by the time-varying Poisson model. -/

namespace Verif.Props

open Verif.Model Verif.Spec Matrix

set_option autoImplicit false
set_option linter.unusedSectionVars false

variable {d k m : ℕ}

/-- Specification: the mean negative log-likelihood (up to a constant of the data) of the counts given the others,
summed over the variables; `theta r k` is the effect of variable `k` on variable `r`. -/
noncomputable def poissonNLL {m : ℕ} (X : Fin m → Fin d → ℝ) (theta : Matrix (Fin d) (Fin d) ℝ) : ℝ :=
  ∑ r, (∑ i, (Real.exp (∑ k, if k ≠ r then X i k * theta r k else 0)
    - X i r * ∑ k, if k ≠ r then X i k * theta r k else 0)) / m

/-- Specification: the documented problem of the time-varying Poisson model. -/
noncomputable def timePoissonObjective (X : Fin k → Fin m → Fin d → ℝ) (alpha : ℝ) (kernel : Fin k → Fin k → ℝ)
    (psi : Matrix (Fin d) (Fin d) ℝ → ℝ) (K : Fin k → Matrix (Fin d) (Fin d) ℝ) : ℝ :=
  ∑ t, poissonNLL (X t) (K t) + alpha * ∑ t, absSumOff (K t) + kernelCoupling kernel psi K

/-- The objective the code reports for a sequence of networks (consensus variables equal to the networks). -/
noncomputable def reportedPoisson (X : Fin k → Fin m → Fin d → ℝ) (alpha : ℝ)
    (kernel : Option (Fin k → Fin k → ℝ)) (psi : Matrix (Fin d) (Fin d) ℝ → ℝ)
    (K : Fin k → Matrix (Fin d) (Fin d) ℝ) : ℝ :=
  timePoissonObjectiveCode X alpha (kernelWeight kernel) psi K (fun e => K ((allPairs k).src e))
    fun e => K ((allPairs k).dst e)

theorem linPred_others (X : Fin m → Fin d → ℝ) (w : Fin d → ℝ) (r : Fin d) (i : Fin m) :
    linPred (fun i (k : {k : Fin d // k ≠ r}) => X i k.1) (fun k => w k.1) i =
      ∑ k, if k ≠ r then X i k * w k else 0 := by
  unfold linPred
  rw [← Finset.sum_filter]
  exact (Finset.sum_subtype (Finset.univ.filter fun k => k ≠ r) (by simp) fun k => X i k * w k).symm

theorem poissonLossMat_eq (X : Fin m → Fin d → ℝ) (K : Matrix (Fin d) (Fin d) ℝ) :
    poissonLossMat X K = poissonNLL X K := by
  unfold poissonLossMat poissonNLL poissonLoss
  refine Finset.sum_congr rfl fun r _ => ?_
  rw [one_div, div_eq_inv_mul]
  congr 1
  refine Finset.sum_congr rfl fun i _ => ?_
  rw [linPred_others X (K r)]

/-- C197 (static model): the objective of one network is the documented one, for every symmetric network; otherwise there
is no value. -/
theorem C197_static (X : Fin m → Fin d → ℝ) (alpha : ℝ) (K : Matrix (Fin d) (Fin d) ℝ) (v : ℝ) :
    poissonObjectiveMat X alpha K = some v ↔ K.IsSymm ∧ v = poissonNLL X K + alpha * absSumOff K := by
  unfold poissonObjectiveMat
  have h : (∑ r, poissonObjective (fun i (k : {k : Fin d // k ≠ r}) => X i k.1) (fun i => X i r) 0
      fun k => K r k.1) = poissonNLL X K := by
    rw [← poissonLossMat_eq]
    unfold poissonLossMat poissonObjective poissonLoss
    simp
  rw [h, l1OdNorm_eq]
  by_cases hK : K = K.transpose
  · rw [if_pos hK]
    simp only [Option.some.injEq]
    exact ⟨fun e => ⟨hK.symm, e.symm⟩, fun e => e.2.symm⟩
  · rw [if_neg hK]
    simp only [reduceCtorEq, false_iff, not_and]
    exact fun e => absurd e.eq.symm hK

/-- C197 (part that holds): the reported objective has the documented penalties, but the loss enters with the opposite
sign: it differs from the documented objective by twice the loss. -/
theorem C197_value_partial (X : Fin k → Fin m → Fin d → ℝ) (alpha : ℝ) (kernel : Option (Fin k → Fin k → ℝ))
    (psi : Matrix (Fin d) (Fin d) ℝ → ℝ) (K : Fin k → Matrix (Fin d) (Fin d) ℝ) :
    reportedPoisson X alpha kernel psi K =
      timePoissonObjective X alpha (kernelOf kernel) psi K - 2 * ∑ t, poissonNLL (X t) (K t) := by
  unfold reportedPoisson timePoissonObjective timePoissonObjectiveCode tgLoss
  rw [kernelCoupling_eq]
  simp only [l1OdNorm_eq]
  have h1 : ∑ t, -1 * poissonLossMat (X t) (K t) = -∑ t, poissonNLL (X t) (K t) := by
    rw [← Finset.sum_neg_distrib]
    refine Finset.sum_congr rfl fun t _ => ?_
    rw [poissonLossMat_eq]; ring
  have h2 : ∑ e : PairIdx k, psi (K ((allPairs k).dst e) - K ((allPairs k).src e)) * kernelWeight kernel e =
      ∑ e : PairIdx k, kernelWeight kernel e * psi (K ((allPairs k).dst e) - K ((allPairs k).src e)) :=
    Finset.sum_congr rfl fun e _ => mul_comm _ _
  rw [h1, h2]
  ring

/-- C197 is false: without penalties the reported objective orders the sequences in exactly the opposite way. -/
theorem C197_sign_false (X : Fin k → Fin m → Fin d → ℝ) (psi : Matrix (Fin d) (Fin d) ℝ → ℝ)
    (K K' : Fin k → Matrix (Fin d) (Fin d) ℝ) :
    reportedPoisson X 0 none psi K < reportedPoisson X 0 none psi K' ↔
      timePoissonObjective X 0 (kernelOf none) psi K' < timePoissonObjective X 0 (kernelOf none) psi K := by
  rw [C197_value_partial, C197_value_partial]
  unfold timePoissonObjective
  rw [kernelCoupling_none, kernelCoupling_none]
  constructor <;> intro h <;> linarith

theorem poisson_term_ge (x y : ℝ) (hx : 0 ≤ x) : x - x * Real.log x ≤ Real.exp y - x * y := by
  rcases hx.eq_or_lt with rfl | hx
  · simp [Real.exp_nonneg]
  · have h := Real.add_one_le_exp (y - Real.log x)
    rw [Real.exp_sub, Real.exp_log hx, le_div_iff₀ hx] at h
    nlinarith

/-- C197: the documented objective is bounded below for every data set of counts. -/
theorem C197_documented_bounded (X : Fin k → Fin m → Fin d → ℝ) (hX : ∀ t i j, 0 ≤ X t i j) {alpha : ℝ}
    (ha : 0 ≤ alpha) {kernel : Fin k → Fin k → ℝ} (hk : ∀ s t, 0 ≤ kernel s t) {psi : Matrix (Fin d) (Fin d) ℝ → ℝ}
    (hpsi : ∀ D, 0 ≤ psi D) : ∃ B : ℝ, ∀ K, B ≤ timePoissonObjective X alpha kernel psi K := by
  refine ⟨∑ t, ∑ r, (∑ i, (X t i r - X t i r * Real.log (X t i r))) / m, fun K => ?_⟩
  unfold timePoissonObjective
  have h1 : ∑ t, ∑ r, (∑ i, (X t i r - X t i r * Real.log (X t i r))) / m ≤ ∑ t, poissonNLL (X t) (K t) := by
    refine Finset.sum_le_sum fun t _ => Finset.sum_le_sum fun r _ => ?_
    refine div_le_div_of_nonneg_right (Finset.sum_le_sum fun i _ => ?_) (Nat.cast_nonneg m)
    exact poisson_term_ge _ _ (hX t i r)
  have h2 : 0 ≤ alpha * ∑ t, absSumOff (K t) := by
    refine mul_nonneg ha (Finset.sum_nonneg fun t _ => ?_)
    unfold absSumOff
    exact Finset.sum_nonneg fun i _ => Finset.sum_nonneg fun j _ => by split <;> positivity
  have h3 : 0 ≤ kernelCoupling kernel psi K := by
    unfold kernelCoupling
    refine Finset.sum_nonneg fun s _ => Finset.sum_nonneg fun t _ => ?_
    split
    · exact mul_nonneg (hk s t) (hpsi _)
    · exact le_rfl
  linarith

/-- C197 is false: as soon as one count is positive and there are two variables, the reported objective is unbounded
below over symmetric networks constant in time, for every `alpha` and every kernel, although the documented one is
bounded below. -/
theorem C197_unbounded_false (X : Fin k → Fin m → Fin d → ℝ) (hX : ∀ t i j, 0 ≤ X t i j) {t0 : Fin k} {i0 : Fin m}
    {j0 r0 : Fin d} (hpos : 0 < X t0 i0 j0) (hr : j0 ≠ r0) (alpha : ℝ) (kernel : Option (Fin k → Fin k → ℝ))
    {psi : Matrix (Fin d) (Fin d) ℝ → ℝ} (hpsi : psi 0 = 0) (B : ℝ) :
    ∃ K : Matrix (Fin d) (Fin d) ℝ, K.IsSymm ∧ reportedPoisson X alpha kernel psi (fun _ => K) < B := by
  have hm : (0 : ℝ) < m := by exact_mod_cast i0.pos
  set s : Fin k → Fin m → Fin d → ℝ := fun t i r => ∑ j, if j ≠ r then X t i j else 0 with hs
  set M : ℝ := ∑ t, ∑ r, (∑ i, X t i r * s t i r) / m with hM
  set N : ℝ := absSumOff (Matrix.of fun (_ _ : Fin d) => (1 : ℝ)) with hN
  set a := X t0 i0 j0 with ha
  set Q := a ^ 2 / (2 * m) with hQ
  have hQpos : 0 < Q := by positivity
  set L := M + alpha * ((k : ℝ) * N) with hL
  set c := (|L| + |B| + 1) / Q + 1 with hc
  have hc1 : 1 ≤ c := by
    have : 0 ≤ (|L| + |B| + 1) / Q := by positivity
    linarith
  have hcQ : |L| + |B| + 1 ≤ Q * c := by
    have : Q * c = |L| + |B| + 1 + Q := by rw [hc]; field_simp
    linarith
  have hs0 : a ≤ s t0 i0 r0 := by
    have := Finset.single_le_sum (f := fun j => if j ≠ r0 then X t0 i0 j else 0)
      (fun j _ => by split; exacts [hX t0 i0 j, le_rfl]) (Finset.mem_univ j0)
    simp only [if_pos hr] at this
    exact this
  refine ⟨Matrix.of fun _ _ => c, by ext i j; rfl, ?_⟩
  rw [C197_value_partial]
  unfold timePoissonObjective
  have hcoup : kernelCoupling (kernelOf kernel) psi (fun _ : Fin k => (Matrix.of fun (_ _ : Fin d) => c)) = 0 := by
    unfold kernelCoupling
    simp [hpsi]
  have hpen : absSumOff (Matrix.of fun (_ _ : Fin d) => c) = c * N := by
    rw [hN]
    unfold absSumOff
    rw [Finset.mul_sum]
    refine Finset.sum_congr rfl fun i _ => ?_
    rw [Finset.mul_sum]
    refine Finset.sum_congr rfl fun j _ => ?_
    simp [abs_of_nonneg (zero_le_one.trans hc1)]
  have hlin : ∀ t i r, (∑ j, if j ≠ r then X t i j * c else 0) = c * s t i r := by
    intro t i r
    rw [hs, Finset.mul_sum]
    refine Finset.sum_congr rfl fun j _ => ?_
    split <;> ring
  have hsum : ∑ t, poissonNLL (X t) (Matrix.of fun (_ _ : Fin d) => c) =
      ∑ t, ∑ r, (∑ i, Real.exp (c * s t i r)) / m - c * M := by
    rw [hM, Finset.mul_sum, ← Finset.sum_sub_distrib]
    refine Finset.sum_congr rfl fun t _ => ?_
    unfold poissonNLL
    rw [Finset.mul_sum, ← Finset.sum_sub_distrib]
    refine Finset.sum_congr rfl fun r _ => ?_
    simp only [Matrix.of_apply, hlin]
    rw [Finset.sum_sub_distrib, sub_div, ← mul_div_assoc, Finset.mul_sum]
    congr 2
    exact Finset.sum_congr rfl fun i _ => by ring
  have hexp : Real.exp (c * s t0 i0 r0) / m ≤ ∑ t, ∑ r, (∑ i, Real.exp (c * s t i r)) / m := by
    have e1 : Real.exp (c * s t0 i0 r0) / m ≤ (∑ i, Real.exp (c * s t0 i r0)) / m :=
      div_le_div_of_nonneg_right (Finset.single_le_sum (f := fun i => Real.exp (c * s t0 i r0))
        (fun i _ => Real.exp_nonneg _) (Finset.mem_univ i0)) hm.le
    have hnn : ∀ t r, 0 ≤ (∑ i, Real.exp (c * s t i r)) / m := fun t r =>
      div_nonneg (Finset.sum_nonneg fun i _ => Real.exp_nonneg _) hm.le
    have e2 := Finset.single_le_sum (f := fun r => (∑ i, Real.exp (c * s t0 i r)) / m)
      (fun r _ => hnn t0 r) (Finset.mem_univ r0)
    have e3 := Finset.single_le_sum (f := fun t => ∑ r, (∑ i, Real.exp (c * s t i r)) / m)
      (fun t _ => Finset.sum_nonneg fun r _ => hnn t r) (Finset.mem_univ t0)
    exact e1.trans (e2.trans e3)
  have hquad : Q * c ^ 2 ≤ Real.exp (c * s t0 i0 r0) / m := by
    have e1 : Real.exp (c * a) ≤ Real.exp (c * s t0 i0 r0) :=
      Real.exp_le_exp.mpr (mul_le_mul_of_nonneg_left hs0 (by linarith))
    have hca : 0 ≤ c * a := by positivity
    have e2 := Real.quadratic_le_exp_of_nonneg hca
    rw [le_div_iff₀ hm, hQ]
    have e3 : a ^ 2 / (2 * m) * c ^ 2 * m = (c * a) ^ 2 / 2 := by field_simp
    rw [e3]
    linarith
  rw [hcoup, hsum]
  simp only [hpen, Finset.sum_const, Finset.card_univ, Fintype.card_fin, nsmul_eq_mul]
  have hfin : -(Q * c ^ 2) + c * L < B := by
    have h1 : c * L ≤ c * |L| := mul_le_mul_of_nonneg_left (le_abs_self L) (by linarith)
    have h2 : c * (|L| + |B| + 1) ≤ c * (Q * c) := mul_le_mul_of_nonneg_left hcQ (by linarith)
    have h3 : |B| + 1 ≤ c * (|B| + 1) := by nlinarith [abs_nonneg B]
    have h4 := neg_abs_le B
    nlinarith
  rw [hL] at hfin
  nlinarith

/-- Non-vacuity for C197: one time, one sample, two variables with one positive count. -/
example : ∃ X : Fin 1 → Fin 1 → Fin 2 → ℝ, (∀ t i j, 0 ≤ X t i j) ∧ 0 < X 0 0 0 ∧ (0 : Fin 2) ≠ 1 :=
  ⟨fun _ _ _ => 1, by simp, by simp, by simp⟩

end Verif.Props
