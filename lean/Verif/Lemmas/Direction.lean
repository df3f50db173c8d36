import Verif.Lemmas.GLConv
import Verif.Lemmas.Certificate
import Verif.Lemmas.Saddle
import Verif.Spec.Temporal

/-! The first-order condition of the Gaussian log-likelihood plus a penalty along a direction, for families of
matrices. -/

namespace Verif.Lemmas

open Verif.Model Verif.Spec Matrix Filter Topology

set_option autoImplicit false
set_option linter.unusedSectionVars false

variable {n : Type*} [Fintype n] [DecidableEq n] {k : ℕ}

/-- If moving from `K` along `H` by a small step costs at most `t c` elsewhere and never pays, then the
derivative of the likelihood along `H` is at least `-c`. -/
theorem loglik_direction {S K H : Fin k → Matrix n n ℝ} {w : Fin k → ℝ} (hS : ∀ t, (S t).IsSymm)
    (hw : ∀ t, 0 ≤ w t) (hK : ∀ t, (K t).PosDef) (hH : ∀ t, (H t).IsSymm) {c : ℝ}
    (h : ∀ r : ℝ, 0 < r → r ≤ 1 → (∀ t, (K t + r • H t).PosDef) →
      negLogLik S w K ≤ negLogLik S w (fun t => K t + r • H t) + r * c) :
    0 ≤ ∑ t, w t * frobInner (S t - (K t)⁻¹) (H t) + c := by
  have hpd : ∀ᶠ r : ℝ in 𝓝[>] 0, ∀ t, (K t + r • H t).PosDef :=
    eventually_all.mpr fun t => posDef_add_smul (hK t) (hH t)
  have hle1 : ∀ᶠ r : ℝ in 𝓝[>] (0 : ℝ), r ≤ 1 :=
    (eventually_le_nhds (show (0 : ℝ) < 1 by norm_num)).filter_mono nhdsWithin_le_nhds
  have hlim : Tendsto (fun r : ℝ => ∑ t, w t * frobInner (K t + r • H t)⁻¹ (H t)) (𝓝[>] 0)
      (𝓝 (∑ t, w t * frobInner (K t)⁻¹ (H t))) :=
    tendsto_finsetSum _ fun t _ => (tendsto_inv_inner (hK t)).const_mul _
  have hineq : ∀ᶠ r : ℝ in 𝓝[>] 0,
      ∑ t, w t * frobInner (K t + r • H t)⁻¹ (H t) ≤ ∑ t, w t * frobInner (S t) (H t) + c := by
    filter_upwards [hpd, hle1, self_mem_nhdsWithin] with r hr hr1 hr0
    have hr0' : 0 < r := hr0
    have h1 := h r hr0' hr1 hr
    unfold negLogLik at h1
    have h2 : ∀ t, w t * (trace (S t * (K t + r • H t)) - Real.log (K t + r • H t).det) ≤
        w t * (trace (S t * K t) - Real.log (K t).det)
          + (r * (w t * frobInner (S t) (H t)) - r * (w t * frobInner (K t + r • H t)⁻¹ (H t))) := by
      intro t
      have e2 := log_det_le (hK t) (hr t)
      have e : K t - (K t + r • H t) = (-r) • H t := by rw [neg_smul]; abel
      rw [e, frobInner_smul_right] at e2
      have e3 : trace (S t * (K t + r • H t)) = trace (S t * K t) + r * frobInner (S t) (H t) := by
        rw [← frobInner_eq_trace_of_symm (hS t), ← frobInner_eq_trace_of_symm (hS t), frobInner_add_right,
          frobInner_smul_right]
      rw [e3]
      have := mul_le_mul_of_nonneg_left e2 (hw t)
      nlinarith [this]
    have h3 := Finset.sum_le_sum fun t (_ : t ∈ Finset.univ) => h2 t
    rw [Finset.sum_add_distrib, Finset.sum_sub_distrib, ← Finset.mul_sum, ← Finset.mul_sum] at h3
    have h4 : r * ∑ t, w t * frobInner (K t + r • H t)⁻¹ (H t) ≤ r * (∑ t, w t * frobInner (S t) (H t) + c) := by
      linarith
    exact le_of_mul_le_mul_left h4 hr0'
  have hfin := le_of_tendsto hlim hineq
  have e : ∑ t, w t * frobInner (S t - (K t)⁻¹) (H t)
      = ∑ t, w t * frobInner (S t) (H t) - ∑ t, w t * frobInner (K t)⁻¹ (H t) := by
    rw [← Finset.sum_sub_distrib]
    refine Finset.sum_congr rfl fun t _ => ?_
    rw [frobInner_sub_left, mul_sub]
  rw [e]
  linarith

/-- The optimum of likelihood plus convex penalty, tested against any other point. -/
theorem loglik_variational {S K X : Fin k → Matrix n n ℝ} {w : Fin k → ℝ} (hS : ∀ t, (S t).IsSymm)
    (hw : ∀ t, 0 ≤ w t) {F : (Fin k → Matrix n n ℝ) → ℝ} (hX : ∀ t, (X t).PosDef)
    (hF : ∀ r : ℝ, 0 ≤ r → r ≤ 1 → F (fun t => K t + r • (X t - K t)) ≤ (1 - r) * F K + r * F X)
    (hK : IsMin (PDSeq k n) (fun Y => negLogLik S w Y + F Y) K) :
    0 ≤ ∑ t, w t * frobInner (S t - (K t)⁻¹) (X t - K t) + (F X - F K) := by
  have hKp : ∀ t, (K t).PosDef := hK.1
  refine loglik_direction hS hw hKp (fun t => ?_) fun r h0 h1 hr => ?_
  · rw [IsSymm, transpose_sub, (hX t).isSymm'.eq, (hKp t).isSymm'.eq]
  · have h2 := hK.2 (fun t => K t + r • (X t - K t)) hr
    have h3 := hF r h0.le h1
    simp only at h2
    linarith

/-- Two optima, of different data and different penalties: how far the inverses can differ. -/
theorem loglik_two {S S' K K' : Fin k → Matrix n n ℝ} {w : Fin k → ℝ} (hS : ∀ t, (S t).IsSymm)
    (hS' : ∀ t, (S' t).IsSymm) (hw : ∀ t, 0 ≤ w t) {F F' : (Fin k → Matrix n n ℝ) → ℝ}
    (hF : ∀ A B : Fin k → Matrix n n ℝ, ∀ r : ℝ, 0 ≤ r → r ≤ 1 →
      F (fun t => A t + r • (B t - A t)) ≤ (1 - r) * F A + r * F B)
    (hF' : ∀ A B : Fin k → Matrix n n ℝ, ∀ r : ℝ, 0 ≤ r → r ≤ 1 →
      F' (fun t => A t + r • (B t - A t)) ≤ (1 - r) * F' A + r * F' B)
    (hK : IsMin (PDSeq k n) (fun Y => negLogLik S w Y + F Y) K)
    (hK' : IsMin (PDSeq k n) (fun Y => negLogLik S' w Y + F' Y) K') :
    ∑ t, w t * frobInner ((K t)⁻¹ - (K' t)⁻¹) (K' t - K t)
      ≤ ∑ t, w t * frobInner (S t - S' t) (K' t - K t) + ((F K' - F K) - (F' K' - F' K)) := by
  have h1 := loglik_variational hS hw hK'.1 (hF K K') hK
  have h2 := loglik_variational hS' hw hK.1 (hF' K' K) hK'
  have e : ∑ t, w t * frobInner (S t - (K t)⁻¹) (K' t - K t) + ∑ t, w t * frobInner (S' t - (K' t)⁻¹) (K t - K' t)
      = ∑ t, w t * frobInner (S t - S' t) (K' t - K t) - ∑ t, w t * frobInner ((K t)⁻¹ - (K' t)⁻¹) (K' t - K t) := by
    rw [← Finset.sum_add_distrib, ← Finset.sum_sub_distrib]
    refine Finset.sum_congr rfl fun t _ => ?_
    rw [← neg_sub (K' t) (K t), frobInner_neg_right]
    simp only [frobInner_sub_left]
    ring
  linarith

end Verif.Lemmas
