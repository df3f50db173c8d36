import Verif.Model.GWishart
import Verif.Spec.Density
import Verif.Lemmas.Seq
import Verif.Lemmas.GLOpt
import Verif.Lemmas.Saddle
import Verif.Props.Wishart
import Mathlib.Analysis.Calculus.LocalExtr.Basic

/-! Property theorems C147 – C150: covariance selection, the scores of a graph, the Laplace
approximation, the default prior and the averaging of the best graphs. -/

set_option autoImplicit false
set_option linter.unusedSectionVars false

namespace Verif.Props

open Verif.Spec Verif.Model Verif.Lemmas Matrix Filter Topology

variable {p : ℕ}

/-! ### C147 -/

/-- A mask of positions on and above the diagonal that contains the diagonal. -/
def UpperMask (nz : Fin p → Fin p → Bool) : Prop :=
  (∀ i j, nz i j = true → i ≤ j) ∧ ∀ i, nz i i = true

/-- The symmetric matrices that vanish off the graph of the mask. -/
def OnGraph (nz : Fin p → Fin p → Bool) (Y : Matrix (Fin p) (Fin p) ℝ) : Prop :=
  Y.IsSymm ∧ ∀ i j, i ≤ j → nz i j = false → Y i j = 0

theorem fillUpper_add_smul (nz : Fin p → Fin p → Bool) (x v : Matrix (Fin p) (Fin p) ℝ) (s : ℝ) :
    fillUpper nz (x + s • v) = fillUpper nz x + s • fillUpper nz v := by
  ext i j
  rw [Matrix.add_apply, Matrix.smul_apply, smul_eq_mul]
  simp only [fillUpper, Matrix.add_apply, Matrix.smul_apply, smul_eq_mul]
  split_ifs <;> ring

theorem fillUpper_symm {nz : Fin p → Fin p → Bool} (h : UpperMask nz) (x : Matrix (Fin p) (Fin p) ℝ) :
    (fillUpper nz x).IsSymm := by
  ext i j
  rw [transpose_apply]
  simp only [fillUpper]
  rcases lt_trichotomy i j with hij | hij | hij
  · have : nz j i = false := by
      by_contra hc
      exact absurd (h.1 j i (by simpa using hc)) (not_le.mpr hij)
    simp [this, hij, not_lt_of_gt hij]
  · subst hij; rfl
  · have : nz i j = false := by
      by_contra hc
      exact absurd (h.1 i j (by simpa using hc)) (not_le.mpr hij)
    simp [this, hij, not_lt_of_gt hij]

theorem fillUpper_onGraph {nz : Fin p → Fin p → Bool} (h : UpperMask nz) (x : Matrix (Fin p) (Fin p) ℝ) :
    OnGraph nz (fillUpper nz x) := by
  refine ⟨fillUpper_symm h x, fun i j hij hz => ?_⟩
  simp [fillUpper, hz, not_lt.mpr hij]

theorem fillUpper_of_onGraph {nz : Fin p → Fin p → Bool} (h : UpperMask nz) {Y : Matrix (Fin p) (Fin p) ℝ}
    (hY : OnGraph nz Y) : fillUpper nz Y = Y := by
  have up : ∀ i j, i ≤ j → fillUpper nz Y i j = Y i j := by
    intro i j hij
    simp only [fillUpper, not_lt.mpr hij, if_false, add_zero]
    split
    · rfl
    · rename_i hz
      exact (hY.2 i j hij (by simpa using hz)).symm
  ext i j
  rcases le_total i j with hij | hij
  · exact up i j hij
  · rw [← (fillUpper_symm h Y).apply, up j i hij, hY.1.apply]

/-- The sum of the gradient entries against a direction is the inner product with the filled direction. -/
theorem frobInner_fillUpper (nz : Fin p → Fin p → Bool) (g v : Matrix (Fin p) (Fin p) ℝ) :
    frobInner g (fillUpper nz v)
      = ∑ i, ∑ j, if nz i j then (g i j + if i < j then g j i else 0) * v i j else 0 := by
  have h1 : frobInner g (fillUpper nz v)
      = (∑ i, ∑ j, if nz i j then g i j * v i j else 0)
        + ∑ i, ∑ j, if j < i then (if nz j i then g i j * v j i else 0) else 0 := by
    simp only [frobInner, fillUpper, ← Finset.sum_add_distrib]
    refine Finset.sum_congr rfl fun i _ => Finset.sum_congr rfl fun j _ => ?_
    split_ifs <;> simp_all [mul_add]
  rw [h1, Finset.sum_comm (f := fun i j => if j < i then (if nz j i then g i j * v j i else 0) else 0),
    ← Finset.sum_add_distrib]
  refine Finset.sum_congr rfl fun i _ => ?_
  rw [← Finset.sum_add_distrib]
  refine Finset.sum_congr rfl fun j _ => ?_
  split_ifs <;> ring

/-- C147: the gradient `covsel` returns is the gradient of the value it returns, at every point whose filled
matrix is positive definite and along every direction of the parameters. -/
theorem C147_gradient (nz : Fin p → Fin p → Bool) (C x v : Matrix (Fin p) (Fin p) ℝ)
    (hX : (fillUpper nz x).PosDef) :
    HasDerivAt (fun s : ℝ => covselObj nz C (x + s • v))
      (∑ i, ∑ j, if nz i j then covselGrad nz C x i j * v i j else 0) 0 := by
  have h1 := (hasDerivAt_logdet hX (fillUpper nz v)).neg
  have h2 : HasDerivAt (fun s : ℝ => frobInner C (fillUpper nz x) + s * frobInner C (fillUpper nz v))
      (frobInner C (fillUpper nz v)) 0 := by
    simpa using ((hasDerivAt_id (0 : ℝ)).mul_const (frobInner C (fillUpper nz v))).const_add
      (frobInner C (fillUpper nz x))
  have h3 := h1.add h2
  have e : (∑ i, ∑ j, if nz i j then covselGrad nz C x i j * v i j else 0)
      = -frobInner (fillUpper nz x)⁻¹ (fillUpper nz v) + frobInner C (fillUpper nz v) := by
    have := frobInner_fillUpper nz (C - (fillUpper nz x)⁻¹) v
    simp only [covselGrad, ← this, frobInner_sub_left]
    ring
  rw [e]
  refine h3.congr_of_eventuallyEq (Eventually.of_forall fun s => ?_)
  simp only [covselObj, fillUpper_add_smul, sum_eq_frobInner, frobInner_add_right, frobInner_smul_right,
    Pi.add_apply, Pi.neg_apply]

theorem grad_zero_iff {nz : Fin p → Fin p → Bool} (h : UpperMask nz) {C x : Matrix (Fin p) (Fin p) ℝ}
    (hC : C.IsSymm) :
    (∀ i j, nz i j = true → covselGrad nz C x i j = 0) ↔
      ∀ i j, nz i j = true → (fillUpper nz x)⁻¹ i j = C i j := by
  have hs : ((fillUpper nz x)⁻¹).IsSymm := by
    rw [IsSymm, transpose_nonsing_inv, (fillUpper_symm h x).eq]
  refine forall_congr' fun i => forall_congr' fun j => imp_congr_right fun hz => ?_
  simp only [covselGrad, Matrix.sub_apply]
  rw [hC.apply i j, hs.apply i j]
  split
  · constructor <;> intro h <;> linarith
  · constructor <;> intro h <;> linarith

/-- C147: at a positive definite point the gradient vanishes exactly when the point is the maximum likelihood
precision of the graph: no other positive definite matrix on the graph has a value as small. Both are
the same as matching the covariance on the edges and the diagonal. -/
theorem C147_optimum {nz : Fin p → Fin p → Bool} (h : UpperMask nz) {C x : Matrix (Fin p) (Fin p) ℝ}
    (hC : C.IsSymm) (hX : (fillUpper nz x).PosDef) :
    ((∀ i j, nz i j = true → covselGrad nz C x i j = 0) ↔
        ∀ i j, nz i j = true → (fillUpper nz x)⁻¹ i j = C i j) ∧
      ((∀ i j, nz i j = true → covselGrad nz C x i j = 0) ↔
        ∀ Y : Matrix (Fin p) (Fin p) ℝ, Y.PosDef → OnGraph nz Y → Y ≠ fillUpper nz x →
          -Real.log (fillUpper nz x).det + trace (C * fillUpper nz x)
            < -Real.log Y.det + trace (C * Y)) := by
  refine ⟨grad_zero_iff h hC, fun hg Y hY hYG hne => ?_, fun hmin => ?_⟩
  · have hlt := log_det_lt hY hX hne
    have h0 := frobInner_fillUpper nz (C - (fillUpper nz x)⁻¹) (Y - fillUpper nz x)
    have hz : (∑ i, ∑ j, if nz i j then ((C - (fillUpper nz x)⁻¹) i j
        + if i < j then (C - (fillUpper nz x)⁻¹) j i else 0) * (Y - fillUpper nz x) i j else 0) = 0 := by
      refine Finset.sum_eq_zero fun i _ => Finset.sum_eq_zero fun j _ => ?_
      split
      · rename_i hij
        have := hg i j hij
        simp only [covselGrad] at this
        rw [this, zero_mul]
      · rfl
    have hf : fillUpper nz (Y - fillUpper nz x) = Y - fillUpper nz x := by
      apply fillUpper_of_onGraph h
      refine ⟨hYG.1.sub (fillUpper_symm h x), fun i j hij hzz => ?_⟩
      rw [Matrix.sub_apply, hYG.2 i j hij hzz, (fillUpper_onGraph h x).2 i j hij hzz, sub_zero]
    rw [hz, hf] at h0
    simp only [frobInner_sub_left, frobInner_sub_right] at h0 hlt
    rw [← frobInner_eq_trace_of_symm hC, ← frobInner_eq_trace_of_symm hC]
    linarith
  · -- a one-parameter family through the optimum has derivative zero
    intro a b hab
    let v : Matrix (Fin p) (Fin p) ℝ := fun i j => if i = a ∧ j = b then 1 else 0
    have hd := C147_gradient nz C x v hX
    have hval : (∑ i, ∑ j, if nz i j then covselGrad nz C x i j * v i j else 0)
        = covselGrad nz C x a b := by
      rw [Finset.sum_eq_single a, Finset.sum_eq_single b]
      · simp [v, hab]
      · intro j _ hj; simp [v, hj]
      · simp
      · intro i _ hi; simp [v, hi]
      · simp
    rw [hval] at hd
    have hpos : ∀ᶠ s : ℝ in 𝓝 0, (fillUpper nz x + s • fillUpper nz v).PosDef := by
      have hv := fillUpper_symm h v
      have h1 := posDef_add_smul hX hv
      have h2 := posDef_add_smul hX hv.neg
      have h2' : ∀ᶠ s : ℝ in 𝓝[<] 0, (fillUpper nz x + s • fillUpper nz v).PosDef := by
        have : Tendsto (fun s : ℝ => -s) (𝓝[<] 0) (𝓝[>] 0) := by
          simpa using tendsto_neg_nhdsLT (a := (0 : ℝ))
        filter_upwards [this.eventually h2] with s hs
        simpa using hs
      rw [← nhdsNE_sup_pure, ← nhdsLT_sup_nhdsGT]
      refine eventually_sup.mpr ⟨eventually_sup.mpr ⟨h2', h1⟩, ?_⟩
      rw [eventually_pure]
      simpa using hX
    have hmin' : IsLocalMin (fun s : ℝ => covselObj nz C (x + s • v)) 0 := by
      filter_upwards [hpos] with s hs
      simp only [zero_smul, add_zero]
      by_cases he : fillUpper nz (x + s • v) = fillUpper nz x
      · simp only [covselObj, he]; exact le_refl _
      · have h4 := hmin (fillUpper nz (x + s • v)) (by rw [fillUpper_add_smul]; exact hs)
          (fillUpper_onGraph h _) he
        rw [← frobInner_eq_trace_of_symm hC, ← frobInner_eq_trace_of_symm hC] at h4
        exact h4.le
    exact hmin'.hasDerivAt_eq_zero hd

/-- C147: the value is no barrier. For the graph without edges on two nodes and the identity covariance it
is finite and unbounded below on indefinite matrices of positive determinant, so a minimiser of `covsel`
exists only locally. -/
theorem C147_unbounded_false (B : ℝ) :
    ∃ x : Matrix (Fin 2) (Fin 2) ℝ, 0 < (fillUpper (fun i j => decide (i = j)) x).det ∧
      covselObj (fun i j => decide (i = j)) 1 x < B := by
  set t := max 1 (1 - B) with ht
  have h1 : 1 ≤ t := le_max_left _ _
  have h2 : 1 - B ≤ t := le_max_right _ _
  have hf : fillUpper (fun i j : Fin 2 => decide (i = j)) ((-t) • (1 : Matrix (Fin 2) (Fin 2) ℝ))
      = (-t) • (1 : Matrix (Fin 2) (Fin 2) ℝ) := by
    apply fillUpper_of_onGraph
    · exact ⟨fun i j h => by simp at h; exact h.le, fun i => by simp⟩
    · refine ⟨by simp [IsSymm], fun i j _ h => ?_⟩
      simp at h
      simp [h]
  have hdet : ((-t) • (1 : Matrix (Fin 2) (Fin 2) ℝ)).det = t ^ 2 := by
    rw [Matrix.det_smul]; simp
  refine ⟨(-t) • 1, ?_, ?_⟩
  · rw [hf, hdet]; positivity
  · simp only [covselObj, hf, hdet]
    have : 0 ≤ Real.log (t ^ 2) := Real.log_nonneg (by nlinarith)
    have hs : (∑ i : Fin 2, ∑ j : Fin 2, (1 : Matrix (Fin 2) (Fin 2) ℝ) i j
        * ((-t) • (1 : Matrix (Fin 2) (Fin 2) ℝ)) i j) = -2 * t := by
      simp [Fin.sum_univ_two]; ring
    rw [hs]
    linarith

/-- Non-vacuity for C147: the edgeless graph on two nodes with the identity covariance. -/
example : UpperMask (fun i j : Fin 2 => decide (i = j)) ∧
    (fillUpper (fun i j : Fin 2 => decide (i = j)) (1 : Matrix (Fin 2) (Fin 2) ℝ)).PosDef ∧
    ∀ i j, decide (i = j) = true → covselGrad (fun i j : Fin 2 => decide (i = j)) 1 1 i j = 0 := by
  have hu : UpperMask (fun i j : Fin 2 => decide (i = j)) :=
    ⟨fun i j h => by simp at h; exact h.le, fun i => by simp⟩
  have hf : fillUpper (fun i j : Fin 2 => decide (i = j)) (1 : Matrix (Fin 2) (Fin 2) ℝ) = 1 := by
    apply fillUpper_of_onGraph hu
    refine ⟨by simp [IsSymm], fun i j _ h => ?_⟩
    simp at h
    simp [h]
  refine ⟨hu, by rw [hf]; exact PosDef.one, fun i j _ => ?_⟩
  simp [covselGrad, hf]

/-! ### C148 -/

/-- C148: for positive definite `P` and at least one sample the `bic` score is the Gaussian log-likelihood
of the samples at their mean with precision `P`, less half the number of edges and nodes times `log n`. -/
theorem C148_bic {n : ℕ} (hn : n ≠ 0) (X : Matrix (Fin n) (Fin p) ℝ) (G : Fin p → Fin p → Bool)
    {P : Matrix (Fin p) (Fin p) ℝ} (hP : P.PosDef) :
    bicScore X G P
      = (∑ i, Real.log (gaussianDensity (fun a => (∑ k, X k a) / n) P⁻¹ (X i)))
        - ((Finset.univ.filter fun ij : Fin p × Fin p => ij.1 < ij.2 ∧ G ij.1 ij.2 = true).card + p) / 2
          * Real.log n := by
  have hn' : (n : ℝ) ≠ 0 := by exact_mod_cast hn
  have hi : (P⁻¹)⁻¹ = P := nonsing_inv_nonsing_inv _ hP.det_pos.ne'.isUnit
  have hd : ∀ i, Real.log (gaussianDensity (fun a => (∑ k, X k a) / n) P⁻¹ (X i))
      = (-(∑ a, ∑ b, P a b * ((X i a - (∑ k, X k a) / n) * (X i b - (∑ k, X k b) / n)))
          + Real.log P.det - p * Real.log (2 * Real.pi)) / 2 := by
    intro i
    rw [mvnLogpdf_eq_log hP.inv, mvnLogpdf, hi, quad_eq, log_det_inv hP]
    simp only [Pi.sub_apply]
    ring
  rw [Finset.sum_congr rfl fun i _ => hd i]
  have hS : (1 / (n : ℝ)) • ((n : ℝ) • gwEmpCov X) = gwEmpCov X := by
    rw [smul_smul, one_div, inv_mul_cancel₀ hn', one_smul]
  have hsum : (n : ℝ) * ∑ a, ∑ b, gwEmpCov X a b * P a b
      = ∑ i, ∑ a, ∑ b, P a b * ((X i a - (∑ k, X k a) / n) * (X i b - (∑ k, X k b) / n)) := by
    have h1 : ∀ a b, (n : ℝ) * (gwEmpCov X a b * P a b)
        = ∑ i, P a b * ((X i a - (∑ k, X k a) / n) * (X i b - (∑ k, X k b) / n)) := by
      intro a b
      rw [← Finset.mul_sum, gwEmpCov]
      field_simp
    simp only [Finset.mul_sum (a := (n : ℝ)), h1]
    symm
    refine (Finset.sum_comm).trans (Finset.sum_congr rfl fun a _ => ?_)
    exact Finset.sum_comm
  have hpos : n > 0 := Nat.pos_of_ne_zero hn
  simp only [bicScore, hpos, if_true, skLogLik, hS, gwDof]
  rw [← Finset.sum_div, Finset.sum_sub_distrib, Finset.sum_add_distrib, Finset.sum_neg_distrib, ← hsum]
  simp only [Finset.sum_const, Finset.card_univ, Fintype.card_fin, nsmul_eq_mul]
  push_cast
  ring

/-- The log-likelihood of the samples at their mean. -/
theorem sum_log_density {n : ℕ} (hn : n ≠ 0) (X : Matrix (Fin n) (Fin p) ℝ)
    {P : Matrix (Fin p) (Fin p) ℝ} (hP : P.PosDef) :
    (∑ i, Real.log (gaussianDensity (fun a => (∑ k, X k a) / n) P⁻¹ (X i))) = n * skLogLik (gwEmpCov X) P := by
  have hn' : (n : ℝ) ≠ 0 := by exact_mod_cast hn
  have h := C148_bic hn X (fun _ _ => false) hP
  have hpos : n > 0 := Nat.pos_of_ne_zero hn
  have hS : (1 / (n : ℝ)) • ((n : ℝ) • gwEmpCov X) = gwEmpCov X := by
    rw [smul_smul, one_div, inv_mul_cancel₀ hn', one_smul]
  simp only [bicScore, hpos, if_true, hS, gwDof] at h
  push_cast at h
  linarith

theorem gwEmpCov_symm {n : ℕ} (X : Matrix (Fin n) (Fin p) ℝ) : (gwEmpCov X).IsSymm := by
  ext a b
  simp only [transpose_apply, gwEmpCov]
  congr 1
  exact Finset.sum_congr rfl fun i _ => mul_comm _ _

/-- The logarithm of the density of a G-Wishart distribution with `d` degrees of freedom and scale `S`, up to
its constant. -/
noncomputable def gwLogDensity (d : ℝ) (S K : Matrix (Fin p) (Fin p) ℝ) : ℝ :=
  (d - 2) / 2 * Real.log K.det - trace (S * K) / 2

/-- C148: the covariance that `GWishartFit` passes to `covsel` is the right one: a stationary point is the
mode of the posterior. Among the positive definite matrices on the graph it is the only maximiser of the
G-Wishart prior density with `d0` and `S0` times the likelihood of the samples at their mean. -/
theorem C148_fit {n : ℕ} (hn : n ≠ 0) (X : Matrix (Fin n) (Fin p) ℝ) {d0 : ℝ} (hd : 2 < n + d0)
    {S0 : Matrix (Fin p) (Fin p) ℝ} (hS0 : S0.IsSymm) {nz : Fin p → Fin p → Bool} (h : UpperMask nz)
    {x : Matrix (Fin p) (Fin p) ℝ} (hX : (fillUpper nz x).PosDef) :
    (∀ i j, nz i j = true → covselGrad nz (gwFitCov X d0 S0) x i j = 0) ↔
      ∀ Y : Matrix (Fin p) (Fin p) ℝ, Y.PosDef → OnGraph nz Y → Y ≠ fillUpper nz x →
        gwLogDensity d0 S0 Y + ∑ i, Real.log (gaussianDensity (fun a => (∑ k, X k a) / n) Y⁻¹ (X i))
          < gwLogDensity d0 S0 (fillUpper nz x)
            + ∑ i, Real.log (gaussianDensity (fun a => (∑ k, X k a) / n) (fillUpper nz x)⁻¹ (X i)) := by
  have hC : (gwFitCov X d0 S0).IsSymm := (((gwEmpCov_symm X).smul _).add hS0).smul _
  have hc : 0 < (n : ℝ) + d0 - 2 := by linarith
  have key : ∀ K : Matrix (Fin p) (Fin p) ℝ, K.PosDef →
      gwLogDensity d0 S0 K + ∑ i, Real.log (gaussianDensity (fun a => (∑ k, X k a) / n) K⁻¹ (X i))
        = -((n : ℝ) + d0 - 2) / 2 * (-Real.log K.det + trace (gwFitCov X d0 S0 * K))
          - n * (p * Real.log (2 * Real.pi)) / 2 := by
    intro K hK
    have e1 : trace (gwFitCov X d0 S0 * K)
        = (1 / ((n : ℝ) + d0 - 2)) * (n * trace (gwEmpCov X * K) + trace (S0 * K)) := by
      simp only [gwFitCov, Matrix.smul_mul, Matrix.add_mul, trace_smul, trace_add, smul_eq_mul]
    have e2 : (∑ i, ∑ j, gwEmpCov X i j * K i j) = trace (gwEmpCov X * K) :=
      frobInner_eq_trace_of_symm (gwEmpCov_symm X) K
    rw [sum_log_density hn X hK, e1, skLogLik, e2, gwLogDensity]
    field_simp
    ring
  rw [(C147_optimum h hC hX).2]
  refine forall_congr' fun Y => imp_congr_right fun hY => imp_congr_right fun _ => imp_congr_right fun _ => ?_
  rw [key Y hY, key _ hX]
  constructor <;> intro hlt <;> nlinarith

/-- C148: among precisions on one graph the score orders like the likelihood; an additional edge that leaves
the precision unchanged costs `log n / 2`. -/
theorem C148_penalty {n : ℕ} (hn : n ≠ 0) (X : Matrix (Fin n) (Fin p) ℝ) (G G' : Fin p → Fin p → Bool)
    (P : Matrix (Fin p) (Fin p) ℝ) :
    bicScore X G P - bicScore X G' P = ((gwDof G' : ℝ) - gwDof G) / 2 * Real.log n := by
  have hpos : n > 0 := Nat.pos_of_ne_zero hn
  simp only [bicScore, hpos, if_true]
  ring

/-- C148: without samples the score is zero. -/
theorem C148_empty (X : Matrix (Fin 0) (Fin p) ℝ) (G : Fin p → Fin p → Bool)
    (P : Matrix (Fin p) (Fin p) ℝ) : bicScore X G P = 0 := by
  simp [bicScore]

/-- Non-vacuity for C148. -/
example : (2 : ℝ) < ((3 : ℕ) : ℝ) + 3 ∧ (1 : Matrix (Fin 2) (Fin 2) ℝ).IsSymm := ⟨by norm_num, by simp [IsSymm]⟩

/-- Non-vacuity for C148. -/
example : (1 : Matrix (Fin 2) (Fin 2) ℝ).PosDef ∧ (3 : ℕ) ≠ 0 := ⟨PosDef.one, by norm_num⟩

/-! ### C149 -/

/-- `c` is the mixed second derivative of `f` at `K` along `V` and `W`. -/
def IsSecondDeriv (f : Matrix (Fin p) (Fin p) ℝ → ℝ) (K V W : Matrix (Fin p) (Fin p) ℝ) (c : ℝ) : Prop :=
  ∃ g : ℝ → ℝ, (∀ᶠ s in 𝓝 (0 : ℝ), HasDerivAt (fun t : ℝ => f (K + s • W + t • V)) (g s) 0) ∧
    HasDerivAt g c 0

theorem onesAt_symm (i j : Fin p) : (onesAt i j).IsSymm := by
  ext a b
  simp only [transpose_apply, onesAt]
  congr 1
  simp only [eq_iff_iff]
  tauto

theorem hasDerivAt_laplaceH (D : Matrix (Fin p) (Fin p) ℝ) {K : Matrix (Fin p) (Fin p) ℝ} (hK : K.PosDef)
    (delta : ℝ) (V : Matrix (Fin p) (Fin p) ℝ) :
    HasDerivAt (fun s : ℝ => laplaceH D (K + s • V) delta) (frobInner (laplaceH1 D K delta) V) 0 := by
  have h1 := (hasDerivAt_logdet hK V).const_mul (delta - 2)
  have h2 : HasDerivAt (fun s : ℝ => frobInner D K + s * frobInner D V) (frobInner D V) 0 := by
    simpa using ((hasDerivAt_id (0 : ℝ)).mul_const (frobInner D V)).const_add (frobInner D K)
  have h3 := (h2.sub h1).const_mul (-0.5 : ℝ)
  have e : frobInner (laplaceH1 D K delta) V
      = -0.5 * (frobInner D V - (delta - 2) * frobInner K⁻¹ V) := by
    simp only [laplaceH1, frobInner_smul_left, frobInner_sub_left]
  rw [e]
  refine h3.congr_of_eventuallyEq (Eventually.of_forall fun s => ?_)
  simp only [laplaceH, Pi.sub_apply, ← frobInner_eq_trace]
  rw [frobInner_comm _ D, frobInner_add_right, frobInner_smul_right]

/-- C149: `first_derivative_h` is the gradient of `h`, and the entries of `first_derivative_h_version2` are its
derivatives along the symmetric coordinate directions. -/
theorem C149_first (D : Matrix (Fin p) (Fin p) ℝ) {K : Matrix (Fin p) (Fin p) ℝ} (hK : K.PosDef)
    (delta : ℝ) :
    (∀ V, HasDerivAt (fun s : ℝ => laplaceH D (K + s • V) delta)
      (∑ i, ∑ j, laplaceH1 D K delta i j * V i j) 0) ∧
    ∀ i j, HasDerivAt (fun s : ℝ => laplaceH D (K + s • onesAt i j) delta) (laplaceH1v2 D K delta i j) 0 := by
  refine ⟨fun V => hasDerivAt_laplaceH D hK delta V, fun i j => ?_⟩
  have h := hasDerivAt_laplaceH D hK delta (onesAt i j)
  have e : laplaceH1v2 D K delta i j = frobInner (laplaceH1 D K delta) (onesAt i j) := by
    rw [laplaceH1v2, laplaceH1, frobInner_smul_left, trace_mul_comm,
      ← frobInner_eq_trace_of_symm (onesAt_symm i j), frobInner_comm]
    ring
  rw [e]
  exact h

/-- The derivative of the inverse against a fixed matrix. -/
theorem hasDerivAt_inv_inner {K : Matrix (Fin p) (Fin p) ℝ} (hK : K.PosDef)
    (W V : Matrix (Fin p) (Fin p) ℝ) :
    HasDerivAt (fun s : ℝ => frobInner (K + s • W)⁻¹ V) (-frobInner (K⁻¹ * W * K⁻¹) V) 0 := by
  have hu : IsUnit K.det := hK.det_pos.ne'.isUnit
  have hdetc : ContinuousAt (fun s : ℝ => (K + s • W).det) 0 := by
    have : Continuous fun s : ℝ => (K + s • W).det := by fun_prop
    exact this.continuousAt
  have hne : ∀ᶠ s : ℝ in 𝓝 0, (K + s • W).det ≠ 0 := by
    apply hdetc.eventually_ne
    simpa using hK.det_pos.ne'
  have hcont : ContinuousAt (fun s : ℝ => (K + s • W)⁻¹) 0 := by
    have hcontM : Continuous fun t : ℝ => K + t • W := by fun_prop
    have hdet : (K + (0 : ℝ) • W).det ≠ 0 := by simpa using hK.det_pos.ne'
    have h1 : ContinuousAt (Inv.inv : Matrix (Fin p) (Fin p) ℝ → Matrix (Fin p) (Fin p) ℝ)
        (K + (0 : ℝ) • W) := by
      apply continuousAt_matrix_inv
      rw [Ring.inverse_eq_inv']
      exact continuousAt_inv₀ hdet
    exact ContinuousAt.comp (f := fun t : ℝ => K + t • W) h1 hcontM.continuousAt
  have hc2 : ContinuousAt (fun s : ℝ => -frobInner ((K + s • W)⁻¹ * W * K⁻¹) V) 0 := by
    have hF : Continuous fun M : Matrix (Fin p) (Fin p) ℝ => -frobInner (M * W * K⁻¹) V := by
      unfold frobInner; fun_prop
    exact ContinuousAt.comp (f := fun t : ℝ => (K + t • W)⁻¹) hF.continuousAt hcont
  rw [hasDerivAt_iff_tendsto_slope]
  have ht := hc2.tendsto
  simp only [zero_smul, add_zero] at ht
  refine (ht.mono_left nhdsWithin_le_nhds).congr' ?_
  filter_upwards [hne.filter_mono nhdsWithin_le_nhds, self_mem_nhdsWithin] with s hs hs0
  have hs0' : s ≠ 0 := hs0
  have hres : (K + s • W)⁻¹ - K⁻¹ = -(s • ((K + s • W)⁻¹ * W * K⁻¹)) := by
    have h1 : (K + s • W)⁻¹ * (K - (K + s • W)) * K⁻¹ = (K + s • W)⁻¹ - K⁻¹ := by
      rw [Matrix.mul_sub, Matrix.sub_mul, nonsing_inv_mul _ hs.isUnit, Matrix.one_mul, Matrix.mul_assoc,
        mul_nonsing_inv _ hu, Matrix.mul_one]
    rw [← h1]
    have h2 : K - (K + s • W) = -(s • W) := by abel
    rw [h2, Matrix.mul_neg, Matrix.neg_mul, Matrix.mul_smul, Matrix.smul_mul]
  rw [slope_def_field]
  simp only [zero_smul, add_zero, sub_zero]
  have h3 : frobInner (K + s • W)⁻¹ V - frobInner K⁻¹ V = -(s * frobInner ((K + s • W)⁻¹ * W * K⁻¹) V) := by
    have := congrArg (fun M => frobInner M V) hres
    simpa only [frobInner_sub_left, frobInner_neg_left, frobInner_smul_left] using this
  rw [h3]
  field_simp

/-- The symmetric unit matrix of a pair, with the diagonal counted twice. -/
def pairMat (e : Fin p × Fin p) : Matrix (Fin p) (Fin p) ℝ :=
  Matrix.single e.1 e.2 1 + Matrix.single e.2 e.1 1

/-- How often the Laplace term counts a parameter: twice on the diagonal. -/
def pairWeight (e : Fin p × Fin p) : ℝ := if e.1 = e.2 then 2 else 1

theorem pairMat_eq (e : Fin p × Fin p) : pairMat e = pairWeight e • onesAt e.1 e.2 := by
  ext a b
  simp only [pairMat, pairWeight, onesAt, Matrix.add_apply, Matrix.smul_apply, Matrix.single_apply,
    smul_eq_mul]
  rcases e with ⟨i, j⟩
  simp only
  by_cases hij : i = j
  · subst hij
    by_cases h : i = a ∧ i = b
    · obtain ⟨rfl, rfl⟩ := h
      norm_num
    · have h' : ¬ (a = i ∧ b = i) := fun hc => h ⟨hc.1.symm, hc.2.symm⟩
      simp [h, h']
  · simp only [hij, if_false, one_mul]
    by_cases h1 : i = a ∧ j = b
    · obtain ⟨rfl, rfl⟩ := h1
      simp [hij, Ne.symm hij]
    · have h1' : ¬ (a = i ∧ b = j) := fun hc => h1 ⟨hc.1.symm, hc.2.symm⟩
      by_cases h2 : j = a ∧ i = b
      · obtain ⟨rfl, rfl⟩ := h2
        simp [hij, Ne.symm hij]
      · have h2' : ¬ (a = j ∧ b = i) := fun hc => h2 ⟨hc.1.symm, hc.2.symm⟩
        simp [h1, h1', h2, h2']

theorem pairMat_symm (e : Fin p × Fin p) : (pairMat e).IsSymm := by
  rw [pairMat_eq]
  exact (onesAt_symm _ _).smul _

theorem trace_two_single (S : Matrix (Fin p) (Fin p) ℝ) (i j l m : Fin p) :
    trace (S * Matrix.single i j 1 * S * Matrix.single l m 1) = S m i * S j l := by
  rw [trace_mul_single, Matrix.mul_apply, Finset.sum_eq_single j]
  · simp
  · intro b _ hb
    rw [mul_single_apply_of_ne _ _ _ _ _ hb, zero_mul]
  · simp

theorem laplaceTerm_eq {S : Matrix (Fin p) (Fin p) ℝ} (hS : S.IsSymm) (e1 e2 : Fin p × Fin p) :
    laplaceTerm S e1 e2 = trace (S * pairMat e1 * S * pairMat e2) := by
  rcases e1 with ⟨i, j⟩
  rcases e2 with ⟨l, m⟩
  simp only [pairMat, Matrix.mul_add, Matrix.add_mul, trace_add, trace_two_single]
  simp only [laplaceTerm, Fin.sum_univ_two, cons_val_zero, cons_val_one]
  rw [hS.apply i l, hS.apply i m, hS.apply j l, hS.apply j m]
  ring

theorem laplaceTerm_comm {S : Matrix (Fin p) (Fin p) ℝ} (hS : S.IsSymm) (e1 e2 : Fin p × Fin p) :
    laplaceTerm S e1 e2 = laplaceTerm S e2 e1 := by
  rw [laplaceTerm_eq hS, laplaceTerm_eq hS, Matrix.mul_assoc, trace_mul_comm]
  simp only [Matrix.mul_assoc]

theorem laplaceHess_eq {k : ℕ} (dn : ℝ) {S : Matrix (Fin p) (Fin p) ℝ} (hS : S.IsSymm)
    (V : Fin k → Fin p × Fin p) (a b : Fin k) :
    laplaceHess dn S V a b = -(dn - 2) / 2 * trace (S * pairMat (V a) * S * pairMat (V b)) := by
  rw [← laplaceTerm_eq hS, laplaceHess]
  split
  · ring
  · rw [laplaceTerm_comm hS]; ring

theorem posDef_nhds {K W : Matrix (Fin p) (Fin p) ℝ} (hK : K.PosDef) (hW : W.IsSymm) :
    ∀ᶠ s : ℝ in 𝓝 0, (K + s • W).PosDef := by
  have h1 := posDef_add_smul hK hW
  have h2 := posDef_add_smul hK hW.neg
  have h2' : ∀ᶠ s : ℝ in 𝓝[<] 0, (K + s • W).PosDef := by
    have : Tendsto (fun s : ℝ => -s) (𝓝[<] 0) (𝓝[>] 0) := by
      simpa using tendsto_neg_nhdsLT (a := (0 : ℝ))
    filter_upwards [this.eventually h2] with s hs
    simpa using hs
  rw [← nhdsNE_sup_pure, ← nhdsLT_sup_nhdsGT]
  refine eventually_sup.mpr ⟨eventually_sup.mpr ⟨h2', h1⟩, ?_⟩
  rw [eventually_pure]
  simpa using hK

theorem secondDeriv_laplaceH (D : Matrix (Fin p) (Fin p) ℝ) {K : Matrix (Fin p) (Fin p) ℝ} (hK : K.PosDef)
    (delta : ℝ) {V W : Matrix (Fin p) (Fin p) ℝ} (hW : W.IsSymm) :
    IsSecondDeriv (fun M => laplaceH D M delta) K V W
      (-(delta - 2) / 2 * trace (K⁻¹ * V * K⁻¹ * W)) := by
  refine ⟨fun s => frobInner (laplaceH1 D (K + s • W) delta) V, ?_, ?_⟩
  · filter_upwards [posDef_nhds hK hW] with s hs
    exact hasDerivAt_laplaceH D hs delta V
  · have h := ((hasDerivAt_inv_inner hK W V).const_mul (0.5 * (delta - 2))).const_add
      (-0.5 * frobInner D V)
    have hKs : (K⁻¹)ᵀ = K⁻¹ := hK.inv.isSymm'
    have hval : -(delta - 2) / 2 * trace (K⁻¹ * V * K⁻¹ * W)
        = 0.5 * (delta - 2) * -frobInner (K⁻¹ * W * K⁻¹) V := by
      have hsym : (K⁻¹ * W * K⁻¹).IsSymm := by
        rw [IsSymm, transpose_mul, transpose_mul, hKs, hW.eq, Matrix.mul_assoc]
      have h1 : frobInner (K⁻¹ * W * K⁻¹) V = trace (K⁻¹ * V * K⁻¹ * W) := by
        rw [frobInner_eq_trace_of_symm hsym, Matrix.mul_assoc, Matrix.mul_assoc, trace_mul_comm]
        rw [show W * (K⁻¹ * V) * K⁻¹ = W * (K⁻¹ * V * K⁻¹) by simp only [Matrix.mul_assoc], trace_mul_comm]
      rw [h1]; ring
    rw [hval]
    refine h.congr_of_eventuallyEq (Eventually.of_forall fun s => ?_)
    simp only [laplaceH1, frobInner_smul_left, frobInner_sub_left]
    ring

/-- C149 (part that holds): each entry of the Hessian of the full Laplace approximation is the second
derivative of `h` along the two symmetric coordinate directions, exactly for edges; a diagonal parameter
counts twice. The diagonal approximation uses the diagonal of the same matrix. -/
theorem C149_hessian_partial {k : ℕ} (D : Matrix (Fin p) (Fin p) ℝ) {P : Matrix (Fin p) (Fin p) ℝ}
    (hP : P.PosDef) (dn : ℝ) (V : Fin k → Fin p × Fin p) :
    (∀ a b, ∃ c, IsSecondDeriv (fun M => laplaceH D M dn) P (onesAt (V a).1 (V a).2) (onesAt (V b).1 (V b).2) c ∧
      laplaceHess dn P⁻¹ V a b
        = (if (V a).1 = (V a).2 then 2 else 1) * (if (V b).1 = (V b).2 then 2 else 1) * c) ∧
    ∀ a, laplaceDiag dn P⁻¹ (V a) = laplaceHess dn P⁻¹ V a a := by
  have hs : (P⁻¹).IsSymm := hP.inv.isSymm'
  refine ⟨fun a b => ⟨_, secondDeriv_laplaceH D hP dn (onesAt_symm _ _), ?_⟩, fun a => ?_⟩
  · rw [laplaceHess_eq dn hs, pairMat_eq, pairMat_eq]
    simp only [Matrix.mul_smul, Matrix.smul_mul, trace_smul, smul_eq_mul, pairWeight]
    ring
  · rcases hv : V a with ⟨i, j⟩
    simp only [laplaceHess, le_refl, if_true, laplaceDiag, laplaceTerm, hv, Fin.sum_univ_two,
      cons_val_zero, cons_val_one, diagM1]
    by_cases hij : i = j
    · subst hij; simp
    · simp only [hij, if_false]

/-- C149: the Hessian of a diagonal parameter is four times the second derivative, so the curvature reported for
a single variance is wrong by that factor (it cancels in the score, where prior and posterior use the same
graph). -/
theorem C149_diagonal_false (D : Matrix (Fin 1) (Fin 1) ℝ) :
    ∃ c, IsSecondDeriv (fun M => laplaceH D M 3) 1 (onesAt 0 0) (onesAt 0 0) c ∧
      laplaceHess 3 (1 : Matrix (Fin 1) (Fin 1) ℝ)⁻¹ (fun _ : Fin 1 => (0, 0)) 0 0 = 4 * c ∧ c ≠ 0 := by
  refine ⟨_, secondDeriv_laplaceH D PosDef.one 3 (onesAt_symm 0 0), ?_, ?_⟩
  · rw [laplaceHess_eq 3 (PosDef.one.inv.isSymm'), pairMat_eq]
    simp only [Matrix.mul_smul, Matrix.smul_mul, trace_smul, smul_eq_mul, pairWeight]
    norm_num
    ring
  · simp [onesAt, trace, Matrix.mul_apply]
    norm_num

/-- C149: the negative Hessian is positive definite for distinct parameters, a positive definite precision and
more than two degrees of freedom, so its Cholesky factorisation exists. -/
theorem C149_posDef {k : ℕ} {P : Matrix (Fin p) (Fin p) ℝ} (hP : P.PosDef) {dn : ℝ} (hdn : 2 < dn)
    {V : Fin k → Fin p × Fin p} (hV : Function.Injective V) (hup : ∀ a, (V a).1 ≤ (V a).2) :
    (-laplaceHess dn P⁻¹ V).PosDef := by
  have hs : (P⁻¹).IsSymm := hP.inv.isSymm'
  obtain ⟨R, hR, hRR⟩ := exists_sqrt hP.inv
  have hRs : Rᵀ = R := hR.isSymm'
  refine PosDef.of_dotProduct_mulVec_pos ?_ fun x hx => ?_
  · apply isHermitian_of_isSymm
    ext a b
    rw [transpose_apply, Matrix.neg_apply, Matrix.neg_apply, laplaceHess_eq dn hs, laplaceHess_eq dn hs,
      ← laplaceTerm_eq hs, ← laplaceTerm_eq hs, laplaceTerm_comm hs]
  · let M : Matrix (Fin p) (Fin p) ℝ := ∑ a, x a • pairMat (V a)
    have hMs : M.IsSymm := by
      rw [IsSymm, transpose_sum]
      refine Finset.sum_congr rfl fun a _ => ?_
      rw [transpose_smul, (pairMat_symm _).eq]
    have hq : star x ⬝ᵥ ((-laplaceHess dn P⁻¹ V) *ᵥ x) = (dn - 2) / 2 * trace (P⁻¹ * M * P⁻¹ * M) := by
      simp only [M, Finset.mul_sum, Finset.sum_mul, Matrix.mul_sum, Matrix.sum_mul, trace_sum,
        Matrix.mul_smul, Matrix.smul_mul, trace_smul, smul_eq_mul, dotProduct, mulVec, Matrix.neg_apply,
        laplaceHess_eq dn hs, star_trivial]
      rw [Finset.sum_comm]
      refine Finset.sum_congr rfl fun a _ => Finset.sum_congr rfl fun b _ => by ring
    rw [hq]
    have hfro : trace (P⁻¹ * M * P⁻¹ * M) = frobSq (R * M * R) := by
      have hsym : (R * M * R).IsSymm := by
        rw [IsSymm, transpose_mul, transpose_mul, hRs, hMs.eq, Matrix.mul_assoc]
      rw [← frobInner_self, frobInner_eq_trace_of_symm hsym, ← hRR]
      rw [show R * R * M * (R * R) * M = R * (R * M * R * (R * M)) by simp only [Matrix.mul_assoc],
        trace_mul_comm]
      simp only [Matrix.mul_assoc]
    rw [hfro]
    have hne : R * M * R ≠ 0 := by
      intro h0
      have hRu : IsUnit R.det := hR.det_pos.ne'.isUnit
      have hM0 : M = 0 := by
        have h1 : R⁻¹ * (R * M * R) * R⁻¹ = M := by
          rw [Matrix.mul_assoc R M R, ← Matrix.mul_assoc R⁻¹ R, nonsing_inv_mul _ hRu, Matrix.one_mul,
            Matrix.mul_assoc, mul_nonsing_inv _ hRu, Matrix.mul_one]
        rw [← h1, h0]; simp
      apply hx
      funext a
      have h2 := congrFun (congrFun hM0 (V a).1) (V a).2
      simp only [M, Matrix.sum_apply, Matrix.smul_apply, smul_eq_mul, Matrix.zero_apply] at h2
      rw [Finset.sum_eq_single a] at h2
      · rw [pairMat_eq, Matrix.smul_apply, smul_eq_mul] at h2
        have h3 : onesAt (V a).1 (V a).2 (V a).1 (V a).2 = 1 := by simp [onesAt]
        rw [h3] at h2
        have h4 : pairWeight (V a) ≠ 0 := by unfold pairWeight; split <;> norm_num
        simpa [h4] using h2
      · intro b _ hb
        have hz : onesAt (V b).1 (V b).2 (V a).1 (V a).2 = 0 := by
          simp only [onesAt]
          rw [if_neg]
          rintro (⟨h3, h4⟩ | ⟨h3, h4⟩)
          · exact hb (hV (Prod.ext h3.symm h4.symm))
          · have h5 := hup a
            have h6 := hup b
            rw [h3, h4] at h5
            have h7 : (V b).1 = (V b).2 := le_antisymm h6 h5
            exact hb (hV (Prod.ext (by rw [h3, h7]) (by rw [h4, h7])))
        rw [pairMat_eq, Matrix.smul_apply, hz]
        simp
      · simp
    have : 0 < frobSq (R * M * R) :=
      lt_of_le_of_ne (frobSq_nonneg _) fun h => hne ((frobSq_eq_zero_iff _).mp h.symm)
    have hd : 0 < (dn - 2) / 2 := by linarith
    exact mul_pos hd this

/-- C149: the value `logh` in the normalising constant is not the value of `h` at the fitted precision: where the
covariance is matched on the graph, `h` is `(dn - 2)/2 (log det P - p)` while the code has `+ p`. The excess
is `(dn - 2) p`, so every Laplace score is too large by `n p`, for all graphs alike. -/
theorem C149_logh_false {C P : Matrix (Fin p) (Fin p) ℝ} (hP : P.PosDef)
    (hmatch : ∀ i j, P i j ≠ 0 → P⁻¹ i j = C i j) (dn : ℝ) :
    laplaceH ((dn - 2) • C) P dn = (dn - 2) / 2 * (Real.log P.det - p) ∧
      gwLogh dn P = laplaceH ((dn - 2) • C) P dn + (dn - 2) * p ∧
      ∀ (n d0 : ℝ) (P0 C0 : Matrix (Fin p) (Fin p) ℝ), P0.PosDef →
        (∀ i j, P0 i j ≠ 0 → P0⁻¹ i j = C0 i j) → dn = n + d0 →
        gwLogh dn P - gwLogh d0 P0
          = laplaceH ((dn - 2) • C) P dn - laplaceH ((d0 - 2) • C0) P0 d0 + n * p := by
  have key : ∀ (d : ℝ) (Q E : Matrix (Fin p) (Fin p) ℝ), Q.PosDef → (∀ i j, Q i j ≠ 0 → Q⁻¹ i j = E i j) →
      laplaceH ((d - 2) • E) Q d = (d - 2) / 2 * (Real.log Q.det - p) := by
    intro d Q E hQ hm
    have ht : trace (Qᵀ * E) = p := by
      rw [← frobInner_eq_trace]
      have h1 : frobInner Q E = frobInner Q Q⁻¹ := by
        simp only [frobInner]
        refine Finset.sum_congr rfl fun i _ => Finset.sum_congr rfl fun j _ => ?_
        by_cases h : Q i j = 0
        · simp [h]
        · rw [hm i j h]
      rw [h1, frobInner_eq_trace_of_symm hQ.isSymm', mul_nonsing_inv _ hQ.det_pos.ne'.isUnit]
      simp
    rw [laplaceH, Matrix.mul_smul, trace_smul, smul_eq_mul, ht]
    ring
  refine ⟨key dn P C hP hmatch, ?_, ?_⟩
  · rw [key dn P C hP hmatch, gwLogh]; ring
  · intro n d0 P0 C0 hP0 hm0 hdn
    rw [key dn P C hP hmatch, key d0 P0 C0 hP0 hm0, gwLogh, gwLogh, hdn]
    ring

/-- Non-vacuity for C149: the identity with its own covariance; the three parameters of a graph on two
nodes. -/
example : (1 : Matrix (Fin 2) (Fin 2) ℝ).PosDef ∧
    (∀ i j, (1 : Matrix (Fin 2) (Fin 2) ℝ) i j ≠ 0 → (1 : Matrix (Fin 2) (Fin 2) ℝ)⁻¹ i j
      = (1 : Matrix (Fin 2) (Fin 2) ℝ) i j) ∧
    (-laplaceHess 3 (1 : Matrix (Fin 2) (Fin 2) ℝ)⁻¹ ![(0, 0), (0, 1), (1, 1)]).PosDef :=
  ⟨PosDef.one, fun i j _ => by simp, C149_posDef PosDef.one (by norm_num) (by decide) (by decide)⟩

/-! ### C150 -/

/-- C150 fails for the default prior scale: `GWishartScore` without `S0` raises for every data set whose number
of samples differs from its number of variables. -/
theorem C150_default_prior_false {n : ℕ} (hn : n ≠ p) (X : Matrix (Fin n) (Fin p) ℝ)
    (G : Fin p → Fin p → Bool) (fit : Matrix (Fin p) (Fin p) ℝ) :
    gwScoreDefault X G fit = .valueError := by
  simp [gwScoreDefault, hn]

/-- C150: with an explicit `p x p` scale the fitted covariance is positive definite, so the maximum likelihood
problem of the graph is well posed, for any data, when the scale is positive definite and `d0 > 2`. -/
theorem C150_fit_cov {n : ℕ} (X : Matrix (Fin n) (Fin p) ℝ) {d0 : ℝ} (hd : 2 < d0)
    {S0 : Matrix (Fin p) (Fin p) ℝ} (hS0 : S0.PosDef) : (gwFitCov X d0 S0).PosDef := by
  have hn : (0 : ℝ) ≤ n := Nat.cast_nonneg n
  have hc : (gwEmpCov X).PosSemidef := by
    have h1 : gwEmpCov X = (1 / (n : ℝ)) • ((Matrix.of fun i a => X i a - (∑ k, X k a) / n)ᵀ
        * (Matrix.of fun i a => X i a - (∑ k, X k a) / n)) := by
      ext a b
      simp only [gwEmpCov, Matrix.smul_apply, Matrix.mul_apply, transpose_apply, of_apply, smul_eq_mul]
      ring
    rw [h1]
    have h2 := posSemidef_conjTranspose_mul_self (Matrix.of fun (i : Fin n) (a : Fin p) => X i a - (∑ k, X k a) / n)
    rw [conjTranspose_eq_transpose_of_trivial] at h2
    exact h2.smul (by positivity)
  have h3 : ((n : ℝ) • gwEmpCov X + S0).PosDef := PosDef.posSemidef_add (hc.smul hn) hS0
  exact h3.smul (by
    have : (0 : ℝ) < (n : ℝ) + d0 - 2 := by linarith
    positivity)

/-- C150: the results averaged by `bayesian_graphical_lasso` are the best ones: the right number, all from
the list, none outscored by a result left out. -/
theorem C150_top (res : List (ℝ × Matrix (Fin p) (Fin p) ℝ)) (topN : ℕ) :
    ∃ rest, res.Perm (topResults res topN ++ rest) ∧
      (topResults res topN).length = min topN res.length ∧
      ∀ a ∈ topResults res topN, ∀ b ∈ rest, b.1 ≤ a.1 := by
  classical
  set l := (res.mergeSort fun a b => decide (a.1 ≤ b.1)).reverse with hl
  have htop : topResults res topN = l.take topN := by
    simp only [topResults, hl]
  have hperm : l.Perm res := (List.reverse_perm _).trans (List.mergeSort_perm _ _)
  have hsorted : l.Pairwise fun a b => b.1 ≤ a.1 := by
    rw [hl, List.pairwise_reverse]
    have := List.pairwise_mergeSort (le := fun a b : ℝ × Matrix (Fin p) (Fin p) ℝ => decide (a.1 ≤ b.1))
      (fun a b c hab hbc => by simp only [decide_eq_true_eq] at *; exact le_trans hab hbc)
      (fun a b => by simp only [Bool.or_eq_true, decide_eq_true_eq]; exact le_total _ _) res
    exact this.imp fun h => by simpa using h
  refine ⟨l.drop topN, ?_, ?_, ?_⟩
  · rw [htop, List.take_append_drop]; exact hperm.symm
  · rw [htop, List.length_take, hperm.length_eq]
  · rw [htop]
    rw [← List.take_append_drop topN l, List.pairwise_append] at hsorted
    exact hsorted.2.2

theorem posDef_sum_list {l : List (Matrix (Fin p) (Fin p) ℝ)} (hne : l ≠ []) (h : ∀ M ∈ l, M.PosDef) :
    l.sum.PosDef := by
  induction l with
  | nil => exact absurd rfl hne
  | cons M l ih =>
    rw [List.sum_cons]
    by_cases hl : l = []
    · subst hl; simpa using h M (by simp)
    · exact (h M (by simp)).add (ih hl fun N hN => h N (by simp [hN]))

/-- C150: the average exists when something is averaged and is positive definite if every fitted precision
is. -/
theorem C150_mean (res : List (ℝ × Matrix (Fin p) (Fin p) ℝ)) {topN : ℕ} (hN : topN ≠ 0) (hres : res ≠ [])
    (hpd : ∀ r ∈ res, r.2.PosDef) : ∃ M, topMean res topN = some M ∧ M.PosDef := by
  obtain ⟨rest, hperm, hlen, _⟩ := C150_top res topN
  have hpos : 0 < res.length := List.length_pos_of_ne_nil hres
  have hl : ((topResults res topN).map Prod.snd).length ≠ 0 := by
    rw [List.length_map, hlen]; omega
  refine ⟨(1 / (((topResults res topN).map Prod.snd).length : ℝ)) • ((topResults res topN).map Prod.snd).sum,
    by simp only [topMean, hl, if_false], ?_⟩
  have hsum : ((topResults res topN).map Prod.snd).sum.PosDef := by
    apply posDef_sum_list
    · intro h; rw [h] at hl; exact hl rfl
    · intro M hM
      obtain ⟨r, hr, rfl⟩ := List.mem_map.mp hM
      exact hpd r (hperm.mem_iff.mpr (List.mem_append_left _ hr))
  exact hsum.smul (by
    have : (0 : ℝ) < ((topResults res topN).map Prod.snd).length := by
      exact_mod_cast Nat.pos_of_ne_zero hl
    positivity)

/-- Non-vacuity for C150. -/
example : (10 : ℕ) ≠ 3 ∧ (1 : Matrix (Fin 3) (Fin 3) ℝ).PosDef ∧
    ∀ r ∈ [((0 : ℝ), (1 : Matrix (Fin 3) (Fin 3) ℝ))], r.2.PosDef :=
  ⟨by norm_num, PosDef.one, by simp [PosDef.one]⟩

end Verif.Props
