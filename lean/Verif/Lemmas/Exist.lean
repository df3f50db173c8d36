import Verif.Lemmas.GLConv
import Mathlib.Analysis.Convex.Continuous
import Mathlib.Analysis.Matrix.Order
import Mathlib.Topology.Instances.Matrix
import Mathlib.Topology.Order.Compact
import Mathlib.Analysis.Normed.Module.FiniteDimension

/-! Existence of a minimiser of `P(K) - ∑_t n_t log det K_t` over sequences of PD matrices. -/

namespace Verif.Lemmas

open Verif.Model Verif.Spec Matrix Filter Topology

set_option autoImplicit false
set_option linter.unusedSectionVars false

variable {n : Type*} [Fintype n] [DecidableEq n] {ι : Type*} [Fintype ι]

theorem ConvexPen.continuous {m k : Type*} [Fintype m] [Fintype k] {psi : Matrix m k ℝ → ℝ}
    (h : ConvexPen psi) : Continuous psi := by
  have hc : ConvexOn ℝ Set.univ (fun f : m → k → ℝ => psi (Matrix.of f)) := by
    refine ⟨convex_univ, fun X _ Y _ a b ha hb hab => ?_⟩
    have h1 := h (Matrix.of X) (Matrix.of Y) b hb (by linarith)
    have e : Matrix.of X + b • (Matrix.of Y - Matrix.of X) = Matrix.of (a • X + b • Y) := by
      have : a = 1 - b := by linarith
      subst this
      ext i j
      simp only [Matrix.add_apply, Matrix.smul_apply, Matrix.sub_apply, Matrix.of_apply, Pi.add_apply,
        Pi.smul_apply, smul_eq_mul]
      ring
    rw [e] at h1
    have : 1 - b = a := by linarith
    rw [this] at h1
    exact h1
  exact hc.locallyLipschitz.continuous

theorem frobSq_le_trace {K : Matrix n n ℝ} (hK : K.PosDef) : frobSq K ≤ trace K ^ 2 := by
  obtain ⟨R, hR, hRR⟩ := exists_sqrt hK
  have h := frobSq_mul_le R R
  rw [hRR, frobSq_sqrt hR hRR] at h
  rw [sq]; exact h

/-- `N log det K ≤ (c/2) tr K + const`. -/
theorem logdet_le_trace {N c : ℝ} (hN : 0 < N) (hc : 0 < c) {K : Matrix n n ℝ} (hK : K.PosDef) :
    N * Real.log K.det ≤ c / 2 * trace K + N * Real.log ((2 * N / c) • (1 : Matrix n n ℝ)).det := by
  have hM : ((2 * N / c) • (1 : Matrix n n ℝ)).PosDef := PosDef.one.smul (by positivity)
  have hinv : ((2 * N / c) • (1 : Matrix n n ℝ))⁻¹ = (c / (2 * N)) • 1 := by
    apply inv_eq_left_inv
    rw [smul_mul_smul_comm, Matrix.one_mul]
    have : c / (2 * N) * (2 * N / c) = 1 := by field_simp
    rw [this, one_smul]
  have h := log_det_le hK hM
  rw [hinv, frobInner_smul_left, frobInner_sub_right, frobInner_smul_right] at h
  have e : ∀ X : Matrix n n ℝ, frobInner (1 : Matrix n n ℝ) X = trace X := by
    intro X
    rw [frobInner_eq_trace, transpose_one, Matrix.one_mul]
  rw [e, e] at h
  have h1 : (0 : ℝ) ≤ trace (1 : Matrix n n ℝ) := by rw [Matrix.trace_one]; positivity
  have h2 := mul_le_mul_of_nonneg_left h hN.le
  have e2 : N * (c / (2 * N) * (trace K - 2 * N / c * trace (1 : Matrix n n ℝ))) =
      c / 2 * trace K - N * trace (1 : Matrix n n ℝ) := by
    field_simp
  rw [mul_add, e2] at h2
  nlinarith

theorem entry_le_frob (A : Matrix n n ℝ) (i j : n) : A i j ^ 2 ≤ frobSq A := by
  have h2 : A i j ^ 2 ≤ ∑ j, A i j ^ 2 :=
    Finset.single_le_sum (f := fun j => A i j ^ 2) (fun j _ => sq_nonneg _) (Finset.mem_univ j)
  exact le_trans h2 (Finset.single_le_sum (f := fun i => ∑ j, A i j ^ 2)
    (fun i _ => Finset.sum_nonneg fun j _ => sq_nonneg _) (Finset.mem_univ i))

/-- Sub-level sets lie in compact sets of PD sequences: `P` continuous with
`P(K) ≥ ∑_t c_t tr K_t + b` on PD sequences. -/
theorem sublevel_compact {N c : ι → ℝ} (hN : ∀ t, 0 < N t) (hc : ∀ t, 0 < c t) {b : ℝ}
    {P : (ι → Matrix n n ℝ) → ℝ} (hP : Continuous P)
    (hlow : ∀ K : ι → Matrix n n ℝ, (∀ t, (K t).PosDef) → b + ∑ t, c t * trace (K t) ≤ P K)
    (J1 : ℝ) :
    ∃ C : Set (ι → Matrix n n ℝ), IsCompact C ∧ (∀ K ∈ C, ∀ t, (K t).PosDef) ∧
      (∀ K : ι → Matrix n n ℝ, (∀ t, (K t).PosDef) →
        P K - ∑ t, N t * Real.log (K t).det ≤ J1 → K ∈ C) ∧
      ContinuousOn (fun K => P K - ∑ t, N t * Real.log (K t).det) C := by
  classical
  set J : (ι → Matrix n n ℝ) → ℝ := fun K => P K - ∑ t, N t * Real.log (K t).det with hJ
  set B : ι → ℝ := fun t => N t * Real.log ((2 * N t / c t) • (1 : Matrix n n ℝ)).det with hB
  -- every sub-level element is bounded
  have hlev : ∀ K : ι → Matrix n n ℝ, (∀ t, (K t).PosDef) → J K ≤ J1 →
      ∑ t, c t / 2 * trace (K t) ≤ J1 - b + ∑ t, B t := by
    intro K hK hle
    have h1 := hlow K hK
    have h2 := Finset.sum_le_sum fun t (_ : t ∈ Finset.univ) => logdet_le_trace (hN t) (hc t) (hK t)
    rw [Finset.sum_add_distrib] at h2
    have e : ∑ t, c t * trace (K t) = ∑ t, c t / 2 * trace (K t) + ∑ t, c t / 2 * trace (K t) := by
      rw [← Finset.sum_add_distrib]
      exact Finset.sum_congr rfl fun t _ => by ring
    simp only [hJ] at hle
    change ∑ t, N t * Real.log (K t).det ≤ _ + ∑ t, B t at h2
    linarith
  set R := J1 - b + ∑ t, B t with hR
  set tau : ι → ℝ := fun t => R / (c t / 2) with htau
  set lam : ι → ℝ := fun t => (b - J1 - ∑ u ∈ Finset.univ.erase t, (R + B u)) / N t with hlam
  have htr : ∀ K : ι → Matrix n n ℝ, (∀ t, (K t).PosDef) → J K ≤ J1 → ∀ t,
      c t / 2 * trace (K t) ≤ R := by
    intro K hK hle t
    refine le_trans ?_ (hlev K hK hle)
    exact Finset.single_le_sum (f := fun t => c t / 2 * trace (K t))
      (fun u _ => mul_nonneg (by have := hc u; positivity) (hK u).posSemidef.trace_nonneg)
      (Finset.mem_univ t)
  have hdet : ∀ K : ι → Matrix n n ℝ, (∀ t, (K t).PosDef) → J K ≤ J1 → ∀ t,
      lam t ≤ Real.log (K t).det := by
    intro K hK hle t
    have h1 := hlow K hK
    have h0 : 0 ≤ ∑ t, c t * trace (K t) := Finset.sum_nonneg fun u _ =>
      mul_nonneg (hc u).le (hK u).posSemidef.trace_nonneg
    have h2 : ∑ u ∈ Finset.univ.erase t, N u * Real.log (K u).det
        ≤ ∑ u ∈ Finset.univ.erase t, (R + B u) := by
      refine Finset.sum_le_sum fun u _ => ?_
      have := logdet_le_trace (hN u) (hc u) (hK u)
      have h3 := htr K hK hle u
      simp only [hB]
      linarith
    have h3 := Finset.add_sum_erase Finset.univ (fun u => N u * Real.log (K u).det) (Finset.mem_univ t)
    simp only [hJ] at hle
    rw [hlam, div_le_iff₀ (hN t)]
    linarith
  -- the compact set
  set C : Set (ι → Matrix n n ℝ) := {K | ∀ t, ((K t)ᵀ = K t ∧ ∀ x : n → ℝ, 0 ≤ x ⬝ᵥ (K t *ᵥ x)) ∧
    frobSq (K t) ≤ tau t ^ 2 ∧ Real.exp (lam t) ≤ (K t).det} with hC
  have hCpd : ∀ K ∈ C, ∀ t, (K t).PosDef := by
    intro K hK t
    obtain ⟨⟨h1, h2⟩, _, h3⟩ := hK t
    have hps : (K t).PosSemidef := posSemidef_iff_dotProduct_mulVec.mpr
      ⟨by rw [IsHermitian, conjTranspose_eq_transpose_of_trivial, h1], fun x => by
        rw [star_trivial]; exact h2 x⟩
    exact (hps.posDef_iff_det_ne_zero).mpr (ne_of_gt (lt_of_lt_of_le (Real.exp_pos _) h3))
  have hCmem : ∀ K : ι → Matrix n n ℝ, (∀ t, (K t).PosDef) → J K ≤ J1 → K ∈ C := by
    intro K hK hle t
    refine ⟨⟨(hK t).isSymm', fun x => ?_⟩, ?_, ?_⟩
    · have := (posSemidef_iff_dotProduct_mulVec.mp (hK t).posSemidef).2 x
      rwa [star_trivial] at this
    · refine (frobSq_le_trace (hK t)).trans (pow_le_pow_left₀ (hK t).posSemidef.trace_nonneg ?_ 2)
      rw [htau, le_div_iff₀ (by have := hc t; positivity), mul_comm]
      exact htr K hK hle t
    · rw [← Real.le_log_iff_exp_le (hK t).det_pos]
      exact hdet K hK hle t
  have hproj : ∀ t, Continuous fun K : ι → Matrix n n ℝ => K t := fun t => continuous_apply t
  have hfrob : ∀ t, Continuous fun K : ι → Matrix n n ℝ => frobSq (K t) := fun t => by
    unfold frobSq
    exact continuous_finsetSum _ fun i _ => continuous_finsetSum _ fun j _ =>
      ((hproj t).matrix_elem i j).pow 2
  have hdetc : ∀ t, Continuous fun K : ι → Matrix n n ℝ => (K t).det := fun t => (hproj t).matrix_det
  have hclosed : IsClosed C := by
    rw [hC]
    simp only [Set.ofPred_forall]
    refine isClosed_iInter fun t => ?_
    refine IsClosed.inter (IsClosed.inter ?_ ?_) (IsClosed.inter ?_ ?_)
    · exact isClosed_eq (hproj t).matrix_transpose (hproj t)
    · have e : {K : ι → Matrix n n ℝ | ∀ x : n → ℝ, 0 ≤ x ⬝ᵥ (K t *ᵥ x)} =
          ⋂ x : n → ℝ, {K : ι → Matrix n n ℝ | 0 ≤ x ⬝ᵥ (K t *ᵥ x)} := by
        ext K; simp
      refine Eq.mpr (congrArg IsClosed e) ?_
      refine isClosed_iInter fun x => isClosed_le continuous_const ?_
      exact Continuous.dotProduct continuous_const ((hproj t).matrix_mulVec continuous_const)
    · exact isClosed_le (hfrob t) continuous_const
    · exact isClosed_le continuous_const (hdetc t)
  have hcomp : IsCompact C := by
    have hbox : IsCompact (Set.pi Set.univ fun t : ι => Set.pi Set.univ fun _ : n =>
        Set.pi Set.univ fun _ : n => Set.Icc (-|tau t|) |tau t|) :=
      isCompact_univ_pi fun t => isCompact_univ_pi fun _ => isCompact_univ_pi fun _ => isCompact_Icc
    refine hbox.of_isClosed_subset hclosed fun K hK => ?_
    intro t _ i _ j _
    change K t i j ∈ Set.Icc (-|tau t|) |tau t|
    rw [Set.mem_Icc, ← abs_le]
    have h1 := (entry_le_frob (K t) i j).trans (hK t).2.1
    exact sq_le_sq.mp h1
  have hJc : ContinuousOn J C := by
    refine hP.continuousOn.sub ?_
    refine continuousOn_finsetSum _ fun t _ => ContinuousOn.mul continuousOn_const ?_
    exact ContinuousOn.log (hdetc t).continuousOn fun K hK => (hCpd K hK t).det_pos.ne'
  exact ⟨C, hcomp, hCpd, hCmem, hJc⟩

/-- Existence: `P` continuous with `P(K) ≥ ∑_t c_t tr K_t + b` on PD sequences. -/
theorem exists_min_logdet {N c : ι → ℝ} (hN : ∀ t, 0 < N t) (hc : ∀ t, 0 < c t) {b : ℝ}
    {P : (ι → Matrix n n ℝ) → ℝ} (hP : Continuous P)
    (hlow : ∀ K : ι → Matrix n n ℝ, (∀ t, (K t).PosDef) → b + ∑ t, c t * trace (K t) ≤ P K) :
    ∃ X, IsMin {K : ι → Matrix n n ℝ | ∀ t, (K t).PosDef}
      (fun K => P K - ∑ t, N t * Real.log (K t).det) X := by
  set J : (ι → Matrix n n ℝ) → ℝ := fun K => P K - ∑ t, N t * Real.log (K t).det with hJ
  obtain ⟨C, hcomp, hCpd, hCmem, hJc⟩ := sublevel_compact hN hc hP hlow (J fun _ => 1)
  have h1 : (fun _ => 1) ∈ C := hCmem (fun _ => 1) (fun _ => PosDef.one) le_rfl
  obtain ⟨X, hX, hmin⟩ := hcomp.exists_isMinOn ⟨_, h1⟩ hJc
  refine ⟨X, hCpd X hX, fun K hK => ?_⟩
  rcases le_or_gt (J K) (J fun _ => 1) with h | h
  · exact hmin (hCmem K hK h)
  · exact (hmin h1).trans h.le

end Verif.Lemmas
