import Verif.Model.GLWeights
import Verif.Lemmas.GLConv
import Verif.Lemmas.Exist
import Verif.Lemmas.Saddle

/-! Lemmas about the graphical lasso with one penalty per entry. -/

namespace Verif.Lemmas

open Verif.Model Verif.Spec Matrix Filter Topology

set_option autoImplicit false
set_option linter.unusedSectionVars false

variable {n : Type*} [Fintype n] [DecidableEq n] {W : Weights n}

theorem _root_.Verif.Spec.GoodWeights.getD_nonneg (h : GoodWeights W) (i j : n) : 0 ≤ (W i j).getD 0 := by
  cases hw : W i j with
  | none => simp
  | some w => simpa using h.nonneg i j w hw

theorem weightPen_smul_add_le (h : GoodWeights W) (X Y : Matrix n n ℝ) {t : ℝ} (h0 : 0 ≤ t) (h1 : t ≤ 1) :
    weightPen W (X + t • (Y - X)) ≤ weightPen W X + t * (weightPen W Y - weightPen W X) := by
  have e : weightPen W X + t * (weightPen W Y - weightPen W X) = (1 - t) * weightPen W X + t * weightPen W Y := by
    ring
  rw [e]
  unfold weightPen
  simp only [Finset.mul_sum, ← Finset.sum_add_distrib]
  refine Finset.sum_le_sum fun i _ => Finset.sum_le_sum fun j _ => ?_
  split
  · simp
  · have hw := h.getD_nonneg i j
    have h2 : |X i j + t * (Y i j - X i j)| ≤ (1 - t) * |X i j| + t * |Y i j| := by
      have h3 : X i j + t * (Y i j - X i j) = (1 - t) * X i j + t * Y i j := by ring
      rw [h3]
      refine (abs_add_le _ _).trans ?_
      rw [abs_mul, abs_mul, abs_of_nonneg h0, abs_of_nonneg (by linarith : 0 ≤ 1 - t)]
    have h4 := mul_le_mul_of_nonneg_left h2 hw
    simp only [Matrix.add_apply, Matrix.smul_apply, Matrix.sub_apply, smul_eq_mul]
    calc _ ≤ _ := h4
      _ = _ := by ring

theorem weightPen_transpose (h : GoodWeights W) (X : Matrix n n ℝ) : weightPen W Xᵀ = weightPen W X := by
  unfold weightPen
  rw [Finset.sum_comm]
  refine Finset.sum_congr rfl fun i _ => Finset.sum_congr rfl fun j _ => ?_
  by_cases hij : i = j
  · simp [hij]
  · rw [if_neg hij, if_neg (Ne.symm hij), h.symm j i]
    rfl

theorem weightPen_symmetrize_le (h : GoodWeights W) (X : Matrix n n ℝ) :
    weightPen W (symmetrize X) ≤ weightPen W X := by
  have h1 := weightPen_smul_add_le h X Xᵀ (t := 1 / 2) (by norm_num) (by norm_num)
  have e : X + (1 / 2 : ℝ) • (Xᵀ - X) = symmetrize X := by
    unfold symmetrize
    ext i j
    simp only [Matrix.add_apply, Matrix.smul_apply, Matrix.sub_apply, smul_eq_mul]
    ring
  rw [e, weightPen_transpose h] at h1
  linarith

theorem _root_.Verif.Spec.OnPattern.add {X Y : Matrix n n ℝ} (hX : OnPattern W X) (hY : OnPattern W Y) : OnPattern W (X + Y) :=
  fun i j hij hw => by rw [Matrix.add_apply, hX i j hij hw, hY i j hij hw, add_zero]

theorem _root_.Verif.Spec.OnPattern.smul {X : Matrix n n ℝ} (c : ℝ) (hX : OnPattern W X) : OnPattern W (c • X) :=
  fun i j hij hw => by rw [Matrix.smul_apply, hX i j hij hw, smul_zero]

theorem _root_.Verif.Spec.OnPattern.sub {X Y : Matrix n n ℝ} (hX : OnPattern W X) (hY : OnPattern W Y) : OnPattern W (X - Y) :=
  fun i j hij hw => by rw [Matrix.sub_apply, hX i j hij hw, hY i j hij hw, sub_zero]

theorem _root_.Verif.Spec.OnPattern.transpose (h : GoodWeights W) {X : Matrix n n ℝ} (hX : OnPattern W X) : OnPattern W Xᵀ :=
  fun i j hij hw => by rw [Matrix.transpose_apply]; exact hX j i hij.symm (by rw [h.symm j i]; exact hw)

theorem _root_.Verif.Spec.OnPattern.symmetrize (h : GoodWeights W) {X : Matrix n n ℝ} (hX : OnPattern W X) :
    OnPattern W (Model.symmetrize X) := by
  unfold Model.symmetrize
  exact (hX.add (hX.transpose h)).smul _

theorem onPattern_one : OnPattern W (1 : Matrix n n ℝ) := fun _ _ hij _ => Matrix.one_apply_ne hij

/-- `U` is a subgradient at `Z` of the penalty divided by `r`, on the pattern. -/
def SubPairW (W : Weights n) (r : ℝ) (Z U : Matrix n n ℝ) : Prop :=
  OnPattern W Z ∧ ∀ X, OnPattern W X → weightPen W Z + r * frobInner U (X - Z) ≤ weightPen W X

theorem SubPairW.mono {r : ℝ} (hr : 0 < r) {Z U Z' U' : Matrix n n ℝ} (h : SubPairW W r Z U)
    (h' : SubPairW W r Z' U') : 0 ≤ frobInner (U - U') (Z - Z') := by
  have h1 := h.2 Z' h'.1
  have h2 := h'.2 Z h.1
  rw [frobInner_sub_left]
  rw [← neg_sub Z Z', frobInner_neg_right] at h1
  have : 0 ≤ r * (frobInner U (Z - Z') - frobInner U' (Z - Z')) := by linarith
  exact nonneg_of_mul_nonneg_right this hr

theorem glwZ_apply (W : Weights n) (rho : ℝ) (K U : Matrix n n ℝ) (i j : n) :
    glwZ W rho K U i j = if i = j then (K + U) i j else softWeight ((K + U) i j) (W i j) rho := by
  unfold glwZ fillDiagonal getDiagonal
  by_cases h : i = j
  · subst h; simp
  · simp [h]

theorem glwZ_onPattern (W : Weights n) (rho : ℝ) (K U : Matrix n n ℝ) : OnPattern W (glwZ W rho K U) := by
  intro i j hij hw
  rw [glwZ_apply, if_neg hij, hw]
  rfl

theorem glwZ_subgrad (h : GoodWeights W) {rho : ℝ} (hr : 0 < rho) (K U : Matrix n n ℝ) :
    SubPairW W rho (glwZ W rho K U) (K + U - glwZ W rho K U) := by
  refine ⟨glwZ_onPattern W rho K U, fun X hX => ?_⟩
  unfold weightPen frobInner
  simp only [Finset.mul_sum, ← Finset.sum_add_distrib]
  refine Finset.sum_le_sum fun i _ => Finset.sum_le_sum fun j _ => ?_
  simp only [Matrix.sub_apply]
  rw [glwZ_apply]
  by_cases hij : i = j
  · simp [hij]
  · simp only [if_neg hij]
    cases hw : W i j with
    | none => simp [softWeight, hX i j hij hw]
    | some w =>
      have hw0 := h.nonneg i j w hw
      have := softScalar_subgrad (lam := w / rho) (by positivity) ((K + U) i j) (X i j)
      have h2 := mul_le_mul_of_nonneg_left this hr.le
      simp only [softWeight, Option.getD_some]
      have e : ∀ c : ℝ, rho * (w / rho * c) = w * c := fun c => by field_simp
      rw [mul_add, e, e] at h2
      exact h2

/-- Necessary optimality condition. -/
theorem weight_subgrad (h : GoodWeights W) {S K : Matrix n n ℝ} (hS : S.IsSymm)
    (hmin : IsMin (WeightDom W) (weightObjective S W) K) (X : Matrix n n ℝ) (hX : OnPattern W X) :
    weightPen W K + frobInner (K⁻¹ - S) (X - K) ≤ weightPen W X := by
  have hK : K.PosDef := hmin.1.1
  have key : ∀ X : Matrix n n ℝ, X.IsSymm → OnPattern W X →
      weightPen W K + frobInner (K⁻¹ - S) (X - K) ≤ weightPen W X := by
    intro X hXs hXp
    set H := X - K with hH
    have hHs : H.IsSymm := by rw [hH, IsSymm, transpose_sub, hXs.eq, hK.isSymm'.eq]
    have hHp : OnPattern W H := hXp.sub hmin.1.2
    have hcontM : Continuous fun t : ℝ => K + t • H := by fun_prop
    have hlim : Tendsto (fun t : ℝ => frobInner (K + t • H)⁻¹ H) (𝓝[>] 0) (𝓝 (frobInner K⁻¹ H)) := by
      have h0 : ContinuousAt (fun t : ℝ => (K + t • H)⁻¹) 0 := by
        have hdet : (K + (0 : ℝ) • H).det ≠ 0 := by simpa using hK.det_pos.ne'
        have h1 : ContinuousAt (Inv.inv : Matrix n n ℝ → Matrix n n ℝ) (K + (0 : ℝ) • H) := by
          apply continuousAt_matrix_inv
          rw [Ring.inverse_eq_inv']
          exact continuousAt_inv₀ hdet
        exact ContinuousAt.comp (f := fun t : ℝ => K + t • H) h1 hcontM.continuousAt
      have h2 : ContinuousAt (fun t : ℝ => frobInner (K + t • H)⁻¹ H) 0 := by
        unfold frobInner
        refine tendsto_finsetSum _ fun i _ => tendsto_finsetSum _ fun j _ => ?_
        refine Tendsto.mul_const _ ?_
        have h3 : ContinuousAt (fun M : Matrix n n ℝ => M i j) ((fun t : ℝ => (K + t • H)⁻¹) 0) :=
          (continuous_id.matrix_elem i j).continuousAt
        exact ContinuousAt.comp (f := fun t : ℝ => (K + t • H)⁻¹) h3 h0
      have h4 := h2.tendsto
      simp only [zero_smul, add_zero] at h4
      exact h4.mono_left nhdsWithin_le_nhds
    have hpd : ∀ᶠ t : ℝ in 𝓝[>] 0, (K + t • H).PosDef := posDef_add_smul hK hHs
    have hle1 : ∀ᶠ t : ℝ in 𝓝[>] (0 : ℝ), t ≤ 1 :=
      (eventually_le_nhds (show (0 : ℝ) < 1 by norm_num)).filter_mono nhdsWithin_le_nhds
    have hineq : ∀ᶠ t : ℝ in 𝓝[>] 0,
        frobInner (K + t • H)⁻¹ H ≤ frobInner S H + (weightPen W X - weightPen W K) := by
      filter_upwards [hpd, hle1, self_mem_nhdsWithin] with t ht ht1 ht0
      have ht0' : 0 < t := ht0
      have h1 := hmin.2 (K + t • H) ⟨ht, hmin.1.2.add (hHp.smul t)⟩
      have h2 := log_det_le hK ht
      have h3 := weightPen_smul_add_le h K X ht0'.le ht1
      unfold weightObjective at h1
      rw [← frobInner_eq_trace_of_symm hS, ← frobInner_eq_trace_of_symm hS, frobInner_add_right,
        frobInner_smul_right] at h1
      have e : K - (K + t • H) = (-t) • H := by rw [neg_smul]; abel
      rw [e, frobInner_smul_right] at h2
      have h5 : t * frobInner (K + t • H)⁻¹ H ≤
          t * (frobInner S H + (weightPen W X - weightPen W K)) := by
        rw [hH] at h1 h2 ⊢
        linarith
      exact le_of_mul_le_mul_left h5 ht0'
    have hfin := le_of_tendsto hlim hineq
    rw [frobInner_sub_left]
    linarith
  have h1 := key (symmetrize X) (symmetrize_isSymm X) (hX.symmetrize h)
  have h2 := weightPen_symmetrize_le h X
  have hGs : (K⁻¹ - S).IsSymm := by rw [IsSymm, transpose_sub, hK.inv.isSymm'.eq, hS.eq]
  have h3 : frobInner (K⁻¹ - S) (symmetrize X - K) = frobInner (K⁻¹ - S) (X - K) := by
    rw [frobInner_sub_right, frobInner_sub_right, frobInner_comm _ (symmetrize X),
      frobInner_symmetrize hGs, frobInner_comm X]
  rw [h3] at h1
  linarith

theorem weight_uniqueMin (h : GoodWeights W) {S K : Matrix n n ℝ} (hS : S.IsSymm)
    (hmin : IsMin (WeightDom W) (weightObjective S W) K) : UniqueMin (WeightDom W) (weightObjective S W) K := by
  refine ⟨hmin.1, fun X hX hne => ?_⟩
  have h1 := log_det_lt hX.1 hmin.1.1 hne
  have h2 := weight_subgrad h hS hmin X hX.2
  unfold weightObjective
  rw [← frobInner_eq_trace_of_symm hS, ← frobInner_eq_trace_of_symm hS]
  rw [frobInner_sub_left, frobInner_sub_right S] at h2
  linarith

theorem weightPen_nonneg (h : GoodWeights W) (K : Matrix n n ℝ) : 0 ≤ weightPen W K :=
  Finset.sum_nonneg fun i _ => Finset.sum_nonneg fun j _ => by
    split
    · exact le_rfl
    · exact mul_nonneg (h.getD_nonneg i j) (abs_nonneg _)

theorem weightPen_continuous : Continuous (weightPen W) := by
  unfold weightPen
  refine continuous_finsetSum _ fun i _ => continuous_finsetSum _ fun j _ => ?_
  split
  · exact continuous_const
  · exact continuous_const.mul (continuous_id.matrix_elem i j).abs

/-- `tr(S K) ≥ c tr K` for positive definite `S`, with `c > 0`. -/
theorem exists_trace_lower {S : Matrix n n ℝ} (hS : S.PosDef) :
    ∃ c : ℝ, 0 < c ∧ ∀ K : Matrix n n ℝ, K.PosDef → c * trace K ≤ trace (S * K) := by
  have h1 := posDef_add_smul hS (H := -(1 : Matrix n n ℝ)) (by simp [IsSymm])
  obtain ⟨c, hc, hc0⟩ := (h1.and self_mem_nhdsWithin).exists
  have hc0' : 0 < c := hc0
  refine ⟨c, hc0', fun K hK => ?_⟩
  have h2 := trace_mul_nonneg' hc.posSemidef hK
  rw [Matrix.add_mul, smul_neg, Matrix.neg_mul, smul_mul, Matrix.one_mul, trace_add, trace_neg, trace_smul,
    smul_eq_mul] at h2
  linarith

theorem weight_exists_min (h : GoodWeights W) {S : Matrix n n ℝ} (hS : S.PosDef) :
    ∃ X, IsMin (WeightDom W) (weightObjective S W) X := by
  obtain ⟨c, hc, hlow⟩ := exists_trace_lower hS
  have hproj : Continuous fun K : Fin 1 → Matrix n n ℝ => K 0 := continuous_apply 0
  set P : (Fin 1 → Matrix n n ℝ) → ℝ := fun K => trace (S * K 0) + weightPen W (K 0) with hP
  have hPc : Continuous P := ((continuous_const.matrix_mul hproj).matrix_trace).add (weightPen_continuous.comp hproj)
  set J : (Fin 1 → Matrix n n ℝ) → ℝ := fun K => P K - ∑ t, (1 : ℝ) * Real.log (K t).det with hJ
  have hJe : ∀ K : Matrix n n ℝ, J (fun _ => K) = weightObjective S W K := fun K => by
    simp only [hJ, hP, Fin.sum_univ_one, weightObjective, one_mul]; ring
  obtain ⟨C, hcomp, hCpd, hCmem, hJc⟩ := sublevel_compact (ι := Fin 1) (n := n) (N := fun _ => 1) (c := fun _ => c)
    (b := 0) (P := P) (fun _ => one_pos) (fun _ => hc) hPc
    (by
      intro K hK
      rw [Fin.sum_univ_one, zero_add]
      have h1 := hlow (K 0) (hK 0)
      have h2 := weightPen_nonneg h (K 0)
      simp only [hP]
      linarith) (J fun _ => 1)
  have hclosed : IsClosed {K : Fin 1 → Matrix n n ℝ | OnPattern W (K 0)} := by
    have e : {K : Fin 1 → Matrix n n ℝ | OnPattern W (K 0)} =
        ⋂ i, ⋂ j, ⋂ (_ : i ≠ j), ⋂ (_ : W i j = none), {K : Fin 1 → Matrix n n ℝ | K 0 i j = 0} := by
      ext K; simp [OnPattern]
    rw [e]
    exact isClosed_iInter fun i => isClosed_iInter fun j => isClosed_iInter fun _ => isClosed_iInter fun _ =>
      isClosed_eq (hproj.matrix_elem i j) continuous_const
  have h1 : (fun _ => 1 : Fin 1 → Matrix n n ℝ) ∈ C := hCmem (fun _ => 1) (fun _ => PosDef.one) le_rfl
  obtain ⟨X, hX, hmin⟩ := (hcomp.inter_right hclosed).exists_isMinOn ⟨_, h1, onPattern_one⟩
    (hJc.mono Set.inter_subset_left)
  have hXe : X = fun _ => X 0 := by funext t; rw [Subsingleton.elim t 0]
  refine ⟨X 0, ⟨hCpd X hX.1 0, hX.2⟩, fun K hK => ?_⟩
  rw [← hJe, ← hJe, ← hXe]
  rcases le_or_gt (J fun _ => K) (J fun _ => 1) with hle | hgt
  · exact hmin ⟨hCmem (fun _ => K) (fun _ => hK.1) hle, hK.2⟩
  · exact le_trans (hmin ⟨h1, onPattern_one⟩) hgt.le

end Verif.Lemmas
