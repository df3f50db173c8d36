import Verif.Props.Consistency
import Mathlib.Combinatorics.SimpleGraph.Connectivity.Connected
import Mathlib.Probability.Moments.Variance

/-! Property theorems C213: the groups of dependent variables are recovered. -/

namespace Verif.Props

open Verif.Model Verif.Spec Verif.Lemmas Matrix Filter Topology MeasureTheory ProbabilityTheory

set_option autoImplicit false
set_option linter.unusedSectionVars false

variable {n : Type*} [Fintype n] [DecidableEq n]

/-- The graph of a precision matrix: an edge for each entry that is not zero. -/
def precGraph (X : Matrix n n ℝ) : SimpleGraph n := SimpleGraph.fromRel fun i j => X i j ≠ 0

/-- `X` and `Y` have the same connected components: the same pairs of variables are joined by a path. -/
def SameComponents (X Y : Matrix n n ℝ) : Prop := ∀ i j, (precGraph X).Reachable i j ↔ (precGraph Y).Reachable i j

theorem precGraph_le_reachable {X Y : Matrix n n ℝ} (h : ∀ i j, X i j ≠ 0 → (precGraph Y).Reachable i j) {i j : n}
    (hij : (precGraph X).Reachable i j) : (precGraph Y).Reachable i j := by
  obtain ⟨w⟩ := hij
  induction w with
  | nil => exact SimpleGraph.Reachable.refl _
  | cons hadj _ ih =>
    rw [precGraph, SimpleGraph.fromRel_adj] at hadj
    rcases hadj.2 with h1 | h1
    · exact (h _ _ h1).trans ih
    · exact (h _ _ h1).symm.trans ih

/-- C213 (groups). If every sample covariance is within `alpha` of that of the population, and `alpha` is small enough for
the dependencies of the population, then the optimum has exactly the connected components of the population graph, and all of
its edges. -/
theorem C213_groups {S Sg X : Matrix n n ℝ} {alpha : ℝ} (hS : S.IsSymm) (hSg : Sg.PosDef)
    (hX : UniqueMin (PD n) (glObjective S alpha) X) (hal : 0 ≤ alpha) (hclose : CloseMat alpha S Sg)
    (h1 : trace Sg⁻¹ * (2 * Fintype.card n * alpha) ≤ 1 / 2)
    (h2 : ∀ i j, Sg⁻¹ i j ≠ 0 → 2 * trace Sg⁻¹ ^ 2 * (2 * Fintype.card n * alpha) < |Sg⁻¹ i j|) :
    SameComponents X Sg⁻¹ ∧ ∀ i j, Sg⁻¹ i j ≠ 0 → 0 < Sg⁻¹ i j * X i j := by
  have hd : froNorm (S - Sg) + Fintype.card n * alpha ≤ 2 * Fintype.card n * alpha := by
    have := froNorm_le_of_entries (A := S - Sg) hal fun i j => by rw [Matrix.sub_apply]; exact hclose i j
    linarith
  have ht := hSg.inv.posSemidef.trace_nonneg
  have hs : trace Sg⁻¹ * (froNorm (S - Sg) + Fintype.card n * alpha) ≤ 1 / 2 :=
    (mul_le_mul_of_nonneg_left hd ht).trans h1
  have hedge : ∀ i j, Sg⁻¹ i j ≠ 0 → 0 < Sg⁻¹ i j * X i j := fun i j hij =>
    C211_edges hal hS hSg hX.isMin hs i j ((mul_le_mul_of_nonneg_left hd (by positivity)).trans_lt (h2 i j hij))
  refine ⟨fun i j => ⟨?_, ?_⟩, hedge⟩
  · refine precGraph_le_reachable fun a b hab => ?_
    rw [← SimpleGraph.ConnectedComponent.eq]
    by_contra hne
    refine hab ((C185_groups_iff hal hS hX (precGraph Sg⁻¹).connectedComponentMk).mpr ?_ a b hne)
    intro k l hkl
    have hz : Sg k l = 0 := by
      have h3 := inv_groups (c := (precGraph Sg⁻¹).connectedComponentMk) hSg.inv (fun u v huv => ?_) k l hkl
      · rwa [nonsing_inv_nonsing_inv _ (isUnit_iff_ne_zero.mpr hSg.det_pos.ne')] at h3
      · by_contra h4
        refine huv (SimpleGraph.ConnectedComponent.eq.mpr (SimpleGraph.Adj.reachable ?_))
        rw [precGraph, SimpleGraph.fromRel_adj]
        exact ⟨fun e => huv (by rw [e]), Or.inl h4⟩
    have := hclose k l
    rwa [hz, sub_zero] at this
  · refine precGraph_le_reachable fun a b hab => ?_
    by_cases hne : a = b
    · rw [hne]
    · refine SimpleGraph.Adj.reachable ?_
      rw [precGraph, SimpleGraph.fromRel_adj]
      exact ⟨hne, Or.inl fun h0 => by have := hedge a b hab; rw [h0, mul_zero] at this; exact lt_irrefl _ this⟩

/-! ### Sampled data -/

/-- Chebyshev's inequality for the mean of pairwise independent, identically distributed numbers. -/
theorem mean_chebyshev {Ω : Type*} [MeasurableSpace Ω] {μ : Measure Ω} [IsProbabilityMeasure μ] {Y : ℕ → Ω → ℝ}
    (hind : ∀ i j, i ≠ j → Y i ⟂ᵢ[μ] Y j) (hid : ∀ i, IdentDistrib (Y i) (Y 0) μ μ) (hL2 : MemLp (Y 0) 2 μ) {N : ℕ}
    (hN : 0 < N) {c : ℝ} (hc : 0 < c) :
    μ {ω | c ≤ |(∑ i ∈ Finset.range N, Y i ω) / N - ∫ ω, Y 0 ω ∂μ|} ≤ ENNReal.ofReal (Var[Y 0; μ] / (N * c ^ 2)) := by
  have hN' : (0 : ℝ) < N := by exact_mod_cast hN
  have hmem : ∀ i, MemLp (Y i) 2 μ := fun i => (hid i).memLp_iff.mpr hL2
  set M : Ω → ℝ := fun ω => (N : ℝ)⁻¹ * (∑ i ∈ Finset.range N, Y i) ω with hM
  have hMmem : MemLp M 2 μ := (memLp_finsetSum' _ fun i _ => hmem i).const_mul _
  have hmean : ∫ ω, M ω ∂μ = ∫ ω, Y 0 ω ∂μ := by
    rw [hM]
    simp only [Finset.sum_apply]
    rw [integral_const_mul, integral_finsetSum _ fun i _ => (hmem i).integrable (by norm_num)]
    simp only [(hid _).integral_eq, Finset.sum_const, Finset.card_range, nsmul_eq_mul]
    field_simp
  have hvar : Var[M; μ] = Var[Y 0; μ] / N := by
    rw [hM, variance_const_mul, IndepFun.variance_sum (fun i _ => hmem i) fun i _ j _ hij => hind i j hij]
    simp only [(hid _).variance_eq, Finset.sum_const, Finset.card_range, nsmul_eq_mul]
    field_simp
  have h := meas_ge_le_variance_div_sq hMmem hc
  rw [hmean, hvar, div_div] at h
  refine le_trans (measure_mono fun ω hω => ?_) h
  simp only [Set.mem_ofPred_eq, hM, Finset.sum_apply] at hω ⊢
  rwa [inv_mul_eq_div]

/-- C213 (sampled data). Rows with finite fourth moments: when `alpha` goes to zero but `N alpha²` goes to infinity, the
probability that the optimum for `N` rows has exactly the connected components of the population graph, and all of its edges
with their signs, goes to one. -/
theorem C213_probability [Nonempty n] {Ω : Type*} [MeasurableSpace Ω] {μ : Measure Ω} [IsProbabilityMeasure μ]
    {x : ℕ → Ω → n → ℝ} (h : IidRows μ x) (h4 : ∀ a b, MemLp (fun ω => x 0 ω a * x 0 ω b) 2 μ) (centered : Bool)
    (hpd : (popCov μ (x 0) centered).PosDef) {alpha : ℕ → ℝ} (hal : ∀ N, 0 < alpha N) (hal0 : Tendsto alpha atTop (𝓝 0))
    (hN : Tendsto (fun N : ℕ => N * alpha N ^ 2) atTop atTop) :
    Tendsto (fun N : ℕ => μ {ω | ¬ ∃ X,
      UniqueMin (PD n) (glObjective (empCov (fun i : Fin N => x i ω) Finset.univ centered) (alpha N)) X ∧
        SameComponents X (popCov μ (x 0) centered)⁻¹ ∧
        ∀ i j, (popCov μ (x 0) centered)⁻¹ i j ≠ 0 → 0 < (popCov μ (x 0) centered)⁻¹ i j * X i j}) atTop (𝓝 0) := by
  set Sg := popCov μ (x 0) centered with hSg
  set m : n → ℝ := fun a => ∫ ω, x 0 ω a ∂μ with hm
  set B : ℝ := ∑ a, |m a| with hB
  have hB0 : 0 ≤ B := Finset.sum_nonneg fun _ _ => abs_nonneg _
  have hmB : ∀ a, |m a| ≤ B := fun a =>
    Finset.single_le_sum (f := fun a => |m a|) (fun _ _ => abs_nonneg _) (Finset.mem_univ a)
  set κ : ℝ := 1 / (4 * (1 + B)) with hκ
  have hκ0 : 0 < κ := by positivity
  have hκB : κ * (1 + B) = 1 / 4 := by rw [hκ]; field_simp
  -- the bad events
  set bad1 : ℕ → n → Set Ω := fun N a => {ω | κ * alpha N ≤ |(∑ i ∈ Finset.range N, x i ω a) / N - m a|} with hb1
  set bad2 : ℕ → n → n → Set Ω := fun N a b =>
    {ω | κ * alpha N ≤ |(∑ i ∈ Finset.range N, x i ω a * x i ω b) / N - ∫ ω, x 0 ω a * x 0 ω b ∂μ|} with hb2
  have hp1 : ∀ N a, 0 < N → μ (bad1 N a) ≤ ENNReal.ofReal (Var[fun ω => x 0 ω a; μ] / (N * (κ * alpha N) ^ 2)) := by
    intro N a hN0
    have hmeas : Measurable fun v : n → ℝ => v a := measurable_pi_apply a
    exact mean_chebyshev (Y := fun i ω => x i ω a) (fun i j hij => (h.indep i j hij).comp hmeas hmeas)
      (fun i => (h.ident i).comp hmeas) (h.sq a) hN0 (mul_pos hκ0 (hal N))
  have hp2 : ∀ N a b, 0 < N →
      μ (bad2 N a b) ≤ ENNReal.ofReal (Var[fun ω => x 0 ω a * x 0 ω b; μ] / (N * (κ * alpha N) ^ 2)) := by
    intro N a b hN0
    have hmeas : Measurable fun v : n → ℝ => v a * v b := (measurable_pi_apply a).mul (measurable_pi_apply b)
    exact mean_chebyshev (Y := fun i ω => x i ω a * x i ω b) (fun i j hij => (h.indep i j hij).comp hmeas hmeas)
      (fun i => (h.ident i).comp hmeas) (h4 a b) hN0 (mul_pos hκ0 (hal N))
  have hlim : ∀ v : ℝ, Tendsto (fun N : ℕ => ENNReal.ofReal (v / (N * (κ * alpha N) ^ 2))) atTop (𝓝 0) := by
    intro v
    rw [← ENNReal.ofReal_zero]
    refine ENNReal.tendsto_ofReal ?_
    have h1 : Tendsto (fun N : ℕ => κ ^ 2 * (N * alpha N ^ 2)) atTop atTop := hN.const_mul_atTop (by positivity)
    refine ((tendsto_const_nhds (x := v)).div_atTop h1).congr fun N => ?_
    congr 1
    ring
  have hsum : Tendsto (fun N : ℕ => (∑ a, ENNReal.ofReal (Var[fun ω => x 0 ω a; μ] / (N * (κ * alpha N) ^ 2)))
      + ∑ a, ∑ b, ENNReal.ofReal (Var[fun ω => x 0 ω a * x 0 ω b; μ] / (N * (κ * alpha N) ^ 2))) atTop (𝓝 0) := by
    have h1 := (tendsto_finsetSum Finset.univ fun a _ => hlim (Var[fun ω => x 0 ω a; μ])).add
      (tendsto_finsetSum Finset.univ fun a _ => tendsto_finsetSum Finset.univ fun b _ =>
        hlim (Var[fun ω => x 0 ω a * x 0 ω b; μ]))
    simpa using h1
  -- the conditions on alpha
  have hc0 : ∀ c : ℝ, 0 < c → ∀ d : ℝ, ∀ᶠ N in atTop, d * (2 * Fintype.card n * alpha N) < c := by
    intro c hc d
    have h1 := hal0.const_mul (d * (2 * Fintype.card n))
    rw [mul_zero] at h1
    exact (h1.eventually_lt_const hc).mono fun N hN => by rw [← mul_assoc]; exact hN
  have hedge : ∀ᶠ N in atTop, ∀ i j, Sg⁻¹ i j ≠ 0 →
      2 * trace Sg⁻¹ ^ 2 * (2 * Fintype.card n * alpha N) < |Sg⁻¹ i j| := by
    refine eventually_all.mpr fun i => eventually_all.mpr fun j => ?_
    by_cases h0 : Sg⁻¹ i j = 0
    · exact Eventually.of_forall fun N hN => absurd h0 hN
    · exact (hc0 _ (abs_pos.mpr h0) _).mono fun N hN _ => hN
  refine tendsto_of_tendsto_of_tendsto_of_le_of_le' tendsto_const_nhds hsum (Eventually.of_forall fun _ => bot_le) ?_
  filter_upwards [eventually_gt_atTop 0, hc0 (1 / 2) (by norm_num) (trace Sg⁻¹), hedge,
    hal0.eventually_lt_const (by norm_num : (0 : ℝ) < 4)] with N hN0 hN1 hN2 hN3
  have hsub : {ω | ¬ ∃ X,
      UniqueMin (PD n) (glObjective (empCov (fun i : Fin N => x i ω) Finset.univ centered) (alpha N)) X ∧
        SameComponents X Sg⁻¹ ∧ ∀ i j, Sg⁻¹ i j ≠ 0 → 0 < Sg⁻¹ i j * X i j}
      ⊆ (⋃ a, bad1 N a) ∪ ⋃ a, ⋃ b, bad2 N a b := by
    intro ω hω
    by_contra hgood
    refine hω ?_
    simp only [Set.mem_union, Set.mem_iUnion, not_or, not_exists, hb1, hb2, Set.mem_ofPred_eq, not_le] at hgood
    obtain ⟨g1, g2⟩ := hgood
    set S := empCov (fun i : Fin N => x i ω) Finset.univ centered with hSdef
    have hSs : S.IsSymm := empCov_isSymm _ _ _
    have hα := hal N
    have hclose : CloseMat (alpha N) S Sg := by
      intro a b
      rw [hSdef, empCov_split hN0 (fun i => x i ω) centered a b, hSg]
      have e2 := (g2 a b).le
      have hκ4 : κ ≤ 1 / 4 := by
        rw [← hκB]; nlinarith
      cases hc : centered
      · have e : popCov μ (x 0) false a b = (∫ ω, x 0 ω a * x 0 ω b ∂μ) - m a * m b := by
          simp only [popCov, Matrix.of_apply, Bool.false_eq_true, if_false]
          rw [covariance_eq_sub (h.sq a) (h.sq b)]
          rfl
        rw [e]
        simp only [Bool.false_eq_true, if_false]
        set A := (∑ i ∈ Finset.range N, x i ω a) / N with hA
        set C := (∑ i ∈ Finset.range N, x i ω b) / N with hC
        set P := (∑ i ∈ Finset.range N, x i ω a * x i ω b) / N
        set E := ∫ ω, x 0 ω a * x 0 ω b ∂μ
        have ea := (g1 a).le
        have eb := (g1 b).le
        have e3 : P - A * C - (E - m a * m b) = (P - E) - ((A - m a) * m b + m a * (C - m b) + (A - m a) * (C - m b)) := by ring
        rw [e3]
        have f1 : |(A - m a) * m b| ≤ κ * alpha N * B := by
          rw [abs_mul]; exact mul_le_mul ea (hmB b) (abs_nonneg _) (by positivity)
        have f2 : |m a * (C - m b)| ≤ B * (κ * alpha N) := by
          rw [abs_mul]; exact mul_le_mul (hmB a) eb (abs_nonneg _) hB0
        have f3 : |(A - m a) * (C - m b)| ≤ κ * alpha N * (κ * alpha N) := by
          rw [abs_mul]; exact mul_le_mul ea eb (abs_nonneg _) (by positivity)
        have f4 : κ * alpha N * (κ * alpha N) ≤ κ * alpha N * 1 := by
          refine mul_le_mul_of_nonneg_left ?_ (by positivity)
          nlinarith
        have f5 : κ * alpha N * B + κ * alpha N = alpha N / 4 := by
          have : κ * alpha N * B + κ * alpha N = κ * (1 + B) * alpha N := by ring
          rw [this, hκB]; ring
        have f6 : 0 ≤ κ * alpha N * B := by positivity
        rw [abs_le] at e2 f1 f2 f3 ⊢
        constructor <;> nlinarith [e2.1, e2.2, f1.1, f1.2, f2.1, f2.2, f3.1, f3.2]
      · simp only [if_true, sub_zero, popCov, Matrix.of_apply]
        refine e2.trans ?_
        nlinarith
    have hpdS : S.PosDef := by
      refine posDef_of_close hSs hpd (le_trans (mul_le_mul_of_nonneg_left ?_ hpd.inv.posSemidef.trace_nonneg) hN1.le)
      have h1 := froNorm_le_of_entries (A := S - Sg) hα.le fun i j => by rw [Matrix.sub_apply]; exact hclose i j
      have h2 : (0 : ℝ) ≤ Fintype.card n * alpha N := by positivity
      linarith
    obtain ⟨X, hX⟩ := gl_exists_min hpdS.posSemidef (fun i => hpdS.diag_pos) hα
    have hXu := gl_uniqueMin hSs hα.le hX
    exact ⟨X, hXu, C213_groups hSs hpd hXu hα.le hclose hN1.le hN2⟩
  refine (measure_mono hsub).trans ((measure_union_le _ _).trans (add_le_add ?_ ?_))
  · exact (measure_iUnion_fintype_le _ _).trans (Finset.sum_le_sum fun a _ => hp1 N a hN0)
  · refine (measure_iUnion_fintype_le _ _).trans (Finset.sum_le_sum fun a _ => ?_)
    exact (measure_iUnion_fintype_le _ _).trans (Finset.sum_le_sum fun b _ => hp2 N a b hN0)

/-! ### Cases -/

/-- Two dependent variables: the hypotheses of C213 hold for `alpha = 1/100`. -/
example : ∃ S X : Matrix (Fin 2) (Fin 2) ℝ, S.PosDef ∧ UniqueMin (PD (Fin 2)) (glObjective S (1 / 100)) X ∧
    CloseMat (1 / 100) S S ∧ trace S⁻¹ * (2 * Fintype.card (Fin 2) * (1 / 100)) ≤ 1 / 2 ∧
    ∀ i j, S⁻¹ i j ≠ 0 → 2 * trace S⁻¹ ^ 2 * (2 * Fintype.card (Fin 2) * (1 / 100)) < |S⁻¹ i j| := by
  set S : Matrix (Fin 2) (Fin 2) ℝ := !![2, 1; 1, 2] with hS
  have hinv : S⁻¹ = !![2 / 3, -1 / 3; -1 / 3, 2 / 3] := by
    refine Matrix.inv_eq_right_inv ?_
    ext i j
    fin_cases i <;> fin_cases j <;> simp [hS, Matrix.mul_apply, Fin.sum_univ_two] <;> norm_num
  have hpd : S.PosDef := by
    refine PosDef.of_dotProduct_mulVec_pos (by ext i j; fin_cases i <;> fin_cases j <;> simp [hS]) fun v hv => ?_
    have hx : star v = v := funext fun i => by simp
    have hne : v 0 ≠ 0 ∨ v 1 ≠ 0 := by
      by_contra h
      push Not at h
      exact hv (funext fun i => by fin_cases i <;> simp [h.1, h.2])
    rw [hx]
    simp [hS, dotProduct, mulVec, Fin.sum_univ_two]
    rcases hne with h | h
    · nlinarith [sq_nonneg (v 0 + v 1), sq_nonneg (v 1), pow_pos (abs_pos.mpr h) 2, sq_abs (v 0)]
    · nlinarith [sq_nonneg (v 0 + v 1), sq_nonneg (v 0), pow_pos (abs_pos.mpr h) 2, sq_abs (v 1)]
  obtain ⟨X, hX⟩ := gl_exists_min hpd.posSemidef (fun i => hpd.diag_pos) (by norm_num : (0 : ℝ) < 1 / 100)
  refine ⟨S, X, hpd, gl_uniqueMin hpd.isSymm' (by norm_num) hX, fun i j => by simp, ?_, fun i j _ => ?_⟩
  · rw [hinv]; simp [trace, Fin.sum_univ_two]; norm_num
  · rw [hinv]
    fin_cases i <;> fin_cases j <;> simp [trace, Fin.sum_univ_two, abs_of_pos, abs_div] <;> norm_num

/-- Rows of standard normal entries have finite fourth moments. -/
example : ∃ μ : Measure (ℕ → Fin 3 → ℝ), IsProbabilityMeasure μ ∧ IidRows μ (fun i ω => ω i) ∧
    (popCov μ (fun ω => ω 0) false).PosDef ∧ ∀ a b, MemLp (fun ω : ℕ → Fin 3 → ℝ => ω 0 a * ω 0 b) 2 μ := by
  obtain ⟨μ, h1, h2, h3, h4⟩ := normal_rows (Fin 3)
  exact ⟨μ, h1, h2, by rw [h3]; exact PosDef.one, fun a b => h4 a b⟩

end Verif.Props
