import Verif.Model.Blankets
import Verif.Spec.LassoFit
import Verif.Props.GWishartGraphs
import Mathlib.MeasureTheory.Measure.Real

/-! Property theorems C214: how likely the resampled graphs of the Bayesian graphical lasso are. -/

namespace Verif.Props

open Verif.Model Verif.Spec Matrix MeasureTheory

set_option autoImplicit false
set_option linter.unusedSectionVars false

variable {n p m : ℕ}

/-! ### The scores -/

theorem lasso_residual_le {C : Type*} [Fintype C] (hn : 0 < n) {A : Matrix (Fin n) C ℝ} {y : Fin n → ℝ} {alpha : ℝ}
    (hal : 0 ≤ alpha) {d w : C → ℝ} {b : ℝ} (hd : ∀ c, 0 ≤ d c) (h : IsLassoFit A y alpha d w b) (b' : ℝ) :
    ∑ i, (y i - linPredict A w b i) ^ 2 ≤ ∑ i, (y i - b') ^ 2 := by
  have hn' : (0 : ℝ) < 2 * n := by positivity
  have h1 := h 0 b'
  simp only [lassoLoss, Pi.zero_apply, mul_zero, Finset.sum_const_zero, zero_add, abs_zero, add_zero] at h1
  have h2 : 0 ≤ alpha * ∑ c, d c * |w c| :=
    mul_nonneg hal (Finset.sum_nonneg fun c _ => mul_nonneg (hd c) (abs_nonneg _))
  have h3 : (∑ i, (y i - ((∑ c, A i c * w c) + b)) ^ 2) / (2 * n) ≤ (∑ i, (y i - b') ^ 2) / (2 * n) := by linarith
  exact (div_le_div_iff_of_pos_right hn').mp h3

theorem r2_mem {C : Type*} [Fintype C] (hn : 0 < n) {A : Matrix (Fin n) C ℝ} {y : Fin n → ℝ} {alpha : ℝ}
    (hal : 0 ≤ alpha) {d w : C → ℝ} {b : ℝ} (hd : ∀ c, 0 ≤ d c) (h : IsLassoFit A y alpha d w b) :
    0 ≤ r2Score y (linPredict A w b) ∧ r2Score y (linPredict A w b) ≤ 1 := by
  have h1 := lasso_residual_le hn hal hd h ((∑ k, y k) / n)
  have h0 : 0 ≤ ∑ i, (y i - linPredict A w b i) ^ 2 := Finset.sum_nonneg fun _ _ => sq_nonneg _
  simp only [r2Score]
  split_ifs with ht hr
  · norm_num
  · norm_num
  · have hpos : 0 < ∑ i, (y i - (∑ k, y k) / n) ^ 2 :=
      lt_of_le_of_ne (Finset.sum_nonneg fun _ _ => sq_nonneg _) (Ne.symm ht)
    exact ⟨sub_nonneg.mpr ((div_le_one hpos).mpr h1), sub_le_self _ (div_nonneg h0 hpos.le)⟩

/-- C214 (range of the scores). The score of a blanket lies between zero and the number of penalties it sums over,
whatever the data. -/
theorem C214_score_range {q : ℕ} (hn : 0 < n) (X : Matrix (Fin n) (Fin p) ℝ) (i : Fin p) (mb : Fin p → Bool)
    {alphas : Fin q → ℝ} (hal : ∀ a, 0 ≤ alphas a) {d : BlanketCol mb → ℝ} (hd : ∀ c, 0 ≤ d c)
    {w : Fin q → BlanketCol mb → ℝ} {b : Fin q → ℝ}
    (h : ∀ a, IsLassoFit (blanketDesign X mb) (fun r => X r i) (alphas a) d (w a) (b a)) :
    0 ≤ blanketScore X i mb w b ∧ blanketScore X i mb w b ≤ q := by
  refine ⟨Finset.sum_nonneg fun a _ => (r2_mem hn (hal a) hd (h a)).1, ?_⟩
  refine (Finset.sum_le_sum fun a _ => (r2_mem hn (hal a) hd (h a)).2).trans ?_
  simp

/-- C214 (empty blanket). For a variable that is not constant the empty blanket scores zero: no blanket scores less. -/
theorem C214_empty_score {q : ℕ} (hn : 0 < n) (X : Matrix (Fin n) (Fin p) ℝ) (i : Fin p) {r r' : Fin n}
    (hne : X r i ≠ X r' i) {alphas : Fin q → ℝ} (hal : ∀ a, 0 ≤ alphas a) {d : BlanketCol (fun _ : Fin p => false) → ℝ}
    (hd : ∀ c, 0 ≤ d c) {w : Fin q → BlanketCol (fun _ : Fin p => false) → ℝ} {b : Fin q → ℝ}
    (h : ∀ a, IsLassoFit (blanketDesign X fun _ => false) (fun r => X r i) (alphas a) d (w a) (b a)) :
    blanketScore X i (fun _ => false) w b = 0 := by
  refine Finset.sum_eq_zero fun a _ => ?_
  have hpred : ∀ k, linPredict (blanketDesign X fun _ => false) (w a) (b a) k = b a := by
    intro k
    have : (blanketDesign X (fun _ => false) *ᵥ w a) k = 0 := by
      rw [Matrix.mulVec, dotProduct]
      refine Finset.sum_eq_zero fun c _ => ?_
      rcases c with c | c
      · exact absurd c.2 (by simp)
      · simp [blanketDesign]
    rw [linPredict, this, zero_add]
  have h1 := lasso_residual_le hn (hal a) hd (h a) ((∑ k, X k i) / n)
  have hn' : (n : ℝ) ≠ 0 := by positivity
  -- the mean is the best constant
  have h2 : ∑ k, (X k i - (∑ l, X l i) / n) ^ 2 ≤ ∑ k, (X k i - b a) ^ 2 := by
    obtain ⟨M, hM⟩ : ∃ M, M = (∑ l, X l i) / n := ⟨_, rfl⟩
    have hsum : ∑ l, X l i = n * M := by rw [hM]; field_simp
    rw [← hM]
    have e : ∑ k, (X k i - b a) ^ 2 = ∑ k, (X k i - M) ^ 2 + n * (M - b a) ^ 2 := by
      have e1 : ∀ k : Fin n, (X k i - b a) ^ 2 = (X k i - M) ^ 2 +
          (2 * (M - b a) * X k i - 2 * (M - b a) * M + (M - b a) ^ 2) := fun k => by ring
      rw [Finset.sum_congr rfl fun k _ => e1 k, Finset.sum_add_distrib, Finset.sum_add_distrib, Finset.sum_sub_distrib,
        ← Finset.mul_sum, hsum]
      simp only [Finset.sum_const, Finset.card_univ, Fintype.card_fin, nsmul_eq_mul]
      ring
    rw [e]
    exact le_add_of_nonneg_right (by positivity)
  simp only [hpred] at h1
  have htot : (∑ k, (X k i - (∑ l, X l i) / n) ^ 2) ≠ 0 := by
    intro h0
    have hz := (Finset.sum_eq_zero_iff_of_nonneg fun k _ => sq_nonneg (X k i - (∑ l, X l i) / n)).mp h0
    have e1 := pow_eq_zero_iff (two_ne_zero) |>.mp (hz r (Finset.mem_univ _))
    have e2 := pow_eq_zero_iff (two_ne_zero) |>.mp (hz r' (Finset.mem_univ _))
    exact hne (by linarith)
  simp only [r2Score, hpred, htot, if_false]
  rw [le_antisymm h1 h2, div_self htot, sub_self]

/-- C214 (no concentration). Scores between zero and `q` make no blanket more than `e^q` times as likely as another: with
`m` blankets each is drawn with probability at least `e^-q / m` and at most `e^q / m`, however much data there are. -/
theorem C214_no_concentration {q : ℝ} [NeZero m] {s : Fin m → ℝ} (h : ∀ k, 0 ≤ s k ∧ s k ≤ q) (k l : Fin m) :
    normalizedScores s k ≤ Real.exp q * normalizedScores s l ∧ Real.exp (-q) / m ≤ normalizedScores s k ∧
      normalizedScores s k ≤ Real.exp q / m := by
  have hm : (0 : ℝ) < m := by exact_mod_cast Nat.pos_of_ne_zero (NeZero.ne m)
  have hpos : 0 < ∑ l, Real.exp (s l) := Finset.sum_pos (fun l _ => Real.exp_pos _) ⟨0, Finset.mem_univ _⟩
  have hlow : (m : ℝ) ≤ ∑ l, Real.exp (s l) := by
    have := Finset.sum_le_sum fun l (_ : l ∈ (Finset.univ : Finset (Fin m))) => Real.one_le_exp (h l).1
    simpa using this
  have hup : ∑ l, Real.exp (s l) ≤ m * Real.exp q := by
    have := Finset.sum_le_sum fun l (_ : l ∈ (Finset.univ : Finset (Fin m))) => Real.exp_le_exp.mpr (h l).2
    simpa using this
  refine ⟨?_, ?_, ?_⟩
  · rw [normalizedScores, normalizedScores, ← mul_div_assoc, div_le_div_iff_of_pos_right hpos, ← Real.exp_add]
    exact Real.exp_le_exp.mpr (by linarith [(h k).2, (h l).1])
  · rw [normalizedScores, div_le_div_iff₀ hm hpos]
    calc Real.exp (-q) * ∑ l, Real.exp (s l) ≤ Real.exp (-q) * (m * Real.exp q) :=
          mul_le_mul_of_nonneg_left hup (Real.exp_pos _).le
      _ = m * (Real.exp (-q) * Real.exp q) := by ring
      _ = m := by rw [← Real.exp_add]; simp
      _ ≤ Real.exp (s k) * m := le_mul_of_one_le_left hm.le (Real.one_le_exp (h k).1)
  · rw [normalizedScores]
    exact div_le_div₀ (Real.exp_pos _).le (Real.exp_le_exp.mpr (h k).2) hm hlow

/-- C214 (the probabilities used). With the scores the regressions give, no blanket of a node is more than `e^q` times as
likely as another one, `q` the number of penalties (three in `bayesian_graphical_lasso`). -/
theorem C214_sampling_probabilities {q : ℕ} [NeZero m] (hn : 0 < n) (X : Matrix (Fin n) (Fin p) ℝ) (i : Fin p)
    (bl : Fin m → Fin p → Bool) {alphas : Fin q → ℝ} (hal : ∀ a, 0 ≤ alphas a) {d : ∀ k, BlanketCol (bl k) → ℝ}
    (hd : ∀ k c, 0 ≤ d k c) {w : ∀ k, Fin q → BlanketCol (bl k) → ℝ} {b : Fin m → Fin q → ℝ}
    (h : ∀ k a, IsLassoFit (blanketDesign X (bl k)) (fun r => X r i) (alphas a) (d k) (w k a) (b k a)) (k l : Fin m) :
    normalizedScores (fun k => blanketScore X i (bl k) (w k) (b k)) k ≤
        Real.exp q * normalizedScores (fun k => blanketScore X i (bl k) (w k) (b k)) l ∧
      Real.exp (-q) / m ≤ normalizedScores (fun k => blanketScore X i (bl k) (w k) (b k)) k :=
  have h' := C214_no_concentration (fun k => C214_score_range hn X i (bl k) hal (hd k) (h k)) k l
  ⟨h'.1, h'.2.1⟩

/-! ### The draws -/

theorem choiceLaw_isProb {pr : Fin m → ℝ} (h0 : ∀ k, 0 ≤ pr k) (h1 : ∑ k, pr k = 1) :
    IsProbabilityMeasure (choiceLaw pr) := by
  refine ⟨?_⟩
  simp only [choiceLaw, Measure.coe_finsetSum, Finset.sum_apply, Measure.smul_apply, measure_univ, smul_eq_mul, mul_one]
  rw [← ENNReal.ofReal_sum_of_nonneg fun k _ => h0 k, h1, ENNReal.ofReal_one]

theorem choiceLaw_apply {pr : Fin m → ℝ} (h0 : ∀ k, 0 ≤ pr k) (f : Fin m → Bool) :
    choiceLaw pr {k | f k = true} = ENNReal.ofReal (∑ k with f k = true, pr k) := by
  simp only [choiceLaw, Measure.coe_finsetSum, Finset.sum_apply, Measure.smul_apply, smul_eq_mul]
  rw [ENNReal.ofReal_sum_of_nonneg fun k _ => h0 k, Finset.sum_filter]
  refine Finset.sum_congr rfl fun k _ => ?_
  rw [Measure.dirac_apply' _ (Set.toFinite _).measurableSet]
  by_cases hk : f k = true <;> simp [Set.indicator, hk]

theorem resampleLaw_isProb [NeZero m] (s : Fin p → Fin m → ℝ) : IsProbabilityMeasure (resampleLaw s) := by
  have : ∀ i, IsProbabilityMeasure (choiceLaw (normalizedScores (s i))) := fun i =>
    choiceLaw_isProb (fun k => ((C146_scores (s i)).1 k).le) (C146_scores (s i)).2.1
  rw [resampleLaw]; infer_instance

/-- The probability that node `j` is in the blanket drawn for node `i`: the total weight of the blankets containing it. -/
noncomputable def memberProb (s : Fin p → Fin m → ℝ) (bl : Fin p → Fin m → Fin p → Bool) (i j : Fin p) : ℝ :=
  ∑ k with bl i k j = true, normalizedScores (s i) k

theorem memberProb_mem [NeZero m] (s : Fin p → Fin m → ℝ) (bl : Fin p → Fin m → Fin p → Bool) (i j : Fin p) :
    0 ≤ memberProb s bl i j ∧ memberProb s bl i j ≤ 1 := by
  obtain ⟨h0, h1, -⟩ := C146_scores (s i)
  refine ⟨Finset.sum_nonneg fun k _ => (h0 k).le, ?_⟩
  rw [← h1]
  exact Finset.sum_le_sum_of_subset_of_nonneg (Finset.filter_subset _ _) fun k _ _ => (h0 k).le

/-- C214 (edge probability). A resampled graph joins two nodes with the product of the probabilities that each is in the
blanket drawn for the other. -/
theorem C214_edge_probability [NeZero m] (s : Fin p → Fin m → ℝ) (bl : Fin p → Fin m → Fin p → Bool) {i j : Fin p}
    (hij : i ≠ j) :
    (resampleLaw s).real {idx | resampledGraph bl idx i j = true} = memberProb s bl i j * memberProb s bl j i := by
  have : ∀ i, IsProbabilityMeasure (choiceLaw (normalizedScores (s i))) := fun i =>
    choiceLaw_isProb (fun k => ((C146_scores (s i)).1 k).le) (C146_scores (s i)).2.1
  have hset : {idx : Fin p → Fin m | resampledGraph bl idx i j = true} = Set.pi Set.univ fun l =>
      if l = i then {k | bl i k j = true} else if l = j then {k | bl j k i = true} else Set.univ := by
    ext idx
    simp only [Set.mem_ofPred_eq, resampledGraph, Bool.and_eq_true, Set.mem_pi, Set.mem_univ, true_implies]
    constructor
    · rintro ⟨h1, h2⟩ l
      by_cases hl : l = i
      · subst hl; simpa using h1
      · by_cases hl2 : l = j
        · subst hl2; simpa [hl] using h2
        · simp [hl, hl2]
    · intro h
      have h1 := h i
      have h2 := h j
      simp only [if_true, hij.symm, if_false] at h1 h2
      exact ⟨h1, h2⟩
  rw [Measure.real, hset, resampleLaw, Measure.pi_pi]
  rw [← Finset.mul_prod_erase _ _ (Finset.mem_univ i),
    ← Finset.mul_prod_erase _ _ (Finset.mem_erase.mpr ⟨hij.symm, Finset.mem_univ j⟩), Finset.prod_eq_one, mul_one]
  · simp only [if_true, hij.symm, if_false]
    rw [choiceLaw_apply (fun k => ((C146_scores (s i)).1 k).le), choiceLaw_apply (fun k => ((C146_scores (s j)).1 k).le),
      ENNReal.toReal_mul]
    exact congrArg₂ (· * ·) (ENNReal.toReal_ofReal (memberProb_mem s bl i j).1)
      (ENNReal.toReal_ofReal (memberProb_mem s bl j i).1)
  · intro l hl
    rw [Finset.mem_erase, Finset.mem_erase] at hl
    rw [if_neg hl.2.1, if_neg hl.1, measure_univ]

/-- C214 (all resamples). Among `R` resampled graphs at least one joins the two nodes with probability `1 - (1 - q)^R`. -/
theorem C214_some_graph [NeZero m] (R : ℕ) (s : Fin p → Fin m → ℝ) (bl : Fin p → Fin m → Fin p → Bool) {i j : Fin p}
    (hij : i ≠ j) :
    (resamplesLaw R s).real {idx | ∃ r, resampledGraph bl (idx r) i j = true} =
      1 - (1 - memberProb s bl i j * memberProb s bl j i) ^ R := by
  have := resampleLaw_isProb s
  have : IsProbabilityMeasure (resamplesLaw R s) := by rw [resamplesLaw]; infer_instance
  have hset : {idx : Fin R → Fin p → Fin m | ∃ r, resampledGraph bl (idx r) i j = true} =
      (Set.pi Set.univ fun _ => {idx | resampledGraph bl idx i j = true}ᶜ)ᶜ := by
    ext idx
    simp [Set.mem_pi]
  rw [hset, probReal_compl_eq_one_sub (Set.toFinite _).measurableSet, Measure.real, resamplesLaw, Measure.pi_pi,
    Finset.prod_const, Finset.card_univ, Fintype.card_fin, ENNReal.toReal_pow]
  rw [← C214_edge_probability s bl hij, ← probReal_compl_eq_one_sub (Set.toFinite _).measurableSet, Measure.real]

/-- C214 (edges survive). An edge that each end has in at least one of its `m` blankets is in a resampled graph with
probability at least `(e^-q / m)²`, and an edge that one end has in only one blanket with probability at most `e^q / m`. -/
theorem C214_edge_bounds {q : ℝ} [NeZero m] {s : Fin p → Fin m → ℝ} (h : ∀ i k, 0 ≤ s i k ∧ s i k ≤ q)
    (bl : Fin p → Fin m → Fin p → Bool) {i j : Fin p} (hij : i ≠ j) {k l : Fin m} (hk : bl i k j = true)
    (hl : bl j l i = true) :
    (Real.exp (-q) / m) ^ 2 ≤ (resampleLaw s).real {idx | resampledGraph bl idx i j = true} ∧
      ((∀ k', bl i k' j = true → k' = k) →
        (resampleLaw s).real {idx | resampledGraph bl idx i j = true} ≤ Real.exp q / m) := by
  rw [C214_edge_probability s bl hij]
  have hlow : ∀ {a b : Fin p} {k : Fin m}, bl a k b = true → Real.exp (-q) / m ≤ memberProb s bl a b := by
    intro a b k hk
    refine ((C214_no_concentration (h a) k k).2.1).trans ?_
    exact Finset.single_le_sum (f := fun k => normalizedScores (s a) k) (fun k _ => ((C146_scores (s a)).1 k).le)
      (Finset.mem_filter.mpr ⟨Finset.mem_univ k, hk⟩)
  refine ⟨?_, fun hu => ?_⟩
  · rw [sq]
    exact mul_le_mul (hlow hk) (hlow hl) (by positivity) (memberProb_mem s bl i j).1
  · have e : memberProb s bl i j = normalizedScores (s i) k := by
      rw [memberProb, Finset.sum_eq_single_of_mem k (Finset.mem_filter.mpr ⟨Finset.mem_univ k, hk⟩)]
      intro k' hk' hne
      exact absurd (hu k' (Finset.mem_filter.mp hk').2) hne
    calc memberProb s bl i j * memberProb s bl j i ≤ memberProb s bl i j * 1 :=
          mul_le_mul_of_nonneg_left (memberProb_mem s bl j i).2 (memberProb_mem s bl i j).1
      _ ≤ Real.exp q / m := by rw [mul_one, e]; exact (C214_no_concentration (h i) k k).2.2

/-- Non-vacuity for C214: the fit on two rows `0, 2` without any column: the mean, for every penalty. -/
example : IsLassoFit (blanketDesign (fun r _ => 2 * (r : ℝ) : Matrix (Fin 2) (Fin 1) ℝ) fun _ => false)
    (fun r => 2 * (r : ℝ)) (1 / 2) (fun _ => 1) 0 1 := by
  intro w' b'
  have hz : ∀ r, ∑ c, blanketDesign (fun r _ => 2 * (r : ℝ) : Matrix (Fin 2) (Fin 1) ℝ) (fun _ => false) r c * w' c = 0 := by
    intro r
    refine Finset.sum_eq_zero fun c _ => ?_
    rcases c with c | c
    · exact absurd c.2 (by simp)
    · simp [blanketDesign]
  have hp : 0 ≤ ∑ c, 1 * |w' c| := Finset.sum_nonneg fun c _ => by positivity
  simp only [lassoLoss, hz, Fin.sum_univ_two, Pi.zero_apply, mul_zero, Finset.sum_const_zero, abs_zero]
  norm_num
  norm_num at hp
  nlinarith [sq_nonneg (b' - 1), hp]

/-- Non-vacuity for C214: two nodes, two blankets each (empty or the other node), equal scores: an edge with
probability one quarter. -/
example : (resampleLaw (fun (_ : Fin 2) (_ : Fin 2) => (1 : ℝ))).real
    {idx | resampledGraph (fun i k j => decide (k = 1) && decide (i ≠ j)) idx 0 1 = true} = 1 / 4 := by
  rw [C214_edge_probability _ _ (by decide)]
  have : ∀ i j : Fin 2, i ≠ j → memberProb (fun (_ : Fin 2) (_ : Fin 2) => (1 : ℝ))
      (fun i k j => decide (k = 1) && decide (i ≠ j)) i j = 1 / 2 := by
    intro i j hij
    have he := (Real.exp_pos 1).ne'
    simp only [memberProb, normalizedScores, Finset.sum_filter, Fin.sum_univ_two]
    simp [hij]
    field_simp
    norm_num
  rw [this 0 1 (by decide), this 1 0 (by decide)]
  norm_num

end Verif.Props
