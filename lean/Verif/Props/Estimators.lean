import Verif.Model.Estimators
import Verif.Spec.Density
import Verif.Lemmas.Spectral
import Verif.Props.Scores
import Verif.Props.GaussGen
import Mathlib.Analysis.Matrix.PosDef
import Mathlib.Analysis.SpecialFunctions.Log.Basic

/-! Properties of the estimator classes: C120 (`TimeGraphicalLasso.fit`), C121 (`TimeGraphicalLasso.score`) and
C122 (`DiscriminantAnalysis`). -/

namespace Verif.Props

open Matrix Verif.Model Verif.Spec Verif.Lemmas

set_option autoImplicit false
set_option linter.unusedSectionVars false

variable {α : Type*} [LinearOrder α] {N : ℕ} {n : Type*} [Fintype n] [DecidableEq n]

theorem mem_rowsOf {y : Fin N → α} {c : α} {i : Fin N} : i ∈ rowsOf y c ↔ y i = c := by simp [rowsOf]

theorem mem_classesOf {y : Fin N → α} {c : α} : c ∈ classesOf y ↔ ∃ i, y i = c := by
  simp [classesOf]

/-! ### C120 -/

/-- C120: `classes_` lists every label once, in increasing order; every class has at least one sample and the numbers
of samples handed to the solver add up to the number of rows. -/
theorem C120_classes (centered : Bool) (X : Fin N → n → ℝ) (y : Fin N → α) :
    ((fitInput centered X y).map (·.cls)).Pairwise (· < ·) ∧
    (∀ c, c ∈ (fitInput centered X y).map (·.cls) ↔ ∃ i, y i = c) ∧
    (∀ d ∈ fitInput centered X y, 0 < d.count) ∧
    ((fitInput centered X y).map (·.count)).sum = N := by
  have hcls : (fitInput centered X y).map (·.cls) = classesOf y := by simp [fitInput, Function.comp_def]
  refine ⟨?_, fun c => ?_, ?_, ?_⟩
  · rw [hcls]; exact (Finset.sortedLT_sort _).pairwise
  · rw [hcls]; exact mem_classesOf
  · intro d hd
    obtain ⟨c, hc, rfl⟩ := List.mem_map.mp hd
    obtain ⟨i, hi⟩ := mem_classesOf.mp hc
    exact Finset.card_pos.mpr ⟨i, mem_rowsOf.mpr hi⟩
  · have h1 : (fitInput centered X y).map (·.count) = (classesOf y).map fun c => (rowsOf y c).card := by
      simp [fitInput, Function.comp_def]
    have h2 : ((classesOf y).map fun c => (rowsOf y c).card).sum = ∑ c ∈ Finset.univ.image y, (rowsOf y c).card := by
      unfold classesOf
      rw [← List.sum_toFinset _ (Finset.sort_nodup _ _)]
      simp
    rw [h1, h2]
    have := Finset.card_eq_sum_card_image y Finset.univ
    simpa [rowsOf] using this.symm

/-- The sums over a class are unchanged when the rows are permuted. -/
theorem rowsOf_sum_perm (s : Equiv.Perm (Fin N)) (y : Fin N → α) (c : α) (f : Fin N → ℝ) :
    ∑ i ∈ rowsOf (fun i => y (s i)) c, f (s i) = ∑ i ∈ rowsOf y c, f i := by
  refine Finset.sum_equiv s (fun i => ?_) (fun i _ => rfl)
  simp [mem_rowsOf]

theorem rowsOf_card_perm (s : Equiv.Perm (Fin N)) (y : Fin N → α) (c : α) :
    (rowsOf (fun i => y (s i)) c).card = (rowsOf y c).card := by
  have := rowsOf_sum_perm s y c (fun _ => 1)
  simpa using this

theorem rowMean_perm (s : Equiv.Perm (Fin N)) (X : Fin N → n → ℝ) (y : Fin N → α) (c : α) :
    rowMean (fun i => X (s i)) (rowsOf (fun i => y (s i)) c) = rowMean X (rowsOf y c) := by
  funext j
  simp only [rowMean]
  rw [rowsOf_card_perm, rowsOf_sum_perm s y c (fun i => X i j)]

theorem empCov_perm (s : Equiv.Perm (Fin N)) (X : Fin N → n → ℝ) (y : Fin N → α) (c : α) (centered : Bool) :
    empCov (fun i => X (s i)) (rowsOf (fun i => y (s i)) c) centered = empCov X (rowsOf y c) centered := by
  ext a b
  cases centered
  · simp only [empCov, Bool.false_eq_true, if_false, of_apply, rowMean_perm]
    rw [rowsOf_card_perm,
      rowsOf_sum_perm s y c (fun i => (X i a - rowMean X (rowsOf y c) a) * (X i b - rowMean X (rowsOf y c) b))]
  · simp only [empCov, if_true, of_apply]
    rw [rowsOf_card_perm, rowsOf_sum_perm s y c (fun i => X i a * X i b)]

/-- C120: permuting the rows of the data together with their labels changes nothing the solver sees, nor `classes_` and
`location_`; the fitted model is the same. -/
theorem C120_row_order {β : Type*} (solver : List (Matrix n n ℝ × ℕ) → β) (centered : Bool) (X : Fin N → n → ℝ)
    (y : Fin N → α) (s : Equiv.Perm (Fin N)) :
    fitInput centered (fun i => X (s i)) (fun i => y (s i)) = fitInput centered X y ∧
    tglFit solver centered (fun i => X (s i)) (fun i => y (s i)) = tglFit solver centered X y := by
  have h : fitInput centered (fun i => X (s i)) (fun i => y (s i)) = fitInput centered X y := by
    have hc : classesOf (fun i => y (s i)) = classesOf y := by
      unfold classesOf
      congr 1
      ext c
      simp only [Finset.mem_image, Finset.mem_univ, true_and]
      exact ⟨fun ⟨i, hi⟩ => ⟨s i, hi⟩, fun ⟨i, hi⟩ => ⟨s.symm i, by simpa using hi⟩⟩
    unfold fitInput
    rw [hc]
    refine List.map_congr_left fun c _ => ?_
    rw [rowsOf_card_perm, empCov_perm, rowMean_perm]
  exact ⟨h, by unfold tglFit; rw [h]⟩

theorem classesOf_map {β : Type*} [LinearOrder β] {f : α → β} {y : Fin N → α} (hf : StrictMonoOn f (Set.range y)) :
    classesOf (fun i => f (y i)) = (classesOf y).map f := by
  have hm : ∀ {c}, c ∈ classesOf y → c ∈ Set.range y := fun h => mem_classesOf.mp h
  have h : ((classesOf y).map f).Pairwise (· < ·) :=
    List.pairwise_map.mpr ((Finset.sortedLT_sort (Finset.univ.image y)).pairwise.imp_of_mem
      fun ha hb h => hf (hm ha) (hm hb) h)
  have h' : (classesOf fun i => f (y i)).Pairwise (· < ·) := (Finset.sortedLT_sort _).pairwise
  refine List.Pairwise.eq_of_mem_iff h' h fun {c} => ?_
  rw [mem_classesOf, List.mem_map]
  constructor
  · rintro ⟨i, rfl⟩; exact ⟨y i, mem_classesOf.mpr ⟨i, rfl⟩, rfl⟩
  · rintro ⟨a, ha, rfl⟩
    obtain ⟨i, rfl⟩ := mem_classesOf.mp ha
    exact ⟨i, rfl⟩

theorem rowsOf_map {β : Type*} [LinearOrder β] {f : α → β} {y : Fin N → α} (hf : StrictMonoOn f (Set.range y)) {c : α}
    (hc : c ∈ classesOf y) : rowsOf (fun i => f (y i)) (f c) = rowsOf y c := by
  ext i
  rw [mem_rowsOf, mem_rowsOf]
  exact hf.injOn.eq_iff ⟨i, rfl⟩ (mem_classesOf.mp hc)

/-- C120: only the order of the labels matters. Replacing every label `t` by `f t`, with `f` strictly increasing on the
labels that occur (for instance other, unevenly spaced time stamps), renames `classes_` and leaves everything else as it
was. -/
theorem C120_relabel {β γ : Type*} [LinearOrder β] (solver : List (Matrix n n ℝ × ℕ) → γ) (centered : Bool)
    (X : Fin N → n → ℝ) (y : Fin N → α) (f : α → β) (hf : StrictMonoOn f (Set.range y)) :
    fitInput centered X (fun i => f (y i)) =
      (fitInput centered X y).map (fun d => ⟨f d.cls, d.count, d.location, d.cov⟩) ∧
    tglFit solver centered X (fun i => f (y i)) = tglFit solver centered X y := by
  have h : fitInput centered X (fun i => f (y i)) =
      (fitInput centered X y).map (fun d => ⟨f d.cls, d.count, d.location, d.cov⟩) := by
    unfold fitInput
    rw [classesOf_map hf, List.map_map, List.map_map]
    refine List.map_congr_left fun c hc => ?_
    simp only [Function.comp_apply, rowsOf_map hf hc]
  refine ⟨h, ?_⟩
  unfold tglFit
  rw [h, List.map_map]
  rfl

/-- A hypothesis of `C120_relabel` met: squaring nonnegative labels. -/
example : StrictMonoOn (fun t : ℤ => t ^ 2) (Set.range ![0, 5, 1, 5]) := by
  rintro _ ⟨i, rfl⟩ _ ⟨j, rfl⟩ h
  fin_cases i <;> fin_cases j <;> revert h <;> decide

theorem empCov_posSemidef (X : Fin N → n → ℝ) (R : Finset (Fin N)) (centered : Bool) :
    (empCov X R centered).PosSemidef := by
  have key : ∀ Y : Fin N → n → ℝ, (Matrix.of fun a b => (∑ i ∈ R, Y i a * Y i b) / (R.card : ℝ)).PosSemidef := by
    intro Y
    refine PosSemidef.of_dotProduct_mulVec_nonneg ?_ fun v => ?_
    · rw [IsHermitian, conjTranspose_eq_transpose_of_trivial]
      ext a b; simp only [transpose_apply, of_apply]; simp [mul_comm]
    · have : star v ⬝ᵥ ((Matrix.of fun a b => (∑ i ∈ R, Y i a * Y i b) / (R.card : ℝ)) *ᵥ v) =
          (∑ i ∈ R, (∑ a, v a * Y i a) ^ 2) / (R.card : ℝ) := by
        simp only [dotProduct, mulVec, of_apply, star_trivial, Finset.mul_sum, Finset.sum_div, Finset.sum_mul, pow_two]
        rw [Finset.sum_congr rfl fun a _ => Finset.sum_comm, Finset.sum_comm]
        refine Finset.sum_congr rfl fun i _ => ?_
        rw [Finset.sum_comm]
        refine Finset.sum_congr rfl fun b _ => Finset.sum_congr rfl fun a _ => ?_
        ring
      rw [this]
      exact div_nonneg (Finset.sum_nonneg fun i _ => sq_nonneg _) (Nat.cast_nonneg _)
  cases centered
  · exact key fun i a => X i a - rowMean X R a
  · exact key X

theorem empCov_shift (X : Fin N → n → ℝ) (R : Finset (Fin N)) (hR : R.Nonempty) (Y : Fin N → n → ℝ) (v : n → ℝ)
    (h : ∀ i ∈ R, ∀ j, Y i j = X i j + v j) : empCov Y R false = empCov X R false := by
  have hc : (R.card : ℝ) ≠ 0 := by exact_mod_cast hR.card_pos.ne'
  have hm : ∀ j, rowMean Y R j = rowMean X R j + v j := by
    intro j
    simp only [rowMean]
    rw [Finset.sum_congr rfl fun i hi => h i hi j, Finset.sum_add_distrib, Finset.sum_const, nsmul_eq_mul]
    field_simp
  ext a b
  simp only [empCov, Bool.false_eq_true, if_false, of_apply]
  congr 1
  refine Finset.sum_congr rfl fun i hi => ?_
  rw [h i hi a, h i hi b, hm, hm]; ring

/-- C120: every matrix handed to the solver is symmetric positive semidefinite; without `assume_centered` it is the
average of the products minus the product of the averages, `location_` is the average of the rows of the class, and
moving all the rows of a class by a vector of its own changes `location_` only; with `assume_centered` it is the average
of the products and `location_` is zero. -/
theorem C120_covariance (X : Fin N → n → ℝ) (y : Fin N → α) :
    (∀ centered, ∀ d ∈ fitInput centered X y, d.cov.PosSemidef) ∧
    (∀ d ∈ fitInput false X y, ∀ a b,
      d.location a = (∑ i ∈ Finset.univ.filter (fun i => y i = d.cls), X i a) / d.count ∧
      d.cov a b = (∑ i ∈ Finset.univ.filter (fun i => y i = d.cls), X i a * X i b) / d.count -
        d.location a * d.location b) ∧
    (∀ d ∈ fitInput true X y, ∀ a b, d.location a = 0 ∧
      d.cov a b = (∑ i ∈ Finset.univ.filter (fun i => y i = d.cls), X i a * X i b) / d.count) ∧
    ∀ v : α → n → ℝ, (fitInput false (fun i j => X i j + v (y i) j) y).map (fun d => (d.cls, d.count, d.cov)) =
      (fitInput false X y).map (fun d => (d.cls, d.count, d.cov)) := by
  refine ⟨?_, ?_, ?_, ?_⟩
  · intro centered d hd
    obtain ⟨c, _, rfl⟩ := List.mem_map.mp hd
    exact empCov_posSemidef _ _ _
  · intro d hd a b
    obtain ⟨c, hc, rfl⟩ := List.mem_map.mp hd
    obtain ⟨i, hi⟩ := mem_classesOf.mp hc
    have hpos : 0 < (rowsOf y c).card := Finset.card_pos.mpr ⟨i, mem_rowsOf.mpr hi⟩
    have hn : ((rowsOf y c).card : ℝ) ≠ 0 := by exact_mod_cast hpos.ne'
    refine ⟨rfl, ?_⟩
    simp only [empCov, Bool.false_eq_true, if_false, of_apply]
    change _ = (∑ i ∈ rowsOf y c, X i a * X i b) / _ - _
    have e : ∀ i, (X i a - rowMean X (rowsOf y c) a) * (X i b - rowMean X (rowsOf y c) b) =
        X i a * X i b - X i a * rowMean X (rowsOf y c) b - rowMean X (rowsOf y c) a * X i b +
          rowMean X (rowsOf y c) a * rowMean X (rowsOf y c) b := fun i => by ring
    simp only [e]
    rw [Finset.sum_add_distrib, Finset.sum_sub_distrib, Finset.sum_sub_distrib, ← Finset.sum_mul, ← Finset.mul_sum,
      Finset.sum_const, nsmul_eq_mul]
    have ha : (∑ i ∈ rowsOf y c, X i a) = (rowsOf y c).card * rowMean X (rowsOf y c) a := by
      simp only [rowMean]; field_simp
    have hb : (∑ i ∈ rowsOf y c, X i b) = (rowsOf y c).card * rowMean X (rowsOf y c) b := by
      simp only [rowMean]; field_simp
    rw [ha, hb]
    field_simp
    ring
  · intro d hd a b
    obtain ⟨c, _, rfl⟩ := List.mem_map.mp hd
    exact ⟨rfl, rfl⟩
  · intro v
    unfold fitInput
    rw [List.map_map, List.map_map]
    refine List.map_congr_left fun c hc => ?_
    obtain ⟨i, hi⟩ := mem_classesOf.mp hc
    simp only [Function.comp_apply, Bool.false_eq_true, if_false]
    rw [empCov_shift X (rowsOf y c) ⟨i, mem_rowsOf.mpr hi⟩ (fun i j => X i j + v (y i) j) (v c)]
    intro i hi j
    rw [mem_rowsOf.mp hi]

/-! ### C121 -/

/-- Twice the logarithm of the Gaussian density, for a positive definite precision matrix. -/
theorem two_log_density {K : Matrix n n ℝ} (hK : K.PosDef) (mu x : n → ℝ) :
    2 * Real.log (gaussianDensity mu K⁻¹ x) + Fintype.card n * Real.log (2 * Real.pi) =
      Real.log K.det - (x - mu) ⬝ᵥ (K *ᵥ (x - mu)) := by
  have hd : 0 < K.det := hK.det_pos
  have hdi : 0 < (K⁻¹).det := hK.inv.det_pos
  have hpi : (0 : ℝ) < (2 * Real.pi) ^ Fintype.card n := pow_pos (by positivity) _
  have hinv : (K⁻¹)⁻¹ = K := nonsing_inv_nonsing_inv K (isUnit_iff_ne_zero.mpr hd.ne')
  have hdet : Real.log (K⁻¹).det = -Real.log K.det := by
    rw [det_nonsing_inv, Ring.inverse_eq_inv', Real.log_inv]
  unfold gaussianDensity
  rw [Real.log_div (Real.exp_pos _).ne' (Real.sqrt_pos.mpr (mul_pos hpi hdi)).ne', Real.log_exp,
    Real.log_sqrt (mul_pos hpi hdi).le, Real.log_mul hpi.ne' hdi.ne', Real.log_pow, hinv, hdet]
  ring

theorem empCov_quad (X : Fin N → n → ℝ) (R : Finset (Fin N)) (hR : R.Nonempty) (K : Matrix n n ℝ) :
    (R.card : ℝ) * ∑ a, ∑ b, empCov X R true a b * K a b = ∑ i ∈ R, X i ⬝ᵥ (K *ᵥ X i) := by
  have hc : (R.card : ℝ) ≠ 0 := by exact_mod_cast hR.card_pos.ne'
  have e : ∀ a b, (R.card : ℝ) * (empCov X R true a b * K a b) = ∑ i ∈ R, X i a * X i b * K a b := by
    intro a b
    simp only [empCov, if_true, of_apply]
    rw [← Finset.sum_mul]; field_simp
  simp only [Finset.mul_sum, e]
  rw [Finset.sum_congr rfl fun a _ => Finset.sum_comm, Finset.sum_comm]
  refine Finset.sum_congr rfl fun i _ => ?_
  simp only [dotProduct, mulVec, Finset.mul_sum]
  refine Finset.sum_congr rfl fun a _ => Finset.sum_congr rfl fun b _ => ?_
  ring

theorem scoreTerm_fin (X : Fin N → n → ℝ) (y : Fin N → α) (c : α) (mu : n → ℝ) {K : Matrix n n ℝ} (hK : K.PosDef)
    (hc : ∃ i, y i = c) :
    scoreTerm X y c mu K = .fin (∑ i ∈ rowsOf y c,
      (2 * Real.log (gaussianDensity mu K⁻¹ (X i)) + Fintype.card n * Real.log (2 * Real.pi))) := by
  obtain ⟨i, hi⟩ := hc
  have hne : (rowsOf y c).Nonempty := ⟨i, mem_rowsOf.mpr hi⟩
  unfold scoreTerm
  rw [if_neg hne.ne_empty, logLikelihood_posDef _ _ hK]
  simp only [XF.mul]
  congr 1
  rw [mul_sub, empCov_quad _ _ hne, Finset.sum_congr rfl fun i _ => two_log_density hK mu (X i),
    Finset.sum_sub_distrib, Finset.sum_const, nsmul_eq_mul]
  rfl

theorem foldl_add_fin {σ : Type*} (l : List σ) (f : σ → XF) (g : σ → ℝ) (h : ∀ m ∈ l, f m = .fin (g m)) (a : ℝ) :
    l.foldl (fun acc m => XF.add acc (f m)) (.fin a) = .fin (a + (l.map g).sum) := by
  induction l generalizing a with
  | nil => simp
  | cons m l ih =>
    rw [List.foldl_cons, h m (by simp)]
    change l.foldl (fun acc m => XF.add acc (f m)) (.fin (a + g m)) = _
    rw [ih (fun m hm => h m (by simp [hm]))]
    simp [add_assoc]

theorem foldl_add_nan {σ : Type*} (l : List σ) (f : σ → XF) :
    l.foldl (fun acc m => XF.add acc (f m)) .nan = .nan := by
  induction l with
  | nil => rfl
  | cons m l ih => rw [List.foldl_cons]; exact ih

theorem foldl_add_mem_nan {σ : Type*} (l : List σ) (f : σ → XF) (h : ∃ m ∈ l, f m = .nan) (a : XF) :
    l.foldl (fun acc m => XF.add acc (f m)) a = .nan := by
  induction l generalizing a with
  | nil => simp at h
  | cons m l ih =>
    rw [List.foldl_cons]
    by_cases hm : f m = .nan
    · rw [hm]
      have : XF.add a .nan = .nan := by cases a <;> rfl
      rw [this]; exact foldl_add_nan l f
    · obtain ⟨m', hm', hn⟩ := h
      rcases List.mem_cons.mp hm' with rfl | hm''
      · exact absurd hn hm
      · exact ih ⟨m', hm'', hn⟩ _

/-- C121: when every fitted class occurs among the test labels and the fitted precisions are positive definite, the
score is twice the Gaussian log-likelihood of the test rows whose label is a fitted class, each row under the mean and
precision of its own class, plus `p * log (2 * pi)` per such row. (It is the log-likelihood up to these two constants,
not the log-likelihood itself, and rows with other labels are ignored.) -/
theorem C121_score_partial (X : Fin N → n → ℝ) (y : Fin N → α) (model : List (α × (n → ℝ) × Matrix n n ℝ))
    (hpd : ∀ m ∈ model, m.2.2.PosDef) (hcls : ∀ m ∈ model, ∃ i, y i = m.1) :
    tglScore X y model = .fin (model.map fun m => ∑ i ∈ Finset.univ.filter (fun i => y i = m.1),
      (2 * Real.log (gaussianDensity m.2.1 m.2.2⁻¹ (X i)) + Fintype.card n * Real.log (2 * Real.pi))).sum := by
  unfold tglScore
  rw [foldl_add_fin model (fun m => scoreTerm X y m.1 m.2.1 m.2.2) _
    (fun m hm => scoreTerm_fin X y m.1 m.2.1 (hpd m hm) (hcls m hm)), zero_add]
  rfl

/-- The hypotheses of `C121_score_partial` are met by a model of two classes. -/
example : ∃ (y : Fin 3 → ℕ) (model : List (ℕ × (Fin 2 → ℝ) × Matrix (Fin 2) (Fin 2) ℝ)), model.length = 2 ∧
    (∀ m ∈ model, m.2.2.PosDef) ∧ ∀ m ∈ model, ∃ i, y i = m.1 := by
  refine ⟨![0, 1, 0], [(0, 0, 1), (1, 0, 1)], rfl, ?_, ?_⟩
  · intro m hm; simp at hm; rcases hm with rfl | rfl <;> exact PosDef.one
  · intro m hm; simp at hm
    rcases hm with rfl | rfl
    · exact ⟨0, rfl⟩
    · exact ⟨1, rfl⟩

/-- C121: relabelling, i.e. the score of the rows of a fitted model is the sum of the scores of its classes: among two
fits of the same classes, the one with the larger likelihood has the larger score. -/
theorem C121_ranking (X : Fin N → n → ℝ) (y : Fin N → α) (classes : List α) (mu mu' : α → n → ℝ)
    (K K' : α → Matrix n n ℝ) (hK : ∀ c ∈ classes, (K c).PosDef) (hK' : ∀ c ∈ classes, (K' c).PosDef)
    (hcls : ∀ c ∈ classes, ∃ i, y i = c) :
    ∃ r r', tglScore X y (classes.map fun c => (c, mu c, K c)) = .fin r ∧
      tglScore X y (classes.map fun c => (c, mu' c, K' c)) = .fin r' ∧
      (r ≤ r' ↔
        (classes.map fun c => ∑ i ∈ Finset.univ.filter (fun i => y i = c),
          Real.log (gaussianDensity (mu c) (K c)⁻¹ (X i))).sum ≤
        (classes.map fun c => ∑ i ∈ Finset.univ.filter (fun i => y i = c),
          Real.log (gaussianDensity (mu' c) (K' c)⁻¹ (X i))).sum) := by
  have h1 := C121_score_partial X y (classes.map fun c => (c, mu c, K c))
    (by intro m hm; obtain ⟨c, hc, rfl⟩ := List.mem_map.mp hm; exact hK c hc)
    (by intro m hm; obtain ⟨c, hc, rfl⟩ := List.mem_map.mp hm; exact hcls c hc)
  have h2 := C121_score_partial X y (classes.map fun c => (c, mu' c, K' c))
    (by intro m hm; obtain ⟨c, hc, rfl⟩ := List.mem_map.mp hm; exact hK' c hc)
    (by intro m hm; obtain ⟨c, hc, rfl⟩ := List.mem_map.mp hm; exact hcls c hc)
  refine ⟨_, _, h1, h2, ?_⟩
  have key : ∀ (nu : α → n → ℝ) (L : α → Matrix n n ℝ),
      (((classes.map fun c => (c, nu c, L c)).map fun m => ∑ i ∈ Finset.univ.filter (fun i => y i = m.1),
        (2 * Real.log (gaussianDensity m.2.1 m.2.2⁻¹ (X i)) + Fintype.card n * Real.log (2 * Real.pi))).sum) =
      2 * (classes.map fun c => ∑ i ∈ Finset.univ.filter (fun i => y i = c),
          Real.log (gaussianDensity (nu c) (L c)⁻¹ (X i))).sum +
        (classes.map fun c => ∑ _i ∈ Finset.univ.filter (fun i => y i = c),
          Fintype.card n * Real.log (2 * Real.pi)).sum := by
    intro nu L
    rw [List.map_map, ← List.sum_map_mul_left, ← List.sum_map_add]
    congr 1
    refine List.map_congr_left fun c _ => ?_
    simp only [Function.comp_apply]
    rw [Finset.sum_add_distrib, Finset.mul_sum]
  rw [key, key]
  constructor <;> intro h <;> linarith

/-- C121: a fitted class without test rows makes the score nan: the likelihood of the other rows is lost. -/
theorem C121_absent_class_false (X : Fin N → n → ℝ) (y : Fin N → α) (model : List (α × (n → ℝ) × Matrix n n ℝ))
    (h : ∃ m ∈ model, ∀ i, y i ≠ m.1) : tglScore X y model = .nan := by
  obtain ⟨m, hm, hy⟩ := h
  refine foldl_add_mem_nan model (fun m => scoreTerm X y m.1 m.2.1 m.2.2) ⟨m, hm, ?_⟩ _
  have : rowsOf y m.1 = ∅ := by
    rw [Finset.eq_empty_iff_forall_notMem]; intro i hi; exact hy i (mem_rowsOf.mp hi)
  unfold scoreTerm
  exact if_pos this

/-- C121: the score does not detect a fitted matrix that is no precision matrix: `-1` in dimension two is negative
definite, gets a finite score, and a better one than the identity. -/
theorem C121_indefinite_false : ∃ (X : Fin 1 → Fin 2 → ℝ) (y : Fin 1 → ℕ) (K : Matrix (Fin 2) (Fin 2) ℝ) (r s : ℝ),
    ¬ K.PosDef ∧ tglScore X y [(0, 0, K)] = .fin r ∧ tglScore X y [(0, 0, 1)] = .fin s ∧ s < r := by
  refine ⟨fun _ _ => 1, fun _ => 0, -1, 2, -2, ?_, ?_, ?_, by norm_num⟩
  · intro h
    have := h.diag_pos (i := 0)
    norm_num at this
  · have hr : rowsOf (fun _ : Fin 1 => (0 : ℕ)) 0 = {0} := by ext i; simp [mem_rowsOf, Fin.fin_one_eq_zero]
    simp only [tglScore, List.foldl, scoreTerm, hr, logLikelihood, logdetXF, empCov]
    simp [XF.add, XF.sub, XF.mul, XF.neg, det_fin_two, Fin.sum_univ_two]
    norm_num
  · have hr : rowsOf (fun _ : Fin 1 => (0 : ℕ)) 0 = {0} := by ext i; simp [mem_rowsOf, Fin.fin_one_eq_zero]
    simp only [tglScore, List.foldl, scoreTerm, hr, logLikelihood, logdetXF, empCov]
    simp [XF.add, XF.sub, XF.mul, XF.neg, det_fin_two, Fin.sum_univ_two]
    norm_num

/-! ### C122 -/

/-- A positive definite and a positive semidefinite matrix with the same square are equal. -/
theorem eq_of_sq_eq {A B : Matrix n n ℝ} (hA : A.PosDef) (hB : B.PosSemidef) (h : A * A = B * B) : A = B := by
  set D := A - B with hD
  have hDs : Dᴴ = D := by
    rw [conjTranspose_eq_transpose_of_trivial, hD, transpose_sub, hA.isSymm', hB.isSymm']
  have e1 : A * D + D * B = 0 := by
    rw [hD, Matrix.mul_sub, Matrix.sub_mul, h]; abel
  have h1 : (D * A * D).PosSemidef := by
    have := hA.posSemidef.mul_mul_conjTranspose_same D
    rwa [hDs] at this
  have h2 : (D * B * D).PosSemidef := by
    have := hB.mul_mul_conjTranspose_same D
    rwa [hDs] at this
  have ht : (D * A * D).trace + (D * B * D).trace = 0 := by
    have e2 : (D * (A * D + D * B)).trace = 0 := by rw [e1, Matrix.mul_zero, trace_zero]
    rw [Matrix.mul_add, trace_add] at e2
    have e3 : (D * (D * B)).trace = (D * B * D).trace := by rw [trace_mul_comm]
    rw [e3, ← Matrix.mul_assoc] at e2
    exact e2
  have hz : D * A * D = 0 := h1.trace_eq_zero_iff.mp (by
    have a1 := h1.trace_nonneg
    have a2 := h2.trace_nonneg
    linarith)
  have hD0 : D = 0 := by
    have hv : ∀ v, D *ᵥ v = 0 := by
      intro v
      by_contra hne
      have hp := hA.dotProduct_mulVec_pos hne
      have hs : Dᵀ = D := by rwa [conjTranspose_eq_transpose_of_trivial] at hDs
      have : star (D *ᵥ v) ⬝ᵥ (A *ᵥ (D *ᵥ v)) = v ⬝ᵥ ((D * A * D) *ᵥ v) := by
        rw [star_trivial, ← mulVec_mulVec, ← mulVec_mulVec, dotProduct_mulVec v D, ← mulVec_transpose, hs]
      rw [this, hz, zero_mulVec, dotProduct_zero] at hp
      exact lt_irrefl _ hp
    ext i j
    have := congrFun (hv (Pi.single j 1)) i
    simpa using this
  rw [← sub_eq_zero, ← hD]; exact hD0

/-- Any singular value decomposition of a positive definite matrix is its spectral decomposition. -/
theorem svd_posDef {C R Rt : Matrix n n ℝ} {S : n → ℝ} (hC : C.PosDef) (h : IsSvd C R S Rt) :
    C = recompose Rtᵀ S ∧ ∀ j, 0 < S j := by
  have h2 : Rtᵀ * Rt = 1 := mul_eq_one_comm.mp h.right
  have hq : (Rtᵀ)ᵀ * Rtᵀ = 1 := by rw [transpose_transpose]; exact h.right
  have hq' : Rtᵀ * (Rtᵀ)ᵀ = 1 := by rw [transpose_transpose]; exact h2
  have hB := recompose_posSemidef Rtᵀ h.nonneg
  have hsq : C * C = recompose Rtᵀ S * recompose Rtᵀ S := by
    have : C * C = Cᵀ * C := by rw [hC.isSymm']
    rw [this, h.decomp, transpose_mul, transpose_mul, diagonal_transpose, recompose_eq, transpose_transpose]
    calc Rtᵀ * (diagonal S * Rᵀ) * (R * diagonal S * Rt) = Rtᵀ * diagonal S * (Rᵀ * R) * diagonal S * Rt := by
          simp only [Matrix.mul_assoc]
      _ = Rtᵀ * diagonal S * (Rt * Rtᵀ) * diagonal S * Rt := by rw [h.left, h.right]
      _ = _ := by simp only [Matrix.mul_assoc]
  have hE : C = recompose Rtᵀ S := eq_of_sq_eq hC hB hsq
  refine ⟨hE, fun j => lt_of_le_of_ne (h.nonneg j) fun hj => ?_⟩
  have := hC.det_pos
  rw [hE, recompose_det hq', Finset.prod_eq_zero (Finset.mem_univ j) hj.symm] at this
  exact lt_irrefl _ this

/-- C122: for a positive definite covariance matrix the decision function is the logarithm of the prior times the
Gaussian density of the class, up to a constant that is the same for all classes, whichever singular value
decomposition is returned. -/
theorem C122_decision {C R Rt : Matrix n n ℝ} {S : n → ℝ} (hC : C.PosDef) (h : IsSvd C R S Rt) (prior : ℝ)
    (hp : 0 < prior) (mean x : n → ℝ) :
    daDecision prior mean S Rt x =
      Real.log (prior * gaussianDensity mean C x) + Fintype.card n / 2 * Real.log (2 * Real.pi) := by
  obtain ⟨hE, hS⟩ := svd_posDef hC h
  have h2 : Rtᵀ * Rt = 1 := mul_eq_one_comm.mp h.right
  have hq : (Rtᵀ)ᵀ * Rtᵀ = 1 := by rw [transpose_transpose]; exact h.right
  have hq' : Rtᵀ * (Rtᵀ)ᵀ = 1 := by rw [transpose_transpose]; exact h2
  have hlog : Real.log C.det = ∑ j, Real.log (S j) := by
    rw [hE, recompose_det hq', Real.log_prod (fun j _ => (hS j).ne')]
  have hinv : C⁻¹ = recompose Rtᵀ (fun j => (S j)⁻¹) := by
    rw [hE, recompose_inv hq' hq (fun j => (hS j).ne')]
  have hquad : ∑ j, (∑ i, (x i - mean i) * (Rtᵀ i j * S j ^ (-(1 / 2) : ℝ))) ^ 2 =
      (x - mean) ⬝ᵥ (C⁻¹ *ᵥ (x - mean)) := by
    rw [hinv, recompose_eq, transpose_transpose, ← mulVec_mulVec, ← mulVec_mulVec, dotProduct_mulVec,
      vecMul_transpose, dotProduct]
    refine Finset.sum_congr rfl fun j _ => ?_
    have e1 : ∑ i, (x i - mean i) * (Rtᵀ i j * S j ^ (-(1 / 2) : ℝ)) =
        (Rt *ᵥ (x - mean)) j * S j ^ (-(1 / 2) : ℝ) := by
      simp only [mulVec, dotProduct, Finset.sum_mul, transpose_apply, Pi.sub_apply]
      exact Finset.sum_congr rfl fun i _ => by ring
    have e2 : (S j ^ (-(1 / 2) : ℝ)) ^ 2 = (S j)⁻¹ := by
      rw [← Real.rpow_natCast, ← Real.rpow_mul (hS j).le, ← Real.rpow_neg_one]
      norm_num
    rw [e1, mul_pow, e2, mulVec_diagonal]
    ring
  have hd : 0 < C.det := hC.det_pos
  have hpi : (0 : ℝ) < (2 * Real.pi) ^ Fintype.card n := pow_pos (by positivity) _
  have hs := Real.sqrt_pos.mpr (mul_pos hpi hd)
  simp only [daDecision]
  rw [hquad, ← hlog]
  unfold gaussianDensity
  rw [Real.log_mul hp.ne' (div_pos (Real.exp_pos _) hs).ne', Real.log_div (Real.exp_pos _).ne' hs.ne', Real.log_exp,
    Real.log_sqrt (mul_pos hpi hd).le, Real.log_mul hpi.ne' hd.ne', Real.log_pow]
  ring

/-- The hypotheses of `C122_decision` are met by every positive definite matrix: it has such a decomposition. -/
example {C : Matrix n n ℝ} (hC : C.PosDef) : ∃ R S Rt, IsSvd C R S Rt := by
  obtain ⟨Q, e, h⟩ := exists_isEigh hC.isSymm'
  refine ⟨Q, e, Qᵀ, h.orth', by rw [transpose_transpose]; exact h.orth', fun j => ?_, h.decomp⟩
  rw [h.eigen_eq j]
  have := hC.posSemidef.mul_mul_conjTranspose_same Qᵀ
  rw [conjTranspose_eq_transpose_of_trivial, transpose_transpose] at this
  exact this.diag_nonneg

theorem daPredict_max {k : ℕ} [NeZero k] (d : Fin k → ℝ) : ∀ j, d j ≤ d (daPredict d) := by
  have := Finset.min'_mem (Finset.univ.filter fun i => ∀ j, d j ≤ d i) (by
    obtain ⟨i, _, hi⟩ := Finset.exists_max_image Finset.univ d ⟨0, Finset.mem_univ _⟩
    exact ⟨i, Finset.mem_filter.mpr ⟨Finset.mem_univ _, fun j => hi j (Finset.mem_univ _)⟩⟩)
  exact (Finset.mem_filter.mp this).2

/-- C122: `predict` is the Bayes rule: the predicted class maximises prior times density, and among several such classes
it is the first. -/
theorem C122_predict {k : ℕ} [NeZero k] (prior : Fin k → ℝ) (mean : Fin k → n → ℝ) (C R Rt : Fin k → Matrix n n ℝ)
    (S : Fin k → n → ℝ) (hp : ∀ c, 0 < prior c) (hC : ∀ c, (C c).PosDef) (h : ∀ c, IsSvd (C c) (R c) (S c) (Rt c))
    (x : n → ℝ) (c : Fin k) (hc : c = daPredict fun c => daDecision (prior c) (mean c) (S c) (Rt c) x) :
    (∀ c', prior c' * gaussianDensity (mean c') (C c') x ≤ prior c * gaussianDensity (mean c) (C c) x) ∧
    ∀ c' < c, prior c' * gaussianDensity (mean c') (C c') x < prior c * gaussianDensity (mean c) (C c) x := by
  have hpos : ∀ c, 0 < prior c * gaussianDensity (mean c) (C c) x := fun c =>
    mul_pos (hp c) (div_pos (Real.exp_pos _) (Real.sqrt_pos.mpr
      (mul_pos (pow_pos (by positivity) _) (hC c).det_pos)))
  have hle : ∀ a b, daDecision (prior a) (mean a) (S a) (Rt a) x ≤ daDecision (prior b) (mean b) (S b) (Rt b) x ↔
      prior a * gaussianDensity (mean a) (C a) x ≤ prior b * gaussianDensity (mean b) (C b) x := by
    intro a b
    rw [C122_decision (hC a) (h a) _ (hp a), C122_decision (hC b) (h b) _ (hp b), add_le_add_iff_right,
      Real.log_le_log_iff (hpos a) (hpos b)]
  have hmax := daPredict_max fun c => daDecision (prior c) (mean c) (S c) (Rt c) x
  rw [← hc] at hmax
  refine ⟨fun c' => (hle c' c).mp (hmax c'), fun c' hlt => ?_⟩
  by_contra hnot
  have hge := (hle c c').mpr (not_lt.mp hnot)
  have hmem : c' ∈ Finset.univ.filter fun i => ∀ j, daDecision (prior j) (mean j) (S j) (Rt j) x ≤
      daDecision (prior i) (mean i) (S i) (Rt i) x :=
    Finset.mem_filter.mpr ⟨Finset.mem_univ _, fun j => (hmax j).trans hge⟩
  have := Finset.min'_le _ _ hmem
  rw [hc] at hlt
  exact absurd hlt (not_lt.mpr this)

theorem classesOf_nodup (y : Fin N → α) : (classesOf y).Nodup := Finset.sort_nodup _ _

theorem idxOf_strictMonoOn (y : Fin N → α) : StrictMonoOn (fun a => (classesOf y).idxOf a) (Set.range y) := by
  intro a ha b hb hab
  by_contra hle
  have hla := List.idxOf_lt_length_of_mem (mem_classesOf.mpr ha)
  have hlb := List.idxOf_lt_length_of_mem (mem_classesOf.mpr hb)
  have hs : (classesOf y).Pairwise (· < ·) := (Finset.sortedLT_sort _).pairwise
  rcases (not_lt.mp hle).lt_or_eq with h | h
  · have := List.pairwise_iff_getElem.mp hs _ _ hlb hla h
    rw [List.getElem_idxOf, List.getElem_idxOf] at this
    exact lt_asymm hab this
  · have e : (classesOf y)[(classesOf y).idxOf b] = (classesOf y)[(classesOf y).idxOf a] := by simp only [h]
    rw [List.getElem_idxOf, List.getElem_idxOf] at e
    exact hab.ne e.symm

theorem rowsOf_encode (y : Fin N → α) (k : ℕ) (hk : k < (classesOf y).length) :
    rowsOf (encode y) k = rowsOf y (classesOf y)[k] := by
  have := rowsOf_map (idxOf_strictMonoOn y) (List.getElem_mem hk)
  rw [(classesOf_nodup y).idxOf_getElem] at this
  exact this

theorem any_single_iff (y : Fin N → α) :
    ((List.range (classesOf y).length).any fun k => decide ((rowsOf (encode y) k).card = 1)) = true ↔
      ∃ c, (Finset.univ.filter fun i => y i = c).card = 1 := by
  rw [List.any_eq_true]
  constructor
  · rintro ⟨k, hk, h⟩
    rw [List.mem_range] at hk
    rw [decide_eq_true_eq, rowsOf_encode y k hk] at h
    exact ⟨_, h⟩
  · rintro ⟨c, hc⟩
    obtain ⟨i, hi⟩ := Finset.card_pos.mp (by rw [hc]; exact one_pos)
    have hm : c ∈ classesOf y := mem_classesOf.mpr ⟨i, (Finset.mem_filter.mp hi).2⟩
    have hl := List.idxOf_lt_length_of_mem hm
    refine ⟨(classesOf y).idxOf c, List.mem_range.mpr hl, ?_⟩
    rw [decide_eq_true_eq, rowsOf_encode y _ hl, List.getElem_idxOf]
    exact hc

/-- C122: `fit` raises `ValueError` exactly when there are fewer than two classes or some class has a single sample;
otherwise it succeeds. -/
theorem C122_errors (solver : List (Matrix n n ℝ × ℕ) → List (Matrix n n ℝ) × List (Matrix n n ℝ))
    (centered posdef : Bool) (priors : Option (List ℝ)) (X : Fin N → n → ℝ) (y : Fin N → α) :
    (daFit solver centered posdef priors X y = .error .value ↔
      ((Finset.univ.image y).card < 2 ∨ ∃ c, (Finset.univ.filter fun i => y i = c).card = 1)) ∧
    ((∃ f, daFit solver centered posdef priors X y = .ok f) ↔
      2 ≤ (Finset.univ.image y).card ∧ ∀ c, (Finset.univ.filter fun i => y i = c).card ≠ 1) := by
  have hlen : (classesOf y).length = (Finset.univ.image y).card := Finset.length_sort _
  rw [← hlen]
  by_cases h1 : (classesOf y).length < 2
  · have e : daFit solver centered posdef priors X y = .error .value := by simp only [daFit, if_pos h1]
    refine ⟨⟨fun _ => .inl h1, fun _ => e⟩, ⟨fun ⟨f, hf⟩ => ?_, fun h => absurd h1 (not_lt.mpr h.1)⟩⟩
    rw [e] at hf; cases hf
  · by_cases h2 : ((List.range (classesOf y).length).any fun k => decide ((rowsOf (encode y) k).card = 1)) = true
    · have e : daFit solver centered posdef priors X y = .error .value := by
        simp only [daFit, if_neg h1]; exact if_pos h2
      have h2' := (any_single_iff y).mp h2
      refine ⟨⟨fun _ => .inr h2', fun _ => e⟩, ⟨fun ⟨f, hf⟩ => ?_, fun h => ?_⟩⟩
      · rw [e] at hf; cases hf
      · obtain ⟨c, hc⟩ := h2'; exact absurd hc (h.2 c)
    · have e : ∃ f, daFit solver centered posdef priors X y = .ok f := by
        simp only [daFit, if_neg h1]; exact ⟨_, if_neg h2⟩
      have h2' := fun h => h2 ((any_single_iff y).mpr h)
      refine ⟨⟨fun h => ?_, fun h => ?_⟩, ⟨fun _ => ⟨not_lt.mp h1, fun c hc => h2' ⟨c, hc⟩⟩, fun _ => e⟩⟩
      · obtain ⟨f, hf⟩ := e; rw [hf] at h; cases h
      · exact absurd h (not_or.mpr ⟨h1, h2'⟩)

theorem daFit_ok {solver : List (Matrix n n ℝ × ℕ) → List (Matrix n n ℝ) × List (Matrix n n ℝ)}
    {centered posdef : Bool} {priors : Option (List ℝ)} {X : Fin N → n → ℝ} {y : Fin N → α} {f : DAFit α n}
    (h : daFit solver centered posdef priors X y = .ok f) :
    2 ≤ (classesOf y).length ∧ f =
      { classes := classesOf y
        priors := priors.getD ((fitInput centered X y).map fun d => (d.count : ℝ) / N)
        means := (fitInput centered X y).map fun d => d.location
        precision := if posdef then (tglFit solver centered X y).1.map ensurePosdef2d else (tglFit solver centered X y).1
        covariance := if posdef then ((tglFit solver centered X y).1.map ensurePosdef2d).map fun P => P⁻¹
          else (tglFit solver centered X y).2
        estPrecision := if posdef then (tglFit solver centered X y).1.map ensurePosdef2d
          else (tglFit solver centered X y).1
        estCovariance := (tglFit solver centered X y).2 } := by
  obtain ⟨e1, e2⟩ := C120_relabel solver centered X y _ (idxOf_strictMonoOn y)
  have hp : ((List.range (classesOf y).length).map fun k => ((rowsOf (encode y) k).card : ℝ) / N) =
      (fitInput centered X y).map fun d => (d.count : ℝ) / N := by
    refine List.ext_getElem (by simp [fitInput]) fun k h1 h2 => ?_
    have hk : k < (classesOf y).length := by simpa using h1
    simp only [List.getElem_map, List.getElem_range, fitInput]
    rw [rowsOf_encode y k hk]
  by_cases h1 : (classesOf y).length < 2
  · simp only [daFit, if_pos h1] at h; cases h
  by_cases h2 : ((List.range (classesOf y).length).any fun k => decide ((rowsOf (encode y) k).card = 1)) = true
  · have e : daFit solver centered posdef priors X y = .error .value := by
      simp only [daFit, if_neg h1]; exact if_pos h2
    rw [e] at h; cases h
  refine ⟨not_lt.mp h1, ?_⟩
  simp only [daFit, if_neg h1] at h
  have h3 := (if_neg h2).symm.trans h
  injection h3 with h3
  rw [← h3]
  have e1' : (fitInput centered X (encode y)).map (fun d => d.location) = (fitInput centered X y).map fun d => d.location := by
    show (fitInput centered X (fun i => (fun a => (classesOf y).idxOf a) (y i))).map (fun d => d.location) = _
    rw [e1, List.map_map]; rfl
  have e2' : tglFit solver centered X (encode y) = tglFit solver centered X y := e2
  rw [hp, e1', e2']
  cases posdef <;> rfl

/-- C122: the attributes of a fitted classifier line up with `classes_`: the classes are the labels in increasing order,
the k-th mean is the mean of the rows of the k-th class (zero with `assume_centered`), the default priors are the
frequencies, positive and adding up to one, and the matrices are those the estimator computes from the original labels.
Given priors are stored unchecked. -/
theorem C122_fit (solver : List (Matrix n n ℝ × ℕ) → List (Matrix n n ℝ) × List (Matrix n n ℝ))
    (centered posdef : Bool) (priors : Option (List ℝ)) (X : Fin N → n → ℝ) (y : Fin N → α) (f : DAFit α n)
    (h : daFit solver centered posdef priors X y = .ok f) :
    f.classes.Pairwise (· < ·) ∧ (∀ c, c ∈ f.classes ↔ ∃ i, y i = c) ∧
    f.means = f.classes.map (fun c j => if centered then 0 else
      (∑ i ∈ Finset.univ.filter (fun i => y i = c), X i j) / (Finset.univ.filter fun i => y i = c).card) ∧
    (priors = none → f.priors = f.classes.map (fun c => ((Finset.univ.filter fun i => y i = c).card : ℝ) / N) ∧
      (∀ p ∈ f.priors, 0 < p) ∧ f.priors.sum = 1) ∧
    (∀ p, priors = some p → f.priors = p) ∧
    (posdef = false → (f.precision, f.covariance) = tglFit solver centered X y) := by
  obtain ⟨hl, rfl⟩ := daFit_ok h
  have hN : (0 : ℝ) < N := by
    have : 0 < N := by
      rcases Nat.eq_zero_or_pos N with rfl | h
      · simp [classesOf] at hl
      · exact h
    exact_mod_cast this
  obtain ⟨c1, c2, c3, c4⟩ := C120_classes centered X y
  have hcls : (fitInput centered X y).map (·.cls) = classesOf y := by simp [fitInput, Function.comp_def]
  rw [hcls] at c1 c2
  refine ⟨c1, c2, ?_, ?_, ?_, ?_⟩
  · simp only [fitInput, List.map_map]
    refine List.map_congr_left fun c _ => ?_
    cases centered <;> rfl
  · rintro rfl
    refine ⟨?_, ?_, ?_⟩
    · simp only [Option.getD_none, fitInput, List.map_map]; rfl
    · intro p hp
      simp only [Option.getD_none] at hp
      obtain ⟨d, hd, rfl⟩ := List.mem_map.mp hp
      exact div_pos (by exact_mod_cast c3 d hd) hN
    · simp only [Option.getD_none]
      have e : ((fitInput centered X y).map fun d => (d.count : ℝ) / N).sum =
          (((fitInput centered X y).map (·.count)).sum : ℕ) / (N : ℝ) := by
        generalize fitInput centered X y = l
        induction l with
        | nil => simp
        | cons d l ih => simp only [List.map_cons, List.sum_cons, ih]; push_cast; ring
      rw [e, c4, div_self hN.ne']
  · rintro p rfl; rfl
  · rintro rfl; rfl

/-- C122: with `ensure_posdef`, whatever symmetric matrices the estimator returns, the classifier's precisions are positive
definite, agree with the estimator's off the diagonal, and the covariances used by the decision function are their
inverses, positive definite too. -/
theorem C122_posdef {p : ℕ} (solver : List (Matrix (Fin p) (Fin p) ℝ × ℕ) → List (Matrix (Fin p) (Fin p) ℝ) × List (Matrix (Fin p) (Fin p) ℝ))
    (centered : Bool) (priors : Option (List ℝ)) (X : Fin N → Fin p → ℝ) (y : Fin N → α) (f : DAFit α (Fin p))
    (h : daFit solver centered true priors X y = .ok f)
    (hs : ∀ P ∈ (tglFit solver centered X y).1, P.IsSymm) :
    List.Forall₂ (fun P P' => P'.PosDef ∧ ∀ i j, i ≠ j → P' i j = P i j) (tglFit solver centered X y).1 f.precision ∧
    List.Forall₂ (fun P C => C.PosDef ∧ P * C = 1) f.precision f.covariance := by
  obtain ⟨_, rfl⟩ := daFit_ok h
  simp only [if_true]
  constructor
  · rw [List.forall₂_map_right_iff]
    exact List.forall₂_same.mpr fun P hP => ⟨(ensurePosdef2d_spec (hs P hP)).1, (ensurePosdef2d_spec (hs P hP)).2.2⟩
  · rw [List.forall₂_map_right_iff]
    refine List.forall₂_same.mpr fun P hP => ?_
    obtain ⟨P0, h0, rfl⟩ := List.mem_map.mp hP
    have := (ensurePosdef2d_spec (hs P0 h0)).1
    exact ⟨this.inv, mul_nonsing_inv _ (isUnit_iff_ne_zero.mpr this.det_pos.ne')⟩

/-- A data set that `fit` accepts: two classes with two rows each. -/
example (solver : List (Matrix n n ℝ × ℕ) → List (Matrix n n ℝ) × List (Matrix n n ℝ)) (X : Fin 4 → n → ℝ) :
    ∃ f, daFit solver false true none X ![3, 7, 3, 7] = .ok f := by
  refine (C122_errors solver false true none X ![3, 7, 3, 7]).2.mpr ⟨by decide, fun c => ?_⟩
  by_cases h3 : c = 3
  · subst h3; decide
  by_cases h7 : c = 7
  · subst h7; decide
  rw [Finset.filter_eq_empty_iff.mpr]
  · simp
  · intro i _
    fin_cases i
    · exact fun h => h3 h.symm
    · exact fun h => h7 h.symm
    · exact fun h => h3 h.symm
    · exact fun h => h7 h.symm

/-- C122: with `ensure_posdef` fitting the classifier changes the wrapped estimator: its `precision_` is overwritten and
is no longer the inverse of its `covariance_`, although it was when the estimator returned. -/
theorem C122_estimator_modified_false :
    ∃ (solver : List (Matrix (Fin 2) (Fin 2) ℝ × ℕ) → List (Matrix (Fin 2) (Fin 2) ℝ) × List (Matrix (Fin 2) (Fin 2) ℝ))
      (X : Fin 4 → Fin 2 → ℝ) (y : Fin 4 → ℕ) (f : DAFit ℕ (Fin 2)),
      daFit solver false true none X y = .ok f ∧
      (tglFit solver false X y).2 = (tglFit solver false X y).1.map (fun P => P⁻¹) ∧
      f.estPrecision ≠ (tglFit solver false X y).1 ∧
      f.estCovariance ≠ f.estPrecision.map fun P => P⁻¹ := by
  set M : Matrix (Fin 2) (Fin 2) ℝ := !![1, 2; 2, 1] with hM
  have hMd : M.det = -3 := by rw [hM, det_fin_two_of]; norm_num
  have hMs : M.IsSymm := by rw [hM]; ext i j; fin_cases i <;> fin_cases j <;> rfl
  have hnp : ¬ M.PosDef := fun h => by have := h.det_pos; rw [hMd] at this; norm_num at this
  have hpd := (ensurePosdef2d_spec hMs).1
  have hne : ensurePosdef2d M ≠ M := fun h => hnp (h ▸ hpd)
  have hok : ∃ f, daFit (fun _ => ([M, 1], [M⁻¹, 1⁻¹])) false true none (fun _ _ => 0) ![3, 7, 3, 7] = .ok f := by
    refine (C122_errors _ false true none _ ![3, 7, 3, 7]).2.mpr ⟨by decide, fun c => ?_⟩
    by_cases h3 : c = 3
    · subst h3; decide
    by_cases h7 : c = 7
    · subst h7; decide
    rw [Finset.filter_eq_empty_iff.mpr]
    · simp
    · intro i _
      fin_cases i
      · exact fun h => h3 h.symm
      · exact fun h => h7 h.symm
      · exact fun h => h3 h.symm
      · exact fun h => h7 h.symm
  obtain ⟨f, hf⟩ := hok
  refine ⟨_, _, _, f, hf, rfl, ?_, ?_⟩
  · obtain ⟨_, rfl⟩ := daFit_ok hf
    simp only [if_true, tglFit, List.map_cons, List.map_nil]
    intro h
    injection h with h _
    exact hne h
  · obtain ⟨_, rfl⟩ := daFit_ok hf
    simp only [if_true, tglFit, List.map_cons, List.map_nil]
    intro h
    injection h with h _
    have h2 := congrArg (fun P => P⁻¹) h
    rw [nonsing_inv_nonsing_inv _ (isUnit_iff_ne_zero.mpr (by rw [hMd]; norm_num)),
      nonsing_inv_nonsing_inv _ (isUnit_iff_ne_zero.mpr hpd.det_pos.ne')] at h2
    exact hne h2.symm

/-- C122: around a latent variable estimator the classifier uses the wrong Gaussian: the observed variables have the
precision matrix `get_observed_precision()`, but the decision function is that of `covariance_`, the inverse of
`precision_`. Here the two disagree although all matrices are positive definite. -/
theorem C122_latent_false : ∃ (Z W R Rt : Matrix (Fin 2) (Fin 2) ℝ) (S mean x : Fin 2 → ℝ),
    Z.PosDef ∧ W.PosDef ∧ (observedPrecision Z W).PosDef ∧ IsSvd (latentAttrs Z W).2.2 R S Rt ∧
    daDecision (1 / 2) mean S Rt x ≠
      Real.log (1 / 2 * gaussianDensity mean (observedPrecision Z W)⁻¹ x) + 2 / 2 * Real.log (2 * Real.pi) := by
  have hZ : ((2 : ℝ) • (1 : Matrix (Fin 2) (Fin 2) ℝ)).PosDef := PosDef.one.smul (by norm_num)
  have hO : observedPrecision ((2 : ℝ) • (1 : Matrix (Fin 2) (Fin 2) ℝ)) 1 = 1 := by
    unfold observedPrecision; rw [two_smul]; abel
  have hinv : ((2 : ℝ) • (1 : Matrix (Fin 2) (Fin 2) ℝ))⁻¹ = (1 / 2 : ℝ) • 1 := by
    apply inv_eq_right_inv; rw [smul_mul_smul_comm, Matrix.one_mul]; norm_num
  have hsvd : IsSvd (((2 : ℝ) • (1 : Matrix (Fin 2) (Fin 2) ℝ))⁻¹) 1 (fun _ => 1 / 2) 1 := by
    refine ⟨by simp, by simp, fun _ => by norm_num, ?_⟩
    rw [hinv, Matrix.one_mul, Matrix.mul_one, smul_one_eq_diagonal]
  refine ⟨(2 : ℝ) • 1, 1, 1, 1, fun _ => 1 / 2, 0, 0, hZ, PosDef.one, by rw [hO]; exact PosDef.one, hsvd, ?_⟩
  have hd := C122_decision hZ.inv hsvd (1 / 2) (by norm_num) 0 0
  rw [hd, hO]
  have e : (Fintype.card (Fin 2) : ℝ) = 2 := by simp
  rw [e]
  intro h
  have h := add_right_cancel h
  have p1 : ∀ C : Matrix (Fin 2) (Fin 2) ℝ, C.PosDef → 0 < 1 / 2 * gaussianDensity 0 C 0 := fun C hC =>
    mul_pos (by norm_num) (div_pos (Real.exp_pos _) (Real.sqrt_pos.mpr
      (mul_pos (pow_pos (by positivity) _) hC.det_pos)))
  have h2 := Real.log_injOn_pos (p1 _ hZ.inv) (p1 _ PosDef.one.inv) h
  unfold gaussianDensity at h2
  rw [hinv] at h2
  simp only [sub_zero, zero_dotProduct, mul_zero, Real.exp_zero, inv_one, det_one, mul_one, det_smul,
    Fintype.card_fin] at h2
  have hpi : (0 : ℝ) < (2 * Real.pi) ^ 2 := by positivity
  have h3 : Real.sqrt ((2 * Real.pi) ^ 2 * (1 / 2) ^ 2) = Real.sqrt ((2 * Real.pi) ^ 2) := by
    have h4 := mul_left_cancel₀ (by norm_num : (1 / 2 : ℝ) ≠ 0) h2
    rw [one_div (Real.sqrt _), one_div (Real.sqrt _)] at h4
    exact inv_injective h4
  rw [Real.sqrt_inj (by positivity) hpi.le] at h3
  nlinarith

end Verif.Props
