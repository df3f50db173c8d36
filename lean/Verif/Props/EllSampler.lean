import Verif.Model.EllSampler
import Verif.Props.Bayes
import Verif.Props.Wishart
import Mathlib.MeasureTheory.Constructions.Pi
import Mathlib.MeasureTheory.Function.JacobianOneDim
import Mathlib.Probability.Distributions.Gaussian.Real

/-! C209, C210: the Metropolis-Hastings steps of the Wishart process leave the posteriors they evaluate invariant. -/

namespace Verif.Props

open Verif.Model Verif.Spec Verif.Lemmas MeasureTheory ProbabilityTheory

set_option autoImplicit false
set_option linter.unusedSectionVars false

/-- The law of `np.random.uniform()`. -/
noncomputable def uniformLaw : Measure ℝ := volume.restrict (Set.Ico 0 1)

instance : IsProbabilityMeasure uniformLaw := ⟨by simp [uniformLaw]⟩

section General

variable {α : Type} [MeasurableSpace α]

theorem mhLogAccept_nonpos (lp : α → ℝ) (lq : α → α → ℝ) (x y : α) : mhLogAccept lp lq x y ≤ 0 := min_le_left _ _

/-- The expected value of `f` after the decision between `x` and `y`. -/
theorem mh_decision (lp : α → ℝ) (lq : α → α → ℝ) (f : α → ENNReal) (x y : α) :
    ∫⁻ u, f (mhSelect lp lq x y u).1 ∂uniformLaw =
      ENNReal.ofReal (Real.exp (mhLogAccept lp lq x y)) * f y +
        ENNReal.ofReal (1 - Real.exp (mhLogAccept lp lq x y)) * f x := by
  have hA := mhLogAccept_nonpos lp lq x y
  set e := Real.exp (mhLogAccept lp lq x y) with he
  have he0 : 0 < e := Real.exp_pos _
  have he1 : e ≤ 1 := Real.exp_le_one_iff.mpr hA
  have hs : uniformLaw = volume.restrict (Set.Ioo 0 e ∪ Set.Ico e 1) := by
    rw [Set.Ioo_union_Ico_eq_Ioo he0 he1, uniformLaw]
    exact (Measure.restrict_congr_set Ioo_ae_eq_Ico).symm
  have hd : Disjoint (Set.Ioo 0 e) (Set.Ico e 1) := by
    rw [Set.disjoint_left]
    intro u h1 h2
    exact absurd h1.2 (not_lt.mpr h2.1)
  have h1 : ∫⁻ u in Set.Ioo 0 e, f (mhSelect lp lq x y u).1 = ∫⁻ _ in Set.Ioo 0 e, f y := by
    refine setLIntegral_congr_fun measurableSet_Ioo fun u hu => ?_
    have : Real.log u < mhLogAccept lp lq x y := (Real.log_lt_iff_lt_exp hu.1).mpr hu.2
    simp only [mhSelect, if_pos this]
  have h2 : ∫⁻ u in Set.Ico e 1, f (mhSelect lp lq x y u).1 = ∫⁻ _ in Set.Ico e 1, f x := by
    refine setLIntegral_congr_fun measurableSet_Ico fun u hu => ?_
    have : ¬ Real.log u < mhLogAccept lp lq x y := fun h =>
      absurd ((Real.log_lt_iff_lt_exp (lt_of_lt_of_le he0 hu.1)).mp h) (not_lt.mpr hu.1)
    simp only [mhSelect, if_neg this]
  rw [hs, lintegral_union measurableSet_Ico hd, h1, h2, setLIntegral_const, setLIntegral_const,
    Real.volume_Ioo, Real.volume_Ico, sub_zero, mul_comm (f y), mul_comm (f x)]

theorem mhLogAccept_measurable {lp : α → ℝ} {lq : α → α → ℝ} (hlp : Measurable lp)
    (hlq : Measurable (Function.uncurry lq)) :
    Measurable fun z : α × α => mhLogAccept lp lq z.1 z.2 := by
  unfold mhLogAccept
  have h1 : Measurable fun z : α × α => lq z.1 z.2 := hlq
  have h2 : Measurable fun z : α × α => lq z.2 z.1 := hlq.comp measurable_swap
  exact measurable_const.min ((((hlp.comp measurable_snd).sub (hlp.comp measurable_fst)).add h2).sub h1)

theorem ofReal_exp_mul (a b : ℝ) : ENNReal.ofReal (Real.exp a) * ENNReal.ofReal (Real.exp b) =
    ENNReal.ofReal (Real.exp (a + b)) := by
  rw [← ENNReal.ofReal_mul (Real.exp_pos _).le, Real.exp_add]

/-- A Metropolis-Hastings step leaves the density `exp lp` invariant. -/
theorem mh_invariant (nu : Measure α) [SFinite nu] {lp : α → ℝ} {lq : α → α → ℝ} (hlp : Measurable lp)
    (hlq : Measurable (Function.uncurry lq)) (hq : ∀ᵐ x ∂nu, ∫⁻ y, ENNReal.ofReal (Real.exp (lq x y)) ∂nu = 1)
    {f : α → ENNReal} (hf : Measurable f) :
    ∫⁻ x, ENNReal.ofReal (Real.exp (lp x)) * ∫⁻ y, ENNReal.ofReal (Real.exp (lq x y)) *
        ∫⁻ u, f (mhSelect lp lq x y u).1 ∂uniformLaw ∂nu ∂nu =
      ∫⁻ x, ENNReal.ofReal (Real.exp (lp x)) * f x ∂nu := by
  simp only [mh_decision]
  have hA := mhLogAccept_measurable hlp hlq
  have hq' : Measurable fun z : α × α => lq z.1 z.2 := hlq
  set G : α → α → ENNReal := fun x y => ENNReal.ofReal (Real.exp (lp x + lq x y + mhLogAccept lp lq x y)) with hG
  set R : α → α → ENNReal := fun x y => ENNReal.ofReal (Real.exp (lp x)) * ENNReal.ofReal (Real.exp (lq x y)) *
    ENNReal.ofReal (1 - Real.exp (mhLogAccept lp lq x y)) with hR
  have hGm : Measurable (Function.uncurry G) :=
    ENNReal.measurable_ofReal.comp (Real.measurable_exp.comp (((hlp.comp measurable_fst).add hq').add hA))
  have hRm : Measurable (Function.uncurry R) :=
    ((ENNReal.measurable_ofReal.comp (Real.measurable_exp.comp (hlp.comp measurable_fst))).mul
      (ENNReal.measurable_ofReal.comp (Real.measurable_exp.comp hq'))).mul
      (ENNReal.measurable_ofReal.comp (measurable_const.sub (Real.measurable_exp.comp hA)))
  have hsym : ∀ x y, G x y = G y x := fun x y => by simp only [hG, C90_detailed_balance lp lq x y]
  have hGR : ∀ x y, G x y + R x y = ENNReal.ofReal (Real.exp (lp x)) * ENNReal.ofReal (Real.exp (lq x y)) := by
    intro x y
    have h0 : ENNReal.ofReal (Real.exp (mhLogAccept lp lq x y)) +
        ENNReal.ofReal (1 - Real.exp (mhLogAccept lp lq x y)) = 1 := by
      rw [← ENNReal.ofReal_add (Real.exp_pos _).le
        (sub_nonneg.mpr (Real.exp_le_one_iff.mpr (mhLogAccept_nonpos lp lq x y)))]
      simp
    have h1 : G x y = ENNReal.ofReal (Real.exp (lp x)) * ENNReal.ofReal (Real.exp (lq x y)) *
        ENNReal.ofReal (Real.exp (mhLogAccept lp lq x y)) := by
      rw [ofReal_exp_mul, ofReal_exp_mul]
    rw [h1, hR, ← mul_add, h0, mul_one]
  have hGf1 : Measurable fun z : α × α => G z.1 z.2 * f z.1 := hGm.mul (hf.comp measurable_fst)
  have hGf2 : Measurable fun z : α × α => G z.1 z.2 * f z.2 := hGm.mul (hf.comp measurable_snd)
  have hRf : Measurable fun z : α × α => R z.1 z.2 * f z.1 := hRm.mul (hf.comp measurable_fst)
  have hL : ∀ x, ENNReal.ofReal (Real.exp (lp x)) * ∫⁻ y, ENNReal.ofReal (Real.exp (lq x y)) *
      (ENNReal.ofReal (Real.exp (mhLogAccept lp lq x y)) * f y +
        ENNReal.ofReal (1 - Real.exp (mhLogAccept lp lq x y)) * f x) ∂nu =
      ∫⁻ y, G x y * f y ∂nu + ∫⁻ y, R x y * f x ∂nu := by
    intro x
    have hm : Measurable fun y => G x y * f y := hGf2.comp measurable_prodMk_left
    rw [← lintegral_add_left hm, ← lintegral_const_mul']
    · refine lintegral_congr fun y => ?_
      have h1 : G x y = ENNReal.ofReal (Real.exp (lp x)) * ENNReal.ofReal (Real.exp (lq x y)) *
          ENNReal.ofReal (Real.exp (mhLogAccept lp lq x y)) := by
        rw [ofReal_exp_mul, ofReal_exp_mul]
      rw [h1, hR]
      ring
    · exact ENNReal.ofReal_ne_top
  simp only [hL]
  have hm1 : Measurable fun x => ∫⁻ y, G x y * f y ∂nu := Measurable.lintegral_prod_right' hGf2
  rw [lintegral_add_left hm1, lintegral_lintegral_swap (f := fun x y => G x y * f y) hGf2.aemeasurable]
  have hsw : ∫⁻ y, ∫⁻ x, G x y * f y ∂nu ∂nu = ∫⁻ x, ∫⁻ y, G x y * f x ∂nu ∂nu := by
    refine lintegral_congr fun x => lintegral_congr fun y => ?_
    rw [hsym]
  have hm2 : Measurable fun x => ∫⁻ y, G x y * f x ∂nu := Measurable.lintegral_prod_right' hGf1
  rw [hsw, ← lintegral_add_left hm2]
  refine lintegral_congr_ae (hq.mono fun x hx => ?_)
  have hm3 : Measurable fun y => G x y * f x := hGf1.comp measurable_prodMk_left
  show ∫⁻ y, G x y * f x ∂nu + ∫⁻ y, R x y * f x ∂nu = _
  rw [← lintegral_add_left hm3]
  have hm4 : Measurable fun y => ENNReal.ofReal (Real.exp (lq x y)) :=
    ENNReal.measurable_ofReal.comp (Real.measurable_exp.comp (hq'.comp measurable_prodMk_left))
  calc ∫⁻ y, (G x y * f x + R x y * f x) ∂nu
      = ∫⁻ y, ENNReal.ofReal (Real.exp (lp x)) * f x * ENNReal.ofReal (Real.exp (lq x y)) ∂nu := by
        refine lintegral_congr fun y => ?_
        rw [← add_mul, hGR]; ring
    _ = ENNReal.ofReal (Real.exp (lp x)) * f x := by rw [lintegral_const_mul _ hm4, hx, mul_one]

/-- The selected value depends measurably on the current value, the proposal and the draw. -/
theorem mhSelect_measurable {lp : α → ℝ} {lq : α → α → ℝ} (hlp : Measurable lp)
    (hlq : Measurable (Function.uncurry lq)) :
    Measurable fun p : (α × α) × ℝ => (mhSelect lp lq p.1.1 p.1.2 p.2).1 := by
  have hs : MeasurableSet {p : (α × α) × ℝ | Real.log p.2 < mhLogAccept lp lq p.1.1 p.1.2} :=
    measurableSet_lt (Real.measurable_log.comp measurable_snd)
      ((mhLogAccept_measurable hlp hlq).comp measurable_fst)
  have : (fun p : (α × α) × ℝ => (mhSelect lp lq p.1.1 p.1.2 p.2).1) =
      fun p => open Classical in if Real.log p.2 < mhLogAccept lp lq p.1.1 p.1.2 then p.1.2 else p.1.1 := by
    funext p
    unfold mhSelect
    split <;> rfl
  rw [this]
  exact Measurable.ite hs (measurable_snd.comp measurable_fst) (measurable_fst.comp measurable_fst)

end General

section Sweep

variable {S W : Type*} [MeasurableSpace S] [MeasurableSpace W]

theorem sweep_measurable : ∀ (k : ℕ) (step : Fin k → W → S → S)
    (_ : ∀ i, Measurable fun p : W × S => step i p.1 p.2),
    Measurable fun p : (Fin k → W) × S => sweep k step p.1 p.2
  | 0, _, _ => measurable_snd
  | k + 1, step, h => by
    have h1 := sweep_measurable k (fun i => step i.succ) (fun i => h i.succ)
    have h0 : Measurable fun p : (Fin (k + 1) → W) × S => (p.1 0, p.2) :=
      ((measurable_pi_apply 0).comp measurable_fst).prodMk measurable_snd
    have h3 : Measurable fun p : (Fin (k + 1) → W) × S => step 0 (p.1 0) p.2 := (h 0).comp h0
    have h4 : Measurable fun p : (Fin (k + 1) → W) × S => fun i : Fin k => p.1 i.succ :=
      measurable_pi_iff.mpr fun i => (measurable_pi_apply i.succ).comp measurable_fst
    exact h1.comp (h4.prodMk h3)

/-- A loop whose passes leave a measure invariant, with independent draws, leaves it invariant. -/
theorem sweep_invariant (mu : Measure S) (law : Measure W) [IsProbabilityMeasure law] :
    ∀ (k : ℕ) (step : Fin k → W → S → S) (_ : ∀ i, Measurable fun p : W × S => step i p.1 p.2)
      (_ : ∀ i (g : S → ENNReal), Measurable g → ∫⁻ s, ∫⁻ w, g (step i w s) ∂law ∂mu = ∫⁻ s, g s ∂mu)
      (f : S → ENNReal), Measurable f →
      ∫⁻ s, ∫⁻ w, f (sweep k step w s) ∂(Measure.pi fun _ => law) ∂mu = ∫⁻ s, f s ∂mu
  | 0, _, _, _, f, _ => by simp [sweep]
  | k + 1, step, hm, hinv, f, hf => by
    have ih := sweep_invariant mu law k (fun i => step i.succ) (fun i => hm i.succ) (fun i => hinv i.succ) f hf
    have hk := sweep_measurable k (fun i => step i.succ) (fun i => hm i.succ)
    set g : S → ENNReal := fun s => ∫⁻ w, f (sweep k (fun i => step i.succ) w s) ∂(Measure.pi fun _ => law) with hg
    have hgm : Measurable g := by
      have : Measurable fun p : S × (Fin k → W) => f (sweep k (fun i => step i.succ) p.2 p.1) :=
        (hf.comp hk).comp measurable_swap
      exact this.lintegral_prod_right'
    have key : ∀ s, ∫⁻ w, f (sweep (k + 1) step w s) ∂(Measure.pi fun _ => law) = ∫⁻ w, g (step 0 w s) ∂law := by
      intro s
      have hp := (measurePreserving_piFinSuccAbove (fun _ : Fin (k + 1) => law) 0)
      have hF : Measurable fun p : W × (Fin k → W) =>
          f (sweep k (fun i => step i.succ) p.2 (step 0 p.1 s)) :=
        (hf.comp hk).comp (measurable_snd.prodMk ((hm 0).comp (measurable_fst.prodMk measurable_const)))
      have h1 := hp.lintegral_comp hF
      rw [lintegral_prod _ hF.aemeasurable] at h1
      rw [hg, ← h1]
      rfl
    rw [lintegral_congr key, hinv 0 g hgm, hg]
    exact ih

end Sweep

section Proposals

/-- `exp` of scipy's normal log-density is the Gaussian density. -/
theorem exp_normLogpdf {s : ℝ} (hs : 0 < s) (x y : ℝ) :
    ENNReal.ofReal (Real.exp (normLogpdf y x s)) = gaussianPDF x (.mk (s ^ 2) (sq_nonneg _)) y := by
  have h2 : 0 < Real.sqrt (2 * Real.pi) := Real.sqrt_pos.mpr (by have := Real.pi_pos; positivity)
  rw [gaussianPDF, gaussianPDFReal, normLogpdf, Real.exp_sub, Real.exp_sub, Real.exp_log h2, Real.exp_log hs]
  congr 1
  have h3 : Real.sqrt (2 * Real.pi * ((NNReal.mk (s ^ 2) (sq_nonneg _) : NNReal) : ℝ)) = Real.sqrt (2 * Real.pi) * s := by
    rw [NNReal.coe_mk, Real.sqrt_mul (by have := Real.pi_pos; positivity), Real.sqrt_sq hs.le]
  rw [h3, NNReal.coe_mk]
  have h4 : -((y - x) / s) ^ 2 / 2 = -(y - x) ^ 2 / (2 * s ^ 2) := by field_simp
  rw [h4, div_div, div_eq_inv_mul]

theorem sq_nn_ne {s : ℝ} (hs : 0 < s) : (.mk (s ^ 2) (sq_nonneg _) : NNReal) ≠ 0 := by
  intro h
  have := congrArg NNReal.toReal h
  simp only [NNReal.coe_mk, NNReal.coe_zero] at this
  exact absurd this (by positivity)

theorem normLogpdf_measurable (s : ℝ) : Measurable (Function.uncurry fun x y : ℝ => normLogpdf y x s) := by
  unfold normLogpdf Function.uncurry
  fun_prop

theorem normLogpdf_total {s : ℝ} (hs : 0 < s) (x : ℝ) :
    ∫⁻ y, ENNReal.ofReal (Real.exp (normLogpdf y x s)) = 1 := by
  simp only [exp_normLogpdf hs]
  exact lintegral_gaussianPDF_eq_one x (sq_nn_ne hs)

/-- The proposal `x + s z` has the density the acceptance uses. -/
theorem normal_proposal {s : ℝ} (hs : 0 < s) (x : ℝ) {g : ℝ → ENNReal} (hg : Measurable g) :
    ∫⁻ z, g (x + s * z) ∂gaussianReal 0 1 = ∫⁻ y, ENNReal.ofReal (Real.exp (normLogpdf y x s)) * g y := by
  have h1 : (gaussianReal 0 1).map (fun z => x + s * z) = gaussianReal x (.mk (s ^ 2) (sq_nonneg _)) := by
    have : (fun z : ℝ => x + s * z) = (x + ·) ∘ (s * ·) := rfl
    rw [this, ← Measure.map_map (by fun_prop) (by fun_prop), gaussianReal_map_const_mul,
      gaussianReal_map_const_add]
    simp
  have h2 : Measurable fun z : ℝ => x + s * z := by fun_prop
  rw [← lintegral_map hg h2, h1, gaussianReal_of_var_ne_zero _ (sq_nn_ne hs),
    lintegral_withDensity_eq_lintegral_mul _ (measurable_gaussianPDF _ _) hg]
  refine lintegral_congr fun y => ?_
  rw [exp_normLogpdf hs]
  rfl

end Proposals

section Ell

variable {d : ℕ}

/-- The posterior of the lower triangle: likelihood times independent priors of the entries. -/
noncomputable def ellPosterior (lik : (Fin d → ℝ) → ℝ) (lprior : ℝ → ℝ) : Measure (Fin d → ℝ) :=
  volume.withDensity fun l => ENNReal.ofReal (Real.exp (lik l + ∑ j, lprior (l j)))

/-- A vector with entry `i` separated. -/
def ins {n : ℕ} (i : Fin (n + 1)) (x : ℝ) (r : Fin n → ℝ) : Fin (n + 1) → ℝ := Fin.insertNth (α := fun _ => ℝ) i x r

theorem ins_same {n : ℕ} (i : Fin (n + 1)) (x : ℝ) (r : Fin n → ℝ) : ins i x r i = x := by simp [ins]

theorem ins_succAbove {n : ℕ} (i : Fin (n + 1)) (x : ℝ) (r : Fin n → ℝ) (j : Fin n) : ins i x r (i.succAbove j) = r j := by
  simp [ins]

theorem update_ins {n : ℕ} (i : Fin (n + 1)) (x y : ℝ) (r : Fin n → ℝ) : Function.update (ins i x r) i y = ins i y r := by
  unfold ins
  exact Fin.update_insertNth (α := fun _ => ℝ) i x y r

theorem ins_measurable {n : ℕ} (i : Fin (n + 1)) : Measurable fun q : ℝ × (Fin n → ℝ) => ins i q.1 q.2 :=
  (MeasurableEquiv.piFinSuccAbove (fun _ => ℝ) i).symm.measurable

theorem lintegral_ins {n : ℕ} (i : Fin (n + 1)) {F : (Fin (n + 1) → ℝ) → ENNReal} (hF : Measurable F) :
    ∫⁻ l, F l = ∫⁻ r, ∫⁻ x, F (ins i x r) := by
  have hp := (volume_preserving_piFinSuccAbove (fun _ : Fin (n + 1) => ℝ) i).symm
  rw [← hp.lintegral_comp hF]
  exact lintegral_prod_symm' (fun q : ℝ × (Fin n → ℝ) => F (ins i q.1 q.2)) (hF.comp (ins_measurable i))

/-- Only ratios matter: the selection along one component is the one-dimensional selection. -/
theorem sampleEllComp_insertNth {n : ℕ} (lik : (Fin (n + 1) → ℝ) → ℝ) (lprior : ℝ → ℝ) (sigma : ℝ) (i : Fin (n + 1))
    (x : ℝ) (r : Fin n → ℝ) (z u : ℝ) :
    sampleEllComp lik lprior sigma (ins i x r) i z u =
      (mhSelect (fun a => lik (ins i a r) + lprior a) (fun a b => normLogpdf b a sigma) x (x + sigma * z) u).1 := by
  unfold sampleEllComp
  rw [ins_same, update_ins]
  have hA : mhLogAccept (fun l => lik l + lprior (l i)) (fun a b => normLogpdf (b i) (a i) sigma) (ins i x r)
      (ins i (x + sigma * z) r) = mhLogAccept (fun a => lik (ins i a r) + lprior a) (fun a b => normLogpdf b a sigma) x
      (x + sigma * z) := by
    simp only [mhLogAccept, ins_same]
  by_cases h : Real.log u < mhLogAccept (fun a => lik (ins i a r) + lprior a) (fun a b => normLogpdf b a sigma) x
      (x + sigma * z)
  · have h' := h
    rw [← hA] at h'
    simp only [mhSelect, if_pos h, if_pos h', ins_same]
  · have h' := h
    rw [← hA] at h'
    simp only [mhSelect, if_neg h, if_neg h', ins_same]

theorem ell_log_density_measurable {lik : (Fin d → ℝ) → ℝ} {lprior : ℝ → ℝ} (hlik : Measurable lik)
    (hpr : Measurable lprior) :
    Measurable fun l : Fin d → ℝ => ENNReal.ofReal (Real.exp (lik l + ∑ j, lprior (l j))) :=
  ENNReal.measurable_ofReal.comp (Real.measurable_exp.comp (hlik.add
    (Finset.measurable_sum _ fun j _ => hpr.comp (measurable_pi_apply j))))

theorem upd_measurable {X : Type*} [MeasurableSpace X] (i : Fin d) {a : X → Fin d → ℝ} {b : X → ℝ} (ha : Measurable a)
    (hb : Measurable b) : Measurable fun p => Function.update (a p) i (b p) := by
  refine measurable_pi_iff.mpr fun j => ?_
  by_cases h : j = i
  · subst h
    simpa using hb
  · simp only [Function.update_of_ne h]
    exact (measurable_pi_apply j).comp ha

theorem ellComp_measurable {lik : (Fin d → ℝ) → ℝ} {lprior : ℝ → ℝ} (hlik : Measurable lik) (hpr : Measurable lprior)
    (sigma : ℝ) (i : Fin d) :
    Measurable fun p : (ℝ × ℝ) × (Fin d → ℝ) =>
      Function.update p.2 i (sampleEllComp lik lprior sigma p.2 i p.1.1 p.1.2) := by
  have hlp : Measurable fun l : Fin d → ℝ => lik l + lprior (l i) := hlik.add (hpr.comp (measurable_pi_apply i))
  have hlq : Measurable (Function.uncurry fun a b : Fin d → ℝ => normLogpdf (b i) (a i) sigma) := by
    unfold normLogpdf Function.uncurry
    fun_prop
  have hsel := mhSelect_measurable hlp hlq
  have h2 : Measurable fun p : (ℝ × ℝ) × (Fin d → ℝ) => p.2 := measurable_snd
  have hz : Measurable fun p : (ℝ × ℝ) × (Fin d → ℝ) => p.2 i + sigma * p.1.1 := by fun_prop
  have hupd : Measurable fun p : (ℝ × ℝ) × (Fin d → ℝ) => Function.update p.2 i (p.2 i + sigma * p.1.1) :=
    upd_measurable i h2 hz
  have hu : Measurable fun p : (ℝ × ℝ) × (Fin d → ℝ) => p.1.2 := measurable_snd.comp measurable_fst
  have hc : Measurable fun p : (ℝ × ℝ) × (Fin d → ℝ) => sampleEllComp lik lprior sigma p.2 i p.1.1 p.1.2 := by
    have h3 := hsel.comp ((h2.prodMk hupd).prodMk hu)
    exact (measurable_pi_apply i).comp h3
  exact upd_measurable i h2 hc

/-- One component: the step leaves the posterior invariant. -/
theorem ellComp_invariant {lik : (Fin d → ℝ) → ℝ} {lprior : ℝ → ℝ} (hlik : Measurable lik) (hpr : Measurable lprior)
    {sigma : ℝ} (hs : 0 < sigma) (i : Fin d) {g : (Fin d → ℝ) → ENNReal} (hg : Measurable g) :
    ∫⁻ l, ∫⁻ w, g (Function.update l i (sampleEllComp lik lprior sigma l i w.1 w.2))
        ∂((gaussianReal 0 1).prod uniformLaw) ∂(ellPosterior lik lprior) = ∫⁻ l, g l ∂(ellPosterior lik lprior) := by
  obtain ⟨n, rfl⟩ : ∃ n, d = n + 1 := ⟨d - 1, by have := i.2; omega⟩
  have hc := ellComp_measurable hlik hpr sigma i
  have hden := ell_log_density_measurable hlik hpr
  have hE : Measurable fun l : Fin (n + 1) → ℝ => ∫⁻ w, g (Function.update l i
      (sampleEllComp lik lprior sigma l i w.1 w.2)) ∂((gaussianReal 0 1).prod uniformLaw) :=
    Measurable.lintegral_prod_right' ((hg.comp hc).comp measurable_swap)
  rw [ellPosterior, lintegral_withDensity_eq_lintegral_mul _ hden hE, lintegral_withDensity_eq_lintegral_mul _ hden hg]
  rw [lintegral_ins i (hden.mul hE), lintegral_ins i (hden.mul hg)]
  refine lintegral_congr fun r => ?_
  simp only [Pi.mul_apply]
  have hsplit : ∀ x, ENNReal.ofReal (Real.exp (lik (ins i x r) +
      ∑ j, lprior (ins i x r j))) = ENNReal.ofReal (Real.exp (∑ j, lprior (r j))) *
      ENNReal.ofReal (Real.exp (lik (ins i x r) + lprior x)) := by
    intro x
    rw [ofReal_exp_mul, Fin.sum_univ_succAbove _ i]
    simp only [ins_same, ins_succAbove]
    congr 2
    ring
  have hr : Measurable fun x : ℝ => ins i x r := (ins_measurable i).comp (measurable_id.prodMk measurable_const)
  have hlp : Measurable fun x : ℝ => lik (ins i x r) + lprior x := (hlik.comp hr).add hpr
  have hq := normLogpdf_measurable sigma
  have hmh := mh_invariant volume hlp hq (Filter.Eventually.of_forall fun x => normLogpdf_total hs x)
    (hg.comp hr)
  have hexp : ∀ x, ∫⁻ w, g (Function.update (ins i x r) i
      (sampleEllComp lik lprior sigma (ins i x r) i w.1 w.2)) ∂((gaussianReal 0 1).prod uniformLaw) =
      ∫⁻ y, ENNReal.ofReal (Real.exp (normLogpdf y x sigma)) * ∫⁻ u, (g ∘ fun x => ins i x r)
        (mhSelect (fun x => lik (ins i x r) + lprior x) (fun a b => normLogpdf b a sigma) x y u).1 ∂uniformLaw := by
    intro x
    have hsel := mhSelect_measurable hlp hq
    have hF : Measurable fun w : ℝ × ℝ => (g ∘ fun x => ins i x r)
        (mhSelect (fun x => lik (ins i x r) + lprior x) (fun a b => normLogpdf b a sigma) x
          w.1 w.2).1 :=
      (hg.comp hr).comp (hsel.comp ((measurable_const.prodMk measurable_fst).prodMk measurable_snd))
    have hF1 : Measurable fun w : ℝ × ℝ => (g ∘ fun x => ins i x r)
        (mhSelect (fun x => lik (ins i x r) + lprior x) (fun a b => normLogpdf b a sigma) x
          (x + sigma * w.1) w.2).1 :=
      hF.comp ((show Measurable fun w : ℝ × ℝ => x + sigma * w.1 by fun_prop).prodMk measurable_snd)
    have hF2 : Measurable fun y => ∫⁻ u, (g ∘ fun x => ins i x r)
        (mhSelect (fun x => lik (ins i x r) + lprior x) (fun a b => normLogpdf b a sigma) x y u).1 ∂uniformLaw :=
      hF.lintegral_prod_right'
    rw [← normal_proposal hs x hF2, ← lintegral_prod (fun w : ℝ × ℝ => (g ∘ fun x => ins i x r)
        (mhSelect (fun x => lik (ins i x r) + lprior x) (fun a b => normLogpdf b a sigma) x
          (x + sigma * w.1) w.2).1) hF1.aemeasurable]
    refine lintegral_congr fun w => ?_
    rw [sampleEllComp_insertNth, update_ins]
    rfl
  simp only [hsplit, hexp, mul_assoc]
  have hout : Measurable fun x => ENNReal.ofReal (Real.exp (lik (ins i x r) + lprior x)) :=
    ENNReal.measurable_ofReal.comp (Real.measurable_exp.comp hlp)
  rw [lintegral_const_mul' _ _ ENNReal.ofReal_ne_top, lintegral_const_mul' _ _ ENNReal.ofReal_ne_top]
  exact congrArg _ hmh

/-- C209: for every measurable likelihood and prior and all positive proposal deviations, `sample_ell` maps the posterior
of the lower triangle (likelihood times independent priors of the entries) to itself: if the old values have that
distribution and the draws are independent standard normal and uniform numbers, so have the new ones. -/
theorem C209_ell {lik : (Fin d → ℝ) → ℝ} {lprior : ℝ → ℝ} (hlik : Measurable lik) (hpr : Measurable lprior)
    {sigma : Fin d → ℝ} (hs : ∀ i, 0 < sigma i) :
    Measure.map (fun p : (Fin d → ℝ) × (Fin d → ℝ × ℝ) => sampleEll lik lprior sigma p.2 p.1)
      ((ellPosterior lik lprior).prod (Measure.pi fun _ => (gaussianReal 0 1).prod uniformLaw)) =
      ellPosterior lik lprior := by
  have hm := sweep_measurable d (fun i (zu : ℝ × ℝ) (l : Fin d → ℝ) =>
    Function.update l i (sampleEllComp lik lprior (sigma i) l i zu.1 zu.2))
    (fun i => ellComp_measurable hlik hpr (sigma i) i)
  have hm' : Measurable fun p : (Fin d → ℝ) × (Fin d → ℝ × ℝ) => sampleEll lik lprior sigma p.2 p.1 :=
    hm.comp measurable_swap
  refine Measure.ext_of_lintegral _ fun f hf => ?_
  rw [lintegral_map hf hm', lintegral_prod (fun p : (Fin d → ℝ) × (Fin d → ℝ × ℝ) =>
    f (sampleEll lik lprior sigma p.2 p.1)) (hf.comp hm').aemeasurable]
  exact sweep_invariant _ _ d _ (fun i => ellComp_measurable hlik hpr (sigma i) i)
    (fun i g hg => ellComp_invariant hlik hpr (hs i) i hg) f hf

/-- The hypotheses are met by a standard normal prior and a quadratic likelihood in three entries. -/
example : ∃ (lik : (Fin 3 → ℝ) → ℝ) (lprior : ℝ → ℝ) (sigma : Fin 3 → ℝ),
    Measurable lik ∧ Measurable lprior ∧ (∀ i, 0 < sigma i) ∧ lik 0 ≠ lik 1 :=
  ⟨fun l => -(l 0 * l 2) ^ 2, fun x => -x ^ 2 / 2, fun _ => 1 / 10, by fun_prop, by fun_prop, fun _ => by norm_num,
    by simp⟩

end Ell

section Hyper

/-- The posterior of a positive parameter with log density `lp`. -/
noncomputable def hyperPosterior (lp : ℝ → ℝ) : Measure ℝ :=
  (volume.restrict (Set.Ioi 0)).withDensity fun x => ENNReal.ofReal (Real.exp (lp x))

theorem exp_lognormalLogpdf {s t : ℝ} (hs : 0 < s) (mu : ℝ) :
    ENNReal.ofReal (Real.exp t) * ENNReal.ofReal (Real.exp (lognormalLogpdf (Real.exp t) mu s)) =
      ENNReal.ofReal (Real.exp (normLogpdf t mu s)) := by
  have h2 : 0 < Real.sqrt (2 * Real.pi) := Real.sqrt_pos.mpr (by have := Real.pi_pos; positivity)
  have he := Real.exp_pos t
  have hpos : 0 < lognormalPdf (Real.exp t) mu s := by
    unfold lognormalPdf
    positivity
  rw [← ENNReal.ofReal_mul he.le, lognormalLogpdf, Real.exp_log hpos, lognormalPdf, normLogpdf, Real.exp_sub,
    Real.exp_sub, Real.exp_log h2, Real.exp_log hs, Real.log_exp]
  congr 1
  have h4 : -(1 / 2) * ((t - mu) / s) ^ 2 = -((t - mu) / s) ^ 2 / 2 := by ring
  rw [h4]
  field_simp

/-- The proposal `exp(mu + s z)` has the lognormal density the acceptance uses. -/
theorem lognormal_proposal {s : ℝ} (hs : 0 < s) (mu : ℝ) {g : ℝ → ENNReal} (hg : Measurable g) :
    ∫⁻ z, g (Real.exp (mu + s * z)) ∂gaussianReal 0 1 =
      ∫⁻ y in Set.Ioi 0, ENNReal.ofReal (Real.exp (lognormalLogpdf y mu s)) * g y := by
  have h1 := normal_proposal hs mu (hg.comp Real.measurable_exp)
  have himg : Real.exp '' Set.univ = Set.Ioi 0 := by rw [Set.image_univ, Real.range_exp]
  have h2 := lintegral_image_eq_lintegral_abs_deriv_mul (s := Set.univ) (f := Real.exp) (f' := Real.exp)
    MeasurableSet.univ (fun x _ => (Real.hasDerivAt_exp x).hasDerivWithinAt) Real.exp_injective.injOn
    (fun y => ENNReal.ofReal (Real.exp (lognormalLogpdf y mu s)) * g y)
  rw [himg, Measure.restrict_univ] at h2
  rw [h2]
  refine h1.trans (lintegral_congr fun t => ?_)
  rw [abs_of_pos (Real.exp_pos t), ← mul_assoc, exp_lognormalLogpdf hs]
  rfl

theorem lognormal_measurable (v : ℝ) : Measurable (Function.uncurry fun a b : ℝ =>
    lognormalLogpdf b (lognstat a v).1 (lognstat a v).2) := by
  unfold lognormalLogpdf lognormalPdf lognstat Function.uncurry
  fun_prop

/-- C209: for every measurable log posterior and every positive proposal variance, `sample_hyper_kernel` maps the
distribution with that log density on the positive numbers to itself. -/
theorem C209_hyper {lp : ℝ → ℝ} (hlp : Measurable lp) {v : ℝ} (hv : 0 < v) :
    Measure.map (fun p : ℝ × ℝ × ℝ => (sampleHyper lp v p.1 p.2.1 p.2.2).1)
      ((hyperPosterior lp).prod ((gaussianReal 0 1).prod uniformLaw)) = hyperPosterior lp := by
  have hlq := lognormal_measurable v
  have hsel := mhSelect_measurable hlp hlq
  have hst1 : Measurable fun a : ℝ => (lognstat a v).1 := by unfold lognstat; fun_prop
  have hst2 : Measurable fun a : ℝ => (lognstat a v).2 := by unfold lognstat; fun_prop
  have hprop : Measurable fun p : ℝ × ℝ × ℝ => Real.exp ((lognstat p.1 v).1 + (lognstat p.1 v).2 * p.2.1) :=
    Real.measurable_exp.comp ((hst1.comp measurable_fst).add ((hst2.comp measurable_fst).mul
      (measurable_fst.comp measurable_snd)))
  have hm : Measurable fun p : ℝ × ℝ × ℝ => (sampleHyper lp v p.1 p.2.1 p.2.2).1 :=
    hsel.comp ((measurable_fst.prodMk hprop).prodMk (measurable_snd.comp measurable_snd))
  refine Measure.ext_of_lintegral _ fun f hf => ?_
  have hden : Measurable fun x => ENNReal.ofReal (Real.exp (lp x)) :=
    ENNReal.measurable_ofReal.comp (Real.measurable_exp.comp hlp)
  have hfm : Measurable fun p : ℝ × ℝ × ℝ => f (sampleHyper lp v p.1 p.2.1 p.2.2).1 := hf.comp hm
  rw [lintegral_map hf hm, lintegral_prod (fun p : ℝ × ℝ × ℝ => f (sampleHyper lp v p.1 p.2.1 p.2.2).1)
    hfm.aemeasurable, hyperPosterior, lintegral_withDensity_eq_lintegral_mul _ hden hfm.lintegral_prod_right',
    lintegral_withDensity_eq_lintegral_mul _ hden hf]
  have htot : ∀ᵐ x ∂volume.restrict (Set.Ioi (0 : ℝ)), ∫⁻ y in Set.Ioi 0,
      ENNReal.ofReal (Real.exp (lognormalLogpdf y (lognstat x v).1 (lognstat x v).2)) = 1 := by
    refine ae_restrict_of_forall_mem measurableSet_Ioi fun x hx => ?_
    have := lognormal_proposal (C57_lognstat x v hx hv).2.2 (lognstat x v).1 (g := fun _ => 1) measurable_const
    simpa using this.symm
  have hmh := mh_invariant (volume.restrict (Set.Ioi (0 : ℝ))) hlp hlq htot hf
  refine Eq.trans (lintegral_congr_ae ?_) hmh
  refine ae_restrict_of_forall_mem measurableSet_Ioi fun x hx => ?_
  simp only [Pi.mul_apply]
  congr 1
  have hF : Measurable fun w : ℝ × ℝ => f (mhSelect lp (fun a b : ℝ =>
      lognormalLogpdf b (lognstat a v).1 (lognstat a v).2) x w.1 w.2).1 :=
    hf.comp (hsel.comp ((measurable_const.prodMk measurable_fst).prodMk measurable_snd))
  rw [← lognormal_proposal (C57_lognstat x v hx hv).2.2 (lognstat x v).1 hF.lintegral_prod_right']
  exact lintegral_prod (fun w : ℝ × ℝ => f (sampleHyper lp v x w.1 w.2).1)
    (hfm.comp measurable_prodMk_left).aemeasurable

/-- The hypotheses are met, with a finite posterior that is not constant. -/
example : ∃ (lp : ℝ → ℝ) (v : ℝ), Measurable lp ∧ 0 < v ∧ lp 1 ≠ lp 2 :=
  ⟨fun x => -x, 1, by fun_prop, one_pos, by norm_num⟩

end Hyper

section GP

variable {N T : ℕ}

/-- Log posterior of the kernel parameter given `N` independent series from the Gaussian process of mean zero, which is the
process `sample_gp` draws from. -/
noncomputable def gpLogPost (u : Matrix (Fin N) (Fin T) ℝ) (kern : ℝ → Matrix (Fin T) (Fin T) ℝ) (lprior : ℝ → ℝ)
    (theta : ℝ) : ℝ :=
  ∑ k, Real.log (gaussianDensity 0 (kern theta) (u k)) + lprior theta

open Matrix in
theorem quad_center {A : Matrix (Fin T) (Fin T) ℝ} (hA : A.IsSymm) (hN : N ≠ 0) (u : Matrix (Fin N) (Fin T) ℝ) :
    ∑ k, (u k - colMean u) ⬝ᵥ (A *ᵥ (u k - colMean u)) =
      ∑ k, u k ⬝ᵥ (A *ᵥ u k) - N * (colMean u ⬝ᵥ (A *ᵥ colMean u)) := by
  have hsw : ∀ v w : Fin T → ℝ, v ⬝ᵥ (A *ᵥ w) = w ⬝ᵥ (A *ᵥ v) := by
    intro v w
    rw [dotProduct_mulVec, ← mulVec_transpose, hA, dotProduct_comm]
  have h1 : ∀ k, (u k - colMean u) ⬝ᵥ (A *ᵥ (u k - colMean u)) =
      u k ⬝ᵥ (A *ᵥ u k) - 2 * (u k ⬝ᵥ (A *ᵥ colMean u)) + colMean u ⬝ᵥ (A *ᵥ colMean u) := by
    intro k
    rw [mulVec_sub, dotProduct_sub, sub_dotProduct, sub_dotProduct, hsw (colMean u) (u k)]
    ring
  have h2 : ∑ k, u k ⬝ᵥ (A *ᵥ colMean u) = N * (colMean u ⬝ᵥ (A *ᵥ colMean u)) := by
    simp only [dotProduct]
    rw [Finset.sum_comm, Finset.mul_sum]
    refine Finset.sum_congr rfl fun j _ => ?_
    rw [← Finset.sum_mul, ← colMean_mul hN]
    ring
  simp only [h1, Finset.sum_add_distrib, Finset.sum_sub_distrib, ← Finset.mul_sum, h2, Finset.sum_const,
    Finset.card_univ, Fintype.card_fin, nsmul_eq_mul]
  ring

open Matrix in
/-- C210 (partial): the log posterior that `sample_hyper_kernel` uses is that of the Gaussian process plus a term in the
mean of the series over all dimensions and degrees of freedom; the two agree when that mean is zero. -/
theorem C210_target_partial (hN : N ≠ 0) (u : Matrix (Fin N) (Fin T) ℝ) {kern : ℝ → Matrix (Fin T) (Fin T) ℝ}
    (lprior : ℝ → ℝ) {theta : ℝ} (hK : (kern theta).PosDef) :
    hyperLogPost u kern lprior theta =
      gpLogPost u kern lprior theta + N / 2 * (colMean u ⬝ᵥ ((kern theta)⁻¹ *ᵥ colMean u)) := by
  have hs : (kern theta)⁻¹.IsSymm := by
    have := hK.inv.1
    rwa [IsHermitian, conjTranspose_eq_transpose_of_trivial] at this
  have h := quad_center hs hN u
  unfold hyperLogPost gpLogPost
  simp only [mvnLogpdf_eq_log hK, mvnLogpdf, sub_zero, ← Finset.mul_sum, Finset.sum_add_distrib, h]
  ring

/-- C210: a common trend of all series has no influence: adding any series to all of them does not change the log
posterior at any parameter, hence no decision of the sampler. -/
theorem C210_trend_ignored (u : Matrix (Fin N) (Fin T) ℝ) (c : Fin T → ℝ) (kern : ℝ → Matrix (Fin T) (Fin T) ℝ)
    (lprior : ℝ → ℝ) (v theta z w : ℝ) :
    sampleHyper (hyperLogPost (Matrix.of fun k t => u k t + c t) kern lprior) v theta z w =
      sampleHyper (hyperLogPost u kern lprior) v theta z w := by
  rcases Nat.eq_zero_or_pos N with hN | hN
  · subst hN
    have : hyperLogPost (Matrix.of fun k t => u k t + c t) kern lprior = hyperLogPost u kern lprior := by
      funext th
      simp [hyperLogPost]
    rw [this]
  · have hmean : colMean (Matrix.of fun k t => u k t + c t) = colMean u + c := by
      funext j
      have hN' : (N : ℝ) ≠ 0 := by positivity
      simp only [colMean, Matrix.of_apply, Finset.sum_add_distrib, Finset.sum_const, Finset.card_univ, Fintype.card_fin,
        nsmul_eq_mul, Pi.add_apply]
      field_simp
    have hrow : ∀ k, (Matrix.of fun k t => u k t + c t) k - colMean (Matrix.of fun k t => u k t + c t) =
        u k - colMean u := by
      intro k
      rw [hmean]
      funext j
      simp only [Matrix.of_apply, Pi.sub_apply, Pi.add_apply]
      ring
    have : hyperLogPost (Matrix.of fun k t => u k t + c t) kern lprior = hyperLogPost u kern lprior := by
      funext th
      simp only [hyperLogPost, mvnLogpdf, hrow]
    rw [this]

/-- C210: so the distribution that the step leaves invariant is not the posterior of the kernel parameter given the
series: there are a series, a positive definite kernel and a flat prior for which the two log densities differ by more
than a constant. -/
theorem C210_posterior_false : ∃ (u : Matrix (Fin 1) (Fin 1) ℝ) (kern : ℝ → Matrix (Fin 1) (Fin 1) ℝ),
    (∀ theta, 0 < theta → (kern theta).PosDef) ∧
      ∃ a b : ℝ, 0 < a ∧ 0 < b ∧ hyperLogPost u kern (fun _ => 0) a - hyperLogPost u kern (fun _ => 0) b ≠
        gpLogPost u kern (fun _ => 0) a - gpLogPost u kern (fun _ => 0) b := by
  have hpd : ∀ theta : ℝ, 0 < theta → (theta • (1 : Matrix (Fin 1) (Fin 1) ℝ)).PosDef := fun theta h =>
    Matrix.PosDef.one.smul h
  refine ⟨Matrix.of fun _ _ => 1, fun theta => theta • 1, hpd, 1, 2, one_pos, two_pos, ?_⟩
  rw [C210_target_partial one_ne_zero _ (kern := fun theta => theta • 1) _ (hpd 1 one_pos),
    C210_target_partial one_ne_zero _ (kern := fun theta => theta • 1) _ (hpd 2 two_pos)]
  have hm : colMean (Matrix.of fun _ _ => (1 : ℝ) : Matrix (Fin 1) (Fin 1) ℝ) = fun _ => 1 := by
    funext j
    simp [colMean]
  have hi : ((2 : ℝ) • (1 : Matrix (Fin 1) (Fin 1) ℝ))⁻¹ = (1 / 2 : ℝ) • 1 := by
    apply Matrix.inv_eq_right_inv
    simp [smul_smul]
  rw [hm, hi, one_smul, inv_one]
  simp [dotProduct, Matrix.mulVec, Matrix.one_apply]
  intro h
  linarith

end GP

end Verif.Props
