import Verif.Model.Metrics

/-! Property theorems C29, C30 (structure_error, mean_structure_error). -/

namespace Verif.Props

open Verif.Model Matrix

set_option autoImplicit false

section Rates

theorem pyDiv_some {a b : ℝ} (h : b ≠ 0) : pyDiv a b = some (a / b) := by simp [pyDiv, h]

theorem pyDiv_none {a b : ℝ} (h : b = 0) : pyDiv a b = none := by simp [pyDiv, h]

/-- All rates are proportions. -/
structure RatesOk (r : StructError) : Prop where
  precision : 0 ≤ r.precision ∧ r.precision ≤ 1
  recall : 0 ≤ r.recall ∧ r.recall ≤ 1
  f1 : 0 ≤ r.f1 ∧ r.f1 ≤ 1
  accuracy : 0 ≤ r.accuracy ∧ r.accuracy ≤ 1
  fomr : 0 ≤ r.false_omission_rate ∧ r.false_omission_rate ≤ 1
  fdr : 0 ≤ r.fdr ∧ r.fdr ≤ 1
  npv : 0 ≤ r.npv ∧ r.npv ≤ 1
  prevalence : 0 ≤ r.prevalence ∧ r.prevalence ≤ 1
  miss_rate : 0 ≤ r.miss_rate ∧ r.miss_rate ≤ 1
  fall_out : 0 ≤ r.fall_out ∧ r.fall_out ≤ 1
  specificity : 0 ≤ r.specificity ∧ r.specificity ≤ 1
  balanced : 0 ≤ r.balanced_accuracy ∧ r.balanced_accuracy ≤ 1
  precision_fdr : r.precision + r.fdr = 1
  npv_fomr : r.npv + r.false_omission_rate = 1
  recall_miss : r.recall + r.miss_rate = 1
  spec_fall : r.specificity + r.fall_out = 1

theorem frac_mem {a b : ℝ} (ha : 0 ≤ a) (hab : a ≤ b) : 0 ≤ a / b ∧ a / b ≤ 1 :=
  ⟨div_nonneg ha (ha.trans hab), div_le_one_of_le₀ hab (ha.trans hab)⟩

theorem f1_mem {p r : ℝ} (hp : 0 ≤ p ∧ p ≤ 1) (hr : 0 ≤ r ∧ r ≤ 1) (h : 0 < p + r) :
    0 ≤ 2 * p * r / (p + r) ∧ 2 * p * r / (p + r) ≤ 1 := by
  refine ⟨by have := mul_nonneg hp.1 hr.1; apply div_nonneg <;> linarith, ?_⟩
  rw [div_le_one h]
  nlinarith [mul_nonneg hp.1 (sub_nonneg.mpr hr.2), mul_nonneg hr.1 (sub_nonneg.mpr hp.2)]

/-- Rates from non-negative counts, of a non-empty set of true edges. -/
theorem structRates_ok {TP FN FP : ℕ} {TN : ℤ} {size : ℕ} (hTN : 0 ≤ TN)
    (hsize : (TP : ℤ) + FN + FP + TN ≤ size) (hpos : 0 < TP + FN) :
    ∃ r, structRates TP FN FP TN size = some r ∧ r.tp = TP ∧ r.fn = FN ∧ r.fp = FP ∧ r.tn = TN ∧
      RatesOk r := by
  have hden : (TP : ℝ) + FN ≠ 0 := by
    have : (0 : ℝ) < (TP : ℝ) + FN := by exact_mod_cast hpos
    exact this.ne'
  have hden' : (0 : ℝ) < (TP : ℝ) + FN := by exact_mod_cast hpos
  have hTNr : (0 : ℝ) ≤ TN := by exact_mod_cast hTN
  have hszr : (TP : ℝ) + FN + FP + TN ≤ size := by exact_mod_cast hsize
  have tp0 : (0 : ℝ) ≤ TP := Nat.cast_nonneg _
  have fn0 : (0 : ℝ) ≤ FN := Nat.cast_nonneg _
  have fp0 : (0 : ℝ) ≤ FP := Nat.cast_nonneg _
  have hsz0 : (size : ℝ) ≠ 0 := by
    have : (0 : ℝ) < size := by linarith
    exact this.ne'
  have hprec : 0 ≤ (if TP + FP > 0 then (TP : ℝ) / ((TP : ℝ) + FP) else 0) ∧
      (if TP + FP > 0 then (TP : ℝ) / ((TP : ℝ) + FP) else 0) ≤ 1 := by
    split
    · exact frac_mem tp0 (by linarith)
    · exact ⟨le_rfl, zero_le_one⟩
  have hrec : 0 ≤ (TP : ℝ) / ((TP : ℝ) + FN) ∧ (TP : ℝ) / ((TP : ℝ) + FN) ≤ 1 :=
    frac_mem tp0 (by linarith)
  have hmiss : (if (FN : ℝ) / ((TP : ℝ) + FN) ≠ 0 then (FN : ℝ) / ((TP : ℝ) + FN)
      else 1 - (TP : ℝ) / ((TP : ℝ) + FN)) = 1 - (TP : ℝ) / ((TP : ℝ) + FN) := by
    split
    · field_simp; ring
    · rfl
  have hfo : 0 ≤ (if (FP : ℤ) + TN > 0 then (FP : ℝ) / ((FP : ℝ) + TN) else 1) ∧
      (if (FP : ℤ) + TN > 0 then (FP : ℝ) / ((FP : ℝ) + TN) else 1) ≤ 1 := by
    split
    · exact frac_mem fp0 (by linarith)
    · exact ⟨zero_le_one, le_rfl⟩
  have hsp : (if (FP : ℤ) + TN > 0 then (TN : ℝ) / ((FP : ℝ) + TN)
      else 1 - (if (FP : ℤ) + TN > 0 then (FP : ℝ) / ((FP : ℝ) + TN) else 1)) =
      1 - (if (FP : ℤ) + TN > 0 then (FP : ℝ) / ((FP : ℝ) + TN) else 1) := by
    split
    · rename_i h
      have : (0 : ℝ) < (FP : ℝ) + TN := by exact_mod_cast h
      field_simp; ring
    · rfl
  have hfdr : (if TP + FP > 0 then (FP : ℝ) / ((TP : ℝ) + FP)
      else 1 - (if TP + FP > 0 then (TP : ℝ) / ((TP : ℝ) + FP) else 0)) =
      1 - (if TP + FP > 0 then (TP : ℝ) / ((TP : ℝ) + FP) else 0) := by
    split
    · rename_i h
      have : (0 : ℝ) < (TP : ℝ) + FP := by exact_mod_cast h
      field_simp; ring
    · rfl
  have hfom : 0 ≤ (if (FN : ℤ) + TN > 0 then (FN : ℝ) / ((FN : ℝ) + TN) else 0) ∧
      (if (FN : ℤ) + TN > 0 then (FN : ℝ) / ((FN : ℝ) + TN) else 0) ≤ 1 := by
    split
    · exact frac_mem fn0 (by linarith)
    · exact ⟨le_rfl, zero_le_one⟩
  have hnpv : (if (FN : ℤ) + TN > 0 then (TN : ℝ) / ((FN : ℝ) + TN)
      else 1 - (if (FN : ℤ) + TN > 0 then (FN : ℝ) / ((FN : ℝ) + TN) else 0)) =
      1 - (if (FN : ℤ) + TN > 0 then (FN : ℝ) / ((FN : ℝ) + TN) else 0) := by
    split
    · rename_i h
      have : (0 : ℝ) < (FN : ℝ) + TN := by exact_mod_cast h
      field_simp; ring
    · rfl
  refine ⟨_, by
    unfold structRates
    simp only [pyDiv_some hden, pyDiv_some hsz0, Option.bind_eq_bind, Option.bind_some,
      Option.pure_def, hmiss, hsp, hfdr, hnpv]
    rfl, rfl, rfl, rfl, rfl, ?_⟩
  generalize (if TP + FP > 0 then (TP : ℝ) / ((TP : ℝ) + FP) else 0) = P at *
  generalize (TP : ℝ) / ((TP : ℝ) + FN) = R at *
  generalize (if (FP : ℤ) + TN > 0 then (FP : ℝ) / ((FP : ℝ) + TN) else 1) = FO at *
  generalize (if (FN : ℤ) + TN > 0 then (FN : ℝ) / ((FN : ℝ) + TN) else 0) = FM at *
  refine ⟨hprec, hrec, ?_, frac_mem (by linarith) (by linarith), hfom, ?_, ?_,
    frac_mem (by linarith) (by linarith), ?_, hfo, ?_, ?_, ?_, ?_, ?_, ?_⟩
  · show 0 ≤ (if P + R > 0 then 2 * P * R / (P + R) else 0) ∧
      (if P + R > 0 then 2 * P * R / (P + R) else 0) ≤ 1
    split
    · rename_i h; exact f1_mem hprec hrec h
    · exact ⟨le_rfl, zero_le_one⟩
  · show 0 ≤ 1 - P ∧ 1 - P ≤ 1
    constructor <;> linarith [hprec.1, hprec.2]
  · show 0 ≤ 1 - FM ∧ 1 - FM ≤ 1
    constructor <;> linarith [hfom.1, hfom.2]
  · show 0 ≤ 1 - R ∧ 1 - R ≤ 1
    constructor <;> linarith [hrec.1, hrec.2]
  · show 0 ≤ 1 - FO ∧ 1 - FO ≤ 1
    constructor <;> linarith [hfo.1, hfo.2]
  · show 0 ≤ 0.5 * (R + (1 - FO)) ∧ 0.5 * (R + (1 - FO)) ≤ 1
    constructor <;> norm_num <;> linarith [hrec.1, hrec.2, hfo.1, hfo.2]
  · show P + (1 - P) = 1
    ring
  · show 1 - FM + FM = 1
    ring
  · show R + (1 - R) = 1
    ring
  · show 1 - FO + FO = 1
    ring

end Rates

section Core

variable {ι : Type*} [Fintype ι]

open Classical in
/-- Number of entries satisfying a condition. -/
noncomputable def countWhere (P : ι → Prop) : ℕ := (Finset.univ.filter P).card

open Classical in
/-- An edge of the truth: a nonzero entry; the diagonal does not count when `no_diagonal`. -/
def IsTrueEdge (isDiag : ι → Prop) (nd : Bool) (t : ι → ℝ) (e : ι) : Prop :=
  t e ≠ 0 ∧ ¬ (nd = true ∧ isDiag e)

/-- A predicted edge: nonzero, at least `eps` in magnitude when thresholding, not on the diagonal
when `no_diagonal`. -/
def IsPredEdge (isDiag : ι → Prop) (nd th : Bool) (eps : ℝ) (p : ι → ℝ) (e : ι) : Prop :=
  p e ≠ 0 ∧ ¬ (th = true ∧ |p e| < eps) ∧ ¬ (nd = true ∧ isDiag e)

open Classical in
/-- The codes counted by the model are the four cells of the confusion table. -/
theorem structureErrorCore_eq (isDiag : ι → Prop) (removed : ℕ) (t p : ι → ℝ) (th : Bool) (eps : ℝ)
    (nd : Bool) :
    structureErrorCore isDiag removed t p th eps nd =
      structRates
        (countWhere fun e => IsTrueEdge isDiag nd t e ∧ IsPredEdge isDiag nd th eps p e)
        (countWhere fun e => IsTrueEdge isDiag nd t e ∧ ¬ IsPredEdge isDiag nd th eps p e)
        (countWhere fun e => ¬ IsTrueEdge isDiag nd t e ∧ IsPredEdge isDiag nd th eps p e)
        ((countWhere fun e => ¬ IsTrueEdge isDiag nd t e ∧ ¬ IsPredEdge isDiag nd th eps p e : ℕ)
          - (if nd then (removed : ℤ) else 0)) (Fintype.card ι) := by
  have code : ∀ e, (if (if nd = true ∧ isDiag e then t e - t e else t e) ≠ 0 then (1 : ℝ)
      else (if nd = true ∧ isDiag e then t e - t e else t e)) =
      if IsTrueEdge isDiag nd t e then 1 else 0 := by
    intro e
    unfold IsTrueEdge
    by_cases h1 : nd = true ∧ isDiag e
    · simp [h1]
    · by_cases h2 : t e = 0 <;> simp [h1, h2]
  have code2 : ∀ e, (if (if nd = true ∧ isDiag e then
        (if th = true ∧ |p e| < eps then 0 else p e) - (if th = true ∧ |p e| < eps then 0 else p e)
        else (if th = true ∧ |p e| < eps then 0 else p e)) ≠ 0 then (2 : ℝ)
      else (if nd = true ∧ isDiag e then
        (if th = true ∧ |p e| < eps then 0 else p e) - (if th = true ∧ |p e| < eps then 0 else p e)
        else (if th = true ∧ |p e| < eps then 0 else p e))) =
      if IsPredEdge isDiag nd th eps p e then 2 else 0 := by
    intro e
    unfold IsPredEdge
    by_cases h1 : nd = true ∧ isDiag e
    · simp [h1]
    · by_cases h3 : th = true ∧ |p e| < eps
      · simp [h1, h3]
      · by_cases h2 : p e = 0
        · simp [h1, h2]
        · simp only [if_neg h1, if_neg h3]; simp [h1, h2]; intro h4; exact not_lt.mp (not_and.mp h3 h4)
  unfold structureErrorCore
  simp only [code, code2]
  have cnt : ∀ (c : ℝ) (Q : ι → Prop), (∀ e, ((if IsTrueEdge isDiag nd t e then (1 : ℝ) else 0)
      + (if IsPredEdge isDiag nd th eps p e then 2 else 0) = c ↔ Q e)) →
      (Finset.univ.filter fun e => (if IsTrueEdge isDiag nd t e then (1 : ℝ) else 0)
      + (if IsPredEdge isDiag nd th eps p e then 2 else 0) = c).card = countWhere Q := by
    intro c Q h
    unfold countWhere
    congr 1
    ext e
    simp [h e]
  rw [cnt 3 (fun e => IsTrueEdge isDiag nd t e ∧ IsPredEdge isDiag nd th eps p e),
    cnt 1 (fun e => IsTrueEdge isDiag nd t e ∧ ¬ IsPredEdge isDiag nd th eps p e),
    cnt 2 (fun e => ¬ IsTrueEdge isDiag nd t e ∧ IsPredEdge isDiag nd th eps p e),
    cnt 0 (fun e => ¬ IsTrueEdge isDiag nd t e ∧ ¬ IsPredEdge isDiag nd th eps p e)]
  all_goals
    intro e
    by_cases h1 : IsTrueEdge isDiag nd t e <;> by_cases h2 : IsPredEdge isDiag nd th eps p e <;>
      simp [h1, h2] <;> norm_num

theorem countWhere_split (P Q : ι → Prop) :
    countWhere (fun e => P e ∧ Q e) + countWhere (fun e => P e ∧ ¬ Q e) = countWhere P := by
  classical
  unfold countWhere
  rw [← Finset.card_filter_add_card_filter_not (s := Finset.univ.filter P) Q, Finset.filter_filter,
    Finset.filter_filter]
  congr 2 <;> (ext e; simp)

theorem countWhere_not (P : ι → Prop) :
    countWhere P + countWhere (fun e => ¬ P e) = Fintype.card ι := by
  classical
  unfold countWhere
  rw [Finset.card_filter_add_card_filter_not, Finset.card_univ]

/-- What a caller may rely on, for a truth and a prediction with entries `ι`. -/
structure ConfusionSpec (isDiag : ι → Prop) (nd th : Bool) (eps : ℝ) (t p : ι → ℝ)
    (r : StructError) : Prop where
  tp : r.tp = countWhere fun e => IsTrueEdge isDiag nd t e ∧ IsPredEdge isDiag nd th eps p e
  fn : r.fn = countWhere fun e => IsTrueEdge isDiag nd t e ∧ ¬ IsPredEdge isDiag nd th eps p e
  fp : r.fp = countWhere fun e => ¬ IsTrueEdge isDiag nd t e ∧ IsPredEdge isDiag nd th eps p e
  tn : r.tn = (countWhere fun e => ¬ (nd = true ∧ isDiag e) ∧ ¬ IsTrueEdge isDiag nd t e ∧
    ¬ IsPredEdge isDiag nd th eps p e : ℕ)
  total : (r.tp : ℤ) + r.fp + r.fn + r.tn = countWhere fun e => ¬ (nd = true ∧ isDiag e)
  edges : r.tp + r.fn = countWhere fun e => IsTrueEdge isDiag nd t e
  rates : RatesOk r

theorem core_spec (isDiag : ι → Prop) (removed : ℕ) (hrem : countWhere isDiag = removed)
    (t p : ι → ℝ) (th : Bool) (eps : ℝ) (nd : Bool) :
    ((∃ e, IsTrueEdge isDiag nd t e) → ∃ r,
      structureErrorCore isDiag removed t p th eps nd = some r ∧ ConfusionSpec isDiag nd th eps t p r) ∧
    ((¬ ∃ e, IsTrueEdge isDiag nd t e) →
      structureErrorCore isDiag removed t p th eps nd = none) := by
  classical
  rw [structureErrorCore_eq]
  set TP := countWhere fun e => IsTrueEdge isDiag nd t e ∧ IsPredEdge isDiag nd th eps p e with hTP
  set FN := countWhere fun e => IsTrueEdge isDiag nd t e ∧ ¬ IsPredEdge isDiag nd th eps p e with hFN
  set FP := countWhere fun e => ¬ IsTrueEdge isDiag nd t e ∧ IsPredEdge isDiag nd th eps p e with hFP
  set Z := countWhere fun e => ¬ IsTrueEdge isDiag nd t e ∧ ¬ IsPredEdge isDiag nd th eps p e with hZ
  set TNs := countWhere fun e => ¬ (nd = true ∧ isDiag e) ∧ ¬ IsTrueEdge isDiag nd t e ∧
    ¬ IsPredEdge isDiag nd th eps p e with hTNs
  set D := countWhere fun e => nd = true ∧ isDiag e with hD
  have hDval : (D : ℤ) = if nd then (removed : ℤ) else 0 := by
    cases nd
    · simp [hD, countWhere]
    · simp [hD, ← hrem]
  have e1 : TP + FN = countWhere fun e => IsTrueEdge isDiag nd t e := countWhere_split _ _
  have e2 : FP + Z = countWhere fun e => ¬ IsTrueEdge isDiag nd t e := countWhere_split _ _
  have e3 := countWhere_not fun e => IsTrueEdge isDiag nd t e
  have e4 : D + TNs = Z := by
    have h := countWhere_split (fun e => ¬ IsTrueEdge isDiag nd t e ∧ ¬ IsPredEdge isDiag nd th eps p e)
      (fun e => nd = true ∧ isDiag e)
    rw [← hZ] at h
    rw [← h]
    congr 1
    · rw [hD]; congr 1; funext e
      unfold IsTrueEdge IsPredEdge
      by_cases h1 : nd = true ∧ isDiag e <;> simp [h1]
    · rw [hTNs]; congr 1; funext e
      rw [and_comm]
  have e5 := countWhere_not fun e => nd = true ∧ isDiag e
  rw [← hD] at e5
  have hTN : ((Z : ℤ) - if nd then (removed : ℤ) else 0) = (TNs : ℤ) := by
    rw [← hDval]; omega
  rw [hTN]
  constructor
  · rintro ⟨e0, he0⟩
    have hpos : 0 < TP + FN := by
      rw [e1]; unfold countWhere
      exact Finset.card_pos.mpr ⟨e0, by simp [he0]⟩
    obtain ⟨r, h1, h2, h3, h4, h5, h6⟩ := structRates_ok (TP := TP) (FN := FN) (FP := FP)
      (TN := (TNs : ℤ)) (size := Fintype.card ι) (by positivity) (by omega) hpos
    refine ⟨r, h1, ⟨h2, h3, h4, h5, ?_, ?_, h6⟩⟩
    · rw [h2, h3, h4, h5]; omega
    · rw [h2, h3]; exact e1
  · intro hno
    have hz : TP + FN = 0 := by
      rw [e1]; unfold countWhere
      rw [Finset.card_eq_zero, Finset.filter_eq_empty_iff]
      intro e _ he
      exact hno ⟨e, he⟩
    have hz' : (TP : ℝ) + FN = 0 := by exact_mod_cast hz
    unfold structRates
    simp [pyDiv_none hz']

end Core

theorem countWhere_of_inj {ι κ : Type*} [Fintype ι] [Fintype κ] (P : ι → Prop) (f : κ → ι)
    (hf : Function.Injective f) (h : ∀ e, P e ↔ ∃ k, f k = e) : countWhere P = Fintype.card κ := by
  classical
  unfold countWhere
  rw [← Finset.card_univ (α := κ), ← Finset.card_image_of_injective _ hf]
  congr 1
  ext e
  simp [h e]

theorem diag_count2 (p : ℕ) : countWhere (fun e : Fin p × Fin p => e.1 = e.2) = p := by
  rw [countWhere_of_inj _ (fun i : Fin p => (i, i)) (fun a b h => (Prod.ext_iff.mp h).1)]
  · exact Fintype.card_fin p
  · rintro ⟨a, b⟩
    exact ⟨fun h => ⟨a, Prod.ext rfl h⟩, fun ⟨k, hk⟩ => by
      rw [Prod.mk.injEq] at hk; exact hk.1.symm.trans hk.2⟩

theorem diag_count3 (T p : ℕ) :
    countWhere (fun e : Fin T × Fin p × Fin p => e.2.1 = e.2.2) = T * p := by
  rw [countWhere_of_inj _ (fun i : Fin T × Fin p => (i.1, i.2, i.2)) (fun a b h => by
    simp only [Prod.mk.injEq] at h
    exact Prod.ext h.1 h.2.1)]
  · rw [Fintype.card_prod, Fintype.card_fin, Fintype.card_fin]
  · rintro ⟨a, b, c⟩
    refine ⟨fun h => ⟨(a, b), ?_⟩, fun ⟨k, hk⟩ => ?_⟩
    · simp only at h; simp [h]
    · simp only [Prod.mk.injEq] at hk
      exact hk.2.1.symm.trans hk.2.2

/-- C29, 2-d arrays: if the truth has an edge the call succeeds and the counts and rates are as
documented; otherwise it raises `ZeroDivisionError` instead of returning something. -/
theorem C29_structure_error {p : ℕ} (t q : Matrix (Fin p) (Fin p) ℝ) (th : Bool) (eps : ℝ) (nd : Bool) :
    ((∃ i j, t i j ≠ 0 ∧ ¬ (nd = true ∧ i = j)) → ∃ r, structureError t q th eps nd = some r ∧
      ConfusionSpec (ι := Fin p × Fin p) (fun e => e.1 = e.2) nd th eps (fun e => t e.1 e.2)
        (fun e => q e.1 e.2) r) ∧
    ((∀ i j, t i j ≠ 0 → (nd = true ∧ i = j)) → structureError t q th eps nd = none) := by
  obtain ⟨h1, h2⟩ := core_spec (ι := Fin p × Fin p) (fun e => e.1 = e.2) p (diag_count2 p)
    (fun e => t e.1 e.2) (fun e => q e.1 e.2) th eps nd
  refine ⟨fun ⟨i, j, h⟩ => h1 ⟨(i, j), h⟩, fun h => h2 ?_⟩
  rintro ⟨⟨i, j⟩, h3, h4⟩
  exact h4 (h i j h3)

/-- C29, 3-d arrays. -/
theorem C29_structure_error_batch {T p : ℕ} (t q : Fin T → Matrix (Fin p) (Fin p) ℝ) (th : Bool)
    (eps : ℝ) (nd : Bool) :
    ((∃ k i j, t k i j ≠ 0 ∧ ¬ (nd = true ∧ i = j)) → ∃ r, structureError3 t q th eps nd = some r ∧
      ConfusionSpec (ι := Fin T × Fin p × Fin p) (fun e => e.2.1 = e.2.2) nd th eps
        (fun e => t e.1 e.2.1 e.2.2) (fun e => q e.1 e.2.1 e.2.2) r) ∧
    ((∀ k i j, t k i j ≠ 0 → (nd = true ∧ i = j)) → structureError3 t q th eps nd = none) := by
  obtain ⟨h1, h2⟩ := core_spec (ι := Fin T × Fin p × Fin p) (fun e => e.2.1 = e.2.2) (T * p)
    (diag_count3 T p) (fun e => t e.1 e.2.1 e.2.2) (fun e => q e.1 e.2.1 e.2.2) th eps nd
  refine ⟨fun ⟨k, i, j, h⟩ => h1 ⟨(k, i, j), h⟩, fun h => h2 ?_⟩
  rintro ⟨⟨k, i, j⟩, h3, h4⟩
  exact h4 (h k i j h3)

/-- Non-vacuity for C29: the all-ones truth and a prediction without edges. -/
example : ∃ r, structureError (p := 2) (fun _ _ => 1) 0 false 0 true = some r ∧ r.tp + r.fn = 2 := by
  classical
  obtain ⟨r, h, hs⟩ := (C29_structure_error (p := 2) (fun _ _ => 1) 0 false 0 true).1
    ⟨0, 1, by simp⟩
  refine ⟨r, h, ?_⟩
  rw [hs.edges]
  have : (fun e : Fin 2 × Fin 2 => IsTrueEdge (fun e => e.1 = e.2) true (fun _ => (1 : ℝ)) e) =
      fun e => ¬ e.1 = e.2 := by funext e; simp [IsTrueEdge]
  have h2 := countWhere_not fun e : Fin 2 × Fin 2 => e.1 = e.2
  rw [diag_count2] at h2
  rw [this]
  simp at h2 ⊢
  omega

/-! ### C30 -/

theorem appendKey_keys {α : Type*} {k : String} {v : α} {d d' : List (String × List α)}
    (h : appendKey k v d = some d') : d'.map Prod.fst = d.map Prod.fst := by
  induction d generalizing d' with
  | nil => simp [appendKey] at h
  | cons x rest ih =>
    obtain ⟨k', l⟩ := x
    unfold appendKey at h
    split at h
    · simp at h; subst h; simp
    · rw [Option.map_eq_some_iff] at h
      obtain ⟨d'', h1, h2⟩ := h
      subst h2
      simp [ih h1]

theorem appendKey_missing {α : Type*} {k : String} (v : α) {d : List (String × List α)}
    (h : k ∉ d.map Prod.fst) : appendKey k v d = none := by
  induction d with
  | nil => rfl
  | cons x rest ih =>
    obtain ⟨k', l⟩ := x
    simp only [List.map_cons, List.mem_cons, not_or] at h
    unfold appendKey
    rw [if_neg h.1, ih h.2]
    rfl

theorem appendKey_present {α : Type*} {k : String} (v : α) {d : List (String × List α)}
    (h : k ∈ d.map Prod.fst) : ∃ d', appendKey k v d = some d' := by
  induction d with
  | nil => simp at h
  | cons x rest ih =>
    obtain ⟨k', l⟩ := x
    unfold appendKey
    by_cases hk : k = k'
    · exact ⟨_, if_pos hk⟩
    · rw [if_neg hk]
      simp only [List.map_cons, List.mem_cons] at h
      obtain ⟨d', hd⟩ := ih (h.resolve_left hk)
      exact ⟨_, by rw [hd]; rfl⟩

theorem appendAll_first_missing {α : Type*} (pre : List (String × α)) (k : String) (v : α)
    (post : List (String × α)) (d : List (String × List α))
    (hpre : ∀ x ∈ pre, x.1 ∈ d.map Prod.fst) (hk : k ∉ d.map Prod.fst) :
    appendAll (pre ++ (k, v) :: post) d = .keyError k := by
  induction pre generalizing d with
  | nil => simp only [List.nil_append, appendAll, appendKey_missing v hk]
  | cons y pre ih =>
    obtain ⟨k', v'⟩ := y
    obtain ⟨d', hd⟩ := appendKey_present v' (hpre (k', v') (by simp))
    have hkeys := appendKey_keys hd
    simp only [List.cons_append, appendAll, hd]
    refine ih d' (fun x hx => ?_) (by rw [hkeys]; exact hk)
    rw [hkeys]
    exact hpre x (List.mem_cons_of_mem _ hx)

/-- C30 is false: every call with a non-empty list of predictions raises — `KeyError: 'mcc'`, unless
`structure_error` itself already raised `ZeroDivisionError`. -/
theorem C30_mean_structure_error_false {P α : Type*} (score : P → Option (List α))
    (hlen : ∀ p vals, score p = some vals → vals.length = structErrorKeys.length)
    (p : P) (preds : List P) :
    (score p = none → meanStructureError score (p :: preds) = .zeroDivision) ∧
    (score p ≠ none → meanStructureError score (p :: preds) = .keyError "mcc") := by
  constructor
  · intro h
    simp [meanStructureError, meanStructureError.go, h]
  · intro h
    obtain ⟨vals, hv⟩ := Option.ne_none_iff_exists'.mp h
    have hl := hlen p vals hv
    have hl' : vals.length = 20 + 1 := hl
    obtain ⟨ini, v, rfl⟩ : ∃ ini v, vals = ini ++ [v] := by
      rcases List.eq_nil_or_concat vals with h0 | ⟨ini, v, h0⟩
      · rw [h0] at hl'; simp at hl'
      · exact ⟨ini, v, by simpa using h0⟩
    have hi : ini.length = 20 := by simpa using hl'
    have hz : structErrorKeys.zip (ini ++ [v]) = meanErrorKeys.zip ini ++ ("mcc", v) :: [] := by
      have : structErrorKeys = meanErrorKeys ++ ["mcc"] := rfl
      rw [this, List.zip_append (by rw [hi]; rfl)]
      rfl
    have hkeys : (meanErrorKeys.map fun k => (k, ([] : List α))).map Prod.fst = meanErrorKeys := by
      rw [List.map_map]; exact List.map_id _
    have := appendAll_first_missing (meanErrorKeys.zip ini) "mcc" v []
      (meanErrorKeys.map fun k => (k, ([] : List α)))
      (fun x hx => by rw [hkeys]; exact (List.of_mem_zip (show (x.1, x.2) ∈ _ from hx)).1)
      (by rw [hkeys]; decide)
    simp [meanStructureError, meanStructureError.go, hv, hz, this]

/-- C30 (part that holds): only the empty list of predictions yields a dictionary, with all
summaries empty. -/
theorem C30_empty_partial {P α : Type*} (score : P → Option (List α)) :
    meanStructureError score [] = .ok (meanErrorKeys.map fun k => (k, [])) := rfl

/-- Non-vacuity for C30: a score with as many values as `structure_error` has keys. -/
example : meanStructureError (fun _ : Unit => some (List.replicate 21 (1 : ℝ))) [(), ()] =
    .keyError "mcc" :=
  (C30_mean_structure_error_false _ (fun _ vals h => by simp at h; rw [← h]; simp; rfl) () [()]).2
    (by simp)

end Verif.Props
