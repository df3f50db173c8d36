import Verif.Model.WPFit
import Verif.Lemmas.Glopridu
import Mathlib.LinearAlgebra.Matrix.PosDef
import Mathlib.Tactic.FieldSimp
import Mathlib.Tactic.Linarith
import Mathlib.Analysis.SpecialFunctions.Log.Basic

/-! Property theorems C224 and C225: the covariances fitted by the Wishart process. -/

namespace Verif.Props

open Verif.Model Verif.Lemmas Matrix

set_option autoImplicit false
set_option linter.unusedSectionVars false

variable {T p : ℕ}

/-- Every fitted covariance is the outer product of one vector. -/
theorem wpCovariance_outer (u : Fin T → Matrix (Fin wpNu) (Fin p) ℝ) (L : Matrix (Fin p) (Fin p) ℝ) (t : Fin T) :
    wpCovariance u L t = vecMulVec (L *ᵥ u t 0) (L *ᵥ u t 0) := by
  unfold wpCovariance gwpConstruct
  rw [transpose_transpose]
  have h : (u t)ᵀ * u t = vecMulVec (u t 0) (u t 0) := by
    ext i j
    rw [mul_apply, vecMulVec_apply]
    exact Fin.sum_univ_one _
  rw [h, mul_vecMulVec, vecMulVec_mul, vecMul_transpose]

/-- The quadratic form of an outer product. -/
theorem outer_mulVec (w x : Fin p → ℝ) : vecMulVec w w *ᵥ x = (w ⬝ᵥ x) • w := by
  ext i
  rw [vecMulVec_mulVec]
  simp [mul_comm]

/-- The pseudo-inverse of an outer product. -/
theorem pinv_outer (w : Fin p → ℝ) : IsPinv (vecMulVec w w) (((w ⬝ᵥ w) ^ 2)⁻¹ • vecMulVec w w) := by
  set s := w ⬝ᵥ w with hs
  have hmul : vecMulVec w w * vecMulVec w w = s • vecMulVec w w := by
    rw [vecMulVec_mul_vecMulVec, vecMulVec_smul]
  have hsym : (vecMulVec w w)ᵀ = vecMulVec w w := by
    ext a b; simp [vecMulVec_apply, mul_comm]
  by_cases h0 : w = 0
  · have hz : vecMulVec w w = 0 := by rw [h0]; ext a b; simp [vecMulVec_apply]
    rw [hz]
    constructor <;> simp
  · have hs0 : s ≠ 0 := by rw [hs]; exact fun h => h0 (dotProduct_self_eq_zero.mp h)
    refine ⟨?_, ?_, ?_, ?_⟩
    · rw [Matrix.mul_smul, hmul, smul_smul, Matrix.smul_mul, hmul, smul_smul]
      rw [show (s ^ 2)⁻¹ * s * s = 1 by field_simp, one_smul]
    · rw [Matrix.smul_mul, hmul, smul_smul, Matrix.smul_mul, Matrix.mul_smul, hmul, smul_smul, smul_smul]
      rw [show (s ^ 2)⁻¹ * s * (s ^ 2)⁻¹ * s = (s ^ 2)⁻¹ by field_simp]
    · rw [Matrix.mul_smul, hmul, transpose_smul, transpose_smul, hsym]
    · rw [Matrix.smul_mul, hmul, transpose_smul, transpose_smul, hsym]

/-- C224: at every time all variables are estimated to be perfectly correlated, and no direction but one has positive
variance: the covariance is `w wᵀ` for one vector `w`. -/
theorem C224_one_direction (u : Fin T → Matrix (Fin wpNu) (Fin p) ℝ) (L : Matrix (Fin p) (Fin p) ℝ) (t : Fin T) :
    (wpCovariance u L t).PosSemidef ∧
      (∀ i j, wpCovariance u L t i j ^ 2 = wpCovariance u L t i i * wpCovariance u L t j j) ∧
      ∃ w : Fin p → ℝ, ∀ x, x ⬝ᵥ (wpCovariance u L t *ᵥ x) = (w ⬝ᵥ x) ^ 2 := by
  rw [wpCovariance_outer]
  refine ⟨?_, fun i j => by simp only [vecMulVec_apply]; ring, L *ᵥ u t 0, fun x => ?_⟩
  · have := posSemidef_vecMulVec_self_star (L *ᵥ u t 0)
    simpa using this
  · rw [outer_mulVec, dotProduct_smul, dotProduct_comm x, smul_eq_mul, sq]

/-- C224: the fitted precision, for any pseudo-inverse: two variables are joined exactly when both have positive
variance, so that every estimated network is a complete graph on some of the variables. -/
theorem C224_complete_network (pinvh : Matrix (Fin p) (Fin p) ℝ → Matrix (Fin p) (Fin p) ℝ)
    (u : Fin T → Matrix (Fin wpNu) (Fin p) ℝ) (L : Matrix (Fin p) (Fin p) ℝ) (t : Fin T)
    (hp : IsPinv (wpCovariance u L t) (wpPrecision pinvh u L t)) (i j : Fin p) :
    wpPrecision pinvh u L t i j ≠ 0 ↔ 0 < wpCovariance u L t i i ∧ 0 < wpCovariance u L t j j := by
  rw [wpCovariance_outer] at hp ⊢
  set w := L *ᵥ u t 0 with hw
  set s := w ⬝ᵥ w with hs
  have hQ := pinv_outer w
  rw [← hs] at hQ
  rw [pinv_unique hp hQ, Matrix.smul_apply, vecMulVec_apply, vecMulVec_apply, vecMulVec_apply, smul_eq_mul]
  have hself : ∀ k, 0 < w k * w k ↔ w k ≠ 0 := fun k => by rw [← sq]; exact sq_pos_iff
  rw [hself, hself]
  constructor
  · intro h
    exact ⟨fun e => h (by rw [e]; ring), fun e => h (by rw [e]; ring)⟩
  · rintro ⟨h1, h2⟩
    have hs0 : s ≠ 0 := fun h => h1 (congrFun (dotProduct_self_eq_zero.mp h) i)
    exact mul_ne_zero (inv_ne_zero (pow_ne_zero 2 hs0)) (mul_ne_zero h1 h2)

/-- C224 fails: with two or more variables no fitted covariance is positive definite, whatever the data, the kernel and
the draws, and no matrix at all - in particular not the fitted precision - is its inverse. -/
theorem C224_positive_definite_false (hp : 2 ≤ p) (u : Fin T → Matrix (Fin wpNu) (Fin p) ℝ)
    (L : Matrix (Fin p) (Fin p) ℝ) (t : Fin T) :
    ¬ (wpCovariance u L t).PosDef ∧ ∀ P, P * wpCovariance u L t ≠ 1 := by
  rw [wpCovariance_outer]
  set w := L *ᵥ u t 0
  obtain ⟨x, hx, hwx⟩ : ∃ x : Fin p → ℝ, x ≠ 0 ∧ w ⬝ᵥ x = 0 := by
    let a : Fin p := ⟨0, by omega⟩
    let b : Fin p := ⟨1, by omega⟩
    have hab : a ≠ b := by simp [a, b]
    by_cases h : w a = 0
    · exact ⟨Pi.single a 1, fun e => by simpa using congrFun e a, by simp [h]⟩
    · refine ⟨Pi.single b (w a) - Pi.single a (w b), fun e => h ?_, ?_⟩
      · have := congrFun e b
        simpa [Pi.single_apply, hab, hab.symm] using this
      · rw [dotProduct_sub, dotProduct_single, dotProduct_single]
        ring
  have hz : vecMulVec w w *ᵥ x = 0 := by rw [outer_mulVec, hwx, zero_smul]
  have hP : ∀ P, P * vecMulVec w w ≠ 1 := by
    intro P h
    apply hx
    rw [← one_mulVec x, ← h, ← mulVec_mulVec, hz, mulVec_zero]
  exact ⟨fun h => hP _ (nonsing_inv_mul _ ((isUnit_iff_isUnit_det _).mp h.isUnit)), hP⟩

/-- C224: the same holds for the predicted covariances at new times. -/
theorem C224_predict_false {nTrain nTest : ℕ} (hp : 2 ≤ p) (A : Matrix (Fin nTest) (Fin nTrain) ℝ)
    (P : Matrix (Fin nTrain) (Fin nTrain) ℝ) (u : Fin nTrain → Matrix (Fin wpNu) (Fin p) ℝ)
    (L : Matrix (Fin p) (Fin p) ℝ) (s : Fin nTest) : ¬ (wpPredict A P u L s).PosDef := by
  have h := (C224_positive_definite_false hp (predictU A P u) L s).1
  unfold wpCovariance at h
  intro hd
  exact h hd.transpose

/-- A state with two correlated variables and a third one without variance; its pseudo-inverse exists. -/
example : ∃ pinvh : Matrix (Fin 3) (Fin 3) ℝ → Matrix (Fin 3) (Fin 3) ℝ,
    IsPinv (wpCovariance (fun _ : Fin 1 => !![1, -1, 0]) 1 0) (wpPrecision pinvh (fun _ : Fin 1 => !![1, -1, 0]) 1 0) ∧
      wpCovariance (fun _ : Fin 1 => !![1, -1, 0]) (1 : Matrix (Fin 3) (Fin 3) ℝ) 0 =
        !![1, -1, 0; -1, 1, 0; 0, 0, 0] := by
  let w : Fin 3 → ℝ := (1 : Matrix (Fin 3) (Fin 3) ℝ) *ᵥ (!![1, -1, 0] : Matrix (Fin 1) (Fin 3) ℝ) 0
  refine ⟨fun _ => ((w ⬝ᵥ w) ^ 2)⁻¹ • vecMulVec w w, ?_, ?_⟩
  · rw [wpCovariance_outer]
    exact pinv_outer w
  · rw [wpCovariance_outer, one_mulVec]
    ext i j
    fin_cases i <;> fin_cases j <;> simp [vecMulVec_apply]

/-! ### C225 -/

section Chain

variable {α β : Type*}

/-- The recorded likelihood is that of the state, at every iteration, and the factor is kept unless it is learned. -/
theorem wpStates_inv (lik : α → β → ℝ) (ds : List (WPDraw α β)) (st : WPChain α β) (h : st.ll = lik st.u st.L) :
    (∀ s ∈ wpStates lik st ds, s.ll = lik s.u s.L) ∧
      ((∀ d ∈ ds, d.ell = none) → ∀ s ∈ wpStates lik st ds, s.L = st.L) ∧ (wpStates lik st ds).length = ds.length := by
  induction ds generalizing st with
  | nil => simp [wpStates]
  | cons d ds ih =>
      have h1 : (wpIter lik st d).ll = lik (wpIter lik st d).u (wpIter lik st d).L := by
        unfold wpIter
        cases d.slice <;> cases d.restart <;> cases d.ell <;> simp [h]
      obtain ⟨a, b, c⟩ := ih (wpIter lik st d) h1
      refine ⟨?_, ?_, by simp [wpStates, c]⟩
      · intro s hs
        rw [wpStates, List.mem_cons] at hs
        rcases hs with rfl | hs
        · exact h1
        · exact a s hs
      · intro he s hs
        have h2 : (wpIter lik st d).L = st.L := by
          have := he d (by simp)
          unfold wpIter
          rw [this]
          cases d.slice <;> cases d.restart <;> simp
        rw [wpStates, List.mem_cons] at hs
        rcases hs with rfl | hs
        · exact h2
        · exact (b (fun d' hd' => he d' (by simp [hd'])) s hs).trans h2

/-- C225, part: when the factor is not learned (`learn_ell=False`), the fit returns a state of the chain after the burn-in
whose likelihood - that of the returned covariances, not just a recorded number - is the largest of all of them; it
raises `ValueError` exactly when no iteration is left. Missing: learned factors, where the claim fails. -/
theorem C225_best_partial (lik : α → β → ℝ) (u0 : α) (L0 : β) (ds : List (WPDraw α β)) (he : ∀ d ∈ ds, d.ell = none)
    (burnIn : ℕ) :
    let states := wpStates lik ⟨u0, L0, lik u0 L0⟩ ds
    (wpEstimate false burnIn L0 states = .error .value ↔ ds.length ≤ burnIn) ∧
      ∀ u L, wpEstimate false burnIn L0 states = .ok (u, L) →
        (∃ s ∈ states.drop burnIn, s.u = u ∧ s.L = L) ∧ ∀ s ∈ states.drop burnIn, lik s.u s.L ≤ lik u L := by
  intro states
  obtain ⟨h1, h2, h3⟩ := wpStates_inv lik ds ⟨u0, L0, lik u0 L0⟩ rfl
  unfold wpEstimate
  constructor
  · rcases hm : (states.drop burnIn).argmax WPChain.ll with _ | s
    · rw [List.argmax_eq_none, List.drop_eq_nil_iff] at hm
      simp only [true_iff]
      exact h3 ▸ hm
    · have hs := List.argmax_mem hm
      simp only [reduceCtorEq, false_iff, not_le]
      by_contra hc
      rw [not_lt] at hc
      rw [List.drop_eq_nil_iff.mpr (h3.le.trans hc)] at hs
      simp at hs
  · intro u L heq
    rcases hm : (states.drop burnIn).argmax WPChain.ll with _ | s
    · rw [hm] at heq
      simp at heq
    · rw [hm] at heq
      simp only [Except.ok.injEq, Prod.mk.injEq, Bool.false_eq_true, if_false] at heq
      have hs := List.argmax_mem hm
      have hmem : ∀ x ∈ states.drop burnIn, x ∈ states := fun x hx => List.mem_of_mem_drop hx
      have hL : s.L = L := (h2 he s (hmem s hs)).trans heq.2
      refine ⟨⟨s, hs, heq.1, hL⟩, fun x hx => ?_⟩
      have := List.le_of_mem_argmax hx hm
      rw [h1 x (hmem x hx), h1 s (hmem s hs), heq.1, hL] at this
      exact this

/-- C225 fails when factors are learned (the default): a run of two iterations whose first state is the better one returns
the state of the first iteration with the factor of the second - a pair the chain never visited - and its likelihood
can be anything, in particular below that of both iterations. -/
theorem C225_mixed_false (lik : α → β → ℝ) (u0 u1 u2 : α) (L0 L1 L2 : β) (h1 : lik u2 L2 < lik u1 L1)
    (h2 : lik u1 L2 < lik u2 L2) :
    let states := wpStates lik ⟨u0, L0, lik u0 L0⟩ [⟨some u1, none, some L1⟩, ⟨some u2, none, some L2⟩]
    wpEstimate true 0 L0 states = .ok (u1, L2) ∧ (∀ s ∈ states, ¬ (s.u = u1 ∧ s.L = L2)) ∧
      ∀ s ∈ states, lik u1 L2 < lik s.u s.L := by
  intro states
  have hst : states = [⟨u1, L1, lik u1 L1⟩, ⟨u2, L2, lik u2 L2⟩] := rfl
  have hlt : ∀ s ∈ states, lik u1 L2 < lik s.u s.L := by
    rw [hst]
    intro s hs
    simp only [List.mem_cons, List.not_mem_nil, or_false] at hs
    rcases hs with rfl | rfl
    · exact h2.trans h1
    · exact h2
  refine ⟨?_, fun s hs hc => ?_, hlt⟩
  · have hm : (states.drop 0).argmax WPChain.ll = some ⟨u1, L1, lik u1 L1⟩ := by
      rw [hst, List.drop_zero, List.argmax_cons, List.argmax_singleton]
      simp only
      rw [if_neg (not_lt.mpr h1.le)]
    unfold wpEstimate
    rw [hm, hst]
    rfl
  · have := hlt s hs
    rw [hc.1, hc.2] at this
    exact lt_irrefl _ this

/-- The hypotheses are met by the Gaussian log-density of the sample 1 with variance `(L u)^2`. -/
example : let lik : ℝ → ℝ → ℝ := fun u L => -(Real.log ((L * u) ^ 2) + 1 / (L * u) ^ 2) / 2
    lik (3 / 5) 2 < lik 1 1 ∧ lik 1 2 < lik (3 / 5) 2 := by
  intro lik
  have e1 : lik (3 / 5) 2 = -(Real.log (36 / 25) + 25 / 36) / 2 := by simp only [lik]; norm_num
  have e2 : lik 1 1 = -1 / 2 := by simp only [lik]; norm_num
  have e3 : lik 1 2 = -(Real.log 4 + 1 / 4) / 2 := by simp only [lik]; norm_num
  rw [e1, e2, e3]
  have h1 := Real.log_lt_sub_one_of_pos (x := 25 / 36) (by norm_num) (by norm_num)
  have h2 := Real.log_lt_sub_one_of_pos (x := 36 / 25 / 4) (by norm_num) (by norm_num)
  rw [Real.log_div (by norm_num) (by norm_num)] at h1 h2
  have h3 : Real.log (36 / 25) = Real.log 36 - Real.log 25 := Real.log_div (by norm_num) (by norm_num)
  constructor <;> linarith

end Chain

end Verif.Props
