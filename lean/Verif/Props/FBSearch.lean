import Verif.Lemmas.LogdetUpper
import Verif.Props.FB

/-! C73: the backtracking search of the forward-backward solver terminates. -/

namespace Verif.Props

open Matrix Verif.Spec Verif.Model Verif.Lemmas

set_option autoImplicit false
set_option linter.unusedSectionVars false

variable {n : Type*} [Fintype n] [LinearOrder n] {T : ℕ}

theorem fbProx_symm (tv : (Fin (T + 1) → ℝ) → ℝ → Fin (T + 1) → ℝ) (a : FBArgs T n)
    {x grad : Batch (T + 1) n} (hx : ∀ t, (x t).IsSymm) (hg : ∀ t, (grad t).IsSymm) (gamma : ℝ)
    (t : Fin (T + 1)) : (fbProx tv a x grad gamma t).IsSymm := by
  have hxh : ∀ t, ((x - gamma • grad) t).IsSymm := fun t => (hx t).sub (IsSymm.smul (A := grad t) (hg t) gamma)
  unfold fbProx
  split
  · exact (C03_soft_thresholding_off_diagonal_shape _ _).2 (hxh t)
  · exact C10_prox_FL_symm _ _ _ _ _ hxh t

/-- The proximal step is short for short step sizes. -/
theorem prox_step_bound {tv : (Fin (T + 1) → ℝ) → ℝ → Fin (T + 1) → ℝ} (htv : IsTVSolver tv)
    (a : FBArgs T n) (ha : 0 ≤ a.alpha) (hb : 0 ≤ a.beta) (x grad : Batch (T + 1) n) {gamma : ℝ}
    (hg : 0 < gamma) :
    seqSq (fbProx tv a x grad gamma - x) ≤
      2 * gamma * modePenalty a x + gamma ^ 2 * seqSq grad := by
  have hdrop := (fbProx_ineq htv a ha hb x grad hg).drop hg
  set y := fbProx tv a x grad gamma
  have hy := modePenalty_nonneg a ha hb y
  have hsq := seqSq_nonneg ((y - x) + gamma • grad)
  have e : seqSq ((y - x) + gamma • grad) =
      seqSq (y - x) + 2 * gamma * seqInner (y - x) grad + gamma ^ 2 * seqSq grad := by
    rw [← seqInner_self, ← seqInner_self, ← seqInner_self]
    simp only [seqInner_add_left, seqInner_add_right, seqInner_smul_left, seqInner_smul_right]
    rw [seqInner_comm grad (y - x)]; ring
  rw [e] at hsq
  have h1 := mul_le_mul_of_nonneg_left hdrop (by positivity : (0 : ℝ) ≤ 2 * gamma)
  have e2 : 2 * gamma * (-seqInner (y - x) grad - 1 / gamma * seqSq (y - x)) =
      -(2 * gamma * seqInner (y - x) grad) - 2 * seqSq (y - x) := by
    field_simp
  rw [e2] at h1
  have h2 := mul_nonneg (by positivity : (0 : ℝ) ≤ 2 * gamma) hy
  linarith

/-- An explicit admissible step: it depends on the iterate only through a bound `B` of `tr x_t⁻¹` and
a bound `W` of twice the penalty plus the squared gradient. -/
noncomputable def stepBound (a : FBArgs T n) (nS : Fin (T + 1) → ℝ) (B W : ℝ) : ℝ :=
  min 1 (min (1 / (4 * (B ^ 2 + 1)) / (W + 1))
    (a.delta / (((∑ t, nS t * (2 * B ^ 2)) + a.vareps / 2 + 4 * modeBeta a) + 1)))

theorem stepConst_nonneg (a : FBArgs T n) {nS : Fin (T + 1) → ℝ} (hpos : ∀ t, 0 ≤ nS t)
    (hb : 0 ≤ a.beta) (hv : 0 ≤ a.vareps) (B : ℝ) :
    0 ≤ (∑ t, nS t * (2 * B ^ 2)) + a.vareps / 2 + 4 * modeBeta a := by
  have hmb : 0 ≤ modeBeta a := by unfold modeBeta; split <;> simp [hb]
  have : 0 ≤ ∑ t, nS t * (2 * B ^ 2) := Finset.sum_nonneg fun t _ =>
    mul_nonneg (hpos t) (by positivity)
  linarith

theorem stepBound_pos (a : FBArgs T n) {nS : Fin (T + 1) → ℝ} (hpos : ∀ t, 0 ≤ nS t)
    (hb : 0 ≤ a.beta) (hv : 0 ≤ a.vareps) (hd : 0 < a.delta) (B : ℝ) {W : ℝ} (hW : 0 ≤ W) :
    0 < stepBound a nS B W := by
  have hc := stepConst_nonneg a hpos hb hv B
  exact lt_min one_pos (lt_min (div_pos (by positivity) (by linarith)) (div_pos hd (by linarith)))

theorem small_steps_of {tv : (Fin (T + 1) → ℝ) → ℝ → Fin (T + 1) → ℝ} (htv : IsTVSolver tv)
    (pinvh : Matrix n n ℝ → Matrix n n ℝ) (a : FBArgs T n) (nS : Fin (T + 1) → ℝ)
    (hn : a.nSamples = some nS) (hpos : ∀ t, 0 ≤ nS t) (hS : ∀ t, (a.empCov t).IsSymm)
    (ha : 0 ≤ a.alpha) (hb : 0 ≤ a.beta) (hv : 0 ≤ a.vareps) (hd : 0 < a.delta)
    {x : Batch (T + 1) n} (hx : ∀ t, (x t).PosDef) (hp : ∀ t, pinvh (x t) = (x t)⁻¹)
    (g : Batch (T + 1) n) (h : fbGradient a x (fun t => pinvh (x t)) = .ok g) {lamda : ℝ}
    (hl0 : 0 ≤ lamda) (hl1 : lamda ≤ 1) {B W' : ℝ} (hB : ∀ t, trace (x t)⁻¹ ≤ B)
    (hW' : 2 * modePenalty a x + seqSq g ≤ W') (gamma : ℝ) (hg : 0 < gamma)
    (hle : gamma ≤ stepBound a nS B W') :
      Admissible "gamma" (fbLoss a) x g lamda a.delta gamma (fbProx tv a x g gamma) ∧
        ∀ t, (fbUpdate lamda x (fbProx tv a x g gamma) t).PosDef := by
  have hmb : 0 ≤ modeBeta a := by unfold modeBeta; split <;> simp [hb]
  have hup := smoothTime_upper_of a.empCov hpos hv hmb hx hB
  have hc := stepConst_nonneg a hpos hb hv B
  unfold stepBound at hle
  set c := (∑ t, nS t * (2 * B ^ 2)) + a.vareps / 2 + 4 * modeBeta a
  have hr : 0 < 1 / (4 * (B ^ 2 + 1)) := by positivity
  set r := 1 / (4 * (B ^ 2 + 1))
  have hP := modePenalty_nonneg a ha hb x
  have hG := seqSq_nonneg g
  set W := W' + 1 with hW
  have hWpos : 0 < W := by linarith
  have hg1 : gamma ≤ 1 := hle.trans (min_le_left _ _)
  have hgr : gamma * W ≤ r :=
    (le_div_iff₀ hWpos).mp (hle.trans ((min_le_right _ _).trans (min_le_left _ _)))
  have hgc : gamma * (c + 1) ≤ a.delta :=
    (le_div_iff₀ (by linarith)).mp (hle.trans ((min_le_right _ _).trans (min_le_right _ _)))
  have hgs := fbGradient_symm a x _ g h hS (fun t => (hx t).isSymm') fun t => by
    rw [hp]; exact PosDef.isSymm' (hx t).inv
  have hys := fbProx_symm tv a (fun t => (hx t).isSymm') hgs gamma
  have hstep := prox_step_bound htv a ha hb x g hg
  set y := fbProx tv a x g gamma with hy
  have hsmall : seqSq (y - x) ≤ r := by
    refine hstep.trans (le_trans ?_ hgr)
    have : gamma ^ 2 * seqSq g ≤ gamma * seqSq g := by
      refine mul_le_mul_of_nonneg_right ?_ hG
      nlinarith
    rw [hW]
    have h3 := mul_le_mul_of_nonneg_left hW' hg.le
    linarith
  have hq0 := seqSq_nonneg (y - x)
  have hsq : seqSq (lamda • (y - x)) = lamda ^ 2 * seqSq (y - x) := by
    rw [← seqInner_self, ← seqInner_self, seqInner_smul_left, seqInner_smul_right]; ring
  have hl2 : lamda ^ 2 ≤ 1 := by nlinarith
  have hE := hup (lamda • (y - x)) (fun t =>
    IsSymm.smul (A := y t - x t) ((hys t).sub (hx t).isSymm') lamda) (by
    rw [hsq]
    nlinarith)
  obtain ⟨hpd, hle2⟩ := hE
  have hin := fbGradient_inner a nS hn x _ g h (lamda • (y - x))
  simp only [hp] at hin
  rw [← hin, hsq, seqInner_smul_right] at hle2
  refine ⟨?_, ?_⟩
  · unfold Admissible
    rw [if_pos rfl, C67_loss_value a hx, C67_loss_value a hpd]
    have hs : a.samples = nS := by unfold FBArgs.samples; rw [hn]; rfl
    simp only [XF.sub, XF.add, XF.neg, xfLe, hs]
    rw [seqInner_comm (y - x) g]
    have hfin : c * (lamda ^ 2 * seqSq (y - x)) ≤ lamda * (a.delta / gamma * seqSq (y - x)) := by
      have h1 : c * gamma ≤ a.delta := by nlinarith
      have h2 : c ≤ a.delta / gamma := (le_div_iff₀ hg).mpr h1
      have h3 : c * lamda ≤ a.delta / gamma := by nlinarith
      have h4 := mul_le_mul_of_nonneg_right h3 (mul_nonneg hl0 hq0)
      calc _ = c * lamda * (lamda * seqSq (y - x)) := by ring
        _ ≤ a.delta / gamma * (lamda * seqSq (y - x)) := h4
        _ = _ := by ring
    linarith
  · intro t
    rw [(C45_clip lamda x y).2.2 hl0 hl1]
    exact hpd t

/-- C73: at positive definite iterates every sufficiently small step is admissible, and leads to
positive definite matrices. -/
theorem C73_small_steps {tv : (Fin (T + 1) → ℝ) → ℝ → Fin (T + 1) → ℝ} (htv : IsTVSolver tv)
    (pinvh : Matrix n n ℝ → Matrix n n ℝ) (a : FBArgs T n) (nS : Fin (T + 1) → ℝ)
    (hn : a.nSamples = some nS) (hpos : ∀ t, 0 ≤ nS t) (hS : ∀ t, (a.empCov t).IsSymm)
    (ha : 0 ≤ a.alpha) (hb : 0 ≤ a.beta) (hv : 0 ≤ a.vareps) (hd : 0 < a.delta)
    {x : Batch (T + 1) n} (hx : ∀ t, (x t).PosDef) (hp : ∀ t, pinvh (x t) = (x t)⁻¹)
    (g : Batch (T + 1) n) (h : fbGradient a x (fun t => pinvh (x t)) = .ok g) {lamda : ℝ}
    (hl0 : 0 ≤ lamda) (hl1 : lamda ≤ 1) :
    ∃ bound > 0, ∀ gamma, 0 < gamma → gamma ≤ bound →
      Admissible "gamma" (fbLoss a) x g lamda a.delta gamma (fbProx tv a x g gamma) ∧
        ∀ t, (fbUpdate lamda x (fbProx tv a x g gamma) t).PosDef :=
  ⟨stepBound a nS (∑ t, trace (x t)⁻¹) (2 * modePenalty a x + seqSq g),
    stepBound_pos a hpos hb hv hd _ (add_nonneg (mul_nonneg zero_le_two
      (modePenalty_nonneg a ha hb x)) (seqSq_nonneg g)),
    small_steps_of htv pinvh a nS hn hpos hS ha hb hv hd hx hp g h hl0 hl1
      (fun t => Finset.single_le_sum (f := fun t => trace (x t)⁻¹)
        (fun u _ => (hx u).inv.posSemidef.trace_nonneg) (Finset.mem_univ t)) le_rfl⟩

/-- C73: with a shrink factor in `(0, 1)` and a positive initial step, the search ends at an
admissible step as soon as `max_iter` is large enough. -/
theorem C73_terminates {tv : (Fin (T + 1) → ℝ) → ℝ → Fin (T + 1) → ℝ} (htv : IsTVSolver tv)
    (pinvh : Matrix n n ℝ → Matrix n n ℝ) (a : FBArgs T n) (hch : a.choose = "gamma")
    (nS : Fin (T + 1) → ℝ) (hn : a.nSamples = some nS) (hpos : ∀ t, 0 ≤ nS t)
    (hS : ∀ t, (a.empCov t).IsSymm) (ha : 0 ≤ a.alpha) (hb : 0 ≤ a.beta) (hv : 0 ≤ a.vareps)
    (hd : 0 < a.delta) (he0 : 0 < a.eps) (he1 : a.eps < 1) {x : Batch (T + 1) n}
    (hx : ∀ t, (x t).PosDef) (hp : ∀ t, pinvh (x t) = (x t)⁻¹)
    (g : Batch (T + 1) n) (h : fbGradient a x (fun t => pinvh (x t)) = .ok g) {lamda gamma : ℝ}
    (hl0 : 0 ≤ lamda) (hl1 : lamda ≤ 1) (hg : 0 < gamma) :
    ∃ m, ∀ maxIter ≥ m, ∃ k < maxIter,
      chooseGamma tv a maxIter gamma x g lamda =
        .ok (gamma * a.eps ^ k, fbProx tv a x g (gamma * a.eps ^ k)) ∧
      Admissible "gamma" (fbLoss a) x g lamda a.delta (gamma * a.eps ^ k)
        (fbProx tv a x g (gamma * a.eps ^ k)) := by
  obtain ⟨bound, hbd, hall⟩ := C73_small_steps htv pinvh a nS hn hpos hS ha hb hv hd hx hp g h hl0 hl1
  obtain ⟨j, hj⟩ := exists_pow_lt_of_lt_one (div_pos hbd hg) he1
  have hjb : gamma * a.eps ^ j ≤ bound := by
    rw [mul_comm]; exact ((lt_div_iff₀ hg).mp hj).le
  have hadm := (hall _ (mul_pos hg (pow_pos he0 j)) hjb).1
  refine ⟨j + 1, fun maxIter hm => ?_⟩
  rcases gammaLoop_cases (fbProx tv a x g)
    (gammaAccept a.choose (fbLoss a) x g lamda a.delta) a.eps maxIter gamma with
    ⟨i, hi, h1, h2⟩ | hno
  · refine ⟨i, hi, gammaLoop_first _ _ _ _ _ none i hi h1 h2, ?_⟩
    rw [gammaAccept_iff, hch] at h1
    exact h1
  · have := hno j (by omega)
    rw [hch, (gammaAccept_iff _ _ _ _ _ _ _ _).mpr hadm] at this
    exact absurd this (by simp)

/-- The hypotheses are met by a non-trivial instance. -/
example : ∃ (tv : (Fin 2 → ℝ) → ℝ → Fin 2 → ℝ) (a : FBArgs 1 (Fin 1)), IsTVSolver tv ∧
    a.choose = "gamma" ∧ a.nSamples = some (fun _ => 1) ∧ 0 < a.delta ∧ 0 < a.eps ∧ a.eps < 1 ∧
    ∃ g, fbGradient a (fun _ => (2 : ℝ) • 1) (fun _ => ((2 : ℝ) • (1 : Matrix (Fin 1) (Fin 1) ℝ))⁻¹) =
      .ok g := by
  obtain ⟨tv, h⟩ := exists_tvSolver 1
  refine ⟨tv, fbDemo "gamma" true (some fun _ => 1), h, rfl, rfl, ?_, ?_, ?_, _, rfl⟩ <;>
    norm_num [fbDemo]

end Verif.Props
