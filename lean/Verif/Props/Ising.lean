import Verif.Lemmas.Ising
import Mathlib.MeasureTheory.Integral.IntervalIntegral.Basic
import Mathlib.Tactic.FinCases
import Mathlib.Tactic.NormNum

/-! Properties of the Ising samplers and of the random graph updates (C51, C52, C53, C78-C81). -/

namespace Verif.Props

open Verif.Model Verif.Spec Verif.Lemmas Matrix

set_option autoImplicit false
set_option linter.unusedSectionVars false

variable {p : ℕ}

/-! ### C51: states of the Metropolis-Hastings sampler -/

theorem mhVisit_inv (a : IsingArgs p) (cs : Fin p → Option ℝ) (u s : Fin p → ℝ) (i : Fin p)
    (h : ∀ j, (∀ v, cs j = some v → s j = v) ∧ (cs j = none → s j = a.r0 ∨ s j = a.r1)) :
    ∀ j, (∀ v, cs j = some v → mhVisit a cs u s i j = v) ∧
      (cs j = none → mhVisit a cs u s i j = a.r0 ∨ mhVisit a cs u s i j = a.r1) := by
  intro j
  unfold mhVisit
  cases hi : cs i with
  | some v => simpa using h j
  | none =>
      simp only
      by_cases hj : j = i
      · subst hj
        refine ⟨fun v hv => (by rw [hi] at hv; exact absurd hv (by simp)), fun _ => ?_⟩
        rw [Function.update_self]
        split <;> simp
      · rw [Function.update_of_ne hj]
        exact h j

theorem mh_foldl_inv (a : IsingArgs p) (cs : Fin p → Option ℝ) (u : Fin p → ℝ) (is : List (Fin p)) :
    ∀ s : Fin p → ℝ,
    (∀ j, (∀ v, cs j = some v → s j = v) ∧ (cs j = none → s j = a.r0 ∨ s j = a.r1)) →
    ∀ j, (∀ v, cs j = some v → is.foldl (mhVisit a cs u) s j = v) ∧
      (cs j = none → is.foldl (mhVisit a cs u) s j = a.r0 ∨ is.foldl (mhVisit a cs u) s j = a.r1) := by
  induction is with
  | nil => intro s h; simpa using h
  | cons i is ih => intro s h; exact ih _ (mhVisit_inv a cs u s i h)

theorem mh_sweeps_inv (a : IsingArgs p) (cs : Fin p → Option ℝ) (us : List (Fin p → ℝ)) :
    ∀ s : Fin p → ℝ,
    (∀ j, (∀ v, cs j = some v → s j = v) ∧ (cs j = none → s j = a.r0 ∨ s j = a.r1)) →
    ∀ j, (∀ v, cs j = some v → us.foldl (fun s u => mhSweep a cs u s) s j = v) ∧
      (cs j = none → us.foldl (fun s u => mhSweep a cs u s) s j = a.r0 ∨
        us.foldl (fun s u => mhSweep a cs u s) s j = a.r1) := by
  induction us with
  | nil => intro s h; simpa using h
  | cons u us ih => intro s h; exact ih _ (mh_foldl_inv a cs u _ s h)

/-- For every random stream and every number of sweeps, every constrained coordinate of the sample has the
value of its constraint and every other coordinate is one of the two responses. -/
theorem C51_state_values (a : IsingArgs p) (cs : Fin p → Option ℝ) (u0 : Fin p → ℝ)
    (us : List (Fin p → ℝ)) (j : Fin p) :
    (∀ v, cs j = some v → isingMH a cs u0 us j = v) ∧
      (cs j = none → isingMH a cs u0 us j = a.r0 ∨ isingMH a cs u0 us j = a.r1) := by
  refine mh_sweeps_inv a cs us _ ?_ j
  intro i
  cases hi : cs i with
  | some v => simp
  | none =>
      refine ⟨(by simp), fun _ => ?_⟩
      simp only
      split <;> simp

/-- Both responses are reachable: an unconstrained coordinate that is visited gets the second response when
the draw is below the conditional probability and the first otherwise, and that probability lies strictly
between 0 and 1. -/
theorem C51_visit (a : IsingArgs p) (cs : Fin p → Option ℝ) (u s : Fin p → ℝ) (i : Fin p)
    (hi : cs i = none) :
    0 < pPlus a i s ∧ pPlus a i s < 1 ∧
      (u i < pPlus a i s → mhVisit a cs u s i i = a.r1) ∧
      (pPlus a i s ≤ u i → mhVisit a cs u s i i = a.r0) := by
  refine ⟨pPlus_pos a i s, pPlus_lt_one a i s, fun h => ?_, fun h => ?_⟩
  · simp [mhVisit, hi, h]
  · simp [mhVisit, hi, not_lt.mpr h]

/-- A case with one constrained and one free coordinate. -/
example : ∃ (a : IsingArgs 2) (cs : Fin 2 → Option ℝ), cs 0 = some 1 ∧ cs 1 = none ∧ a.r0 ≠ a.r1 :=
  ⟨⟨0, 0, 1, -1, 1⟩, ![some 1, none], rfl, rfl, by norm_num⟩

/-! ### C52: the conditional probability -/

/-- For a symmetric graph, `p_plus` is the conditional probability of the Ising model whose log-weight
counts every unordered pair once. -/
theorem C52_p_plus_conditional (a : IsingArgs p) (hs : a.theta.IsSymm) (i : Fin p) (s : Fin p → ℝ) :
    pPlus a i s = condProb (isingLogWeight a.theta a.thresholds a.beta) i a.r0 a.r1 s := by
  unfold pPlus condProb
  apply two_point
  unfold isingLogWeight
  have h1 := pair_sum_update a.theta hs s i a.r0 a.r1
  rw [pair_sum_double _ hs, pair_sum_double _ hs] at h1
  have h2 := lin_sum_update a.thresholds s i a.r0 a.r1
  rw [localField_eq, localField_eq, ← mul_sub, ← mul_sub]
  congr 1
  linarith

/-- Against the density `exp(-beta * hamiltonian)` the formula is the conditional probability for the graph
with doubled weights: `hamiltonian` counts every pair twice. Missing: equality for the same graph, which
does not hold (`C52_hamiltonian_false`). -/
theorem C52_hamiltonian_partial (a : IsingArgs p) (hs : a.theta.IsSymm) (i : Fin p) (s : Fin p → ℝ) :
    condProb (fun s => -a.beta * hamiltonian a s) i a.r0 a.r1 s =
      pPlus { a with theta := (2 : ℝ) • a.theta } i s := by
  unfold pPlus condProb
  apply two_point
  have h1 := pair_sum_update a.theta hs s i a.r0 a.r1
  have h2 := lin_sum_update a.thresholds s i a.r0 a.r1
  rw [localField_eq, localField_eq, ← mul_sub, ← mul_sub, hamiltonian_eq, hamiltonian_eq]
  have h3 : (∑ j, if j = i then 0 else ((2 : ℝ) • a.theta) i j * s j) =
      2 * ∑ j, if j = i then 0 else a.theta i j * s j := by
    rw [Finset.mul_sum]
    apply Finset.sum_congr rfl
    intro j _
    by_cases hj : j = i
    · simp [hj]
    · simp only [hj, if_false, Matrix.smul_apply, smul_eq_mul]; ring
  simp only [h3]
  have h4 : a.r1 * (a.thresholds i + 2 * ∑ j, if j = i then 0 else a.theta i j * s j) -
      a.r0 * (a.thresholds i + 2 * ∑ j, if j = i then 0 else a.theta i j * s j) =
      (a.r1 - a.r0) * a.thresholds i +
        2 * (a.r1 - a.r0) * ∑ j, if j = i then 0 else a.theta i j * s j := by ring
  rw [h4, ← h1, ← h2]
  ring

/-- The two routines of the package disagree: for two variables joined by an edge of weight 1, the
conditional probability under `exp(-beta * hamiltonian)` is not the one used by the sampler. -/
theorem C52_hamiltonian_false :
    ∃ (a : IsingArgs 2) (i : Fin 2) (s : Fin 2 → ℝ), a.theta.IsSymm ∧ (∀ i, a.theta i i = 0) ∧
      (∀ j, s j = a.r0 ∨ s j = a.r1) ∧
      pPlus a i s ≠ condProb (fun s => -a.beta * hamiltonian a s) i a.r0 a.r1 s := by
  refine ⟨⟨!![0, 1; 1, 0], 0, 1, 0, 1⟩, 0, fun _ => 1, ?_, ?_, fun _ => Or.inr rfl, ?_⟩
  · ext i j; fin_cases i <;> fin_cases j <;> rfl
  · intro i; fin_cases i <;> rfl
  · have hs : (!![0, 1; 1, 0] : Matrix (Fin 2) (Fin 2) ℝ).IsSymm := by
      ext i j; fin_cases i <;> fin_cases j <;> rfl
    rw [C52_hamiltonian_partial ⟨!![0, 1; 1, 0], 0, 1, 0, 1⟩ hs]
    unfold pPlus
    simp only [localField_eq, Fin.sum_univ_two]
    simp
    intro h
    rw [div_eq_div_iff (by positivity) (by positivity)] at h
    have h2 : Real.exp 1 < Real.exp 2 := Real.exp_lt_exp.mpr (by norm_num)
    nlinarith

/-! ### C79: the Gibbs sweep leaves the Ising distribution invariant -/

/-- One visit with its own draw. -/
noncomputable def visit1 (a : IsingArgs p) (u : ℝ) (s : Fin p → ℝ) (i : Fin p) : Fin p → ℝ :=
  mhVisit a (fun _ => none) (fun _ => u) s i

theorem visit1_mean (a : IsingArgs p) (F : (Fin p → ℝ) → ℝ) (s : Fin p → ℝ) (i : Fin p) :
    (∫ u in (0 : ℝ)..1, F (visit1 a u s i)) =
      pPlus a i s * F (Function.update s i a.r1) + (1 - pPlus a i s) * F (Function.update s i a.r0) := by
  have h0 := pPlus_pos a i s
  have h1 := pPlus_lt_one a i s
  set P := pPlus a i s with hP
  have e1 : ∀ u, u < P → F (visit1 a u s i) = F (Function.update s i a.r1) := by
    intro u hu; simp only [visit1, mhVisit]; rw [← hP, if_pos hu]
  have e0 : ∀ u, P ≤ u → F (visit1 a u s i) = F (Function.update s i a.r0) := by
    intro u hu; simp only [visit1, mhVisit]; rw [← hP, if_neg (not_lt.mpr hu)]
  have i1 : IntervalIntegrable (fun u => F (visit1 a u s i)) MeasureTheory.volume 0 P := by
    refine IntervalIntegrable.congr_ae (f := fun _ => F (Function.update s i a.r1)) (by simp) ?_
    rw [Set.uIoc_of_le h0.le, Filter.EventuallyEq, MeasureTheory.ae_restrict_iff' measurableSet_Ioc]
    filter_upwards [MeasureTheory.Measure.ae_ne MeasureTheory.volume P] with u hu hm
    exact (e1 u (lt_of_le_of_ne hm.2 hu)).symm
  have i0 : IntervalIntegrable (fun u => F (visit1 a u s i)) MeasureTheory.volume P 1 := by
    refine IntervalIntegrable.congr (f := fun _ => F (Function.update s i a.r0)) ?_ (by simp)
    intro u hu
    rw [Set.uIoc_of_le h1.le] at hu
    exact (e0 u hu.1.le).symm
  rw [← intervalIntegral.integral_add_adjacent_intervals i1 i0]
  have j1 : (∫ u in (0 : ℝ)..P, F (visit1 a u s i)) = ∫ u in (0 : ℝ)..P, F (Function.update s i a.r1) := by
    apply intervalIntegral.integral_congr_ae
    filter_upwards [MeasureTheory.Measure.ae_ne MeasureTheory.volume P] with u hu hm
    rw [Set.uIoc_of_le h0.le] at hm
    exact e1 u (lt_of_le_of_ne hm.2 hu)
  have j0 : (∫ u in P..1, F (visit1 a u s i)) = ∫ u in P..1, F (Function.update s i a.r0) := by
    apply intervalIntegral.integral_congr
    intro u hu
    rw [Set.uIcc_of_le h1.le] at hu
    exact e0 u hu.1
  rw [j1, j0, intervalIntegral.integral_const, intervalIntegral.integral_const]
  simp

/-- Flipping one bit. -/
def flipAt (i : Fin p) (b : Fin p → Bool) : Fin p → Bool := Function.update b i (!(b i))

theorem flipAt_flipAt (i : Fin p) (b : Fin p → Bool) : flipAt i (flipAt i b) = b := by
  unfold flipAt
  simp

theorem sum_flip (i : Fin p) (G : (Fin p → Bool) → ℝ) : ∑ b, G (flipAt i b) = ∑ b, G b :=
  Equiv.sum_comp ⟨flipAt i, flipAt i, flipAt_flipAt i, flipAt_flipAt i⟩ G

theorem boolState_update (r0 r1 : ℝ) (b : Fin p → Bool) (i : Fin p) (c : Bool) :
    Function.update (boolState r0 r1 b) i (if c then r1 else r0) =
      boolState r0 r1 (Function.update b i c) := by
  funext j
  by_cases hj : j = i
  · subst hj; simp [boolState]
  · simp [boolState, Function.update_of_ne hj]

theorem visit_balance (a : IsingArgs p) (hs : a.theta.IsSymm) (i : Fin p) (F : (Fin p → ℝ) → ℝ) :
    (∑ b, Real.exp (isingLogWeight a.theta a.thresholds a.beta (boolState a.r0 a.r1 b)) *
      (∫ u in (0 : ℝ)..1, F (visit1 a u (boolState a.r0 a.r1 b) i))) =
    ∑ b, Real.exp (isingLogWeight a.theta a.thresholds a.beta (boolState a.r0 a.r1 b)) *
      F (boolState a.r0 a.r1 b) := by
  set W : (Fin p → Bool) → ℝ :=
    fun b => Real.exp (isingLogWeight a.theta a.thresholds a.beta (boolState a.r0 a.r1 b)) with hW
  have key : ∀ b, W b * (∫ u in (0 : ℝ)..1, F (visit1 a u (boolState a.r0 a.r1 b) i)) +
      W (flipAt i b) * (∫ u in (0 : ℝ)..1, F (visit1 a u (boolState a.r0 a.r1 (flipAt i b)) i)) =
      W b * F (boolState a.r0 a.r1 b) + W (flipAt i b) * F (boolState a.r0 a.r1 (flipAt i b)) := by
    intro b
    -- write both states as updates of `b`
    have hcond := C52_p_plus_conditional a hs i (boolState a.r0 a.r1 b)
    have h1 := boolState_update a.r0 a.r1 b i true
    have h0 := boolState_update a.r0 a.r1 b i false
    simp only [if_true, Bool.false_eq_true, if_false] at h1 h0
    have hfl : Function.update (flipAt i b) i true = Function.update b i true := by simp [flipAt]
    have hfl0 : Function.update (flipAt i b) i false = Function.update b i false := by simp [flipAt]
    have g1 := boolState_update a.r0 a.r1 (flipAt i b) i true
    have g0 := boolState_update a.r0 a.r1 (flipAt i b) i false
    simp only [if_true, Bool.false_eq_true, if_false] at g1 g0
    have hPf : pPlus a i (boolState a.r0 a.r1 (flipAt i b)) = pPlus a i (boolState a.r0 a.r1 b) := by
      have e : boolState a.r0 a.r1 (flipAt i b) =
          Function.update (boolState a.r0 a.r1 b) i (if !(b i) then a.r1 else a.r0) := by
        rw [boolState_update]; rfl
      rw [e, pPlus_update]
    simp only [visit1_mean]
    rw [hPf, h1, h0, g1, g0, hfl, hfl0]
    unfold condProb at hcond
    rw [h1, h0] at hcond
    change _ = W (Function.update b i true) / (W (Function.update b i false) + W (Function.update b i true))
      at hcond
    have w0 : 0 < W (Function.update b i false) := Real.exp_pos _
    have w1 : 0 < W (Function.update b i true) := Real.exp_pos _
    have hsum : W b + W (flipAt i b) = W (Function.update b i false) + W (Function.update b i true) := by
      cases hb : b i
      · have e1 : Function.update b i false = b := by rw [← hb]; simp
        have e2 : flipAt i b = Function.update b i true := by unfold flipAt; rw [hb]; rfl
        rw [e2, e1]
      · have e1 : Function.update b i true = b := by rw [← hb]; simp
        have e2 : flipAt i b = Function.update b i false := by unfold flipAt; rw [hb]; rfl
        rw [e2, e1]; ring
    have hrhs : W b * F (boolState a.r0 a.r1 b) + W (flipAt i b) * F (boolState a.r0 a.r1 (flipAt i b)) =
        W (Function.update b i false) * F (boolState a.r0 a.r1 (Function.update b i false)) +
        W (Function.update b i true) * F (boolState a.r0 a.r1 (Function.update b i true)) := by
      cases hb : b i
      · have e1 : Function.update b i false = b := by rw [← hb]; simp
        have e2 : flipAt i b = Function.update b i true := by unfold flipAt; rw [hb]; rfl
        rw [e2, e1]
      · have e1 : Function.update b i true = b := by rw [← hb]; simp
        have e2 : flipAt i b = Function.update b i false := by unfold flipAt; rw [hb]; rfl
        rw [e2, e1]; ring
    rw [hrhs, hcond, ← add_mul, hsum]
    field_simp
    ring
  have hl := sum_flip i (fun b => W b * (∫ u in (0 : ℝ)..1, F (visit1 a u (boolState a.r0 a.r1 b) i)))
  have hr := sum_flip i (fun b => W b * F (boolState a.r0 a.r1 b))
  have hk := Finset.sum_congr (rfl : (Finset.univ : Finset (Fin p → Bool)) = Finset.univ)
    (fun b _ => key b)
  rw [Finset.sum_add_distrib, Finset.sum_add_distrib] at hk
  linarith

/-- With independent uniform draws, visiting any list of coordinates (in particular one sweep, or any number
of sweeps) leaves the Ising distribution invariant: the weighted sum of the mean of any function of the
resulting state equals the weighted sum of that function. -/
theorem C79_sweeps_invariant (a : IsingArgs p) (hs : a.theta.IsSymm) (is : List (Fin p))
    (F : (Fin p → ℝ) → ℝ) :
    (∑ b, Real.exp (isingLogWeight a.theta a.thresholds a.beta (boolState a.r0 a.r1 b)) *
      visitMean (visit1 a) is F (boolState a.r0 a.r1 b)) =
    ∑ b, Real.exp (isingLogWeight a.theta a.thresholds a.beta (boolState a.r0 a.r1 b)) *
      F (boolState a.r0 a.r1 b) := by
  induction is with
  | nil => rfl
  | cons i is ih =>
      rw [← ih]
      exact visit_balance a hs i (visitMean (visit1 a) is F)

/-- A symmetric graph with an edge. -/
example : ∃ a : IsingArgs 2, a.theta.IsSymm ∧ a.theta 0 1 ≠ 0 :=
  ⟨⟨!![0, 1; 1, 0], 0, 1, 0, 1⟩, by ext i j; fin_cases i <;> fin_cases j <;> rfl, by simp⟩

end Verif.Props
