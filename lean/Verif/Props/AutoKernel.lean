import Verif.Model.AutoKernel
import Verif.Lemmas.Loop
import Mathlib.Algebra.BigOperators.Field
import Mathlib.Topology.Order.MonotoneConvergence
import Mathlib.Analysis.SpecificLimits.Basic

/-! Property theorem C204 (the search for a kernel parameter). -/

namespace Verif.Props

open Verif.Model Verif.Lemmas Filter Topology

set_option autoImplicit false
set_option linter.unusedSectionVars false

variable {M : Type*} [Sub M] {T : ℕ}

/-- C204 (what is minimised): the sum over all pairs of times `i < j` of the penalty of the difference of their
precisions, weighted by the kernel. -/
theorem C204_objective (psi : M → ℝ) (K : Fin T → M) (ker : Fin T → Fin T → ℝ) :
    objectiveKernel psi K ker = ∑ i, ∑ j, if i < j then psi (K j - K i) * ker i j else 0 := by
  unfold objectiveKernel
  have hR : (∑ i, ∑ j, if i < j then psi (K j - K i) * ker i j else 0)
      = ∑ x ∈ (Finset.univ : Finset (Fin T × Fin T)).filter (fun x => x.1 < x.2), psi (K x.2 - K x.1) * ker x.1 x.2 := by
    rw [Finset.sum_filter, Fintype.sum_prod_type]
  rw [hR, Finset.sum_sigma']
  refine Finset.sum_bij (fun (x : (m : Fin (T - 1)) × Fin (T - (m + 1))) _ =>
    ((⟨x.2, by have := x.2.2; omega⟩ : Fin T), (⟨x.2 + (x.1 + 1), by have := x.2.2; omega⟩ : Fin T))) ?_ ?_ ?_ ?_
  · rintro ⟨m, t⟩ -
    simp only [Finset.mem_filter, Finset.mem_univ, true_and, Fin.lt_def]
    omega
  · rintro ⟨m, t⟩ - ⟨m', t'⟩ - h
    simp only [Prod.mk.injEq, Fin.mk.injEq] at h
    obtain rfl : m = m' := Fin.ext (by omega)
    obtain rfl : t = t' := Fin.ext (by omega)
    rfl
  · rintro ⟨i, j⟩ hij
    simp only [Finset.mem_filter, Finset.mem_univ, true_and, Fin.lt_def] at hij
    refine ⟨⟨⟨j - i - 1, by omega⟩, ⟨i, by simp only; omega⟩⟩, Finset.mem_univ _, ?_⟩
    simp only [Prod.mk.injEq]
    refine ⟨trivial, Fin.ext ?_⟩
    simp only
    omega
  · rintro ⟨m, t⟩ -
    rfl

/-- Two times whose precisions differ (for the penalty). -/
def Varies (psi : M → ℝ) (K : Fin T → M) : Prop := ∃ i j, i < j ∧ 0 < psi (K j - K i)

theorem objectiveKernel_lt {psi : M → ℝ} (hpsi : ∀ x, 0 ≤ psi x) {K : Fin T → M} (hK : Varies psi K)
    {k1 k2 : Fin T → Fin T → ℝ} (h : ∀ i j, i < j → k1 i j < k2 i j) :
    objectiveKernel psi K k1 < objectiveKernel psi K k2 := by
  rw [C204_objective, C204_objective]
  obtain ⟨i, j, hij, hp⟩ := hK
  have hle : ∀ i j, (if i < j then psi (K j - K i) * k1 i j else 0) ≤ if i < j then psi (K j - K i) * k2 i j else 0 := by
    intro i j
    split
    · rename_i hij
      exact mul_le_mul_of_nonneg_left (h i j hij).le (hpsi _)
    · exact le_rfl
  refine Finset.sum_lt_sum (fun i _ => Finset.sum_le_sum fun j _ => hle i j) ⟨i, Finset.mem_univ _, ?_⟩
  refine Finset.sum_lt_sum (fun j _ => hle i j) ⟨j, Finset.mem_univ _, ?_⟩
  rw [if_pos hij, if_pos hij]
  exact mul_lt_mul_of_pos_left (h i j hij) hp

theorem rbf_lt {x : Fin T → ℝ} (hx : Function.Injective x) {a b : ℝ} (ha : 0 < a) (hab : a < b) {i j : Fin T} (hij : i < j) :
    rbfKernel a x i j < rbfKernel b x i j := by
  unfold rbfKernel
  rw [Real.exp_lt_exp, ← sub_div, ← sub_div, div_pow, div_pow]
  have hd : 0 < (x i - x j) ^ 2 := by
    have : x i - x j ≠ 0 := sub_ne_zero.mpr fun h => hij.ne (hx h)
    positivity
  have h1 : (x i - x j) ^ 2 / b ^ 2 < (x i - x j) ^ 2 / a ^ 2 :=
    div_lt_div_of_pos_left hd (by positivity) (pow_lt_pow_left₀ hab ha.le two_ne_zero)
  linarith

/-- C204 (the data do not matter): for the squared exponential kernel on distinct times, whatever the precisions, unless
they are constant in time, a smaller length scale is always better. -/
theorem C204_smaller_is_better {psi : M → ℝ} (hpsi : ∀ x, 0 ≤ psi x) {K : Fin T → M} (hK : Varies psi K)
    {x : Fin T → ℝ} (hx : Function.Injective x) {a b : ℝ} (ha : 0 < a) (hab : a < b) :
    objectiveKernel psi K (rbfKernel a x) < objectiveKernel psi K (rbfKernel b x) :=
  objectiveKernel_lt hpsi hK fun _ _ hij => rbf_lt hx ha hab hij

/-- C204 (claim false): the best length scale in the interval that is searched does not exist: every positive one is
beaten by a smaller one, for all data that vary in time. -/
theorem C204_best_length_scale_false {psi : M → ℝ} (hpsi : ∀ x, 0 ≤ psi x) {K : Fin T → M} (hK : Varies psi K)
    {x : Fin T → ℝ} (hx : Function.Injective x) :
    ¬ ∃ theta : ℝ, 0 < theta ∧ theta ≤ T ∧ ∀ theta' : ℝ, 0 < theta' → theta' ≤ T →
      objectiveKernel psi K (rbfKernel theta x) ≤ objectiveKernel psi K (rbfKernel theta' x) := by
  rintro ⟨t, h0, hT, hmin⟩
  have h1 := hmin (t / 2) (by positivity) (by linarith)
  have h2 := C204_smaller_is_better hpsi hK hx (show 0 < t / 2 by positivity) (show t / 2 < t by linarith)
  linarith

/-- C204 (a lower limit is what is returned): if the search is limited to `[delta, b]` with `delta > 0`, an exact
minimiser is `delta`, for all data that vary in time. -/
theorem C204_returns_limit {psi : M → ℝ} (hpsi : ∀ x, 0 ≤ psi x) {K : Fin T → M} (hK : Varies psi K)
    {x : Fin T → ℝ} (hx : Function.Injective x) {delta b theta : ℝ} (hd : 0 < delta) (h1 : delta ≤ theta) (h2 : theta ≤ b)
    (hmin : ∀ theta' : ℝ, delta ≤ theta' → theta' ≤ b →
      objectiveKernel psi K (rbfKernel theta x) ≤ objectiveKernel psi K (rbfKernel theta' x)) : theta = delta := by
  by_contra hne
  have hlt : delta < theta := lt_of_le_of_ne h1 (Ne.symm hne)
  have := hmin delta le_rfl (h1.trans h2)
  exact absurd (C204_smaller_is_better hpsi hK hx hd hlt) (not_lt.mpr this)

/-- C204 (no coupling is left): as the length scale goes to zero the kernel goes to the identity, that is to no coupling
between the times, and the objective to its smallest value zero. -/
theorem C204_limit_is_no_coupling {x : Fin T → ℝ} (hx : Function.Injective x) (psi : M → ℝ) (K : Fin T → M) :
    (∀ i j, Tendsto (fun t : ℝ => rbfKernel t x i j) (𝓝[>] 0) (𝓝 (if i = j then 1 else 0))) ∧
      Tendsto (fun t : ℝ => objectiveKernel psi K (rbfKernel t x)) (𝓝[>] 0) (𝓝 0) := by
  have key : ∀ i j, Tendsto (fun t : ℝ => rbfKernel t x i j) (𝓝[>] 0) (𝓝 (if i = j then 1 else 0)) := by
    intro i j
    by_cases h : i = j
    · subst h
      simp [rbfKernel]
    · rw [if_neg h]
      have hd : 0 < (x i - x j) ^ 2 := by
        have : x i - x j ≠ 0 := sub_ne_zero.mpr fun h' => h (hx h')
        positivity
      have e : ∀ t : ℝ, rbfKernel t x i j = Real.exp (-((x i - x j) ^ 2 / 2 * (t⁻¹) ^ 2)) := by
        intro t
        unfold rbfKernel
        rw [← sub_div, div_pow, div_eq_mul_inv, inv_pow]
        congr 1
        ring
      simp only [e]
      refine Real.tendsto_exp_neg_atTop_nhds_zero.comp ?_
      exact ((tendsto_pow_atTop two_ne_zero).comp tendsto_inv_nhdsGT_zero).const_mul_atTop (by positivity)
  refine ⟨key, ?_⟩
  simp only [C204_objective]
  have h : Tendsto (fun t : ℝ => ∑ i, ∑ j, if i < j then psi (K j - K i) * rbfKernel t x i j else 0) (𝓝[>] 0)
      (𝓝 (∑ i, ∑ j, if i < j then psi (K j - K i) * (if i = j then 1 else 0) else 0)) := by
    refine tendsto_finsetSum _ fun i _ => tendsto_finsetSum _ fun j _ => ?_
    by_cases hij : i < j
    · simp only [if_pos hij]
      exact (key i j).const_mul _
    · simp only [if_neg hij]
      exact tendsto_const_nhds
  have e0 : (∑ i : Fin T, ∑ j, if i < j then psi (K j - K i) * (if i = j then 1 else 0) else 0) = 0 := by
    refine Finset.sum_eq_zero fun i _ => Finset.sum_eq_zero fun j _ => ?_
    split
    · rename_i hij
      rw [if_neg hij.ne, mul_zero]
    · rfl
  rw [e0] at h
  exact h

/-- C204 (constant kernel): the objective is proportional to the constant, so the minimiser over `[0, T]` is exactly zero
for all data that vary in time: no coupling at all. -/
theorem C204_constant_zero {psi : M → ℝ} (hpsi : ∀ x, 0 ≤ psi x) {K : Fin T → M} (hK : Varies psi K) {theta : ℝ}
    (h0 : 0 ≤ theta) (hmin : ∀ theta' : ℝ, 0 ≤ theta' → theta' ≤ T →
      objectiveKernel psi K (constKernel theta) ≤ objectiveKernel psi K (constKernel theta')) : theta = 0 := by
  by_contra hne
  have hlt : 0 < theta := lt_of_le_of_ne h0 (Ne.symm hne)
  exact absurd (objectiveKernel_lt hpsi hK (k1 := constKernel 0) (k2 := constKernel theta) fun _ _ _ => hlt)
    (not_lt.mpr (hmin 0 le_rfl (Nat.cast_nonneg T)))

/-- C204 (periodic kernel): with its default period the periodic kernel is one at every pair of integer times, whatever
the length scale: the search has nothing to choose from. -/
theorem C204_periodic_ignores {x : Fin T → ℝ} (hx : ∀ i, ∃ z : ℤ, x i = z) (a : ℝ) (psi : M → ℝ) (K : Fin T → M) :
    periodicKernel a x = constKernel 1 ∧
      objectiveKernel psi K (periodicKernel a x) = objectiveKernel psi K (constKernel 1) := by
  have h : periodicKernel a x = constKernel 1 := by
    funext i j
    obtain ⟨zi, hi⟩ := hx i
    obtain ⟨zj, hj⟩ := hx j
    have e : |x i - x j| = ((|zi - zj| : ℤ) : ℝ) := by rw [hi, hj]; push_cast; rfl
    unfold periodicKernel constKernel
    rw [e, mul_comm Real.pi, Real.sin_int_mul_pi]
    simp
  exact ⟨h, by rw [h]⟩

/-- C204 (one fit): when the search returns the same parameter `delta` for the start and for the precisions fitted with
it (which C204_returns_limit and C204_constant_zero give as soon as both vary in time), the alternating procedure is a
single fit with that parameter: the precisions are those of the one fit, whatever `max_iter_ext ≥ 1`, and no warning is
printed for `max_iter_ext ≥ 2`. -/
theorem C204_single_fit {P : Type*} (pick : P → ℝ) (fit : ℝ → P → P) (init : P) {delta : ℝ} (h0 : pick init = delta)
    (h1 : pick (fit delta init) = delta) {m : ℕ} (hm : 1 ≤ m) :
    (autoFit pick fit m init).state.prec = fit delta init ∧ (2 ≤ m → (autoFit pick fit m init).broke = true) := by
  obtain ⟨k, rfl⟩ : ∃ k, m = k + 1 := ⟨m - 1, by omega⟩
  have b0 : autoBody pick fit 0 ⟨0, init⟩ = (⟨delta, fit delta init⟩, (), false) := by
    simp [autoBody, h0]
  have b1 : autoBody pick fit 1 ⟨delta, fit delta init⟩ = (⟨delta, fit delta init⟩, (), true) := by
    simp [autoBody, h1]
    norm_num
  cases k with
  | zero => simp [autoFit, runLoop, forElse, b0]
  | succ k => simp [autoFit, runLoop, forElse, b0, b1]

/-- C204 (what the alternation returns): after at least one pass the precisions are the fit, at the selected parameter, of
a warm start for which that parameter was selected. Without the warning the parameter selected for the returned
precisions is within `1e-5` of the one they were fitted with; with the warning every two consecutive parameters were at
least `1e-5` apart. -/
theorem C204_self_consistent {P : Type*} (pick : P → ℝ) (fit : ℝ → P → P) (init : P) {m : ℕ} (hm : 1 ≤ m) :
    (∃ warm, (autoFit pick fit m init).state.prec = fit (pick warm) warm ∧
      (autoFit pick fit m init).state.thetaOld = pick warm) ∧
      ((autoFit pick fit m init).broke = true →
        |(autoFit pick fit m init).state.thetaOld - pick (autoFit pick fit m init).state.prec| < 1e-5) ∧
      ((autoFit pick fit m init).broke = false → ∃ seq : ℕ → P, seq 0 = init ∧
        (autoFit pick fit m init).state.prec = seq m ∧ (∀ k < m, seq (k + 1) = fit (pick (seq k)) (seq k)) ∧
        ∀ k, k + 1 < m → 1e-5 ≤ |pick (seq k) - pick (seq (k + 1))|) := by
  set body := autoBody pick fit with hbody
  set s0 : AutoState P := ⟨0, init⟩ with hs0
  have hstop : ∀ i s, (body i s).2.2 = true → (body i s).1 = s ∧ 0 < i ∧ |s.thetaOld - pick s.prec| < 1e-5 := by
    intro i s h
    simp only [hbody, autoBody] at h ⊢
    split at h
    · rename_i hc
      rw [if_pos hc]
      exact ⟨rfl, hc⟩
    · cases h
  have hgo : ∀ i s, (body i s).2.2 = false → (body i s).1 = ⟨pick s.prec, fit (pick s.prec) s.prec⟩ ∧
      (0 < i → 1e-5 ≤ |s.thetaOld - pick s.prec|) := by
    intro i s h
    simp only [hbody, autoBody] at h ⊢
    split at h
    · cases h
    · rename_i hc
      rw [if_neg hc]
      exact ⟨rfl, fun hi => not_lt.mp fun hlt => hc ⟨hi, hlt⟩⟩
  have hstep : ∀ k, stopAt body s0 k = false → stateAt body s0 (k + 1) =
      ⟨pick (stateAt body s0 k).prec, fit (pick (stateAt body s0 k).prec) (stateAt body s0 k).prec⟩ :=
    fun k hk => (hgo k _ hk).1
  have hfitted : ∀ k, stopAt body s0 k = false → ∃ warm, (stateAt body s0 (k + 1)).prec = fit (pick warm) warm ∧
      (stateAt body s0 (k + 1)).thetaOld = pick warm := by
    intro k hk
    refine ⟨(stateAt body s0 k).prec, ?_, ?_⟩ <;> rw [hstep k hk]
  unfold autoFit
  rcases runLoop_spec body m s0 with ⟨j, hj, hlt, hst, he⟩ | ⟨hall, he⟩
  · obtain ⟨h1, h2, h3⟩ := hstop j _ hst
    have h1' : stateAt body s0 (j + 1) = stateAt body s0 j := h1
    rw [he]
    refine ⟨?_, fun _ => ?_, fun h => (Bool.noConfusion h)⟩
    · obtain ⟨i, rfl⟩ : ∃ i, j = i + 1 := ⟨j - 1, by omega⟩
      simp only [h1']
      exact hfitted i (hlt i (by omega))
    · simp only [h1']
      exact h3
  · rw [he]
    refine ⟨?_, fun h => Bool.noConfusion h, fun _ => ⟨fun k => (stateAt body s0 k).prec, rfl, rfl, ?_, ?_⟩⟩
    · obtain ⟨i, rfl⟩ : ∃ i, m = i + 1 := ⟨m - 1, by omega⟩
      exact hfitted i (hall i (by omega))
    · intro k hk
      show (stateAt body s0 (k + 1)).prec = _
      rw [hstep k (hall k hk)]
    · intro k hk
      have h := (hgo (k + 1) _ (hall (k + 1) hk)).2 (Nat.succ_pos k)
      rw [hstep k (hall k (by omega))] at h
      show 1e-5 ≤ |pick (stateAt body s0 k).prec - pick (stateAt body s0 (k + 1)).prec|
      rw [hstep k (hall k (by omega))]
      exact h

/-- Both outcomes occur: a search that settles, and one that does not. -/
example : (autoFit (fun _ : ℝ => (1 : ℝ)) (fun t _ => t) 2 0).broke = true ∧
    (autoFit (fun x : ℝ => x + 1) (fun t _ => t) 2 0).broke = false := by
  constructor
  · exact (C204_single_fit _ _ _ rfl rfl (by norm_num)).2 le_rfl
  · simp [autoFit, runLoop, forElse, autoBody]
    norm_num

/-- Non-vacuity for C204: two times, scalars as precisions, absolute value as penalty, the times `0, 1`. -/
example : Varies (fun x : ℝ => |x|) (fun t : Fin 2 => ((t : ℕ) : ℝ)) ∧ (∀ x : ℝ, 0 ≤ |x|) ∧
    Function.Injective (fun t : Fin 2 => ((t : ℕ) : ℝ)) ∧ ∀ i : Fin 2, ∃ z : ℤ, (((i : ℕ) : ℝ)) = z := by
  refine ⟨⟨0, 1, by decide, by simp⟩, fun x => abs_nonneg x, fun a b h => ?_, fun i => ⟨((i : ℕ) : ℤ), by simp⟩⟩
  exact Fin.ext (by simpa using h)

end Verif.Props
