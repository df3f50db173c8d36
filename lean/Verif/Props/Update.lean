import Verif.Model.Update
import Mathlib.Tactic.Linarith
import Mathlib.Tactic.Positivity
import Mathlib.Tactic.Ring
import Mathlib.Tactic.NormNum
import Mathlib.Algebra.Order.Field.Basic

/-! Property theorems C11, C13 (step-size rules). -/

namespace Verif.Props

open Verif.Model

/-- C11, one call with the default options: the exact decision, positivity, bounded change. -/
theorem C11_update_rho {rho rnorm snorm : ℝ} (hrho : 0 < rho) (hs : 0 ≤ snorm) :
    (updateRho {} rho rnorm snorm = 2 * rho ↔ rnorm > 10 * snorm) ∧
    (updateRho {} rho rnorm snorm = rho / 2 ↔ snorm > 10 * rnorm) ∧
    (updateRho {} rho rnorm snorm = rho ↔ ¬ rnorm > 10 * snorm ∧ ¬ snorm > 10 * rnorm) ∧
    ¬ (rnorm > 10 * snorm ∧ snorm > 10 * rnorm) ∧
    0 < updateRho {} rho rnorm snorm := by
  unfold updateRho
  have h12 : ¬ (rnorm > 10 * snorm ∧ snorm > 10 * rnorm) := by rintro ⟨h1, h2⟩; linarith
  by_cases h1 : rnorm > 10 * snorm
  · have h2 : ¬ snorm > 10 * rnorm := fun h2 => h12 ⟨h1, h2⟩
    rw [if_pos h1]
    exact ⟨⟨fun _ => h1, fun _ => rfl⟩, ⟨fun h => by linarith, fun h => absurd h h2⟩,
      ⟨fun h => by linarith, fun h => absurd h1 h.1⟩, h12, by linarith⟩
  · rw [if_neg h1]
    by_cases h2 : snorm > 10 * rnorm
    · rw [if_pos h2]
      exact ⟨⟨fun h => by linarith, fun h => absurd h h1⟩, ⟨fun _ => h2, fun _ => rfl⟩,
        ⟨fun h => by linarith, fun h => absurd h2 h.2⟩, h12, by linarith⟩
    · rw [if_neg h2]
      exact ⟨⟨fun h => by linarith, fun h => absurd h h1⟩,
        ⟨fun h => by linarith, fun h => absurd h h2⟩, ⟨fun _ => ⟨h1, h2⟩, fun _ => rfl⟩, h12, hrho⟩

/-- The penalty after a sequence of calls with the given residual pairs. -/
noncomputable def rhoAfter (rho : ℝ) (calls : List (ℝ × ℝ)) : ℝ :=
  calls.foldl (fun r c => updateRho {} r c.1 c.2) rho

/-- C11, any sequence of `k` calls: positive and within `[rho/2^k, rho*2^k]`. -/
theorem C11_update_rho_sequence {rho : ℝ} (hrho : 0 < rho) (calls : List (ℝ × ℝ)) :
    0 < rhoAfter rho calls ∧ rho / 2 ^ calls.length ≤ rhoAfter rho calls ∧
      rhoAfter rho calls ≤ rho * 2 ^ calls.length := by
  unfold rhoAfter
  induction calls generalizing rho with
  | nil => simp [hrho]
  | cons c cs ih =>
    have hb : rho / 2 ≤ updateRho {} rho c.1 c.2 ∧ updateRho {} rho c.1 c.2 ≤ 2 * rho := by
      unfold updateRho
      split
      · constructor <;> simp only <;> linarith
      · split
        · constructor <;> simp only <;> linarith
        · constructor <;> linarith
    have hpos : 0 < updateRho {} rho c.1 c.2 := by linarith
    obtain ⟨h1, h2, h3⟩ := ih hpos
    simp only [List.foldl_cons, List.length_cons, pow_succ]
    refine ⟨h1, ?_, ?_⟩
    · have e : rho / (2 ^ cs.length * 2) = rho / 2 / 2 ^ cs.length := by
        rw [div_div, mul_comm]
      rw [e]
      exact le_trans (div_le_div_of_nonneg_right hb.1 (by positivity)) h2
    · have e : rho * (2 ^ cs.length * 2) = 2 * rho * 2 ^ cs.length := by ring
      rw [e]
      exact le_trans h3 (mul_le_mul_of_nonneg_right hb.2 (by positivity))

/-- Non-vacuity for C11: the three branches all occur. -/
example : updateRho {} 1 100 1 = 2 ∧ updateRho {} 1 1 100 = 1 / 2 ∧ updateRho {} 1 1 1 = 1 := by
  refine ⟨?_, ?_, ?_⟩ <;> norm_num [updateRho]

/-- C13, one call. -/
theorem C13_update_gamma {gamma eps : ℝ} (iteration : ℕ) (he : 0 < eps) :
    eps ≤ updateGamma gamma iteration eps ∧
    (eps ≤ gamma → updateGamma gamma iteration eps ≤ gamma) ∧
    (2 * eps ≤ gamma → (updateGamma gamma iteration eps = gamma / 2 ↔ 20 ∣ iteration)) ∧
    (eps ≤ gamma → ¬ 20 ∣ iteration → updateGamma gamma iteration eps = gamma) ∧
    (gamma < 2 * eps → 20 ∣ iteration → updateGamma gamma iteration eps = eps) := by
  unfold updateGamma
  rw [Nat.dvd_iff_mod_eq_zero]
  refine ⟨le_max_right _ _, ?_, ?_, ?_, ?_⟩
  · intro h
    refine max_le ?_ h
    split <;> linarith
  · intro h
    split
    · rename_i h0
      simp only [h0, iff_true]
      rw [max_eq_left]; linarith
    · rename_i h0
      simp only [h0, iff_false]
      rw [max_eq_left (by linarith)]
      intro hh; linarith
  · intro h h0
    rw [if_neg h0, max_eq_left h]
  · intro h h0
    rw [if_pos h0, max_eq_right]; linarith

/-- C13, any number of calls at increasing iteration numbers: the step never rises and stays above
the floor. -/
theorem C13_update_gamma_sequence {eps : ℝ} (he : 0 < eps) (g : ℕ → ℝ) (h0 : eps ≤ g 0)
    (hstep : ∀ k, g (k + 1) = updateGamma (g k) k eps) :
    ∀ i j, i ≤ j → eps ≤ g j ∧ g j ≤ g i := by
  have hf : ∀ k, eps ≤ g k := by
    intro k
    cases k with
    | zero => exact h0
    | succ k => rw [hstep]; exact (C13_update_gamma k he).1
  intro i j hij
  refine ⟨hf j, ?_⟩
  induction j, hij using Nat.le_induction with
  | base => exact le_rfl
  | succ j _ ih => rw [hstep]; exact le_trans ((C13_update_gamma j he).2.1 (hf j)) ih

/-- Non-vacuity for C13. -/
example : updateGamma 1 20 (1 / 10000) = 1 / 2 ∧ updateGamma 1 21 (1 / 10000) = 1 := by
  constructor <;> norm_num [updateGamma]

end Verif.Props
