import Verif.Model.Loop
import Mathlib.Tactic.Common
import Mathlib.Data.Nat.Find
import Mathlib.Data.List.FinRange
import Mathlib.Tactic.Linarith

/-! Characterisation of the generic loop by the sequence of states it runs through. -/

namespace Verif.Lemmas

open Verif.Model

variable {σ κ : Type*}

/-- The state at the start of iteration `it`, if no iteration breaks. -/
def stateAt (body : ℕ → σ → σ × κ × Bool) (s : σ) : ℕ → σ
  | 0 => s
  | k + 1 => (body k (stateAt body s k)).1

/-- The check appended by iteration `k`. -/
def checkAt (body : ℕ → σ → σ × κ × Bool) (s : σ) (k : ℕ) : κ := (body k (stateAt body s k)).2.1

/-- Whether iteration `k` breaks. -/
def stopAt (body : ℕ → σ → σ × κ × Bool) (s : σ) (k : ℕ) : Bool := (body k (stateAt body s k)).2.2

theorem forElse_spec (body : ℕ → σ → σ × κ × Bool) (s : σ) (fuel : ℕ) :
    ∀ (it : ℕ) (last : Option ℕ), (∀ k < it, stopAt body s k = false) →
      (it = 0 → last = none) → (0 < it → last = some (it - 1)) →
      (∃ j, it ≤ j ∧ j < it + fuel ∧ (∀ k < j, stopAt body s k = false) ∧ stopAt body s j = true ∧
        forElse body fuel it (stateAt body s it) ((List.range it).map (checkAt body s)) last =
          ⟨stateAt body s (j + 1), (List.range (j + 1)).map (checkAt body s), true, some j⟩) ∨
      ((∀ k < it + fuel, stopAt body s k = false) ∧
        forElse body fuel it (stateAt body s it) ((List.range it).map (checkAt body s)) last =
          ⟨stateAt body s (it + fuel), (List.range (it + fuel)).map (checkAt body s), false,
            if it + fuel = 0 then none else some (it + fuel - 1)⟩) := by
  induction fuel with
  | zero =>
    intro it last hno h0 h1
    right
    refine ⟨by simpa using hno, ?_⟩
    simp only [forElse, Nat.add_zero]
    rcases Nat.eq_zero_or_pos it with h | h
    · rw [h0 h, if_pos h]
    · rw [h1 h, if_neg (by omega)]
  | succ f ih =>
    intro it last hno h0 h1
    by_cases hs : stopAt body s it = true
    · left
      refine ⟨it, le_rfl, by omega, hno, hs, ?_⟩
      have hs' : (body it (stateAt body s it)).2.2 = true := hs
      rw [forElse]
      simp only [hs', if_true]
      rw [List.range_succ, List.map_append]
      rfl
    · have hs0 : stopAt body s it = false := by simpa using hs
      have hno' : ∀ k < it + 1, stopAt body s k = false := by
        intro k hk
        rcases Nat.lt_succ_iff_lt_or_eq.mp hk with h | h
        · exact hno k h
        · rw [h]; exact hs0
      have hs' : (body it (stateAt body s it)).2.2 = false := hs0
      have hstep : forElse body (f + 1) it (stateAt body s it) ((List.range it).map (checkAt body s)) last
          = forElse body f (it + 1) (stateAt body s (it + 1))
              ((List.range (it + 1)).map (checkAt body s)) (some it) := by
        rw [forElse]
        simp only [hs', Bool.false_eq_true, if_false]
        rw [List.range_succ, List.map_append]
        rfl
      rcases ih (it + 1) (some it) hno' (by omega) (by intro _; simp) with
        ⟨j, hj1, hj2, hj3, hj4, hj5⟩ | ⟨hn, he⟩
      · left
        exact ⟨j, by omega, by omega, hj3, hj4, by rw [hstep]; exact hj5⟩
      · right
        have e : it + (f + 1) = it + 1 + f := by omega
        rw [e]
        exact ⟨hn, by rw [hstep]; exact he⟩

/-- The loop stops at the first breaking iteration, or runs through all of them. -/
theorem runLoop_spec (body : ℕ → σ → σ × κ × Bool) (m : ℕ) (s : σ) :
    (∃ j < m, (∀ k < j, stopAt body s k = false) ∧ stopAt body s j = true ∧
      runLoop body m s =
        ⟨stateAt body s (j + 1), (List.range (j + 1)).map (checkAt body s), true, some j⟩) ∨
    ((∀ k < m, stopAt body s k = false) ∧
      runLoop body m s = ⟨stateAt body s m, (List.range m).map (checkAt body s), false,
        if m = 0 then none else some (m - 1)⟩) := by
  rcases forElse_spec body s m 0 none (by simp) (by simp) (by simp) with
    ⟨j, _, h2, h3, h4, h5⟩ | ⟨h1, h2⟩
  · left
    exact ⟨j, by omega, h3, h4, h5⟩
  · right
    simp only [Nat.zero_add] at h1 h2
    exact ⟨h1, h2⟩

/-- What a loop with at least one iteration leaves behind, when the stopping test can be read off the
appended check. -/
theorem runLoop_outcome (body : ℕ → σ → σ × κ × Bool) (conv : κ → Prop)
    (hc : ∀ it s, (body it s).2.2 = true ↔ conv (body it s).2.1) {m : ℕ} (hm : 1 ≤ m) (s : σ) :
    ∃ nIter, (runLoop body m s).lastIter = some nIter ∧
      1 ≤ (runLoop body m s).checks.length ∧ (runLoop body m s).checks.length ≤ m ∧
      nIter + 1 = (runLoop body m s).checks.length ∧
      (∀ c ∈ (runLoop body m s).checks.dropLast, ¬ conv c) ∧
      ((!(runLoop body m s).broke) = true ↔ ∀ c ∈ (runLoop body m s).checks, ¬ conv c) ∧
      ((!(runLoop body m s).broke) = true → (runLoop body m s).checks.length = m) := by
  have hconv : ∀ k, stopAt body s k = true ↔ conv (checkAt body s k) := fun k => hc k _
  have hnot : ∀ k, stopAt body s k = false ↔ ¬ conv (checkAt body s k) := by
    intro k
    rw [← hconv]; simp
  rcases runLoop_spec body m s with ⟨j, hj, hno, hst, he⟩ | ⟨hno, he⟩
  · rw [he]
    refine ⟨j, rfl, by simp, by simp; omega, by simp, ?_, ?_, by simp⟩
    · intro c hc
      rw [← List.map_dropLast] at hc
      obtain ⟨k, hk, rfl⟩ := List.mem_map.mp hc
      have hk' : k < j := by
        rw [List.range_succ, List.dropLast_concat] at hk
        simpa using hk
      exact (hnot k).mp (hno k (by omega))
    · simp only [Bool.not_true, Bool.false_eq_true, false_iff, not_forall]
      refine ⟨checkAt body s j, List.mem_map.mpr ⟨j, by simp, rfl⟩, ?_⟩
      simpa using (hconv j).mp hst
  · rw [he]
    refine ⟨m - 1, by simp only [if_neg (show ¬ m = 0 by omega)], by simpa using hm, by simp,
      by simp; omega, ?_, ?_, by simp⟩
    · intro c hc
      rw [← List.map_dropLast] at hc
      obtain ⟨k, hk, rfl⟩ := List.mem_map.mp hc
      have hk' : k < m - 1 := by
        obtain ⟨m', rfl⟩ : ∃ m', m = m' + 1 := ⟨m - 1, by omega⟩
        rw [List.range_succ, List.dropLast_concat] at hk
        simpa using hk
      exact (hnot k).mp (hno k (by omega))
    · simp only [Bool.not_false, true_iff]
      intro c hc
      obtain ⟨k, hk, rfl⟩ := List.mem_map.mp hc
      exact (hnot k).mp (hno k (by simpa using hk))

/-- Any property of states that the body preserves holds for the final state. -/
theorem runLoop_invariant (body : ℕ → σ → σ × κ × Bool) (P : σ → Prop)
    (hstep : ∀ it s, P s → P (body it s).1) (m : ℕ) {s : σ} (hs : P s) :
    P (runLoop body m s).state := by
  have h : ∀ k, P (stateAt body s k) := by
    intro k
    induction k with
    | zero => exact hs
    | succ k ih => exact hstep k _ ih
  rcases runLoop_spec body m s with ⟨j, _, _, _, he⟩ | ⟨_, he⟩
  · rw [he]; exact h _
  · rw [he]; exact h _

theorem stateAt_invariant (body : ℕ → σ → σ × κ × Bool) (P : σ → Prop)
    (hstep : ∀ it s, P s → P (body it s).1) {s : σ} (hs : P s) (k : ℕ) : P (stateAt body s k) := by
  induction k with
  | zero => exact hs
  | succ k ih => exact hstep k _ ih

end Verif.Lemmas
