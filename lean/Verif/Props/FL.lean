import Verif.Lemmas.TV
import Verif.Model.FL

/-! C10: the fused-lasso proximal map. -/

namespace Verif.Props

open Verif.Spec Verif.Model Verif.Lemmas Matrix

set_option autoImplicit false

variable {n : Type*} [LinearOrder n] {T : ℕ}

theorem flTVSym_eq (tv : (Fin (T + 1) → ℝ) → ℝ → Fin (T + 1) → ℝ)
    (a : Fin (T + 1) → Matrix n n ℝ) (hsym : ∀ t, (a t).IsSymm) (beta : ℝ) :
    flTVSym tv a beta = flTVAll tv a beta := by
  funext t i j
  have hs : ∀ i j, (fun t' => a t' i j) = fun t' => a t' j i := fun i j =>
    funext fun t' => (hsym t').apply j i
  unfold flTVSym flUpper flTVAll
  rcases lt_trichotomy i j with h | h | h
  · rw [if_pos h.le, if_neg (not_le.mpr h), if_neg h.ne]; ring
  · subst h; simp; ring
  · rw [if_neg (not_le.mpr h), if_pos h.le, if_neg h.ne', hs j i]; ring

theorem proxFL_entry (tv : (Fin (T + 1) → ℝ) → ℝ → Fin (T + 1) → ℝ)
    (a : Fin (T + 1) → Matrix n n ℝ) (beta lam : ℝ) (symmetric optimize : Bool)
    (hsym : symmetric = true → ∀ t, (a t).IsSymm) (i j : n) :
    (fun t => proxFL tv a beta lam symmetric optimize t i j) =
      if i = j then tv (fun t => a t i j) beta
      else softThresholding (tv (fun t => a t i j) beta) lam := by
  have hY : (if optimize then flTVAll tv a beta
      else if symmetric then flTVSym tv a beta else flTVAll tv a beta) = flTVAll tv a beta := by
    cases optimize <;> cases symmetric <;> simp
    exact flTVSym_eq tv a (hsym rfl) beta
  unfold proxFL
  simp only [hY]
  funext t
  unfold fillDiagonal getDiagonal softThresholdingMat flTVAll softThresholding
  by_cases h : i = j
  · subst h; simp
  · simp [h]

/-- C10: with an exact one-dimensional TV solver, the time series of every off-diagonal entry of
`prox_FL`'s output is the unique minimiser of `beta TV + lamda l1 + ½ squared distance`, and every
diagonal series is the TV minimiser; in the symmetric branch the input must be symmetric. -/
theorem C10_prox_FL_exact {tv : (Fin (T + 1) → ℝ) → ℝ → Fin (T + 1) → ℝ} (htv : IsTVSolver tv)
    (a : Fin (T + 1) → Matrix n n ℝ) {beta lam : ℝ} (hb : 0 ≤ beta) (hl : 0 ≤ lam)
    (symmetric optimize : Bool) (hsym : symmetric = true → ∀ t, (a t).IsSymm) (i j : n) :
    (i ≠ j → UniqueMin Set.univ (fusedObjective beta lam (fun t => a t i j))
      (fun t => proxFL tv a beta lam symmetric optimize t i j)) ∧
    (i = j → UniqueMin Set.univ (fusedObjective beta 0 (fun t => a t i j))
      (fun t => proxFL tv a beta lam symmetric optimize t i j)) := by
  rw [proxFL_entry tv a beta lam symmetric optimize hsym i j]
  constructor
  · intro h
    rw [if_neg h]
    exact fused_of_tv hb hl (htv _ _ hb)
  · intro h
    rw [if_pos h]
    have h0 : softThresholding (tv (fun t => a t i j) beta) 0 = tv (fun t => a t i j) beta :=
      funext fun t => softScalar_zero_right _
    have := fused_of_tv hb le_rfl (htv (fun t => a t i j) beta hb)
    rwa [h0] at this

/-- C10: the output stays symmetric when the input is. -/
theorem C10_prox_FL_symm {tv : (Fin (T + 1) → ℝ) → ℝ → Fin (T + 1) → ℝ}
    (a : Fin (T + 1) → Matrix n n ℝ) (beta lam : ℝ) (symmetric optimize : Bool)
    (hsym : ∀ t, (a t).IsSymm) (t : Fin (T + 1)) :
    (proxFL tv a beta lam symmetric optimize t).IsSymm := by
  ext i j
  have h1 := congrFun (proxFL_entry tv a beta lam symmetric optimize (fun _ => hsym) i j) t
  have h2 := congrFun (proxFL_entry tv a beta lam symmetric optimize (fun _ => hsym) j i) t
  have hs : (fun t' => a t' i j) = fun t' => a t' j i := funext fun t' => (hsym t').apply j i
  rw [transpose_apply]
  refine h2.trans (Eq.trans ?_ h1.symm)
  rw [hs]
  by_cases h : i = j
  · subst h; rfl
  · rw [if_neg h, if_neg (Ne.symm h)]

/-- Non-vacuity for C10: exact TV solvers exist for every series length. -/
example (a : Fin 4 → Matrix (Fin 3) (Fin 3) ℝ) : ∃ tv, IsTVSolver tv ∧
    UniqueMin Set.univ (fusedObjective 1 2 (fun t => a t 0 1))
      (fun t => proxFL tv a 1 2 false true t 0 1) := by
  obtain ⟨tv, h⟩ := exists_tvSolver 3
  exact ⟨tv, h, (C10_prox_FL_exact h a zero_le_one zero_le_two false true (by simp) 0 1).1
    (by decide)⟩

end Verif.Props
