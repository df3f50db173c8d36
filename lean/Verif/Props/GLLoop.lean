import Verif.Lemmas.GL

/-! Property theorems C12, C14, C15 (runs of the graphical lasso solver). -/

namespace Verif.Props

open Verif.Model Verif.Spec Verif.Lemmas Matrix

variable {n : Type*} [Fintype n] [DecidableEq n]

theorem updateRho_pos {o : RhoOptions} (hi : 0 < o.tauInc) (hd : 0 < o.tauDec) {rho : ℝ}
    (hrho : 0 < rho) (rn sn : ℝ) : 0 < updateRho o rho rn sn := by
  unfold updateRho
  split
  · positivity
  · split <;> positivity

/-- A run keeps the penalty positive (any residuals, any tolerances). -/
theorem gl_rho_pos (eigh : Eigh n) (a : GLArgs n) (hi : 0 < a.rhoOptions.tauInc)
    (hd : 0 < a.rhoOptions.tauDec) (it : ℕ) (s : GLState n) (h : 0 < s.rho) :
    0 < (glBody eigh a it s).1.rho := by
  unfold glBody
  simp only
  split
  · exact h
  · exact updateRho_pos hi hd h _ _

/-! ### C12 -/

/-- C12: in every iteration of every run (any data, any tolerances, any options with positive
factors), the unscaled dual `rho * U` kept for the next iteration is `rho` (old) times the dual
just computed, although both the penalty and the scaled dual may have changed. -/
theorem C12_dual_rescaling (eigh : Eigh n) (a : GLArgs n) (Z0 : Matrix n n ℝ) {rho : ℝ}
    (hrho : 0 < rho) (hi : 0 < a.rhoOptions.tauInc) (hd : 0 < a.rhoOptions.tauDec) (k : ℕ) :
    let s := stateAt (glBody eigh a) (glInit Z0 rho) k
    let s' := stateAt (glBody eigh a) (glInit Z0 rho) (k + 1)
    0 < s.rho ∧ 0 < s'.rho ∧
      s'.rho • s'.U =
        s.rho • (s.U + (glKhat a.overRelax (glK eigh a.empCov s.rho s.Z s.U) s.Z - s'.Z)) := by
  intro s s'
  have hs : 0 < s.rho := stateAt_invariant (glBody eigh a) (fun s => 0 < s.rho)
    (fun it s h => gl_rho_pos eigh a hi hd it s h) (s := glInit Z0 rho) hrho k
  have hs' : 0 < s'.rho := gl_rho_pos eigh a hi hd k s hs
  refine ⟨hs, hs', ?_⟩
  have he : s' = (glBody eigh a k s).1 := rfl
  rw [he] at hs' ⊢
  unfold glBody at hs' ⊢
  simp only at hs' ⊢
  split
  · rfl
  · rename_i hstop
    rw [if_neg hstop] at hs'
    simp only at hs' ⊢
    rw [smul_smul, mul_div_cancel₀ _ hs'.ne']

/-- Non-vacuity for C12: the default options satisfy the hypotheses and do change the penalty. -/
example : (0 : ℝ) < ({} : RhoOptions).tauInc ∧ (0 : ℝ) < ({} : RhoOptions).tauDec ∧
    updateRho {} 1 100 1 ≠ 1 := by
  refine ⟨by norm_num, by norm_num, by norm_num [updateRho]⟩

/-! ### C14 -/

/-- The stopping test as a user reads it off the returned history. -/
def Converged (c : GLCheck) : Prop := c.rnorm ≤ c.ePri ∧ c.snorm ≤ c.eDual

theorem glBody_stop_iff (eigh : Eigh n) (a : GLArgs n) (it : ℕ) (s : GLState n) :
    (glBody eigh a it s).2.2 = true ↔ Converged (glBody eigh a it s).2.1 := by
  unfold glBody Converged
  simp only [decide_eq_true_eq]

/-- C14, what a call with `max_iter = m ≥ 1` returns: a non-empty history of at most `m` entries
(one per iteration performed), of which only the last can satisfy the stopping test; the call warns
exactly when no entry does, and then all `m` iterations were performed. The returned iteration count
is one LESS than the number of iterations performed; the full statement (equality) is refuted by
`C14_n_iter_false`. -/
theorem C14_outcome_partial (eigh : Eigh n) (a : GLArgs n) (Z0 : Matrix n n ℝ) (rho : ℝ) (m : ℕ)
    (hm : 1 ≤ m) :
    ∃ (Z : Matrix n n ℝ) (hist : List GLCheck) (nIter : ℕ) (warned : Bool),
      graphicalLasso eigh a Z0 rho m true true = .ok Z a.empCov (some hist) (some nIter) warned ∧
      1 ≤ hist.length ∧ hist.length ≤ m ∧ nIter + 1 = hist.length ∧
      (∀ c ∈ hist.dropLast, ¬ Converged c) ∧
      (warned = true ↔ ∀ c ∈ hist, ¬ Converged c) ∧
      (warned = true → hist.length = m) := by
  obtain ⟨k, h1, h2⟩ := runLoop_outcome (glBody eigh a) Converged (glBody_stop_iff eigh a) hm
    (glInit Z0 rho)
  refine ⟨(runLoop (glBody eigh a) m (glInit Z0 rho)).state.Z,
    (runLoop (glBody eigh a) m (glInit Z0 rho)).checks, k,
    !(runLoop (glBody eigh a) m (glInit Z0 rho)).broke, ?_, h2⟩
  unfold graphicalLasso
  simp only [if_true, h1]

/-- C14, the two boundary calls with `max_iter = 0`: asking for `n_iter` raises, otherwise the start
is returned with a warning. -/
theorem C14_max_iter_zero (eigh : Eigh n) (a : GLArgs n) (Z0 : Matrix n n ℝ) (rho : ℝ) (h : Bool) :
    graphicalLasso eigh a Z0 rho 0 h true = .unbound ∧
    graphicalLasso eigh a Z0 rho 0 h false =
      .ok Z0 a.empCov (if h then some [] else none) none true := by
  constructor <;> simp [graphicalLasso, runLoop, forElse, glInit]

/-- The full statement of C14 fails on every input: whenever `graphical_lasso` returns a history
and an iteration count, the count differs from the number of iterations performed. -/
theorem C14_n_iter_false (eigh : Eigh n) (a : GLArgs n) (Z0 : Matrix n n ℝ) (rho : ℝ) (m : ℕ)
    (Z S : Matrix n n ℝ) (hist : List GLCheck) (nIter : ℕ) (w : Bool)
    (h : graphicalLasso eigh a Z0 rho m true true = .ok Z S (some hist) (some nIter) w) :
    nIter ≠ hist.length := by
  rcases Nat.eq_zero_or_pos m with h0 | h0
  · rw [h0, (C14_max_iter_zero eigh a Z0 rho true).1] at h
    cases h
  · obtain ⟨Z', hist', nIter', w', he, _, _, h3, _⟩ := C14_outcome_partial eigh a Z0 rho m h0
    rw [he] at h
    injection h with _ _ h4 h5 _
    injection h4 with h4
    injection h5 with h5
    rw [← h4, ← h5]; omega

/-- Non-vacuity for C14: the result on any 1x1 problem with one iteration exists. -/
example (eigh : Eigh (Fin 1)) : ∃ Z hist w,
    graphicalLasso eigh ⟨1, 1 / 10, 1, 1, 0, {}⟩ 0 1 1 true true = .ok Z 1 (some hist) (some 0) w := by
  obtain ⟨Z, hist, k, w, h, h1, h2, h3, _⟩ :=
    C14_outcome_partial eigh ⟨1, 1 / 10, 1, 1, 0, {}⟩ 0 1 1 le_rfl
  have : k = 0 := by omega
  exact ⟨Z, hist, w, by rw [h, this]⟩

/-! ### C15 -/

/-- Invariant: both matrices are symmetric and the penalty positive. -/
def GLSym (s : GLState n) : Prop := s.Z.IsSymm ∧ s.U.IsSymm ∧ 0 < s.rho

theorem glBody_sym {eigh : Eigh n} (he : IsEighOracle eigh) {a : GLArgs n} (hS : a.empCov.IsSymm)
    (hi : 0 < a.rhoOptions.tauInc) (hd : 0 < a.rhoOptions.tauDec) (it : ℕ) (s : GLState n)
    (h : GLSym s) : GLSym (glBody eigh a it s).1 := by
  obtain ⟨hZ, hU, hr⟩ := h
  have hK : (glK eigh a.empCov s.rho s.Z s.U).IsSymm := (glK_posDef he hS hr s.Z s.U).isSymm'
  have hKh : (glKhat a.overRelax (glK eigh a.empCov s.rho s.Z s.U) s.Z).IsSymm := by
    unfold glKhat
    rw [IsSymm, transpose_sub, transpose_smul, transpose_smul, hK.eq, hZ.eq]
  set Khat := glKhat a.overRelax (glK eigh a.empCov s.rho s.Z s.U) s.Z
  have hZ' : (glZ a.alpha s.rho Khat s.U).IsSymm := by
    unfold glZ
    have hs : (Khat + s.U).IsSymm := by rw [IsSymm, transpose_add, hKh.eq, hU.eq]
    ext i j
    rw [Matrix.transpose_apply, softOff_apply, softOff_apply, hs.apply i j]
    congr 1
    by_cases hij : i = j
    · simp [hij]
    · simp [hij, Ne.symm hij]
  have hU' : (s.U + (Khat - glZ a.alpha s.rho Khat s.U)).IsSymm := by
    rw [IsSymm, transpose_add, transpose_sub, hU.eq, hKh.eq, hZ'.eq]
  unfold glBody
  simp only
  split
  · exact ⟨hZ', hU', hr⟩
  · exact ⟨hZ', isSymm_smul _ hU', updateRho_pos hi hd hr _ _⟩

/-- C15: for a symmetric covariance and start, whatever the tolerances, options and over-relaxation,
the precision returned after any number of iterations is symmetric and every log-det iterate is
positive definite. -/
theorem C15_symmetric_posdef_iterates {eigh : Eigh n} (he : IsEighOracle eigh) (a : GLArgs n)
    (hS : a.empCov.IsSymm) (hi : 0 < a.rhoOptions.tauInc) (hd : 0 < a.rhoOptions.tauDec)
    {Z0 : Matrix n n ℝ} (hZ0 : Z0.IsSymm) {rho : ℝ} (hrho : 0 < rho) :
    (∀ m hist nit Z S h k w,
      graphicalLasso eigh a Z0 rho m hist nit = .ok Z S h k w → Z.IsSymm ∧ S = a.empCov) ∧
    ∀ k, let s := stateAt (glBody eigh a) (glInit Z0 rho) k
      (glK eigh a.empCov s.rho s.Z s.U).PosDef := by
  have h0 : GLSym (glInit Z0 rho) := ⟨hZ0, by simp [glInit, IsSymm], hrho⟩
  have hstep := fun it s h => glBody_sym he hS hi hd it s h
  constructor
  · intro m hist nit Z S h k w hr
    have hinv := runLoop_invariant (glBody eigh a) GLSym hstep m h0
    unfold graphicalLasso at hr
    simp only at hr
    split at hr
    · split at hr
      · cases hr
      · injection hr with h1 h2 _ _ _
        exact ⟨h1 ▸ hinv.1, h2.symm⟩
    · injection hr with h1 h2 _ _ _
      exact ⟨h1 ▸ hinv.1, h2.symm⟩
  · intro k s
    have hinv : GLSym s := stateAt_invariant (glBody eigh a) GLSym hstep h0 k
    exact glK_posDef he hS hinv.2.2 _ _

/-- An eigensolver meeting the contract exists, so the hypotheses can be met. -/
theorem exists_eighOracle : ∃ eigh : Eigh n, IsEighOracle eigh := by
  classical
  refine ⟨fun A => if h : A.IsSymm then
    ((exists_isEigh h).choose, (exists_isEigh h).choose_spec.choose) else (1, 0), fun A hA => ?_⟩
  simp only [dif_pos hA]
  exact (exists_isEigh hA).choose_spec.choose_spec

/-- Non-vacuity for C15: a non-diagonal covariance, a zero start, default options. -/
example : (!![2, 1; 1, 2] : Matrix (Fin 2) (Fin 2) ℝ).IsSymm ∧
    (0 : Matrix (Fin 2) (Fin 2) ℝ).IsSymm ∧ ∃ eigh : Eigh (Fin 2), IsEighOracle eigh := by
  refine ⟨?_, by simp [IsSymm], exists_eighOracle⟩
  ext i j; fin_cases i <;> fin_cases j <;> rfl

end Verif.Props
