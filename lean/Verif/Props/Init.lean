import Verif.Model.Init
import Verif.Lemmas.Spectral
import Verif.Props.GLLoop

/-! Property theorems C26. -/

namespace Verif.Props

open Verif.Spec Verif.Model Verif.Lemmas Matrix

set_option autoImplicit false
set_option linter.unusedSectionVars false

variable {n : Type*} [Fintype n] [DecidableEq n]

/-- The shrunk covariance that the `'empirical'` start inverts: off-diagonal entries times 0.95,
diagonal kept. -/
noncomputable def shrunk (S : Matrix n n ℝ) : Matrix n n ℝ :=
  fun i j => if i = j then S i i else 0.95 * S i j

/-- All matrices stored in an array. -/
def arrMats : Arr n → List (Matrix n n ℝ)
  | .mat M => [M]
  | .batch l => l

theorem modify_last (h : Heap n) (a : Arr n) (f : Arr n → Arr n) :
    (h ++ [a] : Heap n).modify h.length f = h ++ [f a] := by
  unfold Heap.modify
  simp

theorem zip_shrunk (E : Arr n) :
    (E.map fun M => (0.95 : ℝ) • M).zip (fun C M => fillDiagonal C (getDiagonal M)) E =
      E.map shrunk := by
  have hM : ∀ M : Matrix n n ℝ, fillDiagonal ((0.95 : ℝ) • M) (getDiagonal M) = shrunk M := by
    intro M
    ext i j
    unfold fillDiagonal getDiagonal shrunk
    by_cases h : i = j <;> simp [h]
  cases E with
  | mat M => simp [Arr.map, Arr.zip, hM]
  | batch l =>
    simp only [Arr.map, Arr.zip, Arr.batch.injEq]
    induction l with
    | nil => rfl
    | cons M l ih => simp [hM, ih]

/-- C26: whatever the mode, no array that existed before the call is modified (in particular not the
covariance), and the result is: the pseudo-inverse of the shrunk covariance in a fresh array for
`'empirical'`; the very object passed by the user for an array; zeros in a fresh array otherwise. -/
theorem C26_init_precision (eigh : Eigh n) (cutoff : Matrix n n ℝ → ℝ) (h : Heap n) (e : ℕ)
    (E : Arr n) (he : h[e]? = some E) (mode : InitMode) :
    ∃ (h' : Heap n) (r : ℕ), initPrecision eigh cutoff h e mode = some (h', r) ∧
      (∀ k, k < h.length → h'[k]? = h[k]?) ∧
      match mode with
      | .empirical => h.length ≤ r ∧ h'[r]? = some (E.map fun S => pinvh eigh cutoff (shrunk S))
      | .ndarray r0 => r = r0 ∧ h' = h
      | .other => h.length ≤ r ∧ h'[r]? = some (E.map fun _ => 0) := by
  cases mode with
  | ndarray r0 =>
    refine ⟨h, r0, ?_, fun k _ => rfl, rfl, rfl⟩
    simp [initPrecision, he]
  | other =>
    refine ⟨h ++ [E.map fun _ => 0], h.length, ?_, fun k hk => ?_, le_rfl, ?_⟩
    · simp [initPrecision, he, Heap.alloc]
    · rw [List.getElem?_append_left hk]
    · simp
  | empirical =>
    have hcomp : (E.map shrunk).map (pinvh eigh cutoff) =
        E.map fun S => pinvh eigh cutoff (shrunk S) := by
      cases E <;> simp [Arr.map, Function.comp_def]
    refine ⟨h ++ [E.map shrunk] ++ [E.map fun S => pinvh eigh cutoff (shrunk S)], h.length + 1,
      ?_, fun k hk => ?_, by omega, ?_⟩
    · simp only [initPrecision, he, Heap.alloc, modify_last, zip_shrunk]
      simp [hcomp]
    · rw [List.getElem?_append_left (by simp; omega), List.getElem?_append_left hk]
    · simp

theorem shrunk_isSymm {S : Matrix n n ℝ} (hS : S.IsSymm) : (shrunk S).IsSymm := by
  ext i j
  rw [transpose_apply]
  by_cases h : i = j
  · subst h; rfl
  · simp [shrunk, h, Ne.symm h, hS.apply i j]

theorem pinvh_isSymm (eigh : Eigh n) (cutoff : Matrix n n ℝ → ℝ) (A : Matrix n n ℝ) :
    (pinvh eigh cutoff A).IsSymm := by
  unfold pinvh
  exact recompose_isSymm _ _

/-- C26: the `'empirical'` and the zero start are symmetric. -/
theorem C26_start_symmetric (eigh : Eigh n) (cutoff : Matrix n n ℝ → ℝ) (h : Heap n) (e : ℕ)
    (E : Arr n) (he : h[e]? = some E) (mode : InitMode) (hm : mode = .empirical ∨ mode = .other) :
    ∃ (h' : Heap n) (r : ℕ) (K : Arr n), initPrecision eigh cutoff h e mode = some (h', r) ∧
      h'[r]? = some K ∧ (arrMats K).length = (arrMats E).length ∧ ∀ M ∈ arrMats K, M.IsSymm := by
  obtain ⟨h', r, h1, _, h3⟩ := C26_init_precision eigh cutoff h e E he mode
  rcases hm with hm | hm
  · subst hm
    refine ⟨h', r, _, h1, h3.2, ?_, ?_⟩
    · cases E <;> simp [Arr.map, arrMats]
    · cases E <;> simp [Arr.map, arrMats, pinvh_isSymm]
  · subst hm
    refine ⟨h', r, _, h1, h3.2, ?_, ?_⟩
    · cases E <;> simp [Arr.map, arrMats]
    · cases E <;> simp [Arr.map, arrMats]

/-- C26: shrinking regularises: a positive semidefinite covariance with positive variances becomes
positive definite, whatever its rank. -/
theorem C26_shrunk_posDef {S : Matrix n n ℝ} (hS : S.PosSemidef) (hd : ∀ i, 0 < S i i) :
    (shrunk S).PosDef := by
  have e : shrunk S = (0.95 : ℝ) • S + diagonal fun i => 0.05 * S i i := by
    ext i j
    by_cases h : i = j
    · subst h; simp [shrunk]; ring
    · simp [shrunk, h]
  rw [e]
  exact PosDef.posSemidef_add (hS.smul (by norm_num))
    (PosDef.diagonal fun i => by have := hd i; positivity)

/-- C26: when the shrunk covariance is positive definite and all its eigenvalues exceed scipy's
cutoff, the `'empirical'` start is its inverse, hence positive definite. -/
theorem C26_empirical_inverse {eigh : Eigh n} (heigh : IsEighOracle eigh)
    (cutoff : Matrix n n ℝ → ℝ) {S : Matrix n n ℝ} (hpd : (shrunk S).PosDef)
    (hcut : ∀ i, |(eigh (shrunk S)).2 i| > cutoff (shrunk S)) :
    pinvh eigh cutoff (shrunk S) = (shrunk S)⁻¹ ∧ (pinvh eigh cutoff (shrunk S)).PosDef := by
  have hq := heigh _ hpd.isSymm'
  have hpos := hq.eigen_pos hpd
  have h1 : pinvh eigh cutoff (shrunk S) =
      recompose (eigh (shrunk S)).1 fun i => ((eigh (shrunk S)).2 i)⁻¹ := by
    unfold pinvh
    congr 1
    funext i
    rw [if_pos (hcut i)]
  have h2 : pinvh eigh cutoff (shrunk S) = (shrunk S)⁻¹ := by
    rw [h1, ← recompose_inv hq.orth hq.orth' fun i => (hpos i).ne', ← hq.eq_recompose]
  exact ⟨h2, by rw [h2]; exact hpd.inv⟩

/-- Non-vacuity for C26: the singular covariance with all entries 1 (PSD, positive diagonal) and a
cutoff of 0 meet the hypotheses of the last two theorems. -/
example : ∃ (eigh : Eigh (Fin 2)) (S : Matrix (Fin 2) (Fin 2) ℝ), IsEighOracle eigh ∧ S.det = 0 ∧
    pinvh eigh (fun _ => 0) (shrunk S) = (shrunk S)⁻¹ := by
  obtain ⟨eigh, he⟩ := exists_eighOracle (n := Fin 2)
  have hS : (vecMulVec (fun _ : Fin 2 => (1 : ℝ)) (star fun _ => 1)).PosSemidef :=
    posSemidef_vecMulVec_self_star _
  have hpd := C26_shrunk_posDef hS (fun i => by simp [vecMulVec])
  refine ⟨eigh, _, he, ?_, (C26_empirical_inverse he _ hpd fun i => ?_).1⟩
  · simp [det_fin_two, vecMulVec]
  · exact abs_pos.mpr ((he _ hpd.isSymm').eigen_pos hpd i).ne'

end Verif.Props
