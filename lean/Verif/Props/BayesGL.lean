import Verif.Model.BayesGL
import Verif.Props.GLWeights
import Verif.Props.GWishart
import Verif.Props.GWishartGraphs

/-! Property theorem C203 (the Bayesian graphical lasso as a whole). -/

namespace Verif.Props

open Verif.Model Verif.Spec Verif.Lemmas Matrix

set_option autoImplicit false
set_option linter.unusedSectionVars false

variable {p : ℕ}

theorem fillUpper_apply (nz : Fin p → Fin p → Bool) (x : Matrix (Fin p) (Fin p) ℝ) (i j : Fin p) :
    fillUpper nz x i j = (if nz i j then x i j else 0) + if j < i then (if nz j i then x j i else 0) else 0 := rfl

theorem bglMask_lower (g : Fin p → Fin p → Bool) {i j : Fin p} (h : j < i) : bglMask g i j = false := by
  simp [bglMask, not_lt.mpr h.le, h.ne']

theorem fillUpper_mask_symm (g : Fin p → Fin p → Bool) (x : Matrix (Fin p) (Fin p) ℝ) :
    (fillUpper (bglMask g) x).IsSymm := by
  ext i j
  rw [transpose_apply, fillUpper_apply, fillUpper_apply]
  rcases lt_trichotomy i j with h | h | h
  · rw [bglMask_lower g h]
    simp [h, not_lt.mpr h.le]
  · subst h; rfl
  · rw [bglMask_lower g h]
    simp [h, not_lt.mpr h.le]

theorem fillUpper_mask_zero (g : Fin p → Fin p → Bool) (x : Matrix (Fin p) (Fin p) ℝ) {i j : Fin p} (hij : i ≠ j)
    (h1 : g i j = false) (h2 : g j i = false) : fillUpper (bglMask g) x i j = 0 := by
  rw [fillUpper_apply]
  simp [bglMask, hij, hij.symm, h1, h2]

theorem gwAlpha_mask_none (g : Fin p → Fin p → Bool) {i j : Fin p} (hij : i ≠ j) (h1 : g i j = false)
    (h2 : g j i = false) : gwAlpha (bglMask g) i j = none := by
  simp [gwAlpha, bglMask, hij, hij.symm, h1, h2]

/-- A fit is zero off its graph. -/
theorem gwFit_zero (eigh : Eigh (Fin p)) (C : Matrix (Fin p) (Fin p) ℝ) (g : Fin p → Fin p → Bool) (s : GWSolve p)
    {P : Matrix (Fin p) (Fin p) ℝ} (h : gwFit eigh C (bglMask g) s = some P) (hm : ∀ tol rtol Z0, s ≠ .gl tol rtol 0 Z0)
    {i j : Fin p} (hij : i ≠ j) (h1 : g i j = false) (h2 : g j i = false) : P i j = 0 := by
  cases s with
  | covsel x =>
    obtain rfl : fillUpper (bglMask g) x = P := Option.some.inj h
    exact fillUpper_mask_zero g x hij h1 h2
  | gl tol rtol maxIter Z0 =>
    have hm1 : 1 ≤ maxIter := by
      rcases Nat.eq_zero_or_pos maxIter with h0 | h0
      · exact absurd (by rw [h0]) (hm tol rtol Z0)
      · exact h0
    obtain ⟨Z, C', hh, it, w, hcall, hz⟩ := C200_pattern eigh
      { empCov := C, alpha := gwAlpha (bglMask g), tol := tol, rtol := rtol } Z0 1 hm1 false true
    simp only [gwFit, gwFitGL] at h
    rw [hcall] at h
    obtain rfl : Z = P := Option.some.inj h
    exact hz i j hij (gwAlpha_mask_none g hij h1 h2)

theorem gwAlpha_symm (G : Fin p → Fin p → Bool) (i j : Fin p) : gwAlpha G i j = gwAlpha G j i := by
  simp only [gwAlpha, Bool.or_comm]

theorem glwZ_isSymm {n : Type*} [Fintype n] [DecidableEq n] {W : Weights n} (hW : ∀ i j, W i j = W j i) (r : ℝ)
    {K U : Matrix n n ℝ} (hK : K.IsSymm) (hU : U.IsSymm) : (glwZ W r K U).IsSymm := by
  have hs : (K + U).IsSymm := hK.add hU
  ext i j
  rw [transpose_apply]
  unfold glwZ fillDiagonal
  by_cases h : i = j
  · subst h; rfl
  · have e : (K + U) j i = (K + U) i j := hs.apply i j
    simp only [h, Ne.symm h, if_false, e, hW j i]

/-- The default rule keeps the penalty parameter positive. -/
theorem updateRho_default_pos {r x y : ℝ} (hr : 0 < r) : 0 < updateRho {} r x y := by
  unfold updateRho
  simp only
  split_ifs <;> positivity

theorem gwGL_symm {eigh : Eigh (Fin p)} (he : IsEighOracle eigh) {C : Matrix (Fin p) (Fin p) ℝ} (hC : C.IsSymm)
    (G : Fin p → Fin p → Bool) (tol rtol : ℝ) (maxIter : ℕ) {Z0 : Matrix (Fin p) (Fin p) ℝ} (hZ0 : Z0.IsSymm) :
    (runLoop (glwBody eigh { empCov := C, alpha := gwAlpha G, tol := tol, rtol := rtol }) maxIter
      (glInit Z0 1)).state.Z.IsSymm := by
  have key := runLoop_invariant (glwBody eigh { empCov := C, alpha := gwAlpha G, tol := tol, rtol := rtol })
    (fun s => s.Z.IsSymm ∧ s.U.IsSymm ∧ 0 < s.rho) (by
      rintro it s ⟨h1, h2, h3⟩
      have hK : (glK eigh C s.rho s.Z s.U).IsSymm := (glK_posDef he hC h3 _ _).isSymm'
      have hZ := glwZ_isSymm (gwAlpha_symm G) s.rho hK h2
      have hU : (s.U + (glK eigh C s.rho s.Z s.U - glwZ (gwAlpha G) s.rho (glK eigh C s.rho s.Z s.U) s.U)).IsSymm :=
        h2.add (hK.sub hZ)
      unfold glwBody
      simp only [glKhat_one]
      split
      · exact ⟨hZ, hU, h3⟩
      · exact ⟨hZ, isSymm_smul _ hU, updateRho_default_pos h3⟩)
    maxIter (s := glInit Z0 1) ⟨hZ0, by simp [glInit, IsSymm], by simp [glInit]⟩
  exact key.1

theorem gwFit_symm {eigh : Eigh (Fin p)} (he : IsEighOracle eigh) {C : Matrix (Fin p) (Fin p) ℝ} (hC : C.IsSymm)
    (g : Fin p → Fin p → Bool) (s : GWSolve p) (hs : ∀ tol rtol m Z0, s = .gl tol rtol m Z0 → Z0.IsSymm)
    {P : Matrix (Fin p) (Fin p) ℝ} (h : gwFit eigh C (bglMask g) s = some P) : P.IsSymm := by
  cases s with
  | covsel x =>
    obtain rfl : fillUpper (bglMask g) x = P := Option.some.inj h
    exact fillUpper_mask_symm g x
  | gl tol rtol maxIter Z0 =>
    have hz := gwGL_symm he hC (bglMask g) tol rtol maxIter (hs _ _ _ _ rfl)
    simp only [gwFit, gwFitGL, graphicalLassoW, if_true] at h
    split at h
    · rename_i Z _ _ _ _ hh
      split at hh
      · cases hh
      · cases hh
        obtain rfl := Option.some.inj h
        exact hz
    · cases h

theorem topMean_mem {res : List (ℝ × Matrix (Fin p) (Fin p) ℝ)} {topN : ℕ} {M : Matrix (Fin p) (Fin p) ℝ}
    (h : topMean res topN = some M) : ∃ l : List (Matrix (Fin p) (Fin p) ℝ), l.length = min topN res.length ∧ l ≠ [] ∧
      (∀ P ∈ l, ∃ s, (s, P) ∈ res) ∧ M = (1 / (l.length : ℝ)) • l.sum := by
  obtain ⟨rest, hperm, hlen, -⟩ := C150_top res topN
  unfold topMean at h
  simp only at h
  split at h
  · cases h
  · rename_i hne
    refine ⟨(topResults res topN).map Prod.snd, by rw [List.length_map, hlen], fun h0 => hne (by rw [h0]; rfl), ?_,
      (Option.some.inj h).symm⟩
    intro P hP
    obtain ⟨⟨s, P'⟩, hmem, rfl⟩ := List.mem_map.mp hP
    exact ⟨s, hperm.mem_iff.mpr (List.mem_append_left _ hmem)⟩

theorem mapM_option_mem {α β : Type*} (f : α → Option β) : ∀ {l : List α} {r : List β}, l.mapM f = some r →
    (r.length = l.length ∧ ∀ y ∈ r, ∃ x ∈ l, f x = some y)
  | [], r, h => by
    simp at h
    subst h
    simp
  | a :: l, r, h => by
    rw [List.mapM_cons] at h
    cases ha : f a with
    | none => rw [ha] at h; cases h
    | some b =>
      cases hl : l.mapM f with
      | none => rw [ha, hl] at h; cases h
      | some bs =>
        rw [ha, hl] at h
        obtain rfl : b :: bs = r := Option.some.inj h
        obtain ⟨h1, h2⟩ := mapM_option_mem f hl
        refine ⟨by simp [h1], fun y hy => ?_⟩
        rcases List.mem_cons.mp hy with rfl | hy
        · exact ⟨a, List.mem_cons_self, ha⟩
        · obtain ⟨x, hx, e⟩ := h2 y hy
          exact ⟨x, List.mem_cons_of_mem _ hx, e⟩

theorem list_sum_entry (l : List (Matrix (Fin p) (Fin p) ℝ)) (i j : Fin p) (h : ∀ P ∈ l, P i j = 0) : l.sum i j = 0 := by
  induction l with
  | nil => rfl
  | cons P l ih =>
    rw [List.sum_cons, Matrix.add_apply, h P List.mem_cons_self, ih fun Q hQ => h Q (List.mem_cons_of_mem _ hQ), add_zero]

theorem list_sum_symm (l : List (Matrix (Fin p) (Fin p) ℝ)) (h : ∀ P ∈ l, P.IsSymm) : l.sum.IsSymm := by
  induction l with
  | nil => exact isSymm_zero
  | cons P l ih =>
    rw [List.sum_cons]
    exact (h P List.mem_cons_self).add (ih fun Q hQ => h Q (List.mem_cons_of_mem _ hQ))

section

variable {m m' R : ℕ} {eigh : Eigh (Fin p)} {C : Matrix (Fin p) (Fin p) ℝ} {bl : Fin p → Fin m' → Fin p → Bool}
  {idx : Fin R → Fin p → Fin m'} {solve : Fin R → GWSolve p} {score : Fin R → ℝ} {topN : ℕ}
  {M : Matrix (Fin p) (Fin p) ℝ}

/-- The result is the mean of `min top_n R` of the fitted precisions. -/
theorem bayesianGL_mem (h : bayesianGL eigh C bl idx solve score topN = some M) :
    ∃ l : List (Matrix (Fin p) (Fin p) ℝ), l.length = min topN R ∧ l ≠ [] ∧ M = (1 / (l.length : ℝ)) • l.sum ∧
      ∀ P ∈ l, ∃ r, gwFit eigh C (bglMask (resampledGraph bl (idx r))) (solve r) = some P := by
  unfold bayesianGL at h
  split at h
  · cases h
  · rename_i res hres
    obtain ⟨hl, hmem⟩ := mapM_option_mem _ hres
    obtain ⟨l, h1, h2, h3, h4⟩ := topMean_mem h
    refine ⟨l, by rw [h1, hl, List.length_finRange], h2, h4, fun P hP => ?_⟩
    obtain ⟨s, hs⟩ := h3 P hP
    obtain ⟨r, -, hr⟩ := hmem _ hs
    obtain ⟨P', hP', e⟩ := Option.map_eq_some_iff.mp hr
    obtain rfl : P' = P := congrArg Prod.snd e
    exact ⟨r, hP'⟩

/-- C203 (what is kept): a fit of mode `covsel` keeps the diagonal and the entries of the edges of the resampled graph as
the optimiser returned them. -/
theorem C203_covsel_entries (g : Fin p → Fin p → Bool) (x : Matrix (Fin p) (Fin p) ℝ) :
    ∃ P, gwFit eigh C (bglMask g) (.covsel x) = some P ∧ (∀ i, P i i = x i i) ∧
      ∀ i j, i < j → g i j = true → P i j = x i j ∧ P j i = x i j := by
  refine ⟨_, rfl, fun i => ?_, fun i j hij hg => ⟨?_, ?_⟩⟩
  · rw [fillUpper_apply]
    simp [bglMask]
  · rw [fillUpper_apply]
    simp [bglMask, hij, hg, not_lt.mpr hij.le]
  · rw [fillUpper_apply]
    simp [bglMask, hij, hg, not_lt.mpr hij.le, hij.ne']

/-- C203 (edges come from the penalised fits): let `Gs` be the precisions of the graphical lasso fits over the grid of
penalties. Whatever is drawn, whichever solver is used and however the graphs are scored, an edge that no fit of the grid
has (its entry is zero or below the tolerance in every fit, in one of the two directions) is exactly zero in the returned
precision, in both directions. -/
theorem C203_support (tol : ℝ) (Gs : Fin m → Matrix (Fin p) (Fin p) ℝ)
    (hbl : ∀ k', ∃ k, ∀ i j, bl i k' j = inBlanket tol (Gs k) i j) (hm : ∀ r tol rtol Z0, solve r ≠ .gl tol rtol 0 Z0)
    (h : bayesianGL eigh C bl idx solve score topN = some M) {i j : Fin p} (hij : i ≠ j)
    (hno : ∀ k, |Gs k i j| < tol ∨ Gs k i j = 0) : M i j = 0 ∧ M j i = 0 := by
  obtain ⟨l, -, -, hM, hmem⟩ := bayesianGL_mem h
  have hg : ∀ r, resampledGraph bl (idx r) i j = false ∧ resampledGraph bl (idx r) j i = false := by
    intro r
    obtain ⟨hu, -, hf, -⟩ := C146_resampled tol Gs bl hbl (idx r)
    have h1 := hf i j hno
    exact ⟨h1, by rw [← hu.1 i j]; exact h1⟩
  constructor
  · rw [hM, Matrix.smul_apply, list_sum_entry l i j, smul_zero]
    intro P hP
    obtain ⟨r, hr⟩ := hmem P hP
    exact gwFit_zero eigh C _ _ hr (hm r) hij (hg r).1 (hg r).2
  · rw [hM, Matrix.smul_apply, list_sum_entry l j i, smul_zero]
    intro P hP
    obtain ⟨r, hr⟩ := hmem P hP
    exact gwFit_zero eigh C _ _ hr (hm r) hij.symm (hg r).2 (hg r).1

/-- C203 (symmetry): the returned precision is symmetric, for both solvers. -/
theorem C203_symmetric (he : IsEighOracle eigh) (hC : C.IsSymm)
    (hs : ∀ r tol rtol m Z0, solve r = .gl tol rtol m Z0 → Z0.IsSymm)
    (h : bayesianGL eigh C bl idx solve score topN = some M) : M.IsSymm := by
  obtain ⟨l, -, -, hM, hmem⟩ := bayesianGL_mem h
  rw [hM]
  refine isSymm_smul _ (list_sum_symm l fun P hP => ?_)
  obtain ⟨r, hr⟩ := hmem P hP
  exact gwFit_symm he hC _ _ (hs r) hr

/-- C203 (returns): with at least one graph drawn, `top_n ≥ 1` and solvers that make a pass, a matrix is returned. -/
theorem C203_returns (hR : 0 < R) (hN : 0 < topN) (hm : ∀ r tol rtol Z0, solve r ≠ .gl tol rtol 0 Z0) :
    ∃ M, bayesianGL eigh C bl idx solve score topN = some M := by
  have hfit : ∀ r, ∃ P, gwFit eigh C (bglMask (resampledGraph bl (idx r))) (solve r) = some P := by
    intro r
    cases hsr : solve r with
    | covsel x => exact ⟨_, rfl⟩
    | gl tol rtol maxIter Z0 =>
      have hm1 : 1 ≤ maxIter := by
        rcases Nat.eq_zero_or_pos maxIter with h0 | h0
        · exact absurd (by rw [hsr, h0]) (hm r tol rtol Z0)
        · exact h0
      obtain ⟨Z, C', hh, it, w, hcall, -⟩ := C200_pattern eigh
        { empCov := C, alpha := gwAlpha (bglMask (resampledGraph bl (idx r))), tol := tol, rtol := rtol } Z0 1 hm1 false true
      exact ⟨Z, by simp only [gwFit, gwFitGL]; rw [hcall]⟩
  choose P hP using hfit
  have hmap : ∀ l : List (Fin R), (l.mapM fun r => (gwFit eigh C (bglMask (resampledGraph bl (idx r))) (solve r)).map
      fun P => (score r, P)) = some (l.map fun r => (score r, P r)) := by
    intro l
    induction l with
    | nil => rfl
    | cons r l ih => rw [List.mapM_cons, ih, hP]; rfl
  unfold bayesianGL
  rw [hmap]
  simp only
  obtain ⟨rest, hperm, hlen, -⟩ := C150_top ((List.finRange R).map fun r => (score r, P r)) topN
  have hl : (((topResults ((List.finRange R).map fun r => (score r, P r)) topN)).map Prod.snd).length ≠ 0 := by
    rw [List.length_map, hlen, List.length_map, List.length_finRange]
    omega
  unfold topMean
  simp only [hl, if_false]
  exact ⟨_, rfl⟩

end

/-- Non-vacuity for C203: two variables, one fit of the grid without an edge, one graph drawn and the other solver used
on the identity. -/
example : ∃ (eigh : Eigh (Fin 2)), IsEighOracle eigh ∧
    (∀ k' : Fin 1, ∃ k : Fin 1, ∀ i j : Fin 2, (fun i (_ : Fin 1) j => inBlanket (1 / 2) (1 : Matrix (Fin 2) (Fin 2) ℝ) i j) i k' j
      = inBlanket (1 / 2) ((fun _ => 1 : Fin 1 → Matrix (Fin 2) (Fin 2) ℝ) k) i j) ∧
    (∀ k : Fin 1, |((fun _ => 1 : Fin 1 → Matrix (Fin 2) (Fin 2) ℝ) k) 0 1| < 1 / 2 ∨
      ((fun _ => 1 : Fin 1 → Matrix (Fin 2) (Fin 2) ℝ) k) 0 1 = 0) ∧
    ∃ M, bayesianGL eigh 1 (fun i (_ : Fin 1) j => inBlanket (1 / 2) (1 : Matrix (Fin 2) (Fin 2) ℝ) i j)
      (fun (_ : Fin 1) _ => 0) (fun _ => .gl 0 0 3 1) (fun _ => 0) 1 = some M := by
  obtain ⟨eigh, he⟩ := exists_eighOracle (n := Fin 2)
  refine ⟨eigh, he, fun _ => ⟨0, fun _ _ => rfl⟩, fun _ => Or.inr (by simp), ?_⟩
  exact C203_returns (by norm_num) (by norm_num) fun _ _ _ _ h => by cases h

end Verif.Props
