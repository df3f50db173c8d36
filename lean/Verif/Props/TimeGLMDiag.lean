import Verif.Props.TimeGLM

/-! Property theorem C123 for every penalty that does not depend on signs: no self-loops. -/

namespace Verif.Props

open Verif.Model Verif.Spec Verif.Lemmas Matrix

set_option autoImplicit false
set_option linter.unusedSectionVars false

variable {d m k : ℕ}

/-- `A` with the sign of one entry changed. -/
def flipEntry (i j : Fin d) (A : Matrix (Fin d) (Fin d) ℝ) : Matrix (Fin d) (Fin d) ℝ :=
  fun a b => if a = i ∧ b = j then -A a b else A a b

/-- The exact proximal map of a penalty that does not depend on the sign of an entry keeps that entry at zero. -/
theorem prox_keeps_zero {psi : Matrix (Fin d) (Fin d) ℝ → ℝ}
    {prox : Matrix (Fin d) (Fin d) ℝ → ℝ → Matrix (Fin d) (Fin d) ℝ} (hp : IsProxOf psi prox) {i j : Fin d}
    (hs : ∀ B, psi (flipEntry i j B) = psi B) (A : Matrix (Fin d) (Fin d) ℝ) (lam : ℝ) (hl : 0 ≤ lam)
    (h0 : A i j = 0) : prox A lam i j = 0 := by
  by_contra hne
  have h := (hp A lam hl).2 (flipEntry i j (prox A lam)) (Set.mem_univ _) (by
    intro he
    have := congrFun (congrFun he i) j
    simp only [flipEntry, and_self, if_true] at this
    exact hne (by linarith))
  refine absurd h (not_lt.2 (le_of_eq ?_))
  unfold proxObjMat
  rw [hs]
  congr 1
  try congr 1
  refine Finset.sum_congr rfl fun a _ => Finset.sum_congr rfl fun b _ => ?_
  rw [Matrix.sub_apply, Matrix.sub_apply]
  unfold flipEntry
  split
  · rename_i hab
    obtain ⟨rfl, rfl⟩ := hab
    rw [h0]
    ring
  · rfl

variable {E : Type*} [Fintype E]

/-- C123, Ising, for every exact proximal map: if the penalty does not depend on the signs of the diagonal entries (see
`C123_penalties`), the weights of the pairs are not negative and `rho > 0`, there are no
self-loops. -/
theorem C123_exact (g : TimePairs k E) (X : Fin k → Fin (m + 1) → Fin d → ℝ) (alpha gamma tol rtol : ℝ) (maxIter : ℕ)
    {weight : E → ℝ} (hw : ∀ e, 0 ≤ weight e) {psi : Matrix (Fin d) (Fin d) ℝ → ℝ}
    {prox : Matrix (Fin d) (Fin d) ℝ → ℝ → Matrix (Fin d) (Fin d) ℝ} (hp : IsProxOf psi prox)
    (hsign : ∀ i B, psi (flipEntry i i B) = psi B) {rho : ℝ} (hrho : 0 < rho) (h ni : Bool) {K : Batch k (Fin d)}
    (hK : tgResult (fitTimeGLM g (timeIsingArgs X alpha gamma tol rtol maxIter weight psi prox) rho maxIter h ni) =
      some K) (t : Fin k) (i : Fin d) : K t i i = 0 := by
  have hprox : ∀ (A : Matrix (Fin d) (Fin d) ℝ) lam, 0 ≤ lam → ∀ i, A i i = 0 → prox A lam i i = 0 :=
    fun A lam hl i h0 => prox_keeps_zero hp (hsign i) A lam hl h0
  set a := timeIsingArgs X alpha gamma tol rtol maxIter weight psi prox with ha
  rw [tgResult_state hK]
  have inv := runLoop_invariant (tgBody g a) (fun s => 0 < s.rho ∧ (∀ t i, s.K t i i = 0) ∧ (∀ e i, s.ZL e i i = 0) ∧
    (∀ e i, s.ZR e i i = 0) ∧ (∀ e i, s.UL e i i = 0) ∧ ∀ e i, s.UR e i i = 0) ?_ maxIter (s := tgInit rho) ?_
  · exact inv.2.1 t i
  · rintro it s ⟨hr, _, h2, h3, h4, h5⟩
    have hlam : ∀ e, 0 ≤ 2 * weight e / s.rho := fun e => div_nonneg (mul_nonneg zero_le_two (hw e)) hr.le
    have hA : ∀ t i, tgA g s t i i = 0 := by
      intro t i
      have hsc : ∀ (f : E → Fin k) (Y : E → Matrix (Fin d) (Fin d) ℝ), (∀ e, Y e i i = 0) → scatter f Y t i i = 0 := by
        intro f Y hY
        unfold scatter
        rw [Matrix.sum_apply]
        refine Finset.sum_eq_zero fun e _ => ?_
        split
        · exact hY e
        · rfl
      unfold tgA symmetrize
      simp only [Matrix.smul_apply, Matrix.add_apply, transpose_apply]
      rw [hsc _ _ fun e => by rw [Matrix.sub_apply, h2, h4, sub_zero],
        hsc _ _ fun e => by rw [Matrix.sub_apply, h3, h5, sub_zero]]
      simp
    have hKn : ∀ t i, (tgNext g a s).K t i i = 0 := by
      intro t
      change ∀ i, isingFit (X t) alpha gamma tol maxIter k (tgA g s t) s.rho i i = 0
      exact isingFitLoop_inv (fun x => ∀ i, x i i = 0) _
        (fun x hx i => isingFitStep_diag (X t) alpha gamma s.rho k (hA t) hx i) tol maxIter 0 (fun _ => rfl)
    have hZL : ∀ e i, (tgNext g a s).ZL e i i = 0 := by
      intro e i
      change tglZ1 prox (weight e) s.rho ((tgNext g a s).K (g.src e) + s.UL e) ((tgNext g a s).K (g.dst e) + s.UR e) i i = 0
      unfold tglZ1
      rw [Matrix.smul_apply, Matrix.sub_apply, hprox _ _ (hlam e)]
      · simp [hKn, h4, h5]
      · simp [hKn, h4, h5]
    have hZR : ∀ e i, (tgNext g a s).ZR e i i = 0 := by
      intro e i
      change tglZ2 prox (weight e) s.rho ((tgNext g a s).K (g.src e) + s.UL e) ((tgNext g a s).K (g.dst e) + s.UR e) i i = 0
      unfold tglZ2
      rw [Matrix.smul_apply, Matrix.add_apply, hprox _ _ (hlam e)]
      · simp [hKn, h4, h5]
      · simp [hKn, h4, h5]
    have hUL : ∀ e i, (tgNext g a s).UL e i i = 0 := by
      intro e i
      change (s.UL e + ((tgNext g a s).K (g.src e) - (tgNext g a s).ZL e)) i i = 0
      rw [Matrix.add_apply, Matrix.sub_apply, h4, hKn, hZL]; ring
    have hUR : ∀ e i, (tgNext g a s).UR e i i = 0 := by
      intro e i
      change (s.UR e + ((tgNext g a s).K (g.dst e) - (tgNext g a s).ZR e)) i i = 0
      rw [Matrix.add_apply, Matrix.sub_apply, h5, hKn, hZR]; ring
    unfold tgBody
    simp only
    split
    · exact ⟨hr, hKn, hZL, hZR, hUL, hUR⟩
    · have hr' := updateRho_pos (o := a.rhoOptions) (by rw [ha]; simp [timeIsingArgs]) (by rw [ha]; simp [timeIsingArgs]) hr
        (tgDiagnose g a s (tgNext g a s)).rnorm (tgDiagnose g a s (tgNext g a s)).snorm
      refine ⟨hr', hKn, hZL, hZR, fun e i => ?_, fun e i => ?_⟩
      · simp [tgRescale, hUL]
      · simp [tgRescale, hUR]
  · exact ⟨hrho, fun _ _ => rfl, fun _ _ => rfl, fun _ _ => rfl, fun _ _ => rfl, fun _ _ => rfl⟩

theorem abs_flipEntry (i j : Fin d) (B : Matrix (Fin d) (Fin d) ℝ) (a b : Fin d) : |flipEntry i j B a b| = |B a b| := by
  unfold flipEntry
  split
  · rw [abs_neg]
  · rfl

theorem sq_flipEntry (i j : Fin d) (B : Matrix (Fin d) (Fin d) ℝ) (a b : Fin d) :
    flipEntry i j B a b ^ 2 = B a b ^ 2 := by
  rw [← sq_abs, abs_flipEntry, sq_abs]

/-- C123: the condition on the penalty holds for `'laplacian'`, `'l1'`, `'l2'` and `'linf'` as evaluated, and for the sum of
the norms of the columns, whose proximal map is used for `'l2'`. -/
theorem C123_penalties (i : Fin d) (B : Matrix (Fin d) (Fin d) ℝ) :
    squaredNorm (flipEntry i i B) = squaredNorm B ∧ l1Norm (flipEntry i i B) = l1Norm B ∧
      npNormMat (flipEntry i i B) = npNormMat B ∧ npNormInf (flipEntry i i B) = npNormInf B ∧
      ∑ b, npNorm (fun a => flipEntry i i B a b) = ∑ b, npNorm fun a => B a b := by
  refine ⟨?_, ?_, ?_, ?_, ?_⟩
  · simp only [squaredNorm, sq_flipEntry]
  · simp only [l1Norm, abs_flipEntry]
  · simp only [npNormMat, sq_flipEntry]
  · simp only [npNormInf, abs_flipEntry]
  · simp only [npNorm, sq_flipEntry]

/-- The hypotheses of `C123_exact` hold for the absolute values, soft-thresholded. -/
example : IsProxOf (l1Norm : Matrix (Fin d) (Fin d) ℝ → ℝ) softThresholdingMat ∧
    ∀ (i : Fin d) (B : Matrix (Fin d) (Fin d) ℝ), l1Norm (flipEntry i i B) = l1Norm B := by
  exact ⟨soft_isProxOf, fun i B => (C123_penalties i B).2.1⟩

end Verif.Props
