import Verif.Model.TimeGLM
import Verif.Lemmas.Temporal
import Verif.Lemmas.Loop
import Verif.Props.TGL
import Verif.Props.Validation
import Verif.Props.KTGL
import Verif.Props.GLM
import Verif.Props.KernelArgs
import Verif.Props.Soft
import Mathlib.Analysis.Complex.ExponentialBounds
import Mathlib.Analysis.Convex.SpecificFunctions.Basic

/-! Property theorems C123-C126: the time-varying Ising and Poisson estimators. -/

namespace Verif.Props

open Verif.Model Verif.Spec Verif.Lemmas Matrix

set_option autoImplicit false
set_option linter.unusedSectionVars false

/-! ### C123 -/

section loop

variable {n : Type*} [Fintype n] [DecidableEq n] {k : ℕ} {E : Type*} [Fintype E]

/-- The returned matrices of a solver call. -/
def tgResult : KTReturn k n → Option (Batch k n)
  | .unbound => none
  | .ok K _ _ _ => some K

theorem tgBody_cases (g : TimePairs k E) (a : TGArgs k E n) (it : ℕ) (s : TGState k E n) :
    ∃ r, (tgBody g a it s).1 = tgNext g a s ∨ (tgBody g a it s).1 = tgRescale r (tgNext g a s) := by
  refine ⟨updateRho a.rhoOptions s.rho (tgDiagnose g a s (tgNext g a s)).rnorm
    (tgDiagnose g a s (tgNext g a s)).snorm, ?_⟩
  unfold tgBody
  simp only
  split
  · exact Or.inl rfl
  · exact Or.inr rfl

theorem tgResult_state {g : TimePairs k E} {a : TGArgs k E n} {rho : ℝ} {maxIter : ℕ} {h ni : Bool} {K : Batch k n}
    (hK : tgResult (fitTimeGLM g a rho maxIter h ni) = some K) :
    K = (runLoop (tgBody g a) maxIter (tgInit rho)).state.K := by
  unfold fitTimeGLM at hK
  cases ni
  · simp only [Bool.false_eq_true, if_false, tgResult, Option.some.injEq] at hK
    exact hK.symm
  · simp only [if_true] at hK
    split at hK
    · simp [tgResult] at hK
    · simp only [tgResult, Option.some.injEq] at hK
      exact hK.symm

/-- Every matrix the solver returns after at least one iteration is a matrix returned by the inner fit. -/
theorem tgResult_inner {g : TimePairs k E} {a : TGArgs k E n} {rho : ℝ} {maxIter : ℕ} {h ni : Bool} {K : Batch k n}
    (hm : 1 ≤ maxIter) (hK : tgResult (fitTimeGLM g a rho maxIter h ni) = some K) (t : Fin k) :
    ∃ A r, A.IsSymm ∧ K t = a.inner t A r := by
  rw [tgResult_state hK]
  have key : ∀ j, ∃ A r, A.IsSymm ∧ (stateAt (tgBody g a) (tgInit rho) (j + 1)).K t = a.inner t A r := by
    intro j
    set s := stateAt (tgBody g a) (tgInit rho) j with hs
    refine ⟨tgA g s t, s.rho, ?_, ?_⟩
    · unfold tgA symmetrize
      rw [IsSymm, transpose_smul, transpose_add, transpose_transpose, add_comm]
    · change (tgBody g a j s).1.K t = _
      obtain ⟨r, h | h⟩ := tgBody_cases g a j s <;> rw [h] <;> rfl
  rcases runLoop_spec (tgBody g a) maxIter (tgInit rho) with ⟨j, _, _, _, he⟩ | ⟨_, he⟩
  · rw [he]; exact key j
  · rw [he]
    obtain ⟨j, rfl⟩ : ∃ j, maxIter = j + 1 := ⟨maxIter - 1, by omega⟩
    exact key j

/-- With `max_iter = 0` the zero matrices come back (or the iteration counter is unbound). -/
theorem tgResult_zero {g : TimePairs k E} {a : TGArgs k E n} {rho : ℝ} {h ni : Bool} {K : Batch k n}
    (hK : tgResult (fitTimeGLM g a rho 0 h ni) = some K) : K = 0 := tgResult_state hK

end loop

section ising

variable {d m k : ℕ}

theorem isingFitStep_symm (X : Fin (m + 1) → Fin d → ℝ) (alpha gamma : ℝ) (A : Matrix (Fin d) (Fin d) ℝ) (rho T : ℝ)
    (theta : Matrix (Fin d) (Fin d) ℝ) : (isingFitStep X alpha gamma A rho T theta).IsSymm := by
  ext i j
  unfold isingFitStep
  simp only [transpose_apply]
  rw [softOff_apply, softOff_apply]
  have h1 : (if j = i then (0 : ℝ) else alpha * gamma) = if i = j then 0 else alpha * gamma := by
    by_cases h : i = j
    · rw [if_pos h, if_pos h.symm]
    · rw [if_neg h, if_neg fun h' => h h'.symm]
  rw [h1]
  congr 1
  simp only [Matrix.smul_apply, Matrix.add_apply, transpose_apply]
  rw [add_comm]

theorem isingFitStep_diag (X : Fin (m + 1) → Fin d → ℝ) (alpha gamma : ℝ) {A : Matrix (Fin d) (Fin d) ℝ} (rho T : ℝ)
    {theta : Matrix (Fin d) (Fin d) ℝ} (hA : ∀ i, A i i = 0) (ht : ∀ i, theta i i = 0) (i : Fin d) :
    isingFitStep X alpha gamma A rho T theta i i = 0 := by
  unfold isingFitStep
  rw [softOff_apply, if_pos rfl, softScalar_zero_right]
  simp [isingGradA, hA, ht]

theorem isingFitLoop_inv (P : Matrix (Fin d) (Fin d) ℝ → Prop)
    (step : Matrix (Fin d) (Fin d) ℝ → Matrix (Fin d) (Fin d) ℝ) (hstep : ∀ x, P x → P (step x)) (tol : ℝ) :
    ∀ (N : ℕ) (x : Matrix (Fin d) (Fin d) ℝ), P x → P (isingFitLoop step tol N x)
  | 0, _, h => h
  | N + 1, x, h => by
      unfold isingFitLoop
      split
      · exact hstep x h
      · exact isingFitLoop_inv P step hstep tol N _ (hstep x h)

theorem isingFit_symm (X : Fin (m + 1) → Fin d → ℝ) (alpha gamma tol : ℝ) (N : ℕ) (T : ℝ)
    (A : Matrix (Fin d) (Fin d) ℝ) (rho : ℝ) : (isingFit X alpha gamma tol N T A rho).IsSymm :=
  isingFitLoop_inv (fun x => x.IsSymm) _ (fun x _ => isingFitStep_symm X alpha gamma A rho T x) tol N 0
    (by simp [IsSymm])

variable {E : Type*} [Fintype E]

/-- C123, Ising: whatever the data, the options and the number of iterations, every returned matrix is symmetric (so the
loss is defined on it) and, if the proximal map keeps zero diagonals, has a zero diagonal: no self-loops. -/
theorem C123_ising (g : TimePairs k E) (X : Fin k → Fin (m + 1) → Fin d → ℝ) (alpha gamma tol rtol : ℝ) (maxIter : ℕ)
    (weight : E → ℝ) (psi : Matrix (Fin d) (Fin d) ℝ → ℝ)
    (prox : Matrix (Fin d) (Fin d) ℝ → ℝ → Matrix (Fin d) (Fin d) ℝ)
    (hprox : ∀ (A : Matrix (Fin d) (Fin d) ℝ) lam i, A i i = 0 → prox A lam i i = 0) (rho : ℝ) (h ni : Bool)
    {K : Batch k (Fin d)}
    (hK : tgResult (fitTimeGLM g (timeIsingArgs X alpha gamma tol rtol maxIter weight psi prox) rho maxIter h ni) =
      some K) (t : Fin k) :
    (K t).IsSymm ∧ (∀ i, K t i i = 0) ∧ (isingLoss (X t) (K t)).isSome := by
  set a := timeIsingArgs X alpha gamma tol rtol maxIter weight psi prox with ha
  have hs : (K t).IsSymm := by
    rcases Nat.eq_zero_or_pos maxIter with h0 | h0
    · rw [h0] at hK
      rw [tgResult_zero hK]
      simp [IsSymm]
    · obtain ⟨A, r, _, h2⟩ := tgResult_inner h0 hK t
      rw [h2]
      exact isingFit_symm ..
  refine ⟨hs, ?_, ?_⟩
  · rw [tgResult_state hK]
    have inv := runLoop_invariant (tgBody g a) (fun s => (∀ t i, s.K t i i = 0) ∧ (∀ e i, s.ZL e i i = 0) ∧
      (∀ e i, s.ZR e i i = 0) ∧ (∀ e i, s.UL e i i = 0) ∧ ∀ e i, s.UR e i i = 0) ?_ maxIter (s := tgInit rho) ?_
    · exact inv.1 t
    · rintro it s ⟨_, h2, h3, h4, h5⟩
      have hA : ∀ t i, tgA g s t i i = 0 := by
        intro t i
        have hsc : ∀ (f : E → Fin k) (Y : E → Matrix (Fin d) (Fin d) ℝ), (∀ e, Y e i i = 0) → scatter f Y t i i = 0 := by
          intro f Y hY
          unfold scatter
          rw [Matrix.sum_apply]
          refine Finset.sum_eq_zero fun e _ => ?_
          split
          · exact hY e
          · rfl
        unfold tgA symmetrize
        simp only [Matrix.smul_apply, Matrix.add_apply, transpose_apply]
        rw [hsc _ _ fun e => by rw [Matrix.sub_apply, h2, h4, sub_zero],
          hsc _ _ fun e => by rw [Matrix.sub_apply, h3, h5, sub_zero]]
        simp
      have hKn : ∀ t i, (tgNext g a s).K t i i = 0 := by
        intro t
        change ∀ i, isingFit (X t) alpha gamma tol maxIter k (tgA g s t) s.rho i i = 0
        exact isingFitLoop_inv (fun x => ∀ i, x i i = 0) _
          (fun x hx i => isingFitStep_diag (X t) alpha gamma s.rho k (hA t) hx i) tol maxIter 0 (fun _ => rfl)
      have hZL : ∀ e i, (tgNext g a s).ZL e i i = 0 := by
        intro e i
        change tglZ1 prox (weight e) s.rho ((tgNext g a s).K (g.src e) + s.UL e) ((tgNext g a s).K (g.dst e) + s.UR e) i i = 0
        unfold tglZ1
        rw [Matrix.smul_apply, Matrix.sub_apply, hprox]
        · simp [hKn, h4, h5]
        · simp [hKn, h4, h5]
      have hZR : ∀ e i, (tgNext g a s).ZR e i i = 0 := by
        intro e i
        change tglZ2 prox (weight e) s.rho ((tgNext g a s).K (g.src e) + s.UL e) ((tgNext g a s).K (g.dst e) + s.UR e) i i = 0
        unfold tglZ2
        rw [Matrix.smul_apply, Matrix.add_apply, hprox]
        · simp [hKn, h4, h5]
        · simp [hKn, h4, h5]
      have hUL : ∀ e i, (tgNext g a s).UL e i i = 0 := by
        intro e i
        change (s.UL e + ((tgNext g a s).K (g.src e) - (tgNext g a s).ZL e)) i i = 0
        rw [Matrix.add_apply, Matrix.sub_apply, h4, hKn, hZL]; ring
      have hUR : ∀ e i, (tgNext g a s).UR e i i = 0 := by
        intro e i
        change (s.UR e + ((tgNext g a s).K (g.dst e) - (tgNext g a s).ZR e)) i i = 0
        rw [Matrix.add_apply, Matrix.sub_apply, h5, hKn, hZR]; ring
      obtain ⟨r, h | h⟩ := tgBody_cases g a it s <;> rw [h]
      · exact ⟨hKn, hZL, hZR, hUL, hUR⟩
      · refine ⟨hKn, hZL, hZR, fun e i => ?_, fun e i => ?_⟩
        · change ((s.rho / r) • (tgNext g a s).UL e) i i = 0
          rw [Matrix.smul_apply, hUL, smul_zero]
        · change ((s.rho / r) • (tgNext g a s).UR e) i i = 0
          rw [Matrix.smul_apply, hUR, smul_zero]
    · exact ⟨fun _ _ => rfl, fun _ _ => rfl, fun _ _ => rfl, fun _ _ => rfl, fun _ _ => rfl⟩
  · unfold isingLoss
    rw [if_pos hs.eq.symm]
    rfl

/-- The hypothesis of `C123_ising` holds for the penalties `'l1'` and `'laplacian'`. -/
example (A : Matrix (Fin d) (Fin d) ℝ) (lam : ℝ) (i : Fin d) (h : A i i = 0) :
    softThresholdingMat A lam i i = 0 ∧ proxLaplacianMat A lam i i = 0 := by
  constructor
  · simp only [softThresholdingMat, h]
    unfold softScalar npSign
    simp
  · simp [proxLaplacianMat, h]

/-- C123, Poisson: after at least one iteration every returned matrix is symmetric with unit diagonal; an edge without
estimate in either direction is absent. (`loss` and the neighbourhood fits are arbitrary.) -/
theorem C123_poisson (g : TimePairs k E) (a : TGArgs k E (Fin d))
    (neighbours : Fin k → Matrix (Fin d) (Fin d) ℝ → ℝ → ℕ → ℕ → ℝ)
    (hin : ∀ t, a.inner t = poissonInner (neighbours t)) (rho : ℝ) {maxIter : ℕ} (hm : 1 ≤ maxIter) (h ni : Bool)
    {K : Batch k (Fin d)} (hK : tgResult (fitTimeGLM g a rho maxIter h ni) = some K) (t : Fin k) :
    (K t).IsSymm ∧ (∀ i, K t i i = 1) ∧ ∃ A r, A.IsSymm ∧ ∀ i j : Fin d, i ≠ j →
      neighbours t A r i j = 0 → neighbours t A r j i = 0 → K t i j = 0 := by
  obtain ⟨A, r, hA, h2⟩ := tgResult_inner hm hK t
  rw [h2, hin]
  have hu := fun i j : Fin d => C40_union_partial d (neighbours t A r) i j i.2 j.2
  refine ⟨?_, fun i => (hu i i).2.1, A, r, hA, fun i j hij => (hu i j).2.2.1 (fun h => hij (Fin.ext h))⟩
  ext i j
  exact (hu j i).1

/-- Non-vacuity for C123: a run with three times and two iterations returns matrices. -/
example (a : TGArgs 3 (PairIdx 3) (Fin 2)) : (tgResult (fitTimeGLM (allPairs 3) a 1 2 true false)).isSome := rfl

end ising

/-! ### C124 -/

section stationary

variable {n : Type*} [Fintype n] [DecidableEq n] {k : ℕ} {E : Type*} [Fintype E]

/-- "One iteration leaves the state unchanged": the estimates, the consensus variables and the unscaled duals. -/
def TGStationary (g : TimePairs k E) (a : TGArgs k E n) (s : TGState k E n) : Prop :=
  let s' := (tgBody g a 0 s).1
  s'.K = s.K ∧ s'.ZL = s.ZL ∧ s'.ZR = s.ZR ∧
    (∀ e, s'.rho • s'.UL e = s.rho • s.UL e) ∧ (∀ e, s'.rho • s'.UR e = s.rho • s.UR e)

theorem tgStationary_iff (g : TimePairs k E) (a : TGArgs k E n)
    (hi : 0 < a.rhoOptions.tauInc) (hd : 0 < a.rhoOptions.tauDec) (s : TGState k E n) (hr : 0 < s.rho) :
    TGStationary g a s ↔
      (∀ t, a.inner t (tgA g s t) s.rho = s.K t) ∧ (∀ e, s.ZL e = s.K (g.src e)) ∧ (∀ e, s.ZR e = s.K (g.dst e)) ∧
      (∀ e, tglZ1 a.prox (a.weight e) s.rho (s.ZL e + s.UL e) (s.ZR e + s.UR e) = s.ZL e) ∧
      (∀ e, tglZ2 a.prox (a.weight e) s.rho (s.ZL e + s.UL e) (s.ZR e + s.UR e) = s.ZR e) := by
  set K : Batch k n := fun t => a.inner t (tgA g s t) s.rho with hK
  set ZL : E → Matrix n n ℝ := fun e =>
    tglZ1 a.prox (a.weight e) s.rho (K (g.src e) + s.UL e) (K (g.dst e) + s.UR e) with hZL
  set ZR : E → Matrix n n ℝ := fun e =>
    tglZ2 a.prox (a.weight e) s.rho (K (g.src e) + s.UL e) (K (g.dst e) + s.UR e) with hZR
  obtain ⟨r, hr', hb⟩ : ∃ r, r ≠ 0 ∧ ((tgBody g a 0 s).1 = tgNext g a s ∨
      (tgBody g a 0 s).1 = tgRescale r (tgNext g a s)) := by
    refine ⟨updateRho a.rhoOptions s.rho (tgDiagnose g a s (tgNext g a s)).rnorm
      (tgDiagnose g a s (tgNext g a s)).snorm, (updateRho_pos hi hd hr _ _).ne', ?_⟩
    unfold tgBody
    simp only
    split
    · exact Or.inl rfl
    · exact Or.inr rfl
  have h1 : (tgBody g a 0 s).1.K = K := by rcases hb with h | h <;> rw [h] <;> rfl
  have h2 : (tgBody g a 0 s).1.ZL = ZL := by rcases hb with h | h <;> rw [h] <;> rfl
  have h3 : (tgBody g a 0 s).1.ZR = ZR := by rcases hb with h | h <;> rw [h] <;> rfl
  have hc : r * (s.rho / r) = s.rho := mul_div_cancel₀ _ hr'
  have h5 : ∀ e, (tgBody g a 0 s).1.rho • (tgBody g a 0 s).1.UL e =
      s.rho • (s.UL e + (K (g.src e) - ZL e)) := by
    intro e
    rcases hb with h | h <;> rw [h]
    · rfl
    · change r • ((s.rho / r) • (s.UL e + (K (g.src e) - ZL e))) = _
      rw [smul_smul, hc]
  have h6 : ∀ e, (tgBody g a 0 s).1.rho • (tgBody g a 0 s).1.UR e =
      s.rho • (s.UR e + (K (g.dst e) - ZR e)) := by
    intro e
    rcases hb with h | h <;> rw [h]
    · rfl
    · change r • ((s.rho / r) • (s.UR e + (K (g.dst e) - ZR e))) = _
      rw [smul_smul, hc]
  have hcancel : ∀ U X Y : Matrix n n ℝ, s.rho • (U + (X - Y)) = s.rho • U ↔ X = Y := by
    intro U X Y
    constructor
    · intro h
      have h0 : U + (X - Y) = U := smul_right_injective _ hr.ne' h
      exact sub_eq_zero.mp (by simpa using h0)
    · rintro rfl; simp
  unfold TGStationary
  simp only [h1, h2, h3, h5, h6, hcancel]
  constructor
  · rintro ⟨e1, e2, e3, e5, e6⟩
    have k0 : ∀ t, K t = s.K t := fun t => by rw [e1]
    have k1 : ∀ e, s.ZL e = s.K (g.src e) := fun e => by rw [← e2, ← e5 e, k0]
    have k2 : ∀ e, s.ZR e = s.K (g.dst e) := fun e => by rw [← e3, ← e6 e, k0]
    have f1 := fun e => congrFun e2 e
    have f2 := fun e => congrFun e3 e
    simp only [hZL, hZR, k0] at f1 f2
    refine ⟨k0, k1, k2, fun e => ?_, fun e => ?_⟩
    · have h := f1 e
      rw [← k1 e, ← k2 e] at h
      exact h
    · have h := f2 e
      rw [← k1 e, ← k2 e] at h
      exact h
  · rintro ⟨k0, k1, k2, f1, f2⟩
    have g0 : K = s.K := funext k0
    have g1 : ZL = s.ZL := by
      funext e; simp only [hZL, g0]; rw [← k1 e, ← k2 e]; exact f1 e
    have g2 : ZR = s.ZR := by
      funext e; simp only [hZR, g0]; rw [← k1 e, ← k2 e]; exact f2 e
    refine ⟨g0, g1, g2, fun e => ?_, fun e => ?_⟩
    · rw [g1, k1, g0]
    · rw [g2, k2, g0]

/-- First-order condition of a regularised minimiser over the symmetric matrices. -/
theorem symm_min_subgrad {F : Matrix n n ℝ → ℝ} (hF : ConvexPen F) {c : ℝ} {A P : Matrix n n ℝ}
    (hP : IsMin {X : Matrix n n ℝ | X.IsSymm} (fun X => F X + c / 2 * frobSq (X - A)) P) {X : Matrix n n ℝ}
    (hX : X.IsSymm) : F P + frobInner (c • (A - P)) (X - P) ≤ F X := by
  have key : 0 ≤ F X - F P - frobInner (c • (A - P)) (X - P) := by
    refine nonneg_of_forall_small (b := c / 2 * frobSq (X - P)) fun t h0 h1 => ?_
    have hPs : P.IsSymm := hP.1
    have hs : (P + t • (X - P)).IsSymm := by
      rw [IsSymm, transpose_add, transpose_smul, transpose_sub, hX.eq, hPs.eq]
    have h2 := hP.2 (P + t • (X - P)) hs
    simp only at h2
    have h3 := hF P X t h0.le h1
    have e : P + t • (X - P) - A = (P - A) + t • (X - P) := by abel
    rw [e, frobSq_add, frobSq_smul, frobInner_smul_right] at h2
    have e2 : frobInner (c • (A - P)) (X - P) = -(c * frobInner (P - A) (X - P)) := by
      rw [frobInner_smul_left, ← mul_neg, ← frobInner_neg_left, neg_sub]
    rw [e2]
    have h4 : 0 ≤ t * (F X - F P + c * frobInner (P - A) (X - P) + t * (c / 2 * frobSq (X - P))) := by nlinarith
    have h5 := nonneg_of_mul_nonneg_right h4 h0
    linarith
  linarith

/-- Sequences of symmetric matrices. -/
def SymmSeq (k : ℕ) (n : Type*) : Set (Fin k → Matrix n n ℝ) := {K | ∀ t, (K t).IsSymm}

/-- C124 (part that holds): if the inner fit solves its regularised problem exactly, a stationary state of the
time-varying solver is the unique minimiser over symmetric sequences of the documented problem (losses with their
penalties `F t` plus the kernel coupling) PLUS `rho/2 * ∑ ‖K_t‖²`. The extra term is the effect of dividing by `n_times` the
sum of `n_times - 1` consensus terms; it does not vanish and depends on the solver parameter `rho`, so the statement
without it is false (`C124_rho_false`). -/
theorem C124_stationary_partial (a : TGArgs k Empty n) (kernel : Option (Fin k → Fin k → ℝ))
    (hker : ∀ s t, s < t → 0 ≤ kernelOf kernel s t)
    (F : Fin k → Matrix n n ℝ → ℝ) (hF : ∀ t, ConvexPen (F t))
    (hin : ∀ t A rho, 0 < rho → A.IsSymm → IsMin {X : Matrix n n ℝ | X.IsSymm}
      (fun X => F t X + rho * k / 2 * frobSq (X - A)) (a.inner t A rho))
    (hconv : ConvexPen a.psi) (hprox : IsProxOf a.psi a.prox)
    (hi : 0 < a.rhoOptions.tauInc) (hd : 0 < a.rhoOptions.tauDec) (s : TGState k (PairIdx k) n) (hr : 0 < s.rho)
    (h : TGStationary (allPairs k) (tgArgsOf a kernel) s) :
    UniqueMin (SymmSeq k n) (fun K => ∑ t, F t (K t) + kernelCoupling (kernelOf kernel) a.psi K
      + s.rho / 2 * ∑ t, frobSq (K t)) s.K := by
  obtain ⟨k0, k1, k2, f1, f2⟩ := (tgStationary_iff (allPairs k) (tgArgsOf a kernel) hi hd s hr).mp h
  have hw : ∀ e : PairIdx k, 0 ≤ kernelWeight kernel e := by
    intro e
    have := hker e.1.1 e.1.2 e.2
    cases kernel <;> exact this
  have hpair := fun e => pair_fixed (f1 e) (f2 e)
  simp only [tgArgsOf] at k0 hpair
  have hAs : ∀ t, (tgA (allPairs k) s t).IsSymm := by
    intro t
    unfold tgA symmetrize
    rw [IsSymm, transpose_smul, transpose_add, transpose_transpose, add_comm]
  have hKs : ∀ t, (s.K t).IsSymm := fun t => by
    rw [← k0 t]; exact (hin t _ _ hr (hAs t)).1
  refine ⟨hKs, fun X hX hne => ?_⟩
  set S : Batch k n := fun t => scatter (allPairs k).src s.UL t + scatter (allPairs k).dst s.UR t with hS
  have hA : ∀ t, (s.rho * k) • (tgA (allPairs k) s t - s.K t) = -(s.rho • s.K t) - s.rho • symmetrize (S t) := by
    intro t
    have hk : (k : ℝ) ≠ 0 := by
      have : 0 < k := t.pos
      exact_mod_cast this.ne'
    have hB : scatter (allPairs k).src (fun e => s.ZL e - s.UL e) t
        + scatter (allPairs k).dst (fun e => s.ZR e - s.UR e) t = ((k : ℝ) - 1) • s.K t - S t := by
      have hcov := covers_all (n := n) s.K t
      have e1 : s.ZL = fun e => s.K ((allPairs k).src e) := funext k1
      have e2 : s.ZR = fun e => s.K ((allPairs k).dst e) := funext k2
      rw [scatter_sub, scatter_sub, sub_smul, one_smul, ← hcov, e1, e2, hS]
      simp only [scatter]
      abel
    unfold tgA
    rw [hB, symmetrize_smul, symmetrize_sub, symmetrize_smul, symmetrize_of_isSymm (hKs t), smul_sub, smul_smul,
      mul_assoc, mul_inv_cancel₀ hk, mul_one, smul_sub, smul_smul]
    have : (s.rho * k) • s.K t = (s.rho * ((k : ℝ) - 1)) • s.K t + s.rho • s.K t := by
      rw [← add_smul]; congr 1; ring
    rw [this]
    abel
  have hfo : ∀ t, F t (s.K t) - s.rho * frobInner (s.K t) (X t - s.K t) - frobInner (s.rho • S t) (X t - s.K t)
      ≤ F t (X t) := by
    intro t
    have h1 := symm_min_subgrad (hF t) (hin t _ _ hr (hAs t)) (hX t)
    rw [k0 t, hA t, frobInner_sub_left, frobInner_neg_left, frobInner_smul_left, frobInner_smul_left,
      frobInner_symmetrize (by rw [IsSymm, transpose_sub, (hX t).eq, (hKs t).eq])] at h1
    rw [frobInner_smul_left]
    linarith
  have hblock := block_le (allPairs k) (pen := fun _ => 0) (c := 0)
    (psi := fun e X => kernelWeight kernel e * a.psi X) (K := s.K) (X := X)
    (G := fun t => s.rho • S t) (YL := fun e => s.rho • s.UL e) (YR := fun e => s.rho • s.UR e)
    (fun e => by rw [(hpair e).1, smul_neg])
    (fun t => by
      rw [scatter_smul, scatter_smul, ← smul_sub, ← smul_sub]
      have e2 : S t - scatter (allPairs k).src s.UL t - scatter (allPairs k).dst s.UR t = 0 := by
        simp only [hS]; abel
      rw [e2, smul_zero, frobInner_zero_left']
      simp)
    (fun e => by
      have hp := (hpair e).2
      rw [k1 e, k2 e] at hp
      exact pair_subgrad hconv hprox (hw e) hr hp _)
  have hsum := Finset.sum_le_sum (s := Finset.univ) (fun t (_ : t ∈ Finset.univ) => hfo t)
  rw [Finset.sum_sub_distrib, Finset.sum_sub_distrib, ← Finset.mul_sum] at hsum
  have hq : ∀ t, frobSq (X t) = frobSq (s.K t) + 2 * frobInner (s.K t) (X t - s.K t) + frobSq (X t - s.K t) := by
    intro t
    have := frobSq_add (s.K t) (X t - s.K t)
    rw [add_sub_cancel] at this
    linarith
  have hpos : 0 < ∑ t, frobSq (X t - s.K t) := by
    obtain ⟨t0, ht0⟩ : ∃ t, X t ≠ s.K t := by
      by_contra hc
      push Not at hc
      exact hne (funext hc)
    exact Finset.sum_pos' (fun t _ => frobSq_nonneg _) ⟨t0, Finset.mem_univ _, frobSq_pos_of_ne ht0⟩
  have hq2 : ∑ t, frobSq (X t) = ∑ t, frobSq (s.K t) + 2 * ∑ t, frobInner (s.K t) (X t - s.K t)
      + ∑ t, frobSq (X t - s.K t) := by
    rw [Finset.mul_sum, ← Finset.sum_add_distrib, ← Finset.sum_add_distrib]
    exact Finset.sum_congr rfl fun t _ => hq t
  simp only
  rw [kernelCoupling_eq, kernelCoupling_eq, hq2]
  simp only [zero_mul, zero_add] at hblock
  have := mul_pos hr hpos
  linarith

end stationary

section isingInner

variable {d : ℕ}

/-- Specification: the negative log pseudo-likelihood of a network, the sum over the nodes. -/
noncomputable def isingNLL {m : ℕ} (X : Fin m → Fin d → ℝ) (theta : Matrix (Fin d) (Fin d) ℝ) : ℝ :=
  ∑ r, nodeNLL X r fun k => theta k r

theorem logcosh_tangent (a b : ℝ) :
    Real.log (Real.exp a + Real.exp (-a)) + (Real.exp a - Real.exp (-a)) / (Real.exp a + Real.exp (-a)) * (b - a)
      ≤ Real.log (Real.exp b + Real.exp (-b)) := by
  set s := Real.exp a + Real.exp (-a) with hs
  have hpos : 0 < s := by positivity
  have hp : 0 ≤ Real.exp a / s := by positivity
  have hq : 0 ≤ Real.exp (-a) / s := by positivity
  have h := convexOn_exp.2 (Set.mem_univ (b - a)) (Set.mem_univ (-(b - a))) hp hq
    (by rw [← add_div]; exact div_self hpos.ne')
  simp only [smul_eq_mul] at h
  have e1 : Real.exp a / s * Real.exp (b - a) + Real.exp (-a) / s * Real.exp (-(b - a)) =
      (Real.exp b + Real.exp (-b)) / s := by
    rw [div_mul_eq_mul_div, div_mul_eq_mul_div, ← Real.exp_add, ← Real.exp_add, ← add_div]
    congr 3 <;> ring_nf
  rw [e1] at h
  have h2 := Real.log_le_log (Real.exp_pos _) h
  rw [Real.log_exp, Real.log_div (by positivity) hpos.ne'] at h2
  have e2 : Real.exp a / s * (b - a) + Real.exp (-a) / s * -(b - a) = (Real.exp a - Real.exp (-a)) / s * (b - a) := by
    rw [sub_div]; ring
  linarith

/-- The tangent inequality of the pseudo-likelihood of one sample. -/
theorem nodeNLL_tangent (X : Fin 1 → Fin d → ℝ) (theta Y : Matrix (Fin d) (Fin d) ℝ) (r : Fin d) :
    nodeNLL X r (fun k => theta k r) + ∑ j, (if j = r then 0 else isingTerm X theta 0 r j) * (Y j r - theta j r)
      ≤ nodeNLL X r fun k => Y k r := by
  have ha : (∑ k, if k ≠ r then X 0 k * theta k r else 0) = isingField X theta 0 r := rfl
  have hb : (∑ k, if k ≠ r then X 0 k * Y k r else 0) = isingField X Y 0 r := rfl
  have ht := logcosh_tangent (isingField X theta 0 r) (isingField X Y 0 r)
  have hd : ∑ j, (if j = r then 0 else isingTerm X theta 0 r j) * (Y j r - theta j r) =
      ((Real.exp (isingField X theta 0 r) - Real.exp (-isingField X theta 0 r)) /
        (Real.exp (isingField X theta 0 r) + Real.exp (-isingField X theta 0 r)) - X 0 r)
        * (isingField X Y 0 r - isingField X theta 0 r) := by
    unfold isingField
    rw [← Finset.sum_sub_distrib, Finset.mul_sum]
    refine Finset.sum_congr rfl fun j _ => ?_
    by_cases hj : j = r
    · simp [hj]
    · simp only [hj, if_false, ne_eq, not_false_eq_true, if_true, isingTerm, isingField]
      norm_num
      ring
  rw [hd]
  unfold nodeNLL
  simp only [Fin.sum_univ_one, Nat.cast_one, div_one, one_mul, ha, hb]
  linarith

theorem isingNLL_tangent (X : Fin 1 → Fin d → ℝ) {theta Y : Matrix (Fin d) (Fin d) ℝ} (ht : theta.IsSymm)
    (hY : Y.IsSymm) : isingNLL X theta
      + frobInner (Matrix.of fun r j => if j = r then 0 else isingTerm X theta 0 r j) (Y - theta) ≤ isingNLL X Y := by
  have h := Finset.sum_le_sum (s := Finset.univ) fun r (_ : r ∈ Finset.univ) => nodeNLL_tangent X theta Y r
  rw [Finset.sum_add_distrib] at h
  unfold isingNLL
  refine le_trans (le_of_eq ?_) h
  congr 1
  unfold frobInner
  refine Finset.sum_congr rfl fun r _ => Finset.sum_congr rfl fun j _ => ?_
  rw [Matrix.of_apply, Matrix.sub_apply, ← ht.apply r j, ← hY.apply r j]

/-- C124, the inner fit on one sample: a fixed point of its iteration solves the regularised problem handed to it, over the
symmetric matrices (with several samples the gradient is wrong, see C41). -/
theorem C124_inner_partial (X : Fin 1 → Fin d → ℝ) {alpha gamma rho T : ℝ} (hal : 0 ≤ alpha) (hg : 0 < gamma)
    (hrT : 0 ≤ rho * T) (A : Matrix (Fin d) (Fin d) ℝ) {theta : Matrix (Fin d) (Fin d) ℝ}
    (h : isingFitStep X alpha gamma A rho T theta = theta) :
    IsMin {Y : Matrix (Fin d) (Fin d) ℝ | Y.IsSymm}
      (fun Y => isingNLL X Y + alpha * absSumOff Y + rho * T / 2 * frobSq (Y - A)) theta := by
  have hs : theta.IsSymm := by rw [← h]; exact isingFitStep_symm ..
  refine ⟨hs, fun Y hY => ?_⟩
  have hY' : Y.IsSymm := hY
  set G := isingGradA X A rho T theta with hG
  have hentry : ∀ i j, alpha * gamma * (if i = j then 0 else |theta i j|)
      - gamma * (symmetrize G i j * (Y i j - theta i j)) ≤ alpha * gamma * (if i = j then 0 else |Y i j|) := by
    intro i j
    have h1 := congrFun (congrFun h i) j
    unfold isingFitStep at h1
    rw [softOff_apply] at h1
    have h2 := softScalar_subgrad (lam := if i = j then 0 else alpha * gamma) (by split <;> positivity)
      (((1 / 2 : ℝ) • (theta - gamma • G + (theta - gamma • G)ᵀ)) i j) (Y i j)
    rw [h1] at h2
    have h3 : ((1 / 2 : ℝ) • (theta - gamma • G + (theta - gamma • G)ᵀ)) i j = theta i j - gamma * symmetrize G i j := by
      unfold symmetrize
      simp only [Matrix.smul_apply, Matrix.add_apply, Matrix.sub_apply, transpose_apply, smul_eq_mul, hs.apply i j]
      ring
    rw [h3] at h2
    by_cases hij : i = j
    · simp only [hij, if_true] at h2 ⊢
      nlinarith
    · simp only [hij, if_false] at h2 ⊢
      nlinarith
  have hsum := Finset.sum_le_sum (s := Finset.univ) fun i (_ : i ∈ Finset.univ) =>
    Finset.sum_le_sum (s := Finset.univ) fun j (_ : j ∈ Finset.univ) => hentry i j
  simp only [Finset.sum_sub_distrib, ← Finset.mul_sum] at hsum
  have hsum' : alpha * gamma * absSumOff theta - gamma * frobInner (symmetrize G) (Y - theta)
      ≤ alpha * gamma * absSumOff Y := hsum
  rw [frobInner_symmetrize (by rw [IsSymm, transpose_sub, hY'.eq, hs.eq])] at hsum'
  have hdiv : alpha * absSumOff theta - frobInner G (Y - theta) ≤ alpha * absSumOff Y := by
    by_contra hc
    push Not at hc
    have := mul_lt_mul_of_pos_left hc hg
    nlinarith
  have hsplit : G = (Matrix.of fun r j => if j = r then 0 else isingTerm X theta 0 r j) + (rho * T) • (theta - A) := by
    ext r j
    simp [hG, isingGradA]
  rw [hsplit, frobInner_add_left, frobInner_smul_left] at hdiv
  have htan := isingNLL_tangent X hs hY'
  have hq : frobSq (Y - A) = frobSq (theta - A) + 2 * frobInner (theta - A) (Y - theta) + frobSq (Y - theta) := by
    have := frobSq_add (theta - A) (Y - theta)
    rw [show theta - A + (Y - theta) = Y - A by abel] at this
    linarith
  simp only
  rw [hq]
  have := mul_nonneg hrT (frobSq_nonneg (Y - theta))
  nlinarith

theorem softScalar_inj_ne {a b lam : ℝ} (hl : 0 ≤ lam) (h : softScalar a lam = softScalar b lam)
    (h0 : softScalar a lam ≠ 0) : a = b := by
  have hcase : ∀ x, (lam < x ∧ softScalar x lam = x - lam) ∨ (x < -lam ∧ softScalar x lam = x + lam) ∨
      softScalar x lam = 0 := by
    intro x
    by_cases h1 : lam < x
    · exact Or.inl ⟨h1, softScalar_of_pos hl h1⟩
    · by_cases h2 : x < -lam
      · exact Or.inr (Or.inl ⟨h2, softScalar_of_neg hl h2⟩)
      · exact Or.inr (Or.inr (softScalar_of_abs_le (abs_le.mpr ⟨by linarith, by linarith⟩)))
  rcases hcase a with ⟨p1, p2⟩ | ⟨p1, p2⟩ | p2 <;> rcases hcase b with ⟨q1, q2⟩ | ⟨q1, q2⟩ | q2 <;>
    first
    | (exfalso; exact h0 p2)
    | (exfalso; exact h0 (h.trans q2))
    | (rw [p2, q2] at h; linarith)

/-- C124: a network with at least one edge is a fixed point of the single-time problem for at most one value of the ADMM
penalty `rho`. -/
theorem C124_rho_unique {m : ℕ} (X : Fin (m + 1) → Fin d → ℝ) {alpha gamma : ℝ} (hal : 0 ≤ alpha) (hg : 0 < gamma)
    {theta : Matrix (Fin d) (Fin d) ℝ} {i j : Fin d} (hij : theta i j ≠ 0) {rho rho' : ℝ}
    (h : isingFitStep X alpha gamma 0 rho 1 theta = theta) (h' : isingFitStep X alpha gamma 0 rho' 1 theta = theta) :
    rho = rho' := by
  have hs : theta.IsSymm := by rw [← h]; exact isingFitStep_symm ..
  have h1 := congrFun (congrFun h i) j
  have h2 := congrFun (congrFun h' i) j
  unfold isingFitStep at h1 h2
  rw [softOff_apply] at h1 h2
  have h3 := softScalar_inj_ne (by split <;> positivity) (h1.trans h2.symm) (by rw [h1]; exact hij)
  simp only [isingGradA, Matrix.smul_apply, Matrix.add_apply, Matrix.sub_apply, transpose_apply, Matrix.of_apply,
    smul_eq_mul, Matrix.zero_apply, hs.apply i j, sub_zero, mul_one] at h3
  have h4 : gamma * theta i j * (rho - rho') = 0 := by linarith
  rcases mul_eq_zero.mp h4 with h5 | h5
  · exact absurd (mul_eq_zero.mp h5) (by push Not; exact ⟨hg.ne', hij⟩)
  · linarith

/-- With one time point the solver hands `A = 0` to the inner fit, in every state. -/
theorem C124_single_time {n : Type*} [Fintype n] [DecidableEq n] (s : TGState 1 (PairIdx 1) n) (t : Fin 1) :
    tgA (allPairs 1) s t = 0 := by
  have : IsEmpty (PairIdx 1) := ⟨fun e => absurd e.2 (by simp [Subsingleton.elim e.1.1 e.1.2])⟩
  simp [tgA, scatter, symmetrize]

/-- The network of the witness: one edge of weight 1. -/
def oneEdge : Matrix (Fin 2) (Fin 2) ℝ := Matrix.of fun i j => if i = j then 0 else 1

theorem oneEdge_step {gamma : ℝ} (hg : 0 < gamma) (rho alpha : ℝ)
    (hal : alpha = 1 - rho - (Real.exp 1 - Real.exp (-1)) / (Real.exp 1 + Real.exp (-1))) (h0 : 0 ≤ alpha) :
    isingFitStep (fun _ : Fin 1 => fun _ : Fin 2 => (1 : ℝ)) alpha gamma 0 rho 1 oneEdge = oneEdge := by
  have hf : ∀ r : Fin 2, isingField (fun _ : Fin 1 => fun _ : Fin 2 => (1 : ℝ)) oneEdge 0 r = 1 := by
    intro r
    fin_cases r <;> simp [isingField, oneEdge]
  ext i j
  unfold isingFitStep
  rw [softOff_apply]
  by_cases hij : i = j
  · subst hij
    rw [if_pos rfl, softScalar_zero_right]
    simp [isingGradA, oneEdge]
  · have hji : ¬ j = i := fun h => hij h.symm
    have hv : ((1 / 2 : ℝ) • (oneEdge - gamma • isingGradA (fun _ : Fin 1 => fun _ : Fin 2 => (1 : ℝ)) 0 rho 1 oneEdge
        + (oneEdge - gamma • isingGradA (fun _ : Fin 1 => fun _ : Fin 2 => (1 : ℝ)) 0 rho 1 oneEdge)ᵀ)) i j =
        1 + alpha * gamma := by
      simp only [Matrix.smul_apply, Matrix.add_apply, Matrix.sub_apply, transpose_apply, isingGradA, Matrix.of_apply,
        isingTerm, smul_eq_mul, hij, hji, if_false, hf, Matrix.zero_apply]
      simp only [oneEdge, Matrix.of_apply, hij, hji, if_false]
      rw [hal]
      norm_num
      ring
    simp only [hij, if_false]
    rw [hv, softScalar_of_pos (by positivity) (by linarith)]
    simp [oneEdge, hij]

theorem tanh_one_lt : (Real.exp 1 - Real.exp (-1)) / (Real.exp 1 + Real.exp (-1)) < 1 := by
  rw [div_lt_one (by positivity)]
  have := Real.exp_pos (-1)
  linarith

/-- C124 is false: there are data (one sample) and `alpha > 0` for which the one-edge network solves the documented
problem, but it is not a fixed point of the code's iteration for any step size and any penalty `rho > 0`. -/
theorem C124_rho_false : ∃ (X : Fin 1 → Fin 2 → ℝ) (alpha : ℝ) (theta : Matrix (Fin 2) (Fin 2) ℝ), 0 < alpha ∧
    IsMin {Y : Matrix (Fin 2) (Fin 2) ℝ | Y.IsSymm} (fun Y => isingNLL X Y + alpha * absSumOff Y) theta ∧
    ∀ gamma rho, 0 < gamma → 0 < rho → isingFitStep X alpha gamma 0 rho 1 theta ≠ theta := by
  set alpha := 1 - 0 - (Real.exp 1 - Real.exp (-1)) / (Real.exp 1 + Real.exp (-1)) with hal
  have h0 : 0 < alpha := by rw [hal]; linarith [tanh_one_lt]
  refine ⟨fun _ _ => 1, alpha, oneEdge, h0, ?_, fun gamma rho hg hr hc => ?_⟩
  · have h := C124_inner_partial (fun _ : Fin 1 => fun _ : Fin 2 => (1 : ℝ)) (alpha := alpha) (gamma := 1) (rho := 0) (T := 1)
      h0.le one_pos (by norm_num) 0 (oneEdge_step one_pos 0 alpha hal h0.le)
    simpa using h
  · have := C124_rho_unique _ h0.le hg (i := 0) (j := 1) (by simp [oneEdge]) hc (oneEdge_step hg 0 alpha hal h0.le)
    exact hr.ne' this

/-- Non-vacuity for `C124_rho_unique` with a positive penalty: `alpha = 1/10`. -/
example : ∃ rho : ℝ, 0 < rho ∧
    isingFitStep (fun _ : Fin 1 => fun _ : Fin 2 => (1 : ℝ)) (1 / 10) 1 0 rho 1 oneEdge = oneEdge := by
  refine ⟨9 / 10 - (Real.exp 1 - Real.exp (-1)) / (Real.exp 1 + Real.exp (-1)), ?_,
    oneEdge_step one_pos _ _ (by ring) (by norm_num)⟩
  rw [sub_pos, div_lt_iff₀ (by positivity)]
  have h1 := Real.exp_one_lt_d9
  have h2 : (36 / 100 : ℝ) < Real.exp (-1) := by
    rw [Real.exp_neg, lt_inv_comm₀ (by norm_num) (Real.exp_pos 1)]
    linarith
  linarith

/-- Arguments for the non-vacuity example below: `F_t(X) = (X - 1)²/2` in one dimension. -/
noncomputable def quadArgs : TGArgs 2 Empty (Fin 1) where
  inner := fun _ A rho => (1 / (1 + 2 * rho)) • (1 + (2 * rho) • A)
  loss := fun _ X => 1 / 2 * frobSq (X - 1)
  alpha := 0
  weight := fun e => e.elim
  psi := absSumMat
  prox := softThresholdingMat
  tol := 1
  rtol := 1

/-- Non-vacuity for `C124_stationary_partial`: with `quadArgs` (two times, the regularised problem is solved in closed
form) and a kernel of ones the hypotheses hold, and at `rho = 1` the constant sequence `1/2` is stationary. -/
example : (∀ t A rho, 0 < rho → A.IsSymm → IsMin {X : Matrix (Fin 1) (Fin 1) ℝ | X.IsSymm}
      (fun X => quadArgs.loss t X + rho * (2 : ℕ) / 2 * frobSq (X - A)) (quadArgs.inner t A rho)) ∧
    (∀ t, ConvexPen (quadArgs.loss t)) ∧
    TGStationary (allPairs 2) (tgArgsOf quadArgs (some fun _ _ => 1))
      ⟨fun _ => (1 / 2 : ℝ) • 1, fun _ => (1 / 2 : ℝ) • 1, fun _ => (1 / 2 : ℝ) • 1, 0, 0, 0, 0, 1⟩ := by
  refine ⟨fun t A rho hr _ => ⟨isSymm_fin_one _, fun X _ => ?_⟩, fun t X Y s h0 h1 => ?_, ?_⟩
  · simp only [quadArgs, frobSq, Finset.univ_unique, Fin.default_eq_zero, Finset.sum_singleton,
      Matrix.sub_apply, Matrix.smul_apply, Matrix.add_apply, Matrix.one_apply_eq, smul_eq_mul, Nat.cast_ofNat]
    have hp : 0 < 1 + 2 * rho := by linarith
    set x := X 0 0
    set c := A 0 0
    set z := 1 / (1 + 2 * rho) * (1 + 2 * rho * c) with hz
    have hz' : (1 + 2 * rho) * z = 1 + 2 * rho * c := by rw [hz]; field_simp
    have key : 1 / 2 * (x - 1) ^ 2 + rho * 2 / 2 * (x - c) ^ 2 - (1 / 2 * (z - 1) ^ 2 + rho * 2 / 2 * (z - c) ^ 2) =
        (1 + 2 * rho) / 2 * (x - z) ^ 2 + (x - z) * ((1 + 2 * rho) * z - (1 + 2 * rho * c)) := by ring
    rw [hz', sub_self, mul_zero, add_zero] at key
    have : 0 ≤ (1 + 2 * rho) / 2 * (x - z) ^ 2 := by positivity
    linarith
  · simp only [quadArgs, frobSq, Finset.univ_unique, Fin.default_eq_zero, Finset.sum_singleton,
      Matrix.sub_apply, Matrix.smul_apply, Matrix.add_apply, Matrix.one_apply_eq, smul_eq_mul]
    nlinarith [mul_nonneg (mul_nonneg h0 (sub_nonneg.mpr h1)) (sq_nonneg (Y 0 0 - X 0 0))]
  · rw [tgStationary_iff _ _ (by norm_num [tgArgsOf, quadArgs]) (by norm_num [tgArgsOf, quadArgs]) _ (by norm_num)]
    have hpair : ∀ e : PairIdx 2, tglZ1 softThresholdingMat (kernelWeight (some fun _ _ => 1) e) 1
          ((1 / 2 : ℝ) • (1 : Matrix (Fin 1) (Fin 1) ℝ) + 0) ((1 / 2 : ℝ) • 1 + 0) = (1 / 2 : ℝ) • 1 ∧
        tglZ2 softThresholdingMat (kernelWeight (some fun _ _ => 1) e) 1
          ((1 / 2 : ℝ) • (1 : Matrix (Fin 1) (Fin 1) ℝ) + 0) ((1 / 2 : ℝ) • 1 + 0) = (1 / 2 : ℝ) • 1 := by
      intro e
      refine pair_fixed_of (by simp) ?_
      rw [sub_self, smul_zero, add_zero]
      exact soft_zero_eq _
    refine ⟨fun t => ?_, fun _ => rfl, fun _ => rfl, fun e => (hpair e).1, fun e => (hpair e).2⟩
    have hcov := covers_all (n := Fin 1) (fun _ : Fin 2 => (1 / 2 : ℝ) • (1 : Matrix (Fin 1) (Fin 1) ℝ)) t
    have hA : tgA (allPairs 2) (⟨fun _ => (1 / 2 : ℝ) • 1, fun _ => (1 / 2 : ℝ) • 1, fun _ => (1 / 2 : ℝ) • 1, 0, 0, 0, 0,
        1⟩ : TGState 2 (PairIdx 2) (Fin 1)) t = (1 / 4 : ℝ) • 1 := by
      have hB : scatter (allPairs 2).src (fun _ => (1 / 2 : ℝ) • (1 : Matrix (Fin 1) (Fin 1) ℝ)) t
          + scatter (allPairs 2).dst (fun _ => (1 / 2 : ℝ) • (1 : Matrix (Fin 1) (Fin 1) ℝ)) t = (1 / 2 : ℝ) • 1 := by
        have h2 : (2 : ℝ) • ((1 / 2 : ℝ) • (1 : Matrix (Fin 1) (Fin 1) ℝ)) = (1 / 2 : ℝ) • 1 + (1 / 2 : ℝ) • 1 := two_smul _ _
        simp only [Nat.cast_ofNat] at hcov
        rw [h2, add_assoc] at hcov
        exact add_left_cancel hcov
      unfold tgA
      simp only [Pi.zero_apply, sub_zero]
      rw [hB, symmetrize_of_isSymm (isSymm_fin_one _), smul_smul]
      norm_num
    rw [hA]
    simp only [tgArgsOf, quadArgs]
    ext i j
    have : i = j := Subsingleton.elim _ _
    subst this
    simp only [Matrix.smul_apply, Matrix.add_apply, Matrix.one_apply_eq, smul_eq_mul]
    norm_num

end isingInner

/-! ### C125 -/

section fitArgs

variable {α : Type*} [LinearOrder α] {N d : ℕ}

/-- C125: when the Ising fit accepts (numeric `ker_param`): exactly two distinct values occur in the data, all labels occur
equally often, and the kernel argument is usable; the solver then gets that kernel. -/
theorem C125_ising (X : Fin N → Fin d → ℝ) (y : Fin N → α) (kernel : KernelArg) (p : ℝ) (a : Arr2) :
    temporalIsingFit X y kernel (some p) = .ok a ↔
      (∃ u v, u ≠ v ∧ (∀ i j, X i j = u ∨ X i j = v) ∧ (∃ i j, X i j = u) ∧ ∃ i j, X i j = v) ∧
      (∀ i j, (Finset.univ.filter fun l => y l = y i).card = (Finset.univ.filter fun l => y l = y j).card) ∧
      fitKernel (Finset.univ.image y).card p kernel = .ok a := by
  have hlen : (classesOf y).length = (Finset.univ.image y).card := by
    unfold classesOf; exact Finset.length_sort _
  have hcard : (Finset.univ.image fun q : Fin N × Fin d => X q.1 q.2).card = 2 ↔
      ∃ u v, u ≠ v ∧ (∀ i j, X i j = u ∨ X i j = v) ∧ (∃ i j, X i j = u) ∧ ∃ i j, X i j = v := by
    rw [Finset.card_eq_two]
    constructor
    · rintro ⟨u, v, huv, he⟩
      have hm : ∀ z, z ∈ (Finset.univ.image fun q : Fin N × Fin d => X q.1 q.2) ↔ ∃ i j, X i j = z := by
        intro z; simp
      refine ⟨u, v, huv, fun i j => ?_, (hm u).mp (by rw [he]; simp), (hm v).mp (by rw [he]; simp)⟩
      have : X i j ∈ (Finset.univ.image fun q : Fin N × Fin d => X q.1 q.2) := (hm _).mpr ⟨i, j, rfl⟩
      rw [he] at this
      simpa using this
    · rintro ⟨u, v, huv, hall, ⟨i, j, hu⟩, ⟨i', j', hv⟩⟩
      refine ⟨u, v, huv, ?_⟩
      ext z
      simp only [Finset.mem_image, Finset.mem_univ, true_and, Prod.exists, Finset.mem_insert, Finset.mem_singleton]
      constructor
      · rintro ⟨q, r, rfl⟩; exact hall q r
      · rintro (rfl | rfl)
        · exact ⟨i, j, hu⟩
        · exact ⟨i', j', hv⟩
  unfold temporalIsingFit
  rw [← hcard]
  by_cases h1 : (Finset.univ.image fun q : Fin N × Fin d => X q.1 q.2).card = 2
  · by_cases h2 : ∀ i j, (rowsOf y (y i)).card = (rowsOf y (y j)).card
    · rw [if_neg (not_not.mpr h1), if_neg (not_not.mpr h2)]
      simp only [hlen]
      constructor
      · intro h
        refine ⟨h1, h2, ?_⟩
        split at h
        · rename_i b hb
          rw [hb]; simpa using h
        · cases h
      · rintro ⟨_, _, h⟩
        rw [h]
    · rw [if_neg (not_not.mpr h1), if_pos h2]
      constructor
      · intro h; cases h
      · rintro ⟨_, h, _⟩; exact absurd h h2
  · rw [if_pos h1]
    constructor
    · intro h; cases h
    · rintro ⟨h, _⟩; exact absurd h h1

/-- Non-vacuity for `C125_ising`: one sample of two variables per time, values 0 and 1. -/
example : temporalIsingFit (fun _ : Fin 2 => ![(0 : ℝ), 1]) (fun i : Fin 2 => i) .none (some 1) = .ok (Arr2.identity 2) := by
  rw [C125_ising]
  refine ⟨⟨0, 1, by norm_num, fun i j => by fin_cases j <;> simp, ⟨0, 0, rfl⟩, ⟨0, 1, rfl⟩⟩, fun i j => ?_, ?_⟩
  · fin_cases i <;> fin_cases j <;> rfl
  · exact (C58_kernel_partial 2 1).1

/-- C125 is false, data values: any two values are accepted, not only 0/1 or -1/1, while genuine spins are rejected when
all of them agree. -/
theorem C125_values_false :
    temporalIsingFit (fun _ : Fin 2 => ![(3 : ℝ), 7]) (fun i : Fin 2 => i) .none (some 1) = .ok (Arr2.identity 2) ∧
    ∀ (N d : ℕ) (y : Fin N → ℕ) (kernel : KernelArg) (q : Option ℝ),
      temporalIsingFit (fun (_ : Fin N) (_ : Fin d) => (1 : ℝ)) y kernel q = .error .value := by
  constructor
  · rw [C125_ising]
    refine ⟨⟨3, 7, by norm_num, fun i j => by fin_cases j <;> simp, ⟨0, 0, rfl⟩, ⟨0, 1, rfl⟩⟩, fun i j => ?_, ?_⟩
    · fin_cases i <;> fin_cases j <;> rfl
    · exact (C58_kernel_partial 2 1).1
  · intro N d y kernel q
    unfold temporalIsingFit
    refine if_pos ?_
    have : (Finset.univ.image fun _ : Fin N × Fin d => (1 : ℝ)).card ≤ 1 := by
      refine le_trans (Finset.card_le_card (t := {1}) ?_) (by simp)
      intro z hz
      simp only [Finset.mem_image] at hz
      obtain ⟨_, _, rfl⟩ := hz
      simp
    change (Finset.univ.image fun _ : Fin N × Fin d => (1 : ℝ)).card ≠ 2
    omega

/-- C125 is false, options: the documented `ker_param='auto'` never works, and with two or more times no kernel array of
the right shape is accepted, for either distribution. -/
theorem C125_options_false (X : Fin N → Fin d → ℝ) (y : Fin N → α) :
    (∀ kernel a, temporalIsingFit X y kernel none ≠ .ok a ∧ temporalPoissonFit y kernel none ≠ .ok a) ∧
    (2 ≤ (Finset.univ.image y).card → ∀ (p : ℝ) (v : Fin (Finset.univ.image y).card → Fin (Finset.univ.image y).card → ℝ) a,
      temporalIsingFit X y (.array ⟨_, _, v⟩) (some p) ≠ .ok a ∧ temporalPoissonFit y (.array ⟨_, _, v⟩) (some p) ≠ .ok a) := by
  have hlen : (classesOf y).length = (Finset.univ.image y).card := by
    unfold classesOf; exact Finset.length_sort _
  constructor
  · intro kernel a
    constructor
    · unfold temporalIsingFit
      split
      · simp
      · split
        · simp
        · cases kernel <;> simp
    · unfold temporalPoissonFit
      split
      · simp
      · cases kernel <;> simp
  · intro h2 p v a
    have hk := (C58_array_false p).1 _ h2 v
    constructor
    · rw [Ne, C125_ising]
      rintro ⟨_, _, h⟩
      rw [hk] at h
      cases h
    · unfold temporalPoissonFit
      split
      · simp
      · simp only [hlen, hk]
        simp

/-- C125: the similarity variant of the Ising model can be constructed, that of the Poisson model cannot: its constructor
raises `TypeError` whatever the arguments are. -/
theorem C125_similarity_false : similarityIsingInit = .ok () ∧ similarityPoissonInit = .error .type := by
  constructor <;> decide

/-- C125: `score` is a constant: it does not depend on the data, the labels or the fitted networks. -/
theorem C125_score_false (X X' : Fin N → Fin d → ℝ) (y y' : Fin N → α) (P P' : List (Matrix (Fin d) (Fin d) ℝ)) :
    temporalGLMScore X y P = temporalGLMScore X' y' P' ∧ temporalGLMScore X y P = -99999999 := ⟨rfl, rfl⟩

end fitArgs

/-! ### C126 -/

section objective

variable {d k m : ℕ}

/-- Specification: the documented problem of the time-varying Ising model. -/
noncomputable def timeIsingObjective (X : Fin k → Fin (m + 1) → Fin d → ℝ) (alpha : ℝ) (kernel : Fin k → Fin k → ℝ)
    (psi : Matrix (Fin d) (Fin d) ℝ → ℝ) (K : Fin k → Matrix (Fin d) (Fin d) ℝ) : ℝ :=
  ∑ t, isingNLL (X t) (K t) + alpha * ∑ t, absSumOff (K t) + kernelCoupling kernel psi K

/-- The objective the code reports for a sequence of networks (consensus variables equal to the networks). -/
noncomputable def reportedObjective (X : Fin k → Fin (m + 1) → Fin d → ℝ) (alpha : ℝ)
    (kernel : Option (Fin k → Fin k → ℝ)) (psi : Matrix (Fin d) (Fin d) ℝ → ℝ)
    (K : Fin k → Matrix (Fin d) (Fin d) ℝ) : ℝ :=
  tgObjectiveCode (timeIsingArgs X alpha 1 1 1 1 (kernelWeight kernel) psi softThresholdingMat) K
    (fun e => K ((allPairs k).src e)) fun e => K ((allPairs k).dst e)

theorem isingLoss_eq {m : ℕ} (X : Fin m → Fin d → ℝ) {K : Matrix (Fin d) (Fin d) ℝ} (hK : K.IsSymm) :
    (isingLoss X K).getD 0 = isingNLL X K := by
  unfold isingLoss
  rw [if_pos hK.eq.symm]
  simp only [Option.getD_some]
  unfold isingNLL nodeNLL
  rw [Finset.mul_sum]
  rfl

/-- C126 (part that holds): the reported objective has the documented penalties, but the loss enters with the opposite
sign: it differs from the documented objective by twice the loss. -/
theorem C126_value_partial (X : Fin k → Fin (m + 1) → Fin d → ℝ) (alpha : ℝ) (kernel : Option (Fin k → Fin k → ℝ))
    (psi : Matrix (Fin d) (Fin d) ℝ → ℝ) {K : Fin k → Matrix (Fin d) (Fin d) ℝ} (hK : ∀ t, (K t).IsSymm) :
    reportedObjective X alpha kernel psi K =
      timeIsingObjective X alpha (kernelOf kernel) psi K - 2 * ∑ t, isingNLL (X t) (K t) := by
  unfold reportedObjective timeIsingObjective tgObjectiveCode tgLoss
  rw [kernelCoupling_eq]
  simp only [timeIsingArgs, l1OdNorm_eq]
  have h1 : ∑ t, -1 * (isingLoss (X t) (K t)).getD 0 = -∑ t, isingNLL (X t) (K t) := by
    rw [← Finset.sum_neg_distrib]
    refine Finset.sum_congr rfl fun t _ => ?_
    rw [isingLoss_eq _ (hK t)]; ring
  have h2 : ∑ e : PairIdx k, psi (K ((allPairs k).dst e) - K ((allPairs k).src e)) * kernelWeight kernel e =
      ∑ e : PairIdx k, kernelWeight kernel e * psi (K ((allPairs k).dst e) - K ((allPairs k).src e)) :=
    Finset.sum_congr rfl fun e _ => mul_comm _ _
  rw [h1, h2]
  ring

theorem isingNLL_pos {m : ℕ} (X : Fin (m + 1) → Fin d → ℝ) (hX : ∀ i j, X i j = -1 ∨ X i j = 1) (hd : 0 < d)
    (K : Matrix (Fin d) (Fin d) ℝ) : 0 < isingNLL X K := by
  have : Nonempty (Fin d) := ⟨⟨0, hd⟩⟩
  unfold isingNLL
  refine Finset.sum_pos (fun r _ => ?_) Finset.univ_nonempty
  unfold nodeNLL
  refine mul_pos (by positivity) (Finset.sum_pos (fun i _ => ?_) Finset.univ_nonempty)
  set f := ∑ k, if k ≠ r then X i k * K k r else 0
  have h1 : f < Real.log (Real.exp f + Real.exp (-f)) := by
    rw [Real.lt_log_iff_exp_lt (by positivity)]
    linarith [Real.exp_pos (-f)]
  have h2 : -f < Real.log (Real.exp f + Real.exp (-f)) := by
    rw [Real.lt_log_iff_exp_lt (by positivity)]
    linarith [Real.exp_pos f]
  rcases hX i r with h | h <;> rw [h] <;> linarith

/-- C126 is false: on spin data the reported objective is strictly below the documented one for every symmetric sequence,
and without penalties it orders the sequences in exactly the opposite way. -/
theorem C126_sign_false (X : Fin k → Fin (m + 1) → Fin d → ℝ) (hX : ∀ t i j, X t i j = -1 ∨ X t i j = 1) (hk : 0 < k)
    (hd : 0 < d) (psi : Matrix (Fin d) (Fin d) ℝ → ℝ) :
    (∀ (alpha : ℝ) kernel (K : Fin k → Matrix (Fin d) (Fin d) ℝ), (∀ t, (K t).IsSymm) →
      reportedObjective X alpha kernel psi K < timeIsingObjective X alpha (kernelOf kernel) psi K) ∧
    ∀ K K' : Fin k → Matrix (Fin d) (Fin d) ℝ, (∀ t, (K t).IsSymm) → (∀ t, (K' t).IsSymm) →
      (reportedObjective X 0 none psi K < reportedObjective X 0 none psi K' ↔
        timeIsingObjective X 0 (kernelOf none) psi K' < timeIsingObjective X 0 (kernelOf none) psi K) := by
  have : Nonempty (Fin k) := ⟨⟨0, hk⟩⟩
  constructor
  · intro alpha kernel K hK
    rw [C126_value_partial X alpha kernel psi hK]
    have : 0 < ∑ t, isingNLL (X t) (K t) :=
      Finset.sum_pos (fun t _ => isingNLL_pos (X t) (hX t) hd (K t)) Finset.univ_nonempty
    linarith
  · intro K K' hK hK'
    rw [C126_value_partial X 0 none psi hK, C126_value_partial X 0 none psi hK']
    unfold timeIsingObjective
    rw [kernelCoupling_none, kernelCoupling_none]
    constructor <;> intro h <;> linarith

/-- Non-vacuity for C126: spin data with one time, one sample, two variables. -/
example : ∃ X : Fin 1 → Fin (0 + 1) → Fin 2 → ℝ, ∀ t i j, X t i j = -1 ∨ X t i j = 1 := ⟨fun _ _ _ => 1, by simp⟩

end objective

end Verif.Props
