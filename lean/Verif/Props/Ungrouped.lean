import Verif.Props.OverlapRun
import Verif.Props.Certificate
import Mathlib.Tactic.Linarith
import Mathlib.Tactic.NormNum

/-! Property theorem C228: features in no group, and the default of no groups at all
(regain/linear_model/group_lasso_overlap_.py:91-180, 218). -/

namespace Verif.Props

open Matrix Verif.Model Verif.Spec Verif.Lemmas

set_option autoImplicit false
set_option linter.unusedSectionVars false

variable {m p : ℕ}

theorem le_npNorm {q : ℕ} (v : Fin q → ℝ) (i : Fin q) : |v i| ≤ npNorm v := by
  unfold npNorm
  rw [← Real.sqrt_sq_eq_abs]
  exact Real.sqrt_le_sqrt (Finset.single_le_sum (f := fun i => v i ^ 2) (fun j _ => sq_nonneg (v j)) (Finset.mem_univ i))

/-- The last pass of a returning call: the state before it, the returned vector and the last record. -/
theorem overlap_last_pass (rag : Bool) (npInv : Matrix (Fin p) (Fin p) ℝ → Matrix (Fin p) (Fin p) ℝ)
    (a : OverlapArgs m p) {z : Fin p → ℝ} {hist : List LassoHist} {k : ℕ}
    (hr : groupLassoOverlap rag npInv a = .ok (z, hist, k)) :
    ∃ s : OverlapState p, z = (overlapUpdate a.A a.b a.lamda a.rho a.groups (npInv (overlapGram a)) s).z ∧
      ∃ e, hist[k]? = some e ∧
        e.rnorm = npNorm ((fun i : Fin p => pStar a.groups
          (overlapUpdate a.A a.b a.lamda a.rho a.groups (npInv (overlapGram a)) s).x i) - z) ∧
        e.ePri = Real.sqrt p * a.tol + a.rtol * max (npNorm fun i : Fin p => pStar a.groups
          (overlapUpdate a.A a.b a.lamda a.rho a.groups (npInv (overlapGram a)) s).x i) (npNorm (-z)) := by
  have hlen := (C169_outcome rag npInv a hr).1
  unfold groupLassoOverlap at hr
  simp only at hr
  set body := overlapBody a (npInv (overlapGram a)) with hbody
  cases hl : (runLoop body a.maxIter (overlapInit p)).lastIter with
  | none => rw [hl] at hr; simp at hr
  | some k' =>
    rw [hl] at hr
    simp only at hr
    split_ifs at hr
    obtain ⟨h1, h2⟩ := Prod.mk.inj (Except.ok.inj hr)
    obtain ⟨h4, h3⟩ := Prod.mk.inj h2
    subst h3
    obtain ⟨hst, hck, -⟩ := runLoop_last body a.maxIter (overlapInit p) hl
    refine ⟨(stateAt body (overlapInit p) k').1, ?_, checkAt body (overlapInit p) k', ?_, ?_, ?_⟩
    · rw [← h1, hst]
      change (body k' (stateAt body (overlapInit p) k')).1.1.z = _
      simp only [hbody, overlapBody]
      split <;> rfl
    · rw [h4, List.getLast?_eq_getElem?, hlen] at hck
      exact hck
    · rw [← h1, hst]
      change (body k' (stateAt body (overlapInit p) k')).2.1.rnorm = npNorm (_ - (body k' (stateAt body (overlapInit p) k')).1.1.z)
      simp only [hbody, overlapBody]
      split <;> rfl
    · rw [← h1, hst]
      change (body k' (stateAt body (overlapInit p) k')).2.1.ePri =
        _ + _ * max _ (npNorm (-(body k' (stateAt body (overlapInit p) k')).1.1.z))
      simp only [hbody, overlapBody]
      split <;> rfl

/-- C228: a call that stops by its own test has coefficients below the recorded tolerance on all features that lie in no
group: as long as one of them is larger, every pass is used and the stopping test has no say. -/
theorem C228_uncovered_stop (rag : Bool) (npInv : Matrix (Fin p) (Fin p) ℝ → Matrix (Fin p) (Fin p) ℝ)
    (a : OverlapArgs m p) {z : Fin p → ℝ} {hist : List LassoHist} {k : ℕ}
    (hr : groupLassoOverlap rag npInv a = .ok (z, hist, k)) (hk : k + 1 < a.maxIter) (i : Fin p)
    (hi : groupCount a.groups i = 0) : ∃ e, hist[k]? = some e ∧ |z i| < e.ePri := by
  obtain ⟨s, -, e, he, hrn, -⟩ := overlap_last_pass rag npInv a hr
  obtain ⟨h11, hall⟩ := (C169_outcome rag npInv a hr).2.2 hk
  obtain ⟨e', he', hlt, -⟩ := hall k (by omega) le_rfl
  obtain rfl : e = e' := by rw [he] at he'; exact Option.some.inj he'
  refine ⟨e, he, lt_of_le_of_lt ?_ hlt⟩
  rw [hrn]
  refine le_trans ?_ (le_npNorm _ i)
  simp only [Pi.sub_apply]
  rw [(C48_consensus_mean a.groups _ i).2 hi, zero_sub, abs_neg]

/-- C228: with the default of no groups the result is ordinary least squares, whatever `alpha` and `rho` are (exact
inverse of `AᵀA`). -/
theorem C228_least_squares (rag : Bool) (npInv : Matrix (Fin p) (Fin p) ℝ → Matrix (Fin p) (Fin p) ℝ)
    (a : OverlapArgs m p) (hg : a.groups = []) (hinv : (a.Aᵀ * a.A) * npInv (a.Aᵀ * a.A) = 1) {z : Fin p → ℝ}
    {hist : List LassoHist} {k : ℕ} (hr : groupLassoOverlap rag npInv a = .ok (z, hist, k)) (w : Fin p → ℝ) :
    ∑ i, ((a.A *ᵥ z) i - a.b i) ^ 2 ≤ ∑ i, ((a.A *ᵥ w) i - a.b i) ^ 2 := by
  obtain ⟨s, hz, -⟩ := overlap_last_pass rag npInv a hr
  have hd : (diagonal fun i : Fin p => (dFunction a.groups i : ℝ)) = 0 := by
    rw [hg]
    ext i j
    by_cases h : i = j <;> simp [dFunction, diagonal, h]
  have hG : overlapGram a = a.Aᵀ * a.A := by
    unfold overlapGram
    rw [hd, smul_zero, add_zero]
  have hz' : z = npInv (a.Aᵀ * a.A) *ᵥ (a.Aᵀ *ᵥ a.b) := by
    rw [hz, hG]
    unfold overlapUpdate
    simp only
    rw [hd, zero_mulVec, add_zero]
  have hn : a.Aᵀ *ᵥ (a.A *ᵥ z - a.b) = 0 := by
    rw [mulVec_sub, mulVec_mulVec, hz', mulVec_mulVec, hinv, one_mulVec, sub_self]
  have hc : (a.A *ᵥ (w - z)) ⬝ᵥ (a.A *ᵥ z - a.b) = 0 := by
    rw [dotProduct_comm, dotProduct_mulVec, ← mulVec_transpose, hn, zero_dotProduct]
  have e : ∀ i, ((a.A *ᵥ w) i - a.b i) ^ 2 = ((a.A *ᵥ z) i - a.b i) ^ 2 + ((a.A *ᵥ (w - z)) i) ^ 2 +
      2 * ((a.A *ᵥ (w - z)) i * (a.A *ᵥ z - a.b) i) := by
    intro i
    rw [mulVec_sub]
    simp only [Pi.sub_apply]
    ring
  rw [Finset.sum_congr rfl fun i _ => e i, Finset.sum_add_distrib, Finset.sum_add_distrib, ← Finset.mul_sum]
  have h0 : ∑ i, (a.A *ᵥ (w - z)) i * (a.A *ᵥ z - a.b) i = 0 := hc
  rw [h0]
  have : 0 ≤ ∑ i, ((a.A *ᵥ (w - z)) i) ^ 2 := Finset.sum_nonneg fun i _ => sq_nonneg _
  linarith

/-- C228 fails for `alpha`: with the default of no groups the penalty plays no part in the coefficients. -/
theorem C228_alpha_false (rag : Bool) (npInv : Matrix (Fin p) (Fin p) ℝ → Matrix (Fin p) (Fin p) ℝ)
    (a : OverlapArgs m p) (hg : a.groups = []) (alpha rho : ℝ) {z z' : Fin p → ℝ} {hist hist' : List LassoHist} {k k' : ℕ}
    (hr : groupLassoOverlap rag npInv a = .ok (z, hist, k))
    (hr' : groupLassoOverlap rag npInv { a with lamda := alpha, rho := rho } = .ok (z', hist', k')) : z' = z := by
  have key : ∀ (c : OverlapArgs m p) (hc : c.groups = []) (z : Fin p → ℝ) (hist : List LassoHist) (k : ℕ),
      groupLassoOverlap rag npInv c = .ok (z, hist, k) → z = npInv (c.Aᵀ * c.A) *ᵥ (c.Aᵀ *ᵥ c.b) := by
    intro c hc z hist k hr
    obtain ⟨s, hz, -⟩ := overlap_last_pass rag npInv c hr
    have hd : (diagonal fun i : Fin p => (dFunction c.groups i : ℝ)) = 0 := by
      rw [hc]
      ext i j
      by_cases h : i = j <;> simp [dFunction, diagonal, h]
    have hG : overlapGram c = c.Aᵀ * c.A := by
      unfold overlapGram
      rw [hd, smul_zero, add_zero]
    rw [hz, hG]
    unfold overlapUpdate
    simp only
    rw [hd, zero_mulVec, add_zero]
  rw [key a hg z hist k hr, key { a with lamda := alpha, rho := rho } hg z' hist' k' hr']

/-- C228 fails for stopping: with no groups the result is there after one pass, but as long as it is not tiny the loop
runs through all `max_iter` passes, since the mean of no copies is 0 and stays away from it. -/
theorem C228_all_passes_false (rag : Bool) (npInv : Matrix (Fin p) (Fin p) ℝ → Matrix (Fin p) (Fin p) ℝ)
    (a : OverlapArgs m p) (hg : a.groups = []) {z : Fin p → ℝ} {hist : List LassoHist} {k : ℕ}
    (hr : groupLassoOverlap rag npInv a = .ok (z, hist, k))
    (hz : Real.sqrt p * a.tol ≤ (1 - a.rtol) * Real.sqrt (∑ i, z i ^ 2)) : k + 1 = a.maxIter := by
  obtain ⟨-, hle, hst⟩ := C169_outcome rag npInv a hr
  by_contra hne
  obtain ⟨h11, hall⟩ := hst (by omega)
  obtain ⟨s, -, e, he, hrn, hep⟩ := overlap_last_pass rag npInv a hr
  obtain ⟨e', he', hlt, -⟩ := hall k (by omega) le_rfl
  obtain rfl : e = e' := by rw [he] at he'; exact Option.some.inj he'
  have h0 : ∀ x : ℕ → ℕ → ℝ, (fun i : Fin p => pStar a.groups x i) = 0 := by
    intro x
    funext i
    rw [(C48_consensus_mean a.groups x i).2 (by rw [hg]; rfl)]
    rfl
  rw [h0] at hrn hep
  have hneg : npNorm (-z) = npNorm z := by
    unfold npNorm
    simp
  have hz0 : npNorm (0 : Fin p → ℝ) = 0 := by
    unfold npNorm
    simp
  have hpos : 0 ≤ npNorm z := Real.sqrt_nonneg _
  rw [zero_sub, hneg] at hrn
  rw [hneg, hz0, max_eq_right hpos] at hep
  have hz' : Real.sqrt p * a.tol ≤ (1 - a.rtol) * npNorm z := hz
  rw [hrn, hep] at hlt
  linarith

/-- The hypothesis on the size is met by one coefficient equal to 1 at the default tolerances. -/
example : Real.sqrt (1 : ℕ) * (1e-4 : ℝ) ≤ (1 - 1e-2) * Real.sqrt (∑ i, (![1] : Fin 1 → ℝ) i ^ 2) := by
  norm_num

/-- A call with no groups that returns. -/
example : ∃ z hist k, groupLassoOverlap (m := 1) (p := 1) true (fun _ => 1)
    { A := 1, b := ![1], lamda := 5, groups := [], rho := 1, maxIter := 1, tol := 1e-4, rtol := 1e-2 } = .ok (z, hist, k) := by
  obtain ⟨z, hist, hk⟩ : ∃ z hist, groupLassoOverlap (m := 1) (p := 1) true (fun _ => 1)
    { A := 1, b := ![1], lamda := 5, groups := [], rho := 1, maxIter := 1, tol := 1e-4, rtol := 1e-2 } = .ok (z, hist, 0) := by
    unfold groupLassoOverlap runLoop forElse
    simp only
    split
    · rename_i h
      split at h <;> simp [forElse] at h
    · rename_i k h
      have hk : k = 0 := by split at h <;> simp [forElse] at h <;> exact h.symm
      subst hk
      simp
  exact ⟨z, hist, 0, hk⟩

/-- A feature in no group. -/
example : groupCount [[0, 1]] 2 = 0 := by decide

end Verif.Props
