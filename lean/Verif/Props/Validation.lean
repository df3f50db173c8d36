import Verif.Model.Validation
import Verif.Props.Group
import Verif.Props.Soft
import Verif.Spec.Objectives

/-! Property theorems C24 and C25. -/

namespace Verif.Props

open Verif.Spec Verif.Model Verif.Lemmas Matrix

set_option autoImplicit false

variable {n : Type*} [Fintype n]

/-- Specification of C24: for every matrix and `lamda ≥ 0` the returned prox gives finite numbers
that minimise `lamda * norm(X) + ½‖X - A‖²` for the returned norm (a real function `pen`). -/
def IsMatchingPair (r : NormProx n) : Prop :=
  ∃ pen : Matrix n n ℝ → ℝ, (∀ X, r.norm X = .fin (pen X)) ∧
    ∀ (A : Matrix n n ℝ) (lam : ℝ), 0 ≤ lam →
      ∃ P : Matrix n n ℝ, (∀ i j, r.prox A lam i j = .fin (P i j)) ∧
        IsMin Set.univ (proxObjMat pen lam A) P

/-- C24: exactly five names are accepted, and the third component is set exactly for `'node'`. -/
theorem C24_accepted_names (ext : PenaltyExternals n) (f : String) :
    (checkNormProx ext f = none ↔ f ∉ ["laplacian", "l1", "l2", "linf", "node"]) ∧
    ∀ r, checkNormProx ext f = some r → (r.isNode = true ↔ f = "node") := by
  unfold checkNormProx
  by_cases h1 : f = "laplacian"
  · subst h1; simp
  by_cases h2 : f = "l1"
  · subst h2; simp
  by_cases h3 : f = "l2"
  · subst h3; simp
  by_cases h4 : f = "linf"
  · subst h4; simp
  by_cases h5 : f = "node"
  · subst h5; simp
  simp [h1, h2, h3, h4, h5]

/-- `prox_laplacian` on matrices is the exact prox of the squared Frobenius norm. -/
theorem laplacian_isProxOf {m k : Type*} [Fintype m] [Fintype k] :
    IsProxOf (frobSq (m := m) (n := k)) proxLaplacianMat := by
  intro A lam hl
  have h := C08_prox_laplacian_prox (ι := m × k) (fun p => A p.1 p.2) hl
  refine ⟨trivial, fun X _ hne => ?_⟩
  have h1 := h.2 (fun p => X p.1 p.2) trivial (fun he => hne (by
    ext i j
    exact congrFun he (i, j)))
  unfold proxObj sqDist proxLaplacian at h1
  unfold proxObjMat frobSq proxLaplacianMat
  simp only [Fintype.sum_prod_type] at h1
  exact h1

/-- C24 (part that holds): for `'laplacian'` and `'l1'` the returned pair matches. The other
accepted names do not (`C24_l2_false`, `C24_linf_false`); `'node'` relies on external optimisers. -/
theorem C24_matching_partial (ext : PenaltyExternals n) (f : String) (r : NormProx n)
    (hf : f = "laplacian" ∨ f = "l1") (h : checkNormProx ext f = some r) : IsMatchingPair r := by
  unfold checkNormProx at h
  rcases hf with hf | hf
  · subst hf
    simp only [if_true, Option.some.injEq] at h
    subst h
    exact ⟨frobSq, fun X => rfl, fun A lam hl => ⟨_, fun i j => rfl,
      (laplacian_isProxOf A lam hl).isMin⟩⟩
  · subst hf
    simp only [String.reduceEq, if_false, if_true, Option.some.injEq] at h
    subst h
    exact ⟨absSumMat, fun X => rfl, fun A lam hl => ⟨_, fun i j => rfl,
      (C01_soft_thresholding_prox_matrix A hl).isMin⟩⟩

/-- The pairs that do match are reachable. -/
example (ext : PenaltyExternals (Fin 3)) : ∃ r, checkNormProx ext "l1" = some r ∧
    IsMatchingPair r := by
  have h : checkNormProx ext "l1" = some ⟨fun X => .fin (l1Norm X),
      fun A lam i j => .fin (softThresholdingMat A lam i j), false⟩ := by
    simp [checkNormProx]
  exact ⟨_, h, C24_matching_partial ext "l1" _ (Or.inr rfl) h⟩

theorem npNorm_col_one (j : Fin 2) :
    npNorm (fun k => (1 : Matrix (Fin 2) (Fin 2) ℝ) k j) = 1 := by
  unfold npNorm
  rw [Real.sqrt_eq_one]
  rw [Fin.sum_univ_two]
  revert j
  rw [Fin.forall_fin_two]
  constructor <;> simp [one_apply]

/-- C24 fails for `'l2'`: the penalty is the Frobenius norm of the whole matrix, the prox acts
column by column. Witness: the 2x2 identity with `lamda = 1`. -/
theorem C24_l2_false (ext : PenaltyExternals (Fin 2)) (r : NormProx (Fin 2))
    (h : checkNormProx ext "l2" = some r) : ¬ IsMatchingPair r := by
  simp only [checkNormProx, String.reduceEq, if_false, if_true, Option.some.injEq] at h
  subst h
  rintro ⟨pen, hpen, hp⟩
  obtain ⟨P, hP, hmin⟩ := hp 1 1 zero_le_one
  have hP0 : P = 0 := by
    ext i j
    have h1 := hP i j
    simp only [blockwiseSoftThresholding, softThresholdingVector, npNorm_col_one] at h1
    simp [XF.div, XF.sub, XF.neg, XF.add, XF.max, XF.mul] at h1
    simp [← h1]
  have h2 := hmin.2 ((1 / 4 : ℝ) • 1) trivial
  have e0 : pen P = 0 := by
    have := hpen P
    rw [hP0] at this ⊢
    simp [npNormMat] at this
    exact this.symm
  have e1 : pen ((1 / 4 : ℝ) • 1) ≤ 3 / 8 := by
    have := hpen ((1 / 4 : ℝ) • 1)
    simp only [XF.fin.injEq] at this
    rw [← this]
    unfold npNormMat
    rw [Real.sqrt_le_left (by norm_num)]
    simp [Fin.sum_univ_two]
    norm_num
  unfold proxObjMat at h2
  rw [e0, hP0] at h2
  simp [frobSq, Fin.sum_univ_two] at h2
  norm_num at h2 e1
  linarith

/-- `scipy.optimize.minimize` finds the exact minimiser of the objective of `prox_linf_1d`,
`lam * max_i |x_i| + ½‖x - a‖²`. -/
def IsLinfSolver (f : (n → ℝ) → ℝ → n → ℝ) : Prop :=
  ∀ a lam, 0 ≤ lam → IsMin Set.univ (proxObj (fun x => ⨆ i, |x i|) lam a) (f a lam)

/-- C24 fails for `'linf'` even with an exact one-dimensional solver: the penalty is the maximal
absolute row sum, the prox treats every column on its own. -/
theorem C24_linf_false (ext : PenaltyExternals (Fin 2)) (hs : IsLinfSolver ext.linf1d)
    (r : NormProx (Fin 2)) (h : checkNormProx ext "linf" = some r) : ¬ IsMatchingPair r := by
  simp only [checkNormProx, String.reduceEq, if_false, if_true, Option.some.injEq] at h
  subst h
  rintro ⟨pen, hpen, hp⟩
  obtain ⟨P, hP, hmin⟩ := hp 1 1 zero_le_one
  have hP0 : P = 0 := by
    ext i j
    have h1 := hP i j
    simp only [XF.fin.injEq] at h1
    rw [← h1]
    unfold proxLinf
    set a : Fin 2 → ℝ := fun k => (1 : Matrix (Fin 2) (Fin 2) ℝ) k j with ha
    have h2 := (hs a 1 zero_le_one).2 0 trivial
    set x := ext.linf1d a 1 with hx
    have hle : ∀ k, |x k| ≤ ⨆ i, |x i| := fun k =>
      le_ciSup (f := fun i => |x i|) (Set.finite_range _).bddAbove k
    unfold proxObj sqDist at h2
    have e0 : (⨆ i : Fin 2, |(0 : Fin 2 → ℝ) i|) = 0 := by simp
    beta_reduce at h2
    rw [e0] at h2
    have hj := (le_abs_self _).trans (hle j)
    have hsq : x 0 ^ 2 + x 1 ^ 2 ≤ 0 := by
      fin_cases j <;> simp [Fin.sum_univ_two, ha, one_apply] at h2 hj <;> nlinarith
    have : x i = 0 := by
      fin_cases i <;> simp <;> nlinarith [sq_nonneg (x 0), sq_nonneg (x 1)]
    simpa using this
  have h2 := hmin.2 ((1 / 4 : ℝ) • 1) trivial
  have e0 : pen P = 0 := by
    have := hpen P
    rw [hP0] at this ⊢
    simp [npNormInf] at this
    exact this.symm
  have e1 : pen ((1 / 4 : ℝ) • 1) ≤ 1 / 4 := by
    have := hpen ((1 / 4 : ℝ) • 1)
    simp only [XF.fin.injEq] at this
    rw [← this]
    unfold npNormInf
    refine ciSup_le fun i => ?_
    fin_cases i <;> simp [Fin.sum_univ_two]
  unfold proxObjMat at h2
  rw [e0, hP0] at h2
  simp [frobSq, Fin.sum_univ_two] at h2
  norm_num at h2 e1
  linarith

/-! ### C25 -/

/-- C25: lists come back unchanged, with a warning unless it is suppressed. -/
theorem C25_list_unchanged {α : Type*} (xs : List (NDArray α)) (d : ℕ) (last sup : Bool) :
    checkArrayDimensions (.list xs) d last sup = .ok (.list xs) (!sup) := rfl

/-- C25: an array is accepted exactly when its number of dimensions is `d` or `d - 1` (and, for
`time_on_axis='last'` with the full number of dimensions, `d = 3`). -/
theorem C25_accepts_iff {α : Type*} (A : NDArray α) (d : ℕ) (last sup : Bool) :
    checkArrayDimensions (.array A) d last sup ≠ .valueError ↔
      A.shape.length + 1 = d ∨ (A.shape.length = d ∧ (last = true → d = 3)) := by
  unfold checkArrayDimensions
  by_cases h1 : (A.shape.length : ℤ) = (d : ℤ) - 1
  · have : A.shape.length + 1 = d := by omega
    simp [h1, this]
  · have h1' : A.shape.length + 1 ≠ d := by omega
    by_cases h2 : A.shape.length = d
    · subst h2
      cases last
      · simp only [h1, if_false]
        simp
      · simp only [h1, if_false, ne_eq, not_true_eq_false, if_true]
        unfold transpose201
        rcases hs : A.shape with _ | ⟨p, _ | ⟨q, _ | ⟨r, _ | ⟨s, l⟩⟩⟩⟩ <;> simp
    · simp [h1, h1', h2]

/-- C25: an array with one dimension too few gets a leading axis of length 1 and keeps its data; a
warning is emitted. -/
theorem C25_leading_axis {α : Type*} (A : NDArray α) (d : ℕ) (last sup : Bool)
    (h : A.shape.length + 1 = d) :
    ∃ B : NDArray α, checkArrayDimensions (.array A) d last sup = .ok (.array B) true ∧
      B.shape = 1 :: A.shape ∧ ∀ idx, InShape A.shape idx → B.get (0 :: idx) = A.get idx := by
  refine ⟨addLeadingAxis A, ?_, rfl, fun idx _ => rfl⟩
  have h' : (A.shape.length : ℤ) = (d : ℤ) - 1 := by omega
  simp [checkArrayDimensions, h']

/-- C25: with `time_on_axis='last'` the last axis becomes the first one and
`out[t, i, j] = in[i, j, t]`. -/
theorem C25_time_last {α : Type*} (A : NDArray α) (p q r : ℕ) (sup : Bool) (h : A.shape = [p, q, r]) :
    ∃ B : NDArray α, checkArrayDimensions (.array A) 3 true sup = .ok (.array B) false ∧
      B.shape = [r, p, q] ∧ ∀ t i j, t < r → i < p → j < q → B.get [t, i, j] = A.get [i, j, t] := by
  have hB : ∃ B, transpose201 A = some B ∧ B.shape = [r, p, q] ∧
      ∀ t i j, B.get [t, i, j] = A.get [i, j, t] := by
    obtain ⟨sh, g⟩ := A
    simp only at h
    subst h
    exact ⟨_, rfl, rfl, fun t i j => rfl⟩
  obtain ⟨B, h1, h2, h3⟩ := hB
  refine ⟨B, ?_, h2, fun t i j _ _ _ => h3 t i j⟩
  simp [checkArrayDimensions, h, h1]

/-- C25: otherwise an accepted array is returned unchanged. -/
theorem C25_unchanged {α : Type*} (A : NDArray α) (d : ℕ) (sup : Bool) (h : A.shape.length = d) :
    checkArrayDimensions (.array A) d false sup = .ok (.array A) false := by
  have h' : ¬ (A.shape.length : ℤ) = (d : ℤ) - 1 := by omega
  simp [checkArrayDimensions, h', h]
  omega

/-- Non-vacuity for C25: a 2x3x4 array with time on the last axis. -/
example (g : List ℕ → ℝ) : ∃ B : NDArray ℝ,
    checkArrayDimensions (.array ⟨[2, 3, 4], g⟩) 3 true false = .ok (.array B) false ∧
      B.shape = [4, 2, 3] ∧ B.get [3, 1, 2] = g [1, 2, 3] := by
  obtain ⟨B, h1, h2, h3⟩ := C25_time_last ⟨[2, 3, 4], g⟩ 2 3 4 false rfl
  exact ⟨B, h1, h2, h3 3 1 2 (by norm_num) (by norm_num) (by norm_num)⟩

end Verif.Props
