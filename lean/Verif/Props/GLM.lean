import Verif.Model.GLM
import Verif.Lemmas.ProxGrad
import Verif.Lemmas.Convex
import Mathlib.Analysis.SpecialFunctions.ExpDeriv
import Mathlib.Analysis.SpecialFunctions.Log.Deriv
import Mathlib.Analysis.Complex.ExponentialBounds

/-! Property theorems C40-C42 and C63-C66: the generalised linear models. -/

namespace Verif.Props

open Verif.Model Verif.Lemmas Verif.Spec Matrix

set_option autoImplicit false
set_option linter.unusedSectionVars false

/-! ### C40 build_adjacency_matrix -/

theorem union_inv (nb : ℕ → ℕ → ℝ) (k : ℕ) :
    (∀ r c, buildUnion k nb r c = buildUnion k nb c r) ∧ (∀ r, buildUnion k nb r r = 1) ∧
    ∀ i j, i < j → buildUnion k nb i j =
      if j < k then nb i j / 4 + nb j i / 2 else if i < k then nb i j / 2 else 0 := by
  induction k with
  | zero =>
    refine ⟨fun r c => ?_, fun r => ?_, fun i j h => ?_⟩
    · simp [buildUnion, eyeNat, eq_comm]
    · simp [buildUnion, eyeNat]
    · simp [buildUnion, eyeNat, h.ne]
  | succ k ih =>
    obtain ⟨hs, hd, hv⟩ := ih
    have hstep : buildUnion (k + 1) nb = avgT (writeRow nb k (buildUnion k nb)) := by
      unfold buildUnion
      rw [List.range_succ, List.foldl_append]
      rfl
    rw [hstep]
    refine ⟨fun r c => ?_, fun r => ?_, fun i j h => ?_⟩
    · unfold avgT; ring
    · unfold avgT writeRow
      rw [if_neg (by rintro ⟨rfl, h⟩; exact h rfl), hd]; norm_num
    · unfold avgT writeRow
      rcases Nat.lt_trichotomy j k with hj | hj | hj
      · rw [if_neg (by omega), if_neg (by omega), hs j i, hv i j h, if_pos hj, if_pos (by omega)]
        ring
      · subst hj
        rw [if_neg (by omega), if_pos ⟨rfl, by omega⟩, hv i j h, if_neg (by omega), if_pos h,
          if_pos (by omega)]
        ring
      · by_cases hi : i = k
        · subst hi
          rw [if_pos ⟨rfl, by omega⟩, if_neg (by omega), hs j i, hv i j h, if_neg (by omega),
            if_neg (by omega), if_neg (by omega), if_pos (by omega)]
          ring
        · rw [if_neg (by omega), if_neg (by omega), hs j i, hv i j h, if_neg (by omega),
            if_neg (by omega : ¬ j < k + 1)]
          by_cases hik : i < k
          · rw [if_pos hik, if_pos (by omega)]; ring
          · rw [if_neg hik, if_neg (by omega)]; ring

/-- C40 (partial): the union graph is symmetric with unit diagonal, an edge without any estimate is
absent, and if the two estimates do not have opposite signs an edge is present iff one of them is
non-zero. Missing: equal treatment of the two directions, and presence for estimates of opposite sign,
which are false (`C40_union_direction_false`, `C40_union_cancel_false`). -/
theorem C40_union_partial (N : ℕ) (nb : ℕ → ℕ → ℝ) (i j : ℕ) (hi : i < N) (hj : j < N) :
    buildAdjacency N nb "union" i j = buildAdjacency N nb "union" j i ∧
    buildAdjacency N nb "union" i i = 1 ∧
    (i ≠ j → nb i j = 0 → nb j i = 0 → buildAdjacency N nb "union" i j = 0) ∧
    (i ≠ j → 0 ≤ nb i j * nb j i →
      (buildAdjacency N nb "union" i j ≠ 0 ↔ nb i j ≠ 0 ∨ nb j i ≠ 0)) := by
  have e : buildAdjacency N nb "union" = buildUnion N nb := by simp [buildAdjacency]
  rw [e]
  obtain ⟨hs, hd, hv⟩ := union_inv nb N
  have key : ∀ a b : ℝ, 0 ≤ a * b → (a / 4 + b / 2 ≠ 0 ↔ a ≠ 0 ∨ b ≠ 0) := by
    intro a b hab
    constructor
    · intro h
      by_contra hc
      push Not at hc
      rw [hc.1, hc.2] at h; norm_num at h
    · intro h h0
      have ha : a = -2 * b := by linarith
      rw [ha] at hab
      have hb : b = 0 := by nlinarith [sq_nonneg b]
      rw [hb] at ha
      rcases h with h | h
      · exact h (by linarith)
      · exact h hb
  refine ⟨hs i j, hd i, ?_, ?_⟩
  · intro hij h1 h2
    rcases Nat.lt_or_gt_of_ne hij with h | h
    · rw [hv i j h, if_pos hj, h1, h2]; norm_num
    · rw [hs i j, hv j i h, if_pos hi, h1, h2]; norm_num
  · intro hij hab
    rcases Nat.lt_or_gt_of_ne hij with h | h
    · rw [hv i j h, if_pos hj]; exact key _ _ hab
    · rw [hs i j, hv j i h, if_pos hi, key _ _ (by linarith)]
      exact or_comm

/-- C40: what the union weight is for every pair `i < j`: the estimate of the later variable counts twice
as much as that of the earlier one, and the sum of the weights is 3/4. -/
theorem C40_union_value (N : ℕ) (nb : ℕ → ℕ → ℝ) (i j : ℕ) (h : i < j) (hj : j < N) :
    buildAdjacency N nb "union" i j = nb i j / 4 + nb j i / 2 := by
  simp [buildAdjacency, (union_inv nb N).2.2 i j h, hj]

/-- C40 is false: swapping the two directed estimates changes the weight, and the weight is not their
average. -/
theorem C40_union_direction_false :
    ∃ nb : ℕ → ℕ → ℝ, buildAdjacency 2 nb "union" 0 1 ≠ buildAdjacency 2 (fun i j => nb j i) "union" 0 1 ∧
      buildAdjacency 2 nb "union" 0 1 ≠ (nb 0 1 + nb 1 0) / 2 := by
  refine ⟨fun i _ => if i = 0 then 1 else 0, ?_, ?_⟩
  · rw [C40_union_value _ _ _ _ (by omega) (by omega), C40_union_value _ _ _ _ (by omega) (by omega)]
    norm_num
  · rw [C40_union_value _ _ _ _ (by omega) (by omega)]; norm_num

/-- C40 is false: two non-zero estimates can cancel. -/
theorem C40_union_cancel_false :
    ∃ nb : ℕ → ℕ → ℝ, nb 0 1 ≠ 0 ∧ nb 1 0 ≠ 0 ∧ buildAdjacency 2 nb "union" 0 1 = 0 := by
  refine ⟨fun i _ => if i = 0 then 2 else -1, by norm_num, by norm_num, ?_⟩
  rw [C40_union_value _ _ _ _ (by omega) (by omega)]; norm_num

theorem write_all_rows (nb : ℕ → ℕ → ℝ) (k r c : ℕ) :
    (List.range k).foldl (fun out i => writeRow nb i out) eyeNat r c =
      if r < k ∧ c ≠ r then nb r c else eyeNat r c := by
  induction k with
  | zero => simp
  | succ k ih =>
    rw [List.range_succ, List.foldl_append]
    simp only [List.foldl_cons, List.foldl_nil]
    unfold writeRow
    by_cases h : r = k ∧ c ≠ k
    · rw [if_pos h, if_pos (by omega), h.1]
    · rw [if_neg h]
      have := ih
      unfold writeRow at this
      rw [this]
      by_cases h2 : r < k ∧ c ≠ r
      · rw [if_pos h2, if_pos (by omega)]
      · rw [if_neg h2, if_neg (by omega)]

/-- C40: what the intersection gives: the average of the two estimates if both are non-zero, else 0,
and 1 on the diagonal. -/
theorem C40_intersection_value (N : ℕ) (nb : ℕ → ℕ → ℝ) (i j : ℕ) (hi : i < N) (hj : j < N) :
    (i ≠ j → nb i j ≠ 0 → nb j i ≠ 0 →
      buildAdjacency N nb "intersection" i j = (nb i j + nb j i) / 2) ∧
    (i ≠ j → (nb i j = 0 ∨ nb j i = 0) → buildAdjacency N nb "intersection" i j = 0) ∧
    buildAdjacency N nb "intersection" i i = 1 ∧
    buildAdjacency N nb "intersection" i j = buildAdjacency N nb "intersection" j i := by
  have e : buildAdjacency N nb "intersection" = buildIntersection N nb := by simp [buildAdjacency]
  rw [e]
  unfold buildIntersection
  simp only [write_all_rows, avgT]
  refine ⟨?_, ?_, ?_, ?_⟩
  · intro hij h1 h2
    have e1 : (if i < N ∧ j ≠ i then nb i j else eyeNat i j) = nb i j := if_pos ⟨hi, Ne.symm hij⟩
    have e2 : (if j < N ∧ i ≠ j then nb j i else eyeNat j i) = nb j i := if_pos ⟨hj, hij⟩
    rw [e1, e2, if_pos h1, if_pos h2]
    norm_num
  · intro hij h
    have e1 : (if i < N ∧ j ≠ i then nb i j else eyeNat i j) = nb i j := if_pos ⟨hi, Ne.symm hij⟩
    have e2 : (if j < N ∧ i ≠ j then nb j i else eyeNat j i) = nb j i := if_pos ⟨hj, hij⟩
    rw [e1, e2]
    rcases h with h | h
    · rw [h]
      by_cases h2 : nb j i = 0 <;> simp [h2]
      norm_num
    · rw [h]
      by_cases h2 : nb i j = 0 <;> simp [h2]
      norm_num
  · simp [eyeNat]
  · congr 1
    · congr 1; congr 1
      · rw [add_comm]
      · rw [add_comm]
    · rw [add_comm]

/-- C40 (partial): in the intersection graph an edge is present iff both estimates are non-zero, unless
they cancel exactly. Missing: exactly opposite estimates, where it is false
(`C40_intersection_cancel_false`). -/
theorem C40_intersection_partial (N : ℕ) (nb : ℕ → ℕ → ℝ) (i j : ℕ) (hi : i < N) (hj : j < N)
    (hij : i ≠ j) (hc : nb i j + nb j i ≠ 0) :
    buildAdjacency N nb "intersection" i j ≠ 0 ↔ nb i j ≠ 0 ∧ nb j i ≠ 0 := by
  obtain ⟨h1, h2, _, _⟩ := C40_intersection_value N nb i j hi hj
  constructor
  · intro h
    by_contra hcon
    exact h (h2 hij (by tauto))
  · rintro ⟨a, b⟩
    rw [h1 hij a b]
    exact div_ne_zero hc (by norm_num)

/-- C40 is false for exactly opposite estimates. -/
theorem C40_intersection_cancel_false :
    ∃ nb : ℕ → ℕ → ℝ, nb 0 1 ≠ 0 ∧ nb 1 0 ≠ 0 ∧ buildAdjacency 2 nb "intersection" 0 1 = 0 := by
  refine ⟨fun i _ => if i = 0 then 1 else -1, by norm_num, by norm_num, ?_⟩
  rw [(C40_intersection_value 2 _ 0 1 (by omega) (by omega)).1 (by omega) (by norm_num) (by norm_num)]
  norm_num

/-- C40: an unknown rule is not reported: the result is the identity (no edges) whatever the estimates. -/
theorem C40_unknown_rule (N : ℕ) (nb : ℕ → ℕ → ℝ) (how : String) (h1 : how ≠ "union")
    (h2 : how ≠ "intersection") : buildAdjacency N nb how = fun r c => if r = c then 1 else 0 := by
  simp [buildAdjacency, h1, h2]
  rfl

/-! ### C41 the Ising gradient -/

/-- Specification: negative log pseudo-likelihood of node `r` (averaged over the samples) as a function of
the weights `w` of the other nodes. -/
noncomputable def nodeNLL {m d : ℕ} (X : Fin m → Fin d → ℝ) (r : Fin d) (w : Fin d → ℝ) : ℝ :=
  (1 / (m : ℝ)) * ∑ i, (Real.log (Real.exp (∑ k, if k ≠ r then X i k * w k else 0)
    + Real.exp (-∑ k, if k ≠ r then X i k * w k else 0))
    - X i r * ∑ k, if k ≠ r then X i k * w k else 0)

theorem field_hasDeriv {m d : ℕ} (X : Fin m → Fin d → ℝ) (r j : Fin d) (hj : j ≠ r) (w : Fin d → ℝ)
    (i : Fin m) : HasDerivAt (fun t => ∑ k, if k ≠ r then X i k * Function.update w j t k else 0)
      (X i j) (w j) := by
  have h : (fun t => ∑ k, if k ≠ r then X i k * Function.update w j t k else 0) =
      fun t => X i j * t + ∑ k, if k ≠ r ∧ k ≠ j then X i k * w k else 0 := by
    funext t
    rw [← Finset.add_sum_erase _ _ (Finset.mem_univ j), if_pos hj, Function.update_self]
    congr 1
    rw [← Finset.add_sum_erase (Finset.univ : Finset (Fin d))
      (fun k => if k ≠ r ∧ k ≠ j then X i k * w k else 0) (Finset.mem_univ j)]
    simp only [ne_eq, not_true_eq_false, and_false, if_false, zero_add]
    refine Finset.sum_congr rfl fun k hk => ?_
    have hkj : k ≠ j := Finset.ne_of_mem_erase hk
    rw [Function.update_of_ne hkj]
    simp [hkj]
  rw [h]
  have h2 := ((hasDerivAt_id' (w j)).const_mul (X i j)).add_const
    (∑ k, if k ≠ r ∧ k ≠ j then X i k * w k else 0)
  exact h2.congr_deriv (by ring)

/-- The partial derivative of the node's pseudo-likelihood is the sum of all the per-sample terms. -/
theorem nodeNLL_hasDeriv {m d : ℕ} (X : Fin m → Fin d → ℝ) (theta : Matrix (Fin d) (Fin d) ℝ)
    (r j : Fin d) (hj : j ≠ r) :
    HasDerivAt (fun t => nodeNLL X r (Function.update (fun k => theta k r) j t))
      (∑ i, isingTerm X theta i r j) (theta j r) := by
  unfold nodeNLL
  have hterm : ∀ i, HasDerivAt (fun t =>
      Real.log (Real.exp (∑ k, if k ≠ r then X i k * Function.update (fun k => theta k r) j t k else 0)
        + Real.exp (-∑ k, if k ≠ r then X i k * Function.update (fun k => theta k r) j t k else 0))
      - X i r * ∑ k, if k ≠ r then X i k * Function.update (fun k => theta k r) j t k else 0)
      (X i j * ((Real.exp (isingField X theta i r) - Real.exp (-isingField X theta i r)) /
        (Real.exp (isingField X theta i r) + Real.exp (-isingField X theta i r)) - X i r))
      (theta j r) := by
    intro i
    have hf := field_hasDeriv X r j hj (fun k => theta k r) i
    have hval : (∑ k, if k ≠ r then X i k * Function.update (fun k => theta k r) j (theta j r) k else 0)
        = isingField X theta i r := by
      unfold isingField
      have : Function.update (fun k => theta k r) j (theta j r) = fun k => theta k r :=
        Function.update_eq_self j (fun k => theta k r)
      rw [this]
    have hpos : Real.exp (isingField X theta i r) + Real.exp (-isingField X theta i r) ≠ 0 := by
      positivity
    have h1 := hf.exp
    have h2 := hf.neg.exp
    simp only [Pi.neg_apply] at h2
    have h3 := h1.add h2
    have h4 := h3.log (by simp only [Pi.add_apply]; rw [hval]; exact hpos)
    have h5 := h4.sub (hf.const_mul (X i r))
    simp only [Pi.add_apply] at h5
    rw [hval] at h5
    refine h5.congr_deriv ?_
    field_simp
    ring
  have hs := (HasDerivAt.fun_sum fun i (_ : i ∈ Finset.univ) => hterm i).const_mul (1 / (m : ℝ))
  refine hs.congr_deriv ?_
  rw [Finset.mul_sum]
  refine Finset.sum_congr rfl fun i _ => ?_
  unfold isingTerm
  ring

/-- C41 (partial): with exactly one sample `_gradient_ising` is the gradient: entry `(r, j)` is the
partial derivative of the pseudo-likelihood of node `r` with respect to the weight of node `j`.
Missing: more than one sample, where it is false (`C41_first_sample_false`, `C41_counterexample`). -/
theorem C41_single_sample_partial {d : ℕ} (X : Fin 1 → Fin d → ℝ) (theta : Matrix (Fin d) (Fin d) ℝ) :
    ∃ g, gradientIsing X theta = some g ∧ ∀ r j, j ≠ r →
      HasDerivAt (fun t => nodeNLL X r (Function.update (fun k => theta k r) j t)) (g r j) (theta j r) := by
  have hval : gradientIsing X theta =
      some fun r j => if j = r then 0 else isingTerm X theta ⟨0, Nat.one_pos⟩ r j := by
    unfold gradientIsing; rw [dif_pos Nat.one_pos]; rfl
  refine ⟨_, hval, fun r j hj => ?_⟩
  have := nodeNLL_hasDeriv X theta r j hj
  rw [Fin.sum_univ_one] at this
  rw [if_neg hj]
  exact this

/-- C41 is false: all samples after the first are ignored, whatever they are. -/
theorem C41_first_sample_false {m d : ℕ} (X Y : Fin (m + 1) → Fin d → ℝ) (h : X 0 = Y 0)
    (theta : Matrix (Fin d) (Fin d) ℝ) : gradientIsing X theta = gradientIsing Y theta := by
  have h0 : (⟨0, Nat.succ_pos m⟩ : Fin (m + 1)) = 0 := rfl
  unfold gradientIsing
  rw [dif_pos (Nat.succ_pos m), dif_pos (Nat.succ_pos m)]
  congr 1
  funext r j
  unfold isingTerm isingField
  rw [h0, h]

/-- C41: two samples on which the returned matrix is not the gradient. -/
theorem C41_counterexample : ∃ (X : Fin 2 → Fin 2 → ℝ) (g : Matrix (Fin 2) (Fin 2) ℝ),
    gradientIsing X 0 = some g ∧ ¬ HasDerivAt
      (fun t => nodeNLL X 0 (Function.update (fun k => (0 : Matrix (Fin 2) (Fin 2) ℝ) k 0) 1 t))
      (g 0 1) 0 := by
  have hval : gradientIsing (!![1, 1; 1, -1] : Matrix (Fin 2) (Fin 2) ℝ) 0 =
      some fun r j => if j = r then 0 else
        isingTerm (!![1, 1; 1, -1] : Matrix (Fin 2) (Fin 2) ℝ) 0 ⟨0, Nat.two_pos⟩ r j := by
    unfold gradientIsing; rw [dif_pos Nat.two_pos]; rfl
  refine ⟨!![1, 1; 1, -1], _, hval, fun hcon => ?_⟩
  have h := nodeNLL_hasDeriv (!![1, 1; 1, -1] : Matrix (Fin 2) (Fin 2) ℝ) 0 0 1 (by decide)
  have := hcon.unique h
  rw [if_neg (by decide), Fin.sum_univ_two] at this
  simp [isingTerm, isingField] at this

/-- C41: without samples the call fails. -/
theorem C41_no_samples {d : ℕ} (X : Fin 0 → Fin d → ℝ) (theta : Matrix (Fin d) (Fin d) ℝ) :
    gradientIsing X theta = none := by simp [gradientIsing]

/-! ### C42 negative data -/

/-- C42 is false: no data is ever rejected, whatever its entries. -/
theorem C42_never_rejects_false {ι : Type*} (data : ι → ℝ) : poissonRejects data = false := by
  unfold poissonRejects boolToInt
  split <;> simp

/-- C42: in particular data with a negative entry is accepted. -/
theorem C42_counterexample : ∃ data : Fin 1 → ℝ, (∃ i, data i < 0) ∧ poissonRejects data = false :=
  ⟨fun _ => -1, ⟨0, by norm_num⟩, C42_never_rejects_false _⟩

/-! ### C63 options of the Gaussian model -/

/-- C63 is false: `tol`, `max_iter` and `gamma` never reach the fit; only `alpha` does. -/
theorem C63_options_ignored_false (o o' : GaussOptions) (h : o.alpha = o'.alpha) :
    gaussFitCall o = gaussFitCall o' := by
  simp [gaussFitCall, h]

/-- C63: concretely, an estimator told to do 5 iterations runs up to 1000. -/
theorem C63_counterexample : ∃ o : GaussOptions, (gaussFitCall o).maxIter ≠ o.maxIter ∧
    (gaussFitCall o).tol ≠ o.tol ∧ (gaussFitCall o).gamma ≠ o.gamma := by
  refine ⟨{ maxIter := 5, tol := 1, gamma := 1 }, by decide, ?_, ?_⟩ <;> norm_num [gaussFitCall]

/-- C63 (partial): `alpha` is passed on. -/
theorem C63_alpha_partial (o : GaussOptions) : (gaussFitCall o).alpha = o.alpha := rfl

/-! ### C64 Gaussian neighbourhood regression -/

variable {ι : Type*} [Fintype ι]

/-- Specification: the lasso objective of regressing a variable on the others, `1/(2m)‖x - X θ‖²` up to the
constant `‖x‖²/(2m)`, plus the l1 penalty. -/
noncomputable def nodeLasso {m : ℕ} (Xs : Fin m → ι → ℝ) (xr : Fin m → ℝ) (alpha : ℝ) (theta : ι → ℝ) : ℝ :=
  1 / (2 * (m : ℝ)) * (∑ i, (xr i - ∑ k, Xs i k * theta k) ^ 2) + alpha * ∑ k, |theta k|

theorem gaussObjective_eq {m : ℕ} (Xs : Fin m → ι → ℝ) (xr : Fin m → ℝ) (alpha : ℝ) (theta : ι → ℝ) :
    gaussObjective Xs xr alpha theta = nodeLasso Xs xr alpha theta - 1 / (2 * (m : ℝ)) * ∑ i, xr i ^ 2 := by
  unfold gaussObjective nodeLasso linPred
  have e : (∑ i, (xr i - ∑ k, Xs i k * theta k) ^ 2) = (∑ i, xr i ^ 2)
      - 2 * (∑ i, xr i * ∑ k, Xs i k * theta k) + ∑ i, (∑ k, Xs i k * theta k) ^ 2 := by
    rw [Finset.mul_sum, ← Finset.sum_sub_distrib, ← Finset.sum_add_distrib]
    exact Finset.sum_congr rfl fun i _ => by ring
  rw [e]
  rcases eq_or_ne (m : ℝ) 0 with h | h
  · simp [h]
  · field_simp
    ring

theorem linPred_sub {m : ℕ} (Xs : Fin m → ι → ℝ) (x y : ι → ℝ) (i : Fin m) :
    linPred Xs (fun k => y k - x k) i = linPred Xs y i - linPred Xs x i := by
  unfold linPred
  rw [← Finset.sum_sub_distrib]
  exact Finset.sum_congr rfl fun k _ => by ring

theorem gauss_expand {m : ℕ} (Xs : Fin m → ι → ℝ) (xr : Fin m → ℝ) (x y : ι → ℝ) :
    gaussObjective Xs xr 0 y = gaussObjective Xs xr 0 x
      + (∑ k, gaussGradient Xs xr x k * (y k - x k))
      + 1 / (2 * (m : ℝ)) * ∑ i, linPred Xs (fun k => y k - x k) i ^ 2 := by
  have hg : (∑ k, gaussGradient Xs xr x k * (y k - x k)) =
      -(1 / (m : ℝ)) * (∑ i, xr i * (linPred Xs y i - linPred Xs x i))
        + 1 / (m : ℝ) * ∑ i, linPred Xs x i * (linPred Xs y i - linPred Xs x i) := by
    have e1 : ∀ w : Fin m → ℝ, (∑ k, (∑ i, w i * Xs i k) * (y k - x k)) =
        ∑ i, w i * (linPred Xs y i - linPred Xs x i) := by
      intro w
      simp only [Finset.sum_mul]
      rw [Finset.sum_comm]
      refine Finset.sum_congr rfl fun i _ => ?_
      rw [← linPred_sub]
      unfold linPred
      rw [Finset.mul_sum]
      exact Finset.sum_congr rfl fun k _ => by ring
    rw [← e1, ← e1, Finset.mul_sum, Finset.mul_sum, ← Finset.sum_add_distrib]
    refine Finset.sum_congr rfl fun k _ => ?_
    unfold gaussGradient
    have e2 : (∑ i, Xs i k * linPred Xs x i) = ∑ i, linPred Xs x i * Xs i k :=
      Finset.sum_congr rfl fun i _ => mul_comm _ _
    rw [e2]
    ring
  rw [hg]
  unfold gaussObjective
  simp only [linPred_sub, zero_mul, add_zero]
  have e3 : (∑ i, (linPred Xs y i - linPred Xs x i) ^ 2) = (∑ i, linPred Xs y i ^ 2)
      - (∑ i, linPred Xs x i ^ 2) - 2 * ∑ i, linPred Xs x i * (linPred Xs y i - linPred Xs x i) := by
    rw [Finset.mul_sum, ← Finset.sum_sub_distrib, ← Finset.sum_sub_distrib]
    exact Finset.sum_congr rfl fun i _ => by ring
  have e4 : (∑ i, xr i * (linPred Xs y i - linPred Xs x i)) =
      (∑ i, xr i * linPred Xs y i) - ∑ i, xr i * linPred Xs x i := by
    rw [← Finset.sum_sub_distrib]
    exact Finset.sum_congr rfl fun i _ => by ring
  rw [e3, e4]
  rcases eq_or_ne (m : ℝ) 0 with h | h
  · simp [h]
  · field_simp
    ring

theorem gaussObjective_split {m : ℕ} (Xs : Fin m → ι → ℝ) (xr : Fin m → ℝ) (alpha : ℝ) (theta : ι → ℝ) :
    gaussObjective Xs xr alpha theta = gaussObjective Xs xr 0 theta + alpha * absSum theta := by
  unfold gaussObjective absSum; ring

/-- C64: a parameter vector is left unchanged by an iteration exactly when it solves the neighbourhood
lasso problem, for every positive step size. -/
theorem C64_stationary_iff {m : ℕ} (Xs : Fin m → ι → ℝ) (xr : Fin m → ℝ) {alpha gamma : ℝ}
    (ha : 0 ≤ alpha) (hg : 0 < gamma) (theta : ι → ℝ) :
    gaussStep Xs xr alpha gamma theta = theta ↔ IsMin Set.univ (nodeLasso Xs xr alpha) theta := by
  constructor
  · intro h
    refine ⟨trivial, fun z _ => ?_⟩
    have := prox_grad_fixed ha hg (gaussObjective Xs xr 0) theta (gaussGradient Xs xr theta) ?_ h z
    · rw [← gaussObjective_split, ← gaussObjective_split, gaussObjective_eq, gaussObjective_eq] at this
      linarith
    · intro z
      rw [gauss_expand Xs xr theta z]
      have : 0 ≤ 1 / (2 * (m : ℝ)) * ∑ i, linPred Xs (fun k => z k - theta k) i ^ 2 := by positivity
      linarith
  · intro h
    refine prox_grad_fixed_of_min ha hg theta _ fun z => ?_
    have key : 0 ≤ alpha * absSum z + (∑ k, gaussGradient Xs xr theta k * (z k - theta k))
        - alpha * absSum theta := by
      refine nonneg_of_forall_small
        (b := 1 / (2 * (m : ℝ)) * ∑ i, linPred Xs (fun k => z k - theta k) i ^ 2) fun t h0 h1 => ?_
      have h2 := h.2 (fun k => theta k + t * (z k - theta k)) trivial
      have h2' : gaussObjective Xs xr alpha theta ≤
          gaussObjective Xs xr alpha fun k => theta k + t * (z k - theta k) := by
        rw [gaussObjective_eq, gaussObjective_eq]; linarith
      rw [gaussObjective_split, gaussObjective_split Xs xr alpha (fun k => theta k + t * (z k - theta k)),
        gauss_expand Xs xr theta (fun k => theta k + t * (z k - theta k))] at h2'
      have e1 : (∑ k, gaussGradient Xs xr theta k * (theta k + t * (z k - theta k) - theta k)) =
          t * ∑ k, gaussGradient Xs xr theta k * (z k - theta k) := by
        rw [Finset.mul_sum]; exact Finset.sum_congr rfl fun k _ => by ring
      have e2 : (∑ i, linPred Xs (fun k => theta k + t * (z k - theta k) - theta k) i ^ 2) =
          t ^ 2 * ∑ i, linPred Xs (fun k => z k - theta k) i ^ 2 := by
        rw [Finset.mul_sum]
        refine Finset.sum_congr rfl fun i _ => ?_
        have : linPred Xs (fun k => theta k + t * (z k - theta k) - theta k) i =
            t * linPred Xs (fun k => z k - theta k) i := by
          unfold linPred
          rw [Finset.mul_sum]; exact Finset.sum_congr rfl fun k _ => by ring
        rw [this]; ring
      rw [e1, e2] at h2'
      have hcv : absSum (fun k => theta k + t * (z k - theta k)) ≤
          absSum theta + t * (absSum z - absSum theta) := by
        unfold absSum
        rw [← Finset.sum_sub_distrib, Finset.mul_sum, ← Finset.sum_add_distrib]
        refine Finset.sum_le_sum fun k _ => ?_
        have e : theta k + t * (z k - theta k) = (1 - t) * theta k + t * z k := by ring
        beta_reduce
        rw [e]
        calc |(1 - t) * theta k + t * z k| ≤ |(1 - t) * theta k| + |t * z k| := abs_add_le _ _
          _ = |theta k| + t * (|z k| - |theta k|) := by
            rw [abs_mul, abs_mul, abs_of_nonneg (by linarith : (0 : ℝ) ≤ 1 - t), abs_of_pos h0]; ring
      have := mul_le_mul_of_nonneg_left hcv ha
      nlinarith
    linarith

/-- C64: for a step size at most the inverse curvature the objective never increases and its gap to any
other parameter vector after `K` iterations is at most `‖θ0 - z‖² / (2 gamma K)`. -/
theorem C64_rate {m : ℕ} (Xs : Fin m → ι → ℝ) (xr : Fin m → ℝ) {alpha gamma : ℝ}
    (ha : 0 ≤ alpha) (hg : 0 < gamma)
    (hL : ∀ v : ι → ℝ, gamma * (1 / (m : ℝ) * ∑ i, (∑ k, Xs i k * v k) ^ 2) ≤ ∑ k, v k ^ 2)
    (theta0 z : ι → ℝ) (K : ℕ) :
    nodeLasso Xs xr alpha ((gaussStep Xs xr alpha gamma)^[K + 1] theta0) ≤
      nodeLasso Xs xr alpha ((gaussStep Xs xr alpha gamma)^[K] theta0) ∧
    (K : ℝ) * (nodeLasso Xs xr alpha ((gaussStep Xs xr alpha gamma)^[K] theta0) - nodeLasso Xs xr alpha z) ≤
      sqDist theta0 z / (2 * gamma) := by
  have hstep : ∀ x z, gaussObjective Xs xr alpha (gaussStep Xs xr alpha gamma x) ≤
      gaussObjective Xs xr alpha z + (1 / (2 * gamma)) *
        (sqDist x z - sqDist (gaussStep Xs xr alpha gamma x) z) := by
    intro x z
    have := prox_grad_step ha hg (gaussObjective Xs xr 0) x (gaussGradient Xs xr x) z ?_ ?_
    · rw [gaussObjective_split, gaussObjective_split Xs xr alpha z]
      exact this
    · rw [gauss_expand Xs xr x z]
      have : 0 ≤ 1 / (2 * (m : ℝ)) * ∑ i, linPred Xs (fun k => z k - x k) i ^ 2 := by positivity
      linarith
    · rw [gauss_expand Xs xr x (softThresholding _ _)]
      refine add_le_add le_rfl ?_
      set v : ι → ℝ := fun k => softThresholding (fun k => x k - gamma * gaussGradient Xs xr x k)
        (alpha * gamma) k - x k with hv
      have h1 := hL v
      have h2 : (1 / (m : ℝ)) * (∑ i, linPred Xs v i ^ 2) ≤ 1 / gamma * ∑ k, v k ^ 2 := by
        rw [one_div gamma, ← div_eq_inv_mul, le_div_iff₀ hg, mul_comm]
        exact h1
      have e1 : 1 / (2 * (m : ℝ)) * (∑ i, linPred Xs v i ^ 2) =
          1 / 2 * ((1 / (m : ℝ)) * ∑ i, linPred Xs v i ^ 2) := by
        rw [one_div, mul_inv]; ring
      have e2 : 1 / (2 * gamma) * (∑ k, v k ^ 2) = 1 / 2 * (1 / gamma * ∑ k, v k ^ 2) := by
        field_simp
      rw [e1, e2]
      linarith
  have h := prox_grad_rate (gaussObjective Xs xr alpha) (gaussStep Xs xr alpha gamma) hg hstep theta0 z K
  simp only [gaussObjective_eq] at h
  refine ⟨by linarith [h.1], ?_⟩
  have h2 : 0 ≤ 1 / (2 * gamma) * sqDist ((gaussStep Xs xr alpha gamma)^[K] theta0) z := by
    have : 0 ≤ sqDist ((gaussStep Xs xr alpha gamma)^[K] theta0) z :=
      Finset.sum_nonneg fun _ _ => sq_nonneg _
    positivity
  have h3 := h.2
  have e : sqDist theta0 z / (2 * gamma) = 1 / (2 * gamma) * sqDist theta0 z := by
    rw [div_eq_mul_inv, one_div, mul_comm]
  rw [e]
  have e2 : nodeLasso Xs xr alpha ((gaussStep Xs xr alpha gamma)^[K] theta0)
      - 1 / (2 * (m : ℝ)) * (∑ i, xr i ^ 2) - (nodeLasso Xs xr alpha z - 1 / (2 * (m : ℝ)) * ∑ i, xr i ^ 2)
      = nodeLasso Xs xr alpha ((gaussStep Xs xr alpha gamma)^[K] theta0) - nodeLasso Xs xr alpha z := by
    ring
  rw [e2] at h3
  linarith

/-- C64: the loop returns an iterate: after some number `k ≤ max_iter` of steps, with `k = max_iter` or the
last step shorter than `tol`. -/
theorem C64_loop (step : (ι → ℝ) → ι → ℝ) (tol : ℝ) (N : ℕ) (theta0 : ι → ℝ) :
    ∃ k, k ≤ N ∧ nodeLoop step tol N theta0 = step^[k] theta0 ∧
      (k = N ∨ ∃ j, k = j + 1 ∧
        Real.sqrt (∑ i, (step^[j] theta0 i - step^[k] theta0 i) ^ 2) < tol) := by
  induction N generalizing theta0 with
  | zero => exact ⟨0, le_rfl, rfl, Or.inl rfl⟩
  | succ N ih =>
    unfold nodeLoop
    split
    · rename_i h
      exact ⟨1, by omega, rfl, Or.inr ⟨0, rfl, h⟩⟩
    · obtain ⟨k, hk, he, hor⟩ := ih (step theta0)
      refine ⟨k + 1, by omega, he, ?_⟩
      rcases hor with h | ⟨j, hj, hlt⟩
      · exact Or.inl (by omega)
      · refine Or.inr ⟨j + 1, by omega, ?_⟩
        exact hlt

/-- Non-vacuity for C64: one sample, one predictor, step size 1. -/
example : ∀ v : Fin 1 → ℝ,
    (1 : ℝ) * (1 / ((1 : ℕ) : ℝ) * ∑ i : Fin 1, (∑ k, (fun _ _ => (1 : ℝ)) i k * v k) ^ 2) ≤ ∑ k, v k ^ 2 := by
  intro v; simp

/-! ### C65 the Poisson line search -/

/-- C65 (partial): the accepted point satisfies the sufficient decrease bound with the returned step size,
which is the initial one times a power of the factor; and if the first trial is accepted, the penalised
objective decreases by at least `‖θ - old‖² / (2 gamma)`. Missing: acceptance after a rejection, where the
accepted point is not the proximal gradient step (`C65_line_search_false`). -/
theorem C65_line_search_partial (loss : (ι → ℝ) → ℝ) (grad old : ι → ℝ) (alpha shrink : ℝ) (fuel : ℕ)
    (theta0 theta : ι → ℝ) (gamma0 gamma : ℝ)
    (h : lineSearch loss grad old alpha shrink fuel theta0 gamma0 = some (theta, gamma)) :
    (∃ k, k < fuel ∧ gamma = shrink ^ k * gamma0) ∧
    loss theta ≤ loss old + (∑ k, grad k * (theta k - old k)) + (∑ k, (theta k - old k) ^ 2) / (2 * gamma) := by
  induction fuel generalizing theta0 gamma0 with
  | zero => simp [lineSearch] at h
  | succ fuel ih =>
    unfold lineSearch at h
    simp only at h
    split at h
    · obtain ⟨⟨k, hk, hg⟩, h2⟩ := ih _ _ h
      exact ⟨⟨k + 1, by omega, by rw [hg]; ring⟩, h2⟩
    · rename_i hle
      simp only [Option.some.injEq, Prod.mk.injEq] at h
      obtain ⟨rfl, rfl⟩ := h
      refine ⟨⟨0, by omega, by simp⟩, ?_⟩
      have := not_lt.mp hle
      unfold searchBound at this
      have e1 : ∀ x : ι → ℝ, (∑ k, grad k * (x k - old k)) = -∑ k, grad k * (old k - x k) := by
        intro x; rw [← Finset.sum_neg_distrib]; exact Finset.sum_congr rfl fun k _ => by ring
      have e2 : ∀ x : ι → ℝ, (∑ k, (x k - old k) ^ 2) = ∑ k, (old k - x k) ^ 2 :=
        fun x => Finset.sum_congr rfl fun k _ => by ring
      rw [e1, e2]
      linarith

/-- C65 (partial): a trial accepted at once is the proximal gradient step and decreases the penalised
objective. -/
theorem C65_first_trial_partial (loss : (ι → ℝ) → ℝ) (grad old : ι → ℝ) {alpha gamma : ℝ} (shrink : ℝ)
    (fuel : ℕ) (ha : 0 ≤ alpha) (hg : 0 < gamma) (theta : ι → ℝ)
    (h : lineSearch loss grad old alpha shrink (fuel + 1) old gamma = some (theta, gamma))
    (hs : shrink < 1) (hs0 : 0 < shrink) :
    theta = softThresholding (fun k => old k - gamma * grad k) (alpha * gamma) ∧
    loss theta + alpha * absSum theta + 1 / (2 * gamma) * sqDist theta old ≤ loss old + alpha * absSum old := by
  have hb := (C65_line_search_partial loss grad old alpha shrink (fuel + 1) old theta gamma gamma h).2
  unfold lineSearch at h
  simp only at h
  split at h
  · exfalso
    obtain ⟨⟨k, _, hk⟩, _⟩ := C65_line_search_partial loss grad old alpha shrink fuel _ _ _ _ h
    have h1 : shrink ^ k * (shrink * gamma) ≤ shrink * gamma := by
      have : shrink ^ k ≤ 1 := pow_le_one₀ hs0.le hs.le
      have hp : 0 < shrink * gamma := by positivity
      nlinarith
    nlinarith
  · simp only [Option.some.injEq, Prod.mk.injEq] at h
    refine ⟨h.1.symm, ?_⟩
    rw [← h.1] at hb ⊢
    have := prox_grad_step ha hg loss old grad old (by simp) (by
      rw [one_div, ← div_eq_inv_mul]; exact hb)
    have h0 : sqDist old old = 0 := by simp [sqDist]
    rw [h0] at this
    linarith

/-- C65 is false: one sample `x = 1`, response 2, starting at 0 with step size 1 and factor 1/2. The first
trial `θ = 1` is rejected; the search then accepts the same `θ = 1` and reports step size 1/2, for
which the proximal gradient step is 1/2. -/
theorem C65_line_search_false :
    lineSearch (poissonLoss (fun (_ : Fin 1) (_ : Unit) => 1) fun _ => 2)
      (poissonGradient (fun (_ : Fin 1) (_ : Unit) => 1) (fun _ => 2) fun _ => 0) (fun _ => 0) 0 (1 / 2) 2
      (fun _ => 0) 1 = some (fun _ => 1, 1 / 2) ∧
    softThresholding (fun k => (0 : ℝ) - 1 / 2 *
      poissonGradient (fun (_ : Fin 1) (_ : Unit) => 1) (fun _ => 2) (fun _ => 0) k) (0 * (1 / 2))
      = fun _ => 1 / 2 := by
  have hgrad : poissonGradient (fun (_ : Fin 1) (_ : Unit) => (1 : ℝ)) (fun _ => 2) (fun _ => 0)
      = fun _ => -1 := by
    funext k; simp [poissonGradient, linPred]; norm_num
  have hloss : ∀ t : ℝ, poissonLoss (fun (_ : Fin 1) (_ : Unit) => (1 : ℝ)) (fun _ => 2) (fun _ => t) =
      Real.exp t - 2 * t := by
    intro t; simp [poissonLoss, linPred]
  have hsoft : ∀ t : ℝ, softThresholding (fun _ : Unit => t) 0 = fun _ => t := by
    intro t; funext k; exact softScalar_zero_right t
  have he1 := Real.exp_one_gt_d9
  have he2 := Real.exp_one_lt_d9
  have hb : ∀ t g : ℝ, searchBound (poissonLoss (fun (_ : Fin 1) (_ : Unit) => (1 : ℝ)) fun _ => 2)
      (fun _ => -1) (fun _ => 0) (fun _ => t) g = 1 - t + t ^ 2 / (2 * g) := by
    intro t g
    unfold searchBound
    rw [hloss]
    simp
  rw [hgrad]
  constructor
  · unfold lineSearch
    simp only [zero_mul]
    rw [hsoft, hloss, hb, if_pos (by norm_num; linarith)]
    unfold lineSearch
    simp only [zero_mul]
    rw [hsoft, hsoft, hloss, hb, if_neg (by norm_num; linarith)]
    norm_num
  · rw [zero_mul]
    rw [hsoft]
    norm_num

/-! ### C66 Poisson neighbourhood regression -/

theorem poisson_convex {m : ℕ} (Xs : Fin m → ι → ℝ) (xr : Fin m → ℝ) (x z : ι → ℝ) :
    poissonLoss Xs xr x + ∑ k, poissonGradient Xs xr x k * (z k - x k) ≤ poissonLoss Xs xr z := by
  have hg : (∑ k, poissonGradient Xs xr x k * (z k - x k)) =
      (1 / (m : ℝ)) * ∑ i, (Real.exp (linPred Xs x i) - xr i) * (linPred Xs z i - linPred Xs x i) := by
    rw [Finset.mul_sum]
    have : ∀ i, (linPred Xs z i - linPred Xs x i) = ∑ k, Xs i k * (z k - x k) := by
      intro i; rw [← linPred_sub]; rfl
    simp only [this, Finset.mul_sum]
    rw [Finset.sum_comm]
    refine Finset.sum_congr rfl fun k _ => ?_
    unfold poissonGradient
    rw [← Finset.sum_sub_distrib, Finset.mul_sum, Finset.sum_mul]
    exact Finset.sum_congr rfl fun i _ => by ring
  rw [hg]
  unfold poissonLoss
  rw [← mul_add, ← Finset.sum_add_distrib]
  refine mul_le_mul_of_nonneg_left (Finset.sum_le_sum fun i _ => ?_) (by positivity)
  set a := linPred Xs x i
  set b := linPred Xs z i
  have h1 : b - a + 1 ≤ Real.exp (b - a) := Real.add_one_le_exp _
  have h2 : Real.exp b = Real.exp a * Real.exp (b - a) := by rw [← Real.exp_add]; congr 1; ring
  have h3 := mul_le_mul_of_nonneg_left h1 (Real.exp_pos a).le
  rw [← h2] at h3
  linarith

/-- C66: `gradient` is the derivative of the loss in every direction. -/
theorem C66_gradient {m : ℕ} (Xs : Fin m → ι → ℝ) (xr : Fin m → ℝ) (theta v : ι → ℝ) :
    HasDerivAt (fun t => poissonLoss Xs xr fun k => theta k + t * v k)
      (∑ k, poissonGradient Xs xr theta k * v k) 0 := by
  have hlin : ∀ i t, linPred Xs (fun k => theta k + t * v k) i =
      linPred Xs theta i + linPred Xs v i * t := by
    intro i t
    unfold linPred
    rw [Finset.sum_mul, ← Finset.sum_add_distrib]
    exact Finset.sum_congr rfl fun k _ => by ring
  have h1 : ∀ i, HasDerivAt (fun t => linPred Xs theta i + linPred Xs v i * t) (linPred Xs v i) 0 := by
    intro i
    simpa using ((hasDerivAt_id (0 : ℝ)).const_mul (linPred Xs v i)).const_add (linPred Xs theta i)
  have h2 : ∀ i, HasDerivAt (fun t => Real.exp (linPred Xs theta i + linPred Xs v i * t)
      - xr i * (linPred Xs theta i + linPred Xs v i * t))
      (Real.exp (linPred Xs theta i) * linPred Xs v i - xr i * linPred Xs v i) 0 := by
    intro i
    have := (h1 i).exp.sub ((h1 i).const_mul (xr i))
    exact this.congr_deriv (by simp)
  have h3 := (HasDerivAt.fun_sum fun i (_ : i ∈ Finset.univ) => h2 i).const_mul (1 / (m : ℝ))
  unfold poissonLoss
  simp only [hlin]
  refine h3.congr_deriv ?_
  unfold poissonGradient linPred
  simp only [Finset.mul_sum, Finset.sum_mul, ← Finset.sum_sub_distrib]
  rw [Finset.sum_comm]
  exact Finset.sum_congr rfl fun k _ => Finset.sum_congr rfl fun i _ => by ring

/-- C66: a parameter vector that the proximal gradient step leaves unchanged minimises the l1-penalised
Poisson loss, for every step size. -/
theorem C66_stationary {m : ℕ} (Xs : Fin m → ι → ℝ) (xr : Fin m → ℝ) {alpha gamma : ℝ}
    (ha : 0 ≤ alpha) (hg : 0 < gamma) (theta : ι → ℝ)
    (h : softThresholding (fun k => theta k - gamma * poissonGradient Xs xr theta k) (alpha * gamma)
      = theta) :
    IsMin Set.univ (fun z => poissonLoss Xs xr z + alpha * absSum z) theta :=
  ⟨trivial, fun z _ => prox_grad_fixed ha hg (poissonLoss Xs xr) theta _ (poisson_convex Xs xr theta) h z⟩

/-- Non-vacuity for C66: one sample 1 with response 1, `theta = 0` is stationary. -/
example : softThresholding (fun k => (0 : Unit → ℝ) k - 1 *
    poissonGradient (fun (_ : Fin 1) (_ : Unit) => (1 : ℝ)) (fun _ => 1) (0 : Unit → ℝ) k) (0 * 1) = 0 := by
  funext k
  simp [poissonGradient, linPred, softThresholding, softScalar_zero_right]

end Verif.Props
