import Verif.Props.GroupLasso
import Mathlib.Data.List.GetD

/-! Property theorems C48 and C74: the overlapping group lasso. -/

namespace Verif.Props

open Matrix Verif.Model Verif.Spec Verif.Lemmas

set_option autoImplicit false

variable {m p : ℕ}

theorem dFunction_append (l : List (List ℕ)) (g : List ℕ) (i : ℕ) :
    dFunction (l ++ [g]) i = dFunction l i + if i ∈ g then 1 else 0 := by
  unfold dFunction
  rw [List.foldl_append]
  simp only [List.foldl_cons, List.foldl_nil]
  split <;> rfl

theorem groupCount_append (l : List (List ℕ)) (g : List ℕ) (i : ℕ) :
    groupCount (l ++ [g]) i = groupCount l i + if i ∈ g then 1 else 0 := by
  unfold groupCount
  rw [List.length_append, List.length_singleton, List.range_succ, List.filter_append, List.length_append]
  congr 1
  · congr 1
    refine List.filter_congr fun k hk => ?_
    rw [List.mem_range] at hk
    rw [List.getD_append _ _ _ _ hk]
  · have : (l ++ [g]).getD l.length [] = g := by simp
    by_cases h : i ∈ g <;> simp [h]

/-- C48: `D_function` counts the groups containing each feature. -/
theorem C48_D_function (groups : List (List ℕ)) (i : ℕ) : dFunction groups i = groupCount groups i := by
  induction groups using List.reverseRecOn with
  | nil => rfl
  | append_singleton l g ih => rw [dFunction_append, groupCount_append, ih]

theorem copySum_append (l : List (List ℕ)) (g : List ℕ) (x : ℕ → ℕ → ℝ) (i : ℕ) :
    copySum (l ++ [g]) x i = copySum l x i + if i ∈ g then x l.length (g.idxOf i) else 0 := by
  unfold copySum
  rw [List.length_append, List.length_singleton, Finset.sum_range_succ]
  congr 1
  · refine Finset.sum_congr rfl fun k hk => ?_
    rw [Finset.mem_range] at hk
    rw [List.getD_append _ _ _ _ hk]
  · have : (l ++ [g]).getD l.length [] = g := by simp
    rw [this]

theorem pStar_fold (groups : List (List ℕ)) (x : ℕ → ℕ → ℝ) (i : ℕ) :
    groups.zipIdx.foldl (fun acc gk =>
      if i ∈ gk.1 then (acc.1 + x gk.2 (gk.1.idxOf i), acc.2 + 1) else acc) ((0 : ℝ), (0 : ℕ)) =
    (copySum groups x i, groupCount groups i) := by
  induction groups using List.reverseRecOn with
  | nil => rfl
  | append_singleton l g ih =>
    rw [List.zipIdx_append, List.foldl_append, ih, copySum_append, groupCount_append]
    simp only [List.zipIdx_cons, List.zipIdx_nil, List.foldl_cons, List.foldl_nil, zero_add]
    split <;> simp

/-- C48: `P_star_x_bar_function` is, for every feature in some group, the average over the groups
containing it of the local copies, and 0 for a feature in no group. -/
theorem C48_consensus_mean (groups : List (List ℕ)) (x : ℕ → ℕ → ℝ) (i : ℕ) :
    (0 < groupCount groups i → pStar groups x i = copySum groups x i / groupCount groups i) ∧
    (groupCount groups i = 0 → pStar groups x i = 0) := by
  unfold pStar
  simp only [pStar_fold]
  refine ⟨fun h => by rw [if_pos h], fun h => ?_⟩
  rw [if_neg (by omega)]
  unfold copySum
  refine Finset.sum_eq_zero fun g hg => ?_
  rw [if_neg]
  intro hm
  have : g ∈ (List.range groups.length).filter fun g => i ∈ groups.getD g [] := by
    rw [List.mem_filter]
    exact ⟨List.mem_range.mpr (Finset.mem_range.mp hg), by simpa using hm⟩
  unfold groupCount at h
  rw [List.length_eq_zero_iff] at h
  rw [h] at this
  exact absurd this (by simp)

theorem groupCount_pos {groups : List (List ℕ)} {i : ℕ} (h : i ∈ groups.flatten) :
    0 < groupCount groups i := by
  obtain ⟨g, hg, hi⟩ := List.mem_flatten.mp h
  obtain ⟨k, hk, he⟩ := List.getElem_of_mem hg
  refine List.length_pos_of_mem (a := k) ?_
  rw [List.mem_filter]
  refine ⟨List.mem_range.mpr hk, ?_⟩
  rw [List.getD_eq_getElem _ _ hk, he]
  simpa using hi

theorem sum_ite_groups (groups : List (List ℕ)) (c : ℝ) (i : ℕ) :
    (∑ g ∈ Finset.range groups.length, if i ∈ groups.getD g [] then c else 0) =
      groupCount groups i * c := by
  have := copySum_append
  induction groups using List.reverseRecOn with
  | nil => simp [groupCount]
  | append_singleton l g ih =>
    have h := copySum_append l g (fun _ _ => c) i
    unfold copySum at h
    rw [h, ih, groupCount_append]
    split <;> push_cast <;> ring

/-- C48: when the local copies agree with a common vector, the consensus is that vector on every covered
feature. -/
theorem C48_agreement (groups : List (List ℕ)) (v : ℕ → ℝ) {i : ℕ} (h : i ∈ groups.flatten) :
    pStar groups (fun g j => v ((groups.getD g []).getD j 0)) i = v i := by
  have hc := groupCount_pos h
  rw [(C48_consensus_mean _ _ _).1 hc]
  have e : copySum groups (fun g j => v ((groups.getD g []).getD j 0)) i = groupCount groups i * v i := by
    rw [← sum_ite_groups]
    unfold copySum
    refine Finset.sum_congr rfl fun g _ => ?_
    by_cases hm : i ∈ groups.getD g []
    · rw [if_pos hm, if_pos hm]
      change v _ = v i
      rw [List.getD_eq_getElem _ _ (List.idxOf_lt_length_of_mem hm)]
      exact congrArg v (List.getElem_idxOf _)
    · rw [if_neg hm, if_neg hm]
  rw [e, mul_div_cancel_left₀]
  exact_mod_cast hc.ne'

example : pStar [[0, 1], [1, 2]] (fun g j => 10 * g + j) 1 = 11 / 2 := by
  rw [(C48_consensus_mean _ _ _).1 (by decide)]
  have h : groupCount [[0, 1], [1, 2]] 1 = 2 := by decide
  rw [h]
  unfold copySum
  norm_num [Finset.sum_range_succ, List.getD]

/-- An iteration leaves the state unchanged (on the positions the arrays really have). -/
def OverlapFixed (A : Matrix (Fin m) (Fin p) ℝ) (b : Fin m → ℝ) (lamda rho : ℝ)
    (groups : List (List ℕ)) (inv : Matrix (Fin p) (Fin p) ℝ) (s : OverlapState p) : Prop :=
  (∀ g < groups.length, ∀ j < (groups.getD g []).length,
    (overlapUpdate A b lamda rho groups inv s).x g j = s.x g j ∧
    (overlapUpdate A b lamda rho groups inv s).y g j = s.y g j) ∧
  (overlapUpdate A b lamda rho groups inv s).z = s.z

theorem copySum_congr {groups : List (List ℕ)} {x x' : ℕ → ℕ → ℝ}
    (h : ∀ g < groups.length, ∀ j < (groups.getD g []).length, x g j = x' g j) (i : ℕ) :
    copySum groups x i = copySum groups x' i := by
  unfold copySum
  refine Finset.sum_congr rfl fun g hg => ?_
  by_cases hm : i ∈ groups.getD g []
  · rw [if_pos hm, if_pos hm, h g (Finset.mem_range.mp hg) _ (List.idxOf_lt_length_of_mem hm)]
  · rw [if_neg hm, if_neg hm]

theorem count_mul_pStar (groups : List (List ℕ)) (x : ℕ → ℕ → ℝ) (i : ℕ) :
    (groupCount groups i : ℝ) * pStar groups x i = copySum groups x i := by
  rcases Nat.eq_zero_or_pos (groupCount groups i) with h | h
  · rw [(C48_consensus_mean _ _ _).2 h, mul_zero]
    have := pStar_fold groups x i
    have h2 := (C48_consensus_mean groups x i).2 h
    unfold pStar at h2
    simp only [this, h, lt_irrefl, if_false] at h2
    exact h2.symm
  · rw [(C48_consensus_mean _ _ _).1 h, mul_div_cancel₀]
    exact_mod_cast h.ne'

/-- C74, what is true: the stationary states of `group_lasso_overlap` minimise the plain lasso objective in
which every feature is weighted by the number of groups containing it. -/
theorem C74_weighted_lasso_partial (A : Matrix (Fin m) (Fin p) ℝ) (b : Fin m → ℝ) {lamda rho : ℝ}
    (hr : 0 < rho) (hl : 0 ≤ lamda) (groups : List (List ℕ))
    (inv : Matrix (Fin p) (Fin p) ℝ)
    (hinv : (Aᵀ * A + rho • diagonal fun i : Fin p => (dFunction groups i : ℝ)) * inv = 1)
    (s : OverlapState p) (hs : OverlapFixed A b lamda rho groups inv s) :
    IsMin Set.univ (weightedLassoObj A b lamda fun i => groupCount groups i) s.z := by
  obtain ⟨hxy, hz⟩ := hs
  -- local copies agree with `z`
  have hx : ∀ g < groups.length, ∀ j < (groups.getD g []).length,
      s.x g j = zGroup groups s.z g j ∧
      s.x g j = softScalar (s.x g j - s.y g j / rho) (lamda / rho) := by
    intro g hg j hj
    obtain ⟨h1, h2⟩ := hxy g hg j hj
    have h3 : softScalar (s.x g j - s.y g j / rho) (lamda / rho) = s.x g j := h1
    have h4 : s.y g j + rho * ((overlapUpdate A b lamda rho groups inv s).x g j -
      zGroup groups (overlapUpdate A b lamda rho groups inv s).z g j) = s.y g j := h2
    rw [h1, hz] at h4
    refine ⟨?_, h3.symm⟩
    have h5 : rho * (s.x g j - zGroup groups s.z g j) = 0 := by linarith
    rcases mul_eq_zero.mp h5 with h | h
    · exact absurd h hr.ne'
    · linarith
  set D : Fin p → ℝ := fun i => (groupCount groups i : ℝ) with hD
  have hDd : (fun i : Fin p => (dFunction groups i : ℝ)) = D := by
    funext i; rw [hD, C48_D_function]
  -- subgradients
  have hsub : ∀ (i : Fin p) (t : ℝ), lamda * (D i * |s.z i|) - copySum groups s.y i * (t - s.z i) ≤
      lamda * (D i * |t|) := by
    intro i t
    have e1 : lamda * (D i * |s.z i|) - copySum groups s.y i * (t - s.z i) =
        ∑ g ∈ Finset.range groups.length, if (i : ℕ) ∈ groups.getD g [] then
          lamda * |s.z i| - s.y g ((groups.getD g []).idxOf (i : ℕ)) * (t - s.z i) else 0 := by
      have h1 := sum_ite_groups groups (lamda * |s.z i|) i
      have h2 : lamda * (D i * |s.z i|) = groupCount groups i * (lamda * |s.z i|) := by
        rw [hD]; ring
      rw [h2, ← h1]
      unfold copySum
      rw [Finset.sum_mul, ← Finset.sum_sub_distrib]
      refine Finset.sum_congr rfl fun g _ => ?_
      split <;> ring
    have e2 : lamda * (D i * |t|) = ∑ g ∈ Finset.range groups.length,
        if (i : ℕ) ∈ groups.getD g [] then lamda * |t| else 0 := by
      rw [sum_ite_groups]; rw [hD]; ring
    rw [e1, e2]
    refine Finset.sum_le_sum fun g hg => ?_
    by_cases hm : (i : ℕ) ∈ groups.getD g []
    · rw [if_pos hm, if_pos hm]
      have hj := List.idxOf_lt_length_of_mem hm
      obtain ⟨h1, h2⟩ := hx g (Finset.mem_range.mp hg) _ hj
      set j := (groups.getD g []).idxOf (i : ℕ) with hjdef
      have h3 : zGroup groups s.z g j = s.z i := by
        unfold zGroup
        have : (groups.getD g []).getD j 0 = (i : ℕ) := by
          rw [List.getD_eq_getElem _ _ hj]
          exact List.getElem_idxOf _
        simp only [this, i.isLt, dif_pos]
      rw [h3] at h1
      rw [h1] at h2
      have h4 := softScalar_subgrad (div_nonneg hl hr.le) (s.z i - s.y g j / rho) t
      rw [← h2] at h4
      have h5 := mul_le_mul_of_nonneg_left h4 hr.le
      have e3 : rho * (lamda / rho * |s.z i| + (s.z i - s.y g j / rho - s.z i) * (t - s.z i)) =
          lamda * |s.z i| - s.y g j * (t - s.z i) := by field_simp; ring
      have e4 : rho * (lamda / rho * |t|) = lamda * |t| := by field_simp
      rw [e3, e4] at h5
      exact h5
    · rw [if_neg hm, if_neg hm]
  -- the gradient
  have hgrad : Aᵀ *ᵥ (A *ᵥ s.z - b) = fun i : Fin p => copySum groups s.y i := by
    have h1 : s.z = inv *ᵥ (Aᵀ *ᵥ b + diagonal D *ᵥ ((fun i : Fin p => pStar groups s.y i) +
        rho • fun i : Fin p => pStar groups (overlapUpdate A b lamda rho groups inv s).x i)) := by
      rw [← hDd]; exact hz.symm
    have h2 := congrArg (fun v => (Aᵀ * A + rho • diagonal D) *ᵥ v) h1
    rw [hDd] at hinv
    simp only [mulVec_mulVec, hinv, one_mulVec] at h2
    rw [add_mulVec, ← mulVec_mulVec, smul_mulVec] at h2
    have hxc : ∀ i : Fin p, D i * pStar groups (overlapUpdate A b lamda rho groups inv s).x i =
        D i * s.z i := by
      intro i
      rw [hD]
      simp only
      rw [count_mul_pStar, copySum_congr (fun g hg j hj => ((hxy g hg j hj).1.trans (hx g hg j hj).1)),
        ← sum_ite_groups]
      unfold copySum
      refine Finset.sum_congr rfl fun g hg => ?_
      by_cases hm : (i : ℕ) ∈ groups.getD g []
      · rw [if_pos hm, if_pos hm]
        unfold zGroup
        have : (groups.getD g []).getD ((groups.getD g []).idxOf (i : ℕ)) 0 = (i : ℕ) := by
          rw [List.getD_eq_getElem _ _ (List.idxOf_lt_length_of_mem hm)]
          exact List.getElem_idxOf _
        simp only [this, i.isLt, dif_pos]
      · rw [if_neg hm, if_neg hm]
    funext i
    have h3 := congrFun h2 i
    simp only [Pi.add_apply, Pi.smul_apply, smul_eq_mul, mulVec_diagonal] at h3
    have h5 := congrArg (fun v => rho * v) (hxc i)
    rw [mul_add, mul_left_comm (D i) rho (pStar _ _ _), h5] at h3
    have h4 : D i * pStar groups s.y i = copySum groups s.y i := count_mul_pStar _ _ _
    rw [mulVec_sub, Pi.sub_apply, ← h4]
    linarith
  refine ⟨trivial, fun t _ => ?_⟩
  have h1 := lsLoss_convex A b s.z t
  rw [hgrad] at h1
  have h2 := Finset.sum_le_sum fun i (_ : i ∈ Finset.univ) => hsub i (t i)
  rw [Finset.sum_sub_distrib, ← Finset.mul_sum, ← Finset.mul_sum] at h2
  change lsLoss A b s.z + lamda * ∑ i, D i * |s.z i| ≤ lsLoss A b t + lamda * ∑ i, D i * |t i|
  linarith

/-- C74 is false: for one group of two features there is a stationary state that is not a minimiser of the
documented objective. -/
theorem C74_overlap_false : ∃ s : OverlapState 2,
    OverlapFixed (1 : Matrix (Fin 2) (Fin 2) ℝ) ![3, 4] 1 1 [[0, 1]] ((1 / 2 : ℝ) • 1) s ∧
    ((1 : Matrix (Fin 2) (Fin 2) ℝ)ᵀ * 1 + (1 : ℝ) • diagonal fun i : Fin 2 =>
      (dFunction [[0, 1]] i : ℝ)) * ((1 / 2 : ℝ) • 1) = 1 ∧
    ¬ IsMin Set.univ (groupLassoObj (1 : Matrix (Fin 2) (Fin 2) ℝ) ![3, 4] 1 [[0, 1]]) s.z := by
  have hd : ∀ i : Fin 2, dFunction [[0, 1]] (i : ℕ) = 1 := by decide
  have hdiag : (diagonal fun i : Fin 2 => (dFunction [[0, 1]] (i : ℕ) : ℝ)) = 1 := by
    rw [← diagonal_one]; congr 1; funext i; rw [hd i]; norm_num
  set x0 : ℕ → ℕ → ℝ := fun _ j => if j = 0 then 2 else 3 with hx0
  set y0 : ℕ → ℕ → ℝ := fun _ _ => -1 with hy0
  refine ⟨⟨x0, ![2, 3], y0⟩, ?_, ?_, ?_⟩
  · have hx : (overlapUpdate (1 : Matrix (Fin 2) (Fin 2) ℝ) ![3, 4] 1 1 [[0, 1]] ((1 / 2 : ℝ) • 1)
        ⟨x0, ![2, 3], y0⟩).x = x0 := by
      funext g j
      change softScalar (x0 g j - y0 g j / 1) (1 / 1) = x0 g j
      rw [hx0, hy0]
      simp only
      split
      · rw [softScalar_of_pos (by norm_num) (by norm_num)]; norm_num
      · rw [softScalar_of_pos (by norm_num) (by norm_num)]; norm_num
    have hc : ∀ i : Fin 2, groupCount [[0, 1]] (i : ℕ) = 1 := by decide
    have hp : ∀ (w : ℕ → ℕ → ℝ) (i : Fin 2), pStar [[0, 1]] w i = w 0 i := by
      intro w i
      rw [(C48_consensus_mean _ _ _).1 (by rw [hc i]; norm_num), hc i]
      unfold copySum
      fin_cases i <;> simp
    have hz : (overlapUpdate (1 : Matrix (Fin 2) (Fin 2) ℝ) ![3, 4] 1 1 [[0, 1]] ((1 / 2 : ℝ) • 1)
        ⟨x0, ![2, 3], y0⟩).z = ![2, 3] := by
      change ((1 / 2 : ℝ) • (1 : Matrix (Fin 2) (Fin 2) ℝ)) *ᵥ
        ((1 : Matrix (Fin 2) (Fin 2) ℝ)ᵀ *ᵥ ![3, 4] +
          diagonal (fun i : Fin 2 => (dFunction [[0, 1]] i : ℝ)) *ᵥ ((fun i : Fin 2 => pStar [[0, 1]] y0 i) +
            (1 : ℝ) • fun i : Fin 2 => pStar [[0, 1]]
              (overlapUpdate (1 : Matrix (Fin 2) (Fin 2) ℝ) ![3, 4] 1 1 [[0, 1]] ((1 / 2 : ℝ) • 1)
        ⟨x0, ![2, 3], y0⟩).x i)) = _
      rw [hx, hdiag]
      simp only [hp, transpose_one, one_mulVec, smul_mulVec]
      funext i
      fin_cases i
      · change (1 / 2 : ℝ) * (3 + ((-1 : ℝ) + 1 * 2)) = 2
        norm_num
      · change (1 / 2 : ℝ) * (4 + ((-1 : ℝ) + 1 * 3)) = 3
        norm_num
    refine ⟨fun g hg j hj => ⟨by rw [hx], ?_⟩, hz⟩
    change y0 g j + 1 * ((overlapUpdate (1 : Matrix (Fin 2) (Fin 2) ℝ) ![3, 4] 1 1 [[0, 1]]
      ((1 / 2 : ℝ) • 1) ⟨x0, ![2, 3], y0⟩).x g j - zGroup [[0, 1]] (overlapUpdate
      (1 : Matrix (Fin 2) (Fin 2) ℝ) ![3, 4] 1 1 [[0, 1]] ((1 / 2 : ℝ) • 1) ⟨x0, ![2, 3], y0⟩).z g j) =
        y0 g j
    rw [hx, hz]
    have hg0 : g = 0 := by simpa using hg
    subst hg0
    have hj2 : j < 2 := by simpa using hj
    interval_cases j
    · simp [zGroup, hx0]
    · simp [zGroup, hx0]
  · rw [hdiag, transpose_one, one_mul, one_smul]
    funext i j
    fin_cases i <;> fin_cases j <;> simp [Matrix.mul_apply, Fin.sum_univ_two] <;> norm_num
  · intro h
    have h1 := h.2 ![12 / 5, 16 / 5] trivial
    have h13 : (7 / 2 : ℝ) < Real.sqrt 13 := Real.lt_sqrt_of_sq_lt (by norm_num)
    have h16 : Real.sqrt 16 = 4 := by
      rw [show (16 : ℝ) = 4 ^ 2 by norm_num]; exact Real.sqrt_sq (by norm_num)
    have e13 : (2 : ℝ) ^ 2 + 3 ^ 2 = 13 := by norm_num
    have e16 : (12 / 5 : ℝ) ^ 2 + (16 / 5) ^ 2 = 16 := by norm_num
    simp only [groupLassoObj, groupNormSum, one_mulVec, List.map_cons, List.map_nil, List.sum_cons,
      List.sum_nil, Fin.sum_univ_two, cons_val_zero, cons_val_one, add_zero, e13, e16, h16] at h1
    norm_num at h1
    linarith

end Verif.Props
