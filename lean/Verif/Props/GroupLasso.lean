import Verif.Props.Lasso

/-! Property theorems C47: `group_lasso`. -/

namespace Verif.Props

open Matrix Verif.Model Verif.Spec Verif.Lemmas Filter Topology

set_option autoImplicit false

variable {m p : ℕ}

theorem isCloseNat_iff {a b : ℕ} (hb : b < 100000) : isCloseNat a b = true ↔ a = b := by
  unfold isCloseNat
  rw [decide_eq_true_eq]
  constructor
  · intro h
    by_contra hne
    have h1 : 1 ≤ |(a : ℤ) - b| := Int.one_le_abs (sub_ne_zero.mpr (by exact_mod_cast hne))
    have h2 : (b : ℤ) < 100000 := by exact_mod_cast hb
    omega
  · rintro rfl
    simp
    positivity

theorem zip_all_close {l r : List ℕ} (hlen : l.length = r.length) (hr : ∀ b ∈ r, b < 100000) :
    ((l.zip r).all fun q => isCloseNat q.1 q.2) = true ↔ l = r := by
  induction l generalizing r with
  | nil => cases r <;> simp_all
  | cons x l ih =>
    cases r with
    | nil => simp at hlen
    | cons y r =>
      have hy := isCloseNat_iff (a := x) (hr y (by simp))
      have ih' := ih (r := r) (by simpa using hlen) (fun b hb => hr b (by simp [hb]))
      rw [List.zip_cons_cons, List.all_cons, Bool.and_eq_true, hy, ih']
      simp

/-- C47: for `2 ≤ n_features ≤ 100000` a list of groups passes the check exactly when its concatenation
is `0, 1, ..., n_features - 1` in this order; otherwise the call raises ValueError. The full claim
(every partition passes, and only partitions do) fails, see below. -/
theorem C47_accepts_partial (g : List (List ℕ)) {n : ℕ} (h2 : 2 ≤ n) (hn : n ≤ 100000) :
    (groupGuard (some g) n = .ok g ↔ g.flatten = List.range n) ∧
    (g.flatten ≠ List.range n → groupGuard (some g) n = .error .value) := by
  have hclose : ∀ b ∈ List.range n, b < 100000 := fun b hb => by
    have := List.mem_range.mp hb; omega
  have hval : g.flatten ≠ List.range n → groupGuard (some g) n = .error .value := by
    intro hne
    unfold groupGuard allCloseArange flattenGroups
    by_cases hlen : g.flatten.length = n
    · have : ((g.flatten.zip (List.range n)).all fun q => isCloseNat q.1 q.2) = false := by
        rw [← Bool.not_eq_true, zip_all_close (by simpa using hlen) hclose]
        exact hne
      simp only [hlen, if_true, this]
    · by_cases h1 : g.flatten.length = 1
      · have : ((List.range n).all fun j => isCloseNat (g.flatten.headD 0) j) = false := by
          rw [← Bool.not_eq_true, List.all_eq_true]
          intro hall
          have e0 := (isCloseNat_iff (by omega)).mp (hall 0 (List.mem_range.mpr (by omega)))
          have e1 := (isCloseNat_iff (by omega)).mp (hall 1 (List.mem_range.mpr (by omega)))
          omega
        have hn1 : ¬ (1 = n) := by omega
        simp only [h1, hn1, if_true, if_false, this]
      · have hn1 : n ≠ 1 := by omega
        simp only [hlen, h1, hn1, if_false]
  refine ⟨⟨fun h => ?_, fun h => ?_⟩, hval⟩
  · by_contra hne
    rw [hval hne] at h
    simp at h
  · unfold groupGuard allCloseArange flattenGroups
    have hlen : g.flatten.length = n := by rw [h]; simp
    have : ((g.flatten.zip (List.range n)).all fun q => isCloseNat q.1 q.2) = true :=
      (zip_all_close (by simpa using hlen) hclose).mpr h
    simp only [hlen, if_true, this]

theorem isPartition_of_range {g : List (List ℕ)} {n : ℕ} (h : g.flatten = List.range n) :
    IsPartition g n := by
  intro i
  rw [h]
  by_cases hi : i < n
  · rw [if_pos hi]
    exact List.count_eq_one_of_mem List.nodup_range (List.mem_range.mpr hi)
  · rw [if_neg hi]
    exact List.count_eq_zero_of_not_mem (fun hm => hi (List.mem_range.mp hm))

/-- C47: accepted group lists are partitions (in the same range of sizes). -/
theorem C47_accepted_are_partitions (g : List (List ℕ)) {n : ℕ} (h2 : 2 ≤ n) (hn : n ≤ 100000)
    (h : groupGuard (some g) n = .ok g) : IsPartition g n :=
  isPartition_of_range ((C47_accepts_partial g h2 hn).1.mp h)

example : groupGuard (some [[0, 1], [2]]) 3 = .ok [[0, 1], [2]] := by decide

/-- C47 is false: the partition `{1}, {0}` is rejected, and with one feature both the empty list and
`{0}, {0}` are accepted. -/
theorem C47_guard_false :
    (IsPartition [[1], [0]] 2 ∧ groupGuard (some [[1], [0]]) 2 = .error .value) ∧
    (¬ IsPartition [] 1 ∧ groupGuard (some []) 1 = .ok []) ∧
    (¬ IsPartition [[0], [0]] 1 ∧ groupGuard (some [[0], [0]]) 1 = .ok [[0], [0]]) := by
  refine ⟨⟨fun i => ?_, by decide⟩, ⟨fun h => ?_, by decide⟩, ⟨fun h => ?_, by decide⟩⟩
  · rcases i with _ | _ | i
    · decide
    · decide
    · rw [if_neg (by omega)]
      simp
  · have := h 0
    simp at this
  · have := h 0
    simp at this

/-- C47 is false: the recorded dual residual is zero in every iteration of every call. -/
theorem C47_dual_residual_false (la : LinAlg) (a : LassoArgs m p) (g : List (List ℕ)) (k : ℕ)
    (s : LassoState p) : (groupLassoStep la a g k s).2.1.snorm = 0 := by
  change npNorm ((-a.rho) • ((_ : Fin p → ℝ) - _)) = 0
  rw [sub_self, smul_zero]
  exact npNorm_zero

/-- ... although `z` does change: a call whose first iteration moves `z` from 0 to 4. -/
theorem C47_dual_residual_counterexample {la : LinAlg} (hla : la.Ok) :
    ∃ (a : LassoArgs 1 1) (g : List (List ℕ)), groupGuard (some g) 1 = .ok g ∧
      (groupLassoStep la a g 0 (lassoInit 1)).1.z 0 = 4 ∧ (lassoInit 1).z 0 = 0 ∧
      (groupLassoStep la a g 0 (lassoInit 1)).2.1.snorm = 0 := by
  refine ⟨{ A := 1, b := fun _ => 10, lamda := 1, rho := 1, alpha := 1, maxIter := 1, tol := 1,
            rtol := 0, returnHistory := false }, [[0]], by decide, ?_, rfl, ?_⟩
  · have h := xUpdate_spec hla (1 : Matrix (Fin 1) (Fin 1) ℝ) one_pos
      ((1 : Matrix (Fin 1) (Fin 1) ℝ)ᵀ *ᵥ (fun _ => 10) + (1 : ℝ) • ((0 : Fin 1 → ℝ) - 0))
    have h0 := congrFun h 0
    simp only [transpose_one, one_mulVec, sub_zero, smul_zero, add_zero, one_smul, Pi.add_apply,
      Pi.zero_apply] at h0
    change softScalar (((1 : ℝ) • xUpdate la (1 : Matrix (Fin 1) (Fin 1) ℝ) 1
      ((1 : Matrix (Fin 1) (Fin 1) ℝ)ᵀ *ᵥ (fun _ => 10) + (1 : ℝ) • ((0 : Fin 1 → ℝ) - 0)) +
        (1 - (1 : ℝ)) • (0 : Fin 1 → ℝ)) 0 + (0 : Fin 1 → ℝ) 0) (1 / 1) = 4
    simp only [transpose_one, one_mulVec, sub_zero, smul_zero, add_zero, one_smul, Pi.zero_apply,
      Pi.add_apply]
    have e : xUpdate la (1 : Matrix (Fin 1) (Fin 1) ℝ) 1 (fun _ => 10) 0 = 5 := by linarith
    rw [e, softScalar_of_pos (by norm_num) (by norm_num)]
    norm_num
  · exact C47_dual_residual_false _ _ _ _ _

theorem groupAssign_apply (groups : List (List ℕ)) (xHat u z : Fin p → ℝ) (thr : ℝ) (i : Fin p) :
    groupAssign groups xHat u z thr i =
      if i.val ∈ groups.flatten then softScalar (xHat i + u i) thr else z i := by
  unfold groupAssign
  induction groups generalizing z with
  | nil => simp
  | cons g gs ih =>
    rw [List.foldl_cons, ih]
    rw [List.flatten_cons]
    by_cases h1 : i.val ∈ gs.flatten
    · rw [if_pos h1, if_pos (List.mem_append_right _ h1)]
    · rw [if_neg h1]
      by_cases h2 : i.val ∈ g
      · rw [if_pos h2, if_pos (List.mem_append_left _ h2)]
      · rw [if_neg h2, if_neg (fun h => (List.mem_append.mp h).elim h2 h1)]

/-- C47, what the group step computes: on groups that cover all features, entrywise soft-thresholding,
whatever the groups are. -/
theorem C47_group_step (groups : List (List ℕ)) (xHat u z : Fin p → ℝ) (thr : ℝ)
    (hg : ∀ i : Fin p, i.val ∈ groups.flatten) :
    groupAssign groups xHat u z thr = softThresholding (xHat + u) thr := by
  funext i
  rw [groupAssign_apply, if_pos (hg i)]
  rfl

/-- C47 is false: the step is not the proximal map of the group norm. For the single group `{0, 1}`,
threshold 1 and input `(3, 4)` another point has a smaller proximal objective. -/
theorem C47_group_step_false : ∃ (xHat u z : Fin 2 → ℝ), groupGuard (some [[0, 1]]) 2 = .ok [[0, 1]] ∧
    ¬ IsMin Set.univ (proxObj (groupNormSum [[0, 1]]) 1 (xHat + u))
      (groupAssign [[0, 1]] xHat u z 1) := by
  refine ⟨![3, 4], 0, 0, by decide, fun h => ?_⟩
  have h1 := h.2 ![12 / 5, 16 / 5] trivial
  rw [C47_group_step _ _ _ _ _ (by intro i; fin_cases i <;> decide)] at h1
  have e : softThresholding ((![3, 4] : Fin 2 → ℝ) + 0) 1 = ![2, 3] := by
    funext i
    fin_cases i
    · change softScalar ((3 : ℝ) + 0) 1 = 2
      rw [softScalar_of_pos (by norm_num) (by norm_num)]; norm_num
    · change softScalar ((4 : ℝ) + 0) 1 = 3
      rw [softScalar_of_pos (by norm_num) (by norm_num)]; norm_num
  rw [e] at h1
  have h13 : (7 / 2 : ℝ) < Real.sqrt 13 := Real.lt_sqrt_of_sq_lt (by norm_num)
  have h16 : Real.sqrt 16 = 4 := by
    rw [show (16 : ℝ) = 4 ^ 2 by norm_num]; exact Real.sqrt_sq (by norm_num)
  have e13 : (2 : ℝ) ^ 2 + 3 ^ 2 = 13 := by norm_num
  have e16 : (12 / 5 : ℝ) ^ 2 + (16 / 5) ^ 2 = 16 := by norm_num
  simp only [proxObj, groupNormSum, sqDist, List.map_cons, List.map_nil, List.sum_cons, List.sum_nil,
    Fin.sum_univ_two, Pi.add_apply, Pi.zero_apply, cons_val_zero, cons_val_one, add_zero, e13, e16,
    h16] at h1
  norm_num at h1
  linarith

/-- C47: consequently `group_lasso` runs through exactly the iterates of `lasso`, for every accepted
list of groups. -/
theorem C47_same_iterates_as_lasso (la : LinAlg) (a : LassoArgs m p) (groups : List (List ℕ))
    (hg : ∀ i : Fin p, i.val ∈ groups.flatten) (k : ℕ) :
    stateAt (groupLassoStep la a groups) (lassoInit p) k = stateAt (lassoStep la a) (lassoInit p) k := by
  induction k with
  | zero => rfl
  | succ k ih =>
    change (groupLassoStep la a groups k _).1 = (lassoStep la a k _).1
    rw [ih, lassoStep_state]
    unfold groupLassoStep
    simp only [C47_group_step _ _ _ _ _ hg]
    rfl

/-- C47: the iterates of `group_lasso` converge to a solution of the plain lasso problem. -/
theorem C47_solves_plain_lasso {la : LinAlg} (hla : la.Ok) (a : LassoArgs m p) (hr : 0 < a.rho)
    (hl : 0 ≤ a.lamda) (ha0 : 0 < a.alpha) (ha2 : a.alpha < 2) (groups : List (List ℕ))
    (hg : ∀ i : Fin p, i.val ∈ groups.flatten) :
    ∃ z, IsMin Set.univ (lassoObj a.A a.b a.lamda) z ∧
      Tendsto (fun k => (stateAt (groupLassoStep la a groups) (lassoInit p) k).z) atTop (𝓝 z) := by
  obtain ⟨z, hz, h1, -⟩ := C46_converges hla a hr hl ha0 ha2
  refine ⟨z, hz, h1.congr fun k => ?_⟩
  rw [C47_same_iterates_as_lasso la a groups hg k]

/-- The call raises TypeError for the default `groups=None`. -/
theorem C47_default_groups (la : LinAlg) (a : LassoArgs m p) :
    groupLasso la a none = .error .type := rfl

example : ∀ i : Fin 3, i.val ∈ ([[0, 1], [2]] : List (List ℕ)).flatten := by decide

end Verif.Props
