import Verif.Props.GaussMY

/-! Property theorems C106 (make_covariance) and C107 (make_fixed_sparsity). -/

namespace Verif.Props

open Verif.Model Verif.Lemmas Matrix

set_option autoImplicit false
set_option linter.unusedSectionVars false

variable {p h : ℕ}

theorem isPosDef_iff {n : Type*} [Fintype n] (A : Matrix n n ℝ) : isPosDef A = true ↔ A.PosDef := by
  simp [isPosDef]

theorem repairDiag_isSymm {theta : Matrix (Fin p) (Fin p) ℝ} (hs : theta.IsSymm) (M : Matrix (Fin p) (Fin p) ℝ)
    (d : Fin p → ℝ) : (repairDiag M theta d).IsSymm := by
  unfold repairDiag
  split
  · exact hs
  · exact hs.add (isSymm_diagonal d)

theorem startGraph_isSymm (degree : ℝ) (draws : Fin p → List (Fin p)) : (startGraph degree draws).IsSymm :=
  foldl_inv (fun A : Matrix (Fin p) (Fin p) ℝ => A.IsSymm) _ _ _ isSymm_one
    fun _ _ _ h => setCross_isSymm h _ _ _

theorem startRepair_spec {eps : ℝ} {L theta th : Matrix (Fin p) (Fin p) ℝ} (hs : theta.IsSymm)
    (h : startRepair eps L theta = some th) : th.IsSymm ∧ (th - L).PosDef := by
  unfold startRepair at h
  simp only at h
  split at h
  · next hp =>
    rw [Option.some.injEq] at h
    subst h
    refine ⟨?_, (isPosDef_iff _).mp hp⟩
    exact repairDiag_isSymm (repairDiag_isSymm hs _ _) _ _
  · simp at h

theorem gram_posSemidef (K : Matrix (Fin h) (Fin p) ℝ) : (Kᵀ * K).PosSemidef := by
  have := posSemidef_conjTranspose_mul_self K
  rwa [conjTranspose_eq_transpose_of_trivial] at this

theorem makeStarting_spec {degree : ℝ} {draws : Fin p → List (Fin p)} {K : Matrix (Fin h) (Fin p) ℝ}
    {theta L : Matrix (Fin p) (Fin p) ℝ} (hm : makeStarting degree draws K = some (theta, L)) :
    L = Kᵀ * K ∧ L.rank = h ∧ startRepair 0.01 L (startGraph degree draws) = some theta := by
  unfold makeStarting makeEll at hm
  split at hm
  · next hr =>
    rw [Option.bind_some] at hm
    obtain ⟨th, h1, h2⟩ := Option.map_eq_some_iff.mp hm
    rw [Prod.mk.injEq] at h2
    obtain ⟨e1, e2⟩ := h2
    subst e1 e2
    exact ⟨rfl, hr, h1⟩
  · simp at hm

theorem updThetaL1_isSymm (draws : List (Fin p × Fin p × ℝ)) {theta : Matrix (Fin p) (Fin p) ℝ}
    (hs : theta.IsSymm) : (updThetaL1 draws theta).IsSymm := by
  classical
  unfold updThetaL1
  refine repairDiag_isSymm (foldl_inv (fun A : Matrix (Fin p) (Fin p) ℝ => A.IsSymm) _ _ _ hs ?_) _ _
  intro A d _ hA
  ext a b
  simp only [transpose_apply, of_apply, hA.apply a b]
  by_cases h1 : (a = d.1 ∧ b = d.2.1) ∨ (a = d.2.1 ∧ b = d.1)
  · rw [if_pos h1, if_pos (by tauto)]
  · rw [if_neg h1, if_neg (by tauto)]

theorem mirrorUpper_isSymm (A : Matrix (Fin p) (Fin p) ℝ) : (mirrorUpper A).IsSymm := by
  ext i j
  simp only [transpose_apply, mirrorUpper, of_apply]
  rcases lt_trichotomy i j with h | h | h
  · rw [if_neg (not_le.mpr h), if_pos h.le]
  · subst h; rfl
  · rw [if_pos h.le, if_neg (not_le.mpr h)]

theorem fillDiagonal_isSymm {A : Matrix (Fin p) (Fin p) ℝ} (hs : A.IsSymm) (d : Fin p → ℝ) :
    (fillDiagonal A d).IsSymm := by
  ext i j
  rw [transpose_apply]
  by_cases e : i = j
  · rw [e]
  · simp only [fillDiagonal, of_apply]
    rw [if_neg e, if_neg (Ne.symm e), hs.apply]

theorem updThetaL2_isSymm (epsilon : ℝ) (A : Matrix (Fin p) (Fin p) ℝ) {theta : Matrix (Fin p) (Fin p) ℝ}
    (hs : theta.IsSymm) : (updThetaL2 epsilon A theta).IsSymm := by
  have h1 : (theta + fillDiagonal ((epsilon / froNorm (mirrorUpper A)) • mirrorUpper A) fun _ => 0).IsSymm :=
    hs.add (fillDiagonal_isSymm ((mirrorUpper_isSymm A).smul _) _)
  unfold updThetaL2
  ext i j
  simp only [transpose_apply, of_apply]
  rw [h1.apply i j]

theorem updTheta_isSymm {epsilon : ℝ} {theta th : Matrix (Fin p) (Fin p) ℝ} (hs : theta.IsSymm) (d : ThetaDraw p)
    (hu : updTheta epsilon theta d = some th) : th.IsSymm := by
  cases d with
  | l1 draws => simp only [updTheta, Option.some.injEq] at hu; subst hu; exact updThetaL1_isSymm draws hs
  | l2 A => simp only [updTheta, Option.some.injEq] at hu; subst hu; exact updThetaL2_isSymm epsilon A hs
  | bad => simp [updTheta] at hu

theorem covLoop_spec {epsilon : ℝ} (steps : List (ThetaDraw p × EllDraw h p)) :
    ∀ {theta : Matrix (Fin p) (Fin p) ℝ} {K : Matrix (Fin h) (Fin p) ℝ} (_ : theta.IsSymm)
      {l : List (Matrix (Fin p) (Fin p) ℝ × Matrix (Fin p) (Fin p) ℝ × Matrix (Fin p) (Fin p) ℝ)},
      covLoop epsilon theta K steps = .ok l → l.length = steps.length ∧
      ∀ r ∈ l, r.2.1 = r.1 - r.2.2 ∧ r.1.IsSymm ∧ r.2.2.PosSemidef ∧ r.2.2.rank = h := by
  induction steps with
  | nil =>
      intro theta K _ l hl
      simp only [covLoop, Except.ok.injEq] at hl
      subst hl
      simp
  | cons d rest ih =>
      intro theta K hs l hl
      unfold covLoop at hl
      split at hl
      · simp at hl
      · next th hth =>
        split at hl
        · simp at hl
        · next K' hK' =>
          simp only at hl
          split at hl
          · next hr =>
            have hsym := repairDiag_isSymm (updTheta_isSymm hs d.1 hth) (th - K'ᵀ * K')
              (fun i => epsilon + (K'ᵀ * K') i i)
            cases hc : covLoop epsilon (repairDiag (th - K'ᵀ * K') th fun i => epsilon + (K'ᵀ * K') i i) K' rest with
            | error e => rw [hc] at hl; simp [Except.map] at hl
            | ok l' =>
                rw [hc] at hl
                simp only [Except.map, Except.ok.injEq] at hl
                subst hl
                obtain ⟨h1, h2⟩ := ih hsym hc
                refine ⟨by simp [h1], fun r hr' => ?_⟩
                rcases List.mem_cons.mp hr' with e | e
                · subst e; exact ⟨rfl, hsym, gram_posSemidef K', hr⟩
                · exact h2 r e
          · simp at hl

/-- C106 (the part that holds): whatever is drawn, when `make_covariance` returns it gives one matrix per time,
the observed precision is `theta - L` at every time, every `theta` is symmetric, every `L` is positive
semidefinite of rank `n_dim_lat`, and the first observed precision is positive definite. Missing: positive
definiteness at later times, see `C106_posdef_false`. -/
theorem C106_structure_partial {degree epsilon : ℝ} {draws : Fin p → List (Fin p)} {K : Matrix (Fin h) (Fin p) ℝ}
    {steps : List (ThetaDraw p × EllDraw h p)}
    {l : List (Matrix (Fin p) (Fin p) ℝ × Matrix (Fin p) (Fin p) ℝ × Matrix (Fin p) (Fin p) ℝ)}
    (hok : makeCovariance degree epsilon draws K steps = .ok l) :
    l.length = steps.length + 1 ∧
    (∀ r ∈ l, r.2.1 = r.1 - r.2.2 ∧ r.1.IsSymm ∧ r.2.2.PosSemidef ∧ r.2.2.rank = h) ∧
    ∃ r, l[0]? = some r ∧ r.2.1.PosDef := by
  unfold makeCovariance at hok
  split at hok
  · simp at hok
  · next theta L hm =>
    obtain ⟨e1, e2, e3⟩ := makeStarting_spec hm
    obtain ⟨f1, f2⟩ := startRepair_spec (startGraph_isSymm degree draws) e3
    cases hc : covLoop epsilon theta K steps with
    | error e => rw [hc] at hok; simp [Except.map] at hok
    | ok l' =>
        rw [hc] at hok
        simp only [Except.map, Except.ok.injEq] at hok
        subst hok
        obtain ⟨h1, h2⟩ := covLoop_spec steps f1 hc
        refine ⟨by simp [h1], fun r hr => ?_, _, rfl, f2⟩
        rcases List.mem_cons.mp hr with e | e
        · subst e; exact ⟨rfl, f1, e1 ▸ gram_posSemidef K, e2⟩
        · exact h2 r e

/-- An unknown `update_theta` is rejected as soon as there is a second time. -/
theorem C106_unknown_update (degree epsilon : ℝ) (draws : Fin p → List (Fin p)) (K : Matrix (Fin h) (Fin p) ℝ)
    (e : EllDraw h p) (rest : List (ThetaDraw p × EllDraw h p)) {s : Matrix (Fin p) (Fin p) ℝ × Matrix (Fin p) (Fin p) ℝ}
    (hs : makeStarting degree draws K = some s) :
    makeCovariance degree epsilon draws K ((.bad, e) :: rest) = .error .value := by
  unfold makeCovariance
  rw [hs]
  simp [covLoop, updTheta, Except.map]

/-! #### The witness against positive definiteness -/

/-- Draws of the witness: every row is linked to the next one. -/
def wDraws : Fin 3 → List (Fin 3) := fun i => [i + 1]

/-- `K_HO` of the witness. -/
def wK : Matrix (Fin 1) (Fin 3) ℝ := !![1, 1, 0]

/-- Random matrix of the witness. -/
def wA : Matrix (Fin 3) (Fin 3) ℝ := !![1, -12, 0; 0, 0, 0; 0, 0, 0]

theorem wK_gram : wKᵀ * wK = !![1, 1, 0; 1, 1, 0; 0, 0, 0] := by
  ext i j
  fin_cases i <;> fin_cases j <;> simp [wK, Matrix.mul_apply]

theorem wK_rank : (wKᵀ * wK).rank = 1 := by
  rw [rank_transpose_mul_self]
  apply le_antisymm
  · simpa using rank_le_height wK
  · rw [Nat.one_le_iff_ne_zero]
    intro h0
    have hr : wK.mulVecLin.range = ⊥ := Submodule.finrank_eq_zero.mp h0
    have : wK *ᵥ ![1, 0, 0] = 0 := by
      have hm : wK.mulVecLin ![1, 0, 0] ∈ wK.mulVecLin.range := ⟨_, rfl⟩
      rw [hr, Submodule.mem_bot] at hm
      exact hm
    have := congrFun this 0
    simp [wK, mulVec, dotProduct, Fin.sum_univ_three] at this

theorem wStart : startGraph 10 wDraws = !![1, 0.05, 0.05; 0.05, 1, 0.05; 0.05, 0.05, 1] := by
  ext i j
  fin_cases i <;> fin_cases j <;>
    simp [startGraph, wDraws, List.finRange_succ, setCross] <;> norm_num

theorem symm3 (a b c d e f : ℝ) : (!![a, b, c; b, d, e; c, e, f] : Matrix (Fin 3) (Fin 3) ℝ).IsSymm := by
  ext i j
  fin_cases i <;> fin_cases j <;> rfl

theorem posDef3 {a b c d e f : ℝ} (h1 : |b| + |c| < a) (h2 : |b| + |e| < d) (h3 : |c| + |e| < f) :
    (!![a, b, c; b, d, e; c, e, f] : Matrix (Fin 3) (Fin 3) ℝ).PosDef := by
  refine posDef_of_dominant (symm3 a b c d e f) (c := min (a - (|b| + |c|)) (min (d - (|b| + |e|)) (f - (|c| + |e|)))) ?_ ?_
  · exact lt_min (by linarith) (lt_min (by linarith) (by linarith))
  · intro i
    have m1 := min_le_left (a - (|b| + |c|)) (min (d - (|b| + |e|)) (f - (|c| + |e|)))
    have m2 := (min_le_right (a - (|b| + |c|)) (min (d - (|b| + |e|)) (f - (|c| + |e|)))).trans (min_le_left _ _)
    have m3 := (min_le_right (a - (|b| + |c|)) (min (d - (|b| + |e|)) (f - (|c| + |e|)))).trans (min_le_right _ _)
    fin_cases i <;> simp [Fin.sum_univ_three] <;> linarith

theorem not_posDef3 {A : Matrix (Fin 3) (Fin 3) ℝ} (x : Fin 3 → ℝ) (hx : x ≠ 0)
    (hq : ∑ i, ∑ j, x i * A i j * x j ≤ 0) : ¬ A.PosDef := by
  intro hA
  have := hA.dotProduct_mulVec_pos hx
  have e : star x ⬝ᵥ (A *ᵥ x) = ∑ i, ∑ j, x i * A i j * x j := by
    simp only [dotProduct, mulVec, Pi.star_apply, star_trivial, Finset.mul_sum, mul_assoc]
  rw [e] at this
  linarith

theorem wMakeStarting : makeStarting 10 wDraws wK =
    some (!![2.01, 0.05, 0.05; 0.05, 2.01, 0.05; 0.05, 0.05, 1.01], !![1, 1, 0; 1, 1, 0; 0, 0, 0]) := by
  unfold makeStarting makeEll
  rw [if_pos wK_rank, Option.bind_some, wK_gram, wStart]
  have h1 : (!![1, 0.05, 0.05; 0.05, 1, 0.05; 0.05, 0.05, 1] : Matrix (Fin 3) (Fin 3) ℝ).PosDef := by
    apply posDef3 <;> norm_num [abs_of_pos]
  have h2 : ¬ (!![1, 0.05, 0.05; 0.05, 1, 0.05; 0.05, 0.05, 1] - !![1, 1, 0; 1, 1, 0; 0, 0, 0] :
      Matrix (Fin 3) (Fin 3) ℝ).PosDef := by
    refine not_posDef3 ![1, 1, 0] (fun h => by simpa using congrFun h 0) ?_
    simp [Fin.sum_univ_three]; norm_num
  have e : (!![1, 0.05, 0.05; 0.05, 1, 0.05; 0.05, 0.05, 1] : Matrix (Fin 3) (Fin 3) ℝ) +
      (diagonal fun i => 0.01 + (!![1, 1, 0; 1, 1, 0; 0, 0, 0] : Matrix (Fin 3) (Fin 3) ℝ) i i) =
      !![2.01, 0.05, 0.05; 0.05, 2.01, 0.05; 0.05, 0.05, 1.01] := by
    ext i j
    fin_cases i <;> fin_cases j <;> simp [diagonal] <;> norm_num
  have h3 : (!![2.01, 0.05, 0.05; 0.05, 2.01, 0.05; 0.05, 0.05, 1.01] - !![1, 1, 0; 1, 1, 0; 0, 0, 0] :
      Matrix (Fin 3) (Fin 3) ℝ).PosDef := by
    have : (!![2.01, 0.05, 0.05; 0.05, 2.01, 0.05; 0.05, 0.05, 1.01] - !![1, 1, 0; 1, 1, 0; 0, 0, 0] :
        Matrix (Fin 3) (Fin 3) ℝ) = !![1.01, -0.95, 0.05; -0.95, 1.01, 0.05; 0.05, 0.05, 1.01] := by
      ext i j
      fin_cases i <;> fin_cases j <;> simp <;> norm_num
    rw [this]
    apply posDef3 <;> norm_num [abs_of_pos, abs_of_neg]
  unfold startRepair
  have r1 : ∀ d, repairDiag (!![1, 0.05, 0.05; 0.05, 1, 0.05; 0.05, 0.05, 1] : Matrix (Fin 3) (Fin 3) ℝ)
      !![1, 0.05, 0.05; 0.05, 1, 0.05; 0.05, 0.05, 1] d = !![1, 0.05, 0.05; 0.05, 1, 0.05; 0.05, 0.05, 1] :=
    fun d => if_pos ((isPosDef_iff _).mpr h1)
  have r2 : ∀ d, repairDiag (!![1, 0.05, 0.05; 0.05, 1, 0.05; 0.05, 0.05, 1] - !![1, 1, 0; 1, 1, 0; 0, 0, 0] :
      Matrix (Fin 3) (Fin 3) ℝ) !![1, 0.05, 0.05; 0.05, 1, 0.05; 0.05, 0.05, 1] d =
      !![1, 0.05, 0.05; 0.05, 1, 0.05; 0.05, 0.05, 1] + diagonal d :=
    fun d => if_neg (by rw [isPosDef_iff]; exact h2)
  simp only [r1, r2]
  rw [e, if_pos ((isPosDef_iff _).mpr h3)]
  rfl

theorem wNorm : froNorm (mirrorUpper wA) = 17 := by
  have h0 : mirrorUpper wA = !![1, -12, 0; -12, 0, 0; 0, 0, 0] := by
    ext i j
    fin_cases i <;> fin_cases j <;> simp [mirrorUpper, wA]
  unfold froNorm
  rw [h0]
  simp [Fin.sum_univ_three]
  rw [show (1 + 12 ^ 2 + 12 ^ 2 : ℝ) = 17 ^ 2 by norm_num]
  exact Real.sqrt_sq (by norm_num)

theorem wUpd : updThetaL2 3.1 wA !![2.01, 0.05, 0.05; 0.05, 2.01, 0.05; 0.05, 0.05, 1.01] =
    !![0, 0.05 - 37.2 / 17, 0; 0.05 - 37.2 / 17, 0, 0; 0, 0, 0] := by
  have h0 : mirrorUpper wA = !![1, -12, 0; -12, 0, 0; 0, 0, 0] := by
    ext i j
    fin_cases i <;> fin_cases j <;> simp [mirrorUpper, wA]
  unfold updThetaL2
  rw [wNorm, h0]
  ext i j
  fin_cases i <;> fin_cases j <;> simp [fillDiagonal] <;> norm_num [abs_lt]

/-- C106 is false for later times: the correction `theta += diag(epsilon + diag(L))` is not followed by a check.
Three variables, one latent variable, `epsilon = 3.1`, an `l2` update of `theta` and a fixed latent part: the
function returns normally, and the second observed precision is not positive definite. -/
theorem C106_posdef_false : ∃ l,
    makeCovariance (p := 3) (h := 1) 10 3.1 wDraws wK [(.l2 wA, .fixed)] = .ok l ∧
    l.length = 2 ∧ ∃ r, l[1]? = some r ∧ ¬ r.2.1.PosDef := by
  unfold makeCovariance
  rw [wMakeStarting]
  simp only [covLoop, updTheta, updEll, wUpd, wK_gram]
  have hr : (!![1, 1, 0; 1, 1, 0; 0, 0, 0] : Matrix (Fin 3) (Fin 3) ℝ).rank = 1 := wK_gram ▸ wK_rank
  rw [if_pos hr]
  have h1 : ¬ (!![0, 0.05 - 37.2 / 17, 0; 0.05 - 37.2 / 17, 0, 0; 0, 0, 0] - !![1, 1, 0; 1, 1, 0; 0, 0, 0] :
      Matrix (Fin 3) (Fin 3) ℝ).PosDef := by
    refine not_posDef3 ![1, 1, 0] (fun h => by simpa using congrFun h 0) ?_
    simp [Fin.sum_univ_three]; norm_num
  have r1 : ∀ d, repairDiag (!![0, 0.05 - 37.2 / 17, 0; 0.05 - 37.2 / 17, 0, 0; 0, 0, 0] -
      !![1, 1, 0; 1, 1, 0; 0, 0, 0] : Matrix (Fin 3) (Fin 3) ℝ)
      !![0, 0.05 - 37.2 / 17, 0; 0.05 - 37.2 / 17, 0, 0; 0, 0, 0] d =
      !![0, 0.05 - 37.2 / 17, 0; 0.05 - 37.2 / 17, 0, 0; 0, 0, 0] + diagonal d :=
    fun d => if_neg (by rw [isPosDef_iff]; exact h1)
  simp only [r1]
  refine ⟨_, rfl, rfl, _, rfl, ?_⟩
  refine not_posDef3 ![1, 1, 0] (fun h => by simpa using congrFun h 0) ?_
  simp [Fin.sum_univ_three]; norm_num

/-- Non-vacuity for `C106_structure_partial` and `C106_unknown_update`. -/
example : (∃ l, makeCovariance (p := 3) (h := 1) 10 3.1 wDraws wK [(.l2 wA, .fixed)] = .ok l) ∧
    ∃ s, makeStarting 10 wDraws wK = some s :=
  ⟨let ⟨l, h, _⟩ := C106_posdef_false; ⟨l, h⟩, _, wMakeStarting⟩

/-! ### make_fixed_sparsity -/

theorem sparsityStep_spec (sgn epsilon : ℝ) {L : Matrix (Fin p) (Fin p) ℝ} (hL : L.IsSymm)
    (noise theta : Matrix (Fin p) (Fin p) ℝ) :
    (sparsityStep sgn epsilon L noise theta).IsSymm ∧ (sparsityStep sgn epsilon L noise theta - L).PosDef := by
  classical
  unfold sparsityStep
  set B : Matrix (Fin p) (Fin p) ℝ :=
    Matrix.of fun i j => |if theta i j - theta j j ≠ 0 then theta i j + sgn * (noise i j * 0.1) else theta i j|
  set D : Matrix (Fin p) (Fin p) ℝ := Matrix.of fun i j =>
    if (Matrix.of fun i j => (B i j + B j i) / 2 : Matrix (Fin p) (Fin p) ℝ) i j < epsilon then 0
    else (Matrix.of fun i j => (B i j + B j i) / 2 : Matrix (Fin p) (Fin p) ℝ) i j with hD
  have hDs : D.IsSymm := by
    ext i j
    have hc : (B j i + B i j) / 2 = (B i j + B j i) / 2 := by rw [add_comm]
    by_cases hl : (B i j + B j i) / 2 < epsilon
    · exact (if_pos (show (B j i + B i j) / 2 < epsilon by rw [hc]; exact hl)).trans (if_pos hl).symm
    · exact ((if_neg (show ¬ (B j i + B i j) / 2 < epsilon by rw [hc]; exact hl)).trans hc).trans
        (if_neg hl).symm
  have hs := fillDiagonal_isSymm hDs fun i => (∑ j, |D i j|) + (∑ j, |L i j|) + 0.1
  refine ⟨hs, posDef_of_dominant (hs.sub hL) (c := 0.1) (by norm_num) fun i => ?_⟩
  have h1 : (∑ j, if i = j then 0 else |(fillDiagonal D (fun i => (∑ j, |D i j|) + (∑ j, |L i j|) + 0.1) - L) i j|)
      ≤ ∑ j, if i = j then 0 else (|D i j| + |L i j|) := by
    refine Finset.sum_le_sum fun j _ => ?_
    by_cases e : i = j
    · simp [e]
    · rw [if_neg e, if_neg e, Matrix.sub_apply]
      simp only [fillDiagonal, of_apply, if_neg e]
      exact abs_sub _ _
  have h2 : (∑ j, if i = j then 0 else (|D i j| + |L i j|)) + |L i i| ≤ (∑ j, |D i j|) + ∑ j, |L i j| := by
    rw [← Finset.sum_add_distrib, ← Finset.sum_erase_add Finset.univ _ (Finset.mem_univ i), if_pos rfl, add_zero,
      ← Finset.sum_erase_add Finset.univ (fun j => |D i j| + |L i j|) (Finset.mem_univ i)]
    have : (∑ j ∈ Finset.univ.erase i, if i = j then 0 else (|D i j| + |L i j|)) =
        ∑ j ∈ Finset.univ.erase i, (|D i j| + |L i j|) :=
      Finset.sum_congr rfl fun j hj => if_neg (Ne.symm (Finset.ne_of_mem_erase hj))
    rw [this]
    linarith [abs_nonneg (D i i)]
  have h3 : (fillDiagonal D (fun i => (∑ j, |D i j|) + (∑ j, |L i j|) + 0.1) - L) i i =
      (∑ j, |D i j|) + (∑ j, |L i j|) + 0.1 - L i i := by simp [fillDiagonal]
  rw [h3]
  linarith [neg_abs_le (L i i), le_abs_self (L i i)]

theorem sparsityLoop_spec (sgn epsilon : ℝ) {L : Matrix (Fin p) (Fin p) ℝ} (hL : L.IsSymm)
    (noises : List (Matrix (Fin p) (Fin p) ℝ)) : ∀ theta : Matrix (Fin p) (Fin p) ℝ,
    ∃ l, sparsityLoop sgn epsilon L theta noises = some l ∧ l.length = noises.length ∧
      ∀ th ∈ l, th.IsSymm ∧ (th - L).PosDef := by
  induction noises with
  | nil => exact fun theta => ⟨[], rfl, rfl, by simp⟩
  | cons noise rest ih =>
      intro theta
      obtain ⟨h1, h2⟩ := sparsityStep_spec sgn epsilon hL noise theta
      obtain ⟨l, e1, e2, e3⟩ := ih (sparsityStep sgn epsilon L noise theta)
      refine ⟨sparsityStep sgn epsilon L noise theta :: l, ?_, by simp [e2], ?_⟩
      · unfold sparsityLoop
        simp only
        rw [if_pos ((isPosDef_iff _).mpr h2), e1]
        rfl
      · intro th hth
        rcases List.mem_cons.mp hth with e | e
        · subst e; exact ⟨h1, h2⟩
        · exact e3 th e

theorem startGraph_nonneg {degree : ℝ} (hd : 0 ≤ degree) (draws : Fin p → List (Fin p)) (i j : Fin p) :
    0 ≤ startGraph degree draws i j := by
  refine foldl_inv (fun A : Matrix (Fin p) (Fin p) ℝ => ∀ i j, 0 ≤ A i j) _ _ _ ?_ ?_ i j
  · intro i j; rw [one_apply]; split <;> norm_num
  · intro A k _ hA a b
    simp only [setCross, of_apply]
    split
    · positivity
    · exact hA a b

theorem repairDiag_nonneg {theta : Matrix (Fin p) (Fin p) ℝ} (h0 : ∀ i j, 0 ≤ theta i j) {d : Fin p → ℝ}
    (hd : ∀ i, 0 ≤ d i) (M : Matrix (Fin p) (Fin p) ℝ) (i j : Fin p) : 0 ≤ repairDiag M theta d i j := by
  unfold repairDiag
  split
  · exact h0 i j
  · rw [Matrix.add_apply, diagonal_apply]
    split
    · exact add_nonneg (h0 i j) (hd i)
    · simpa using h0 i j

theorem startRepair_nonneg {eps : ℝ} (he : 0 ≤ eps) {L theta th : Matrix (Fin p) (Fin p) ℝ}
    (hL : L.PosSemidef) (h0 : ∀ i j, 0 ≤ theta i j) (h : startRepair eps L theta = some th) (i j : Fin p) :
    0 ≤ th i j := by
  unfold startRepair at h
  simp only at h
  split at h
  · rw [Option.some.injEq] at h
    subst h
    refine repairDiag_nonneg (repairDiag_nonneg h0 (fun i => ?_) _) (fun i => ?_) _ i j
    · exact add_nonneg (Finset.sum_nonneg fun j _ => h0 i j) he
    · exact add_nonneg he hL.diag_nonneg
  · simp at h

/-- C107 (the part that holds): whenever the starting matrices are found, `make_fixed_sparsity` succeeds for
every noise, every threshold and both directions of change: its assertion never fails, and all the precisions
are symmetric with `theta - L` positive definite. Missing: the sparsity is not fixed, see
`C107_sparsity_false`. -/
theorem C107_valid_partial {degree : ℝ} (hd : 0 ≤ degree) (epsilon : ℝ) (changing : Bool)
    (draws : Fin p → List (Fin p)) (K : Matrix (Fin h) (Fin p) ℝ) (noises : List (Matrix (Fin p) (Fin p) ℝ))
    (hs : (makeStarting degree draws K).isSome) :
    ∃ thetas, makeFixedSparsity degree epsilon changing draws K noises = some (thetas, Kᵀ * K) ∧
      thetas.length = noises.length + 1 ∧ ∀ th ∈ thetas, th.IsSymm ∧ (th - Kᵀ * K).PosDef := by
  obtain ⟨⟨theta, L⟩, hst⟩ := Option.isSome_iff_exists.mp hs
  obtain ⟨e1, _, e3⟩ := makeStarting_spec hst
  subst e1
  obtain ⟨f1, f2⟩ := startRepair_spec (startGraph_isSymm degree draws) e3
  have hnn := startRepair_nonneg (by norm_num) (gram_posSemidef K) (startGraph_nonneg hd draws) e3
  have habs : (Matrix.of fun i j => |theta i j| : Matrix (Fin p) (Fin p) ℝ) = theta := by
    ext i j; rw [of_apply, abs_of_nonneg (hnn i j)]
  obtain ⟨l, l1, l2, l3⟩ := sparsityLoop_spec (if changing then 1 else -1) epsilon (gram_posSemidef K).isSymm'
    noises theta
  refine ⟨theta :: l, ?_, by simp [l2], ?_⟩
  · unfold makeFixedSparsity
    rw [hst, Option.bind_some]
    simp only [habs]
    rw [l1]
    rfl
  · intro th hth
    rcases List.mem_cons.mp hth with e | e
    · subst e; exact ⟨f1, f2⟩
    · exact l3 th e

/-- Draws of the witness: one edge between the first two of three variables. -/
def vDraws : Fin 3 → List (Fin 3) := ![[1], [], []]

/-- No latent variables. -/
def vK : Matrix (Fin 0) (Fin 3) ℝ := 0

theorem vStart : startGraph 1 vDraws = !![1, 0.5, 0; 0.5, 1, 0; 0, 0, 1] := by
  ext i j
  fin_cases i <;> fin_cases j <;>
    simp [startGraph, vDraws, List.finRange_succ, setCross]

theorem vGram : vKᵀ * vK = 0 := by
  ext i j
  simp [Matrix.mul_apply]

theorem vMakeStarting : makeStarting 1 vDraws vK = some (!![1, 0.5, 0; 0.5, 1, 0; 0, 0, 1], 0) := by
  unfold makeStarting makeEll
  rw [vGram, if_pos (by simp), Option.bind_some, vStart]
  have h1 : (!![1, 0.5, 0; 0.5, 1, 0; 0, 0, 1] : Matrix (Fin 3) (Fin 3) ℝ).PosDef := by
    apply posDef3 <;> norm_num [abs_of_pos]
  unfold startRepair
  simp only [repairDiag, sub_zero, (isPosDef_iff _).mpr h1, if_true]
  rfl

/-- C107 is false: the set of edges changes. With three variables and no latent variable, the first and the
third variable are not linked at the first time and are linked at the second one. -/
theorem C107_sparsity_false : ∃ (noise : Matrix (Fin 3) (Fin 3) ℝ) (th0 th1 L : Matrix (Fin 3) (Fin 3) ℝ),
    makeFixedSparsity 1 0.01 true vDraws vK [noise] = some ([th0, th1], L) ∧ th0 0 2 = 0 ∧ th1 0 2 ≠ 0 := by
  refine ⟨Matrix.of fun _ _ => 10, !![1, 0.5, 0; 0.5, 1, 0; 0, 0, 1],
    sparsityStep 1 0.01 0 (Matrix.of fun _ _ => 10) !![1, 0.5, 0; 0.5, 1, 0; 0, 0, 1], 0, ?_, ?_, ?_⟩
  · have habs : (Matrix.of fun i j => |(!![1, 0.5, 0; 0.5, 1, 0; 0, 0, 1] : Matrix (Fin 3) (Fin 3) ℝ) i j| :
        Matrix (Fin 3) (Fin 3) ℝ) = !![1, 0.5, 0; 0.5, 1, 0; 0, 0, 1] := by
      ext i j
      fin_cases i <;> fin_cases j <;> norm_num
    have hp := (sparsityStep_spec 1 0.01 (L := (0 : Matrix (Fin 3) (Fin 3) ℝ)) isSymm_zero (Matrix.of fun _ _ => 10)
      !![1, 0.5, 0; 0.5, 1, 0; 0, 0, 1]).2
    unfold makeFixedSparsity
    rw [vMakeStarting, Option.bind_some]
    simp only [habs, if_true, sparsityLoop, (isPosDef_iff _).mpr hp, Option.map_some]
  · rfl
  · have : sparsityStep 1 0.01 0 (Matrix.of fun _ _ => 10) (!![1, 0.5, 0; 0.5, 1, 0; 0, 0, 1]) 0 2 = (1 : ℝ) := by
      simp [sparsityStep, fillDiagonal]
      norm_num
    rw [this]; norm_num

/-- Non-vacuity for `C107_valid_partial`. -/
example : (makeStarting 10 wDraws wK).isSome = true ∧ (0 : ℝ) ≤ 10 := by
  rw [wMakeStarting]; exact ⟨rfl, by norm_num⟩

end Verif.Props
