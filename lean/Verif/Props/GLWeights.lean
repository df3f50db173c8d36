import Verif.Lemmas.Weights
import Verif.Props.Adaptive
import Verif.Props.GWishart

/-! Property theorem C200 (graphical lasso with a matrix of penalties; graph-constrained fit). -/

namespace Verif.Props

open Verif.Model Verif.Spec Verif.Lemmas Matrix Filter Topology

set_option autoImplicit false
set_option linter.unusedSectionVars false

variable {n : Type*} [Fintype n] [DecidableEq n]

/-- The value of the local variable `rho` at the start of pass `j` of a call that is not stopped. -/
noncomputable def glwPenalty (eigh : Eigh n) (a : GLWArgs n) (Z0 : Matrix n n ℝ) (rho : ℝ) (j : ℕ) : ℝ :=
  (stateAt (glwBody eigh a) (glInit Z0 rho) j).rho

noncomputable def nextZw (eigh : Eigh n) (a : GLWArgs n) (s : GLState n) : Matrix n n ℝ :=
  glwZ a.alpha s.rho (glK eigh a.empCov s.rho s.Z s.U) s.U

noncomputable def nextUw (eigh : Eigh n) (a : GLWArgs n) (s : GLState n) : Matrix n n ℝ :=
  s.U + (glK eigh a.empCov s.rho s.Z s.U - nextZw eigh a s)

/-- The pass without a penalty change. -/
noncomputable def glwNext (eigh : Eigh n) (a : GLWArgs n) (s : GLState n) : GLState n :=
  ⟨nextZw eigh a s, nextUw eigh a s, nextZw eigh a s, s.rho⟩

theorem glwBody_keep (eigh : Eigh n) (a : GLWArgs n) (hor : a.overRelax = 1) (it : ℕ) (s : GLState n) (hr : s.rho ≠ 0)
    (h : (glwBody eigh a it s).1.rho = s.rho) : (glwBody eigh a it s).1 = glwNext eigh a s := by
  unfold glwBody at h ⊢
  simp only [hor, glKhat_one] at h ⊢
  split at h
  · rw [if_pos (by assumption)]; rfl
  · rw [if_neg (by assumption)]
    have h' : updateRho a.rhoOptions s.rho _ _ = s.rho := h
    rw [h', div_self hr, one_smul]
    rfl

theorem glwIter_rho (eigh : Eigh n) (a : GLWArgs n) (s : GLState n) (j : ℕ) :
    ((glwNext eigh a)^[j] s).rho = s.rho := by
  induction j with
  | zero => rfl
  | succ j ih => rw [Function.iterate_succ_apply']; exact ih

theorem subPairW_next (eigh : Eigh n) {a : GLWArgs n} (hW : GoodWeights a.alpha) {s : GLState n} (hr : 0 < s.rho) :
    SubPairW a.alpha s.rho (nextZw eigh a s) (nextUw eigh a s) := by
  have h := glwZ_subgrad hW hr (glK eigh a.empCov s.rho s.Z s.U) s.U
  have e : nextUw eigh a s = glK eigh a.empCov s.rho s.Z s.U + s.U
      - glwZ a.alpha s.rho (glK eigh a.empCov s.rho s.Z s.U) s.U := by
    unfold nextUw nextZw; abel
  rw [e]
  exact h

theorem glwRunFrom {eigh : Eigh n} (he : IsEighOracle eigh) (a : GLWArgs n) (hS : a.empCov.IsSymm)
    (hW : GoodWeights a.alpha) {X : Matrix n n ℝ}
    (hX : IsMin (WeightDom a.alpha) (weightObjective a.empCov a.alpha) X) (s : GLState n) (hr : 0 < s.rho) :
    AdmmRun (id : Fin 1 → Fin 1) (fun _ => a.empCov) (fun _ => 1) s.rho
      (fun j _ => glK eigh a.empCov s.rho ((glwNext eigh a)^[j] s).Z ((glwNext eigh a)^[j] s).U)
      (fun j _ => ((glwNext eigh a)^[j] s).Z) (fun j _ => ((glwNext eigh a)^[j] s).U) (fun _ => X)
      (fun _ => s.rho⁻¹ • (X⁻¹ - a.empCov)) := by
  have hrho := glwIter_rho eigh a s
  have hsub : ∀ j, SubPairW a.alpha s.rho ((glwNext eigh a)^[j + 1] s).Z ((glwNext eigh a)^[j + 1] s).U := by
    intro j
    rw [Function.iterate_succ_apply']
    have := subPairW_next eigh (a := a) (s := (glwNext eigh a)^[j] s) hW (by rw [hrho]; exact hr)
    rw [hrho] at this
    exact this
  have hXs : SubPairW a.alpha s.rho X (s.rho⁻¹ • (X⁻¹ - a.empCov)) := by
    refine ⟨hX.1.2, fun Y hY => ?_⟩
    rw [frobInner_smul_left, ← mul_assoc, mul_inv_cancel₀ hr.ne', one_mul]
    exact weight_subgrad hW hS hX Y hY
  have hXsymm : (X⁻¹ - a.empCov).IsSymm := by
    have hXp : X.PosDef := hX.1.1
    rw [IsSymm, transpose_sub, hXp.inv.isSymm'.eq, hS.eq]
  refine ⟨fun t => ⟨t, rfl⟩, fun _ => one_pos, hr, fun j t => glK_posDef he hS hr _ _, fun j t => ?_, fun j i => ?_,
    fun j => ?_, fun _ => hX.1.1, fun t => ?_, fun j => ?_⟩
  · have hK := (glK_posDef he hS hr ((glwNext eigh a)^[j] s).Z ((glwNext eigh a)^[j] s).U).isSymm'
    have h := glK_inv he hS hr ((glwNext eigh a)^[j] s).Z ((glwNext eigh a)^[j] s).U
    rw [Fin.sum_univ_one, if_pos (Subsingleton.elim _ _), h]
    have e : ∀ K Z U : Matrix n n ℝ, K.IsSymm → symmetrize (K - Z + U) = K - symmetrize (Z - U) := by
      intro K Z U hK
      have : K - Z + U = K - (Z - U) := by abel
      rw [this, symmetrize_sub, symmetrize_of_isSymm hK]
    rw [e _ _ _ hK, one_smul, smul_sub]
    abel
  · simp only [Function.iterate_succ_apply']
    change nextUw eigh a _ = _
    unfold nextUw
    rw [hrho]
    rfl
  · rw [Fin.sum_univ_one]
    exact SubPairW.mono hr (hsub (j + 1)) (hsub j)
  · rw [Fin.sum_univ_one, if_pos (Subsingleton.elim _ _), one_smul, symmetrize_of_isSymm (isSymm_smul _ hXsymm),
      smul_smul, mul_inv_cancel₀ hr.ne', one_smul]
    abel
  · rw [Fin.sum_univ_one]
    exact SubPairW.mono hr (hsub j) hXs

theorem glwCall_shape (eigh : Eigh n) (a : GLWArgs n) (Z0 : Matrix n n ℝ) (rho : ℝ) {m : ℕ} (hm : 1 ≤ m)
    (rh rn : Bool) : ∃ C h it, graphicalLassoW eigh a Z0 rho m rh rn =
        .ok (runLoop (glwBody eigh a) m (glInit Z0 rho)).state.Z C h it
          (!(runLoop (glwBody eigh a) m (glInit Z0 rho)).broke) := by
  obtain ⟨it, hit⟩ := runLoop_lastIter (glwBody eigh a) (glInit Z0 rho) hm
  unfold graphicalLassoW
  simp only
  rw [hit]
  cases rn
  · exact ⟨_, _, _, rfl⟩
  · exact ⟨_, _, _, rfl⟩

theorem glw_run_facts {eigh : Eigh n} (a : GLWArgs n) (hi : 0 < a.rhoOptions.tauInc) (hd : 0 < a.rhoOptions.tauDec)
    (Z0 : Matrix n n ℝ) {rho : ℝ} (hr : 0 < rho) (j : ℕ) :
    0 < (stateAt (glwBody eigh a) (glInit Z0 rho) j).rho ∧
      (stateAt (glwBody eigh a) (glInit Z0 rho) (j + 1)).Zold =
        (stateAt (glwBody eigh a) (glInit Z0 rho) (j + 1)).Z := by
  refine ⟨stateAt_invariant _ (fun s : GLState n => 0 < s.rho) (fun it s hs => ?_) hr j, ?_⟩
  · unfold glwBody
    simp only
    split
    · exact hs
    · exact updateRho_pos hi hd hs _ _
  · change (glwBody eigh a j _).1.Zold = (glwBody eigh a j _).1.Z
    unfold glwBody
    simp only
    split <;> rfl

/-- C200 (one number): a matrix filled with one number is the call with that number. -/
theorem C200_one_number (eigh : Eigh n) (a : GLArgs n) (Z0 : Matrix n n ℝ) (rho : ℝ) (m : ℕ) (rh rn : Bool) :
    graphicalLassoW eigh ⟨a.empCov, fun _ _ => some a.alpha, a.overRelax, a.tol, a.rtol, a.rhoOptions⟩ Z0 rho m rh rn
      = graphicalLasso eigh a Z0 rho m rh rn := by
  have hb : glwBody eigh ⟨a.empCov, fun _ _ => some a.alpha, a.overRelax, a.tol, a.rtol, a.rhoOptions⟩
      = glBody eigh a := by
    funext it s
    have hz : ∀ K U : Matrix n n ℝ, glwZ (fun _ _ => some a.alpha) s.rho K U = glZ a.alpha s.rho K U := by
      intro K U
      ext i j
      rw [glwZ_apply]
      unfold glZ
      rw [softOff_apply]
      split
      · rw [softScalar_zero_right]
      · rfl
    unfold glwBody glBody
    simp only [hz]
  unfold graphicalLassoW graphicalLasso
  rw [hb]
  rfl

/-- C200 (pattern): whatever the other arguments, a call that returns after at least one pass returns a precision
that is exactly zero at every entry off the diagonal with an infinite penalty. -/
theorem C200_pattern (eigh : Eigh n) (a : GLWArgs n) (Z0 : Matrix n n ℝ) (rho : ℝ) {m : ℕ} (hm : 1 ≤ m)
    (rh rn : Bool) : ∃ Z C h it w, graphicalLassoW eigh a Z0 rho m rh rn = .ok Z C h it w ∧
      ∀ i j, i ≠ j → a.alpha i j = none → Z i j = 0 := by
  obtain ⟨C, h, it, hcall⟩ := glwCall_shape eigh a Z0 rho hm rh rn
  refine ⟨_, C, h, it, _, hcall, ?_⟩
  have hbody : ∀ it s, OnPattern a.alpha (glwBody eigh a it s).1.Z := by
    intro it s
    unfold glwBody
    simp only
    split <;> exact glwZ_onPattern _ _ _ _
  have key : OnPattern a.alpha (runLoop (glwBody eigh a) m (glInit Z0 rho)).state.Z := by
    refine runLoop_property (glwBody eigh a) (glInit Z0 rho) (Q := fun s => OnPattern a.alpha s.Z) (M := 1)
      (fun j hj => ?_) (fun j _ => hbody _ _) hm
    obtain ⟨i, rfl⟩ : ∃ i, j = i + 1 := ⟨j - 1, by omega⟩
    exact hbody _ _
  exact key

/-- C200 (convergence): for a positive definite covariance and symmetric penalties in `[0, ∞]` the problem of the
matrix `alpha` has exactly one optimum `X`. Without over-relaxation, with any rule for the penalty parameter and from
every start, unless that parameter changes infinitely often, for `tol > 0` every call with `max_iter` large enough
ends without the warning, and for `tol = rtol = 0` the returned precision converges to `X` as `max_iter` grows. -/
theorem C200_converges [Nonempty n] {eigh : Eigh n} (he : IsEighOracle eigh) (a : GLWArgs n)
    (hS : a.empCov.PosDef) (hW : GoodWeights a.alpha) (hor : a.overRelax = 1)
    (hi : 0 < a.rhoOptions.tauInc) (hd : 0 < a.rhoOptions.tauDec) (Z0 : Matrix n n ℝ) {rho : ℝ} (hr : 0 < rho) :
    ∃ X, UniqueMin (WeightDom a.alpha) (weightObjective a.empCov a.alpha) X ∧
      (0 < a.tol → 0 ≤ a.rtol → ChangesForever (glwPenalty eigh a Z0 rho) ∨
        ∃ M, ∀ m, M ≤ m → ∀ rh rn, ∃ Z C h it, graphicalLassoW eigh a Z0 rho m rh rn = .ok Z C h it false) ∧
      (a.tol = 0 → a.rtol = 0 → ChangesForever (glwPenalty eigh a Z0 rho) ∨
        ∀ ε, 0 < ε → ∃ M, ∀ m, M ≤ m → ∀ rh rn, ∃ Z C h it w,
          graphicalLassoW eigh a Z0 rho m rh rn = .ok Z C h it w ∧ CloseMat ε Z X) := by
  have hSs : a.empCov.IsSymm := hS.isSymm'
  obtain ⟨X, hX⟩ := weight_exists_min hW hS
  set st := stateAt (glwBody eigh a) (glInit Z0 rho) with hstd
  have hf : ∀ j, 0 < (st j).rho := fun j => (glw_run_facts (eigh := eigh) a hi hd Z0 hr j).1
  have hold : ∀ j, (st (j + 1)).Zold = (st (j + 1)).Z := fun j =>
    (glw_run_facts (eigh := eigh) a hi hd Z0 hr j).2
  have hset : ¬ ChangesForever (glwPenalty eigh a Z0 rho) → ∃ J, ∀ i, st (J + i) = (glwNext eigh a)^[i] (st J) := by
    intro h
    obtain ⟨J, hJ⟩ := settles_of_not h
    exact ⟨J, settled_iter _ _ _ fun j hj => glwBody_keep eigh a hor j _ (hf j).ne' (hJ j hj)⟩
  refine ⟨X, weight_uniqueMin hW hSs hX, fun htol hrtol => or_iff_not_imp_left.mpr fun hch => ?_,
    fun htol hrtol => or_iff_not_imp_left.mpr fun hch ε hε => ?_⟩
  · obtain ⟨J, hJ⟩ := hset hch
    obtain ⟨hpri, hdual, -, -⟩ := (glwRunFrom he a hSs hW hX (st J) (hf J)).converges
    simp only [Fin.sum_univ_one] at hpri hdual
    set c : ℝ := Real.sqrt ((Fintype.card n : ℝ) * (Fintype.card n : ℝ)) with hc
    have hsize : 0 < c := by
      have h1 : (0 : ℝ) < Fintype.card n := by exact_mod_cast Fintype.card_pos
      rw [hc]
      positivity
    have hrJ := hf J
    have e1 := eventually_sqrt_le hpri (b := c * a.tol) (by positivity)
    have e2 := eventually_sqrt_le hdual (b := c * a.tol / (st J).rho) (by positivity)
    obtain ⟨i, hi'⟩ := eventually_atTop.mp (e1.and e2)
    obtain ⟨h1, h2⟩ := hi' (i + 1) (by omega)
    have hstop : Lemmas.stopAt (glwBody eigh a) (glInit Z0 rho) (J + i + 1) = true := by
      change (glwBody eigh a (J + i + 1) (st (J + i + 1))).2.2 = true
      have o0 := hold (J + i)
      have es : st (J + i + 1) = (glwNext eigh a)^[i + 1] (st J) := hJ (i + 1)
      have er : (st (J + i + 1)).rho = (st J).rho := by rw [es, glwIter_rho]
      have en : glwZ a.alpha (st J).rho (glK eigh a.empCov (st J).rho ((glwNext eigh a)^[i + 1] (st J)).Z
          ((glwNext eigh a)^[i + 1] (st J)).U) ((glwNext eigh a)^[i + 1] (st J)).U =
          ((glwNext eigh a)^[i + 1 + 1] (st J)).Z := by
        rw [Function.iterate_succ_apply' (glwNext eigh a) (i + 1)]
        change _ = nextZw eigh a _
        unfold nextZw
        rw [glwIter_rho]
      unfold glwBody
      simp only [decide_eq_true_eq, hor, glKhat_one, o0, er]
      rw [es, en]
      constructor
      · rw [froNorm_eq_sqrt]
        refine h1.trans (le_add_of_nonneg_right ?_)
        exact mul_nonneg hrtol (le_max_of_le_left (froNorm_nonneg
          (glK eigh a.empCov (st J).rho ((glwNext eigh a)^[i + 1] (st J)).Z ((glwNext eigh a)^[i + 1] (st J)).U)))
      · rw [le_div_iff₀ hrJ] at h2
        rw [froNorm_eq_sqrt]
        have h3 : (st J).rho * Real.sqrt (frobSq (((glwNext eigh a)^[i + 1 + 1] (st J)).Z
            - ((glwNext eigh a)^[i + 1] (st J)).Z)) ≤ c * a.tol := by linarith
        refine h3.trans (le_add_of_nonneg_right ?_)
        exact mul_nonneg (mul_nonneg hrtol hrJ.le) (froNorm_nonneg _)
    refine ⟨J + i + 2, fun m hm rh rn => ?_⟩
    obtain ⟨C, h, it, hcall⟩ := glwCall_shape eigh a Z0 rho (m := m) (by omega) rh rn
    rw [runLoop_broke _ _ hstop (by omega)] at hcall
    exact ⟨_, C, h, it, hcall⟩
  · obtain ⟨J, hJ⟩ := hset hch
    obtain ⟨-, -, -, hZ⟩ := (glwRunFrom he a hSs hW hX (st J) (hf J)).converges
    obtain ⟨N, hN⟩ := eventually_atTop.mp (closeMat_eventually (hZ 0) hε)
    refine ⟨J + N + 1, fun m hm rh rn => ?_⟩
    obtain ⟨C, h, it, hcall⟩ := glwCall_shape eigh a Z0 rho (m := m) (by omega) rh rn
    refine ⟨_, C, h, it, _, hcall, ?_⟩
    refine runLoop_property (glwBody eigh a) (glInit Z0 rho) (Q := fun s => CloseMat ε s.Z X) (M := J + N)
      (fun j hj => ?_) (fun j hj => ?_) (by omega)
    · obtain ⟨i, rfl⟩ : ∃ i, j = J + i := ⟨j - J, by omega⟩
      change CloseMat ε (st (J + i)).Z X
      rw [hJ i]
      exact hN i (by omega)
    · -- a stop with tolerance zero happens at the optimum only
      change (glwBody eigh a j (st j)).2.2 = true at hj
      have hnx : (stateAt (glwBody eigh a) (glInit Z0 rho) (j + 1)).Z = nextZw eigh a (st j) := by
        change (glwBody eigh a j (st j)).1.Z = _
        unfold glwBody; simp only [hor, glKhat_one]; split <;> rfl
      rw [hnx]
      unfold glwBody at hj
      simp only [decide_eq_true_eq, hor, glKhat_one, htol, hrtol, mul_zero, zero_mul, add_zero] at hj
      obtain ⟨h1, h2⟩ := hj
      have z1 := sub_eq_zero.mp (froNorm_eq_zero' (le_antisymm h1 (froNorm_nonneg _)))
      have z2 := sub_eq_zero.mp (froNorm_eq_zero'
        (le_antisymm (nonpos_of_mul_nonpos_right h2 (hf j)) (froNorm_nonneg _)))
      cases j with
      | zero =>
        exfalso
        have hpd := glK_posDef he hSs (hf 0) (st 0).Z (st 0).U
        rw [z1, z2] at hpd
        have hz : (st 0).Zold = 0 := rfl
        rw [hz] at hpd
        exact absurd hpd.det_pos (by simp)
      | succ j =>
        rw [hold j] at z2
        have hK := (glwRunFrom he a hSs hW hX (st (j + 1)) (hf (j + 1))).exact (j := 0) (fun i => z1) fun i => z2
        have hK0 : glK eigh a.empCov (st (j + 1)).rho (st (j + 1)).Z (st (j + 1)).U = X := congrFun hK 0
        have hZX : nextZw eigh a (st (j + 1)) = X := z1.symm.trans hK0
        rw [hZX]
        intro i l
        rw [sub_self, abs_zero]
        exact hε.le

/-! ### The graph-constrained fit -/

variable {p : ℕ}

theorem gwAlpha_good (G : Fin p → Fin p → Bool) : GoodWeights (gwAlpha G) := by
  refine ⟨fun i j => ?_, fun i j w hw => ?_⟩
  · unfold gwAlpha; rw [Bool.or_comm]
  · unfold gwAlpha at hw
    split at hw
    · exact (Option.some.inj hw).le
    · cases hw

theorem gwAlpha_pen (G : Fin p → Fin p → Bool) (K : Matrix (Fin p) (Fin p) ℝ) : weightPen (gwAlpha G) K = 0 := by
  unfold weightPen
  refine Finset.sum_eq_zero fun i _ => Finset.sum_eq_zero fun j _ => ?_
  split
  · rfl
  · unfold gwAlpha
    split <;> simp

theorem gwAlpha_none {G : Fin p → Fin p → Bool} {i j : Fin p} :
    gwAlpha G i j = none ↔ G i j = false ∧ G j i = false := by
  unfold gwAlpha
  cases G i j <;> cases G j i <;> simp

/-- The maximum likelihood precision of a graph: positive definite, zero where there is no edge, and strictly better than
every other such matrix for the covariance `C`. -/
def IsGraphMLE (G : Fin p → Fin p → Bool) (C X : Matrix (Fin p) (Fin p) ℝ) : Prop :=
  X.PosDef ∧ (∀ i j, i ≠ j → G i j = false → G j i = false → X i j = 0) ∧
    ∀ Y : Matrix (Fin p) (Fin p) ℝ, Y.PosDef → (∀ i j, i ≠ j → G i j = false → G j i = false → Y i j = 0) → Y ≠ X →
      -Real.log X.det + trace (C * X) < -Real.log Y.det + trace (C * Y)

theorem graphMLE_of_unique {G : Fin p → Fin p → Bool} {C X : Matrix (Fin p) (Fin p) ℝ}
    (h : UniqueMin (WeightDom (gwAlpha G)) (weightObjective C (gwAlpha G)) X) : IsGraphMLE G C X := by
  refine ⟨h.1.1, fun i j hij h1 h2 => h.1.2 i j hij (gwAlpha_none.mpr ⟨h1, h2⟩), fun Y hY hYp hne => ?_⟩
  have h1 := h.2 Y ⟨hY, fun i j hij hw => hYp i j hij (gwAlpha_none.mp hw).1 (gwAlpha_none.mp hw).2⟩ hne
  unfold weightObjective at h1
  rw [gwAlpha_pen, gwAlpha_pen] at h1
  linarith

/-- C200 (what a maximum likelihood precision of a graph is): its inverse agrees with the covariance on the edges and
the diagonal, and no other positive definite matrix on the graph has that property. -/
theorem C200_matches {G : Fin p → Fin p → Bool} {C X : Matrix (Fin p) (Fin p) ℝ} (hC : C.IsSymm)
    (hX : X.PosDef) (hXp : ∀ i j, i ≠ j → G i j = false → G j i = false → X i j = 0) :
    IsGraphMLE G C X ↔ ∀ i j, (i = j ∨ G i j = true ∨ G j i = true) → X⁻¹ i j = C i j := by
  constructor
  · intro h i j hij
    have hmin : IsMin (WeightDom (gwAlpha G)) (weightObjective C (gwAlpha G)) X := by
      refine ⟨⟨hX, fun i j hij hw => hXp i j hij (gwAlpha_none.mp hw).1 (gwAlpha_none.mp hw).2⟩, fun Y hY => ?_⟩
      by_cases hne : Y = X
      · rw [hne]
      · have := h.2.2 Y hY.1 (fun i j hij h1 h2 => hY.2 i j hij (gwAlpha_none.mpr ⟨h1, h2⟩)) hne
        unfold weightObjective
        rw [gwAlpha_pen, gwAlpha_pen]
        linarith
    have key : ∀ s : ℝ, s * (X⁻¹ - C) i j ≤ 0 := by
      intro s
      have hp : OnPattern (gwAlpha G) (X + Matrix.single i j s) := by
        refine hmin.1.2.add fun a b hab hw => ?_
        rw [Matrix.single_apply]
        split
        · rename_i heq
          obtain ⟨rfl, rfl⟩ := heq
          have hw' := gwAlpha_none.mp hw
          rcases hij with h1 | h1 | h1
          · exact absurd h1 hab
          · rw [hw'.1] at h1; cases h1
          · rw [hw'.2] at h1; cases h1
        · rfl
      have h1 := weight_subgrad (gwAlpha_good G) hC hmin _ hp
      rw [gwAlpha_pen, gwAlpha_pen, add_sub_cancel_left, zero_add] at h1
      have e : frobInner (X⁻¹ - C) (Matrix.single i j s) = s * (X⁻¹ - C) i j := by
        unfold frobInner
        rw [Finset.sum_eq_single i, Finset.sum_eq_single j]
        · rw [Matrix.single_apply_same, mul_comm]
        · intro b _ hb
          rw [Matrix.single_apply, if_neg (fun h => hb h.2.symm), mul_zero]
        · simp
        · intro b _ hb
          refine Finset.sum_eq_zero fun c _ => ?_
          rw [Matrix.single_apply, if_neg (fun h => hb h.1.symm), mul_zero]
        · simp
      rwa [e] at h1
    have h1 := key 1
    have h2 := key (-1)
    rw [Matrix.sub_apply] at h1 h2
    linarith
  · intro hm
    refine ⟨hX, hXp, fun Y hY hYp hne => ?_⟩
    have h1 := log_det_lt hY hX hne
    have h2 : frobInner (X⁻¹ - C) (Y - X) = 0 := by
      unfold frobInner
      refine Finset.sum_eq_zero fun i _ => Finset.sum_eq_zero fun j _ => ?_
      by_cases hij : i = j ∨ G i j = true ∨ G j i = true
      · rw [Matrix.sub_apply, hm i j hij, sub_self, zero_mul]
      · push Not at hij
        have g1 : G i j = false := by simpa using hij.2.1
        have g2 : G j i = false := by simpa using hij.2.2
        rw [Matrix.sub_apply Y, hYp i j hij.1 g1 g2, hXp i j hij.1 g1 g2, sub_zero, mul_zero]
    rw [frobInner_sub_left, frobInner_sub_right C] at h2
    rw [← frobInner_eq_trace_of_symm hC, ← frobInner_eq_trace_of_symm hC]
    linarith

/-- C200 (graph-constrained fit): for a positive definite covariance `C` and every graph, `GWishartFit` in the mode that
uses the graphical lasso returns matrices that are exactly zero off the graph, and with tolerances zero they converge to
the maximum likelihood precision of the graph, unless the penalty parameter changes infinitely often. -/
theorem C200_graph_fit [NeZero p] {eigh : Eigh (Fin p)} (he : IsEighOracle eigh) {C : Matrix (Fin p) (Fin p) ℝ}
    (hC : C.PosDef) (G : Fin p → Fin p → Bool) (Z0 : Matrix (Fin p) (Fin p) ℝ) :
    (∀ tol rtol m, 1 ≤ m → ∃ Z S h it w, gwFitGL eigh C G tol rtol m Z0 = .ok Z S h it w ∧
      ∀ i j, i ≠ j → G i j = false → G j i = false → Z i j = 0) ∧
    ∃ X, IsGraphMLE G C X ∧
      (ChangesForever (glwPenalty eigh { empCov := C, alpha := gwAlpha G, tol := 0, rtol := 0 } Z0 1) ∨
        ∀ ε, 0 < ε → ∃ M, ∀ m, M ≤ m → ∃ Z S h it w,
          gwFitGL eigh C G 0 0 m Z0 = .ok Z S h it w ∧ CloseMat ε Z X) := by
  constructor
  · intro tol rtol m hm
    obtain ⟨Z, S, h, it, w, hc, hp⟩ := C200_pattern eigh
      { empCov := C, alpha := gwAlpha G, tol := tol, rtol := rtol } Z0 1 hm false true
    exact ⟨Z, S, h, it, w, hc, fun i j hij h1 h2 => hp i j hij (gwAlpha_none.mpr ⟨h1, h2⟩)⟩
  · obtain ⟨X, hX, -, hlim⟩ := C200_converges he
      { empCov := C, alpha := gwAlpha G, tol := 0, rtol := 0 } hC (gwAlpha_good G) rfl (by norm_num) (by norm_num)
      Z0 one_pos
    refine ⟨X, graphMLE_of_unique hX, ?_⟩
    rcases hlim rfl rfl with h | h
    · exact Or.inl h
    · refine Or.inr fun ε hε => ?_
      obtain ⟨M, hM⟩ := h ε hε
      exact ⟨M, fun m hm => hM m hm false true⟩

/-- C200 (both modes agree): where the `covsel` mode ends at a positive definite point with zero gradient, that point is
the limit of the other mode. -/
theorem C200_modes_agree {G : Fin p → Fin p → Bool} (hG : UpperMask G) {C x X : Matrix (Fin p) (Fin p) ℝ}
    (hC : C.IsSymm) (hx : (fillUpper G x).PosDef) (hg : ∀ i j, G i j = true → covselGrad G C x i j = 0)
    (hX : IsGraphMLE G C X) : fillUpper G x = X := by
  have hm := (grad_zero_iff hG hC).mp hg
  have hon := fillUpper_onGraph hG x
  have hp : ∀ i j, i ≠ j → G i j = false → G j i = false → fillUpper G x i j = 0 := by
    intro i j _ h1 h2
    rcases le_total i j with h | h
    · exact hon.2 i j h h1
    · rw [← hon.1.apply]; exact hon.2 j i h h2
  have hs : ((fillUpper G x)⁻¹).IsSymm := hx.inv.isSymm'
  have hM : IsGraphMLE G C (fillUpper G x) := by
    rw [C200_matches hC hx hp]
    rintro i j (rfl | h | h)
    · exact hm i i (hG.2 i)
    · exact hm i j h
    · rw [← hs.apply, hm j i h, hC.apply]
  by_contra hne
  exact absurd (hX.2.2 _ hM.1 hM.2.1 hne) (not_lt.mpr (hM.2.2 _ hX.1 hX.2.1 (Ne.symm hne)).le)

/-- Non-vacuity: two variables, the graph without edges and a covariance with a positive correlation; penalties with an
infinite, a zero and a positive entry. -/
example : ∃ (eigh : Eigh (Fin 2)) (C : Matrix (Fin 2) (Fin 2) ℝ), IsEighOracle eigh ∧ C.PosDef ∧ C 0 1 ≠ 0 := by
  obtain ⟨eigh, he⟩ := exists_eighOracle (n := Fin 2)
  refine ⟨eigh, (2 : ℝ) • 1 + Matrix.of fun _ _ => (1 : ℝ), he, ?_, by simp⟩
  refine (PosDef.one.smul (by norm_num)).add_posSemidef ?_
  rw [posSemidef_iff_dotProduct_mulVec]
  refine ⟨by ext i j; simp, fun x => ?_⟩
  simp only [dotProduct, mulVec, Fin.sum_univ_two, star_trivial, Matrix.of_apply]
  nlinarith [sq_nonneg (x 0 + x 1)]

example : ∃ W : Weights (Fin 3), GoodWeights W ∧ W 0 1 = none ∧ W 1 2 = some 0 ∧ W 0 2 = some 1 := by
  refine ⟨fun i j => if i.1 + j.1 = 1 then none else if i.1 + j.1 = 2 then some 1 else some 0, ⟨fun i j => ?_,
    fun i j w hw => ?_⟩, by decide, rfl, rfl⟩
  · fin_cases i <;> fin_cases j <;> rfl
  · split at hw
    · cases hw
    · split at hw <;> · exact (Option.some.inj hw) ▸ (by norm_num)

end Verif.Props
