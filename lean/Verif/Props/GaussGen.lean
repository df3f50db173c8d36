import Verif.Props.GaussCov
import Mathlib.LinearAlgebra.Matrix.SchurComplement
import Mathlib.Analysis.Matrix.Order

/-! Property theorems C108 (make_sin), C109 (make_sin_cos), C110 (make_fede) and C111 (make_ma_xue_zou). -/

namespace Verif.Props

open Verif.Model Verif.Lemmas Matrix

set_option autoImplicit false
set_option linter.unusedSectionVars false

variable {p : ℕ}

/-! ### C108 -/

theorem squareForm_isSymm (v : Fin p → Fin p → ℝ) : (squareForm v).IsSymm := by
  ext i j
  simp only [transpose_apply, squareForm, of_apply]
  rcases lt_trichotomy i j with h | h | h
  · rw [if_neg h.not_gt, if_pos h, if_pos h]
  · subst h; rfl
  · rw [if_pos h, if_neg h.not_gt, if_pos h]

theorem ensurePosdef2d_spec {X : Matrix (Fin p) (Fin p) ℝ} (hX : X.IsSymm) :
    (ensurePosdef2d X).PosDef ∧ (ensurePosdef2d X).IsSymm ∧ ∀ i j, i ≠ j → ensurePosdef2d X i j = X i j := by
  obtain ⟨Y, h1, h2, h3, h4, _⟩ := C31_ensure_posdef X hX
  have : Y = ensurePosdef2d X := by
    have h : InPlace.done (ensurePosdef2d X) = InPlace.done Y := h1
    injection h with h
    exact h.symm
  subst this
  exact ⟨h2, h3, h4⟩

/-- C108: for every choice of the curves, every returned matrix is symmetric positive definite, its entries
above the diagonal are the positive parts of the curves; the observed precisions are the precisions and the
latent matrices are zero. -/
theorem C108_valid_partial (normalize : Bool) (y : List (Fin p → Fin p → ℝ)) :
    (makeSin normalize y).2.1 = (makeSin normalize y).1 ∧
    (makeSin normalize y).2.2 = List.replicate y.length 0 ∧
    (makeSin normalize y).1.length = y.length ∧
    ∀ (k : ℕ) (v : Fin p → Fin p → ℝ), y[k]? = some v → ∃ th, (makeSin normalize y).1[k]? = some th ∧
      th.PosDef ∧ th.IsSymm ∧ ∀ i j, i < j → th i j = max (v i j) 0 := by
  refine ⟨rfl, ?_, by simp [makeSin], fun k v hv => ?_⟩
  · simp [makeSin, List.map_const', List.map_map, Function.comp_def]
  · have hs := squareForm_isSymm fun i j => max (v i j) 0
    obtain ⟨h1, h2, h3⟩ := ensurePosdef2d_spec (hs.add (isSymm_diagonal fun i =>
      ∑ j, squareForm (fun i j => max (v i j) 0) i j))
    refine ⟨_, by simp only [makeSin, List.getElem?_map, hv, Option.map_some], h1, h2, fun i j hij => ?_⟩
    rw [h3 i j hij.ne, Matrix.add_apply, diagonal_apply_ne _ hij.ne, add_zero]
    simp only [squareForm, of_apply, if_pos hij]

/-- Non-vacuity for C108: two variables, two times, a positive and a negative value of the curve. -/
example : ∃ a b, (makeSin (p := 2) false [fun _ _ => 0.5, fun _ _ => -0.5]).1 = [a, b] ∧ a 0 1 = 0.5 ∧ b 0 1 = 0 := by
  obtain ⟨_, _, _, h⟩ := C108_valid_partial (p := 2) false [fun _ _ => 0.5, fun _ _ => -0.5]
  obtain ⟨a, ha, _, _, ha'⟩ := h 0 _ rfl
  obtain ⟨b, hb, _, _, hb'⟩ := h 1 _ rfl
  refine ⟨_, _, rfl, ?_, ?_⟩
  · have : _ = a := Option.some.inj ha
    rw [this, ha' 0 1 (by decide)]
    norm_num
  · have : _ = b := Option.some.inj hb
    rw [this, hb' 0 1 (by decide)]
    norm_num

/-- C108, the option `normalize` is false as documented: with `normalize=True`, two variables and the curve equal
to 1, the returned precision has 1.1 on the diagonal, not 1. -/
theorem C108_normalize_false : ∃ th, (makeSin (p := 2) true [fun _ _ => 1]).1 = [th] ∧ th 0 0 ≠ 1 := by
  refine ⟨ensurePosdef2d (squareForm (fun i j => max ((fun _ _ => 1 : Fin 2 → Fin 2 → ℝ) i j) 0) +
      diagonal fun i => ∑ j, squareForm (fun i j => max ((fun _ _ => 1 : Fin 2 → Fin 2 → ℝ) i j) 0) i j), rfl, ?_⟩
  have e : (squareForm (fun i j => max ((fun _ _ => 1 : Fin 2 → Fin 2 → ℝ) i j) 0) +
      diagonal fun i => ∑ j, squareForm (fun i j => max ((fun _ _ => 1 : Fin 2 → Fin 2 → ℝ) i j) 0) i j) =
      !![1, 1; 1, 1] := by
    ext i j
    fin_cases i <;> fin_cases j <;> simp [squareForm, Fin.sum_univ_two]
  rw [e]
  have hn : ¬ isPosDef (!![1, 1; 1, 1] : Matrix (Fin 2) (Fin 2) ℝ) = true := by
    rw [isPosDef_iff]
    intro hp
    have := hp.dotProduct_mulVec_pos (x := ![1, -1]) (by intro h0; simpa using congrFun h0 0)
    simp [mulVec, dotProduct, Fin.sum_univ_two] at this
  unfold ensurePosdef2d
  rw [if_neg hn]
  norm_num [fillDiagonal, Fin.sum_univ_two]

/-- C108: the option `normalize` has no effect at all. -/
theorem C108_normalize_ignored_false (y : List (Fin p → Fin p → ℝ)) : makeSin true y = makeSin false y := rfl

/-! ### C109 -/

theorem sinCosTheta_isSymm {T eps x : ℝ} {phase : Matrix (Fin p) (Fin p) ℝ} (hph : phase.IsSymm)
    {clip : Fin p → Fin p → Bool} (hc : ∀ i j, clip i j = clip j i) : (sinCosTheta T eps x phase clip).IsSymm := by
  ext i j
  have h : phase j i = phase i j := hph.apply i j
  by_cases e : i = j
  · subst e; rfl
  · simp only [transpose_apply, sinCosTheta, of_apply, h, hc j i, if_neg e, if_neg (Ne.symm e)]

theorem sinCosLoop_spec (theta : ℝ → Matrix (Fin p) (Fin p) ℝ) (L : Matrix (Fin p) (Fin p) ℝ) :
    ∀ (times : List ℝ) (obs : Option (List (Matrix (Fin p) (Fin p) ℝ))) (acc : List (Matrix (Fin p) (Fin p) ℝ))
      (r : List (Matrix (Fin p) (Fin p) ℝ) × List (Matrix (Fin p) (Fin p) ℝ)),
      sinCosLoop theta L times obs acc = .ok r →
        r.1 = acc ++ times.map theta ∧ (∀ x ∈ times, (theta x).PosDef ∧ (theta x - L).PosDef) ∧
        (∀ x ∈ times.getLast?, r.2 = [theta x - L]) ∧ (times = [] → obs = some r.2) := by
  intro times
  induction times with
  | nil =>
    intro obs acc r h
    cases obs with
    | none => simp [sinCosLoop] at h
    | some o =>
      have h' : (acc, o) = r := by simpa [sinCosLoop] using h
      subst h'
      simp
  | cons x xs ih =>
    intro obs acc r h
    by_cases h1 : isPosDef (theta x) = true
    · by_cases h2 : isPosDef (theta x - L) = true
      · rw [sinCosLoop, if_pos h1, if_pos h2] at h
        obtain ⟨i1, i2, i3, i4⟩ := ih _ _ _ h
        refine ⟨by simp [i1], ?_, ?_, by simp⟩
        · intro y hy
          rcases List.mem_cons.mp hy with rfl | hy
          · exact ⟨(isPosDef_iff _).mp h1, (isPosDef_iff _).mp h2⟩
          · exact i2 y hy
        · cases xs with
          | nil =>
            intro y hy
            have hy : x = y := by simpa using hy
            subst hy
            have := i4 rfl
            exact (Option.some.inj this).symm
          | cons z zs =>
            intro y hy
            exact i3 y (by simpa using hy)
      · rw [sinCosLoop, if_pos h1, if_neg h2] at h
        cases h
    · rw [sinCosLoop, if_neg h1] at h
      cases h

/-- C109: whenever the call returns, for every draw: one precision per time, each symmetric, positive definite
with unit diagonal, and each stays positive definite after the latent part is removed; entries are between -1
and 1, those of clipped pairs are not negative, and none is smaller than `eps` in absolute value without being
zero; the latent matrix is repeated for every time. -/
theorem C109_valid_partial {eps : ℝ} (heps : eps ≤ 1) (raw : Matrix (Fin p) (Fin p) ℝ) (upper : Fin p → Fin p → Bool)
    (L : Matrix (Fin p) (Fin p) ℝ) (times : List ℝ)
    (r : List (Matrix (Fin p) (Fin p) ℝ) × List (Matrix (Fin p) (Fin p) ℝ) × List (Matrix (Fin p) (Fin p) ℝ))
    (h : makeSinCos eps raw upper L times = .ok r) :
    r.1.length = times.length ∧ r.2.2 = List.replicate times.length L ∧
    (∀ th ∈ r.1, th.IsSymm ∧ th.PosDef ∧ (th - L).PosDef ∧ (∀ i, th i i = 1) ∧
      ∀ i j, |th i j| ≤ 1 ∧ (th i j = 0 ∨ eps ≤ |th i j|) ∧ (i < j → upper i j = true → 0 ≤ th i j)) ∧
    ∀ o ∈ r.2.1, ∃ th, r.1.getLast? = some th ∧ o = th - L := by
  unfold makeSinCos at h
  extract_lets clip at h
  cases hl : sinCosLoop (fun x => sinCosTheta times.length eps x (mirrorUpper raw) clip) L times none [] with
  | error e => rw [hl] at h; cases h
  | ok q =>
    rw [hl] at h
    have h' : (q.1, q.2, times.map fun _ => L) = r := by injection h
    subst h'
    obtain ⟨h1, h2, h3, h4⟩ := sinCosLoop_spec _ _ _ _ _ _ hl
    have hc : ∀ i j, clip i j = clip j i := by
      intro i j
      rcases lt_trichotomy i j with h | h | h
      · simp only [clip, if_pos h, if_neg h.not_gt]
      · subst h; rfl
      · simp only [clip, if_pos h, if_neg h.not_gt]
    refine ⟨by simp [h1], by simp, ?_, ?_⟩
    · intro th hth
      simp only [h1, List.nil_append, List.mem_map] at hth
      obtain ⟨x, hx, rfl⟩ := hth
      refine ⟨sinCosTheta_isSymm (mirrorUpper_isSymm _) hc, (h2 x hx).1, (h2 x hx).2, fun i => ?_, fun i j => ?_⟩
      · have hci : clip i i = false := by simp [clip]
        have : ¬ |(1 : ℝ)| < eps := by rw [abs_one]; exact not_lt.mpr heps
        simp [sinCosTheta, hci, heps]
      · simp only [sinCosTheta, of_apply]
        set v := (if i = j then 1 else if clip i j then Real.sin ((x + mirrorUpper raw i j) / times.length ^ 2)
          else Real.sin (x + mirrorUpper raw i j)) with hv
        have hv1 : |v| ≤ 1 := by
          rw [hv]
          split
          · rw [abs_one]
          · split
            · exact Real.abs_sin_le_one _
            · exact Real.abs_sin_le_one _
        set w := (if clip i j then max 0 (min v 1) else v) with hw
        have hw1 : |w| ≤ 1 := by
          rw [hw]
          split
          · rw [abs_of_nonneg (le_max_left _ _)]
            exact max_le zero_le_one (min_le_right _ _)
          · exact hv1
        refine ⟨?_, ?_, fun hij hu => ?_⟩
        · split
          · rw [abs_zero]; exact zero_le_one
          · exact hw1
        · split
          · exact Or.inl rfl
          · rename_i hge
            exact Or.inr (not_lt.mp hge)
        · have hcl : clip i j = true := by simp only [clip, if_pos hij, hu]
          split
          · exact le_rfl
          · rw [hw, if_pos hcl]; exact le_max_left _ _
    · intro o ho
      cases hg : times.getLast? with
      | none =>
        have : times = [] := by simpa using hg
        have := h4 this
        cases this
      | some x =>
        have ho' := h3 x (by rw [hg]; rfl)
        rw [ho', List.mem_singleton] at ho
        refine ⟨_, ?_, ho⟩
        simp [h1, hg]

theorem sinCos_one (eps : ℝ) (h : eps ≤ 1) (T x : ℝ) (phase : Matrix (Fin 1) (Fin 1) ℝ) (clip : Fin 1 → Fin 1 → Bool)
    (hc : clip 0 0 = false) : sinCosTheta T eps x phase clip = 1 := by
  ext i j
  fin_cases i; fin_cases j
  simp [sinCosTheta, hc, h]

/-- C109 is false for the observed precisions: with one variable and no latent variable the call with two times
succeeds, returns two precisions, and a single observed precision (that of the last time). -/
theorem C109_observed_false (raw : Matrix (Fin 1) (Fin 1) ℝ) (upper : Fin 1 → Fin 1 → Bool) :
    ∃ r, makeSinCos 0.01 raw upper 0 [0, 2 * Real.pi] = .ok r ∧ r.1.length = 2 ∧ r.2.1.length = 1 := by
  have hp : isPosDef (1 : Matrix (Fin 1) (Fin 1) ℝ) = true := (isPosDef_iff _).mpr PosDef.one
  refine ⟨([1, 1], [1], [0, 0]), ?_, rfl, rfl⟩
  have e : ∀ (T x : ℝ) (clip : Fin 1 → Fin 1 → Bool) (_ : clip 0 0 = false),
      sinCosTheta T 0.01 x (mirrorUpper raw) clip = 1 := fun T x clip hc =>
    sinCos_one _ (by norm_num) _ _ _ _ hc
  unfold makeSinCos
  extract_lets clip
  have hc : clip 0 0 = false := by simp [clip]
  simp only [sinCosLoop, e _ _ clip hc, hp, if_true, sub_zero]
  rfl

/-- C109: whatever the draws, a call that returns gives exactly one observed precision, however many times were
asked for; with `T = 0` the call raises NameError. -/
theorem C109_observed_count_false (eps : ℝ) (raw : Matrix (Fin p) (Fin p) ℝ) (upper : Fin p → Fin p → Bool)
    (L : Matrix (Fin p) (Fin p) ℝ) (times : List ℝ) :
    (∀ r, makeSinCos eps raw upper L times = .ok r → r.2.1.length = 1) ∧
    (times = [] → makeSinCos eps raw upper L times = .error .name) := by
  constructor
  · intro r h
    unfold makeSinCos at h
    extract_lets clip at h
    cases hl : sinCosLoop (fun x => sinCosTheta times.length eps x (mirrorUpper raw) clip) L times none [] with
    | error e => rw [hl] at h; cases h
    | ok q =>
      rw [hl] at h
      have h' : (q.1, q.2, times.map fun _ => L) = r := by injection h
      subst h'
      obtain ⟨_, _, h3, h4⟩ := sinCosLoop_spec _ _ _ _ _ _ hl
      cases hg : times.getLast? with
      | none =>
        have : times = [] := by simpa using hg
        have := h4 this
        cases this
      | some x => rw [h3 x (by rw [hg]; rfl)]; rfl
  · rintro rfl
    rfl

/-! ### C110 -/

/-- Samples of `np.random.rand`. -/
def UnitDraw (u : Fin p → ℝ) : Prop := ∀ i, 0 ≤ u i ∧ u i < 1

/-- Samples of `np.random.rand` at some of the positions. -/
def UnitDraw? (w : Fin p → Option ℝ) : Prop := ∀ i v, w i = some v → 0 ≤ v ∧ v < 1

theorem recompose_const {m : Type*} [Fintype m] [DecidableEq m] {Q : Matrix m m ℝ} (hQ : Q * Qᵀ = 1) (c : ℝ) :
    recompose Q (fun _ => c) = c • (1 : Matrix m m ℝ) := by
  have := recompose_smul Q c fun _ => 1
  rw [recompose_one hQ] at this
  rw [this]
  congr 1
  ext i
  simp

theorem recompose_three (Q : Matrix (Fin 3) (Fin 3) ℝ) (a : Fin 3 → ℝ) (i j : Fin 3) :
    recompose Q a i j = Q i 0 * a 0 * Q j 0 + Q i 1 * a 1 * Q j 1 + Q i 2 * a 2 * Q j 2 := by
  rw [recompose_eq, Matrix.mul_apply]
  simp [mul_diagonal, Fin.sum_univ_three]

theorem fedeMats_spec (epsilon : ℝ) {Q R : Matrix (Fin p) (Fin p) ℝ} (hQ : Q * Qᵀ = 1) (hR : R * Rᵀ = 1)
    {sigma lamda : Fin p → ℝ} {c : ℝ} (hs : ∀ i, c ≤ sigma i) (hl0 : ∀ i, 0 ≤ lamda i) (hl : ∀ i, lamda i < c) :
    (fedeMats epsilon Q R sigma lamda).1.IsSymm ∧
    (fedeMats epsilon Q R sigma lamda).2.1 = (fedeMats epsilon Q R sigma lamda).1 - (fedeMats epsilon Q R sigma lamda).2.2 ∧
    (fedeMats epsilon Q R sigma lamda).2.2.PosSemidef ∧
    (epsilon ≤ 0 → (fedeMats epsilon Q R sigma lamda).2.1.PosDef) ∧
    ∀ i j, |(fedeMats epsilon Q R sigma lamda).1 i j| < epsilon → (fedeMats epsilon Q R sigma lamda).1 i j = 0 := by
  refine ⟨?_, rfl, recompose_posSemidef R hl0, fun he => ?_, fun i j hij => ?_⟩
  · ext i j
    have : recompose Q sigma j i = recompose Q sigma i j := (recompose_isSymm Q sigma).apply i j
    simp only [fedeMats, transpose_apply, of_apply, this]
  · have e : (fedeMats epsilon Q R sigma lamda).2.1 =
        recompose Q (fun i => sigma i - c) + recompose R (fun i => c - lamda i) := by
      have e1 : (Matrix.of fun i j => if |recompose Q sigma i j| < epsilon then 0 else recompose Q sigma i j) =
          recompose Q sigma := by
        ext i j
        exact if_neg (not_lt.mpr (he.trans (abs_nonneg _)))
      have e2 := recompose_const hQ c
      have e3 := recompose_const hR c
      have e4 := recompose_sub Q sigma fun _ => c
      have e5 := recompose_sub R (fun _ => c) lamda
      simp only [fedeMats, e1]
      have e4' : recompose Q (fun i => sigma i - c) = recompose Q sigma - c • 1 := by rw [← e2]; exact e4.symm
      have e5' : recompose R (fun i => c - lamda i) = c • 1 - recompose R lamda := by rw [← e3]; exact e5.symm
      rw [e4', e5']
      abel
    rw [e]
    exact PosDef.posSemidef_add (recompose_posSemidef Q fun i => sub_nonneg.mpr (hs i))
      (recompose_posDef hR fun i => sub_pos.mpr (hl i))
  · simp only [fedeMats, of_apply] at hij ⊢
    by_cases h : |recompose Q sigma i j| < epsilon
    · rw [if_pos h]
    · rw [if_neg h] at hij
      exact absurd hij h

theorem fedeLoop_spec (epsilon : ℝ) {Q R : Matrix (Fin p) (Fin p) ℝ} (hQ : Q * Qᵀ = 1) (hR : R * Rᵀ = 1) :
    ∀ (steps : List ((Fin p → ℝ) × (Fin p → Option ℝ))) (sigma lamda : Fin p → ℝ) (c : ℝ),
      0 < c → (∀ d ∈ steps, UnitDraw d.1 ∧ UnitDraw? d.2) →
      (∀ i, c ≤ sigma i) → (∀ i, 0 ≤ lamda i) → (∀ i, lamda i < c) →
      (fedeLoop epsilon Q R sigma lamda steps).length = steps.length ∧
      ∀ r ∈ fedeLoop epsilon Q R sigma lamda steps, r.1.IsSymm ∧ r.2.1 = r.1 - r.2.2 ∧ r.2.2.PosSemidef ∧
        (epsilon ≤ 0 → r.2.1.PosDef) ∧ ∀ i j, |r.1 i j| < epsilon → r.1 i j = 0 := by
  intro steps
  induction steps with
  | nil => intro _ _ _ _ _ _ _ _; simp [fedeLoop]
  | cons d rest ih =>
    intro sigma lamda c hc hd hs hl0 hl
    obtain ⟨hu, hw⟩ := hd d (List.mem_cons_self ..)
    obtain ⟨i1, i2⟩ := ih (fedeNext sigma lamda d.1 d.2).1 (fedeNext sigma lamda d.1 d.2).2 (c + 1) (by linarith)
      (fun e he => hd e (List.mem_cons_of_mem _ he))
      (fun i => by have := hs i; have := (hu i).1; simp only [fedeNext]; linarith)
      (fun i => by simp only [fedeNext]; exact le_max_right _ _)
      (fun i => by
        simp only [fedeNext]
        refine max_lt ?_ (by linarith)
        cases hwi : d.2 i with
        | none => have := hl i; simp only; linarith
        | some v => have := hl i; have := (hw i v hwi).2; simp only; linarith)
    refine ⟨by simp [fedeLoop, i1], fun r hr => ?_⟩
    rcases List.mem_cons.mp hr with rfl | hr
    · exact fedeMats_spec epsilon hQ hR hs hl0 hl
    · exact i2 r hr

/-- C110: for every draw and every number of times there is one triple per time; the observed precision is the
precision minus the latent part, the precision is symmetric and has no nonzero entry below `epsilon`, the
latent part is positive semidefinite; if the threshold does not act (`epsilon ≤ 0`) the observed precision is
positive definite. -/
theorem C110_valid_partial (epsilon : ℝ) {Q R : Matrix (Fin p) (Fin p) ℝ} (hQ : Q * Qᵀ = 1) (hR : R * Rᵀ = 1)
    {a : Fin p → ℝ} (ha : UnitDraw a) {b : Fin p → Option ℝ} (hb : UnitDraw? b)
    (steps : List ((Fin p → ℝ) × (Fin p → Option ℝ))) (hsteps : ∀ d ∈ steps, UnitDraw d.1 ∧ UnitDraw? d.2) :
    (makeFede epsilon Q R a b steps).length = steps.length ∧
    ∀ r ∈ makeFede epsilon Q R a b steps, r.1.IsSymm ∧ r.2.1 = r.1 - r.2.2 ∧ r.2.2.PosSemidef ∧
      (epsilon ≤ 0 → r.2.1.PosDef) ∧ ∀ i j, |r.1 i j| < epsilon → r.1 i j = 0 := by
  refine fedeLoop_spec epsilon hQ hR steps _ _ 1 one_pos hsteps (fun i => ?_) (fun i => ?_) fun i => ?_
  · have := (ha i).1; linarith
  · cases h : b i with
    | none => simp
    | some v => simpa using (hb i v h).1
  · cases h : b i with
    | none => simp
    | some v => simpa using (hb i v h).2

/-- The orthogonal factor of the precision in the witness for C110 (its last column is `(7, 4, 4) / 9`). -/
noncomputable def fedeQ : Matrix (Fin 3) (Fin 3) ℝ :=
  !![4 / 9, 4 / 9, 7 / 9; 1 / 9, -8 / 9, 4 / 9; -8 / 9, 1 / 9, 4 / 9]

/-- The orthogonal factor of the latent part in the witness for C110. -/
noncomputable def fedeR : Matrix (Fin 3) (Fin 3) ℝ :=
  !![1 / 3, 2 / 3, 2 / 3; -2 / 3, -1 / 3, 2 / 3; -2 / 3, 2 / 3, -1 / 3]

theorem fedeQ_orth : fedeQ * fedeQᵀ = 1 := by
  ext i j
  fin_cases i <;> fin_cases j <;> simp [fedeQ, Matrix.mul_apply, Fin.sum_univ_three] <;> norm_num

theorem fedeR_orth : fedeR * fedeRᵀ = 1 := by
  ext i j
  fin_cases i <;> fin_cases j <;> simp [fedeR, Matrix.mul_apply, Fin.sum_univ_three] <;> norm_num

/-- C110 is false for the default `epsilon=1e-3` and three variables: there are draws in range and orthogonal
factors for which the observed precision of the first time is not positive definite, because the entries
removed by the threshold were needed. -/
theorem C110_posdef_false : ∃ (a : Fin 3 → ℝ) (b : Fin 3 → Option ℝ), UnitDraw a ∧ UnitDraw? b ∧
    ∃ r, makeFede 0.001 fedeQ fedeR a b [(fun _ => 0, fun _ => none)] = [r] ∧ ¬ r.2.1.PosDef := by
  refine ⟨![0, 0, 0.004], ![some 0.9999, none, none], ?_, ?_, _, rfl, ?_⟩
  · intro i; fin_cases i <;> norm_num
  · intro i v h
    fin_cases i
    · have : 0.9999 = v := by simpa using h
      subst this; norm_num
    · simp at h
    · simp at h
  · intro hp
    have := hp.dotProduct_mulVec_pos (x := ![1, -2, -2])
      (by intro h0; have := congrFun h0 0; norm_num at this)
    revert this
    have e : ∀ i j, recompose fedeQ (fun i => (![0, 0, 0.004] : Fin 3 → ℝ) i + 1) i j =
        (!![1 + 0.004 * 49 / 81, 0.004 * 28 / 81, 0.004 * 28 / 81; 0.004 * 28 / 81, 1 + 0.004 * 16 / 81, 0.004 * 16 / 81;
          0.004 * 28 / 81, 0.004 * 16 / 81, 1 + 0.004 * 16 / 81] : Matrix (Fin 3) (Fin 3) ℝ) i j := by
      intro i j
      rw [recompose_three]
      fin_cases i <;> fin_cases j <;> simp [fedeQ] <;> norm_num
    have e2 : ∀ i j, recompose fedeR (fun i => ((![some 0.9999, none, none] : Fin 3 → Option ℝ) i).getD 0) i j =
        (0.9999 / 9 : ℝ) * (!![1, -2, -2; -2, 4, 4; -2, 4, 4] : Matrix (Fin 3) (Fin 3) ℝ) i j := by
      intro i j
      rw [recompose_three]
      fin_cases i <;> fin_cases j <;> simp [fedeR] <;> norm_num
    simp only [fedeMats, dotProduct, mulVec, Fin.sum_univ_three, Matrix.sub_apply, of_apply, e, e2]
    simp
    norm_num [abs_of_pos, abs_of_neg]

/-! ### C111 -/

/-- `lmin` returns the smallest eigenvalue of a symmetric matrix. -/
def IsMinEig {m : Type*} [Fintype m] [DecidableEq m] (lmin : Matrix m m ℝ → ℝ) : Prop :=
  ∀ C : Matrix m m ℝ, C.IsSymm → ∃ Q e, IsEigh C Q e ∧ ∀ i, lmin C ≤ e i

theorem mxzC_isSymm {po ph : ℕ} (W : Matrix (Fin po ⊕ Fin ph) (Fin po ⊕ Fin ph) ℝ) (G : Matrix (Fin po) (Fin ph) ℝ) :
    (mxzC W G).IsSymm := by
  ext i j
  by_cases h : i = j
  · subst h; rfl
  · simp only [mxzC, transpose_apply, of_apply, Matrix.sub_apply, Matrix.smul_apply, Matrix.add_apply,
      diagonal_apply_ne _ h, diagonal_apply_ne _ (Ne.symm h), sub_zero]
    congr 3
    ring

theorem mxzK_posDef {m : Type*} [Fintype m] [DecidableEq m] {lmin : ℝ} {C Q : Matrix m m ℝ} {e : m → ℝ}
    (h : IsEigh C Q e) (hl : ∀ i, lmin ≤ e i) : (mxzK lmin C).PosDef := by
  have e1 : mxzK lmin C = recompose Q fun i => e i + max (-1.2 * lmin) 0.001 := by
    have h2 := recompose_add Q e fun _ => max (-1.2 * lmin) 0.001
    have h4 := recompose_const h.orth (max (-1.2 * lmin) 0.001)
    rw [mxzK, ← h2, h4, ← h.eq_recompose]
  rw [e1]
  refine recompose_posDef h.orth fun i => ?_
  have := hl i
  rcases le_or_gt 0 lmin with h0 | h0
  · have := le_max_right (-1.2 * lmin) 0.001
    linarith
  · have := le_max_left (-1.2 * lmin) 0.001
    linarith

theorem toBlocks_symm {m l : Type*} {K : Matrix (m ⊕ l) (m ⊕ l) ℝ} (h : K.IsSymm) : K.toBlocks₁₂ = K.toBlocks₂₁ᵀ := by
  ext i j
  exact (h.apply _ _)

/-- The marginal precision of a positive definite matrix. -/
theorem marginalOf_spec {m l : Type*} [Fintype m] [Fintype l] [DecidableEq m] [DecidableEq l]
    {K : Matrix (m ⊕ l) (m ⊕ l) ℝ} (hK : K.PosDef) :
    (marginalOf K).1 = K.toBlocks₁₁ ∧ (marginalOf K).2.1 = (marginalOf K).1 - (marginalOf K).2.2 ∧
    (marginalOf K).2.1.PosDef ∧ (marginalOf K).2.2.PosSemidef ∧ K.toBlocks₂₂.PosDef ∧
    (K⁻¹).toBlocks₁₁ = (marginalOf K).2.1⁻¹ := by
  have hs := hK.isSymm'
  have hK2 : K.toBlocks₂₂.PosDef := hK.submatrix Sum.inr_injective
  have h12 := toBlocks_symm hs
  have h21 : K.toBlocks₂₁ = K.toBlocks₁₂ᴴ := by
    rw [h12, conjTranspose_eq_transpose_of_trivial, transpose_transpose]
  have : Invertible K.toBlocks₂₂ := invertibleOfIsUnitDet _ (isUnit_iff_ne_zero.mpr hK2.det_pos.ne')
  have hKb : K = fromBlocks K.toBlocks₁₁ K.toBlocks₁₂ K.toBlocks₂₁ K.toBlocks₂₂ := (fromBlocks_toBlocks K).symm
  have hS : (K.toBlocks₁₁ - K.toBlocks₁₂ * K.toBlocks₂₂⁻¹ * K.toBlocks₂₁).PosDef := by
    have h := hK.posSemidef
    rw [hKb, h21] at h
    have hd := hK.det_pos.ne'
    rw [hKb, det_fromBlocks₂₂, invOf_eq_nonsing_inv] at hd
    have hps : (K.toBlocks₁₁ - K.toBlocks₁₂ * K.toBlocks₂₂⁻¹ * K.toBlocks₂₁).PosSemidef := by
      rw [h21]
      exact (PosDef.fromBlocks₂₂ _ _ hK2).mp h
    exact hps.posDef_iff_det_ne_zero.mpr (right_ne_zero_of_mul hd)
  refine ⟨rfl, rfl, hS, ?_, hK2, ?_⟩
  · have : (marginalOf K).2.2 = K.toBlocks₁₂ * K.toBlocks₂₂⁻¹ * K.toBlocks₁₂ᴴ := by
      rw [← h21]; rfl
    rw [this]
    exact hK2.inv.posSemidef.mul_mul_conjTranspose_same _
  · have : Invertible (K.toBlocks₁₁ - K.toBlocks₁₂ * ⅟K.toBlocks₂₂ * K.toBlocks₂₁) := by
      rw [invOf_eq_nonsing_inv]
      exact invertibleOfIsUnitDet _ (isUnit_iff_ne_zero.mpr hS.det_pos.ne')
    have : Invertible (fromBlocks K.toBlocks₁₁ K.toBlocks₁₂ K.toBlocks₂₁ K.toBlocks₂₂) := by
      rw [← hKb]
      exact invertibleOfIsUnitDet _ (isUnit_iff_ne_zero.mpr hK.det_pos.ne')
    have h := invOf_fromBlocks₂₂_eq K.toBlocks₁₁ K.toBlocks₁₂ K.toBlocks₂₁ K.toBlocks₂₂
    have h' : K⁻¹ = ⅟(fromBlocks K.toBlocks₁₁ K.toBlocks₁₂ K.toBlocks₂₁ K.toBlocks₂₂) := by
      rw [invOf_eq_nonsing_inv, ← hKb]
    rw [h', h, toBlocks_fromBlocks₁₁, invOf_eq_nonsing_inv, invOf_eq_nonsing_inv]
    rfl

/-- C111: for every draw the only assertion that can fail is the one on the rank; when the call returns, all
times carry the same triple, the observed precision is positive definite, it is the inverse of the covariance of
the observed variables in a joint Gaussian with precision `K` whose observed block is the first component, and
the latent part is positive semidefinite of rank `n_dim_obs // 20`. -/
theorem C111_marginal_partial (po nLatent T : ℕ)
    {lmin : Matrix (Fin po ⊕ Fin (po / 20)) (Fin po ⊕ Fin (po / 20)) ℝ → ℝ} (hl : IsMinEig lmin)
    (W : Matrix (Fin po ⊕ Fin (po / 20)) (Fin po ⊕ Fin (po / 20)) ℝ) (G : Matrix (Fin po) (Fin (po / 20)) ℝ) :
    ∃ (K : Matrix (Fin po ⊕ Fin (po / 20)) (Fin po ⊕ Fin (po / 20)) ℝ)
      (r : Matrix (Fin po) (Fin po) ℝ × Matrix (Fin po) (Fin po) ℝ × Matrix (Fin po) (Fin po) ℝ),
      K.PosDef ∧ r.1 = K.toBlocks₁₁ ∧ r.2.1 = r.1 - r.2.2 ∧ r.2.1.PosDef ∧ r.2.2.PosSemidef ∧
      (K⁻¹).toBlocks₁₁ = r.2.1⁻¹ ∧
      (r.2.2.rank = po / 20 → makeMaXueZou po nLatent T lmin W G = some (List.replicate T r)) ∧
      (r.2.2.rank ≠ po / 20 → makeMaXueZou po nLatent T lmin W G = none) := by
  obtain ⟨Q, e, he, hle⟩ := hl (mxzC W G) (mxzC_isSymm W G)
  have hK := mxzK_posDef he hle
  obtain ⟨h1, h2, h3, h4, h5, h6⟩ := marginalOf_spec hK
  refine ⟨_, _, hK, h1, h2, h3, h4, h6, fun hr => ?_, fun hr => ?_⟩
  · exact if_pos ⟨toBlocks_symm hK.isSymm', (isPosDef_iff _).mpr h3, h5.posSemidef, hr⟩
  · exact if_neg fun h => hr h.2.2.2

/-- A smallest eigenvalue exists for every symmetric matrix: the hypothesis of C111 can be met. -/
theorem exists_isMinEig {m : Type*} [Fintype m] [DecidableEq m] [Nonempty m] :
    ∃ lmin : Matrix m m ℝ → ℝ, IsMinEig lmin := by
  classical
  have : ∀ C : Matrix m m ℝ, ∃ l : ℝ, C.IsSymm → ∃ Q e, IsEigh C Q e ∧ ∀ i, l ≤ e i := by
    intro C
    by_cases h : C.IsSymm
    · obtain ⟨Q, e, he⟩ := exists_isEigh h
      obtain ⟨i, hi⟩ := Finite.exists_min e
      exact ⟨e i, fun _ => ⟨Q, e, he, hi⟩⟩
    · exact ⟨0, fun h' => absurd h' h⟩
  choose f hf using this
  exact ⟨f, hf⟩

/-- Non-vacuity for C111. -/
example : ∃ lmin : Matrix (Fin 20 ⊕ Fin (20 / 20)) (Fin 20 ⊕ Fin (20 / 20)) ℝ → ℝ, IsMinEig lmin := exists_isMinEig

/-- C111 is false for the number of latent variables: below 20 observed variables (the default is 12) the call
always succeeds and returns zero latent matrices, whatever `n_latent` is (the default is 3). -/
theorem C111_latent_count_false (nLatent T : ℕ) {po : ℕ} (hpo : po < 20)
    {lmin : Matrix (Fin po ⊕ Fin (po / 20)) (Fin po ⊕ Fin (po / 20)) ℝ → ℝ} (hl : IsMinEig lmin)
    (W : Matrix (Fin po ⊕ Fin (po / 20)) (Fin po ⊕ Fin (po / 20)) ℝ) (G : Matrix (Fin po) (Fin (po / 20)) ℝ) :
    ∃ A : Matrix (Fin po) (Fin po) ℝ, makeMaXueZou po nLatent T lmin W G = some (List.replicate T (A, A, 0)) := by
  obtain ⟨K, r, _, _, h3, _, _, _, h7, h8⟩ := C111_marginal_partial po nLatent T hl W G
  have h0 : po / 20 = 0 := Nat.div_eq_of_lt hpo
  have : IsEmpty (Fin (po / 20)) := by rw [h0]; infer_instance
  by_cases hr : r.2.2.rank = po / 20
  · have hz : r.2.2 = 0 := by
      rw [h0] at hr
      have hb : r.2.2.mulVecLin.range = ⊥ := Submodule.finrank_eq_zero.mp hr
      have hz : r.2.2.mulVecLin = 0 := LinearMap.range_eq_bot.mp hb
      ext i j
      have := congrFun (LinearMap.congr_fun hz (Pi.single j 1)) i
      simpa using this
    refine ⟨r.1, ?_⟩
    have : r = (r.1, r.1, 0) := by
      refine Prod.ext rfl (Prod.ext ?_ hz)
      rw [h3, hz, sub_zero]
    rw [h7 hr, ← this]
  · exfalso
    obtain ⟨Q, e, he, hle⟩ := hl (mxzC W G) (mxzC_isSymm W G)
    have hK := mxzK_posDef he hle
    obtain ⟨h1, h2, h3', h4, h5, h6⟩ := marginalOf_spec hK
    have hsome : makeMaXueZou po nLatent T lmin W G =
        some (List.replicate T (marginalOf (mxzK (lmin (mxzC W G)) (mxzC W G)))) := by
      refine if_pos ⟨toBlocks_symm hK.isSymm', (isPosDef_iff _).mpr h3', h5.posSemidef, ?_⟩
      have : (marginalOf (mxzK (lmin (mxzC W G)) (mxzC W G))).2.2 = 0 := by
        ext i j
        simp [marginalOf, Matrix.mul_apply]
      rw [this, h0, rank_zero]
    rw [h8 hr] at hsome
    cases hsome

/-- C111 is false for the variant with random `K`: as soon as one pair of observed variables is chosen, the
returned precision is not positive definite (it is never the positive definite matrix that was computed). -/
theorem C111_rand_k_false (po T : ℕ) (sgn : Fin (po + po / 20) → Fin (po + po / 20) → ℝ)
    (hsgn : ∀ i j, sgn i j = 1 ∨ sgn i j = -1) (chosen : List (Fin (po + po / 20) × Fin (po + po / 20)))
    (i j : Fin po) (hij : i < j) (hc : (Fin.castAdd _ i, Fin.castAdd _ j) ∈ chosen) :
    ∀ r ∈ makeMaXueZouRandK po T sgn chosen, ¬ r.1.PosDef := by
  intro r hr hp
  have hr := List.eq_of_mem_replicate hr
  have hlt : (Fin.castAdd (po / 20) i) < Fin.castAdd (po / 20) j := hij
  have e : ∀ a b : Fin po, r.1 a b = randKA (ph := po / 20) sgn chosen (Fin.castAdd _ a) (Fin.castAdd _ b) := by
    intro a b
    rw [hr]
    rfl
  have eii : r.1 i i = 1 := by rw [e]; simp [randKA]
  have ejj : r.1 j j = 1 := by rw [e]; simp [randKA]
  have eij : r.1 i j = sgn (Fin.castAdd _ i) (Fin.castAdd _ j) := by
    rw [e]; simp only [randKA, of_apply]; rw [if_neg hlt.ne, if_pos hlt, if_pos hc]
  have eji : r.1 j i = sgn (Fin.castAdd _ i) (Fin.castAdd _ j) := by
    rw [e]; simp only [randKA, of_apply]; rw [if_neg hlt.ne', if_neg hlt.not_gt, if_pos hc]
  have hsub : (r.1.submatrix ![i, j] ![i, j]).PosDef := hp.submatrix (by
    intro a b hab
    fin_cases a <;> fin_cases b <;> simp_all [hij.ne, hij.ne'])
  have := hsub.det_pos
  rw [det_fin_two] at this
  simp only [submatrix_apply, cons_val_zero, cons_val_one, eii, ejj, eij, eji] at this
  rcases hsgn (Fin.castAdd _ i) (Fin.castAdd _ j) with h | h <;> rw [h] at this <;> norm_num at this

/-- Non-vacuity for the last theorem: two variables, the only pair chosen. -/
example : ∃ (sgn : Fin (2 + 2 / 20) → Fin (2 + 2 / 20) → ℝ) (chosen : List (Fin (2 + 2 / 20) × Fin (2 + 2 / 20))),
    (∀ i j, sgn i j = 1 ∨ sgn i j = -1) ∧ (Fin.castAdd _ (0 : Fin 2), Fin.castAdd _ (1 : Fin 2)) ∈ chosen ∧
    (makeMaXueZouRandK 2 1 sgn chosen).length = 1 :=
  ⟨fun _ _ => 1, [(0, 1)], by simp, by decide, by simp [makeMaXueZouRandK]⟩

end Verif.Props
