import Verif.Props.GaussGen
import Verif.Model.Kernels
import Mathlib.Data.List.Dedup

/-! Property theorems C112 (make_ticc), C114 (make_exp_sine_squared), C115 (make_RBF), C117
(make_cluster_representative), C118 and C119 (make_ticc_dataset). -/

namespace Verif.Props

open Verif.Model Verif.Lemmas Matrix

set_option autoImplicit false
set_option linter.unusedSectionVars false

theorem sum_off {m : Type*} [Fintype m] [DecidableEq m] (i : m) (f : m → ℝ) :
    (∑ j, if i = j then 0 else f j) + f i = ∑ j, f j := by
  have : ∀ j, f j = (if i = j then 0 else f j) + (if i = j then f j else 0) := by
    intro j; split <;> simp
  rw [Finset.sum_congr rfl fun j _ => this j, Finset.sum_add_distrib]
  simp

theorem addAbsDiag_isSymm {m : Type*} [Fintype m] [DecidableEq m] {A : Matrix m m ℝ} (hs : A.IsSymm) :
    (addAbsDiag A).IsSymm := hs.add (isSymm_diagonal _)

theorem addAbsDiag_off {m : Type*} [Fintype m] [DecidableEq m] (A : Matrix m m ℝ) {i j : m} (h : i ≠ j) :
    addAbsDiag A i j = A i j := by
  rw [addAbsDiag, Matrix.add_apply, diagonal_apply_ne _ h, add_zero]

theorem addAbsDiag_posDef {m : Type*} [Fintype m] [DecidableEq m] {A : Matrix m m ℝ} (hs : A.IsSymm) :
    (addAbsDiag A).PosDef := by
  refine posDef_of_dominant (addAbsDiag_isSymm hs) (c := 0.01) (by norm_num) fun i => ?_
  have h1 : (∑ j, if i = j then 0 else |addAbsDiag A i j|) = ∑ j, if i = j then 0 else |A i j| := by
    refine Finset.sum_congr rfl fun j _ => ?_
    by_cases h : i = j
    · rw [if_pos h, if_pos h]
    · rw [if_neg h, if_neg h, addAbsDiag_off _ h]
  have h2 := sum_off i fun j => |A i j|
  have h3 : addAbsDiag A i i = A i i + ((∑ j, |A i j|) + 0.01) := by
    rw [addAbsDiag, Matrix.add_apply, diagonal_apply_eq]
  have h4 := neg_abs_le (A i i)
  rw [h1, h3]
  linarith

theorem cutSmall_isSymm {m : Type*} (c : ℝ) {A : Matrix m m ℝ} (hs : A.IsSymm) : (cutSmall c A).IsSymm := by
  ext i j
  have : A j i = A i j := hs.apply i j
  simp only [cutSmall, transpose_apply, of_apply, this]

theorem cutSmall_zero {m k : Type*} (c : ℝ) (A : Matrix m k ℝ) (i : m) (j : k) (h : |cutSmall c A i j| < c) :
    cutSmall c A i j = 0 := by
  by_cases h' : |A i j| < c
  · exact if_pos h'
  · have : cutSmall c A i j = A i j := if_neg h'
    rw [this] at h
    exact absurd h h'

/-! ### C114 -/

/-- C114: the precision of every time is symmetric positive definite for every sample of the process; without
latent variables the call always succeeds; when it returns, every observed precision is positive definite, and
with `sparse` no off-diagonal entry lies below `epsilon`. -/
theorem C114_valid_partial {p : ℕ} (sparse : Bool) (epsilon : ℝ) (L : Matrix (Fin p) (Fin p) ℝ) :
    ∀ us : List (Fin p → Fin p → ℝ),
      (L = 0 → ∃ rs, makeExpSine sparse epsilon L us = .ok rs) ∧
      (∀ e, makeExpSine sparse epsilon L us = .error e → e = .assertion) ∧
      ∀ rs, makeExpSine sparse epsilon L us = .ok rs → rs.length = us.length ∧
        ∀ r ∈ rs, r.1.PosDef ∧ r.1.IsSymm ∧ r.2.1 = r.1 - L ∧ r.2.1.PosDef ∧ r.2.2 = L ∧
          (sparse = true → ∀ i j, i ≠ j → |r.1 i j| < epsilon → r.1 i j = 0) := by
  intro us
  unfold makeExpSine
  induction us with
  | nil => exact ⟨fun _ => ⟨[], rfl⟩, fun e h => (by cases h), fun rs h => by cases h; simp⟩
  | cons u rest ih =>
    obtain ⟨i1, i2, i3⟩ := ih
    have hs0 := squareForm_isSymm u
    have hs : (if sparse then cutSmall epsilon (squareForm u) else squareForm u).IsSymm := by
      split
      · exact cutSmall_isSymm _ hs0
      · exact hs0
    have hsp : sparse = true → ∀ i j, i ≠ j →
        |addAbsDiag (if sparse then cutSmall epsilon (squareForm u) else squareForm u) i j| < epsilon →
        addAbsDiag (if sparse then cutSmall epsilon (squareForm u) else squareForm u) i j = 0 := by
      intro h i j hij
      rw [addAbsDiag_off _ hij, if_pos h]
      exact cutSmall_zero _ _ _ _
    have hp := addAbsDiag_posDef hs
    have hsy := addAbsDiag_isSymm hs
    have e : expSineLoop sparse epsilon L (u :: rest) =
        (let theta := addAbsDiag (if sparse then cutSmall epsilon (squareForm u) else squareForm u)
         if isPosDef theta then
          if isPosDef (theta - L) then
            match expSineLoop sparse epsilon L rest with
            | .error e => .error e
            | .ok l => .ok ((theta, theta - L, L) :: l)
          else .error .assertion
        else .error .assertion) := rfl
    rw [e]
    generalize addAbsDiag (if sparse then cutSmall epsilon (squareForm u) else squareForm u) = th at hp hsy hsp
    simp only [(isPosDef_iff _).mpr hp, if_true]
    refine ⟨fun h0 => ?_, fun e h => ?_, fun rs h => ?_⟩
    · obtain ⟨rs, hrs⟩ := i1 h0
      subst h0
      rw [sub_zero, if_pos ((isPosDef_iff _).mpr hp), hrs]
      exact ⟨_, rfl⟩
    · by_cases h2 : isPosDef (th - L) = true
      · rw [if_pos h2] at h
        cases hr : expSineLoop sparse epsilon L rest with
        | error e' => rw [hr] at h; cases h; exact i2 _ hr
        | ok l => rw [hr] at h; cases h
      · rw [if_neg h2] at h
        cases h
        rfl
    · by_cases h2 : isPosDef (th - L) = true
      · rw [if_pos h2] at h
        cases hr : expSineLoop sparse epsilon L rest with
        | error e' => rw [hr] at h; cases h
        | ok l =>
          rw [hr] at h
          cases h
          obtain ⟨j1, j2⟩ := i3 l hr
          refine ⟨by simp [j1], fun r hr => ?_⟩
          rcases List.mem_cons.mp hr with rfl | hr
          · exact ⟨hp, hsy, rfl, (isPosDef_iff _).mp h2, rfl, hsp⟩
          · exact j2 r hr
      · rw [if_neg h2] at h
        cases h

/-- C114 is false with a latent variable: for two variables and one latent variable `make_ell` can give
`L = diag(4, 0)`; if the sample of the process is zero the call raises AssertionError. -/
theorem C114_latent_false : makeExpSine true 0.5 !![4, 0; 0, 0] [fun _ _ => 0] = .error .assertion := by
  have e : addAbsDiag (cutSmall 0.5 (squareForm fun _ _ : Fin 2 => (0 : ℝ))) = !![0.01, 0; 0, 0.01] := by
    ext i j
    fin_cases i <;> fin_cases j <;> simp [addAbsDiag, cutSmall, squareForm]
  have hn : ¬ isPosDef (!![0.01, 0; 0, 0.01] - !![4, 0; 0, 0] : Matrix (Fin 2) (Fin 2) ℝ) = true := by
    rw [isPosDef_iff]
    intro hp
    have := hp.diag_pos (i := 0)
    norm_num at this
  have hp : isPosDef (!![0.01, 0; 0, 0.01] : Matrix (Fin 2) (Fin 2) ℝ) = true := by
    rw [isPosDef_iff, ← e]
    exact addAbsDiag_posDef (cutSmall_isSymm _ (squareForm_isSymm _))
  unfold makeExpSine expSineLoop
  simp only [if_true, e, hp]
  rw [if_neg hn]

/-! ### C115 -/

theorem toBlocks_isSymm₁₁ {m l : Type*} {K : Matrix (m ⊕ l) (m ⊕ l) ℝ} (h : K.IsSymm) : K.toBlocks₁₁.IsSymm := by
  ext i j; exact h.apply _ _

theorem toBlocks_isSymm₂₂ {m l : Type*} {K : Matrix (m ⊕ l) (m ⊕ l) ℝ} (h : K.IsSymm) : K.toBlocks₂₂.IsSymm := by
  ext i j; exact h.apply _ _

/-- The Schur complement of the first block. -/
theorem condCov_spec {m l : Type*} [Fintype m] [Fintype l] [DecidableEq m] [DecidableEq l]
    {K : Matrix (m ⊕ l) (m ⊕ l) ℝ} (hK : K.PosDef) :
    (condCov K).PosDef ∧ (K⁻¹).toBlocks₂₂ = (condCov K)⁻¹ ∧ K.toBlocks₁₁.PosDef := by
  have h' : (K.submatrix (Equiv.sumComm l m) (Equiv.sumComm l m)).PosDef :=
    hK.submatrix (Equiv.sumComm l m).injective
  obtain ⟨_, _, h3, _, h5, h6⟩ := marginalOf_spec h'
  have e : (marginalOf (K.submatrix (Equiv.sumComm l m) (Equiv.sumComm l m))).2.1 = condCov K := by
    have : K.toBlocks₁₂ = K.toBlocks₂₁ᵀ := toBlocks_symm hK.isSymm'
    rw [condCov, ← this]
    rfl
  rw [e] at h3 h6
  refine ⟨h3, ?_, h5⟩
  rw [inv_submatrix_equiv] at h6
  exact h6

variable {l o : ℕ}

theorem rbfTheta_spec (sparse : Bool) (epsilon : ℝ) (inter : Option (Matrix (Fin o) (Fin l) ℝ))
    (u : Fin (l + o) → Fin (l + o) → ℝ) :
    (rbfTheta sparse epsilon inter u).IsSymm ∧
    (∀ I, inter = some I → (rbfTheta sparse epsilon inter u).toBlocks₂₁ = I) ∧
    (sparse = true → ∀ i j, |(rbfTheta sparse epsilon inter u) (.inr i) (.inr j)| < epsilon →
      (rbfTheta sparse epsilon inter u) (.inr i) (.inr j) = 0) := by
  have hs : ((squareForm u).submatrix finSumFinEquiv finSumFinEquiv : Matrix (Fin l ⊕ Fin o) (Fin l ⊕ Fin o) ℝ).IsSymm :=
    (squareForm_isSymm u).submatrix _
  unfold rbfTheta
  generalize ((squareForm u).submatrix finSumFinEquiv finSumFinEquiv : Matrix (Fin l ⊕ Fin o) (Fin l ⊕ Fin o) ℝ) = S
    at hs ⊢
  cases sparse with
  | true =>
    refine ⟨?_, fun I hI => ?_, fun _ i j h => ?_⟩
    · simp only [if_true, toBlocks_fromBlocks₁₁, toBlocks_fromBlocks₂₂]
      exact IsSymm.fromBlocks (cutSmall_isSymm _ (toBlocks_isSymm₁₁ hs)) (transpose_transpose _)
        (cutSmall_isSymm _ (toBlocks_isSymm₂₂ hs))
    · subst hI
      rfl
    · exact cutSmall_zero epsilon S.toBlocks₂₂ i j h
  | false =>
    refine ⟨?_, fun I hI => ?_, fun h => by cases h⟩
    · exact IsSymm.fromBlocks (toBlocks_isSymm₁₁ hs) (transpose_transpose _) (toBlocks_isSymm₂₂ hs)
    · subst hI
      rfl

theorem addAbsDiag_toBlocks₂₁ (A : Matrix (Fin l ⊕ Fin o) (Fin l ⊕ Fin o) ℝ) :
    (addAbsDiag A).toBlocks₂₁ = A.toBlocks₂₁ := by
  ext i j
  exact addAbsDiag_off A (by simp)

theorem rbfLoop_spec (sparse : Bool) (epsilon : ℝ) :
    ∀ (us : List (Fin (l + o) → Fin (l + o) → ℝ)) (inter : Option (Matrix (Fin o) (Fin l) ℝ)),
      ∃ (ts : List (Matrix (Fin l ⊕ Fin o) (Fin l ⊕ Fin o) ℝ)) (J : Matrix (Fin o) (Fin l) ℝ),
        rbfLoop sparse epsilon inter us = .ok ts ∧ ts.length = us.length ∧ (∀ I, inter = some I → J = I) ∧
        ∀ t ∈ ts, t.PosDef ∧ t.toBlocks₂₁ = J ∧
          (sparse = true → ∀ i j : Fin o, i ≠ j → |t (.inr i) (.inr j)| < epsilon → t (.inr i) (.inr j) = 0) := by
  intro us
  induction us with
  | nil => intro inter; exact ⟨[], inter.getD 0, rfl, rfl, fun I h => by rw [h]; rfl, by simp⟩
  | cons u rest ih =>
    intro inter
    obtain ⟨h1, h2, h3⟩ := rbfTheta_spec sparse epsilon inter u
    obtain ⟨ts, J, j1, j2, j3, j4⟩ := ih (some (inter.getD (rbfTheta sparse epsilon inter u).toBlocks₂₁))
    have hp := addAbsDiag_posDef h1
    refine ⟨addAbsDiag (rbfTheta sparse epsilon inter u) :: ts, J, ?_, by simp [j2], fun I hI => ?_, fun t ht => ?_⟩
    · rw [rbfLoop]
      simp only [(isPosDef_iff _).mpr hp, if_true, j1]
    · rw [j3 _ rfl, hI]
      rfl
    · rcases List.mem_cons.mp ht with rfl | ht
      · refine ⟨hp, ?_, fun hsp i j hij => ?_⟩
        · rw [addAbsDiag_toBlocks₂₁, j3 _ rfl]
          cases hI : inter with
          | none => rfl
          | some I => rw [← hI, h2 I hI]; rw [hI]; rfl
        · rw [addAbsDiag_off _ (by simpa using hij)]
          exact h3 hsp i j
      · exact j4 t ht

/-- C115: for every sample of the process, every number of times and of latent variables, `make_RBF` succeeds; at
every time the joint precision is positive definite, the observed precision is the inverse of the covariance of the
observed variables, positive definite and equal to the observed block minus the latent part, which is positive
semidefinite; the links between latent and observed variables are the same at all times. -/
theorem C115_marginal (sparse : Bool) (epsilon : ℝ) (us : List (Fin (l + o) → Fin (l + o) → ℝ)) :
    ∃ rs, makeRBF sparse epsilon us = .ok rs ∧ rs.length = us.length ∧
      ∀ r ∈ rs, r.1.PosDef ∧ r.2.1.PosDef ∧ r.2.2.PosSemidef ∧ r.2.1 = r.1.toBlocks₂₂ - r.2.2 ∧
        (r.1⁻¹).toBlocks₂₂ = r.2.1⁻¹ ∧ (∀ r' ∈ rs, r'.1.toBlocks₂₁ = r.1.toBlocks₂₁) ∧
        (sparse = true → ∀ i j : Fin o, i ≠ j → |r.1 (.inr i) (.inr j)| < epsilon → r.1 (.inr i) (.inr j) = 0) := by
  obtain ⟨ts, J, h1, h2, _, h4⟩ := rbfLoop_spec (l := l) (o := o) sparse epsilon us none
  unfold makeRBF
  rw [h1]
  cases hl : ts.getLast? with
  | none =>
    have : ts = [] := by simpa using hl
    subst this
    exact ⟨[], by simp [hl], by simpa using h2, by simp⟩
  | some last =>
    refine ⟨ts.map fun t => (t, rbfMarginal last t), by simp only [hl], by simp [h2], fun r hr => ?_⟩
    obtain ⟨t, ht, rfl⟩ := List.mem_map.mp hr
    obtain ⟨p1, p2, p3⟩ := h4 t ht
    obtain ⟨q1, q2, _⟩ := h4 last (List.mem_of_getLast? hl)
    have e21 : last.toBlocks₂₁ = t.toBlocks₂₁ := by rw [q2, p2]
    have e12 : last.toBlocks₁₂ = t.toBlocks₂₁ᵀ := by rw [toBlocks_symm q1.isSymm', e21]
    obtain ⟨c1, c2, c3⟩ := condCov_spec p1
    have eo : (rbfMarginal last t).1 = condCov t := by
      simp only [rbfMarginal, e21, e12]
      rfl
    refine ⟨p1, by rw [eo]; exact c1, ?_, rfl, by rw [eo]; exact c2, ?_, p3⟩
    · have : (rbfMarginal last t).2 = t.toBlocks₂₁ * t.toBlocks₁₁⁻¹ * t.toBlocks₂₁ᴴ := by
        simp only [rbfMarginal, e21, e12]
        rfl
      rw [this]
      exact c3.inv.posSemidef.mul_mul_conjTranspose_same _
    · intro r' hr'
      obtain ⟨t', ht', rfl⟩ := List.mem_map.mp hr'
      rw [(h4 t' ht').2.1, p2]

/-- Non-vacuity for C115: one latent and two observed variables, two times with different samples; the two joint
precisions differ. -/
example : ∃ r1 r2, makeRBF (l := 1) (o := 2) true 0.8 [fun _ _ => 1, fun _ _ => 2] = .ok [r1, r2] ∧
    r1.1 (.inr 0) (.inr 1) = 1 ∧ r2.1 (.inr 0) (.inr 1) = 2 := by
  obtain ⟨rs, h1, h2, _⟩ := C115_marginal (l := 1) (o := 2) true 0.8 [fun _ _ => 1, fun _ _ => 2]
  match rs, h2 with
  | [r1, r2], _ =>
    refine ⟨r1, r2, h1, ?_⟩
    obtain ⟨ts, J, j1, j2, _, _⟩ := rbfLoop_spec (l := 1) (o := 2) true 0.8 [fun _ _ => 1, fun _ _ => 2] none
    have hp := fun inter (u : Fin (1 + 2) → Fin (1 + 2) → ℝ) =>
      (isPosDef_iff _).mpr (addAbsDiag_posDef (rbfTheta_spec true 0.8 inter u).1)
    unfold makeRBF at h1
    simp only [rbfLoop, hp, if_true, List.getLast?_cons_cons, List.getLast?_singleton] at h1
    injection h1 with h1
    simp only [List.map_cons, List.map_nil, List.cons.injEq, and_true] at h1
    rw [← h1.1, ← h1.2]
    constructor
    · change addAbsDiag _ _ _ = _
      rw [addAbsDiag_off _ (by simp)]
      norm_num [rbfTheta, cutSmall, squareForm, finSumFinEquiv, Fin.natAdd, abs_of_pos, toBlocks₂₂]
    · change addAbsDiag _ _ _ = _
      rw [addAbsDiag_off _ (by simp)]
      norm_num [rbfTheta, cutSmall, squareForm, finSumFinEquiv, Fin.natAdd, abs_of_pos, toBlocks₂₂]

/-! ### C112 -/

variable {w n : ℕ}

theorem ticcBlocks_zero_isSymm (S : Matrix (Fin n) (Fin n) ℝ) (rand : ℕ → Matrix (Fin n) (Fin n) ℝ) :
    (ticcBlocks S rand 0).IsSymm := by
  simp only [ticcBlocks, genInvCov, if_true, beq_self_eq_true]
  exact isSymm_add_transpose_self S

theorem ticcAssemble_isSymm {B : ℕ → Matrix (Fin n) (Fin n) ℝ} (h0 : (B 0).IsSymm) :
    (ticcAssemble (w := w) B).IsSymm := by
  ext x y
  have hk : ((y.1 : ℤ) - (x.1 : ℤ)).natAbs = ((x.1 : ℤ) - (y.1 : ℤ)).natAbs := by omega
  simp only [transpose_apply, ticcAssemble, of_apply, hk]
  rcases lt_trichotomy x.1 y.1 with h | h | h
  · rw [if_pos h, if_neg h.not_gt]
  · rw [h]
    simp only [sub_self, Int.natAbs_zero, lt_irrefl, if_false]
    exact h0.apply _ _
  · rw [if_neg h.not_gt, if_pos h]

/-- C112: with latent variables the call raises ValueError; otherwise, for every draw, it returns a symmetric block
Toeplitz matrix (the block at `(i, j)` depends on `i - j` only) whose smallest eigenvalue is at least 0.1, in
particular positive definite. -/
theorem C112_valid (nLat : ℕ) {lmin : Matrix (Fin w × Fin n) (Fin w × Fin n) ℝ → ℝ} (hl : IsMinEig lmin)
    (S : Matrix (Fin n) (Fin n) ℝ) (rand : ℕ → Matrix (Fin n) (Fin n) ℝ) :
    (nLat ≠ 0 → makeTicc nLat lmin S rand = .error .value) ∧
    (nLat = 0 → ∃ A, makeTicc nLat lmin S rand = .ok A ∧ A.IsSymm ∧ A.PosDef ∧
      (A - (0.1 : ℝ) • (1 : Matrix (Fin w × Fin n) (Fin w × Fin n) ℝ)).PosSemidef ∧
      (∀ (i j i' j' : Fin w) (a b : Fin n), (i : ℤ) - j = i' - j' → A (i, a) (j, b) = A (i', a) (j', b)) ∧
      ∀ (i j : Fin w) (a b : Fin n), j < i → A (i, a) (j, b) = rand (i - j) a b) := by
  refine ⟨fun h => if_pos h, fun h => ⟨_, if_neg (not_not.mpr h), ?_⟩⟩
  have hs := ticcAssemble_isSymm (w := w) (ticcBlocks_zero_isSymm S rand)
  obtain ⟨Q, e, he, hle⟩ := hl _ hs
  have hge : ∀ i, 0.1 ≤ e i + (0.1 + |lmin (ticcAssemble (ticcBlocks S rand))|) := by
    intro i
    have := hle i
    have := neg_abs_le (lmin (ticcAssemble (w := w) (ticcBlocks S rand)))
    linarith
  have hlow : (ticcAssemble (ticcBlocks S rand) + (0.1 + |lmin (ticcAssemble (ticcBlocks S rand))|) •
      (1 : Matrix (Fin w × Fin n) (Fin w × Fin n) ℝ) - (0.1 : ℝ) • 1).PosSemidef := by
    have e1 := recompose_const he.orth (0.1 + |lmin (ticcAssemble (ticcBlocks S rand))|)
    have e2 := recompose_const he.orth 0.1
    have e3 := recompose_add Q e fun _ => 0.1 + |lmin (ticcAssemble (ticcBlocks S rand))|
    have e4 := recompose_sub Q (fun i => e i + (0.1 + |lmin (ticcAssemble (ticcBlocks S rand))|)) fun _ => 0.1
    have : ticcAssemble (ticcBlocks S rand) + (0.1 + |lmin (ticcAssemble (ticcBlocks S rand))|) •
        (1 : Matrix (Fin w × Fin n) (Fin w × Fin n) ℝ) - (0.1 : ℝ) • 1 =
        recompose Q fun i => e i + (0.1 + |lmin (ticcAssemble (ticcBlocks S rand))|) - 0.1 := by
      rw [← e4, ← e3, e1, e2, ← he.eq_recompose]
    rw [this]
    exact recompose_posSemidef Q fun i => sub_nonneg.mpr (hge i)
  have hsy : (ticcAssemble (ticcBlocks S rand) + (0.1 + |lmin (ticcAssemble (ticcBlocks S rand))|) •
      (1 : Matrix (Fin w × Fin n) (Fin w × Fin n) ℝ)).IsSymm := hs.add (isSymm_one.smul _)
  refine ⟨hsy, ?_, hlow, ?_, ?_⟩
  · have h1 : ((0.1 : ℝ) • (1 : Matrix (Fin w × Fin n) (Fin w × Fin n) ℝ)).PosDef := PosDef.one.smul (by norm_num)
    have := PosDef.posSemidef_add hlow h1
    rwa [sub_add_cancel] at this
  · intro i j i' j' a b hij
    have h1 : ticcAssemble (ticcBlocks S rand) (i, a) (j, b) = ticcAssemble (ticcBlocks S rand) (i', a) (j', b) := by
      simp only [ticcAssemble, of_apply, hij]
      have : j < i ↔ j' < i' := by
        rw [Fin.lt_def, Fin.lt_def]; omega
      simp only [this]
    have h2 : (1 : Matrix (Fin w × Fin n) (Fin w × Fin n) ℝ) (i, a) (j, b) = (1 : Matrix _ _ ℝ) (i', a) (j', b) := by
      have : i = j ↔ i' = j' := by
        rw [Fin.ext_iff, Fin.ext_iff]; omega
      simp only [one_apply, Prod.mk.injEq, this]
    rw [Matrix.add_apply, Matrix.add_apply, Matrix.smul_apply, Matrix.smul_apply, h1, h2]
  · intro i j a b hij
    have hne : (i, a) ≠ (j, b) := by
      intro h
      exact hij.ne' (Prod.ext_iff.mp h).1
    have hk : ((i : ℤ) - (j : ℤ)).natAbs = i - j := by
      have := Fin.lt_def.mp hij; omega
    have hk0 : (i : ℕ) - j ≠ 0 := by
      have := Fin.lt_def.mp hij; omega
    rw [Matrix.add_apply, Matrix.smul_apply, one_apply_ne hne, smul_zero, add_zero]
    simp only [ticcAssemble, of_apply, hk, if_pos hij, ticcBlocks, if_neg hk0]

/-- Non-vacuity for C112: a window of two samples of one variable. -/
example : ∃ lmin : Matrix (Fin 2 × Fin 1) (Fin 2 × Fin 1) ℝ → ℝ, IsMinEig lmin ∧
    ∃ A, makeTicc 0 lmin 0 (fun _ => 1) = .ok A ∧ A (1, 0) (0, 0) = 1 := by
  obtain ⟨lmin, h⟩ := exists_isMinEig (m := Fin 2 × Fin 1)
  obtain ⟨A, h1, _, _, _, _, h2⟩ := (C112_valid 0 h 0 fun _ => 1).2 rfl
  exact ⟨lmin, h, A, h1, by rw [h2 1 0 0 0 (by decide)]; simp⟩

/-! ### C119 -/

theorem windowIdx_injective (c : ℕ) (hc : c < w) : Function.Injective (windowIdx (n := n) c hc) := by
  rintro (⟨a, x⟩ | x) (⟨b, y⟩ | y) h
  · simp only [windowIdx, Prod.mk.injEq, Fin.mk.injEq] at h
    rw [Fin.ext h.1, h.2]
  · simp only [windowIdx, Prod.mk.injEq, Fin.mk.injEq] at h
    exact absurd h.1 a.2.ne
  · simp only [windowIdx, Prod.mk.injEq, Fin.mk.injEq] at h
    exact absurd h.1.symm b.2.ne
  · simp only [windowIdx, Prod.mk.injEq] at h
    rw [h.2]

/-- C119: for every positive definite precision of a cluster, the precision attached to a sample is symmetric
positive definite, and it is the inverse of the conditional covariance of the sample given the previous ones in the
window, that is the last diagonal block of the inverse of the covariance of the window; from the `w_size`-th sample
on it is the last diagonal block of the precision of the cluster. -/
theorem C119_conditional (hw : 0 < w) {P : Matrix (Fin w × Fin n) (Fin w × Fin n) ℝ} (hP : P.PosDef) (i : ℕ) :
    (ticcPrec hw P i).PosDef ∧
    (∀ (hc : min i (w - 1) < w), ticcPrec hw P i =
      ((P⁻¹.submatrix (windowIdx (min i (w - 1)) hc) (windowIdx (min i (w - 1)) hc))⁻¹).toBlocks₂₂) ∧
    (w - 1 ≤ i → ∀ a b, ticcPrec hw P i a b = P (⟨w - 1, by omega⟩, a) (⟨w - 1, by omega⟩, b)) := by
  have hc : min i (w - 1) < w := by omega
  have hM := (hP.inv).submatrix (windowIdx_injective (n := n) (min i (w - 1)) hc)
  obtain ⟨h1, h2, _⟩ := condCov_spec hM
  have e : ticcPrec hw P i = (condCov (P⁻¹.submatrix (windowIdx (min i (w - 1)) hc) (windowIdx (min i (w - 1)) hc)))⁻¹ := rfl
  refine ⟨by rw [e]; exact h1.inv, fun _ => by rw [e, ← h2], fun hi a b => ?_⟩
  have hm : min i (w - 1) = w - 1 := by omega
  have hcard : Fintype.card ((Fin (min i (w - 1)) × Fin n) ⊕ Fin n) = Fintype.card (Fin w × Fin n) := by
    simp only [Fintype.card_sum, Fintype.card_prod, Fintype.card_fin, hm]
    obtain ⟨v, rfl⟩ : ∃ v, w = v + 1 := ⟨w - 1, by omega⟩
    rw [Nat.add_sub_cancel]
    ring
  have hb := (Fintype.bijective_iff_injective_and_card _).mpr ⟨windowIdx_injective (n := n) (min i (w - 1)) hc, hcard⟩
  have he : P⁻¹.submatrix (windowIdx (min i (w - 1)) hc) (windowIdx (min i (w - 1)) hc) =
      P⁻¹.submatrix (Equiv.ofBijective _ hb) (Equiv.ofBijective _ hb) := rfl
  rw [e, ← h2, he, inv_submatrix_equiv, nonsing_inv_nonsing_inv _ (isUnit_iff_ne_zero.mpr hP.det_pos.ne')]
  simp only [toBlocks₂₂, of_apply, submatrix_apply, Equiv.ofBijective_apply, windowIdx, hm]

/-- Non-vacuity for C119. -/
example : (1 : Matrix (Fin 2 × Fin 1) (Fin 2 × Fin 1) ℝ).PosDef ∧ 0 < 2 := ⟨PosDef.one, by norm_num⟩

/-! ### C118 -/

theorem npRepeat_cons {α : Type*} (x : α) (xs : List α) (k : ℕ) :
    npRepeat (x :: xs) k = List.replicate k x ++ npRepeat xs k := rfl

theorem npRepeat_length {α : Type*} (a : List α) (k : ℕ) : (npRepeat a k).length = a.length * k := by
  induction a with
  | nil => simp [npRepeat]
  | cons x xs ih => rw [npRepeat_cons, List.length_append, ih, List.length_replicate, List.length_cons]; ring

theorem npRepeat_getElem? {α : Type*} (a : List α) {k : ℕ} (hk : 0 < k) (r : ℕ) : (npRepeat a k)[r]? = a[r / k]? := by
  induction a generalizing r with
  | nil => simp [npRepeat]
  | cons x xs ih =>
    rw [npRepeat_cons]
    by_cases h : r < k
    · rw [List.getElem?_append_left (by simpa using h), Nat.div_eq_of_lt h]
      simp [h]
    · rw [List.getElem?_append_right (by simpa using h), ih, List.length_replicate]
      have h' : k ≤ r := not_lt.mp h
      have : r / k = (r - k) / k + 1 := by
        rw [Nat.div_eq r k, if_pos ⟨hk, h'⟩]
      rw [this, List.getElem?_cons_succ]

theorem npRepeat_dedup {a : List ℕ} (ha : a.Nodup) {k : ℕ} (hk : 0 < k) : (npRepeat a k).dedup = a := by
  induction a with
  | nil => simp [npRepeat]
  | cons x xs ih =>
    have hx : x ∉ npRepeat xs k := by
      intro h
      simp only [npRepeat, List.mem_flatMap, List.mem_replicate] at h
      obtain ⟨z, hz, _, rfl⟩ := h
      exact (List.nodup_cons.mp ha).1 hz
    have hr := ih (List.nodup_cons.mp ha).2
    rw [npRepeat_cons]
    obtain ⟨j, hj⟩ : ∃ j, k = j + 1 := ⟨k - 1, by omega⟩
    generalize npRepeat xs k = R at hx hr
    rw [hj]
    clear hj
    induction j with
    | zero => rw [zero_add, List.replicate_one, List.singleton_append, List.dedup_cons_of_notMem hx, hr]
    | succ j ihj => rw [List.replicate_succ, List.cons_append, List.dedup_cons_of_mem (by simp), ihj]

theorem mem_idsAt {ids y : List ℕ} {c v : ℕ} : v ∈ idsAt ids y c ↔ ∃ r : ℕ, ids[r]? = some v ∧ y[r]? = some c := by
  constructor
  · intro h
    obtain ⟨⟨a, d⟩, hq, rfl⟩ := List.mem_map.mp h
    obtain ⟨hz, hd⟩ := List.mem_filter.mp hq
    have hd : d = c := by simpa using hd
    subst hd
    obtain ⟨r, hr⟩ := List.mem_iff_getElem?.mp hz
    exact ⟨r, List.getElem?_zip_eq_some.mp hr⟩
  · rintro ⟨r, h1, h2⟩
    exact List.mem_map.mpr ⟨(v, c), List.mem_filter.mpr
      ⟨List.mem_iff_getElem?.mpr ⟨r, List.getElem?_zip_eq_some.mpr ⟨h1, h2⟩⟩, by simp⟩, rfl⟩

theorem groupLoop_ok {ids y : List ℕ} (f : ℕ → ℕ) :
    ∀ cs : List ℕ, (∀ c ∈ cs, idsAt ids y c ≠ [] ∧ ∀ v ∈ idsAt ids y c, v = f c) →
      groupLoop ids y cs = .ok (cs.map f) := by
  intro cs
  induction cs with
  | nil => intro _; rfl
  | cons c cs ih =>
    intro h
    obtain ⟨h1, h2⟩ := h c (List.mem_cons_self ..)
    have hr : idsAt ids y c = List.replicate (idsAt ids y c).length (f c) := List.eq_replicate_of_mem h2
    have hl : (idsAt ids y c).length ≠ 0 := by simpa using h1
    have hd : (idsAt ids y c).dedup.length = 1 := by
      rw [hr, List.replicate_dedup hl]; rfl
    have hh : (idsAt ids y c).headD 0 = f c := by
      obtain ⟨x, xs, hx⟩ := List.exists_cons_of_ne_nil h1
      rw [hx]
      exact h2 x (by rw [hx]; simp)
    rw [groupLoop, if_pos hd, ih fun c hc => h c (List.mem_cons_of_mem _ hc), hh]
    rfl

theorem groupLoop_error {ids y : List ℕ} {c u v : ℕ} (huv : u ≠ v) (hu : u ∈ idsAt ids y c) (hv : v ∈ idsAt ids y c) :
    ∀ cs : List ℕ, c ∈ cs → groupLoop ids y cs = .error .assertion := by
  intro cs
  induction cs with
  | nil => intro h; cases h
  | cons d ds ih =>
    intro h
    by_cases hd : (idsAt ids y d).dedup.length = 1
    · have hne : c ≠ d := by
        rintro rfl
        obtain ⟨x, hx⟩ := List.length_eq_one_iff.mp hd
        have h1 := List.mem_dedup.mpr hu
        have h2 := List.mem_dedup.mpr hv
        rw [hx, List.mem_singleton] at h1 h2
        exact huv (h1.trans h2.symm)
      have := ih ((List.mem_cons.mp h).resolve_left hne)
      rw [groupLoop, if_pos hd, this]
    · rw [groupLoop, if_neg hd]

/-- C118: if the number of times is a multiple of the number of segments (`T = len(clusters) * q`) and every segment
can be cut into `q` equal times (`n_samples = q * k`), the call succeeds; there are `len(clusters) * n_samples`
rows, row `r` has time `r // k` and the cluster of its segment, and all rows of a time have the cluster reported for
that time. -/
theorem C118_labels_partial (clusters : List ℕ) (q k : ℕ) (hq : 0 < q) (hk : 0 < k) (hc : clusters ≠ []) :
    ∃ y ids g : List ℕ, ticcLabels clusters (q * k) (clusters.length * q) = .ok (y, ids, g) ∧
      y.length = clusters.length * (q * k) ∧ ids.length = y.length ∧ g.length = clusters.length * q ∧
      (∀ r : ℕ, r < y.length → y[r]? = some (r / k) ∧ ids[r]? = clusters[r / (q * k)]?) ∧
      ∀ r c : ℕ, y[r]? = some c → ids[r]? = g[c]? := by
  have hl : 0 < clusters.length := List.length_pos_of_ne_nil hc
  have hT : clusters.length * q ≠ 0 := (Nat.mul_pos hl hq).ne'
  have hk' : clusters.length * (q * k) / (clusters.length * q) = k := by
    rw [← mul_assoc, Nat.mul_div_cancel_left _ (Nat.pos_of_ne_zero hT)]
  have hmod : (clusters.length * (q * k)) % (clusters.length * q) = 0 := by
    rw [← mul_assoc, Nat.mul_mod_right]
  have hqk : 0 < q * k := Nat.mul_pos hq hk
  have hy : ∀ r, (npRepeat (List.range (clusters.length * q)) k)[r]? =
      if r / k < clusters.length * q then some (r / k) else none := by
    intro r
    rw [npRepeat_getElem? _ hk]
    split
    · next h => rw [List.getElem?_range h]
    · next h => rw [List.getElem?_eq_none (by simpa using h)]
  have hids : ∀ r, (npRepeat clusters (q * k))[r]? = clusters[r / (q * k)]? := npRepeat_getElem? _ hqk
  have hdiv : ∀ r, r / (q * k) = (r / k) / q := fun r => by rw [Nat.div_div_eq_div_mul, mul_comm]
  have hg := groupLoop_ok (ids := npRepeat clusters (q * k)) (y := npRepeat (List.range (clusters.length * q)) k)
    (fun c => clusters.getD (c / q) 0) (List.range (clusters.length * q)) (by
      intro c hc
      have hc := List.mem_range.mp hc
      constructor
      · have hcq : c / q < clusters.length := Nat.div_lt_of_lt_mul (by rwa [mul_comm] at hc)
        refine List.ne_nil_of_mem (a := clusters[c / q]) (mem_idsAt.mpr ⟨c * k, ?_, ?_⟩)
        · rw [hids, hdiv, Nat.mul_div_cancel _ hk, List.getElem?_eq_getElem hcq]
        · rw [hy, Nat.mul_div_cancel _ hk, if_pos hc]
      · intro v hv
        obtain ⟨r, h1, h2⟩ := mem_idsAt.mp hv
        rw [hids, hdiv] at h1
        rw [hy] at h2
        split at h2
        · have h2 := Option.some.inj h2
          rw [h2] at h1
          simp [List.getD, h1]
        · cases h2)
  refine ⟨npRepeat (List.range (clusters.length * q)) k, npRepeat clusters (q * k),
    (List.range (clusters.length * q)).map fun c => clusters.getD (c / q) 0, ?_, ?_, ?_, by simp, ?_, ?_⟩
  · unfold ticcLabels
    rw [if_neg hT, if_neg (not_not.mpr hmod)]
    simp only [hk', npRepeat_dedup List.nodup_range hk, hg]
  · rw [npRepeat_length, List.length_range, mul_assoc]
  · rw [npRepeat_length, npRepeat_length, List.length_range, mul_assoc]
  · intro r hr
    rw [npRepeat_length, List.length_range] at hr
    have : r / k < clusters.length * q := Nat.div_lt_of_lt_mul (by rwa [mul_comm] at hr)
    exact ⟨by rw [hy, if_pos this], hids r⟩
  · intro r c hrc
    rw [hy] at hrc
    split at hrc
    · next h =>
      have hrc := Option.some.inj hrc
      have hcq : (r / k) / q < clusters.length := Nat.div_lt_of_lt_mul (by rwa [mul_comm] at h)
      subst hrc
      rw [hids, hdiv, List.getElem?_map, List.getElem?_range h, Option.map_some, List.getElem?_eq_getElem hcq]
      simp [List.getD, List.getElem?_eq_getElem hcq]
    · cases hrc

/-- Non-vacuity for C118: three segments, nine times, six samples per segment. -/
example : ∃ r, ticcLabels [0, 1, 0] 6 9 = .ok r :=
  let ⟨y, ids, g, h, _⟩ := C118_labels_partial [0, 1, 0] 3 2 (by norm_num) (by norm_num) (by simp)
  ⟨(y, ids, g), h⟩

/-- C118 is false for the default arguments: `make_ticc_dataset()` raises ValueError, because `3 * 200` is not a
multiple of 9. -/
theorem C118_default_false : ticcLabels [0, 1, 0] 200 9 = .error .value := rfl

/-- C118 is false when only the documented condition holds: with three segments of two samples and two times,
`len(clusters) * n_samples` is a multiple of `T`, and the call raises AssertionError. -/
theorem C118_condition_false : (3 * 2) % 2 = 0 ∧ ticcLabels [0, 1, 0] 2 2 = .error .assertion := by
  refine ⟨rfl, ?_⟩
  decide

/-- C118 is false for the default arguments of `make_ticc_dataset_new`, which has no check: AssertionError. -/
theorem C118_new_default_false : ticcLabelsNew [0, 1, 0] 200 9 = .error .assertion := by
  have h : groupLoop (npRepeat [0, 1, 0] 200) (npRepeat (List.range 9) 66) (npRepeat (List.range 9) 66).dedup =
      .error .assertion := by
    refine groupLoop_error (c := 3) (u := 0) (v := 1) (by norm_num) (mem_idsAt.mpr ⟨198, ?_, ?_⟩)
      (mem_idsAt.mpr ⟨200, ?_, ?_⟩) _ ?_
    · rw [npRepeat_getElem? _ (by norm_num)]; rfl
    · rw [npRepeat_getElem? _ (by norm_num)]; rfl
    · rw [npRepeat_getElem? _ (by norm_num)]; rfl
    · rw [npRepeat_getElem? _ (by norm_num)]; rfl
    · rw [npRepeat_dedup List.nodup_range (by norm_num)]
      decide
  have e : ([0, 1, 0] : List ℕ).length * 200 / 9 = 66 := rfl
  unfold ticcLabelsNew
  rw [if_neg (by norm_num)]
  simp only [e, h]

/-! ### C117 -/

theorem interpLoop_length (target : Matrix (Fin n) (Fin n) ℝ) :
    ∀ (draws : List (List ((Fin n × Fin n) × ℝ))) (new : Matrix (Fin n) (Fin n) ℝ),
      (interpLoop target new draws).length = draws.length + 1 := by
  intro draws
  induction draws with
  | nil => intro new; rfl
  | cons d ds ih => intro new; rw [interpLoop, List.length_cons, ih]; rfl

theorem repLoop_length (adj : ℕ → Matrix (Fin n) (Fin n) ℝ) (draws : ℕ → ℕ → List ((Fin n × Fin n) × ℝ))
    {step : ℕ} (hst : 0 < step) (e : ℕ) :
    ∀ (m s k : ℕ), (repLoop adj draws k ((List.range' s (m + 1)).map (fun j => j * step) ++ [e])).length =
      m * step + ((e - (s + m) * step - 1) + 1) + 1 := by
  intro m
  induction m with
  | zero =>
    intro s k
    simp [repLoop, interpLoop_length]
  | succ m ih =>
    intro s k
    have h : (List.range' s (m + 1 + 1)).map (fun j => j * step) ++ [e] =
        s * step :: ((List.range' (s + 1) (m + 1)).map (fun j => j * step) ++ [e]) := rfl
    have h' : (List.range' (s + 1) (m + 1)).map (fun j => j * step) ++ [e] =
        (s + 1) * step :: ((List.range' (s + 1 + 1) m).map (fun j => j * step) ++ [e]) := rfl
    have := ih (s + 1) (k + 1)
    rw [h, h', repLoop, ← h', List.length_append, this, interpLoop_length, List.length_map, List.length_range]
    have h1 : (s + 1) * step - s * step - 1 + 1 = step := by
      rw [Nat.succ_mul, Nat.add_sub_cancel_left]; omega
    have h2 : s + 1 + m = s + (m + 1) := by ring
    rw [h1, h2, Nat.succ_mul]
    ring

/-- C117: the number of precisions returned is `T` when `T - 1` is not a multiple of the distance
`T // (n_clusters + 1)` between representatives, and `T + 1` when it is; with fewer than `n_clusters + 1` times the
call raises ZeroDivisionError. -/
theorem C117_count_partial (T nClusters : ℕ) (adj : ℕ → Matrix (Fin n) (Fin n) ℝ)
    (draws : ℕ → ℕ → List ((Fin n × Fin n) × ℝ)) :
    (T < nClusters + 1 → clusterThetas T nClusters adj draws = .error .zeroDivision) ∧
    (nClusters + 1 ≤ T → ∃ ths, clusterThetas T nClusters adj draws = .ok ths ∧
      ths.length = if (T - 1) % (T / (nClusters + 1)) = 0 then T + 1 else T) := by
  constructor
  · intro h
    have : T / (nClusters + 1) = 0 := Nat.div_eq_of_lt h
    simp [clusterThetas, repPositions, this]
  · intro h
    have hst : 0 < T / (nClusters + 1) := Nat.div_pos h (by omega)
    generalize hs : T / (nClusters + 1) = step at hst
    have hT : 1 ≤ T := by omega
    refine ⟨repLoop adj draws 0 (npArange T step ++ [T - 1]), ?_, ?_⟩
    · simp only [clusterThetas, repPositions, hs, if_neg hst.ne']
    · have hm : (T + step - 1) / step = (T - 1) / step + 1 := by
        have : T + step - 1 = (T - 1) + step := by omega
        rw [this, Nat.add_div_right _ hst]
      have := repLoop_length adj draws hst (T - 1) ((T - 1) / step) 0 0
      rw [npArange, hm, List.range_eq_range', this, zero_add]
      have hd := Nat.div_add_mod (T - 1) step
      rw [mul_comm] at hd
      have hr : T - 1 - (T - 1) / step * step = (T - 1) % step := by omega
      rw [hr]
      split <;> omega

/-- Non-vacuity for C117: the default arguments give 15 precisions; with 13 times there are 14. -/
example (adj : ℕ → Matrix (Fin n) (Fin n) ℝ) (draws : ℕ → ℕ → List ((Fin n × Fin n) × ℝ)) :
    (∃ ths, clusterThetas 15 3 adj draws = .ok ths ∧ ths.length = 15) ∧
    ∃ ths, clusterThetas 13 3 adj draws = .ok ths ∧ ths.length = 14 :=
  ⟨(C117_count_partial 15 3 adj draws).2 (by norm_num), (C117_count_partial 13 3 adj draws).2 (by norm_num)⟩

/-- C117 is false for symmetry: for a graph with one edge and two samples in range the precisions returned are not
symmetric, because the two directions of an edge receive different samples. -/
theorem C117_symmetry_false : ∃ (adj r : Matrix (Fin 2) (Fin 2) ℝ), adj.IsSymm ∧ (∀ i j, 0 ≤ r i j ∧ r i j < 1) ∧
    ∀ (T nClusters : ℕ) (draws : ℕ → ℕ → List ((Fin 2 × Fin 2) × ℝ)) (ths : List (Matrix (Fin 2) (Fin 2) ℝ)),
      clusterThetas T nClusters (fun _ => representative adj r) draws = .ok ths → ∃ th ∈ ths, ¬ th.IsSymm := by
  refine ⟨!![0, 1; 1, 0], !![0, 0.1; 0.2, 0], ?_, ?_, ?_⟩
  · ext i j; fin_cases i <;> fin_cases j <;> rfl
  · intro i j; fin_cases i <;> fin_cases j <;> norm_num
  · intro T nClusters draws ths h
    have hns : ¬ (representative !![0, 1; 1, 0] !![0, 0.1; 0.2, 0] : Matrix (Fin 2) (Fin 2) ℝ).IsSymm := by
      intro hs
      have := hs.apply 0 1
      norm_num [representative, fillDiagonal] at this
    have hmem : ∀ (l : List ℕ) (k : ℕ), l ≠ [] →
        representative !![0, 1; 1, 0] !![0, 0.1; 0.2, 0] ∈
          repLoop (fun _ => (representative !![0, 1; 1, 0] !![0, 0.1; 0.2, 0] : Matrix (Fin 2) (Fin 2) ℝ)) draws k l := by
      intro l k hl
      match l with
      | [_] => simp [repLoop]
      | a :: b :: rest =>
        rw [repLoop]
        refine List.mem_append_left _ ?_
        cases (List.range (b - a - 1)).map (draws k) <;> simp [interpLoop]
    unfold clusterThetas at h
    cases hp : repPositions T nClusters with
    | error e => rw [hp] at h; cases h
    | ok pos =>
      rw [hp] at h
      cases h
      refine ⟨_, hmem pos 0 ?_, hns⟩
      by_cases h0 : T / (nClusters + 1) = 0
      · simp [repPositions, h0] at hp
      · simp only [repPositions, if_neg h0] at hp
        cases hp
        simp

end Verif.Props
