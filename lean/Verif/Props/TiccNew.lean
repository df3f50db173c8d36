import Verif.Props.Kernels
import Verif.Model.TiccNew
import Verif.Lemmas.Markov
import Verif.Lemmas.GLOpt
import Mathlib.Analysis.InnerProductSpace.PiL2

/-! C206: `make_ticc_dataset_new`. -/

namespace Verif.Props

open Verif.Model Verif.Lemmas Matrix

set_option autoImplicit false
set_option linter.unusedSectionVars false

variable {n M : ℕ}

theorem ticcDiag_transpose {B : ℕ → Matrix (Fin n) (Fin n) ℝ} (h0 : (B 0).IsSymm) (r c : ℕ) :
    (ticcDiag B r c)ᵀ = ticcDiag B c r := by
  unfold ticcDiag
  rcases lt_trichotomy r c with h | h | h
  · rw [if_pos h, if_neg h.not_gt]
  · subst h
    simp only [lt_irrefl, if_false, Nat.sub_self, transpose_transpose]
    exact h0.symm
  · rw [if_neg h.not_gt, if_pos h, transpose_transpose]

theorem ticcNewBlock_transpose (N : ℕ) {B : ℕ → ℕ → Matrix (Fin n) (Fin n) ℝ} (h0 : ∀ r, (B r 0).IsSymm)
    (clusters : List ℕ) (a b : ℕ) : (ticcNewBlock N B clusters a b)ᵀ = ticcNewBlock N B clusters b a := by
  unfold ticcNewBlock
  by_cases h1 : b / N = a / N
  · rw [if_pos h1, if_pos h1.symm, ticcDiag_transpose (h0 _), h1]
  · rw [if_neg h1, if_neg (Ne.symm h1)]
    by_cases h2 : b / N = a / N + 1
    · rw [if_pos h2, if_neg (by omega), if_pos h2]
    · rw [if_neg h2]
      by_cases h3 : a / N = b / N + 1
      · rw [if_pos h3, if_pos h3, transpose_transpose]
      · rw [if_neg h3, if_neg h3, if_neg h2, transpose_zero]

theorem ticcNewBlocks_zero_isSymm (N w : ℕ) (S : Matrix (Fin n) (Fin n) ℝ) (rand : ℕ → Matrix (Fin n) (Fin n) ℝ) :
    (ticcNewBlocks N w S rand 0).IsSymm := by
  unfold ticcNewBlocks genInvCov
  split
  · simpa using isSymm_add_transpose_self S
  · exact isSymm_zero

theorem ticcNewBlocks_far (N w : ℕ) (S : Matrix (Fin n) (Fin n) ℝ) (rand : ℕ → Matrix (Fin n) (Fin n) ℝ) {i : ℕ}
    (hi : w < i) : ticcNewBlocks N w S rand i = 0 := by
  unfold ticcNewBlocks
  rw [if_neg (by omega : ¬ i = 0), if_neg (by omega : ¬ i < w + 1), ite_self]

theorem ticcNewBlock_far {N w : ℕ} {B : ℕ → ℕ → Matrix (Fin n) (Fin n) ℝ}
    (hB : ∀ r i, w < i → B r i = 0) (clusters : List ℕ) {a b : ℕ} (hab : a + w < b) :
    ticcNewBlock N B clusters a b = 0 := by
  have ea := Nat.div_add_mod a N
  have eb := Nat.div_add_mod b N
  unfold ticcNewBlock
  by_cases h1 : b / N = a / N
  · rw [if_pos h1]
    rw [h1] at eb
    unfold ticcDiag
    rw [if_pos (by omega), hB _ _ (by omega)]
  · rw [if_neg h1]
    have hdiv : a / N ≤ b / N := Nat.div_le_div_right (by omega)
    by_cases h2 : b / N = a / N + 1
    · rw [if_pos h2]
      rw [h2, Nat.mul_add, Nat.mul_one] at eb
      unfold ticcOutDiag
      have : w < N - a % N + b % N := by omega
      simp only [hB _ _ this, transpose_zero, ite_self]
    · rw [if_neg h2, if_neg (by omega)]

/-- **C206**: for every draw the precision of the whole data set is symmetric, has no entry between rows more than
`w_size` apart, and all its eigenvalues are at least 0.1. -/
theorem C206_precision (N w : ℕ) (S : ℕ → Matrix (Fin n) (Fin n) ℝ) (rand : ℕ → ℕ → Matrix (Fin n) (Fin n) ℝ)
    (clusters : List ℕ)
    {lmin : Matrix (Fin (clusters.length * N) × Fin n) (Fin (clusters.length * N) × Fin n) ℝ → ℝ} (hl : IsMinEig lmin) :
    (ticcNewInv N w S rand clusters lmin).IsSymm ∧ (ticcNewInv N w S rand clusters lmin).PosDef ∧
    (ticcNewInv N w S rand clusters lmin - (0.1 : ℝ) • 1).PosSemidef ∧
    ∀ (s t : Fin (clusters.length * N)) (a b : Fin n), (s : ℕ) + w < t ∨ (t : ℕ) + w < s →
      ticcNewInv N w S rand clusters lmin (s, a) (t, b) = 0 := by
  set A := ticcNewAssemble N (fun r => ticcNewBlocks N w (S r) (rand r)) clusters with hA
  have h0 : ∀ r, (ticcNewBlocks N w (S r) (rand r) 0).IsSymm := fun r => ticcNewBlocks_zero_isSymm N w _ _
  have hs : A.IsSymm := by
    ext x y
    have := congrFun (congrFun (ticcNewBlock_transpose N h0 clusters (x.1 : ℕ) (y.1 : ℕ)) y.2) x.2
    exact this.symm
  have hdef : ticcNewInv N w S rand clusters lmin = A + (0.1 + |lmin A|) • 1 := rfl
  obtain ⟨Q, e, he, hle⟩ := hl _ hs
  have hlow : (A + (0.1 + |lmin A|) • 1 - (0.1 : ℝ) • 1).PosSemidef := by
    have e1 := recompose_const he.orth (0.1 + |lmin A|)
    have e2 := recompose_const he.orth 0.1
    have e3 := recompose_add Q e fun _ => 0.1 + |lmin A|
    have e4 := recompose_sub Q (fun i => e i + (0.1 + |lmin A|)) fun _ => 0.1
    have : A + (0.1 + |lmin A|) • 1 - (0.1 : ℝ) • 1 = recompose Q fun i => e i + (0.1 + |lmin A|) - 0.1 := by
      rw [← e4, ← e3, e1, e2, ← he.eq_recompose]
    rw [this]
    refine recompose_posSemidef Q fun i => ?_
    have := hle i
    have := neg_abs_le (lmin A)
    linarith
  rw [hdef]
  refine ⟨hs.add (isSymm_one.smul _), ?_, hlow, fun s t a b h => ?_⟩
  · have := PosDef.posSemidef_add hlow (PosDef.one.smul (by norm_num : (0 : ℝ) < 0.1))
    rwa [sub_add_cancel] at this
  · have hne : (s, a) ≠ (t, b) := by
      intro h'
      have := (Prod.ext_iff.mp h').1
      simp only at this
      subst this
      omega
    rw [Matrix.add_apply, Matrix.smul_apply, one_apply_ne hne, smul_zero, add_zero]
    have hf : ∀ {x y : ℕ}, x + w < y → ticcNewBlock N (fun r => ticcNewBlocks N w (S r) (rand r)) clusters x y = 0 :=
      fun h => ticcNewBlock_far (fun r i hi => ticcNewBlocks_far N w _ _ hi) clusters h
    rcases h with h | h
    · exact congrFun (congrFun (hf h) a) b
    · have := congrFun (congrFun (hf h) b) a
      rw [← ticcNewBlock_transpose N h0] at this
      exact this

/-- The entries of a precision between rows more than `w` apart are zero. -/
def RowBanded (w : ℕ) (P : Matrix (Fin M × Fin n) (Fin M × Fin n) ℝ) : Prop :=
  ∀ (s t : Fin M) (a b : Fin n), (s : ℕ) + w < t ∨ (t : ℕ) + w < s → P (s, a) (t, b) = 0

/-- Positions of the rows after row `i`. -/
def futPos (i : Fin M) (x : {t : Fin M // i < t} × Fin n) : Fin M × Fin n := (x.1.1, x.2)

theorem winPos_inj (w : ℕ) (i : Fin M) : Function.Injective (winPos (n := n) w i) := by
  rintro ⟨⟨s, hs⟩, a⟩ ⟨⟨t, ht⟩, b⟩ h
  simp only [winPos, Prod.mk.injEq] at h
  obtain ⟨rfl, rfl⟩ := h
  rfl

theorem curPos_inj (i : Fin M) : Function.Injective (curPos (n := n) i) := by
  intro a b h
  exact (Prod.mk.inj h).2

theorem futPos_inj (i : Fin M) : Function.Injective (futPos (n := n) i) := by
  rintro ⟨⟨s, hs⟩, a⟩ ⟨⟨t, ht⟩, b⟩ h
  simp only [futPos, Prod.mk.injEq] at h
  obtain ⟨rfl, rfl⟩ := h
  rfl

theorem ticc_markov {P : Matrix (Fin M × Fin n) (Fin M × Fin n) ℝ} (hP : P.PosDef) {w : ℕ} (hb : RowBanded w P)
    (i : Fin M) :
    (∀ (u : Fin M) (b : Fin n), u < i → ∀ a, P⁻¹ (i, a) (u, b) = ∑ x, ticcGain P⁻¹ w i a x * P⁻¹ (x.1.1, x.2) (u, b)) ∧
    (P.submatrix (curPos i) (curPos i) - P.submatrix (curPos i) (futPos i) * (P.submatrix (futPos i) (futPos i))⁻¹
      * P.submatrix (futPos i) (curPos i)) * ticcCovTom P⁻¹ w i = 1 := by
  have hCs : (P⁻¹).IsSymm := by
    have := hP.inv.isHermitian
    rwa [IsHermitian, conjTranspose_eq_transpose_of_trivial] at this
  have h := markov_regression (ec := curPos (n := n) i) (ew := winPos w i) (ef := futPos i) hP
    (curPos_inj i) (winPos_inj w i) (futPos_inj i)
    (by
      rintro ⟨⟨t, ht⟩, b⟩ a h
      have := (Prod.mk.inj h).1
      simp only at this
      subst this
      omega)
    (by
      rintro a ⟨⟨t, ht⟩, b⟩ h
      have := (Prod.mk.inj h).1
      simp only at this
      exact ht.ne this)
    (by
      rintro ⟨⟨s, hs⟩, a⟩ ⟨⟨t, ht⟩, b⟩ h
      have := (Prod.mk.inj h).1
      simp only at this
      subst this
      have := Fin.lt_def.mp ht
      omega)
    (by
      rintro ⟨v, c⟩ h1 h2 h3
      have hvi : v ≠ i := fun h => h2 c (by rw [h]; rfl)
      have hnf : ¬ i < v := fun h => h3 (⟨v, h⟩, c) rfl
      have hlt : (v : ℕ) < i := by
        rw [← Fin.lt_def]; exact lt_of_le_of_ne (not_lt.mp hnf) hvi
      have hold : (v : ℕ) + w < i := by
        by_contra hc
        exact h1 (⟨v, by omega, hlt⟩, c) rfl
      refine ⟨fun a => hb i v a c (Or.inr hold), fun g => hb g.1.1 v g.2 c (Or.inr ?_)⟩
      have := Fin.lt_def.mp g.1.2
      omega)
  refine ⟨fun u b hu a => h.1 (u, b) (fun x hx => ?_) (fun x hx => ?_) a, ?_⟩
  · exact hu.ne (Prod.mk.inj hx).1
  · have h1 := (Prod.mk.inj hx).1
    have h2 := x.1.2
    rw [← h1] at h2
    exact absurd h2 hu.not_gt
  · have e : (P⁻¹.submatrix (curPos i) (winPos w i))ᵀ = P⁻¹.submatrix (winPos w i) (curPos (n := n) i) := by
      rw [transpose_submatrix, hCs.eq]
    unfold ticcCovTom ticcGain
    rw [e]
    exact h.2.1

section Law

variable {H : Type*} [NormedAddCommGroup H] [InnerProductSpace ℝ H]

/-- Uncorrelated noise of unit variance: an orthonormal family (in the space of square integrable random variables). -/
def WhiteNoise (z : Fin M → Fin n → H) : Prop :=
  ∀ s a t b, inner ℝ (z s a) (z t b) = if s = t ∧ a = b then (1 : ℝ) else 0

theorem ticcRows_keep (C : Matrix (Fin M × Fin n) (Fin M × Fin n) ℝ) (w : ℕ) (A : Fin M → Matrix (Fin n) (Fin n) ℝ)
    (z X0 : Fin M → Fin n → H) (k : ℕ) (s : Fin M) (hs : (s : ℕ) < k) :
    ticcRows C w A z X0 (k + 1) s = ticcRows C w A z X0 k s := by
  rw [ticcRows]
  by_cases hk : k < M
  · simp only [dif_pos hk]
    rw [Function.update_of_ne]
    intro h
    rw [h] at hs
    exact absurd hs (lt_irrefl _)
  · simp only [dif_neg hk]

/-- After `k` passes the first `k` rows have the required covariances and do not involve the later noise. -/
theorem ticcRows_inv {P : Matrix (Fin M × Fin n) (Fin M × Fin n) ℝ} (hP : P.PosDef) {w : ℕ} (hb : RowBanded w P)
    {A : Fin M → Matrix (Fin n) (Fin n) ℝ} (hA : ∀ i, A i * (A i)ᵀ = ticcCovTom P⁻¹ w i) {z : Fin M → Fin n → H}
    (hz : WhiteNoise z) (X0 : Fin M → Fin n → H) (k : ℕ) :
    (∀ s t : Fin M, (s : ℕ) < k → (t : ℕ) < k → ∀ a b,
      inner ℝ (ticcRows P⁻¹ w A z X0 k s a) (ticcRows P⁻¹ w A z X0 k t b) = P⁻¹ (s, a) (t, b)) ∧
    ∀ s u : Fin M, (s : ℕ) < k → k ≤ (u : ℕ) → ∀ a b, inner ℝ (ticcRows P⁻¹ w A z X0 k s a) (z u b) = (0 : ℝ) := by
  have hCs : (P⁻¹).IsSymm := by
    have := hP.inv.isHermitian
    rwa [IsHermitian, conjTranspose_eq_transpose_of_trivial] at this
  induction k with
  | zero => exact ⟨fun s t hs => absurd hs (Nat.not_lt_zero _), fun s u hs => absurd hs (Nat.not_lt_zero _)⟩
  | succ k ih =>
    obtain ⟨ih1, ih2⟩ := ih
    by_cases hk : k < M
    swap
    · have e : ticcRows P⁻¹ w A z X0 (k + 1) = ticcRows P⁻¹ w A z X0 k := by
        rw [ticcRows]; simp only [dif_neg hk]
      rw [e]
      refine ⟨fun s t hs ht => ih1 s t (by omega) (by omega), fun s u hs hu => by omega⟩
    set X := ticcRows P⁻¹ w A z X0 k with hX
    set X' := ticcRows P⁻¹ w A z X0 (k + 1) with hX'
    set i : Fin M := ⟨k, hk⟩ with hi
    have hnew : ∀ a, X' i a = ∑ x, ticcGain P⁻¹ w i a x • X x.1.1 x.2 + ∑ b, A i a b • z i b := by
      intro a
      have : X' i = ticcRow P⁻¹ w A z X i := by
        rw [hX', ticcRows]; simp only [dif_pos hk]; exact Function.update_self _ _ _
      rw [this]; rfl
    have hkeep : ∀ s : Fin M, (s : ℕ) < k → X' s = X s := fun s hs => ticcRows_keep _ _ _ _ _ k s hs
    have hcase : ∀ s : Fin M, (s : ℕ) < k + 1 → (s : ℕ) < k ∨ s = i := by
      intro s hs
      rcases Nat.lt_succ_iff_lt_or_eq.mp hs with h | h
      · exact Or.inl h
      · exact Or.inr (Fin.ext h)
    have hwlt : ∀ x : TiccWin w i × Fin n, ((x.1.1 : Fin M) : ℕ) < k := fun x => x.1.2.2
    have hmk := ticc_markov hP hb i
    -- the new row with an old one
    have hold : ∀ (t : Fin M), (t : ℕ) < k → ∀ a b, inner ℝ (X' i a) (X t b) = P⁻¹ (i, a) (t, b) := by
      intro t ht a b
      rw [hnew, inner_add_left, sum_inner, sum_inner]
      have h2 : ∑ c, inner ℝ (A i a c • z i c) (X t b) = (0 : ℝ) := by
        refine Finset.sum_eq_zero fun c _ => ?_
        rw [inner_smul_left, real_inner_comm, ih2 t i ht le_rfl b c, mul_zero]
      have h1 : ∑ x, inner ℝ (ticcGain P⁻¹ w i a x • X x.1.1 x.2) (X t b) = P⁻¹ (i, a) (t, b) := by
        rw [hmk.1 t b (Fin.lt_def.mpr ht) a]
        refine Finset.sum_congr rfl fun x _ => ?_
        rw [inner_smul_left, ih1 _ t (hwlt x) ht]
        rfl
      rw [h1, h2, add_zero]
    have hnoise : ∀ c a, inner ℝ (X' i a) (z i c) = A i a c := by
      intro c a
      rw [hnew, inner_add_left, sum_inner, sum_inner]
      have h1 : ∑ x, inner ℝ (ticcGain P⁻¹ w i a x • X x.1.1 x.2) (z i c) = (0 : ℝ) := by
        refine Finset.sum_eq_zero fun x _ => ?_
        rw [inner_smul_left, ih2 _ i (hwlt x) le_rfl, mul_zero]
      rw [h1, zero_add, Finset.sum_eq_single c]
      · rw [inner_smul_left, hz]; simp
      · intro b _ hbc
        rw [inner_smul_left, hz]; simp [hbc]
      · simp
    have hself : ∀ a b, inner ℝ (X' i a) (X' i b) = P⁻¹ (i, a) (i, b) := by
      intro a b
      have h1 : inner ℝ (X' i a) (X' i b) = ∑ x, ticcGain P⁻¹ w i b x * P⁻¹ (i, a) (x.1.1, x.2)
          + ∑ c, A i b c * A i a c := by
        conv_lhs => rw [hnew b]
        rw [inner_add_right, inner_sum, inner_sum]
        congr 1
        · refine Finset.sum_congr rfl fun x _ => ?_
          rw [inner_smul_right, hold _ (hwlt x)]
        · refine Finset.sum_congr rfl fun c _ => ?_
          rw [inner_smul_right, hnoise]
      have h2 : ∑ c, A i b c * A i a c = ticcCovTom P⁻¹ w i b a := by
        rw [← hA i, Matrix.mul_apply]; rfl
      have h3 : ticcCovTom P⁻¹ w i b a = P⁻¹ (i, b) (i, a) - ∑ x, ticcGain P⁻¹ w i b x * P⁻¹ (i, a) (x.1.1, x.2) := by
        unfold ticcCovTom
        rw [Matrix.sub_apply, Matrix.mul_apply]
        rfl
      rw [h1, h2, h3, ← hCs.apply (i, a) (i, b)]
      ring
    refine ⟨fun s t hs ht a b => ?_, fun s u hs hu a b => ?_⟩
    · rcases hcase s hs with hs | rfl <;> rcases hcase t ht with ht | rfl
      · rw [hkeep s hs, hkeep t ht]; exact ih1 s t hs ht a b
      · rw [hkeep s hs, real_inner_comm, hold s hs, ← hCs.apply]
      · rw [hkeep t ht]; exact hold t ht a b
      · exact hself a b
    · rcases hcase s hs with hs | rfl
      · rw [hkeep s hs]; exact ih2 s u hs (by omega) a b
      · rw [hnew, inner_add_left, sum_inner, sum_inner]
        have h1 : ∑ x, inner ℝ (ticcGain P⁻¹ w i a x • X x.1.1 x.2) (z u b) = (0 : ℝ) := by
          refine Finset.sum_eq_zero fun x _ => ?_
          rw [inner_smul_left, ih2 _ u (hwlt x) (by omega), mul_zero]
        have h2 : ∑ c, inner ℝ (A i a c • z i c) (z u b) = (0 : ℝ) := by
          refine Finset.sum_eq_zero fun c _ => ?_
          rw [inner_smul_left, hz, if_neg, mul_zero]
          rintro ⟨h, -⟩
          rw [← h] at hu
          simp only [hi] at hu
          omega
        rw [h1, h2, add_zero]

/-- **C206**: the rows of the data set have exactly the covariance `inv⁻¹`, all of them together, although each is drawn
given the `w_size` rows before it only: for every precision with no entry between rows more than `w_size` apart, every
factor of the conditional covariances and whatever the array contained before. -/
theorem C206_joint_covariance {P : Matrix (Fin M × Fin n) (Fin M × Fin n) ℝ} (hP : P.PosDef) {w : ℕ} (hb : RowBanded w P)
    {A : Fin M → Matrix (Fin n) (Fin n) ℝ} (hA : ∀ i, A i * (A i)ᵀ = ticcCovTom P⁻¹ w i) {z : Fin M → Fin n → H}
    (hz : WhiteNoise z) (X0 : Fin M → Fin n → H) (s t : Fin M) (a b : Fin n) :
    inner ℝ (ticcRows P⁻¹ w A z X0 M s a) (ticcRows P⁻¹ w A z X0 M t b) = P⁻¹ (s, a) (t, b) :=
  (ticcRows_inv hP hb hA hz X0 M).1 s t s.2 t.2 a b

end Law

/-- **C206**: `precs[i]` is positive definite and is the diagonal block of `inv` corrected for the rows still to come; so
it is at most `sparse_precs[i]`, and equal to it for the last row. -/
theorem C206_precs {P : Matrix (Fin M × Fin n) (Fin M × Fin n) ℝ} (hP : P.PosDef) {w : ℕ} (hb : RowBanded w P) (i : Fin M) :
    (ticcNewPrec P⁻¹ w i).PosDef ∧ (ticcSparsePrec P i - ticcNewPrec P⁻¹ w i).PosSemidef ∧
    ((i : ℕ) + 1 = M → ticcNewPrec P⁻¹ w i = ticcSparsePrec P i) := by
  have h := (ticc_markov hP hb i).2
  set D := P.submatrix (curPos (n := n) i) (futPos i) * (P.submatrix (futPos i) (futPos i))⁻¹ * P.submatrix (futPos i) (curPos i)
    with hD
  have hPs : P.IsSymm := by
    have := hP.isHermitian
    rwa [IsHermitian, conjTranspose_eq_transpose_of_trivial] at this
  have e : ticcNewPrec P⁻¹ w i = ticcSparsePrec P i - D := by
    unfold ticcNewPrec
    exact inv_eq_left_inv h
  have hDpsd : D.PosSemidef := by
    have h1 : (P.submatrix (futPos (n := n) i) (futPos i))⁻¹.PosSemidef := (hP.submatrix (futPos_inj i)).inv.posSemidef
    have h2 := h1.mul_mul_conjTranspose_same (P.submatrix (curPos (n := n) i) (futPos i))
    have e2 : (P.submatrix (curPos (n := n) i) (futPos i))ᴴ = P.submatrix (futPos i) (curPos i) := by
      rw [conjTranspose_eq_transpose_of_trivial, transpose_submatrix, hPs.eq]
    rwa [e2] at h2
  have hcov : (ticcCovTom P⁻¹ w i).PosDef := by
    have hinj : Function.Injective (Sum.elim (winPos (n := n) w i) (curPos i)) := by
      rintro (x | x) (y | y) hxy
      · exact congrArg _ (winPos_inj w i hxy)
      · have h1 := (Prod.mk.inj hxy).1
        have h2 := x.1.2.2
        rw [h1] at h2
        exact absurd h2 (lt_irrefl _)
      · have h1 := (Prod.mk.inj hxy).1
        have h2 := y.1.2.2
        rw [← h1] at h2
        exact absurd h2 (lt_irrefl _)
      · exact congrArg _ (curPos_inj i hxy)
    obtain ⟨h1, -, -⟩ := condCov_spec (hP.inv.submatrix hinj)
    exact h1
  refine ⟨hcov.inv, ?_, fun hlast => ?_⟩
  · rw [e, sub_sub_cancel]; exact hDpsd
  · have : IsEmpty {t : Fin M // i < t} := ⟨fun t => by
      have := Fin.lt_def.mp t.2
      have := t.1.2
      omega⟩
    rw [e]
    have : D = 0 := by
      rw [hD]; ext a b
      simp [Matrix.mul_apply]
    rw [this, sub_zero]

/-- **C206**: all rows of one cluster have the same `sparse_precs`: the symmetric block of that cluster, with the shift
added to its diagonal. -/
theorem C206_sparse_precs (N w : ℕ) (S : ℕ → Matrix (Fin n) (Fin n) ℝ) (rand : ℕ → ℕ → Matrix (Fin n) (Fin n) ℝ)
    (clusters : List ℕ)
    (lmin : Matrix (Fin (clusters.length * N) × Fin n) (Fin (clusters.length * N) × Fin n) ℝ → ℝ)
    : ∃ c : ℝ, 0.1 ≤ c ∧ (∀ j : Fin (clusters.length * N),
      ticcSparsePrec (ticcNewInv N w S rand clusters lmin) j =
        S (clusters.getD (j / N) 0) + (S (clusters.getD (j / N) 0))ᵀ + c • 1) := by
  refine ⟨0.1 + |lmin (ticcNewAssemble N (fun r => ticcNewBlocks N w (S r) (rand r)) clusters)|, ?_, fun j => ?_⟩
  rotate_left
  · ext a b
    have hN : 0 < N := by
      rcases Nat.eq_zero_or_pos N with h | h
      · subst h; exact absurd j.2 (by simp)
      · exact h
    have e : ticcNewBlock N (fun r => ticcNewBlocks N w (S r) (rand r)) clusters j j =
        S (clusters.getD (j / N) 0) + (S (clusters.getD (j / N) 0))ᵀ := by
      unfold ticcNewBlock ticcDiag ticcNewBlocks genInvCov
      simp only [if_true, lt_irrefl, if_false, Nat.sub_self, hN, transpose_add, transpose_transpose]
      rw [add_comm]
    have h1 : ticcSparsePrec (ticcNewInv N w S rand clusters lmin) j a b =
        ticcNewBlock N (fun r => ticcNewBlocks N w (S r) (rand r)) clusters j j a b +
        (0.1 + |lmin (ticcNewAssemble N (fun r => ticcNewBlocks N w (S r) (rand r)) clusters)|) *
          (1 : Matrix _ _ ℝ) (j, a) (j, b) := rfl
    rw [h1, e, Matrix.add_apply, Matrix.add_apply, Matrix.add_apply, Matrix.smul_apply, smul_eq_mul]
    congr 2
    simp [one_apply]
  · have := abs_nonneg (lmin (ticcNewAssemble N (fun r => ticcNewBlocks N w (S r) (rand r)) clusters))
    linarith

/-- **C206**, composed: the data set generated for any clusters, window and draws has the covariance `inv⁻¹` of the
returned `inv`. -/
theorem C206_dataset (N w : ℕ) (S : ℕ → Matrix (Fin n) (Fin n) ℝ) (rand : ℕ → ℕ → Matrix (Fin n) (Fin n) ℝ)
    (clusters : List ℕ)
    {lmin : Matrix (Fin (clusters.length * N) × Fin n) (Fin (clusters.length * N) × Fin n) ℝ → ℝ} (hl : IsMinEig lmin)
    {H : Type*} [NormedAddCommGroup H] [InnerProductSpace ℝ H]
    {A : Fin (clusters.length * N) → Matrix (Fin n) (Fin n) ℝ}
    (hA : ∀ i, A i * (A i)ᵀ = ticcCovTom (ticcNewInv N w S rand clusters lmin)⁻¹ w i)
    {z : Fin (clusters.length * N) → Fin n → H} (hz : WhiteNoise z) (X0 : Fin (clusters.length * N) → Fin n → H)
    (s t : Fin (clusters.length * N)) (a b : Fin n) :
    inner ℝ (ticcRows (ticcNewInv N w S rand clusters lmin)⁻¹ w A z X0 (clusters.length * N) s a)
      (ticcRows (ticcNewInv N w S rand clusters lmin)⁻¹ w A z X0 (clusters.length * N) t b) =
      (ticcNewInv N w S rand clusters lmin)⁻¹ (s, a) (t, b) := by
  obtain ⟨-, h1, -, h2⟩ := C206_precision N w S rand clusters hl
  exact C206_joint_covariance h1 h2 hA hz X0 s t a b

/-- **C206**, finding: the dependence between two rows of the same label is not a function of their distance: where two
consecutive segments of one label meet, some blocks are transposed. -/
theorem C206_stationary_false : ∃ (rand : ℕ → Matrix (Fin 2) (Fin 2) ℝ),
    ticcNewBlock 4 (fun _ => ticcNewBlocks 4 3 0 rand) [0, 0] 2 5 ≠
      ticcNewBlock 4 (fun _ => ticcNewBlocks 4 3 0 rand) [0, 0] 3 6 := by
  refine ⟨fun _ => !![0, 1; 0, 0], fun h => ?_⟩
  have := congrFun (congrFun h 0) 1
  simp [ticcNewBlock, ticcOutDiag, ticcNewBlocks] at this

/-- The factors of the conditional covariances exist. -/
theorem ticc_factor_exists {P : Matrix (Fin M × Fin n) (Fin M × Fin n) ℝ} (hP : P.PosDef) {w : ℕ} (hb : RowBanded w P) :
    ∃ A : Fin M → Matrix (Fin n) (Fin n) ℝ, ∀ i, A i * (A i)ᵀ = ticcCovTom P⁻¹ w i := by
  have h : ∀ i, ∃ A : Matrix (Fin n) (Fin n) ℝ, A * Aᵀ = ticcCovTom P⁻¹ w i := by
    intro i
    have h1 := (ticc_markov hP hb i).2
    have h2 : (ticcCovTom P⁻¹ w i).PosDef := by
      have e : ticcCovTom P⁻¹ w i = (ticcNewPrec P⁻¹ w i)⁻¹ := by
        unfold ticcNewPrec
        rw [nonsing_inv_nonsing_inv _ (IsUnit.of_mul_eq_one _ (by
          rw [← det_mul, mul_eq_one_comm.mp h1, det_one]))]
      rw [e]
      exact (C206_precs hP hb i).1.inv
    obtain ⟨R, hR, hRR⟩ := exists_sqrt h2
    have := hR.isHermitian
    rw [IsHermitian, conjTranspose_eq_transpose_of_trivial] at this
    exact ⟨R, by rw [this]; exact hRR⟩
  choose A hA using h
  exact ⟨A, hA⟩

/-- The hypotheses are met: three clusters of two rows of two variables, window one, with non-zero blocks, the standard
basis as noise, and factors of the conditional covariances. -/
example : ∃ (lmin : Matrix (Fin ([0, 1, 0].length * 2) × Fin 2) (Fin ([0, 1, 0].length * 2) × Fin 2) ℝ → ℝ)
    (A : Fin ([0, 1, 0].length * 2) → Matrix (Fin 2) (Fin 2) ℝ)
    (z : Fin ([0, 1, 0].length * 2) → Fin 2 → EuclideanSpace ℝ (Fin ([0, 1, 0].length * 2) × Fin 2)),
    IsMinEig lmin ∧ WhiteNoise z ∧
    (∀ i, A i * (A i)ᵀ = ticcCovTom (ticcNewInv 2 1 (fun _ => !![0, 1; 0, 0]) (fun _ _ => 1) [0, 1, 0] lmin)⁻¹ 1 i) ∧
    ticcNewInv 2 1 (fun _ => !![0, 1; 0, 0]) (fun _ _ => 1) [0, 1, 0] lmin (0, 0) (1, 0) = 1 := by
  obtain ⟨lmin, h⟩ := exists_isMinEig (m := Fin ([0, 1, 0].length * 2) × Fin 2)
  obtain ⟨-, h1, -, h2⟩ := C206_precision 2 1 (fun _ => !![0, 1; 0, 0]) (fun _ _ => 1) [0, 1, 0] h
  obtain ⟨A, hA⟩ := ticc_factor_exists h1 h2
  refine ⟨lmin, A, fun s a => EuclideanSpace.single (s, a) 1, h, fun s a t b => ?_, hA, ?_⟩
  · rw [EuclideanSpace.inner_single_left]
    simp [Prod.ext_iff]
  · simp [ticcNewInv, ticcNewAssemble, ticcNewBlock, ticcDiag, ticcNewBlocks]

end Verif.Props
