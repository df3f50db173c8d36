import Verif.Props.TiccNew
import Mathlib.Analysis.InnerProductSpace.l2Space

/-! C207: the rows of `make_ticc_dataset` within one cluster; C208: `make_ticc_dataset_v3`. -/

namespace Verif.Props

open Verif.Model Verif.Lemmas Matrix

set_option autoImplicit false
set_option linter.unusedSectionVars false

variable {n w : ℕ} {H : Type*} [NormedAddCommGroup H] [InnerProductSpace ℝ H]

/-- Uncorrelated noise of unit variance, one vector for every row. -/
def WhiteNoiseSeq (z : ℕ → Fin n → H) : Prop :=
  ∀ s a t b, inner ℝ (z s a) (z t b) = if s = t ∧ a = b then (1 : ℝ) else 0

/-- The coefficients of the window in row `i`. -/
noncomputable def oldGain (hw : 0 < w) (P : Matrix (Fin w × Fin n) (Fin w × Fin n) ℝ) (i : ℕ) :
    Matrix (Fin n) (Fin (ticcPast w i) × Fin n) ℝ :=
  (ticcWindowCov hw P i).toBlocks₂₁ * (ticcWindowCov hw P i).toBlocks₁₁⁻¹

theorem oldRow_eq (hw : 0 < w) (P : ℕ → Matrix (Fin w × Fin n) (Fin w × Fin n) ℝ) (A : ℕ → Matrix (Fin n) (Fin n) ℝ)
    (z X : ℕ → Fin n → H) (i : ℕ) (a : Fin n) : ticcOldRow hw P A z X i a =
      ∑ x, oldGain hw (P i) i a x • X (i - ticcPast w i + x.1) x.2 + ∑ b, A i a b • z i b := rfl

theorem windowCov_posDef (hw : 0 < w) {P : Matrix (Fin w × Fin n) (Fin w × Fin n) ℝ} (hP : P.PosDef) (i : ℕ) :
    (ticcWindowCov hw P i).PosDef := hP.inv.submatrix (windowIdx_injective _ _)

theorem oldGain_mul (hw : 0 < w) {P : Matrix (Fin w × Fin n) (Fin w × Fin n) ℝ} (hP : P.PosDef) (i : ℕ) :
    oldGain hw P i * (ticcWindowCov hw P i).toBlocks₁₁ = (ticcWindowCov hw P i).toBlocks₂₁ := by
  unfold oldGain
  rw [Matrix.mul_assoc, nonsing_inv_mul _ (isUnit_iff_ne_zero.mpr
    (condCov_spec (windowCov_posDef hw hP i)).2.2.det_pos.ne'), Matrix.mul_one]

theorem oldRows_keep (hw : 0 < w) (P : ℕ → Matrix (Fin w × Fin n) (Fin w × Fin n) ℝ) (A : ℕ → Matrix (Fin n) (Fin n) ℝ)
    (z X0 : ℕ → Fin n → H) (k s : ℕ) (hs : s < k) : ∀ m, k ≤ m →
    ticcOldRows hw P A z X0 m s = ticcOldRows hw P A z X0 k s := by
  intro m hm
  induction m, hm using Nat.le_induction with
  | base => rfl
  | succ m hm ih =>
    rw [ticcOldRows, Function.update_of_ne (by omega), ih]

/-- A row of the finished data set, from the rows before it. -/
theorem oldRows_row (hw : 0 < w) (P : ℕ → Matrix (Fin w × Fin n) (Fin w × Fin n) ℝ) (A : ℕ → Matrix (Fin n) (Fin n) ℝ)
    (z X0 : ℕ → Fin n → H) (m i : ℕ) (hi : i < m) (a : Fin n) : ticcOldRows hw P A z X0 m i a =
      ∑ x, oldGain hw (P i) i a x • ticcOldRows hw P A z X0 m (i - ticcPast w i + x.1) x.2 + ∑ b, A i a b • z i b := by
  rw [oldRows_keep hw P A z X0 (i + 1) i (by omega) m (by omega), ticcOldRows, Function.update_self, oldRow_eq]
  congr 1
  refine Finset.sum_congr rfl fun x _ => ?_
  have hx : i - ticcPast w i + x.1 < i := by
    have := x.1.2
    have : ticcPast w i ≤ i := min_le_left _ _
    omega
  rw [oldRows_keep hw P A z X0 i _ hx m (by omega)]

/-- No row involves the noise of a later one. -/
theorem oldRows_noise (hw : 0 < w) (P : ℕ → Matrix (Fin w × Fin n) (Fin w × Fin n) ℝ) (A : ℕ → Matrix (Fin n) (Fin n) ℝ)
    {z : ℕ → Fin n → H} (hz : WhiteNoiseSeq z) (X0 : ℕ → Fin n → H) (m : ℕ) (s : ℕ) (hs : s < m) (u : ℕ) (hu : s < u)
    (a b : Fin n) : inner ℝ (ticcOldRows hw P A z X0 m s a) (z u b) = (0 : ℝ) := by
  induction s using Nat.strong_induction_on generalizing a with
  | _ s ih =>
    rw [oldRows_row hw P A z X0 m s hs, inner_add_left, sum_inner, sum_inner]
    have h1 : ∀ x : Fin (ticcPast w s) × Fin n, inner ℝ (oldGain hw (P s) s a x •
        ticcOldRows hw P A z X0 m (s - ticcPast w s + x.1) x.2) (z u b) = (0 : ℝ) := by
      intro x
      have hx : s - ticcPast w s + x.1 < s := by
        have := x.1.2
        have : ticcPast w s ≤ s := min_le_left _ _
        omega
      rw [inner_smul_left, ih _ hx (by omega) (by omega), mul_zero]
    have h2 : ∀ c, inner ℝ (A s a c • z s c) (z u b) = (0 : ℝ) := by
      intro c
      rw [inner_smul_left, hz, if_neg (by omega), mul_zero]
    rw [Finset.sum_eq_zero fun x _ => h1 x, Finset.sum_eq_zero fun c _ => h2 c, add_zero]

/-- The covariance of a row with the noise of its own draw. -/
theorem oldRows_own_noise (hw : 0 < w) (P : ℕ → Matrix (Fin w × Fin n) (Fin w × Fin n) ℝ)
    (A : ℕ → Matrix (Fin n) (Fin n) ℝ)
    {z : ℕ → Fin n → H} (hz : WhiteNoiseSeq z) (X0 : ℕ → Fin n → H) (m : ℕ) (s : ℕ) (hs : s < m) (a b : Fin n) :
    inner ℝ (ticcOldRows hw P A z X0 m s a) (z s b) = A s a b := by
  rw [oldRows_row hw P A z X0 m s hs, inner_add_left, sum_inner, sum_inner]
  have h1 : ∀ x : Fin (ticcPast w s) × Fin n, inner ℝ (oldGain hw (P s) s a x •
      ticcOldRows hw P A z X0 m (s - ticcPast w s + x.1) x.2) (z s b) = (0 : ℝ) := by
    intro x
    have hx : s - ticcPast w s + x.1 < s := by
      have := x.1.2
      have : ticcPast w s ≤ s := min_le_left _ _
      omega
    rw [inner_smul_left, oldRows_noise hw P A hz X0 m _ (by omega) s hx, mul_zero]
  rw [Finset.sum_eq_zero fun x _ => h1 x, zero_add, Finset.sum_eq_single b]
  · rw [inner_smul_left, hz]; simp
  · intro c _ hc
    rw [inner_smul_left, hz]; simp [hc]
  · simp

/-- Covariances of a row with earlier ones and with itself. -/
theorem oldRows_cov (hw : 0 < w) (P : ℕ → Matrix (Fin w × Fin n) (Fin w × Fin n) ℝ)
    (A : ℕ → Matrix (Fin n) (Fin n) ℝ)
    {z : ℕ → Fin n → H} (hz : WhiteNoiseSeq z) (X0 : ℕ → Fin n → H) (m : ℕ) (i : ℕ) (hi : i < m) :
    (∀ t, t < i → ∀ a b, inner ℝ (ticcOldRows hw P A z X0 m i a) (ticcOldRows hw P A z X0 m t b) =
      ∑ x, oldGain hw (P i) i a x * inner ℝ (ticcOldRows hw P A z X0 m (i - ticcPast w i + x.1) x.2)
        (ticcOldRows hw P A z X0 m t b)) ∧
    ∀ a b, inner ℝ (ticcOldRows hw P A z X0 m i a) (ticcOldRows hw P A z X0 m i b) =
      ∑ x, oldGain hw (P i) i b x * inner ℝ (ticcOldRows hw P A z X0 m i a)
        (ticcOldRows hw P A z X0 m (i - ticcPast w i + x.1) x.2) + (A i * (A i)ᵀ) a b := by
  refine ⟨fun t ht a b => ?_, fun a b => ?_⟩
  · conv_lhs => rw [oldRows_row hw P A z X0 m i hi]
    rw [inner_add_left, sum_inner, sum_inner]
    have h2 : ∀ c, inner ℝ (A i a c • z i c) (ticcOldRows hw P A z X0 m t b) = (0 : ℝ) := by
      intro c
      rw [inner_smul_left, real_inner_comm, oldRows_noise hw P A hz X0 m t (by omega) i ht, mul_zero]
    rw [Finset.sum_eq_zero fun c _ => h2 c, add_zero]
    refine Finset.sum_congr rfl fun x _ => ?_
    rw [inner_smul_left]
    rfl
  · conv_lhs => rw [oldRows_row hw P A z X0 m i hi b]
    rw [inner_add_right, inner_sum, inner_sum]
    congr 1
    · refine Finset.sum_congr rfl fun x _ => ?_
      rw [inner_smul_right]
    · rw [Matrix.mul_apply]
      refine Finset.sum_congr rfl fun c _ => ?_
      rw [inner_smul_right, oldRows_own_noise hw P A hz X0 m i hi, mul_comm]
      rfl

/-- **C207**: the first `w_size` rows, if they belong to one cluster, have exactly the covariance returned for that
cluster, all of them together. -/
theorem C207_first_window (hw : 0 < w) {P : ℕ → Matrix (Fin w × Fin n) (Fin w × Fin n) ℝ}
    {Q : Matrix (Fin w × Fin n) (Fin w × Fin n) ℝ} (hQ : Q.PosDef) (hPQ : ∀ i, i < w → P i = Q)
    {A : ℕ → Matrix (Fin n) (Fin n) ℝ} (hA : ∀ i, i < w → A i * (A i)ᵀ = condCov (ticcWindowCov hw Q i))
    {z : ℕ → Fin n → H} (hz : WhiteNoiseSeq z) (X0 : ℕ → Fin n → H) {m : ℕ} (hm : w ≤ m) (s t : Fin w) (a b : Fin n) :
    inner ℝ (ticcOldRows hw P A z X0 m s a) (ticcOldRows hw P A z X0 m t b) = Q⁻¹ (s, a) (t, b) := by
  have hCs : (Q⁻¹).IsSymm := by
    have := hQ.inv.isHermitian
    rwa [IsHermitian, conjTranspose_eq_transpose_of_trivial] at this
  have key : ∀ k, k ≤ w → ∀ (s t : ℕ) (hs : s < w) (ht : t < w), s < k → t < k → ∀ a b,
      inner ℝ (ticcOldRows hw P A z X0 m s a) (ticcOldRows hw P A z X0 m t b) = Q⁻¹ (⟨s, hs⟩, a) (⟨t, ht⟩, b) := by
    intro k
    induction k with
    | zero => intro _ s t _ _ hs; exact absurd hs (Nat.not_lt_zero _)
    | succ k ih =>
      intro hk
      have ih := ih (by omega)
      have hkw : k < w := hk
      have hp : ticcPast w k = k := by unfold ticcPast; omega
      obtain ⟨c1, c2⟩ := oldRows_cov hw P A hz X0 m k (by omega)
      rw [hPQ k hkw] at c1 c2
      have hoff : ∀ x : Fin (ticcPast w k) × Fin n, k - ticcPast w k + (x.1 : ℕ) = x.1 := fun x => by omega
      have hxlt : ∀ x : Fin (ticcPast w k) × Fin n, (x.1 : ℕ) < k := fun x => by have := x.1.2; omega
      have hxw : ∀ x : Fin (ticcPast w k) × Fin n, (x.1 : ℕ) < w := fun x => (hxlt x).trans hkw
      -- the window is the whole past
      have hold : ∀ t (ht : t < w), t < k → ∀ a b, inner ℝ (ticcOldRows hw P A z X0 m k a)
          (ticcOldRows hw P A z X0 m t b) = Q⁻¹ (⟨k, hkw⟩, a) (⟨t, ht⟩, b) := by
        intro t ht htk a b
        rw [c1 t htk a b]
        have h1 := congrFun (congrFun (oldGain_mul hw hQ k) a) (⟨t, by omega⟩, b)
        rw [Matrix.mul_apply] at h1
        have h2 : (ticcWindowCov hw Q k).toBlocks₂₁ a (⟨t, by omega⟩, b) = Q⁻¹ (⟨k, hkw⟩, a) (⟨t, ht⟩, b) := by
          simp only [ticcWindowCov, toBlocks₂₁, of_apply, submatrix_apply, windowIdx, hp]
        rw [← h2, ← h1]
        refine Finset.sum_congr rfl fun x _ => ?_
        rw [hoff x, ih x.1 t (hxw x) ht (hxlt x) htk]
        simp only [ticcWindowCov, toBlocks₁₁, of_apply, submatrix_apply, windowIdx]
      have hself : ∀ a b, inner ℝ (ticcOldRows hw P A z X0 m k a) (ticcOldRows hw P A z X0 m k b) =
          Q⁻¹ (⟨k, hkw⟩, a) (⟨k, hkw⟩, b) := by
        intro a b
        rw [c2 a b, hA k hkw]
        have hsym : condCov (ticcWindowCov hw Q k) a b = condCov (ticcWindowCov hw Q k) b a := by
          have := (condCov_spec (windowCov_posDef hw hQ k)).1.isHermitian
          rw [IsHermitian, conjTranspose_eq_transpose_of_trivial] at this
          exact congrFun (congrFun this.symm a) b
        have h3 : condCov (ticcWindowCov hw Q k) b a = Q⁻¹ (⟨k, hkw⟩, b) (⟨k, hkw⟩, a) -
            ∑ x, oldGain hw Q k b x * Q⁻¹ (⟨k, hkw⟩, a) (⟨x.1, hxw x⟩, x.2) := by
          unfold condCov
          rw [Matrix.sub_apply, Matrix.mul_apply]
          congr 1
          · simp only [ticcWindowCov, toBlocks₂₂, of_apply, submatrix_apply, windowIdx, hp]
          · refine Finset.sum_congr rfl fun x _ => ?_
            congr 1
            simp only [ticcWindowCov, toBlocks₂₁, of_apply, submatrix_apply, windowIdx, hp, transpose_apply]
        rw [hsym, h3, ← hCs.apply (⟨k, hkw⟩, a) (⟨k, hkw⟩, b)]
        have h4 : ∑ x, oldGain hw Q k b x * inner ℝ (ticcOldRows hw P A z X0 m k a)
            (ticcOldRows hw P A z X0 m (k - ticcPast w k + x.1) x.2) =
            ∑ x, oldGain hw Q k b x * Q⁻¹ (⟨k, hkw⟩, a) (⟨x.1, hxw x⟩, x.2) :=
          Finset.sum_congr rfl fun x _ => by rw [hoff x, hold x.1 (hxw x) (hxlt x)]
        rw [h4]
        ring
      intro s t hs ht hsk htk a b
      rcases Nat.lt_succ_iff_lt_or_eq.mp hsk with h1 | rfl <;> rcases Nat.lt_succ_iff_lt_or_eq.mp htk with h2 | h2
      · exact ih s t hs ht h1 h2 a b
      · subst h2
        rw [real_inner_comm, hold s hs h1, ← hCs.apply]
      · exact hold t ht h2 a b
      · subst h2
        exact hself a b
  exact key w le_rfl s t s.2 t.2 s.2 t.2 a b

/-- The last row of the window, and the ones before it. -/
theorem old_gain_precision (hw : 0 < w) {Q : Matrix (Fin w × Fin n) (Fin w × Fin n) ℝ} (hQ : Q.PosDef) {i : ℕ}
    (hi : w - 1 ≤ i) (a : Fin n) (x : Fin (ticcPast w i) × Fin n) :
    Q (⟨w - 1, by omega⟩, a) (⟨x.1, by have := x.1.2; unfold ticcPast at this; omega⟩, x.2) =
      -∑ b, Q (⟨w - 1, by omega⟩, a) (⟨w - 1, by omega⟩, b) * oldGain hw Q i b x := by
  have hp : ticcPast w i = w - 1 := by unfold ticcPast; omega
  have hc : ticcPast w i < w := by omega
  have h := markov_regression (ec := fun a : Fin n => windowIdx (n := n) (ticcPast w i) hc (.inr a))
    (ew := fun x => windowIdx (n := n) (ticcPast w i) hc (.inl x)) (ef := fun e : Empty => e.elim) hQ
    (fun a b hab => Sum.inr_injective (windowIdx_injective _ _ hab))
    (fun a b hab => Sum.inl_injective (windowIdx_injective _ _ hab))
    (fun a => a.elim)
    (fun x y hxy => by have := windowIdx_injective _ _ hxy; simp at this)
    (fun x y => y.elim) (fun x y => y.elim)
    (fun v h1 h2 _ => by
      exfalso
      obtain ⟨⟨v, hv⟩, c⟩ := v
      rcases Nat.lt_or_ge v (ticcPast w i) with h | h
      · exact h1 (⟨v, h⟩, c) rfl
      · refine h2 c ?_
        simp only [windowIdx, Prod.mk.injEq, Fin.mk.injEq, and_true]
        omega)
  have h3 := congrFun (congrFun h.2.2 a) x
  have e1 : ∀ (B : Matrix Empty (Fin (ticcPast w i) × Fin n) ℝ) (D : Matrix (Fin n) Empty ℝ), D * B = 0 := by
    intro B D; ext a b; simp [Matrix.mul_apply]
  have e2 : ∀ (B : Matrix Empty (Fin n) ℝ) (D : Matrix (Fin n) Empty ℝ), D * B = 0 := by
    intro B D; ext a b; simp [Matrix.mul_apply]
  rw [e1, e2, sub_zero, sub_zero, Matrix.neg_apply, Matrix.mul_apply] at h3
  have hG : Q⁻¹.submatrix (fun a : Fin n => windowIdx (n := n) (ticcPast w i) hc (.inr a))
      (fun x => windowIdx (n := n) (ticcPast w i) hc (.inl x)) *
      (Q⁻¹.submatrix (fun x => windowIdx (n := n) (ticcPast w i) hc (.inl x))
      (fun x => windowIdx (n := n) (ticcPast w i) hc (.inl x)))⁻¹ = oldGain hw Q i := rfl
  rw [hG] at h3
  simp only [submatrix_apply, windowIdx, hp] at h3
  exact h3

/-- **C207**: from row `w_size - 1` on, rows of a cluster follow the autoregression given by the last block row of the
cluster's precision `Q`: `Q_ll X_i + ∑_j Q_lj X_{i-w+1+j}` is `Q_ll` times the new noise. -/
theorem C207_autoregression (hw : 0 < w) {P : ℕ → Matrix (Fin w × Fin n) (Fin w × Fin n) ℝ}
    {Q : Matrix (Fin w × Fin n) (Fin w × Fin n) ℝ} (hQ : Q.PosDef) {i m : ℕ} (hPQ : P i = Q) (hi : w - 1 ≤ i) (him : i < m)
    (A : ℕ → Matrix (Fin n) (Fin n) ℝ) (z : ℕ → Fin n → H) (X0 : ℕ → Fin n → H) (a : Fin n) :
    ∑ b, Q (⟨w - 1, by omega⟩, a) (⟨w - 1, by omega⟩, b) • ticcOldRows hw P A z X0 m i b +
      ∑ x : Fin (ticcPast w i) × Fin n, Q (⟨w - 1, by omega⟩, a) (⟨x.1, by
        have := x.1.2; unfold ticcPast at this; omega⟩, x.2) • ticcOldRows hw P A z X0 m (i - (w - 1) + x.1) x.2 =
      ∑ b, Q (⟨w - 1, by omega⟩, a) (⟨w - 1, by omega⟩, b) • ∑ c, A i b c • z i c := by
  have hp : ticcPast w i = w - 1 := by unfold ticcPast; omega
  have h1 : ∀ b, ticcOldRows hw P A z X0 m i b = ∑ x, oldGain hw Q i b x •
      ticcOldRows hw P A z X0 m (i - (w - 1) + x.1) x.2 + ∑ c, A i b c • z i c := by
    intro b
    rw [oldRows_row hw P A z X0 m i him, hPQ]
    congr 1
    refine Finset.sum_congr rfl fun x _ => ?_
    have e : i - ticcPast w i + x.1 = i - (w - 1) + x.1 := by omega
    rw [e]
  have h2 : ∑ x : Fin (ticcPast w i) × Fin n, Q (⟨w - 1, by omega⟩, a) (⟨x.1, by
        have := x.1.2; unfold ticcPast at this; omega⟩, x.2) • ticcOldRows hw P A z X0 m (i - (w - 1) + x.1) x.2 =
      -∑ b, Q (⟨w - 1, by omega⟩, a) (⟨w - 1, by omega⟩, b) • ∑ x, oldGain hw Q i b x •
        ticcOldRows hw P A z X0 m (i - (w - 1) + x.1) x.2 := by
    rw [Finset.sum_congr rfl fun x _ => by rw [old_gain_precision hw hQ hi a x]]
    simp only [neg_smul, Finset.sum_smul, Finset.sum_neg_distrib, Finset.smul_sum, mul_smul]
    rw [Finset.sum_comm]
  rw [h2, Finset.sum_congr rfl fun b _ => by rw [h1 b, smul_add], Finset.sum_add_distrib]
  abel

/-- **C207**: that new noise is uncorrelated with the rows before and has covariance `Q_ll`. -/
theorem C207_innovation (hw : 0 < w) {P : ℕ → Matrix (Fin w × Fin n) (Fin w × Fin n) ℝ}
    {Q : Matrix (Fin w × Fin n) (Fin w × Fin n) ℝ} (hQ : Q.PosDef) {i m : ℕ} (hi : w - 1 ≤ i)
    {A : ℕ → Matrix (Fin n) (Fin n) ℝ} (hA : A i * (A i)ᵀ = condCov (ticcWindowCov hw Q i)) {z : ℕ → Fin n → H}
    (hz : WhiteNoiseSeq z) (X0 : ℕ → Fin n → H) :
    let e : Fin n → H := fun a => ∑ b, Q (⟨w - 1, by omega⟩, a) (⟨w - 1, by omega⟩, b) • ∑ c, A i b c • z i c
    (∀ a b, inner ℝ (e a) (e b) = Q (⟨w - 1, by omega⟩, a) (⟨w - 1, by omega⟩, b)) ∧
    ∀ s, s < i → s < m → ∀ a b, inner ℝ (ticcOldRows hw P A z X0 m s b) (e a) = (0 : ℝ) := by
  intro e
  set L : Matrix (Fin n) (Fin n) ℝ := Matrix.of fun a b => Q (⟨w - 1, by omega⟩, a) (⟨w - 1, by omega⟩, b) with hL
  have hprec : (condCov (ticcWindowCov hw Q i))⁻¹ = L := by
    ext a b
    exact (C119_conditional hw hQ i).2.2 hi a b
  have hLs : Lᵀ = L := by
    have := hQ.isHermitian
    rw [IsHermitian, conjTranspose_eq_transpose_of_trivial] at this
    ext a b
    exact congrFun (congrFun this _) _
  have hcc : condCov (ticcWindowCov hw Q i) * L = 1 := by
    rw [← hprec]
    exact mul_nonsing_inv _ (isUnit_iff_ne_zero.mpr (condCov_spec (windowCov_posDef hw hQ i)).1.det_pos.ne')
  have he : ∀ a, e a = ∑ c, (L * A i) a c • z i c := by
    intro a
    have h1 : e a = ∑ b, L a b • ∑ c, A i b c • z i c := rfl
    rw [h1]
    simp only [Finset.smul_sum, Matrix.mul_apply, Finset.sum_smul, mul_smul]
    rw [Finset.sum_comm]
  refine ⟨fun a b => ?_, fun s hs hsm a b => ?_⟩
  · have h1 : inner ℝ (e a) (e b) = (L * A i * (L * A i)ᵀ) a b := by
      rw [he a, he b, sum_inner, Matrix.mul_apply]
      refine Finset.sum_congr rfl fun c _ => ?_
      rw [inner_smul_left, inner_sum, Finset.sum_eq_single c]
      · rw [inner_smul_right, hz]; simp
      · intro d _ hd
        rw [inner_smul_right, hz]; simp [Ne.symm hd]
      · simp
    rw [h1, transpose_mul, hLs, Matrix.mul_assoc, ← Matrix.mul_assoc (A i), hA, hcc, Matrix.mul_one]
    rfl
  · rw [he a, inner_sum]
    refine Finset.sum_eq_zero fun c _ => ?_
    rw [inner_smul_right, oldRows_noise hw P A hz X0 m s hsm i hs, mul_zero]

/-- The precision of the finding: a window of three rows of one variable. -/
def toepThree : Matrix (Fin 3 × Fin 1) (Fin 3 × Fin 1) ℝ :=
  Matrix.of fun x y => (!![2, 1, 0; 1, 2, 1; 0, 1, 2] : Matrix (Fin 3) (Fin 3) ℝ) x.1 y.1

theorem toepThree_posDef : toepThree.PosDef := by
  refine PosDef.of_dotProduct_mulVec_pos ?_ fun x hx => ?_
  · ext ⟨i, a⟩ ⟨j, b⟩
    fin_cases i <;> fin_cases j <;> simp [toepThree]
  · have e : star x ⬝ᵥ toepThree *ᵥ x = x (0, 0) ^ 2 + (x (0, 0) + x (1, 0)) ^ 2 + (x (1, 0) + x (2, 0)) ^ 2
        + x (2, 0) ^ 2 := by
      simp [dotProduct, mulVec, Fintype.sum_prod_type, Fin.sum_univ_three, toepThree]
      ring
    rw [e]
    by_contra h
    push Not at h
    have h0 : x (0, 0) = 0 := by
      have : x (0, 0) ^ 2 = 0 := by nlinarith [sq_nonneg (x (0, 0)), sq_nonneg (x (0, 0) + x (1, 0)), sq_nonneg (x (1, 0) + x (2, 0)), sq_nonneg (x (2, 0))]
      exact pow_eq_zero_iff (two_ne_zero) |>.mp this
    have h2 : x (2, 0) = 0 := by
      have : x (2, 0) ^ 2 = 0 := by nlinarith [sq_nonneg (x (0, 0)), sq_nonneg (x (0, 0) + x (1, 0)), sq_nonneg (x (1, 0) + x (2, 0)), sq_nonneg (x (2, 0))]
      exact pow_eq_zero_iff (two_ne_zero) |>.mp this
    have h1 : x (1, 0) = 0 := by
      rw [h0, h2] at h
      have : x (1, 0) ^ 2 = 0 := by nlinarith [sq_nonneg (x (1, 0))]
      exact pow_eq_zero_iff (two_ne_zero) |>.mp this
    refine hx (funext fun ⟨i, a⟩ => ?_)
    have ha : a = 0 := Subsingleton.elim _ _
    subst ha
    fin_cases i
    · exact h0
    · exact h1
    · exact h2

theorem toepThree_inv : toepThree⁻¹ =
    Matrix.of fun x y => (!![3 / 4, -1 / 2, 1 / 4; -1 / 2, 1, -1 / 2; 1 / 4, -1 / 2, 3 / 4] : Matrix (Fin 3) (Fin 3) ℝ) x.1 y.1 := by
  refine inv_eq_left_inv ?_
  ext ⟨i, a⟩ ⟨j, b⟩
  have ha : a = 0 := Subsingleton.elim _ _
  have hb : b = 0 := Subsingleton.elim _ _
  subst ha hb
  fin_cases i <;> fin_cases j <;>
    simp [Matrix.mul_apply, Fintype.sum_prod_type, Fin.sum_univ_three, toepThree, one_apply] <;> norm_num

/-- **C207**, finding: later windows of the same cluster do not have the covariance of the cluster. With the block
Toeplitz precision `[2 1 0; 1 2 1; 0 1 2]` the fourth row has variance 11/16, where the covariance of the cluster says
3/4 for the last row of a window, whatever the noise. -/
theorem C207_later_window_false : toepThree.PosDef ∧
    (∀ (A : ℕ → Matrix (Fin 1) (Fin 1) ℝ), (∀ i, A i * (A i)ᵀ = condCov (ticcWindowCov (by norm_num) toepThree i)) →
      ∀ z : ℕ → Fin 1 → H, WhiteNoiseSeq z → ∀ (X0 : ℕ → Fin 1 → H) (m : ℕ), 4 ≤ m →
      inner ℝ (ticcOldRows (by norm_num) (fun _ => toepThree) A z X0 m 3 0)
        (ticcOldRows (by norm_num) (fun _ => toepThree) A z X0 m 3 0) = (11 / 16 : ℝ)) ∧
    toepThree⁻¹ (2, 0) (2, 0) = 3 / 4 := by
  refine ⟨toepThree_posDef, fun A hA z hz X0 m hm => ?_, by rw [toepThree_inv]; simp⟩
  have hw : 0 < 3 := by norm_num
  have h2 : inner ℝ (ticcOldRows hw (fun _ => toepThree) A z X0 m 2 0) (ticcOldRows hw (fun _ => toepThree) A z X0 m 2 0)
      = (3 / 4 : ℝ) := by
    have h := C207_first_window hw (P := fun _ => toepThree) toepThree_posDef (fun _ _ => rfl) (fun i _ => hA i) hz X0
      (m := m) (by omega) 2 2 0 0
    rw [toepThree_inv] at h
    simpa using h
  have har := C207_autoregression hw (P := fun _ => toepThree) (i := 3) (m := m) toepThree_posDef rfl (by norm_num) (by omega)
    A z X0 0
  have hin := C207_innovation (i := 3) (m := m) (P := fun _ => toepThree) hw toepThree_posDef (by norm_num) (hA 3) hz X0
  set e : Fin 1 → H := fun a => ∑ b, toepThree (⟨3 - 1, by omega⟩, a) (⟨3 - 1, by omega⟩, b) • ∑ c, A 3 b c • z 3 c with he
  have hee := hin.1 0 0
  have hxe := hin.2 2 (by norm_num) (by omega) 0 0
  change inner ℝ (e 0) (e 0) = _ at hee
  change inner ℝ _ (e 0) = _ at hxe
  change _ = e 0 at har
  set X := ticcOldRows hw (fun _ => toepThree) A z X0 m with hX
  have hval : (2 : ℝ) • X 3 0 + X 2 0 = e 0 := by
    rw [← har]
    have hp : ticcPast 3 3 = 2 := rfl
    have e1 : ∑ x : Fin (ticcPast 3 3) × Fin 1, toepThree (⟨3 - 1, by omega⟩, 0) (⟨x.1, by
        have := x.1.2; unfold ticcPast at this; omega⟩, x.2) • X (3 - (3 - 1) + x.1) x.2 = X 2 0 := by
      change ∑ x : Fin 2 × Fin 1, _ = _
      rw [Fintype.sum_prod_type, Fin.sum_univ_two]
      simp [toepThree]
    rw [e1]
    simp [toepThree]
  have h3 : X 3 0 = (1 / 2 : ℝ) • (e 0 - X 2 0) := by
    rw [← hval, add_sub_cancel_right, smul_smul]
    norm_num
  have hl : toepThree (⟨3 - 1, by omega⟩, 0) (⟨3 - 1, by omega⟩, 0) = 2 := by simp [toepThree]
  rw [hl] at hee
  rw [h3, inner_smul_left, inner_smul_right, inner_sub_left, inner_sub_right, inner_sub_right, hee, h2,
    real_inner_comm, hxe]
  norm_num

/-- The hypotheses are met: square summable sequences contain such noise, and the factors exist. -/
example : (∃ z : ℕ → Fin 1 → lp (fun _ : ℕ × Fin 1 => ℝ) 2, WhiteNoiseSeq z) ∧
    ∃ A : ℕ → Matrix (Fin 1) (Fin 1) ℝ, ∀ i, A i * (A i)ᵀ = condCov (ticcWindowCov (by norm_num) toepThree i) := by
  constructor
  · let b : HilbertBasis (ℕ × Fin 1) ℝ (lp (fun _ : ℕ × Fin 1 => ℝ) 2) := HilbertBasis.ofRepr (LinearIsometryEquiv.refl ℝ _)
    refine ⟨fun s a => b (s, a), fun s a t c => ?_⟩
    have := orthonormal_iff_ite.mp b.orthonormal (s, a) (t, c)
    rw [this]
    simp only [Prod.mk.injEq]
  · have h : ∀ i, ∃ A : Matrix (Fin 1) (Fin 1) ℝ, A * Aᵀ = condCov (ticcWindowCov (by norm_num) toepThree i) := by
      intro i
      obtain ⟨R, hR, hRR⟩ := exists_sqrt (condCov_spec (windowCov_posDef (by norm_num) toepThree_posDef i)).1
      have := hR.isHermitian
      rw [IsHermitian, conjTranspose_eq_transpose_of_trivial] at this
      exact ⟨R, by rw [this]; exact hRR⟩
    choose A hA using h
    exact ⟨A, hA⟩

/-! ### C208 -/

/-- The precision of `make_ticc_dataset_v3` has no entry between different times, whatever the window. -/
theorem v3_diagonal (w : ℕ) (S : ℕ → Matrix (Fin n) (Fin n) ℝ) (rand : ℕ → ℕ → Matrix (Fin n) (Fin n) ℝ)
    (clusters : List ℕ)
    (lmin : Matrix (Fin (clusters.length * 1) × Fin n) (Fin (clusters.length * 1) × Fin n) ℝ → ℝ)
    {s t : Fin (clusters.length * 1)} (hst : s ≠ t) (a b : Fin n) :
    ticcV3Inv w S rand clusters lmin (s, a) (t, b) = 0 := by
  have hne : (s, a) ≠ (t, b) := fun h => hst (Prod.mk.inj h).1
  unfold ticcV3Inv ticcNewInv
  rw [Matrix.add_apply, Matrix.smul_apply, one_apply_ne hne, smul_zero, add_zero]
  have h1 : ∀ r i, 0 < i → ticcNewBlocks 1 w (S r) (rand r) i = 0 := by
    intro r i hi
    unfold ticcNewBlocks
    rw [if_neg (by omega)]
  have h2 : ticcNewBlock 1 (fun r => ticcNewBlocks 1 w (S r) (rand r)) clusters s t = 0 := by
    have hv : (s : ℕ) ≠ t := fun h => hst (Fin.ext h)
    unfold ticcNewBlock
    rw [Nat.div_one, Nat.div_one, if_neg (Ne.symm hv)]
    simp only [Nat.mod_one, ticcOutDiag, Nat.sub_zero, Nat.add_zero, h1 _ 1 one_pos, transpose_zero, ite_self]
  exact congrFun (congrFun h2 a) b

/-- **C208**, finding: in `make_ticc_dataset_v3` different times are independent, for every window, clusters and draws:
`inv` has no entry between different times. -/
theorem C208_dependence_false (w : ℕ) (S : ℕ → Matrix (Fin n) (Fin n) ℝ) (rand : ℕ → ℕ → Matrix (Fin n) (Fin n) ℝ)
    (clusters : List ℕ)
    {lmin : Matrix (Fin (clusters.length * 1) × Fin n) (Fin (clusters.length * 1) × Fin n) ℝ → ℝ} (hl : IsMinEig lmin) :
    (ticcV3Inv w S rand clusters lmin).PosDef ∧
    ∀ (s t : Fin (clusters.length * 1)) (a b : Fin n), s ≠ t → ticcV3Inv w S rand clusters lmin (s, a) (t, b) = 0 ∧
      (ticcV3Inv w S rand clusters lmin)⁻¹ (s, a) (t, b) = 0 := by
  have hP : (ticcV3Inv w S rand clusters lmin).PosDef := (C206_precision 1 w S rand clusters hl).2.1
  refine ⟨hP, fun s t a b hst => ⟨v3_diagonal w S rand clusters lmin hst a b, ?_⟩⟩
  have hb : RowBanded 0 (ticcV3Inv w S rand clusters lmin) := fun s t a b h =>
    v3_diagonal w S rand clusters lmin (by rintro rfl; omega) a b
  have hempty : ∀ i : Fin (clusters.length * 1), IsEmpty (TiccWin 0 i) := fun i => ⟨fun x => by have := x.2; omega⟩
  have key : ∀ (s t : Fin (clusters.length * 1)) (a b : Fin n), t < s →
      (ticcV3Inv w S rand clusters lmin)⁻¹ (s, a) (t, b) = 0 := by
    intro s t a b h
    have := hempty s
    rw [(ticc_markov hP hb s).1 t b h a]
    exact Finset.sum_of_isEmpty _
  rcases lt_or_gt_of_ne hst with h | h
  · have hCs := hP.inv.isHermitian
    rw [IsHermitian, conjTranspose_eq_transpose_of_trivial] at hCs
    rw [← hCs]
    exact key t s b a h
  · exact key s t a b h

/-- **C208**: so the rows drawn before have no influence on the mean, which is zero, and `precs` and `sparse_precs` are
the same matrices. -/
theorem C208_no_past (w : ℕ) (S : ℕ → Matrix (Fin n) (Fin n) ℝ) (rand : ℕ → ℕ → Matrix (Fin n) (Fin n) ℝ)
    (clusters : List ℕ)
    {lmin : Matrix (Fin (clusters.length * 1) × Fin n) (Fin (clusters.length * 1) × Fin n) ℝ → ℝ} (hl : IsMinEig lmin)
    (i : Fin (clusters.length * 1)) :
    (∀ X a, ticcV3Mean (ticcV3Inv w S rand clusters lmin)⁻¹ w X i a = 0) ∧
    ticcNewPrec (ticcV3Inv w S rand clusters lmin)⁻¹ w i = ticcSparsePrec (ticcV3Inv w S rand clusters lmin) i ∧
    ∀ A X z r a, ticcV3Samples (ticcV3Inv w S rand clusters lmin)⁻¹ w A X i z r a = ∑ b, A i a b * z r b := by
  obtain ⟨hP, h⟩ := C208_dependence_false w S rand clusters hl
  have hg : ticcGain (ticcV3Inv w S rand clusters lmin)⁻¹ w i = 0 := by
    unfold ticcGain
    have : (ticcV3Inv w S rand clusters lmin)⁻¹.submatrix (curPos (n := n) i) (winPos w i) = 0 := by
      ext a x
      refine (h i x.1.1 a x.2 ?_).2
      intro e
      have := x.1.2.2
      rw [← e] at this
      exact absurd this (lt_irrefl _)
    rw [this, Matrix.zero_mul]
  have hm : ∀ X a, ticcV3Mean (ticcV3Inv w S rand clusters lmin)⁻¹ w X i a = 0 := by
    intro X a
    unfold ticcV3Mean
    simp [hg]
  refine ⟨hm, ?_, fun A X z r a => by unfold ticcV3Samples; rw [hm, zero_add]⟩
  have hb : RowBanded w (ticcV3Inv w S rand clusters lmin) := fun s t a b hst =>
    v3_diagonal w S rand clusters lmin (by rintro rfl; omega) a b
  have h2 := (ticc_markov hP hb i).2
  have h3 : (ticcV3Inv w S rand clusters lmin).submatrix (curPos (n := n) i) (futPos i) = 0 := by
    ext a x
    exact (h i x.1.1 a x.2 (ne_of_lt x.1.2)).1
  rw [h3, Matrix.zero_mul, Matrix.zero_mul, sub_zero] at h2
  unfold ticcNewPrec
  exact inv_eq_left_inv h2

/-- Non-vacuity for C208: the smallest eigenvalue exists. -/
example : ∃ lmin : Matrix (Fin ([0, 1, 0].length * 1) × Fin 2) (Fin ([0, 1, 0].length * 1) × Fin 2) ℝ → ℝ,
    IsMinEig lmin ∧ ticcV3Inv 5 (fun _ => !![0, 1; 0, 0]) (fun _ _ => 1) [0, 1, 0] lmin (0, 0) (0, 1) = 1 := by
  obtain ⟨lmin, h⟩ := exists_isMinEig (m := Fin ([0, 1, 0].length * 1) × Fin 2)
  exact ⟨lmin, h, by simp [ticcV3Inv, ticcNewInv, ticcNewAssemble, ticcNewBlock, ticcDiag, ticcNewBlocks, genInvCov]⟩

end Verif.Props
