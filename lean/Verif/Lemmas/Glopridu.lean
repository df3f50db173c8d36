import Verif.Model.Glopridu
import Verif.Spec.Linear
import Verif.Lemmas.Spectral
import Mathlib.Analysis.SpecificLimits.Basic
import Mathlib.Algebra.Order.Chebyshev
import Mathlib.Algebra.BigOperators.Field

/-! The dual Newton method of `glo_prox`: its objective, its direction and its line search. -/

namespace Verif.Lemmas

open Verif.Model Verif.Spec Matrix Filter

set_option autoImplicit false
set_option linter.unusedSectionVars false

/-! ### Pseudo-inverses -/

section Pinv

variable {J : Type*} [Fintype J]

theorem pinv_unique {M X Y : Matrix J J ℝ} (hX : IsPinv M X) (hY : IsPinv M Y) : X = Y := by
  have h1 : M * X = M * Y := by
    calc M * X = (M * Y * M) * X := by rw [hY.mxm]
      _ = (M * Y) * (M * X) := by rw [Matrix.mul_assoc]
      _ = (M * Y)ᵀ * (M * X)ᵀ := by rw [hY.mx, hX.mx]
      _ = (M * X * (M * Y))ᵀ := (Matrix.transpose_mul _ _).symm
      _ = (M * X * M * Y)ᵀ := by rw [Matrix.mul_assoc (M * X)]
      _ = M * Y := by rw [hX.mxm, hY.mx]
  have h2 : X * M = Y * M := by
    calc X * M = X * (M * Y * M) := by rw [hY.mxm]
      _ = (X * M) * (Y * M) := by simp only [Matrix.mul_assoc]
      _ = (X * M)ᵀ * (Y * M)ᵀ := by rw [hY.xm, hX.xm]
      _ = (Y * M * (X * M))ᵀ := (Matrix.transpose_mul _ _).symm
      _ = (Y * (M * X * M))ᵀ := by simp only [Matrix.mul_assoc]
      _ = Y * M := by rw [hX.mxm, hY.xm]
  calc X = X * M * X := hX.xmx.symm
    _ = Y * M * X := by rw [h2]
    _ = Y * (M * Y) := by rw [Matrix.mul_assoc, h1]
    _ = Y := by rw [← Matrix.mul_assoc, hY.xmx]

theorem pinv_symm {M X : Matrix J J ℝ} (hM : Mᵀ = M) (h : IsPinv M X) : Xᵀ = X := by
  refine pinv_unique (M := M) ⟨?_, ?_, ?_, ?_⟩ h
  · have := congrArg Matrix.transpose h.mxm
    simpa only [Matrix.transpose_mul, hM, Matrix.mul_assoc] using this
  · have := congrArg Matrix.transpose h.xmx
    simpa only [Matrix.transpose_mul, hM, Matrix.mul_assoc] using this
  · have := h.xm
    simp only [Matrix.transpose_mul, hM, Matrix.transpose_transpose] at this ⊢
    exact this.symm
  · have := h.mx
    simp only [Matrix.transpose_mul, hM, Matrix.transpose_transpose] at this ⊢
    exact this.symm

/-- The quadratic form of the pseudo-inverse is that of the matrix at the solution. -/
theorem pinv_quad {M X : Matrix J J ℝ} (hM : Mᵀ = M) (h : IsPinv M X) (g : J → ℝ) :
    g ⬝ᵥ (X *ᵥ g) = (X *ᵥ g) ⬝ᵥ (M *ᵥ (X *ᵥ g)) := by
  have hX := pinv_symm hM h
  conv_lhs => rw [← h.xmx]
  rw [← Matrix.mulVec_mulVec, ← Matrix.mulVec_mulVec, Matrix.dotProduct_mulVec, ← Matrix.mulVec_transpose,
    hX]

/-- A vector in the range solving the projected system is the one the pseudo-inverse picks. -/
theorem pinv_apply_eq {M X : Matrix J J ℝ} (hM : Mᵀ = M) (h : IsPinv M X) {g p y : J → ℝ}
    (hp : p = M *ᵥ y) (hg : M *ᵥ (M *ᵥ p) = M *ᵥ g) : X *ᵥ g = p := by
  have h1 : X *ᵥ (M *ᵥ p) = p := by
    have e : X * M * M = M := by
      rw [← h.xm, Matrix.transpose_mul, hM, pinv_symm hM h, h.mxm]
    rw [hp, Matrix.mulVec_mulVec, Matrix.mulVec_mulVec, e]
  have h2 : X * X * M = X := by
    have e : X * M = M * X := by
      have := h.xm
      rw [Matrix.transpose_mul, hM, pinv_symm hM h] at this
      exact this.symm
    rw [Matrix.mul_assoc, e, ← Matrix.mul_assoc, h.xmx]
  calc X *ᵥ g = (X * X * M) *ᵥ g := by rw [h2]
    _ = X *ᵥ (X *ᵥ (M *ᵥ g)) := by rw [Matrix.mulVec_mulVec, Matrix.mulVec_mulVec]
    _ = X *ᵥ (X *ᵥ (M *ᵥ (M *ᵥ p))) := by rw [hg]
    _ = (X * X * M) *ᵥ (M *ᵥ p) := by rw [Matrix.mulVec_mulVec, Matrix.mulVec_mulVec]
    _ = p := by rw [h2, h1]

/-- Symmetric matrices have a pseudo-inverse. -/
theorem exists_pinv [DecidableEq J] {M : Matrix J J ℝ} (hM : M.IsSymm) : ∃ X, IsPinv M X := by
  obtain ⟨Q, e, hQ⟩ := exists_isEigh hM
  have hm : ∀ f g : J → ℝ, (Q * diagonal f * Qᵀ) * (Q * diagonal g * Qᵀ) =
      Q * diagonal (fun k => f k * g k) * Qᵀ := by
    intro f g
    calc _ = Q * diagonal f * (Qᵀ * Q) * diagonal g * Qᵀ := by simp only [Matrix.mul_assoc]
      _ = _ := by
        rw [hQ.orth', Matrix.mul_one, Matrix.mul_assoc Q, Matrix.diagonal_mul_diagonal]
  have ht : ∀ f : J → ℝ, (Q * diagonal f * Qᵀ)ᵀ = Q * diagonal f * Qᵀ := by
    intro f
    rw [Matrix.transpose_mul, Matrix.transpose_mul, Matrix.transpose_transpose, Matrix.diagonal_transpose,
      Matrix.mul_assoc]
  refine ⟨Q * diagonal (fun k => (e k)⁻¹) * Qᵀ, ?_, ?_, ?_, ?_⟩
  · rw [hQ.decomp, hm, hm]
    congr 2
    congr 1
    funext k
    by_cases h : e k = 0
    · simp [h]
    · field_simp
  · rw [hQ.decomp, hm, hm]
    congr 2
    congr 1
    funext k
    by_cases h : e k = 0
    · simp [h]
    · field_simp
  · rw [hQ.decomp, hm, ht]
  · rw [hQ.decomp, hm, ht]

end Pinv

/-! ### The dual objective -/

variable {ι κ : Type*} [Fintype ι] [DecidableEq ι] [Fintype κ] [DecidableEq κ]

theorem gloS_nonneg (a : GloArgs ι κ) {lam : ι → ℝ} (h : ∀ g, 0 ≤ lam g) (i : κ) : 0 ≤ gloS a lam i :=
  Finset.sum_nonneg fun g _ => by split_ifs; exacts [h g, le_rfl]

theorem gloS_sub (a : GloArgs ι κ) (x y : ι → ℝ) (i : κ) :
    gloS a (fun g => x g - y g) i = gloS a x i - gloS a y i := by
  unfold gloS
  rw [← Finset.sum_sub_distrib]
  exact Finset.sum_congr rfl fun g _ => by split_ifs <;> ring

/-- Exchange of the sums over blocks and features. -/
theorem sum_blocks (a : GloArgs ι κ) (q : κ → ℝ) (x : ι → ℝ) :
    ∑ g, x g * ∑ i ∈ a.blocks g, q i = ∑ i, q i * gloS a x i := by
  unfold gloS
  simp only [Finset.mul_sum]
  rw [Finset.sum_comm]
  refine Finset.sum_congr rfl fun g _ => ?_
  rw [← Finset.sum_filter_add_sum_filter_not Finset.univ (fun i => i ∈ a.blocks g)]
  have h1 : (Finset.univ.filter fun i => i ∈ a.blocks g) = a.blocks g := by ext i; simp
  have h2 : ∑ i ∈ Finset.univ.filter (fun i => i ∉ a.blocks g),
      q i * (if i ∈ a.blocks g then x g else 0) = 0 :=
    Finset.sum_eq_zero fun i hi => by
      rw [if_neg (Finset.mem_filter.mp hi).2, mul_zero]
  rw [h2, add_zero, h1]
  exact Finset.sum_congr rfl fun i hi => by rw [if_pos hi, mul_comm]

/-- The objective that the multipliers minimise. -/
noncomputable def gloDual (a : GloArgs ι κ) (lam : ι → ℝ) : ℝ :=
  (∑ g, a.weights g * lam g) + ∑ i, a.w0 i ^ 2 / (1 + gloS a lam i)

theorem gloFdiff_eq (a : GloArgs ι κ) {lam lamM : ι → ℝ} (h : ∀ g, 0 ≤ lam g) (hM : ∀ g, 0 ≤ lamM g) :
    gloFdiff a lam lamM = gloDual a lam - gloDual a lamM := by
  unfold gloFdiff gloDual
  have e1 : ∑ i, a.w0 i ^ 2 * (gloS a (fun g => lamM g - lam g) i
      / ((1 + gloS a lamM i) * (1 + gloS a lam i))) =
      (∑ i, a.w0 i ^ 2 / (1 + gloS a lam i)) - ∑ i, a.w0 i ^ 2 / (1 + gloS a lamM i) := by
    rw [← Finset.sum_sub_distrib]
    refine Finset.sum_congr rfl fun i _ => ?_
    rw [gloS_sub]
    have h1 := gloS_nonneg a h i
    have h2 := gloS_nonneg a hM i
    field_simp
    ring
  have e2 : ∑ g, a.weights g * (lam g - lamM g) =
      (∑ g, a.weights g * lam g) - ∑ g, a.weights g * lamM g := by
    rw [← Finset.sum_sub_distrib]
    exact Finset.sum_congr rfl fun g _ => by ring
  rw [e1, e2]
  ring

theorem sum_grad (a : GloArgs ι κ) (lam x : ι → ℝ) :
    ∑ g, gloGrad a lam g * x g = (∑ g, a.weights g * x g)
      - ∑ i, (a.w0 i * (1 / (1 + gloS a lam i))) ^ 2 * gloS a x i := by
  rw [← sum_blocks a (fun i => (a.w0 i * (1 / (1 + gloS a lam i))) ^ 2) x, ← Finset.sum_sub_distrib]
  exact Finset.sum_congr rfl fun g _ => by unfold gloGrad; ring

theorem gloS_sq_le (a : GloArgs ι κ) (x : ι → ℝ) (i : κ) :
    gloS a x i ^ 2 ≤ Fintype.card ι * ∑ g, x g ^ 2 := by
  unfold gloS
  have h := sq_sum_le_card_mul_sum_sq (s := Finset.univ)
    (f := fun g => if i ∈ a.blocks g then x g else 0)
  rw [Finset.card_univ] at h
  refine h.trans (mul_le_mul_of_nonneg_left (Finset.sum_le_sum fun g _ => ?_) (Nat.cast_nonneg _))
  split_ifs
  · exact le_rfl
  · nlinarith [sq_nonneg (x g)]

/-- A quadratic lower bound on the decrease. -/
theorem gloDual_decrease (a : GloArgs ι κ) {lam lamM : ι → ℝ} (h : ∀ g, 0 ≤ lam g)
    (hM : ∀ g, 0 ≤ lamM g) :
    (∑ g, gloGrad a lam g * (lam g - lamM g))
      - (∑ i, a.w0 i ^ 2) * Fintype.card ι * ∑ g, (lam g - lamM g) ^ 2
      ≤ gloDual a lam - gloDual a lamM := by
  rw [sum_grad a lam fun g => lam g - lamM g]
  have e2 : ∑ g, a.weights g * (lam g - lamM g) =
      (∑ g, a.weights g * lam g) - ∑ g, a.weights g * lamM g := by
    rw [← Finset.sum_sub_distrib]
    exact Finset.sum_congr rfl fun g _ => by ring
  have key : ∀ i, a.w0 i ^ 2 / (1 + gloS a lamM i) - a.w0 i ^ 2 / (1 + gloS a lam i)
      - (a.w0 i * (1 / (1 + gloS a lam i))) ^ 2 * gloS a (fun g => lam g - lamM g) i
      ≤ a.w0 i ^ 2 * (Fintype.card ι * ∑ g, (lam g - lamM g) ^ 2) := by
    intro i
    have hs := gloS_nonneg a h i
    have hsM := gloS_nonneg a hM i
    have hq := gloS_sq_le a (fun g => lam g - lamM g) i
    rw [gloS_sub] at hq ⊢
    set x := gloS a lam i
    set y := gloS a lamM i
    have e : a.w0 i ^ 2 / (1 + y) - a.w0 i ^ 2 / (1 + x) - (a.w0 i * (1 / (1 + x))) ^ 2 * (x - y) =
        a.w0 i ^ 2 * ((x - y) ^ 2 / ((1 + y) * (1 + x) ^ 2)) := by
      field_simp
      ring
    rw [e]
    refine mul_le_mul_of_nonneg_left ?_ (sq_nonneg _)
    refine le_trans (div_le_self (sq_nonneg _) ?_) hq
    nlinarith [mul_nonneg hs hsM, mul_nonneg (mul_nonneg hs hs) hsM, mul_nonneg hs hs]
  have hsum := Finset.sum_le_sum fun i (_ : i ∈ Finset.univ) => key i
  simp only [Finset.sum_sub_distrib, ← Finset.sum_mul] at hsum
  unfold gloDual
  rw [e2]
  linarith

/-! ### The direction -/

theorem gloTmp_nonneg (a : GloArgs ι κ) {lam : ι → ℝ} (h : ∀ g, 0 ≤ lam g) (i : κ) :
    0 ≤ gloTmp a lam i := by
  have := gloS_nonneg a h i
  unfold gloTmp
  positivity

theorem gloTmp_pos (a : GloArgs ι κ) {lam : ι → ℝ} (h : ∀ g, 0 ≤ lam g) {i : κ} (hi : a.w0 i ≠ 0) :
    0 < gloTmp a lam i := by
  have := gloS_nonneg a h i
  unfold gloTmp
  positivity

theorem gloHess_symm (a : GloArgs ι κ) (lam : ι → ℝ) (J : Finset ι) :
    (gloHess a lam J)ᵀ = gloHess a lam J := by
  ext g k
  simp only [Matrix.transpose_apply, gloHess]
  rw [Finset.inter_comm]

/-- Sum of an array over the chosen blocks containing a feature. -/
noncomputable def gloSJ (a : GloArgs ι κ) (J : Finset ι) (x : J → ℝ) (i : κ) : ℝ :=
  ∑ g : J, if i ∈ a.blocks g then x g else 0

theorem gloHess_mulVec (a : GloArgs ι κ) (lam : ι → ℝ) (J : Finset ι) (x : J → ℝ) (g : J) :
    (gloHess a lam J *ᵥ x) g = ∑ i ∈ a.blocks g, gloTmp a lam i * gloSJ a J x i := by
  unfold gloSJ
  simp only [Matrix.mulVec, dotProduct, gloHess, Finset.mul_sum, Finset.sum_mul]
  rw [Finset.sum_comm' (t' := Finset.univ) (s' := fun k => a.blocks g)
    (h := by intro i k; simp)]
  refine Finset.sum_congr rfl fun k _ => ?_
  rw [← Finset.sum_ite_mem]
  exact Finset.sum_congr rfl fun i _ => by split_ifs <;> simp

theorem gloHess_quad (a : GloArgs ι κ) (lam : ι → ℝ) (J : Finset ι) (x : J → ℝ) :
    x ⬝ᵥ (gloHess a lam J *ᵥ x) = ∑ i, gloTmp a lam i * gloSJ a J x i ^ 2 := by
  unfold dotProduct
  simp only [gloHess_mulVec]
  have e : ∀ g : J, x g * ∑ i ∈ a.blocks g, gloTmp a lam i * gloSJ a J x i =
      ∑ i, gloTmp a lam i * gloSJ a J x i * (if i ∈ a.blocks g then x g else 0) := by
    intro g
    rw [Finset.mul_sum]
    have : ∀ i, gloTmp a lam i * gloSJ a J x i * (if i ∈ a.blocks g then x g else 0) =
        if i ∈ a.blocks g then x g * (gloTmp a lam i * gloSJ a J x i) else 0 := by
      intro i; split_ifs <;> ring
    simp only [this]
    rw [Finset.sum_ite_mem, Finset.univ_inter]
  simp only [e]
  rw [Finset.sum_comm]
  refine Finset.sum_congr rfl fun i _ => ?_
  rw [← Finset.mul_sum]
  unfold gloSJ
  ring

/-- The contract of `linalg.pinv` on symmetric matrices. -/
def PinvOk (a : GloArgs ι κ) : Prop := ∀ J M, Mᵀ = M → IsPinv M (a.pinv J M)

/-- The direction on the chosen blocks. -/
noncomputable def gloP (a : GloArgs ι κ) (lam : ι → ℝ) : gloInactive a lam → ℝ :=
  a.pinv (gloInactive a lam) (gloHess a lam (gloInactive a lam)) *ᵥ fun j => gloGrad a lam j

theorem gloDir_in (a : GloArgs ι κ) (lam : ι → ℝ) (g : gloInactive a lam) :
    gloDir a lam g = gloP a lam g := by
  unfold gloDir gloP
  rw [dif_pos g.2]

theorem gloXin_eq (a : GloArgs ι κ) (hp : PinvOk a) (lam : ι → ℝ) :
    gloXin a lam = ∑ i, gloTmp a lam i * gloSJ a _ (gloP a lam) i ^ 2 := by
  have h := hp _ _ (gloHess_symm a lam (gloInactive a lam))
  have h1 := pinv_quad (gloHess_symm a lam (gloInactive a lam)) h fun j => gloGrad a lam j
  rw [gloHess_quad] at h1
  unfold gloXin
  rw [← Finset.sum_coe_sort]
  have e : ∑ g : gloInactive a lam, gloGrad a lam g * gloDir a lam g =
      (fun j : gloInactive a lam => gloGrad a lam j) ⬝ᵥ gloP a lam :=
    Finset.sum_congr rfl fun g _ => by rw [gloDir_in]
  rw [e]
  exact h1

theorem gloXin_nonneg (a : GloArgs ι κ) (hp : PinvOk a) {lam : ι → ℝ} (h : ∀ g, 0 ≤ lam g) :
    0 ≤ gloXin a lam := by
  rw [gloXin_eq a hp]
  exact Finset.sum_nonneg fun i _ => mul_nonneg (gloTmp_nonneg a h i) (sq_nonneg _)

theorem gloHess_of_xin (a : GloArgs ι κ) (hp : PinvOk a) {lam : ι → ℝ} (h : ∀ g, 0 ≤ lam g)
    (h0 : gloXin a lam ≤ 0) : gloHess a lam (gloInactive a lam) *ᵥ gloP a lam = 0 := by
  rw [gloXin_eq a hp] at h0
  have hn : ∀ i ∈ Finset.univ, 0 ≤ gloTmp a lam i * gloSJ a _ (gloP a lam) i ^ 2 :=
    fun i _ => mul_nonneg (gloTmp_nonneg a h i) (sq_nonneg _)
  have hz := (Finset.sum_eq_zero_iff_of_nonneg hn).mp (le_antisymm h0 (Finset.sum_nonneg hn))
  funext g
  rw [gloHess_mulVec]
  refine Finset.sum_eq_zero fun i _ => ?_
  rcases mul_eq_zero.mp (hz i (Finset.mem_univ i)) with h1 | h1
  · rw [h1, zero_mul]
  · rw [pow_eq_zero_iff two_ne_zero] at h1
    rw [h1, mul_zero]

theorem gloP_of_xin (a : GloArgs ι κ) (hp : PinvOk a) {lam : ι → ℝ} (h : ∀ g, 0 ≤ lam g)
    (h0 : gloXin a lam ≤ 0) : gloP a lam = 0 := by
  have hx := hp _ _ (gloHess_symm a lam (gloInactive a lam))
  have h1 := gloHess_of_xin a hp h h0
  unfold gloP at h1 ⊢
  conv_lhs => rw [← hx.xmx]
  rw [← Matrix.mulVec_mulVec, ← Matrix.mulVec_mulVec, h1, Matrix.mulVec_zero]

/-! ### The line search -/

theorem gloTrial_nonneg (a : GloArgs ι κ) (lam : ι → ℝ) (m : ℕ) (g : ι) : 0 ≤ gloTrial a lam m g :=
  le_max_left _ _

/-- The blocks left to the diagonal rule. -/
theorem mem_active {a : GloArgs ι κ} {lam : ι → ℝ} {g : ι} :
    g ∉ gloInactive a lam ↔ 0 < gloGrad a lam g ∧ lam g ≤ gloEpsk a lam := by
  unfold gloInactive
  simp only [Finset.mem_filter, Finset.mem_univ, true_and, not_or, not_le, not_lt]

theorem mem_inactive {a : GloArgs ι κ} {lam : ι → ℝ} {g : ι} :
    g ∈ gloInactive a lam ↔ gloGrad a lam g ≤ 0 ∨ gloEpsk a lam < lam g := by
  unfold gloInactive
  simp only [Finset.mem_filter, Finset.mem_univ, true_and]

theorem gloEpsk_nonneg {a : GloArgs ι κ} (he : 0 ≤ a.epsilon) (lam : ι → ℝ) : 0 ≤ gloEpsk a lam :=
  le_min he (Real.sqrt_nonneg _)

/-- Parameters for which the search is an Armijo rule. -/
structure GloParams (a : GloArgs ι κ) : Prop where
  beta_pos : 0 < a.beta
  beta_lt : a.beta < 1
  sBeta_pos : 0 < a.sBeta
  sigma_nonneg : 0 ≤ a.sigma
  sigma_lt : a.sigma < 1
  epsilon_nonneg : 0 ≤ a.epsilon

theorem gloStep_pos {a : GloArgs ι κ} (hq : GloParams a) (m : ℕ) : 0 < gloStep a m :=
  mul_pos (pow_pos hq.beta_pos m) hq.sBeta_pos

theorem gloStep_tendsto {a : GloArgs ι κ} (hq : GloParams a) :
    Tendsto (gloStep a) atTop (nhds 0) := by
  have h := (tendsto_pow_atTop_nhds_zero_of_lt_one hq.beta_pos.le hq.beta_lt).mul_const a.sBeta
  rw [zero_mul] at h
  exact h

theorem gloStep_small {a : GloArgs ι κ} (hq : GloParams a) (c : ℝ) {d : ℝ} (hd : 0 < d) :
    ∀ᶠ m in atTop, gloStep a m * c ≤ d := by
  have h := (gloStep_tendsto hq).mul_const c
  rw [zero_mul] at h
  filter_upwards [h.eventually (gt_mem_nhds hd)] with m hm using hm.le

/-- Distance moved by a projected step. -/
theorem sub_max_abs {x y : ℝ} (hx : 0 ≤ x) : (x - max 0 (x - y)) ^ 2 ≤ y ^ 2 := by
  rcases le_total 0 (x - y) with h | h
  · rw [max_eq_right h]; nlinarith
  · rw [max_eq_left h]; nlinarith

/-- Small steps pass the test. -/
theorem gloTest_eventually (a : GloArgs ι κ) (hq : GloParams a) (hp : PinvOk a) {lam : ι → ℝ}
    (h : ∀ g, 0 ≤ lam g) (hb : ∀ g, ∃ i ∈ a.blocks g, a.w0 i ≠ 0) :
    ∀ᶠ m in atTop, ¬gloTest a lam m := by
  set J := gloInactive a lam with hJ
  set C := (∑ i, a.w0 i ^ 2) * (Fintype.card ι : ℝ) with hC
  have hC0 : 0 ≤ C := mul_nonneg (Finset.sum_nonneg fun i _ => sq_nonneg _) (Nat.cast_nonneg _)
  set D : ι → ℝ := fun g => ∑ i ∈ a.blocks g, gloTmp a lam i with hD
  have hDpos : ∀ g, 0 < D g := fun g => by
    obtain ⟨i, hi, hne⟩ := hb g
    exact Finset.sum_pos' (fun i _ => gloTmp_nonneg a h i) ⟨i, hi, gloTmp_pos a h hne⟩
  have hs1 : 0 < 1 - a.sigma := by linarith [hq.sigma_lt]
  -- the three kinds of smallness
  have s1 : ∀ᶠ m in atTop, ∀ g, gloStep a m * (C / D g) ≤ 1 - a.sigma :=
    eventually_all.mpr fun g => gloStep_small hq _ hs1
  have s2 : ∀ᶠ m in atTop, ∀ g, 0 < lam g → gloStep a m * gloDir a lam g ≤ lam g :=
    eventually_all.mpr fun g => by
      by_cases hg : 0 < lam g
      · filter_upwards [gloStep_small hq (gloDir a lam g) hg] with m hm _ using hm
      · exact Eventually.of_forall fun m hm => absurd hm hg
  have s3 : ∀ᶠ m in atTop, gloStep a m * (C * ∑ g ∈ J, gloDir a lam g ^ 2) ≤
      (1 - a.sigma) * gloXin a lam := by
    rcases (gloXin_nonneg a hp h).lt_or_eq with hx | hx
    · exact gloStep_small hq _ (mul_pos hs1 hx)
    · have h0 := gloP_of_xin a hp h hx.ge
      have : ∑ g ∈ J, gloDir a lam g ^ 2 = 0 := Finset.sum_eq_zero fun g hg => by
        rw [gloDir_in a lam ⟨g, hg⟩, h0]; simp
      rw [this, ← hx]
      exact Eventually.of_forall fun m => by simp
  filter_upwards [s1, s2, s3] with m h1 h2 h3
  unfold gloTest
  rw [not_lt, gloFdiff_eq a h (gloTrial_nonneg a lam m)]
  have hst := gloStep_pos hq m
  have hdec := gloDual_decrease a h (gloTrial_nonneg a lam m)
  rw [← hC] at hdec
  set del : ι → ℝ := fun g => lam g - gloTrial a lam m g with hdel
  -- chosen blocks
  have hin : ∀ g ∈ J, gloStep a m * (gloGrad a lam g * gloDir a lam g) ≤ gloGrad a lam g * del g := by
    intro g hg
    rcases (h g).lt_or_eq with hl | hl
    · have : del g = gloStep a m * gloDir a lam g := by
        simp only [hdel, gloTrial]
        rw [max_eq_right (by linarith [h2 g hl])]
        ring
      rw [this]
      exact le_of_eq (by ring)
    · have hgr : gloGrad a lam g ≤ 0 := by
        rcases mem_inactive.mp hg with h4 | h4
        · exact h4
        · exact absurd h4 (by rw [← hl]; exact not_lt.mpr (gloEpsk_nonneg hq.epsilon_nonneg lam))
      have : del g ≤ gloStep a m * gloDir a lam g := by
        simp only [hdel, gloTrial]
        have := le_max_right 0 (lam g - gloStep a m * gloDir a lam g)
        linarith
      nlinarith
  have hinsq : ∀ g ∈ J, del g ^ 2 ≤ gloStep a m ^ 2 * gloDir a lam g ^ 2 := by
    intro g _
    rw [← mul_pow]
    exact sub_max_abs (h g)
  -- the other blocks
  have hout : ∀ g ∈ Jᶜ, 0 ≤ gloGrad a lam g * del g ∧
      C * del g ^ 2 ≤ (1 - a.sigma) * (gloGrad a lam g * del g) := by
    intro g hg
    have hg' : g ∉ gloInactive a lam := by simpa [hJ] using hg
    obtain ⟨hgr, -⟩ := mem_active.mp hg'
    have hd : gloDir a lam g = gloGrad a lam g / D g := by
      unfold gloDir; rw [dif_neg hg']
    have hdpos : 0 < gloDir a lam g := by rw [hd]; exact div_pos hgr (hDpos g)
    have hde0 : 0 ≤ del g := by
      simp only [hdel, gloTrial, sub_nonneg]
      exact max_le (h g) (by nlinarith)
    have hde1 : del g ≤ gloStep a m * gloDir a lam g := by
      simp only [hdel, gloTrial]
      have := le_max_right 0 (lam g - gloStep a m * gloDir a lam g)
      linarith
    refine ⟨mul_nonneg hgr.le hde0, ?_⟩
    have h5 : C * del g ^ 2 ≤ C * (del g * (gloStep a m * gloDir a lam g)) := by
      refine mul_le_mul_of_nonneg_left ?_ hC0
      rw [pow_two]
      exact mul_le_mul_of_nonneg_left hde1 hde0
    have h6 : C * (del g * (gloStep a m * gloDir a lam g)) =
        (gloStep a m * (C / D g)) * (gloGrad a lam g * del g) := by
      rw [hd]; field_simp
    rw [h6] at h5
    exact h5.trans (mul_le_mul_of_nonneg_right (h1 g) (mul_nonneg hgr.le hde0))
  -- add up
  have hsplit : ∀ f : ι → ℝ, ∑ g, f g = (∑ g ∈ J, f g) + ∑ g ∈ Jᶜ, f g := fun f =>
    (Finset.sum_add_sum_compl J f).symm
  rw [hsplit fun g => gloGrad a lam g * del g, hsplit fun g => del g ^ 2] at hdec
  have k1 : gloStep a m * gloXin a lam ≤ ∑ g ∈ J, gloGrad a lam g * del g := by
    unfold gloXin
    rw [Finset.mul_sum]
    exact Finset.sum_le_sum hin
  have k2 : ∑ g ∈ J, del g ^ 2 ≤ gloStep a m ^ 2 * ∑ g ∈ J, gloDir a lam g ^ 2 := by
    rw [Finset.mul_sum]
    exact Finset.sum_le_sum hinsq
  have k3 : C * ∑ g ∈ Jᶜ, del g ^ 2 ≤ (1 - a.sigma) * ∑ g ∈ Jᶜ, gloGrad a lam g * del g := by
    rw [Finset.mul_sum, Finset.mul_sum]
    exact Finset.sum_le_sum fun g hg => (hout g hg).2
  have k4 : C * ∑ g ∈ J, del g ^ 2 ≤ gloStep a m * ((1 - a.sigma) * gloXin a lam) := by
    calc C * ∑ g ∈ J, del g ^ 2 ≤ C * (gloStep a m ^ 2 * ∑ g ∈ J, gloDir a lam g ^ 2) :=
          mul_le_mul_of_nonneg_left k2 hC0
      _ = gloStep a m * (gloStep a m * (C * ∑ g ∈ J, gloDir a lam g ^ 2)) := by ring
      _ ≤ _ := mul_le_mul_of_nonneg_left h3 hst.le
  have e1 : gloXact a lam (gloTrial a lam m) = ∑ g ∈ Jᶜ, gloGrad a lam g * del g := rfl
  rw [e1]
  have e2 : C * ((∑ g ∈ J, del g ^ 2) + ∑ g ∈ Jᶜ, del g ^ 2) =
      C * (∑ g ∈ J, del g ^ 2) + C * ∑ g ∈ Jᶜ, del g ^ 2 := by ring
  rw [e2] at hdec
  nlinarith

theorem gloSearch_some (a : GloArgs ι κ) (hq : GloParams a) (hp : PinvOk a) {lam : ι → ℝ}
    (h : ∀ g, 0 ≤ lam g) (hb : ∀ g, ∃ i ∈ a.blocks g, a.w0 i ≠ 0) :
    ∃ m, gloSearch a lam = some m ∧ 1 ≤ m ∧ ¬gloTest a lam m ∧ ∀ k, 1 ≤ k → k < m → gloTest a lam k := by
  classical
  have hex : ∃ m, 1 ≤ m ∧ ¬gloTest a lam m := by
    obtain ⟨m, hm, hm'⟩ := ((eventually_ge_atTop 1).and (gloTest_eventually a hq hp h hb)).exists
    exact ⟨m, hm, hm'⟩
  refine ⟨Nat.find hex, ?_, (Nat.find_spec hex).1, (Nat.find_spec hex).2, fun k hk hlt => ?_⟩
  · unfold gloSearch
    rw [dif_pos hex]
  · by_contra hc
    exact Nat.find_min hex hlt ⟨hk, hc⟩

end Verif.Lemmas
