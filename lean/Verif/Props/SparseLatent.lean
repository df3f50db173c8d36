import Verif.Model.SparseLatent
import Verif.Props.GaussMY
import Verif.Props.GaussGen

/-! Property theorem C218: the Meinshausen-Yuan generator with sparse latent variables. -/

namespace Verif.Props

open Verif.Model Verif.Lemmas Matrix

set_option autoImplicit false
set_option linter.unusedSectionVars false

variable {p h : ℕ}

/-! ### Quadratic forms -/

section Quad

variable {n : Type*} [Fintype n] [DecidableEq n]

/-- The quadratic form of a diagonally dominant matrix is at least the margin of the dominance. -/
theorem quad_of_dominant {A : Matrix n n ℝ} (hs : A.IsSymm) {c : ℝ}
    (hd : ∀ i, (∑ j, if i = j then 0 else |A i j|) + c ≤ A i i) (x : n → ℝ) :
    c * (x ⬝ᵥ x) ≤ x ⬝ᵥ A *ᵥ x := by
  by_contra hlt
  rw [not_le] at hlt
  set S := x ⬝ᵥ x with hS
  have hS0 : 0 ≤ S := by
    rw [hS, dotProduct]; exact Finset.sum_nonneg fun i _ => mul_self_nonneg _
  set e := (c * S - x ⬝ᵥ A *ᵥ x) / (S + 1) with he
  have he0 : 0 < e := div_pos (by linarith) (by linarith)
  have heS : e * (S + 1) = c * S - x ⬝ᵥ A *ᵥ x := div_mul_cancel₀ _ (by linarith)
  have hpd : (A - (c - e) • (1 : Matrix n n ℝ)).PosDef := by
    refine posDef_of_dominant ?_ he0 fun i => ?_
    · rw [IsSymm, transpose_sub, transpose_smul, transpose_one, hs]
    · have h1 : (∑ j, if i = j then 0 else |(A - (c - e) • (1 : Matrix n n ℝ)) i j|) =
          ∑ j, if i = j then 0 else |A i j| := by
        refine Finset.sum_congr rfl fun j _ => ?_
        by_cases hij : i = j
        · simp [hij]
        · simp [hij]
      rw [h1]
      have := hd i
      simp only [Matrix.sub_apply, Matrix.smul_apply, one_apply_eq, smul_eq_mul, mul_one]
      linarith
  have h2 := hpd.posSemidef.dotProduct_mulVec_nonneg x
  rw [star_trivial, sub_mulVec, smul_mulVec, one_mulVec, dotProduct_sub, dotProduct_smul, smul_eq_mul, ← hS] at h2
  nlinarith

/-- Upper bound for the form of the inverse. -/
theorem quad_inv_le {H : Matrix n n ℝ} (hpd : H.PosDef) {c : ℝ} (hc : 0 < c)
    (hq : ∀ x : n → ℝ, c * (x ⬝ᵥ x) ≤ x ⬝ᵥ H *ᵥ x) (y : n → ℝ) : c * (y ⬝ᵥ H⁻¹ *ᵥ y) ≤ y ⬝ᵥ y := by
  set w := H⁻¹ *ᵥ y with hw
  have hy : H *ᵥ w = y := by
    rw [hw, mulVec_mulVec, mul_nonsing_inv _ (isUnit_iff_ne_zero.mpr hpd.det_pos.ne'), one_mulVec]
  have h1 := hq w
  rw [hy, dotProduct_comm w y] at h1
  have h2 : 0 ≤ (y - c • w) ⬝ᵥ (y - c • w) := by
    rw [dotProduct]; exact Finset.sum_nonneg fun i _ => mul_self_nonneg _
  rw [sub_dotProduct, dotProduct_sub, dotProduct_sub, dotProduct_smul, smul_dotProduct, smul_dotProduct,
    dotProduct_smul, dotProduct_comm w y] at h2
  simp only [smul_eq_mul] at h2
  nlinarith

/-- Cauchy-Schwarz, row by row. -/
theorem quad_mulVec_le {m : Type*} [Fintype m] (C : Matrix m n ℝ) {K : ℝ} (hK : ∀ i, ∑ j, C i j ^ 2 ≤ K)
    (x : n → ℝ) : (C *ᵥ x) ⬝ᵥ (C *ᵥ x) ≤ Fintype.card m * K * (x ⬝ᵥ x) := by
  have hx : x ⬝ᵥ x = ∑ j, x j ^ 2 := by
    rw [dotProduct]; exact Finset.sum_congr rfl fun j _ => (sq (x j)).symm
  calc (C *ᵥ x) ⬝ᵥ (C *ᵥ x) = ∑ i, (∑ j, C i j * x j) ^ 2 := by
        rw [dotProduct]; exact Finset.sum_congr rfl fun i _ => by rw [sq]; rfl
    _ ≤ ∑ _i : m, K * (x ⬝ᵥ x) := by
        refine Finset.sum_le_sum fun i _ => (Finset.sum_mul_sq_le_sq_mul_sq _ _ _).trans ?_
        rw [hx]
        exact mul_le_mul_of_nonneg_right (hK i) (Finset.sum_nonneg fun j _ => sq_nonneg _)
    _ = _ := by rw [Finset.sum_const, Finset.card_univ, nsmul_eq_mul]; ring

/-- A matrix stays positive definite when a small Schur term is taken off. -/
theorem schur_posDef {m : Type*} [Fintype m] [DecidableEq m] {theta : Matrix n n ℝ} {H : Matrix m m ℝ}
    {C : Matrix m n ℝ} {K c d : ℝ} (hts : theta.IsSymm)
    (ht : ∀ x : n → ℝ, d * (x ⬝ᵥ x) ≤ x ⬝ᵥ theta *ᵥ x) (hH : H.PosDef) (hc : 0 < c)
    (hq : ∀ x : m → ℝ, c * (x ⬝ᵥ x) ≤ x ⬝ᵥ H *ᵥ x) (hK : ∀ i, ∑ j, C i j ^ 2 ≤ K)
    (hlt : Fintype.card m * K < d * c) : (theta - Cᵀ * H⁻¹ * C).PosDef := by
  have hHi : (H⁻¹)ᵀ = H⁻¹ := by rw [transpose_nonsing_inv, hH.isSymm']
  refine PosDef.of_dotProduct_mulVec_pos (isHermitian_of_isSymm ?_) fun x hx => ?_
  · rw [IsSymm, transpose_sub, hts, transpose_mul, transpose_mul, transpose_transpose, hHi, Matrix.mul_assoc]
  · have hpos : 0 < x ⬝ᵥ x := by
      have := dotProduct_self_star_pos_iff.mpr hx
      rwa [star_trivial] at this
    have e : x ⬝ᵥ (Cᵀ * H⁻¹ * C) *ᵥ x = (C *ᵥ x) ⬝ᵥ H⁻¹ *ᵥ (C *ᵥ x) := by
      rw [← mulVec_mulVec, ← mulVec_mulVec, mulVec_transpose, dotProduct_comm x, ← dotProduct_mulVec,
        dotProduct_comm]
    rw [star_trivial, sub_mulVec, dotProduct_sub, e]
    have h1 := quad_inv_le hH hc hq (C *ᵥ x)
    have h2 := quad_mulVec_le C hK x
    have h3 := ht x
    have h4 : c * ((C *ᵥ x) ⬝ᵥ H⁻¹ *ᵥ (C *ᵥ x)) < c * (d * (x ⬝ᵥ x)) := by
      calc _ ≤ _ := h1
        _ ≤ _ := h2
        _ < d * c * (x ⬝ᵥ x) := mul_lt_mul_of_pos_right hlt hpos
        _ = _ := by ring
    have h5 := lt_of_mul_lt_mul_left h4 hc.le
    linarith

end Quad

/-! ### The latent block -/

/-- A symmetric matrix with unit diagonal whose other entries are `0` or `v`. -/
def UnitCross (v : ℝ) (H : Matrix (Fin h) (Fin h) ℝ) : Prop :=
  H.IsSymm ∧ (∀ i, H i i = 1) ∧ ∀ i j, i ≠ j → H i j = 0 ∨ H i j = v

theorem UnitCross.dominant {v : ℝ} (hv : 0 ≤ v) {H : Matrix (Fin h) (Fin h) ℝ} (hH : UnitCross v H) (i : Fin h) :
    (∑ j, if i = j then 0 else |H i j|) + (1 - ((h : ℝ) - 1) * v) ≤ H i i := by
  have h1 : (∑ j, if i = j then 0 else |H i j|) ≤ ∑ j, if i = j then 0 else v := by
    refine Finset.sum_le_sum fun j _ => ?_
    by_cases e : i = j
    · simp [e]
    · rw [if_neg e, if_neg e]
      rcases hH.2.2 i j e with e' | e' <;> simp [e', hv, abs_of_nonneg]
  have h2 : (∑ j, if i = j then 0 else v) = ((h : ℝ) - 1) * v := by
    have : ∀ j, (if i = j then 0 else v) = v - if i = j then v else 0 := fun j => by split <;> simp
    simp only [this, Finset.sum_sub_distrib, Finset.sum_ite_eq, Finset.mem_univ, if_true, Finset.sum_const,
      Finset.card_univ, Fintype.card_fin, nsmul_eq_mul]
    ring
  rw [hH.2.1 i]
  linarith

theorem fillDiagonal_unitCross {v : ℝ} {B : Matrix (Fin h) (Fin h) ℝ} (hs : B.IsSymm)
    (hB : ∀ i j, B i j = 0 ∨ B i j = v) : UnitCross v (fillDiagonal B fun _ => 1) := by
  refine ⟨?_, fun i => by simp [fillDiagonal], fun i j hij => by simpa [fillDiagonal, hij] using hB i j⟩
  ext i j
  rw [transpose_apply]
  by_cases e : i = j
  · rw [e]
  · simp [fillDiagonal, e, Ne.symm e, hs.apply i j]

theorem latFirstH_unitCross (v : ℝ) (order : Fin h → List (Fin (h + p))) (nnz : Fin h → ℕ) :
    UnitCross v (latFirstH v order nnz) := by
  have key : (∀ a b, latFirst v order nnz a (Fin.castAdd p b) = latFirst v order nnz b (Fin.castAdd p a)) ∧
      ∀ a b, latFirst v order nnz a b = 0 ∨ latFirst v order nnz a b = v := by
    unfold latFirst
    refine foldl_inv (fun A : Matrix (Fin h) (Fin (h + p)) ℝ =>
      (∀ a b, A a (Fin.castAdd p b) = A b (Fin.castAdd p a)) ∧ ∀ a b, A a b = 0 ∨ A a b = v) _ _ _
      ⟨fun _ _ => rfl, fun _ _ => .inl rfl⟩ ?_
    rintro A i - ⟨h1, h2⟩
    refine ⟨fun a b => ?_, fun a b => ?_⟩
    · simp only [latRow, of_apply, h1 a b, (Fin.castAdd_injective h p).eq_iff]
      congr 1
      rw [or_comm]
    · simp only [latRow, of_apply]
      split
      · exact .inr rfl
      · exact h2 a b
  exact fillDiagonal_unitCross (by ext a b; exact key.1 b a) fun a b => key.2 a _

theorem latNext_unitCross (v : ℝ) (prev : Matrix (Fin h) (Fin h) ℝ) (order : Fin h → List (Fin h))
    (shuffle : Fin h → List (Fin h) → List (Fin h)) : UnitCross v (latNext v prev order shuffle) := by
  have h1 : ((List.finRange h).foldl (latPass v (rowCount prev) order) 0).IsSymm ∧
      ∀ a b, (List.finRange h).foldl (latPass v (rowCount prev) order) 0 a b = 0 ∨
        (List.finRange h).foldl (latPass v (rowCount prev) order) 0 a b = v := by
    refine foldl_inv (fun A : Matrix (Fin h) (Fin h) ℝ => A.IsSymm ∧ ∀ a b, A a b = 0 ∨ A a b = v) _ _ _
      ⟨isSymm_zero, fun a b => .inl rfl⟩ ?_
    rintro A i - ⟨h1, h2⟩
    exact ⟨setCross_isSymm h1 _ _ _, setCross_mem h2 _ _⟩
  unfold latNext
  have h2 := foldl_inv (fun A : Matrix (Fin h) (Fin h) ℝ => A.IsSymm ∧ ∀ a b, A a b = 0 ∨ A a b = v)
    (myTrim shuffle) ((List.finRange h).filter fun t => rowCount prev t <
      rowCount ((List.finRange h).foldl (latPass v (rowCount prev) order) 0) t) _ h1 (by
    rintro A i - ⟨h1, h2⟩
    refine ⟨setCross_isSymm h1 _ _ _, fun a b => ?_⟩
    rcases setCross_zero A i (allButLast4 (shuffle i (rowEdges A i))) a b with e | e
    · exact .inl e
    · rcases h2 a b with e' | e'
      · exact .inl (e.trans e')
      · exact .inr (e.trans e'))
  exact fillDiagonal_unitCross h2.1 h2.2

/-! ### The connections -/

theorem latSelect_sub {q : ℕ} (i : ℕ) : ∀ (room : ℕ) (l : List (Fin q)), (latSelect i room l).Sublist l
  | 0, l => by rw [latSelect]; exact List.nil_sublist l
  | _ + 1, [] => List.nil_sublist _
  | room + 1, k :: rest => by
      rw [latSelect]
      split
      · exact (latSelect_sub i (room + 1) rest).cons _
      · exact (latSelect_sub i room rest).cons_cons _

theorem latNodes_length (order : Fin h → List (Fin (h + p))) (nnz : Fin h → ℕ)
    (latent : Matrix (Fin h) (Fin (h + p)) ℝ) (i : Fin h) : (latNodes order nnz latent i).length ≤ h + h :=
  (latSelect_sub _ _ _).length_le.trans (List.length_take_le _ _)

/-- An entry of the second block is only written by the pass of its own row. -/
theorem latRow_natAdd (v : ℝ) (order : Fin h → List (Fin (h + p))) (nnz : Fin h → ℕ)
    (A : Matrix (Fin h) (Fin (h + p)) ℝ) (i a : Fin h) (b : Fin p) :
    (a = i ∧ Fin.natAdd h b ∈ latNodes order nnz A i ∧ latRow v order nnz A i a (Fin.natAdd h b) = v) ∨
      (¬ (a = i ∧ Fin.natAdd h b ∈ latNodes order nnz A i) ∧
        latRow v order nnz A i a (Fin.natAdd h b) = A a (Fin.natAdd h b)) := by
  have hne : Fin.natAdd h b ≠ Fin.castAdd p i := by
    intro e
    have := congrArg Fin.val e
    simp only [Fin.val_natAdd, Fin.val_castAdd] at this
    omega
  by_cases hc : a = i ∧ Fin.natAdd h b ∈ latNodes order nnz A i
  · exact .inl ⟨hc.1, hc.2, by simp [latRow, hc.1, hc.2]⟩
  · refine .inr ⟨hc, ?_⟩
    simp only [latRow, of_apply]
    rw [if_neg]
    rintro (h1 | h1)
    · exact hc h1
    · exact hne h1.1

/-- Every row of `connections` has at most `2 h` entries `v`, at nodes of the first `2 h` places of its ranking,
shifted by `h`. -/
theorem latConnections_row (v : ℝ) (order : Fin h → List (Fin (h + p))) (nnz : Fin h → ℕ) (i : Fin h) :
    ∃ S : List (Fin (h + p)), S.Sublist ((order i).take (h + h)) ∧
      ∀ b, latConnections v order nnz i b = if Fin.natAdd h b ∈ S then v else 0 := by
  have key : ∀ (l : List (Fin h)) (A : Matrix (Fin h) (Fin (h + p)) ℝ), l.Nodup →
      (i ∈ l → ∀ b, A i (Fin.natAdd h b) = 0) →
      (i ∉ l → ∃ S : List (Fin (h + p)), S.Sublist ((order i).take (h + h)) ∧
        ∀ b, A i (Fin.natAdd h b) = if Fin.natAdd h b ∈ S then v else 0) →
      ∃ S : List (Fin (h + p)), S.Sublist ((order i).take (h + h)) ∧
        ∀ b, l.foldl (latRow v order nnz) A i (Fin.natAdd h b) = if Fin.natAdd h b ∈ S then v else 0 := by
    intro l
    induction l with
    | nil => intro A _ _ h2; exact h2 (by simp)
    | cons k l ih =>
        intro A hnd h1 h2
        rw [List.nodup_cons] at hnd
        rw [List.foldl_cons]
        refine ih _ hnd.2 ?_ ?_
        · intro hi b
          have hik : i ≠ k := fun e => hnd.1 (e ▸ hi)
          rcases latRow_natAdd v order nnz A k i b with ⟨e, -⟩ | ⟨-, e⟩
          · exact absurd e hik
          · rw [e]; exact h1 (by simp [hi]) b
        · intro hi
          by_cases hik : i = k
          · subst hik
            refine ⟨latNodes order nnz A i, latSelect_sub _ _ _, fun b => ?_⟩
            rcases latRow_natAdd v order nnz A i i b with ⟨-, e1, e2⟩ | ⟨e1, e2⟩
            · rw [e2, if_pos e1]
            · rw [e2, if_neg (fun hc => e1 ⟨rfl, hc⟩)]
              exact h1 (by simp) b
          · obtain ⟨S, hS, hS'⟩ := h2 (by simp [hik, hi])
            refine ⟨S, hS, fun b => ?_⟩
            rcases latRow_natAdd v order nnz A k i b with ⟨e, -⟩ | ⟨-, e⟩
            · exact absurd e hik
            · rw [e]; exact hS' b
  exact key (List.finRange h) 0 (List.nodup_finRange h) (fun _ _ => rfl)
    (fun hn => absurd (List.mem_finRange i) hn)

theorem latConnections_sq (v : ℝ) (order : Fin h → List (Fin (h + p))) (nnz : Fin h → ℕ) (i : Fin h) :
    ∑ j, latConnections v order nnz i j ^ 2 ≤ 2 * h * v ^ 2 := by
  classical
  obtain ⟨S, hS, hS'⟩ := latConnections_row v order nnz i
  calc ∑ j, latConnections v order nnz i j ^ 2 = ∑ j : Fin p, if Fin.natAdd h j ∈ S then v ^ 2 else 0 := by
        refine Finset.sum_congr rfl fun j _ => ?_
        rw [hS' j]; split <;> simp
    _ = ((Finset.univ.filter fun j : Fin p => Fin.natAdd h j ∈ S).card : ℝ) * v ^ 2 := by
        rw [← Finset.sum_filter, Finset.sum_const, nsmul_eq_mul]
    _ ≤ 2 * h * v ^ 2 := by
        refine mul_le_mul_of_nonneg_right ?_ (sq_nonneg v)
        have h1 : (Finset.univ.filter fun j : Fin p => Fin.natAdd h j ∈ S).card ≤ S.toFinset.card := by
          refine Finset.card_le_card_of_injOn (Fin.natAdd h) (fun j hj => ?_) fun a _ b _ hab => ?_
          · simpa using hj
          · exact Fin.natAdd_injective p h hab
        have h2 : S.length ≤ h + h := hS.length_le.trans (List.length_take_le _ _)
        have h3 := h1.trans (S.toFinset_card_le.trans h2)
        have : ((Finset.univ.filter fun j : Fin p => Fin.natAdd h j ∈ S).card : ℝ) ≤ ((h + h : ℕ) : ℝ) := by
          exact_mod_cast h3
        push_cast at this
        linarith

/-! ### One time, and all of them -/

/-- What a user reads off one time: `theta` and `thetaH` have unit diagonal, their other entries are `0` or a fixed
value, the joint precision of observed and latent variables is positive definite, the covariance the samples are
drawn with is that of the observed variables in the joint model, and the observed precision is its inverse. -/
def GoodTime (v : ℝ) (C : Matrix (Fin h) (Fin p) ℝ) (r : LatTime p h) : Prop :=
  ((∀ i, r.theta i i = 1) ∧ ∀ i j, i ≠ j → r.theta i j = 0 ∨ r.theta i j = 0.245) ∧
  ((∀ i, r.thetaH i i = 1) ∧ ∀ i j, i ≠ j → r.thetaH i j = 0 ∨ r.thetaH i j = v) ∧
  (fromBlocks r.theta Cᵀ C r.thetaH).PosDef ∧ r.sigma = ((fromBlocks r.theta Cᵀ C r.thetaH)⁻¹).toBlocks₁₁ ∧
  r.sigma.PosDef ∧ r.obs * r.sigma = 1

theorem latFinish_ok {v : ℝ} (hv : 0 ≤ v) {C : Matrix (Fin h) (Fin p) ℝ} (hC : ∀ i, ∑ j, C i j ^ 2 ≤ 2 * h * v ^ 2)
    (hcond : 2 * (h : ℝ) * h * v ^ 2 < 0.02 * (1 - ((h : ℝ) - 1) * v)) {theta : Matrix (Fin p) (Fin p) ℝ}
    (hts : theta.IsSymm) (ht1 : ∀ i, theta i i = 1) (ht2 : ∀ i j, i ≠ j → theta i j = 0 ∨ theta i j = 0.245)
    (ht3 : ∀ i, (∑ j, if i = j then 0 else |theta i j|) ≤ 0.98) {H : Matrix (Fin h) (Fin h) ℝ}
    (hH : UnitCross v H) : ∃ r, latFinish C theta H = .ok r ∧ GoodTime v C r := by
  have hc : 0 < 1 - ((h : ℝ) - 1) * v := by
    have : 0 ≤ 2 * (h : ℝ) * h * v ^ 2 := by positivity
    linarith
  have hHpd : H.PosDef := posDef_of_dominant hH.1 hc (hH.dominant hv)
  have hobs : (theta - Cᵀ * H⁻¹ * C).PosDef := by
    refine schur_posDef (c := 1 - ((h : ℝ) - 1) * v) (d := 0.02) hts
      (quad_of_dominant hts fun i => by rw [ht1]; linarith [ht3 i]) hHpd hc
      (quad_of_dominant hH.1 (hH.dominant hv)) hC ?_
    rw [Fintype.card_fin]
    calc (h : ℝ) * (2 * h * v ^ 2) = 2 * (h : ℝ) * h * v ^ 2 := by ring
      _ < _ := hcond
  have hjoint : (fromBlocks theta Cᵀ C H).PosDef := by
    have : Invertible H := invertibleOfIsUnitDet _ (isUnit_iff_ne_zero.mpr hHpd.det_pos.ne')
    have h1 : (fromBlocks theta Cᵀ C H).PosSemidef := by
      have h2 := (PosDef.fromBlocks₂₂ theta Cᵀ hHpd).mpr
      rw [conjTranspose_eq_transpose_of_trivial, transpose_transpose] at h2
      exact h2 hobs.posSemidef
    refine h1.posDef_iff_det_ne_zero.mpr ?_
    rw [det_fromBlocks₂₂, invOf_eq_nonsing_inv]
    exact mul_ne_zero hHpd.det_pos.ne' hobs.det_pos.ne'
  have hm := (marginalOf_spec hjoint).2.2.2.2.2
  refine ⟨⟨theta, H, theta - Cᵀ * H⁻¹ * C, (theta - Cᵀ * H⁻¹ * C)⁻¹⟩, ?_, ⟨ht1, ht2⟩, ⟨hH.2.1, hH.2.2⟩, hjoint, ?_,
    hobs.inv, ?_⟩
  · unfold latFinish
    rw [if_pos (by simp [isPosDef, hHpd])]
    simp only
    rw [if_pos (by simp [isPosDef, hobs]), if_pos (by simp only [isPosDef, decide_eq_true_eq]; exact hobs.inv)]
  · rw [hm]
    simp [marginalOf]
  · exact mul_nonsing_inv _ (isUnit_iff_ne_zero.mpr hobs.det_pos.ne')

theorem thetaMy_default (order : Fin p → List (Fin p)) (shuffle : Fin p → List (Fin p) → List (Fin p))
    (hs : ∀ t l, (shuffle t l).Perm l) :
    ∃ theta, thetaMy 0.245 order shuffle = some theta ∧ theta.IsSymm ∧ (∀ i, theta i i = 1) ∧
      (∀ i j, i ≠ j → theta i j = 0 ∨ theta i j = 0.245) ∧
      (∀ i, (∑ j, if i = j then 0 else |theta i j|) ≤ 0.98) ∧ ∀ i, rowCount theta i ≤ 5 := by
  classical
  obtain ⟨theta, h1, h2, h3, h4, h5⟩ := C105_precision 0.245 (by norm_num) (by norm_num) order shuffle hs
  refine ⟨theta, h1, h2.isSymm', h3, h4, fun i => ?_, fun i => ?_⟩
  · calc (∑ j, if i = j then 0 else |theta i j|)
        = ∑ j, if i ≠ j ∧ theta i j = 0.245 then 0.245 else 0 := by
          refine Finset.sum_congr rfl fun j _ => ?_
          by_cases e : i = j
          · simp [e]
          · rcases h4 i j e with e' | e'
            · rw [if_neg e, e', if_neg (by norm_num), abs_zero]
            · rw [if_neg e, e', if_pos ⟨e, rfl⟩, abs_of_pos (by norm_num)]
      _ = ((Finset.univ.filter fun j => i ≠ j ∧ theta i j = 0.245).card : ℝ) * 0.245 := by
          rw [← Finset.sum_filter, Finset.sum_const, nsmul_eq_mul]
      _ ≤ 4 * 0.245 := mul_le_mul_of_nonneg_right (by exact_mod_cast h5 i) (by norm_num)
      _ = 0.98 := by norm_num
  · unfold rowCount
    have hsub : (Finset.univ.filter fun j => theta i j ≠ 0) ⊆
        insert i (Finset.univ.filter fun j => i ≠ j ∧ theta i j = 0.245) := by
      intro j hj
      simp only [Finset.mem_filter, Finset.mem_univ, true_and, Finset.mem_insert] at hj ⊢
      by_cases e : i = j
      · exact .inl e.symm
      · exact .inr ⟨e, (h4 i j e).resolve_left hj⟩
    have h6 := (Finset.card_le_card hsub).trans (Finset.card_insert_le _ _)
    have h7 := h5 i
    refine le_trans (le_of_eq ?_) (h6.trans (Nat.succ_le_succ h7))
    congr!

theorem latLoop_ok {v : ℝ} (hv : 0 ≤ v) {C : Matrix (Fin h) (Fin p) ℝ} (hC : ∀ i, ∑ j, C i j ^ 2 ≤ 2 * h * v ^ 2)
    (hcond : 2 * (h : ℝ) * h * v ^ 2 < 0.02 * (1 - ((h : ℝ) - 1) * v)) (ds : List (LatDraw p h))
    (hds : ∀ d ∈ ds, ∀ t l, (d.shuffleO t l).Perm l) (prev : Matrix (Fin h) (Fin h) ℝ) :
    ∃ rs, latLoop v C prev ds = .ok rs ∧ rs.length = ds.length ∧ ∀ r ∈ rs, GoodTime v C r := by
  induction ds generalizing prev with
  | nil => exact ⟨[], rfl, rfl, by simp⟩
  | cons d ds ih =>
      obtain ⟨theta, h1, h2, h3, h4, h5, -⟩ := thetaMy_default d.orderO d.shuffleO (hds d (by simp))
      obtain ⟨r, hr, hg⟩ := latFinish_ok hv hC hcond h2 h3 h4 h5
        (latNext_unitCross v prev d.orderH d.shuffleH)
      obtain ⟨rs, hrs, hl, hgs⟩ := ih (fun d' hd' => hds d' (by simp [hd'])) r.thetaH
      refine ⟨r :: rs, ?_, by simp [hl], ?_⟩
      · rw [latLoop]
        have : latTime v C prev d = .ok r := by unfold latTime; rw [h1]; exact hr
        rw [this]
        simp only
        rw [hrs]
      · intro r' hr'
        rcases List.mem_cons.mp hr' with e | e
        · rw [e]; exact hg
        · exact hgs r' e

theorem latValue_nonneg (p h : ℕ) : 0 ≤ latValue p h := by unfold latValue; positivity

/-- C218: with `p + h ≥ 10` nodes and few latent variables, `data_Meinshausen_Yuan_sparse_latent` returns for all
rankings, shuffles and numbers of times: no assertion fails and no exception is raised. At every time the latent
and the observed precision together with the (constant) connections form a positive definite joint precision, the
samples are drawn with the covariance of the observed variables in that joint model, and the observed precision
is its inverse. -/
theorem C218_generator (_h0 : 0 < h) (h10 : 10 ≤ h + p)
    (hcond : 2 * (h : ℝ) * h * latValue p h ^ 2 < 0.02 * (1 - ((h : ℝ) - 1) * latValue p h))
    (order : Fin h → List (Fin (h + p))) (nnz : Fin h → ℕ) (orderO : Fin p → List (Fin p))
    (shuffle : Fin p → List (Fin p) → List (Fin p)) (hs : ∀ t l, (shuffle t l).Perm l) (ds : List (LatDraw p h))
    (hds : ∀ d ∈ ds, ∀ t l, (d.shuffleO t l).Perm l) :
    ∃ rs C, sparseLatent order nnz orderO shuffle ds = .ok (rs, C) ∧ rs.length = ds.length + 1 ∧
      (∀ i j, C i j = 0 ∨ C i j = 1.96 / ((p : ℝ) + h)) ∧
      ∀ r ∈ rs, GoodTime (1.96 / ((p : ℝ) + h)) C r := by
  have hval : latValue p h = 1.96 / ((p : ℝ) + h) := by
    unfold latValue
    have : (0 : ℝ) < (p : ℝ) + h := by exact_mod_cast (by omega : 0 < p + h)
    field_simp
    norm_num
  have hv := latValue_nonneg p h
  have hC := latConnections_sq (latValue p h) order nnz
  obtain ⟨theta, h1, h2, h3, h4, h5, h6⟩ := thetaMy_default orderO shuffle hs
  obtain ⟨r, hr, hg⟩ := latFinish_ok hv hC hcond h2 h3 h4 h5 (latFirstH_unitCross (latValue p h) order nnz)
  obtain ⟨rs, hrs, hl, hgs⟩ := latLoop_ok hv hC hcond ds hds r.thetaH
  refine ⟨r :: rs, latConnections (latValue p h) order nnz, ?_, by simp [hl], fun i j => ?_, ?_⟩
  · have h0 : latTime0 (latValue p h) order nnz orderO shuffle = .ok r := by
      unfold latTime0
      rw [h1]
      simp only
      rw [if_neg]
      · exact hr
      · rintro ⟨t, ht⟩
        have := h6 t
        omega
    unfold sparseLatent
    rw [h0]
    simp only
    rw [hrs]
  · obtain ⟨S, -, hS⟩ := latConnections_row (latValue p h) order nnz i
    rw [hS j, hval]
    split
    · exact .inr rfl
    · exact .inl rfl
  · rw [← hval]
    intro r' hr'
    rcases List.mem_cons.mp hr' with e | e
    · rw [e]; exact hg
    · exact hgs r' e

/-- C218, the defaults `p=198`, `h=2`: the call never fails, whatever the random numbers and the number of times. -/
theorem C218_defaults (order : Fin 2 → List (Fin (2 + 198))) (nnz : Fin 2 → ℕ)
    (orderO : Fin 198 → List (Fin 198)) (shuffle : Fin 198 → List (Fin 198) → List (Fin 198))
    (hs : ∀ t l, (shuffle t l).Perm l) (ds : List (LatDraw 198 2))
    (hds : ∀ d ∈ ds, ∀ t l, (d.shuffleO t l).Perm l) :
    ∃ rs C, sparseLatent order nnz orderO shuffle ds = .ok (rs, C) ∧ rs.length = ds.length + 1 ∧
      ∀ r ∈ rs, GoodTime 0.0098 C r := by
  obtain ⟨rs, C, h1, h2, -, h3⟩ := C218_generator (p := 198) (h := 2) (by norm_num) (by norm_num)
    (by unfold latValue; norm_num) order nnz orderO shuffle hs ds hds
  refine ⟨rs, C, h1, h2, fun r hr => ?_⟩
  have := h3 r hr
  norm_num at this
  norm_num
  exact this

/-- The hypotheses of `C218_generator` are met with three latent variables among 197 observed ones. -/
example : 2 * ((3 : ℕ) : ℝ) * (3 : ℕ) * latValue 197 3 ^ 2 < 0.02 * (1 - (((3 : ℕ) : ℝ) - 1) * latValue 197 3) := by
  unfold latValue; norm_num

/-- A shuffle and a list of later draws meeting the hypotheses. -/
example : ∀ d ∈ [(⟨fun _ => List.finRange 198, fun _ l => l.reverse, fun _ => [1, 0], fun _ l => l⟩ :
    LatDraw 198 2)], ∀ t l, (d.shuffleO t l).Perm l := by
  simp [List.reverse_perm]

/-- C218: a latent variable is joined to the observed variable in column `b` only if node number `h + b` is in the
first `2 h` places of its ranking - and the node numbers count the observed variables from `0`. -/
theorem C218_connections (order : Fin h → List (Fin (h + p))) (nnz : Fin h → ℕ) (v : ℝ) (i : Fin h) :
    (∀ b, latConnections v order nnz i b ≠ 0 → Fin.natAdd h b ∈ (order i).take (2 * h)) ∧
      (Finset.univ.filter fun b => latConnections v order nnz i b ≠ 0).card ≤ 2 * h := by
  classical
  obtain ⟨S, hS, hS'⟩ := latConnections_row v order nnz i
  have h1 : ∀ b, latConnections v order nnz i b ≠ 0 → Fin.natAdd h b ∈ S := by
    intro b hb
    rw [hS' b] at hb
    by_contra hc
    exact hb (if_neg hc)
  refine ⟨fun b hb => by rw [two_mul]; exact hS.subset (h1 b hb), ?_⟩
  have h2 : (Finset.univ.filter fun b => latConnections v order nnz i b ≠ 0).card ≤ S.toFinset.card := by
    refine Finset.card_le_card_of_injOn (Fin.natAdd h) (fun j hj => ?_) fun a _ b _ hab =>
      Fin.natAdd_injective p h hab
    have hj' : latConnections v order nnz i j ≠ 0 := by simpa using hj
    simpa using h1 j hj'
  have h3 : S.length ≤ h + h := hS.length_le.trans (List.length_take_le _ _)
  have := h2.trans (S.toFinset_card_le.trans h3)
  omega

/-- C218 fails for the wiring: with one latent variable, if the node it ranks first is the observed variable
`b + 1` (and it has one nonzero probability), the variable it is joined to is `b`, the one before. -/
theorem C218_shift_false (hp : 1 ≤ p) (v : ℝ) (hv : v ≠ 0) (b : Fin p) (rest : List (Fin (1 + p))) (c : Fin p) :
    (Fin.natAdd 1 b).val = b.val + 1 ∧
      (latConnections v (fun _ : Fin 1 => Fin.natAdd 1 b :: rest) (fun _ => 1) 0 c ≠ 0 ↔ c = b) := by
  refine ⟨by simp [add_comm], ?_⟩
  have hnodes : latNodes (fun _ : Fin 1 => Fin.natAdd 1 b :: rest) (fun _ => 1) 0 0 = [Fin.natAdd 1 b] := by
    have hc : latCount (0 : Matrix (Fin 1) (Fin (1 + p)) ℝ) 0 = 0 := by simp [latCount]
    have hm : min ((1 + p) / 2 - 0) 1 = 0 + 1 := by omega
    unfold latNodes
    rw [hc, hm]
    simp [latSelect]
  have hfold : latFirst v (fun _ : Fin 1 => Fin.natAdd 1 b :: rest) (fun _ => 1) =
      latRow v (fun _ : Fin 1 => Fin.natAdd 1 b :: rest) (fun _ => 1) 0 0 := by
    simp [latFirst, List.finRange_succ]
  unfold latConnections
  rw [of_apply, hfold]
  rcases latRow_natAdd v (fun _ : Fin 1 => Fin.natAdd 1 b :: rest) (fun _ => 1) 0 0 0 c with ⟨-, e1, e2⟩ | ⟨e1, e2⟩
  · rw [hnodes, List.mem_singleton] at e1
    rw [e2]
    exact ⟨fun _ => Fin.natAdd_injective p 1 e1, fun _ => hv⟩
  · rw [hnodes, List.mem_singleton] at e1
    rw [e2]
    exact ⟨fun hc => absurd rfl hc, fun hc => absurd ⟨rfl, by rw [hc]⟩ e1⟩

/-- C218 fails for few nodes: with two observed variables that are joined and one latent variable, the slice
`edges[:-to_put]` is taken with a float and the call raises `TypeError`, whatever the draws for the latent
variable. -/
theorem C218_few_nodes_false (order : Fin 1 → List (Fin (1 + 2))) (nnz : Fin 1 → ℕ)
    (shuffle : Fin 2 → List (Fin 2) → List (Fin 2)) (hs : ∀ t l, (shuffle t l).Perm l) (ds : List (LatDraw 2 1)) :
    sparseLatent order nnz (fun _ => [0, 1]) shuffle ds = .error .type := by
  classical
  obtain ⟨theta, h1, -⟩ := thetaMy_default (p := 2) (fun _ => [0, 1]) shuffle hs
  have hth : theta 0 1 ≠ 0 ∧ theta 0 0 ≠ 0 := by
    set v : ℝ := 0.245 with hv
    have hv0 : v ≠ 0 := by rw [hv]; norm_num
    set th0 : Matrix (Fin 2) (Fin 2) ℝ := (List.finRange 2).foldl (myRow v fun _ => [0, 1]) 0 with hth0
    have hrem : ((List.finRange 2).filter fun t => 4 < rowCount th0 t) = [] := by
      rw [List.filter_eq_nil_iff]
      intro t _
      have : rowCount th0 t ≤ 2 := by
        unfold rowCount
        exact (Finset.card_le_univ _).trans (by simp)
      simp only [decide_eq_true_eq]
      omega
    have h01 : th0 0 1 = v := by
      have hr : rowCount (0 : Matrix (Fin 2) (Fin 2) ℝ) 0 = 0 := by simp [rowCount]
      have hsel : ∀ k, (0 : Fin 2) ∉ mySelect (1 : Fin 2) k [0, 1] := by
        intro k
        rcases k with _ | _ | k <;> simp [mySelect]
      rw [hth0]
      simp only [List.finRange_succ, List.finRange_zero, List.map_cons, List.map_nil, List.foldl_cons,
        List.foldl_nil, Fin.succ_zero_eq_one]
      set B := myRow v (fun _ : Fin 2 => [0, 1]) 0 0 with hB
      have hB01 : B 0 1 = v := by
        rw [hB, myRow, hr, setCross, of_apply, if_pos]
        exact .inl ⟨rfl, by simp [mySelect]⟩
      rw [myRow, setCross, of_apply, if_neg]
      · exact hB01
      · rintro (⟨e, -⟩ | ⟨-, e⟩)
        · exact absurd e (by decide)
        · exact hsel _ e
    unfold thetaMy at h1
    simp only at h1
    rw [← hth0, hrem, List.foldl_nil] at h1
    split at h1
    · have h1' := Option.some.inj h1
      rw [← h1']
      exact ⟨by simp [fillDiagonal, h01, hv0], by simp [fillDiagonal]⟩
    · exact absurd h1 (by simp)
  have hrow : rowCount theta 0 = 2 := by
    unfold rowCount
    have : (Finset.univ.filter fun j => theta 0 j ≠ 0) = Finset.univ := by
      ext j
      fin_cases j
      · simpa using hth.2
      · simpa using hth.1
    have h3 := congrArg Finset.card this
    rw [Finset.card_univ, Fintype.card_fin] at h3
    convert h3
  have h0 : latTime0 (latValue 2 1) order nnz (fun _ => [0, 1]) shuffle = .error .type := by
    unfold latTime0
    rw [h1]
    simp only
    rw [if_pos ⟨0, by rw [hrow]; norm_num⟩]
  unfold sparseLatent
  rw [h0]

end Verif.Props
