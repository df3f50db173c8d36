import Verif.Lemmas.Certificate

/-! ADMM for `∑ F_t(K_t) + rho/2 ∑ ‖K_t‖² + P(copies of K)` over symmetric sequences: existence of the optimum and of
multipliers, and convergence of the passes. -/

namespace Verif.Lemmas

open Verif.Model Verif.Spec Matrix Filter Topology

set_option autoImplicit false
set_option linter.unusedSectionVars false

variable {n : Type*} [Fintype n] [DecidableEq n] {k : ℕ} {I : Type*} [Fintype I]

/-- The regularised problem. -/
noncomputable def ridgeObjective (ep : I → Fin k) (F : Fin k → Matrix n n ℝ → ℝ) (P : (I → Matrix n n ℝ) → ℝ) (rho : ℝ)
    (K : Batch k n) : ℝ := ∑ t, F t (K t) + P (fun i => K (ep i)) + rho / 2 * ∑ t, frobSq (K t)

/-- Convexity of a function of a family. -/
def ConvexFam {J : Type*} (P : (J → Matrix n n ℝ) → ℝ) : Prop :=
  ∀ X Y : J → Matrix n n ℝ, ∀ t : ℝ, 0 ≤ t → t ≤ 1 → P (X + t • (Y - X)) ≤ (1 - t) * P X + t * P Y

theorem convexFam_sum {F : Fin k → Matrix n n ℝ → ℝ} (hF : ∀ t, ConvexPen (F t)) :
    ConvexFam fun K : Batch k n => ∑ t, F t (K t) := by
  intro X Y s h0 h1
  simp only
  rw [Finset.mul_sum, Finset.mul_sum, ← Finset.sum_add_distrib]
  exact Finset.sum_le_sum fun t _ => hF t (X t) (Y t) s h0 h1

theorem sum_frobSq_shift (K X : Batch k n) :
    ∑ t, frobSq (X t) = ∑ t, frobSq (K t) + 2 * ∑ t, frobInner (K t) (X t - K t) + ∑ t, frobSq (X t - K t) := by
  rw [Finset.mul_sum, ← Finset.sum_add_distrib, ← Finset.sum_add_distrib]
  refine Finset.sum_congr rfl fun t _ => ?_
  have := frobSq_add (K t) (X t - K t)
  rw [add_sub_cancel] at this
  linarith

/-- The optimum exists. -/
theorem ridge_exists {ep : I → Fin k} {F : Fin k → Matrix n n ℝ → ℝ} (hF : ∀ t, ConvexPen (F t))
    {P : (I → Matrix n n ℝ) → ℝ} (hP : ConvexFam P) (hPc : Continuous P) {rho : ℝ} (hr : 0 < rho) :
    ∃ X, IsMin {K : Batch k n | ∀ t, (K t).IsSymm} (ridgeObjective ep F P rho) X := by
  classical
  set G := ridgeObjective ep F P rho with hG
  set Phi : Batch k n → ℝ := fun K => ∑ t, F t (K t) + P (fun i => K (ep i)) with hPhi
  have hproj : ∀ t, Continuous fun K : Batch k n => K t := fun t => continuous_apply t
  have hPhic : Continuous Phi := by
    refine (continuous_finsetSum _ fun t _ => (ConvexPen.continuous (hF t)).comp (hproj t)).add (hPc.comp ?_)
    exact continuous_pi fun i => hproj (ep i)
  have hfro : ∀ t, Continuous fun K : Batch k n => frobSq (K t) := by
    intro t
    unfold frobSq
    exact continuous_finsetSum _ fun i _ => continuous_finsetSum _ fun j _ => ((hproj t).matrix_elem i j).pow 2
  have hGc : Continuous G := hPhic.add (continuous_const.mul (continuous_finsetSum _ fun t _ => hfro t))
  have hPhiconv : ConvexFam Phi := by
    intro X Y s h0 h1
    have a1 := convexFam_sum hF X Y s h0 h1
    have a2 := hP (fun i => X (ep i)) (fun i => Y (ep i)) s h0 h1
    simp only [hPhi]
    have e : (fun i => (X + s • (Y - X)) (ep i)) =
      (fun i => X (ep i)) + s • ((fun i => Y (ep i)) - fun i => X (ep i)) := rfl
    rw [e]
    simp only at a1
    linarith
  obtain ⟨u, -, hu⟩ := exists_multiplier (D := PUnit.{1}) (0 : PUnit.{1} →ₗ[ℝ] Batch k n) (fun _ _ _ => rfl) Phi hPhiconv 0 0
    (fun d => by simp)
  obtain ⟨V, hV⟩ := exists_repr u
  set R : ℝ := 4 / rho ^ 2 * ∑ t, frobSq (V t) with hR
  have hR0 : 0 ≤ R := mul_nonneg (by positivity) (Finset.sum_nonneg fun _ _ => frobSq_nonneg _)
  have hbound : ∀ K : Batch k n, G K ≤ G 0 → ∑ t, frobSq (K t) ≤ R := by
    intro K hK
    have h1 := hu K
    rw [hV, zero_add] at h1
    have h2 : rho / 2 * ∑ t, frobSq (K t) ≤ -∑ t, frobInner (V t) (K t) := by
      have e0 : G 0 = Phi 0 := by
        simp [hG, hPhi, ridgeObjective, frobSq]
      have e1 : G K = Phi K + rho / 2 * ∑ t, frobSq (K t) := rfl
      rw [e0, e1] at hK
      linarith
    have h3 : ∀ t, -frobInner (V t) (K t) ≤ rho / 4 * frobSq (K t) + 1 / rho * frobSq (V t) := by
      intro t
      have h4 := frobSq_nonneg ((rho / 2) • K t + V t)
      rw [frobSq_add, frobSq_smul, frobInner_smul_left, frobInner_comm] at h4
      have h5 : 0 ≤ 1 / rho * ((rho / 2) ^ 2 * frobSq (K t) + 2 * (rho / 2 * frobInner (V t) (K t)) + frobSq (V t)) :=
        mul_nonneg (by positivity) h4
      have e : 1 / rho * ((rho / 2) ^ 2 * frobSq (K t) + 2 * (rho / 2 * frobInner (V t) (K t)) + frobSq (V t)) =
          rho / 4 * frobSq (K t) + frobInner (V t) (K t) + 1 / rho * frobSq (V t) := by
        field_simp
        ring
      rw [e] at h5
      linarith
    have h6 := Finset.sum_le_sum (s := Finset.univ) fun t (_ : t ∈ Finset.univ) => h3 t
    rw [Finset.sum_neg_distrib, Finset.sum_add_distrib, ← Finset.mul_sum, ← Finset.mul_sum] at h6
    have h7 : rho / 4 * ∑ t, frobSq (K t) ≤ 1 / rho * ∑ t, frobSq (V t) := by linarith
    have h8 := mul_le_mul_of_nonneg_left h7 (show 0 ≤ 4 / rho by positivity)
    have e1 : 4 / rho * (rho / 4 * ∑ t, frobSq (K t)) = ∑ t, frobSq (K t) := by field_simp
    have e2 : 4 / rho * (1 / rho * ∑ t, frobSq (V t)) = R := by rw [hR]; field_simp
    rwa [e1, e2] at h8
  set box : Set (Batch k n) := Set.pi Set.univ fun _ => Set.pi Set.univ fun _ => Set.pi Set.univ fun _ =>
    Set.Icc (-Real.sqrt R) (Real.sqrt R) with hbox
  have hboxc : IsCompact box := isCompact_univ_pi fun _ => isCompact_univ_pi fun _ => isCompact_univ_pi fun _ =>
    isCompact_Icc
  have hsymc : IsClosed {K : Batch k n | ∀ t, (K t).IsSymm} := by
    have e : {K : Batch k n | ∀ t, (K t).IsSymm} = ⋂ t, {K : Batch k n | (K t)ᵀ = K t} := by
      ext K; rw [Set.mem_iInter]; rfl
    rw [e]
    exact isClosed_iInter fun t => isClosed_eq (hproj t).matrix_transpose (hproj t)
  have hmem : ∀ K : Batch k n, ∑ t, frobSq (K t) ≤ R → K ∈ box := by
    intro K hK
    refine Set.mem_univ_pi.mpr fun t => Set.mem_univ_pi.mpr fun i => Set.mem_univ_pi.mpr fun j => ?_
    have h1 : (K t i j) ^ 2 ≤ R := by
      refine le_trans ?_ hK
      refine le_trans ?_ (Finset.single_le_sum (f := fun t => frobSq (K t)) (fun t _ => frobSq_nonneg _)
        (Finset.mem_univ t))
      unfold frobSq
      refine le_trans ?_ (Finset.single_le_sum (f := fun i => ∑ j, (K t i j) ^ 2)
        (fun i _ => Finset.sum_nonneg fun j _ => sq_nonneg _) (Finset.mem_univ i))
      exact Finset.single_le_sum (f := fun j => (K t i j) ^ 2) (fun j _ => sq_nonneg _) (Finset.mem_univ j)
    exact abs_le.mp (Real.abs_le_sqrt h1)
  have h0 : (0 : Batch k n) ∈ box ∩ {K : Batch k n | ∀ t, (K t).IsSymm} :=
    ⟨hmem 0 (by simpa [frobSq] using hR0), fun t => isSymm_zero⟩
  obtain ⟨X, hX, hmin⟩ := (hboxc.inter_right hsymc).exists_isMinOn ⟨0, h0⟩ hGc.continuousOn
  refine ⟨X, hX.2, fun K hK => ?_⟩
  rcases le_or_gt (G K) (G 0) with h | h
  · exact hmin ⟨hmem K (hbound K h), hK⟩
  · exact (hmin h0).trans h.le

/-- Multipliers of the copies: `P` is supported at the copies of `X` by `rho V`, the rest by its negative. -/
structure RidgeSaddle (ep : I → Fin k) (F : Fin k → Matrix n n ℝ → ℝ) (P : (I → Matrix n n ℝ) → ℝ) (rho : ℝ)
    (X : Batch k n) (V : I → Matrix n n ℝ) : Prop where
  symm : ∀ t, (X t).IsSymm
  low : ∀ Y : Batch k n, (∀ t, (Y t).IsSymm) → ∑ t, F t (X t) - rho * (∑ i, frobInner (V i) (Y (ep i) - X (ep i))
    + ∑ t, frobInner (X t) (Y t - X t)) ≤ ∑ t, F t (Y t)
  up : ∀ Y : I → Matrix n n ℝ, P (fun i => X (ep i)) + rho * ∑ i, frobInner (V i) (Y i - X (ep i)) ≤ P Y

/-- At the optimum the convex part alone satisfies the first-order condition along symmetric directions. -/
theorem ridge_first_order {ep : I → Fin k} {F : Fin k → Matrix n n ℝ → ℝ} (hF : ∀ t, ConvexPen (F t))
    {P : (I → Matrix n n ℝ) → ℝ} (hP : ConvexFam P) {rho : ℝ} {X : Batch k n}
    (hX : IsMin {K : Batch k n | ∀ t, (K t).IsSymm} (ridgeObjective ep F P rho) X) {Y : Batch k n}
    (hY : ∀ t, (Y t).IsSymm) :
    ∑ t, F t (X t) + P (fun i => X (ep i)) - rho * ∑ t, frobInner (X t) (Y t - X t) ≤
      ∑ t, F t (Y t) + P (fun i => Y (ep i)) := by
  have hXs : ∀ t, (X t).IsSymm := hX.1
  have key : 0 ≤ ∑ t, F t (Y t) + P (fun i => Y (ep i)) - (∑ t, F t (X t) + P (fun i => X (ep i)))
      + rho * ∑ t, frobInner (X t) (Y t - X t) := by
    refine nonneg_of_forall_small (b := rho / 2 * ∑ t, frobSq (Y t - X t)) fun s h0 h1 => ?_
    have hs : ∀ t, ((X + s • (Y - X)) t).IsSymm := fun t => by
      change (X t + s • (Y t - X t)).IsSymm
      rw [IsSymm, transpose_add, transpose_smul, transpose_sub, (hXs t).eq, (hY t).eq]
    have h2 := hX.2 _ hs
    unfold ridgeObjective at h2
    have a1 := convexFam_sum hF X Y s h0.le h1
    have a2 := hP (fun i => X (ep i)) (fun i => Y (ep i)) s h0.le h1
    simp only at a1
    have e : (fun i => (X + s • (Y - X)) (ep i)) =
      (fun i => X (ep i)) + s • ((fun i => Y (ep i)) - fun i => X (ep i)) := rfl
    have e2 : ∑ t, frobSq ((X + s • (Y - X)) t) = ∑ t, frobSq (X t) + 2 * (s * ∑ t, frobInner (X t) (Y t - X t))
        + s ^ 2 * ∑ t, frobSq (Y t - X t) := by
      rw [sum_frobSq_shift X (X + s • (Y - X))]
      have d : ∀ t, (X + s • (Y - X)) t - X t = s • (Y t - X t) := fun t => by
        change X t + s • (Y t - X t) - X t = _
        abel
      simp only [d, frobInner_smul_right, frobSq_smul, Finset.mul_sum]
    rw [e, e2] at h2
    have h4 : 0 ≤ s * (∑ t, F t (Y t) + P (fun i => Y (ep i)) - (∑ t, F t (X t) + P (fun i => X (ep i)))
      + rho * ∑ t, frobInner (X t) (Y t - X t) + s * (rho / 2 * ∑ t, frobSq (Y t - X t))) := by nlinarith
    have h5 := nonneg_of_mul_nonneg_right h4 h0
    linarith
  linarith

/-- The optimum is unique, with quadratic growth. -/
theorem ridge_growth {ep : I → Fin k} {F : Fin k → Matrix n n ℝ → ℝ} (hF : ∀ t, ConvexPen (F t))
    {P : (I → Matrix n n ℝ) → ℝ} (hP : ConvexFam P) {rho : ℝ} {X : Batch k n}
    (hX : IsMin {K : Batch k n | ∀ t, (K t).IsSymm} (ridgeObjective ep F P rho) X) {Y : Batch k n}
    (hY : ∀ t, (Y t).IsSymm) :
    ridgeObjective ep F P rho X + rho / 2 * ∑ t, frobSq (Y t - X t) ≤ ridgeObjective ep F P rho Y := by
  have h1 := ridge_first_order hF hP hX hY
  unfold ridgeObjective
  rw [sum_frobSq_shift X Y]
  linarith

/-- Multipliers exist at an optimum. -/
theorem ridge_saddle {ep : I → Fin k} {F : Fin k → Matrix n n ℝ → ℝ} (hF : ∀ t, ConvexPen (F t))
    {P : (I → Matrix n n ℝ) → ℝ} (hP : ConvexFam P) {rho : ℝ} (hr : 0 < rho) {X : Batch k n}
    (hX : IsMin {K : Batch k n | ∀ t, (K t).IsSymm} (ridgeObjective ep F P rho) X) :
    ∃ V, RidgeSaddle ep F P rho X V := by
  classical
  have hXs : ∀ t, (X t).IsSymm := hX.1
  let Phi : Batch k n × (I → Matrix n n ℝ) → ℝ := fun z =>
    ∑ t, F t (z.1 t) + P z.2 + rho * ∑ t, frobInner (X t) (z.1 t)
  have hPhi : ∀ X Y, ∀ t : ℝ, 0 ≤ t → t ≤ 1 → Phi (X + t • (Y - X)) ≤ (1 - t) * Phi X + t * Phi Y := by
    rintro ⟨X1, X2⟩ ⟨Y1, Y2⟩ s h0 h1
    have a1 := convexFam_sum hF X1 Y1 s h0 h1
    have a2 := hP X2 Y2 s h0 h1
    simp only at a1
    have a3 : ∑ t, frobInner (X t) ((X1 + s • (Y1 - X1)) t) =
        (1 - s) * ∑ t, frobInner (X t) (X1 t) + s * ∑ t, frobInner (X t) (Y1 t) := by
      rw [Finset.mul_sum, Finset.mul_sum, ← Finset.sum_add_distrib]
      refine Finset.sum_congr rfl fun t _ => ?_
      change frobInner (X t) (X1 t + s • (Y1 t - X1 t)) = _
      rw [frobInner_add_right, frobInner_smul_right, frobInner_sub_right]
      ring
    change ∑ t, F t ((X1 + s • (Y1 - X1)) t) + P (X2 + s • (Y2 - X2))
      + rho * ∑ t, frobInner (X t) ((X1 + s • (Y1 - X1)) t) ≤ _
    rw [a3]
    simp only [Phi]
    linarith
  let A : symmSeq k n →ₗ[ℝ] Batch k n × (I → Matrix n n ℝ) :=
    { toFun := fun H => (H.1, fun i => H.1 (ep i)), map_add' := fun _ _ => rfl, map_smul' := fun _ _ => rfl }
  have hA : Function.Injective A := fun H1 H2 h => Subtype.ext (Prod.ext_iff.mp h).1
  obtain ⟨u, hu1, hu2⟩ := exists_multiplier A hA Phi hPhi (X, fun i => X (ep i)) 0 (by
    intro H
    have h1 := ridge_first_order hF hP hX (Y := X + H.1) fun t => (hXs t).add (H.2 t)
    have e : ∀ t, frobInner (X t) ((X + H.1) t - X t) = frobInner (X t) (H.1 t) := fun t => by
      change frobInner (X t) (X t + H.1 t - X t) = _
      rw [add_sub_cancel_left]
    simp only [e] at h1
    have e2 : ∑ t, frobInner (X t) ((X + H.1) t) = ∑ t, frobInner (X t) (X t) + ∑ t, frobInner (X t) (H.1 t) := by
      rw [← Finset.sum_add_distrib]
      exact Finset.sum_congr rfl fun t _ => frobInner_add_right _ _ _
    change _ ≤ ∑ t, F t ((X + H.1) t) + P (fun i => (X + H.1) (ep i)) + rho * ∑ t, frobInner (X t) ((X + H.1) t)
    rw [e2, LinearMap.zero_apply]
    simp only [Phi]
    linarith)
  obtain ⟨W, hW⟩ := exists_repr (u.comp (LinearMap.inr ℝ (Batch k n) (I → Matrix n n ℝ)))
  have hWu : ∀ z : I → Matrix n n ℝ, u (0, z) = ∑ i, frobInner (W i) (z i) := fun z => hW z
  have hscal : ∀ i (M : Matrix n n ℝ), rho * frobInner (rho⁻¹ • W i) M = frobInner (W i) M := fun i M => by
    rw [frobInner_smul_left, ← mul_assoc, mul_inv_cancel₀ hr.ne', one_mul]
  refine ⟨fun i => rho⁻¹ • W i, hXs, fun Y hY => ?_, fun Y => ?_⟩
  · have hYs : ∀ t, ((Y - X) t).IsSymm := fun t => by
      change (Y t - X t).IsSymm
      rw [IsSymm, transpose_sub, (hXs t).eq, (hY t).eq]
    have h1 := hu1 ⟨Y - X, hYs⟩
    have h2 := hu2 (Y - X, 0)
    have e1 : A ⟨Y - X, hYs⟩ = (Y - X, 0) + (0, fun i => (Y - X) (ep i)) := by
      rw [Prod.mk_add_mk, add_zero, zero_add]; rfl
    rw [e1, map_add, hWu, LinearMap.zero_apply] at h1
    have e2 : ((X, fun i => X (ep i)) : Batch k n × (I → Matrix n n ℝ)) + (Y - X, 0) = (Y, fun i => X (ep i)) := by
      rw [Prod.mk_add_mk, add_zero, add_sub_cancel]
    rw [e2] at h2
    simp only [Phi] at h2
    rw [mul_add, Finset.mul_sum, Finset.sum_congr rfl fun i _ => hscal i _]
    have e3 : ∑ t, frobInner (X t) (Y t - X t) = ∑ t, frobInner (X t) (Y t) - ∑ t, frobInner (X t) (X t) := by
      rw [← Finset.sum_sub_distrib]
      exact Finset.sum_congr rfl fun t _ => frobInner_sub_right _ _ _
    have e4 : ∑ i, frobInner (W i) ((fun i => (Y - X) (ep i)) i) = ∑ i, frobInner (W i) (Y (ep i) - X (ep i)) := rfl
    rw [e4] at h1
    rw [e3]
    linarith
  · have h2 := hu2 (0, Y - fun i => X (ep i))
    rw [hWu, Prod.mk_add_mk, add_zero, add_sub_cancel] at h2
    simp only [Phi] at h2
    rw [Finset.mul_sum, Finset.sum_congr rfl fun i _ => hscal i _]
    have e4 : ∑ i, frobInner (W i) ((Y - fun i => X (ep i)) i) = ∑ i, frobInner (W i) (Y i - X (ep i)) := rfl
    rw [e4] at h2
    linarith

/-- One pass: `K` minimises over the symmetric sequences with the multipliers `U` at the copies `Z`, the next copies are
supported by the next multipliers. -/
structure RidgePass (ep : I → Fin k) (F : Fin k → Matrix n n ℝ → ℝ) (P : (I → Matrix n n ℝ) → ℝ) (rho : ℝ)
    (K : Batch k n) (Z U Z' U' : I → Matrix n n ℝ) : Prop where
  symm : ∀ t, (K t).IsSymm
  low : ∀ Y : Batch k n, (∀ t, (Y t).IsSymm) → ∑ t, F t (K t)
    - rho * (∑ i, frobInner (K (ep i) - Z i + U i) (Y (ep i) - K (ep i)) + ∑ t, frobInner (K t) (Y t - K t))
      ≤ ∑ t, F t (Y t)
  dual : ∀ i, U' i = U i + (K (ep i) - Z' i)
  up : ∀ Y : I → Matrix n n ℝ, P Z' + rho * ∑ i, frobInner (U' i) (Y i - Z' i) ≤ P Y

/-- Distance of the state from the saddle. -/
noncomputable def ridgeLyap (ep : I → Fin k) (X : Batch k n) (V Z U : I → Matrix n n ℝ) : ℝ :=
  ∑ i, (frobSq (Z i - X (ep i)) + frobSq (U i - V i))

theorem ridgeLyap_nonneg (ep : I → Fin k) (X : Batch k n) (V Z U : I → Matrix n n ℝ) : 0 ≤ ridgeLyap ep X V Z U :=
  Finset.sum_nonneg fun _ _ => add_nonneg (frobSq_nonneg _) (frobSq_nonneg _)

variable {ep : I → Fin k} {F : Fin k → Matrix n n ℝ → ℝ} {P : (I → Matrix n n ℝ) → ℝ} {rho : ℝ}

/-- Every pass decreases the distance from the saddle. -/
theorem RidgePass.decrease (hr : 0 < rho) {K : Batch k n} {Z U Z' U' : I → Matrix n n ℝ}
    (h : RidgePass ep F P rho K Z U Z' U') {X : Batch k n} {V : I → Matrix n n ℝ} (hs : RidgeSaddle ep F P rho X V) :
    ridgeLyap ep X V Z' U' ≤ ridgeLyap ep X V Z U - ∑ i, frobSq (Z i - K (ep i)) - 2 * ∑ t, frobSq (K t - X t) := by
  have h1 : ∑ t, frobSq (K t - X t) ≤
      ∑ i, frobInner ((Z i - X (ep i)) - (U i - V i) - (K (ep i) - X (ep i))) (K (ep i) - X (ep i)) := by
    have a1 := h.low X hs.symm
    have a2 := hs.low K h.symm
    have e1 : ∑ i, frobInner (K (ep i) - Z i + U i) (X (ep i) - K (ep i)) + ∑ i, frobInner (V i) (K (ep i) - X (ep i)) =
        ∑ i, frobInner ((Z i - X (ep i)) - (U i - V i) - (K (ep i) - X (ep i))) (K (ep i) - X (ep i)) := by
      rw [← Finset.sum_add_distrib]
      refine Finset.sum_congr rfl fun i _ => ?_
      have d : X (ep i) - K (ep i) = -(K (ep i) - X (ep i)) := by abel
      rw [d, frobInner_neg_right, ← frobInner_neg_left, ← frobInner_add_left]
      congr 1
      abel
    have e2 : ∑ t, frobInner (K t) (X t - K t) + ∑ t, frobInner (X t) (K t - X t) = -∑ t, frobSq (K t - X t) := by
      rw [← Finset.sum_add_distrib, ← Finset.sum_neg_distrib]
      refine Finset.sum_congr rfl fun t _ => ?_
      have d : X t - K t = -(K t - X t) := by abel
      rw [d, frobInner_neg_right, ← frobInner_neg_left, ← frobInner_add_left, ← frobInner_self, ← frobInner_neg_left]
      congr 1
      abel
    have h3 : rho * ∑ t, frobSq (K t - X t) ≤
        rho * ∑ i, frobInner ((Z i - X (ep i)) - (U i - V i) - (K (ep i) - X (ep i))) (K (ep i) - X (ep i)) := by
      rw [← e1]
      have e3 : rho * (∑ t, frobInner (K t) (X t - K t) + ∑ t, frobInner (X t) (K t - X t)) =
        rho * -∑ t, frobSq (K t - X t) := by rw [e2]
      linarith
    exact le_of_mul_le_mul_left h3 hr
  have h2 : 0 ≤ ∑ i, frobInner (U' i - V i) (Z' i - X (ep i)) := by
    have a1 := h.up fun i => X (ep i)
    have a2 := hs.up Z'
    have e1 : ∑ i, frobInner (U' i - V i) (Z' i - X (ep i)) =
        -∑ i, frobInner (U' i) (X (ep i) - Z' i) - ∑ i, frobInner (V i) (Z' i - X (ep i)) := by
      rw [← Finset.sum_neg_distrib, ← Finset.sum_sub_distrib]
      refine Finset.sum_congr rfl fun i _ => ?_
      rw [frobInner_sub_left, ← neg_sub (Z' i) (X (ep i)), frobInner_neg_right, neg_neg]
    have h3 : 0 ≤ rho * ∑ i, frobInner (U' i - V i) (Z' i - X (ep i)) := by
      rw [e1, mul_sub, mul_neg]; linarith
    exact nonneg_of_mul_nonneg_right h3 hr
  have h3 : ridgeLyap ep X V Z' U' = ∑ i, frobSq ((U i - V i) + (K (ep i) - X (ep i)))
      - 2 * ∑ i, frobInner (U' i - V i) (Z' i - X (ep i)) := by
    unfold ridgeLyap
    rw [Finset.mul_sum, ← Finset.sum_sub_distrib]
    refine Finset.sum_congr rfl fun i _ => ?_
    have d : (U i - V i) + (K (ep i) - X (ep i)) = (U' i - V i) + (Z' i - X (ep i)) := by
      rw [h.dual i]; abel
    rw [d, frobSq_add]
    ring
  have h4 : ∑ i, frobSq ((U i - V i) + (K (ep i) - X (ep i))) = ridgeLyap ep X V Z U - ∑ i, frobSq (Z i - K (ep i))
      + 2 * ∑ i, frobInner (K (ep i) - X (ep i)) (K (ep i) - X (ep i))
      + 2 * ∑ i, frobInner (U i - V i) (K (ep i) - X (ep i)) - 2 * ∑ i, frobInner (Z i - X (ep i)) (K (ep i) - X (ep i))
      := by
    unfold ridgeLyap
    simp only [Finset.mul_sum, ← Finset.sum_sub_distrib, ← Finset.sum_add_distrib]
    refine Finset.sum_congr rfl fun i _ => ?_
    have d : Z i - K (ep i) = (Z i - X (ep i)) + -(K (ep i) - X (ep i)) := by abel
    rw [d, frobSq_add, frobSq_add, frobSq_neg, frobInner_self, frobInner_neg_right]
    ring
  have h5 : ∑ i, frobInner ((Z i - X (ep i)) - (U i - V i) - (K (ep i) - X (ep i))) (K (ep i) - X (ep i)) =
      ∑ i, frobInner (Z i - X (ep i)) (K (ep i) - X (ep i)) - ∑ i, frobInner (U i - V i) (K (ep i) - X (ep i))
        - ∑ i, frobInner (K (ep i) - X (ep i)) (K (ep i) - X (ep i)) := by
    rw [← Finset.sum_sub_distrib, ← Finset.sum_sub_distrib]
    refine Finset.sum_congr rfl fun i _ => ?_
    rw [frobInner_sub_left (Z i - X (ep i) - (U i - V i)), frobInner_sub_left (Z i - X (ep i))]
  linarith

/-- A run of passes. -/
structure RidgeRun (ep : I → Fin k) (F : Fin k → Matrix n n ℝ → ℝ) (P : (I → Matrix n n ℝ) → ℝ) (rho : ℝ)
    (K : ℕ → Batch k n) (Z U : ℕ → I → Matrix n n ℝ) : Prop where
  pass : ∀ j, RidgePass ep F P rho (K j) (Z j) (U j) (Z (j + 1)) (U (j + 1))

theorem RidgeRun.budget (hr : 0 < rho) {K : ℕ → Batch k n} {Z U : ℕ → I → Matrix n n ℝ}
    (h : RidgeRun ep F P rho K Z U) {X : Batch k n} {V : I → Matrix n n ℝ} (hs : RidgeSaddle ep F P rho X V) (m : ℕ) :
    ∑ j ∈ Finset.range m, (∑ i, frobSq (Z j i - K j (ep i)) + 2 * ∑ t, frobSq (K j t - X t)) ≤
      ridgeLyap ep X V (Z 0) (U 0) - ridgeLyap ep X V (Z m) (U m) := by
  induction m with
  | zero => simp
  | succ m ih =>
    rw [Finset.sum_range_succ]
    have := (h.pass m).decrease hr hs
    linarith

/-- The passes converge to the optimum. -/
theorem RidgeRun.converges (hr : 0 < rho) {K : ℕ → Batch k n} {Z U : ℕ → I → Matrix n n ℝ}
    (h : RidgeRun ep F P rho K Z U) {X : Batch k n} {V : I → Matrix n n ℝ} (hs : RidgeSaddle ep F P rho X V) :
    Tendsto (fun j => ∑ t, frobSq (K j t - X t)) atTop (𝓝 0) ∧
      Tendsto (fun j => ∑ i, frobSq (K j (ep i) - Z (j + 1) i)) atTop (𝓝 0) ∧
      Tendsto (fun j => ∑ i, frobSq (Z (j + 1) i - Z j i)) atTop (𝓝 0) := by
  set f : ℕ → ℝ := fun j => ∑ i, frobSq (Z j i - K j (ep i)) + 2 * ∑ t, frobSq (K j t - X t) with hf
  have hf0 : ∀ j, 0 ≤ f j := fun j => add_nonneg (Finset.sum_nonneg fun _ _ => frobSq_nonneg _)
    (mul_nonneg (by norm_num) (Finset.sum_nonneg fun _ _ => frobSq_nonneg _))
  have hsum : Summable f := summable_of_sum_range_le (c := ridgeLyap ep X V (Z 0) (U 0)) hf0 fun m => by
    have := h.budget hr hs m
    have h2 := ridgeLyap_nonneg ep X V (Z m) (U m)
    linarith
  have ht := hsum.tendsto_atTop_zero
  have t1 : Tendsto (fun j => ∑ t, frobSq (K j t - X t)) atTop (𝓝 0) := by
    refine squeeze_zero (fun j => Finset.sum_nonneg fun _ _ => frobSq_nonneg _) (fun j => ?_) ht
    have : 0 ≤ ∑ i, frobSq (Z j i - K j (ep i)) := Finset.sum_nonneg fun _ _ => frobSq_nonneg _
    have h3 : 0 ≤ ∑ t, frobSq (K j t - X t) := Finset.sum_nonneg fun _ _ => frobSq_nonneg _
    simp only [hf]
    linarith
  have t2 : Tendsto (fun j => ∑ i, frobSq (Z j i - K j (ep i))) atTop (𝓝 0) := by
    refine squeeze_zero (fun j => Finset.sum_nonneg fun _ _ => frobSq_nonneg _) (fun j => ?_) ht
    have h3 : 0 ≤ ∑ t, frobSq (K j t - X t) := Finset.sum_nonneg fun _ _ => frobSq_nonneg _
    simp only [hf]
    linarith
  have hcard : ∀ D : Batch k n, ∑ i, frobSq (D (ep i)) ≤ Fintype.card I * ∑ t, frobSq (D t) := by
    intro D
    rw [← nsmul_eq_mul, ← Finset.card_univ, ← Finset.sum_const]
    exact Finset.sum_le_sum fun i _ => Finset.single_le_sum (f := fun t => frobSq (D t)) (fun t _ => frobSq_nonneg _)
      (Finset.mem_univ _)
  -- distance of the copies from the optimum
  have t3 : Tendsto (fun j => ∑ i, frobSq (Z j i - X (ep i))) atTop (𝓝 0) := by
    have hlim : Tendsto (fun j => 2 * (∑ i, frobSq (Z j i - K j (ep i)))
        + 2 * (Fintype.card I * ∑ t, frobSq (K j t - X t))) atTop (𝓝 0) := by
      have := (t2.const_mul 2).add ((t1.const_mul (Fintype.card I : ℝ)).const_mul 2)
      simpa using this
    refine squeeze_zero (fun j => Finset.sum_nonneg fun _ _ => frobSq_nonneg _) (fun j => ?_) hlim
    refine le_trans ?_ (add_le_add le_rfl (mul_le_mul_of_nonneg_left (hcard fun t => K j t - X t) (by norm_num)))
    rw [Finset.mul_sum, Finset.mul_sum, ← Finset.sum_add_distrib]
    refine Finset.sum_le_sum fun i _ => ?_
    have := frobSq_add_le2 (Z j i - K j (ep i)) (K j (ep i) - X (ep i))
    rwa [sub_add_sub_cancel] at this
  have t3' := (tendsto_add_atTop_iff_nat 1).mpr t3
  refine ⟨t1, ?_, ?_⟩
  · have hlim : Tendsto (fun j => 2 * (Fintype.card I * ∑ t, frobSq (K j t - X t))
        + 2 * (∑ i, frobSq (Z (j + 1) i - X (ep i)))) atTop (𝓝 0) := by
      have := ((t1.const_mul (Fintype.card I : ℝ)).const_mul 2).add (t3'.const_mul 2)
      simpa using this
    refine squeeze_zero (fun j => Finset.sum_nonneg fun _ _ => frobSq_nonneg _) (fun j => ?_) hlim
    refine le_trans ?_ (add_le_add (mul_le_mul_of_nonneg_left (hcard fun t => K j t - X t) (by norm_num)) le_rfl)
    rw [Finset.mul_sum, Finset.mul_sum, ← Finset.sum_add_distrib]
    refine Finset.sum_le_sum fun i _ => ?_
    have := frobSq_add_le2 (K j (ep i) - X (ep i)) (-(Z (j + 1) i - X (ep i)))
    rw [frobSq_neg] at this
    have e : K j (ep i) - X (ep i) + -(Z (j + 1) i - X (ep i)) = K j (ep i) - Z (j + 1) i := by abel
    rwa [e] at this
  · have hlim : Tendsto (fun j => 2 * (∑ i, frobSq (Z (j + 1) i - X (ep i)))
        + 2 * (∑ i, frobSq (Z j i - X (ep i)))) atTop (𝓝 0) := by
      have := (t3'.const_mul 2).add (t3.const_mul 2)
      simpa using this
    refine squeeze_zero (fun j => Finset.sum_nonneg fun _ _ => frobSq_nonneg _) (fun j => ?_) hlim
    rw [Finset.mul_sum, Finset.mul_sum, ← Finset.sum_add_distrib]
    refine Finset.sum_le_sum fun i _ => ?_
    have := frobSq_add_le2 (Z (j + 1) i - X (ep i)) (-(Z j i - X (ep i)))
    rw [frobSq_neg] at this
    have e : Z (j + 1) i - X (ep i) + -(Z j i - X (ep i)) = Z (j + 1) i - Z j i := by abel
    rwa [e] at this

/-- Accuracy of a pass from its residuals, for a penalty with Lipschitz constant `C` on the copies. -/
theorem RidgePass.bound (hr : 0 < rho) {C : ℝ} (hC : 0 ≤ C)
    (hL : ∀ Y Z : I → Matrix n n ℝ, P Y ≤ P Z + C * famNorm (fun i => Y i - Z i)) {d : ℝ}
    (hcop : ∀ D : Batch k n, famNorm (fun i => D (ep i)) ≤ Real.sqrt d * famNorm D)
    {K : Batch k n} {Z U Z' U' : I → Matrix n n ℝ} (h : RidgePass ep F P rho K Z U Z' U') :
    rho * famNorm U' ≤ C ∧ ∀ X : Batch k n, (∀ t, (X t).IsSymm) →
      ridgeObjective ep F P rho K + rho / 2 * ∑ t, frobSq (X t - K t) ≤ ridgeObjective ep F P rho X
        + 2 * C * famNorm (fun i => K (ep i) - Z' i)
        + rho * famNorm (fun i => Z' i - Z i) * (Real.sqrt d * famNorm fun t => X t - K t) := by
  have hdual : rho * famNorm U' ≤ C := by
    have h1 := h.up fun i => Z' i + U' i
    have h2 := hL (fun i => Z' i + U' i) Z'
    simp only [add_sub_cancel_left, frobInner_self] at h1 h2
    have h3 : famNorm U' * famNorm U' = ∑ i, frobSq (U' i) :=
      Real.mul_self_sqrt (Finset.sum_nonneg fun _ _ => frobSq_nonneg _)
    have h4 : famNorm (fun i => U' i) = famNorm U' := rfl
    rw [h4] at h2
    rw [← h3] at h1
    rcases eq_or_lt_of_le (famNorm_nonneg U') with h0 | h0
    · rw [← h0, mul_zero]; exact hC
    · refine le_of_mul_le_mul_right ?_ h0
      linarith
  refine ⟨hdual, fun X hX => ?_⟩
  have h1 := h.low X hX
  have h2 := h.up fun i => X (ep i)
  have h3 := hL (fun i => K (ep i)) Z'
  have e1 : ∑ i, frobInner (K (ep i) - Z i + U i) (X (ep i) - K (ep i)) =
      ∑ i, frobInner (U' i) (X (ep i) - Z' i) - ∑ i, frobInner (U' i) (K (ep i) - Z' i)
        + ∑ i, frobInner (Z' i - Z i) (X (ep i) - K (ep i)) := by
    rw [← Finset.sum_sub_distrib, ← Finset.sum_add_distrib]
    refine Finset.sum_congr rfl fun i _ => ?_
    have d1 : K (ep i) - Z i + U i = U' i + (Z' i - Z i) := by rw [h.dual]; abel
    have d2 : X (ep i) - K (ep i) = (X (ep i) - Z' i) - (K (ep i) - Z' i) := by abel
    rw [d1, frobInner_add_left]
    nth_rewrite 1 [d2]
    rw [frobInner_sub_right]
  have b1 := (abs_le.mp (abs_famInner_le U' fun i => K (ep i) - Z' i)).1
  have b2 := (abs_le.mp (abs_famInner_le (fun i => Z' i - Z i) fun i => X (ep i) - K (ep i))).2
  have m1 := mul_le_mul_of_nonneg_left b1 hr.le
  have m2 := mul_le_mul_of_nonneg_left b2 hr.le
  have m3 := mul_le_mul_of_nonneg_right hdual (famNorm_nonneg fun i => K (ep i) - Z' i)
  have m4 := mul_le_mul_of_nonneg_left (hcop fun t => X t - K t)
    (mul_nonneg hr.le (famNorm_nonneg fun i => Z' i - Z i))
  rw [e1] at h1
  unfold ridgeObjective
  rw [sum_frobSq_shift K X]
  linarith

end Verif.Lemmas
