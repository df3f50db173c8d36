import Verif.Lemmas.Admm
import Verif.Lemmas.Dual
import Verif.Lemmas.Exist

/-! The time-varying problems with copies of every time point: saddle points, existence and uniqueness of
the optimum, and the facts about one pass needed by `AdmmRun`. -/

namespace Verif.Lemmas

open Verif.Model Verif.Spec Matrix Filter Topology

set_option autoImplicit false
set_option linter.unusedSectionVars false

variable {n : Type*} [Fintype n] [DecidableEq n] {k : ℕ} {E : Type*} [Fintype E]

/-- Copies: one for the sparsity penalty of every time, two for every coupled pair. -/
abbrev Copy (k : ℕ) (E : Type*) := Fin k ⊕ E ⊕ E

/-- The time point a copy belongs to. -/
def copyEp (g : TimePairs k E) : Copy k E → Fin k := Sum.elim id (Sum.elim g.src g.dst)

/-- Copies as one family. -/
def copies (Z0 : Batch k n) (ZL ZR : E → Matrix n n ℝ) : Copy k E → Matrix n n ℝ :=
  Sum.elim Z0 (Sum.elim ZL ZR)

/-- The non-smooth part of the problem on the copies. -/
noncomputable def copyPen (alpha : ℝ) (w : E → ℝ) (psi : Matrix n n ℝ → ℝ)
    (Z : Copy k E → Matrix n n ℝ) : ℝ :=
  alpha * ∑ t, absSumMat (Z (Sum.inl t))
    + ∑ e, w e * psi (Z (Sum.inr (Sum.inr e)) - Z (Sum.inr (Sum.inl e)))

theorem sum_copy {M : Type*} [AddCommMonoid M] (f : Copy k E → M) :
    ∑ i, f i = ∑ t, f (Sum.inl t) + (∑ e, f (Sum.inr (Sum.inl e)) + ∑ e, f (Sum.inr (Sum.inr e))) := by
  rw [Fintype.sum_sum_type, Fintype.sum_sum_type]

theorem absSumMat_convexPen {m l : Type*} [Fintype m] [Fintype l] :
    ConvexPen (absSumMat (m := m) (n := l)) := by
  intro X Y t h0 h1
  unfold absSumMat
  rw [Finset.mul_sum, Finset.mul_sum, ← Finset.sum_add_distrib]
  refine Finset.sum_le_sum fun i _ => ?_
  rw [Finset.mul_sum, Finset.mul_sum, ← Finset.sum_add_distrib]
  refine Finset.sum_le_sum fun j _ => ?_
  have e : (X + t • (Y - X)) i j = (1 - t) * X i j + t * Y i j := by
    simp only [Matrix.add_apply, Matrix.smul_apply, Matrix.sub_apply, smul_eq_mul]; ring
  rw [e]
  refine le_trans (abs_add_le _ _) ?_
  rw [abs_mul, abs_mul, abs_of_nonneg h0, abs_of_nonneg (by linarith : 0 ≤ 1 - t)]

theorem copyPen_convex {alpha : ℝ} (hal : 0 ≤ alpha) {w : E → ℝ} (hw : ∀ e, 0 ≤ w e)
    {psi : Matrix n n ℝ → ℝ} (hpsi : ConvexPen psi) (X Y : Copy k E → Matrix n n ℝ) (t : ℝ) (h0 : 0 ≤ t)
    (h1 : t ≤ 1) : copyPen alpha w psi (X + t • (Y - X))
      ≤ (1 - t) * copyPen alpha w psi X + t * copyPen alpha w psi Y := by
  have a1 : alpha * ∑ u, absSumMat ((X + t • (Y - X)) (Sum.inl u)) ≤
      alpha * ((1 - t) * ∑ u, absSumMat (X (Sum.inl u)) + t * ∑ u, absSumMat (Y (Sum.inl u))) := by
    refine mul_le_mul_of_nonneg_left ?_ hal
    rw [Finset.mul_sum, Finset.mul_sum, ← Finset.sum_add_distrib]
    exact Finset.sum_le_sum fun u _ => absSumMat_convexPen _ _ t h0 h1
  have a2 : ∑ e, w e * psi ((X + t • (Y - X)) (Sum.inr (Sum.inr e)) - (X + t • (Y - X)) (Sum.inr (Sum.inl e)))
      ≤ (1 - t) * ∑ e, w e * psi (X (Sum.inr (Sum.inr e)) - X (Sum.inr (Sum.inl e)))
        + t * ∑ e, w e * psi (Y (Sum.inr (Sum.inr e)) - Y (Sum.inr (Sum.inl e))) := by
    rw [Finset.mul_sum, Finset.mul_sum, ← Finset.sum_add_distrib]
    refine Finset.sum_le_sum fun e _ => ?_
    have h2 := hpsi (X (Sum.inr (Sum.inr e)) - X (Sum.inr (Sum.inl e)))
      (Y (Sum.inr (Sum.inr e)) - Y (Sum.inr (Sum.inl e))) t h0 h1
    have e1 : (X + t • (Y - X)) (Sum.inr (Sum.inr e)) - (X + t • (Y - X)) (Sum.inr (Sum.inl e)) =
        X (Sum.inr (Sum.inr e)) - X (Sum.inr (Sum.inl e)) + t • (Y (Sum.inr (Sum.inr e))
          - Y (Sum.inr (Sum.inl e)) - (X (Sum.inr (Sum.inr e)) - X (Sum.inr (Sum.inl e)))) := by
      simp only [Pi.add_apply, Pi.smul_apply, Pi.sub_apply]
      module
    rw [e1]
    have h3 := mul_le_mul_of_nonneg_left h2 (hw e)
    linarith
  unfold copyPen
  linarith

/-- The problem solved: log-likelihood, full l1 norm and weighted couplings. -/
noncomputable def pairTimeObjective (g : TimePairs k E) (S : Batch k n) (nS : Fin k → ℝ) (alpha : ℝ)
    (w : E → ℝ) (psi : Matrix n n ℝ → ℝ) (K : Batch k n) : ℝ :=
  negLogLik S nS K + (alpha * ∑ t, absSumMat (K t) + ∑ e, w e * psi (K (g.dst e) - K (g.src e)))

theorem pairTimeObjective_eq (g : TimePairs k E) (S : Batch k n) (nS : Fin k → ℝ) (alpha : ℝ)
    (w : E → ℝ) (psi : Matrix n n ℝ → ℝ) (K : Batch k n) :
    pairTimeObjective g S nS alpha w psi K =
      negLogLik S nS K + copyPen alpha w psi (fun i => K (copyEp g i)) := rfl

/-- A linear functional on families of matrices is an inner product. -/
theorem exists_repr {I : Type*} [Fintype I] (u : (I → Matrix n n ℝ) →ₗ[ℝ] ℝ) :
    ∃ V : I → Matrix n n ℝ, ∀ z, u z = ∑ i, frobInner (V i) (z i) := by
  classical
  refine ⟨fun i => Matrix.of fun a b => u (Pi.single i (Matrix.single a b 1)), fun z => ?_⟩
  have h1 : z = ∑ i, ∑ a, ∑ b, z i a b • (Pi.single i (Matrix.single a b (1 : ℝ)) : I → Matrix n n ℝ) := by
    have h2 : ∀ i, (Pi.single i (z i) : I → Matrix n n ℝ) =
        ∑ a, ∑ b, z i a b • (Pi.single i (Matrix.single a b (1 : ℝ)) : I → Matrix n n ℝ) := by
      intro i
      nth_rewrite 1 [matrix_eq_sum_single (z i)]
      have hs : ∀ M : Matrix n n ℝ, (Pi.single i M : I → Matrix n n ℝ) =
        LinearMap.single ℝ (fun _ : I => Matrix n n ℝ) i M := fun _ => rfl
      rw [hs, map_sum]
      refine Finset.sum_congr rfl fun a _ => ?_
      rw [map_sum]
      refine Finset.sum_congr rfl fun b _ => ?_
      rw [hs, ← map_smul, Matrix.smul_single, smul_eq_mul, mul_one]
    nth_rewrite 1 [← Finset.univ_sum_single z]
    exact Finset.sum_congr rfl fun i _ => h2 i
  nth_rewrite 1 [h1]
  rw [map_sum]
  refine Finset.sum_congr rfl fun i _ => ?_
  rw [map_sum]
  unfold frobInner
  refine Finset.sum_congr rfl fun a _ => ?_
  rw [map_sum]
  refine Finset.sum_congr rfl fun b _ => ?_
  rw [map_smul, smul_eq_mul, mul_comm]
  rfl

theorem tendsto_inv_inner {K H : Matrix n n ℝ} (hK : K.PosDef) :
    Tendsto (fun t : ℝ => frobInner (K + t • H)⁻¹ H) (𝓝[>] 0) (𝓝 (frobInner K⁻¹ H)) := by
  have hcontM : Continuous fun t : ℝ => K + t • H := by fun_prop
  have h0 : ContinuousAt (fun t : ℝ => (K + t • H)⁻¹) 0 := by
    have hdet : (K + (0 : ℝ) • H).det ≠ 0 := by simpa using hK.det_pos.ne'
    have h1 : ContinuousAt (Inv.inv : Matrix n n ℝ → Matrix n n ℝ) (K + (0 : ℝ) • H) := by
      apply continuousAt_matrix_inv
      rw [Ring.inverse_eq_inv']
      exact continuousAt_inv₀ hdet
    exact ContinuousAt.comp (f := fun t : ℝ => K + t • H) h1 hcontM.continuousAt
  have h2 : ContinuousAt (fun t : ℝ => frobInner (K + t • H)⁻¹ H) 0 := by
    unfold frobInner
    refine tendsto_finsetSum _ fun i _ => tendsto_finsetSum _ fun j _ => ?_
    refine Tendsto.mul_const _ ?_
    have h3 : ContinuousAt (fun M : Matrix n n ℝ => M i j) ((fun t : ℝ => (K + t • H)⁻¹) 0) :=
      (continuous_id.matrix_elem i j).continuousAt
    exact ContinuousAt.comp (f := fun t : ℝ => (K + t • H)⁻¹) h3 h0
  have h4 := h2.tendsto
  simp only [zero_smul, add_zero] at h4
  exact h4.mono_left nhdsWithin_le_nhds

/-- Symmetric sequences. -/
def symmSeq (k : ℕ) (n : Type*) : Submodule ℝ (Fin k → Matrix n n ℝ) where
  carrier := {H | ∀ t, (H t).IsSymm}
  zero_mem' := fun t => by simp [IsSymm]
  add_mem' := fun ha hb t => (ha t).add (hb t)
  smul_mem' := fun c _ ha t => (ha t).smul c

/-- First-order condition at an optimum, along symmetric directions. -/
theorem optimum_direction {I : Type*} [Fintype I] {ep : I → Fin k} {S : Batch k n} {nS : Fin k → ℝ}
    (hS : ∀ t, (S t).IsSymm) (hn : ∀ t, 0 < nS t) {F : (I → Matrix n n ℝ) → ℝ}
    (hF : ∀ X Y : I → Matrix n n ℝ, ∀ t : ℝ, 0 ≤ t → t ≤ 1 →
      F (X + t • (Y - X)) ≤ (1 - t) * F X + t * F Y) {X : Batch k n}
    (hX : IsMin (PDSeq k n) (fun K => negLogLik S nS K + F (fun i => K (ep i))) X)
    (H : Batch k n) (hH : ∀ t, (H t).IsSymm) :
    F (fun i => X (ep i)) + ∑ t, nS t * frobInner ((X t)⁻¹ - S t) (H t)
      ≤ F ((fun i => X (ep i)) + fun i => H (ep i)) := by
  have hXpd : ∀ t, (X t).PosDef := hX.1
  have hlim : Tendsto (fun s : ℝ => ∑ t, nS t * frobInner (X t + s • H t)⁻¹ (H t)) (𝓝[>] 0)
      (𝓝 (∑ t, nS t * frobInner (X t)⁻¹ (H t))) :=
    tendsto_finsetSum _ fun t _ => (tendsto_inv_inner (hXpd t)).const_mul _
  have hpd : ∀ᶠ s : ℝ in 𝓝[>] 0, ∀ t, (X t + s • H t).PosDef := by
    rw [eventually_all]
    exact fun t => posDef_add_smul (hXpd t) (hH t)
  have hle1 : ∀ᶠ s : ℝ in 𝓝[>] (0 : ℝ), s ≤ 1 :=
    (eventually_le_nhds (show (0 : ℝ) < 1 by norm_num)).filter_mono nhdsWithin_le_nhds
  have hineq : ∀ᶠ s : ℝ in 𝓝[>] 0, ∑ t, nS t * frobInner (X t + s • H t)⁻¹ (H t) ≤
      ∑ t, nS t * frobInner (S t) (H t) + (F ((fun i => X (ep i)) + fun i => H (ep i))
        - F (fun i => X (ep i))) := by
    filter_upwards [hpd, hle1, self_mem_nhdsWithin] with s hs hs1 hs0
    have hs0' : 0 < s := hs0
    have h1 := hX.2 (fun t => X t + s • H t) hs
    have h3 := hF (fun i => X (ep i)) ((fun i => X (ep i)) + fun i => H (ep i)) s hs0'.le hs1
    have e3 : (fun i => X (ep i)) + s • ((fun i => X (ep i)) + (fun i => H (ep i)) - fun i => X (ep i)) =
        fun i => X (ep i) + s • H (ep i) := by
      funext i
      simp only [Pi.add_apply, Pi.smul_apply, Pi.sub_apply, add_sub_cancel_left]
    rw [e3] at h3
    have h2 : negLogLik S nS (fun t => X t + s • H t) ≤ negLogLik S nS X
        + s * (∑ t, nS t * frobInner (S t) (H t) - ∑ t, nS t * frobInner (X t + s • H t)⁻¹ (H t)) := by
      unfold negLogLik
      rw [← Finset.sum_sub_distrib, Finset.mul_sum, ← Finset.sum_add_distrib]
      refine Finset.sum_le_sum fun t _ => ?_
      have h5 := log_det_le (hXpd t) (hs t)
      have e : X t - (X t + s • H t) = (-s) • H t := by rw [neg_smul]; abel
      rw [e, frobInner_smul_right] at h5
      rw [← frobInner_eq_trace_of_symm (hS t), ← frobInner_eq_trace_of_symm (hS t), frobInner_add_right,
        frobInner_smul_right]
      have h6 := mul_le_mul_of_nonneg_left h5 (hn t).le
      linarith
    simp only at h1
    have h7 : s * ∑ t, nS t * frobInner (X t + s • H t)⁻¹ (H t) ≤
        s * (∑ t, nS t * frobInner (S t) (H t) + (F ((fun i => X (ep i)) + fun i => H (ep i))
        - F (fun i => X (ep i)))) := by
      linarith
    exact le_of_mul_le_mul_left h7 hs0'
  have hfin := le_of_tendsto hlim hineq
  have e : ∑ t, nS t * frobInner ((X t)⁻¹ - S t) (H t) =
      ∑ t, nS t * frobInner (X t)⁻¹ (H t) - ∑ t, nS t * frobInner (S t) (H t) := by
    rw [← Finset.sum_sub_distrib]
    exact Finset.sum_congr rfl fun t _ => by rw [frobInner_sub_left, mul_sub]
  linarith

/-- Multipliers exist at an optimum. -/
theorem exists_saddle {I : Type*} [Fintype I] {ep : I → Fin k} (hsurj : ∀ t, ∃ i, ep i = t)
    {S : Batch k n} {nS : Fin k → ℝ}
    (hS : ∀ t, (S t).IsSymm) (hn : ∀ t, 0 < nS t) {F : (I → Matrix n n ℝ) → ℝ}
    (hF : ∀ X Y : I → Matrix n n ℝ, ∀ t : ℝ, 0 ≤ t → t ≤ 1 →
      F (X + t • (Y - X)) ≤ (1 - t) * F X + t * F Y) {X : Batch k n}
    (hX : IsMin (PDSeq k n) (fun K => negLogLik S nS K + F (fun i => K (ep i))) X) {rho : ℝ}
    (hr : 0 < rho) :
    ∃ V : I → Matrix n n ℝ,
      (∀ t, nS t • (S t - (X t)⁻¹) + rho • symmetrize (∑ i, if ep i = t then V i else 0) = 0) ∧
      ∀ Y, F (fun i => X (ep i)) + rho * ∑ i, frobInner (V i) (Y i - X (ep i)) ≤ F Y := by
  classical
  have hXpd : ∀ t, (X t).PosDef := hX.1
  let A : symmSeq k n →ₗ[ℝ] (I → Matrix n n ℝ) :=
    { toFun := fun H i => H.1 (ep i), map_add' := fun _ _ => rfl, map_smul' := fun _ _ => rfl }
  have hA : Function.Injective A := by
    intro H1 H2 h
    apply Subtype.ext
    funext t
    obtain ⟨i, rfl⟩ := hsurj t
    exact congrFun h i
  let l : symmSeq k n →ₗ[ℝ] ℝ :=
    { toFun := fun H => ∑ t, nS t * frobInner ((X t)⁻¹ - S t) (H.1 t)
      map_add' := fun H1 H2 => by
        rw [← Finset.sum_add_distrib]
        refine Finset.sum_congr rfl fun t _ => ?_
        change nS t * frobInner _ (H1.1 t + H2.1 t) = _
        rw [frobInner_add_right, mul_add]
      map_smul' := fun c H => by
        rw [RingHom.id_apply, smul_eq_mul, Finset.mul_sum]
        refine Finset.sum_congr rfl fun t _ => ?_
        change nS t * frobInner _ (c • H.1 t) = _
        rw [frobInner_smul_right]; ring }
  obtain ⟨u, hu1, hu2⟩ := exists_multiplier A hA F hF (fun i => X (ep i)) l
    (fun H => optimum_direction hS hn hF hX H.1 H.2)
  obtain ⟨W, hW⟩ := exists_repr u
  have hscal : ∀ i, rho • (rho⁻¹ • W i) = W i := fun i => by
    rw [smul_smul, mul_inv_cancel₀ hr.ne', one_smul]
  refine ⟨fun i => rho⁻¹ • W i, fun t => ?_, fun Y => ?_⟩
  · set Q := ∑ i, if ep i = t then W i else 0 with hQ
    have e1 : ∑ i, (if ep i = t then rho⁻¹ • W i else 0) = rho⁻¹ • Q := by
      rw [hQ, Finset.smul_sum]
      exact Finset.sum_congr rfl fun i _ => by split <;> simp
    rw [e1, symmetrize_smul, smul_smul, mul_inv_cancel₀ hr.ne', one_smul]
    set M := nS t • (S t - (X t)⁻¹) + symmetrize Q with hM
    have hMs : M.IsSymm := by
      rw [hM, IsSymm, transpose_add, transpose_smul, transpose_sub, (hS t).eq, (hXpd t).inv.isSymm'.eq,
        (symmetrize_isSymm Q).eq]
    have hH : ∀ s, ((Pi.single t M : Fin k → Matrix n n ℝ) s).IsSymm := by
      intro s
      by_cases hs : s = t
      · subst hs; rw [Pi.single_eq_same]; exact hMs
      · rw [Pi.single_eq_of_ne hs]; simp [IsSymm]
    have h1 := hu1 ⟨Pi.single t M, hH⟩
    rw [hW] at h1
    have h2 : ∑ i, frobInner (W i) (A ⟨Pi.single t M, hH⟩ i) = frobInner Q M := by
      have h3 := sum_scatter ep W (Pi.single t M : Fin k → Matrix n n ℝ)
      change ∑ i, frobInner (W i) ((Pi.single t M : Fin k → Matrix n n ℝ) (ep i)) = _
      rw [← h3, Finset.sum_eq_single t]
      · rw [Pi.single_eq_same]; rfl
      · intro s _ hs
        rw [Pi.single_eq_of_ne hs]; simp [frobInner]
      · intro h; exact absurd (Finset.mem_univ _) h
    have h4 : l ⟨Pi.single t M, hH⟩ = nS t * frobInner ((X t)⁻¹ - S t) M := by
      change ∑ s, nS s * frobInner ((X s)⁻¹ - S s) ((Pi.single t M : Fin k → Matrix n n ℝ) s) = _
      rw [Finset.sum_eq_single t]
      · rw [Pi.single_eq_same]
      · intro s _ hs
        rw [Pi.single_eq_of_ne hs]; simp [frobInner]
      · intro h; exact absurd (Finset.mem_univ _) h
    rw [h2, h4] at h1
    have h5 : frobSq M = 0 := by
      rw [← frobInner_self]
      conv_lhs => rw [hM]
      rw [← hM, frobInner_add_left, frobInner_smul_left, frobInner_symmetrize hMs, h1,
        ← neg_sub (X t)⁻¹ (S t), frobInner_neg_left]
      ring
    exact (frobSq_eq_zero_iff _).mp h5
  · have h1 := hu2 (Y - fun i => X (ep i))
    rw [hW, add_sub_cancel] at h1
    have e : rho * ∑ i, frobInner (rho⁻¹ • W i) (Y i - X (ep i)) =
        ∑ i, frobInner (W i) ((Y - fun i => X (ep i)) i) := by
      rw [Finset.mul_sum]
      refine Finset.sum_congr rfl fun i _ => ?_
      rw [frobInner_smul_left, ← mul_assoc, mul_inv_cancel₀ hr.ne', one_mul]
      rfl
    rw [e]
    exact h1

/-- An optimum is unique. -/
theorem uniqueMin_of_isMin {I : Type*} [Fintype I] {ep : I → Fin k} (hsurj : ∀ t, ∃ i, ep i = t)
    {S : Batch k n} {nS : Fin k → ℝ}
    (hS : ∀ t, (S t).IsSymm) (hn : ∀ t, 0 < nS t) {F : (I → Matrix n n ℝ) → ℝ}
    (hF : ∀ X Y : I → Matrix n n ℝ, ∀ t : ℝ, 0 ≤ t → t ≤ 1 →
      F (X + t • (Y - X)) ≤ (1 - t) * F X + t * F Y) {X : Batch k n}
    (hX : IsMin (PDSeq k n) (fun K => negLogLik S nS K + F (fun i => K (ep i))) X) :
    UniqueMin (PDSeq k n) (fun K => negLogLik S nS K + F (fun i => K (ep i))) X := by
  obtain ⟨V, h1, h2⟩ := exists_saddle hsurj hS hn hF hX one_pos
  refine ⟨hX.1, fun Y hY hne => ?_⟩
  have h3 := (negLogLik_le (G := fun t => ∑ i, if ep i = t then V i else 0) hS hn hX.1 hY (fun t => by
    have := h1 t; rwa [one_smul] at this)).2 hne
  have h4 := h2 fun i => Y (ep i)
  have h5 := sum_scatter ep V (fun t => Y t - X t)
  unfold scatter at h5
  rw [h5] at h3
  simp only
  linarith

theorem trace_mul_nonneg' {S K : Matrix n n ℝ} (hS : S.PosSemidef) (hK : K.PosDef) : 0 ≤ trace (S * K) := by
  obtain ⟨R, hR, hRR⟩ := exists_sqrt hK
  rw [← hRR, ← Matrix.mul_assoc, Matrix.trace_mul_comm, ← Matrix.mul_assoc]
  have h := hS.mul_mul_conjTranspose_same R
  rw [conjTranspose_eq_transpose_of_trivial, hR.isSymm'] at h
  exact h.trace_nonneg

theorem trace_le_absSumMat {K : Matrix n n ℝ} : trace K ≤ absSumMat K := by
  unfold trace absSumMat
  refine Finset.sum_le_sum fun i _ => ?_
  exact (le_abs_self _).trans
    (Finset.single_le_sum (f := fun j => |K i j|) (fun j _ => abs_nonneg _) (Finset.mem_univ i))

/-- The optimum exists: PSD covariances, `alpha > 0`, weights `≥ 0`, convex penalty `≥ 0`. -/
theorem exists_pairTime_min (g : TimePairs k E) {S : Batch k n} {nS : Fin k → ℝ} {alpha : ℝ} {w : E → ℝ}
    {psi : Matrix n n ℝ → ℝ} (hS : ∀ t, (S t).PosSemidef) (hn : ∀ t, 0 < nS t) (hal : 0 < alpha)
    (hw : ∀ e, 0 ≤ w e) (hconv : ConvexPen psi) (hpos : ∀ X, 0 ≤ psi X) :
    ∃ X, IsMin (PDSeq k n) (pairTimeObjective g S nS alpha w psi) X := by
  set P : Batch k n → ℝ := fun K => ∑ t, nS t * trace (S t * K t)
    + (alpha * ∑ t, absSumMat (K t) + ∑ e, w e * psi (K (g.dst e) - K (g.src e))) with hP
  have hPc : Continuous P := by
    have hproj : ∀ t, Continuous fun K : Batch k n => K t := fun t => continuous_apply t
    refine Continuous.add ?_ (Continuous.add ?_ ?_)
    · refine continuous_finsetSum _ fun t _ => continuous_const.mul ?_
      exact (continuous_const.matrix_mul (hproj t)).matrix_trace
    · refine continuous_const.mul (continuous_finsetSum _ fun t _ => ?_)
      exact (ConvexPen.continuous absSumMat_convexPen).comp (hproj t)
    · refine continuous_finsetSum _ fun e _ => continuous_const.mul ?_
      exact (ConvexPen.continuous hconv).comp ((hproj _).sub (hproj _))
  obtain ⟨X, hX⟩ := exists_min_logdet (N := nS) (c := fun _ => alpha) (b := 0) hn (fun _ => hal) hPc (by
    intro K hK
    have h1 : 0 ≤ ∑ t, nS t * trace (S t * K t) := Finset.sum_nonneg fun t _ =>
      mul_nonneg (hn t).le (trace_mul_nonneg' (hS t) (hK t))
    have h2 : ∑ t, alpha * trace (K t) ≤ alpha * ∑ t, absSumMat (K t) := by
      rw [← Finset.mul_sum]
      exact mul_le_mul_of_nonneg_left (Finset.sum_le_sum fun t _ => trace_le_absSumMat) hal.le
    have h3 : 0 ≤ ∑ e, w e * psi (K (g.dst e) - K (g.src e)) := Finset.sum_nonneg fun e _ =>
      mul_nonneg (hw e) (hpos _)
    simp only [hP]
    linarith)
  refine ⟨X, ?_⟩
  have e : pairTimeObjective g S nS alpha w psi = fun K => P K - ∑ t, nS t * Real.log (K t).det := by
    funext K
    unfold pairTimeObjective negLogLik
    simp only [hP, mul_sub, Finset.sum_sub_distrib]
    ring
  rw [e]
  exact hX

/-! ### One pass -/

/-- `(Z, U)` is a subgradient pair of the penalty on the copies (tested against copies whose first part is
symmetric). -/
def CopySub (alpha : ℝ) (w : E → ℝ) (psi : Matrix n n ℝ → ℝ) (rho : ℝ) (Z U : Copy k E → Matrix n n ℝ) :
    Prop :=
  (∀ t, (Z (Sum.inl t)).IsSymm) ∧ ∀ Y : Copy k E → Matrix n n ℝ, (∀ t, (Y (Sum.inl t)).IsSymm) →
    copyPen alpha w psi Z + rho * ∑ i, frobInner (U i) (Y i - Z i) ≤ copyPen alpha w psi Y

theorem CopySub.mono {alpha : ℝ} {w : E → ℝ} {psi : Matrix n n ℝ → ℝ} {rho : ℝ} (hr : 0 < rho)
    {Z U Z' U' : Copy k E → Matrix n n ℝ} (h : CopySub alpha w psi rho Z U)
    (h' : CopySub alpha w psi rho Z' U') : 0 ≤ ∑ i, frobInner (U i - U' i) (Z i - Z' i) := by
  have h1 := h.2 Z' h'.1
  have h2 := h'.2 Z h.1
  have e : ∑ i, frobInner (U i - U' i) (Z i - Z' i) =
      -∑ i, frobInner (U i) (Z' i - Z i) - ∑ i, frobInner (U' i) (Z i - Z' i) := by
    rw [← Finset.sum_neg_distrib, ← Finset.sum_sub_distrib]
    refine Finset.sum_congr rfl fun i _ => ?_
    rw [frobInner_sub_left, ← neg_sub (Z i) (Z' i), frobInner_neg_right, neg_neg]
  rw [e]
  have h3 : 0 ≤ rho * (-∑ i, frobInner (U i) (Z' i - Z i) - ∑ i, frobInner (U' i) (Z i - Z' i)) := by
    rw [mul_sub, mul_neg]; linarith
  exact nonneg_of_mul_nonneg_right h3 hr

theorem softMat_isSymm {A : Matrix n n ℝ} (hA : A.IsSymm) (lam : ℝ) : (softThresholdingMat A lam).IsSymm := by
  ext i j
  simp only [Matrix.transpose_apply, softThresholdingMat]
  rw [hA.apply i j]

/-- The consensus updates of one pass give a subgradient pair. -/
theorem copySub_next (g : TimePairs k E) {alpha rho : ℝ} (hal : 0 ≤ alpha) (hr : 0 < rho) {w : E → ℝ}
    (hw : ∀ e, 0 ≤ w e) {psi : Matrix n n ℝ → ℝ} {prox : Matrix n n ℝ → ℝ → Matrix n n ℝ}
    (hconv : ConvexPen psi) (hprox : IsProxOf psi prox) {K U0 Z0 : Batch k n}
    {UL UR ZL ZR : E → Matrix n n ℝ} (hK : ∀ t, (K t).IsSymm)
    (h0 : ∀ t, Z0 t = tglZ0 alpha rho (K t) (U0 t))
    (hL : ∀ e, ZL e = tglZ1 prox (w e) rho (K (g.src e) + UL e) (K (g.dst e) + UR e))
    (hR : ∀ e, ZR e = tglZ2 prox (w e) rho (K (g.src e) + UL e) (K (g.dst e) + UR e)) :
    CopySub alpha w psi rho (copies Z0 ZL ZR)
      (copies (fun t => U0 t + (K t - Z0 t)) (fun e => UL e + (K (g.src e) - ZL e))
        (fun e => UR e + (K (g.dst e) - ZR e))) := by
  have hZs : ∀ t, (Z0 t).IsSymm := fun t => by
    rw [h0]; exact softMat_isSymm (symmetrize_isSymm _) _
  refine ⟨hZs, fun Y hY => ?_⟩
  have p0 : ∀ t, alpha * absSumMat (Z0 t)
      + rho * frobInner (U0 t + (K t - Z0 t)) (Y (Sum.inl t) - Z0 t) ≤ alpha * absSumMat (Y (Sum.inl t)) := by
    intro t
    have h4 := softMat_subgrad (lam := alpha / rho) (by positivity) (symmetrize (K t + U0 t)) (Y (Sum.inl t))
    have h5 : softThresholdingMat (symmetrize (K t + U0 t)) (alpha / rho) = Z0 t := (h0 t).symm
    have hsy : (Y (Sum.inl t) - Z0 t).IsSymm := by rw [IsSymm, transpose_sub, (hY t).eq, (hZs t).eq]
    have e1 : symmetrize (K t + U0 t) - Z0 t = symmetrize (U0 t + (K t - Z0 t)) := by
      rw [show U0 t + (K t - Z0 t) = (K t + U0 t) - Z0 t by abel, symmetrize_sub,
        symmetrize_of_isSymm (hZs t)]
    rw [h5, e1, frobInner_symmetrize hsy] at h4
    have h6 := mul_le_mul_of_nonneg_left h4 hr.le
    have e : ∀ c : ℝ, rho * (alpha / rho * c) = alpha * c := by intro c; field_simp
    rwa [mul_add, e, e] at h6
  have p1 : ∀ e, w e * psi (ZR e - ZL e) + rho * (frobInner (UL e + (K (g.src e) - ZL e)) (Y (Sum.inr (Sum.inl e)) - ZL e)
      + frobInner (UR e + (K (g.dst e) - ZR e)) (Y (Sum.inr (Sum.inr e)) - ZR e))
      ≤ w e * psi (Y (Sum.inr (Sum.inr e)) - Y (Sum.inr (Sum.inl e))) := by
    intro e
    set AL := K (g.src e) + UL e with hAL
    set AR := K (g.dst e) + UR e with hAR
    set d := prox (AR - AL) (2 * w e / rho) with hd
    have hZL : ZL e = (1 / 2 : ℝ) • (AL + AR - d) := hL e
    have hZR : ZR e = (1 / 2 : ℝ) • (AL + AR + d) := hR e
    have hdz : ZR e - ZL e = d := by rw [hZL, hZR]; module
    have hUR : UR e + (K (g.dst e) - ZR e) = (1 / 2 : ℝ) • (AR - AL - d) := by
      have : UR e + (K (g.dst e) - ZR e) = AR - ZR e := by rw [hAR]; abel
      rw [this, hZR]; module
    have hUL : UL e + (K (g.src e) - ZL e) = -((1 / 2 : ℝ) • (AR - AL - d)) := by
      have : UL e + (K (g.src e) - ZL e) = AL - ZL e := by rw [hAL]; abel
      rw [this, hZL]; module
    have hp : prox (d + (2 : ℝ) • ((1 / 2 : ℝ) • (AR - AL - d))) (2 * w e / rho) = d := by
      have : d + (2 : ℝ) • ((1 / 2 : ℝ) • (AR - AL - d)) = AR - AL := by module
      rw [this]
    have h1 := pair_subgrad hconv hprox (hw e) hr hp (Y (Sum.inr (Sum.inr e)) - Y (Sum.inr (Sum.inl e)))
    rw [hUL, hUR, hdz, frobInner_neg_left, ← sub_eq_neg_add, ← frobInner_sub_right]
    have e2 : Y (Sum.inr (Sum.inr e)) - ZR e - (Y (Sum.inr (Sum.inl e)) - ZL e) =
        Y (Sum.inr (Sum.inr e)) - Y (Sum.inr (Sum.inl e)) - d := by rw [← hdz]; abel
    rw [e2, ← frobInner_smul_left]
    exact h1
  have s0 := Finset.sum_le_sum fun t (_ : t ∈ Finset.univ) => p0 t
  have s1 := Finset.sum_le_sum fun e (_ : e ∈ Finset.univ) => p1 e
  simp only [Finset.sum_add_distrib, ← Finset.mul_sum] at s0 s1
  rw [sum_copy]
  unfold copyPen
  simp only [copies, Sum.elim_inl, Sum.elim_inr]
  linarith

/-- The K-update of a pass in the form used by `AdmmRun`. -/
theorem kst_of_divisor (g : TimePairs k E) {divisor : Fin k → ℝ} (hcov : Covers g divisor n) {S K : Batch k n}
    {nS : Fin k → ℝ} {rho : ℝ} {Z0 U0 : Batch k n} {ZL ZR UL UR : E → Matrix n n ℝ} (t : Fin k)
    (hK : (K t).PosDef)
    (h : nS t • (S t - (K t)⁻¹) + (rho * divisor t) • K t - rho • symmetrize (Z0 t - U0 t
      + scatter g.src (fun e => ZL e - UL e) t + scatter g.dst (fun e => ZR e - UR e) t) = 0) :
    nS t • (S t - (K t)⁻¹) + rho • symmetrize (∑ i : Copy k E, if copyEp g i = t then
      K (copyEp g i) - copies Z0 ZL ZR i + copies U0 UL UR i else 0) = 0 := by
  have e : (∑ i : Copy k E, if copyEp g i = t then
      K (copyEp g i) - copies Z0 ZL ZR i + copies U0 UL UR i else 0) = divisor t • K t
      - (Z0 t - U0 t + scatter g.src (fun e => ZL e - UL e) t + scatter g.dst (fun e => ZR e - UR e) t) := by
    rw [sum_copy, ← hcov K t]
    change (∑ s, if s = t then K s - Z0 s + U0 s else 0)
      + ((∑ e, if g.src e = t then K (g.src e) - ZL e + UL e else 0)
        + ∑ e, if g.dst e = t then K (g.dst e) - ZR e + UR e else 0) = _
    have h1 : ∀ (f : E → Fin k) (Z U : E → Matrix n n ℝ), (∑ e, if f e = t then K (f e) - Z e + U e else 0) =
        (∑ e, if f e = t then K (f e) else 0) - scatter f (fun e => Z e - U e) t := by
      intro f Z U
      unfold scatter
      rw [← Finset.sum_sub_distrib]
      refine Finset.sum_congr rfl fun e _ => ?_
      split
      · rw [sub_sub_eq_add_sub, add_sub_right_comm]
      · simp
    rw [h1, h1, Finset.sum_ite_eq' Finset.univ t (fun t => K t - Z0 t + U0 t)]
    simp only [Finset.mem_univ, if_true]
    abel
  rw [e, symmetrize_sub, symmetrize_smul, symmetrize_of_isSymm hK.isSymm', smul_sub rho, smul_smul, ← h]
  abel

end Verif.Lemmas
