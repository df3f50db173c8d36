import Verif.Lemmas.LatentSquare
import Verif.Lemmas.Exist

/-! The latent variable problem with the log-likelihood: existence of a minimiser, multipliers, and convergence of
the passes when the computed `R` stay below `c` times the identity with `rho c²` small. -/

namespace Verif.Lemmas

open Verif.Model Verif.Spec Matrix Filter Topology

set_option autoImplicit false
set_option linter.unusedSectionVars false

variable {n : Type*} [Fintype n] [DecidableEq n] {J I : Type*} [Fintype J] [Fintype I]

/-! ### Strong monotonicity of the inverse below a bound -/

theorem frobSq_mul_le_of_le {R W : Matrix n n ℝ} (hR : R.IsSymm) {c : ℝ} (hc : (c • 1 - R * R).PosSemidef) :
    frobSq (R * W) ≤ c * frobSq W := by
  have h := hc.conjTranspose_mul_mul_same W
  rw [conjTranspose_eq_transpose_of_trivial] at h
  have ht := h.trace_nonneg
  rw [Matrix.mul_sub, Matrix.sub_mul, trace_sub] at ht
  rw [← frobInner_self, ← frobInner_self, frobInner_eq_trace, frobInner_eq_trace, transpose_mul, hR.eq]
  have e1 : Wᵀ * R * (R * W) = Wᵀ * (R * R) * W := by simp only [Matrix.mul_assoc]
  have e2 : trace (Wᵀ * c • (1 : Matrix n n ℝ) * W) = c * trace (Wᵀ * W) := by
    rw [Matrix.mul_smul, Matrix.mul_one, Matrix.smul_mul, trace_smul, smul_eq_mul]
  rw [e1]
  rw [e2] at ht
  linarith

theorem frobSq_transpose' (A : Matrix n n ℝ) : frobSq Aᵀ = frobSq A := by
  unfold frobSq
  rw [Finset.sum_comm]
  rfl

/-- `‖K - X‖² ≤ c c' ⟨X⁻¹ - K⁻¹, K - X⟩` for `K ≤ c`, `X ≤ c'`. -/
theorem inv_strict_mono_le {K X : Matrix n n ℝ} (hK : K.PosDef) (hX : X.PosDef) {c c' : ℝ} (hc : 0 ≤ c)
    (hKc : (c • 1 - K).PosSemidef) (hXc : (c' • 1 - X).PosSemidef) :
    frobSq (K - X) ≤ c * c' * frobInner (X⁻¹ - K⁻¹) (K - X) := by
  obtain ⟨R, hR, hRR⟩ := exists_sqrt hK
  obtain ⟨T, hT, hTT⟩ := exists_sqrt hX
  have hRu : IsUnit R.det := isUnit_iff_ne_zero.mpr hR.det_pos.ne'
  have hTu : IsUnit T.det := isUnit_iff_ne_zero.mpr hT.det_pos.ne'
  have hKu : IsUnit K.det := isUnit_iff_ne_zero.mpr hK.det_pos.ne'
  have hXu : IsUnit X.det := isUnit_iff_ne_zero.mpr hX.det_pos.ne'
  set H := K - X with hH
  have hHs : H.IsSymm := by rw [hH, IsSymm, transpose_sub, hX.isSymm'.eq, hK.isSymm'.eq]
  set W := R⁻¹ * H * T⁻¹ with hW
  have hHW : H = R * W * T := by
    rw [hW]
    calc H = (R * R⁻¹) * H * (T⁻¹ * T) := by
          rw [Matrix.mul_nonsing_inv _ hRu, Matrix.nonsing_inv_mul _ hTu, Matrix.one_mul,
            Matrix.mul_one]
      _ = _ := by simp only [Matrix.mul_assoc]
  have hle : frobSq H ≤ c * c' * frobSq W := by
    conv_lhs => rw [hHW]
    have h1 : frobSq (R * (W * T)) ≤ c * frobSq (W * T) := frobSq_mul_le_of_le hR.isSymm' (by rw [hRR]; exact hKc)
    have h2 : frobSq (T * Wᵀ) ≤ c' * frobSq Wᵀ := frobSq_mul_le_of_le hT.isSymm' (by rw [hTT]; exact hXc)
    have e : T * Wᵀ = (W * T)ᵀ := by rw [transpose_mul W T, hT.isSymm'.eq]
    rw [e, frobSq_transpose', frobSq_transpose'] at h2
    rw [Matrix.mul_assoc]
    have := mul_le_mul_of_nonneg_left h2 hc
    linarith
  have hval : frobInner (X⁻¹ - K⁻¹) H = frobSq W := by
    have hdiff : X⁻¹ - K⁻¹ = K⁻¹ * H * X⁻¹ := by
      rw [hH, Matrix.mul_sub, Matrix.sub_mul, Matrix.nonsing_inv_mul _ hKu, Matrix.one_mul,
        Matrix.mul_assoc, Matrix.mul_nonsing_inv _ hXu, Matrix.mul_one]
    have hKi : K⁻¹ = R⁻¹ * R⁻¹ := by rw [← hRR, Matrix.mul_inv_rev]
    have hXi : X⁻¹ = T⁻¹ * T⁻¹ := by rw [← hTT, Matrix.mul_inv_rev]
    have hRs : (R⁻¹)ᵀ = R⁻¹ := hR.inv.isSymm'
    have hTs : (T⁻¹)ᵀ = T⁻¹ := hT.inv.isSymm'
    rw [hdiff, ← frobInner_self, frobInner_eq_trace, frobInner_eq_trace, hW, hKi, hXi]
    simp only [transpose_mul, hRs, hTs, hHs.eq]
    rw [show T⁻¹ * T⁻¹ * (H * (R⁻¹ * R⁻¹)) * H = T⁻¹ * (T⁻¹ * H * R⁻¹ * (R⁻¹ * H)) by
      simp only [Matrix.mul_assoc], Matrix.trace_mul_comm]
    simp only [Matrix.mul_assoc]
  rw [hval]
  exact hle

/-! ### The penalty as a function of `R = Z - W` -/

/-- For every `R` there is a best split `R = Z - W`. -/
theorem lat_exists_inner (ep : I → J) {alpha tau : ℝ} (hal : 0 < alpha) (hta : 0 ≤ tau)
    {psi phi : (I → Matrix n n ℝ) → ℝ} (ppsi : ∀ Y, 0 ≤ psi Y) (pphi : ∀ Y, 0 ≤ phi Y)
    (hpsi : Continuous psi) (hphi : Continuous phi) (R : J → Matrix n n ℝ) :
    ∃ W ∈ PsdFam J n, ∀ V ∈ PsdFam J n,
      latPen ep alpha tau psi phi (R + W, W) ≤ latPen ep alpha tau psi phi (R + V, V) := by
  set F : (J → Matrix n n ℝ) → ℝ := fun W => latPen ep alpha tau psi phi (R + W, W) with hF
  have hcont : Continuous F :=
    (continuous_latPen ep alpha tau hpsi hphi).comp ((continuous_const.add continuous_id).prodMk continuous_id)
  set b := F 0 with hb
  have h0 : (0 : J → Matrix n n ℝ) ∈ PsdFam J n := fun t => PosSemidef.zero
  have bound : ∀ W ∈ PsdFam J n, F W ≤ b → famSq (W - -R) ≤ (b / alpha) ^ 2 := by
    intro W hW hle
    have h1 := latPen_nonneg (ep := ep) (alpha := alpha) (p := (R + W, W)) hta ppsi pphi hW
    have h6 : ∑ t, absSumMat ((R + W) t) ≤ b / alpha := by
      rw [le_div_iff₀ hal, mul_comm]; exact h1.trans hle
    have e : W - -R = R + W := by abel
    rw [e]
    exact (famSq_le_famAbs_sq _).trans (pow_le_pow_left₀ (famAbs_nonneg _) h6 2)
  have hcomp : IsCompact ({A : J → Matrix n n ℝ | famSq (A - -R) ≤ (b / alpha) ^ 2} ∩ PsdFam J n) :=
    (isCompact_famBall (-R) _).inter_right isClosed_psdFam
  obtain ⟨W, hW, hmin⟩ := hcomp.exists_isMinOn ⟨0, bound 0 h0 le_rfl, h0⟩ hcont.continuousOn
  refine ⟨W, hW.2, fun V hV => ?_⟩
  by_cases hle : F V ≤ b
  · exact hmin (show V ∈ _ from ⟨bound V hV hle, hV⟩)
  · exact (show F W ≤ F 0 from hmin (show (0 : J → Matrix n n ℝ) ∈ _ from ⟨bound 0 h0 le_rfl, h0⟩)).trans
      (not_le.mp hle).le

/-- The penalty of the best split. -/
noncomputable def latInf (ep : I → J) (alpha tau : ℝ) (psi phi : (I → Matrix n n ℝ) → ℝ) (R : J → Matrix n n ℝ) : ℝ :=
  sInf ((fun W => latPen ep alpha tau psi phi (R + W, W)) '' PsdFam J n)

/-- The assumptions on the penalties. -/
structure LatPens (alpha tau : ℝ) (psi phi : (I → Matrix n n ℝ) → ℝ) : Prop where
  al : 0 < alpha
  ta : 0 ≤ tau
  ppsi : ∀ Y, 0 ≤ psi Y
  pphi : ∀ Y, 0 ≤ phi Y
  hpsi : Continuous psi
  hphi : Continuous phi
  cpsi : ConvexFam psi
  cphi : ConvexFam phi

theorem latInf_spec {ep : I → J} {alpha tau : ℝ} {psi phi : (I → Matrix n n ℝ) → ℝ}
    (h : LatPens alpha tau psi phi) (R : J → Matrix n n ℝ) :
    (∃ W ∈ PsdFam J n, latInf ep alpha tau psi phi R = latPen ep alpha tau psi phi (R + W, W)) ∧
    ∀ V ∈ PsdFam J n, latInf ep alpha tau psi phi R ≤ latPen ep alpha tau psi phi (R + V, V) := by
  obtain ⟨W, hW, hmin⟩ := lat_exists_inner ep h.al h.ta h.ppsi h.pphi h.hpsi h.hphi R
  have hl : IsLeast ((fun W => latPen ep alpha tau psi phi (R + W, W)) '' PsdFam J n)
      (latPen ep alpha tau psi phi (R + W, W)) := ⟨⟨W, hW, rfl⟩, by rintro _ ⟨V, hV, rfl⟩; exact hmin V hV⟩
  have e : latInf ep alpha tau psi phi R = latPen ep alpha tau psi phi (R + W, W) := hl.csInf_eq
  exact ⟨⟨W, hW, e⟩, fun V hV => by rw [e]; exact hmin V hV⟩

theorem latPen_convex {ep : I → J} {alpha tau : ℝ} {psi phi : (I → Matrix n n ℝ) → ℝ}
    (h : LatPens alpha tau psi phi) (A B A' B' : J → Matrix n n ℝ) (t : ℝ) (h0 : 0 ≤ t) (h1 : t ≤ 1) :
    latPen ep alpha tau psi phi (A + t • (A' - A), B + t • (B' - B)) ≤
      (1 - t) * latPen ep alpha tau psi phi (A, B) + t * latPen ep alpha tau psi phi (A', B') := by
  have c1 := convexFam_abs h.al.le A A' t h0 h1
  have c2 := convexFam_trace tau B B' t h0 h1
  have c3 := h.cpsi (pull ep A) (pull ep A') t h0 h1
  have c4 := h.cphi (pull ep B) (pull ep B') t h0 h1
  have e3 : pull ep A + t • (pull ep A' - pull ep A) = pull ep (A + t • (A' - A)) := rfl
  have e4 : pull ep B + t • (pull ep B' - pull ep B) = pull ep (B + t • (B' - B)) := rfl
  rw [e3] at c3
  rw [e4] at c4
  unfold latPen
  simp only at c1 c2 ⊢
  linarith

theorem latInf_convex {ep : I → J} {alpha tau : ℝ} {psi phi : (I → Matrix n n ℝ) → ℝ}
    (h : LatPens alpha tau psi phi) : ConvexFam (latInf ep alpha tau psi phi) := by
  intro X Y t h0 h1
  obtain ⟨⟨W, hW, eW⟩, -⟩ := latInf_spec (ep := ep) h X
  obtain ⟨⟨V, hV, eV⟩, -⟩ := latInf_spec (ep := ep) h Y
  have hm := (latInf_spec (ep := ep) h (X + t • (Y - X))).2 (W + t • (V - W)) (psdFam_convex W hW V hV t h0 h1)
  have hc := latPen_convex (ep := ep) h (X + W) W (Y + V) V t h0 h1
  have e : X + W + t • (Y + V - (X + W)) = X + t • (Y - X) + (W + t • (V - W)) := by module
  rw [e] at hc
  rw [eW, eV]
  exact hm.trans hc

theorem ConvexFam.continuous {F : (J → Matrix n n ℝ) → ℝ} (h : ConvexFam F) : Continuous F := by
  have hc : ConvexOn ℝ Set.univ (fun f : J → n → n → ℝ => F (fun t => Matrix.of (f t))) := by
    refine ⟨convex_univ, fun X _ Y _ a b ha hb hab => ?_⟩
    have h1 := h (fun t => Matrix.of (X t)) (fun t => Matrix.of (Y t)) b hb (by linarith)
    have e : (fun t => Matrix.of (X t)) + b • ((fun t => Matrix.of (Y t)) - fun t => Matrix.of (X t)) =
        fun t => Matrix.of ((a • X + b • Y) t) := by
      have : a = 1 - b := by linarith
      subst this
      funext t
      ext i j
      simp only [Matrix.add_apply, Matrix.smul_apply, Matrix.sub_apply, Matrix.of_apply, Pi.add_apply, Pi.sub_apply,
        Pi.smul_apply, smul_eq_mul]
      ring
    rw [e] at h1
    have : 1 - b = a := by linarith
    rw [this] at h1
    exact h1
  exact hc.locallyLipschitz.continuous

theorem latInf_lower {ep : I → J} {alpha tau : ℝ} {psi phi : (I → Matrix n n ℝ) → ℝ}
    (h : LatPens alpha tau psi phi) (R : J → Matrix n n ℝ) :
    alpha * ∑ t, trace (R t) ≤ latInf ep alpha tau psi phi R := by
  obtain ⟨⟨W, hW, eW⟩, -⟩ := latInf_spec (ep := ep) h R
  rw [eW]
  refine le_trans ?_ (latPen_nonneg (ep := ep) (alpha := alpha) (p := (R + W, W)) h.ta h.ppsi h.pphi hW)
  refine mul_le_mul_of_nonneg_left (Finset.sum_le_sum fun t _ => ?_) h.al.le
  refine le_trans ?_ trace_le_absSumMat
  change trace (R t) ≤ trace (R t + W t)
  rw [trace_add]
  linarith [(hW t).trace_nonneg]

/-! ### The problem with the log-likelihood -/

variable {k : ℕ}

/-- Symmetric families. -/
def SymmFam (k : ℕ) (n : Type*) : Set (Batch k n) := {R | ∀ t, (R t).IsSymm}

/-- The gradient of the negative log-likelihood. -/
noncomputable def ldGrad (S : Batch k n) (nS : Fin k → ℝ) (R : Batch k n) : Batch k n :=
  fun t => nS t • (S t - (R t)⁻¹)

/-- The latent problem with the log-likelihood. -/
noncomputable def ldProb (ep : I → Fin k) (S : Batch k n) (nS : Fin k → ℝ) (alpha tau : ℝ)
    (psi phi : (I → Matrix n n ℝ) → ℝ) : LProb (Fin k) I n where
  ep := ep
  DR := SymmFam k n
  grad := ldGrad S nS
  g := fun Z => alpha * ∑ t, absSumMat (Z t)
  h := fun W => tau * ∑ t, trace (W t)
  DW := PsdFam (Fin k) n
  psi := psi
  phi := phi

/-- The objective with the log-likelihood. -/
noncomputable def ldObj (ep : I → Fin k) (S : Batch k n) (nS : Fin k → ℝ) (alpha tau : ℝ)
    (psi phi : (I → Matrix n n ℝ) → ℝ) (p : Batch k n × Batch k n) : ℝ :=
  negLogLik S nS (fun t => p.1 t - p.2 t) + latPen ep alpha tau psi phi p

/-- A minimiser exists. -/
theorem ld_exists_min (ep : I → Fin k) {S : Batch k n} {nS : Fin k → ℝ} (hS : ∀ t, (S t).PosSemidef)
    (hn : ∀ t, 0 < nS t) {alpha tau : ℝ} {psi phi : (I → Matrix n n ℝ) → ℝ} (h : LatPens alpha tau psi phi) :
    ∃ p, IsMin (LatentSeqFeasible k n) (ldObj ep S nS alpha tau psi phi) p ∧
      IsMin (PDSeq k n) (fun K => negLogLik S nS K + latInf ep alpha tau psi phi K) (fun t => p.1 t - p.2 t) ∧
      latInf ep alpha tau psi phi (fun t => p.1 t - p.2 t) = latPen ep alpha tau psi phi p := by
  set P : Batch k n → ℝ := fun K => ∑ t, nS t * trace (S t * K t) + latInf ep alpha tau psi phi K with hP
  have hPc : Continuous P := by
    have hproj : ∀ t, Continuous fun K : Batch k n => K t := fun t => continuous_apply t
    refine Continuous.add ?_ (latInf_convex h).continuous
    refine continuous_finsetSum _ fun t _ => continuous_const.mul ?_
    exact (continuous_const.matrix_mul (hproj t)).matrix_trace
  obtain ⟨X, hX⟩ := exists_min_logdet (N := nS) (c := fun _ => alpha) (b := 0) hn (fun _ => h.al) hPc (by
    intro K hK
    have h1 : 0 ≤ ∑ t, nS t * trace (S t * K t) := Finset.sum_nonneg fun t _ =>
      mul_nonneg (hn t).le (trace_mul_nonneg' (hS t) (hK t))
    have h2 := latInf_lower (ep := ep) h K
    rw [Finset.mul_sum] at h2
    rw [hP]
    simp only
    linarith)
  have hX' : IsMin (PDSeq k n) (fun K => negLogLik S nS K + latInf ep alpha tau psi phi K) X := by
    have e : (fun K => P K - ∑ t, nS t * Real.log (K t).det) =
        fun K => negLogLik S nS K + latInf ep alpha tau psi phi K := by
      funext K
      rw [hP]
      unfold negLogLik
      simp only [mul_sub, Finset.sum_sub_distrib]
      ring
    rw [e] at hX
    exact hX
  obtain ⟨⟨W, hW, eW⟩, -⟩ := latInf_spec (ep := ep) h X
  have eX : (fun t => (X + W, W).1 t - (X + W, W).2 t) = X := by
    funext t
    simp
  refine ⟨(X + W, W), ⟨fun t => ⟨?_, hW t⟩, fun q hq => ?_⟩, by rw [eX]; exact hX', by rw [eX]; exact eW⟩
  · rw [congrFun eX t]
    exact hX'.1 t
  · unfold ldObj
    rw [eX, ← eW]
    refine (hX'.2 (fun t => q.1 t - q.2 t) fun t => (hq t).1).trans ?_
    have := (latInf_spec (ep := ep) h fun t => q.1 t - q.2 t).2 q.2 fun t => (hq t).2
    have e : (fun t => q.1 t - q.2 t) + q.2 = q.1 := by
      funext t
      simp
    rw [e] at this
    have e2 : (q.1, q.2) = q := rfl
    rw [e2] at this
    linarith

theorem le_trace_of_posSemidef {X : Matrix n n ℝ} (hX : X.PosSemidef) : (trace X • (1 : Matrix n n ℝ) - X).PosSemidef := by
  obtain ⟨Q, e, hE⟩ := exists_isEigh hX.isSymm'
  have hp := hE.eigen_nonneg hX
  have e1 : trace X = ∑ i, e i := by rw [hE.eq_recompose, recompose_trace hE.orth']
  have e2 : trace X • (1 : Matrix n n ℝ) - X = recompose Q fun i => trace X - e i := by
    have h1 : recompose Q (fun i => trace X - e i) = recompose Q (fun _ => trace X * 1) - recompose Q e := by
      rw [← recompose_sub]; simp only [mul_one]
    rw [h1, ← recompose_smul, recompose_one hE.orth, ← hE.eq_recompose]
  rw [e2]
  refine recompose_posSemidef Q fun i => ?_
  rw [e1, sub_nonneg]
  exact Finset.single_le_sum (f := e) (fun i _ => hp i) (Finset.mem_univ i)

/-- A multiplier of the minimiser, and a bound on it. -/
theorem ld_multiplier {ep : I → Fin k} {S : Batch k n} {nS : Fin k → ℝ} (hS : ∀ t, (S t).PosSemidef)
    (hn : ∀ t, 0 < nS t) {alpha tau : ℝ} {psi phi : (I → Matrix n n ℝ) → ℝ} (h : LatPens alpha tau psi phi)
    {X : Batch k n} (hX : IsMin (PDSeq k n) (fun K => negLogLik S nS K + latInf ep alpha tau psi phi K) X)
    {rho : ℝ} (hr : 0 < rho) :
    ∃ V : Batch k n, (∀ t, nS t • (S t - (X t)⁻¹) + rho • symmetrize (V t) = 0) ∧
      (∀ Y, latInf ep alpha tau psi phi X + rho * famIn V (Y - X) ≤ latInf ep alpha tau psi phi Y) := by
  obtain ⟨V, h1, h2⟩ := exists_saddle (ep := (id : Fin k → Fin k)) (fun t => ⟨t, rfl⟩)
    (fun t => (hS t).isSymm') hn (F := latInf ep alpha tau psi phi) (latInf_convex h) hX hr
  refine ⟨V, fun t => ?_, h2⟩
  have := h1 t
  simp only [id, Finset.sum_ite_eq', Finset.mem_univ, if_true] at this
  exact this

theorem ld_grad_symm {S : Batch k n} {nS : Fin k → ℝ} {rho : ℝ} {X V : Batch k n}
    (hV : ∀ t, nS t • (S t - (X t)⁻¹) + rho • symmetrize (V t) = 0) {D : Batch k n} (hD : ∀ t, (D t).IsSymm) :
    famIn (ldGrad S nS X + rho • V) D = 0 := by
  unfold famIn
  refine Finset.sum_eq_zero fun t _ => ?_
  change frobInner (nS t • (S t - (X t)⁻¹) + rho • V t) (D t) = 0
  have h1 := congrArg (fun M => frobInner M (D t)) (hV t)
  simp only [frobInner_add_left, frobInner_smul_left, frobInner_zero_left'] at h1
  rw [frobInner_symmetrize (hD t)] at h1
  rw [frobInner_add_left, frobInner_smul_left, frobInner_smul_left]
  exact h1

/-- The trace of the optimal `K - L` is bounded in terms of the problem. -/
theorem ld_trace_bound {ep : I → Fin k} {S : Batch k n} {nS : Fin k → ℝ} (hS : ∀ t, (S t).PosSemidef)
    (hn : ∀ t, 0 < nS t) {alpha tau : ℝ} {psi phi : (I → Matrix n n ℝ) → ℝ} (h : LatPens alpha tau psi phi)
    {X : Batch k n} (hX : IsMin (PDSeq k n) (fun K => negLogLik S nS K + latInf ep alpha tau psi phi K) X) :
    alpha * ∑ t, trace (X t) ≤ Fintype.card n * ∑ t, nS t + (psi 0 + phi 0) := by
  obtain ⟨V, h1, h2⟩ := ld_multiplier hS hn h hX one_pos
  have hpd : ∀ t, (X t).PosDef := hX.1
  have h3 := h2 0
  have h4 := latInf_lower (ep := ep) h X
  have h5 := (latInf_spec (ep := ep) h 0).2 0 fun t => PosSemidef.zero
  have e5 : latPen ep alpha tau psi phi ((0 : Batch k n) + 0, 0) = psi 0 + phi 0 := by
    unfold latPen
    have e : pull ep (0 : Batch k n) = 0 := rfl
    simp [e, absSumMat]
  rw [e5] at h5
  have h6 := ld_grad_symm h1 (D := X) fun t => (hpd t).isSymm'
  rw [famIn_add_left, famIn_smul_left] at h6
  have h7 : -(Fintype.card n * ∑ t, nS t) ≤ famIn (ldGrad S nS X) X := by
    unfold famIn
    rw [Finset.mul_sum, ← Finset.sum_neg_distrib]
    refine Finset.sum_le_sum fun t _ => ?_
    change _ ≤ frobInner (nS t • (S t - (X t)⁻¹)) (X t)
    rw [frobInner_smul_left, frobInner_sub_left, frobInner_eq_trace_of_symm (hS t).isSymm',
      frobInner_eq_trace_of_symm (hpd t).inv.isSymm',
      Matrix.nonsing_inv_mul _ (isUnit_iff_ne_zero.mpr (hpd t).det_pos.ne'), trace_one]
    have := mul_nonneg (hn t).le (trace_mul_nonneg' (hS t) (hpd t))
    rw [mul_sub]
    linarith
  rw [zero_sub, famIn_comm, famIn_neg_left, famIn_comm] at h3
  linarith

/-- A stationary state with positive definite `R` is a minimiser; all minimisers share `K - L`. -/
theorem ld_min_of_pass {ep : I → Fin k} {S : Batch k n} {nS : Fin k → ℝ} (hS : ∀ t, (S t).PosSemidef)
    (hn : ∀ t, 0 < nS t) {alpha tau : ℝ} {psi phi : (I → Matrix n n ℝ) → ℝ} {rho : ℝ}
    {a : LSt (Fin k) I n} (h : LPass (ldProb ep S nS alpha tau psi phi) rho a a) (hpd : ∀ t, (a.R t).PosDef) :
    IsMin (LatentSeqFeasible k n) (ldObj ep S nS alpha tau psi phi) (a.Z, a.W) ∧
    ∀ q, IsMin (LatentSeqFeasible k n) (ldObj ep S nS alpha tau psi phi) q → ∀ t, q.1 t - q.2 t = a.Z t - a.W t := by
  obtain ⟨hR, hpen⟩ := h.penalties
  have hW : a.W ∈ PsdFam (Fin k) n := h.memW
  have hRt : ∀ t, a.R t = a.Z t - a.W t := fun t => congrFun hR t
  have key0 : ∀ q : Batch k n × Batch k n, q ∈ LatentSeqFeasible k n →
      ldObj ep S nS alpha tau psi phi (a.Z, a.W) ≤ ldObj ep S nS alpha tau psi phi q ∧
      ((fun t => q.1 t - q.2 t) ≠ a.R →
        ldObj ep S nS alpha tau psi phi (a.Z, a.W) < ldObj ep S nS alpha tau psi phi q) := by
    intro q hq
    have h1 := hpen q.1 q.2 fun t => (hq t).2
    have h2 := h.r (fun t => q.1 t - q.2 t) fun t => (hq t).1.isSymm'
    simp only [sub_self, sub_zero, add_zero] at h2
    change famIn (ldGrad S nS a.R + rho • a.X) ((fun t => q.1 t - q.2 t) - a.R) = 0 at h2
    have h3 := negLogLik_le (S := S) (nS := nS) (R := a.R) (X := fun t => q.1 t - q.2 t)
      (G := fun t => -(nS t • (S t - (a.R t)⁻¹))) (fun t => (hS t).isSymm') hn hpd (fun t => (hq t).1) (fun t => by
        have hs : (nS t • (S t - (a.R t)⁻¹)).IsSymm := by
          rw [IsSymm, transpose_smul, transpose_sub, (hS t).isSymm'.eq, (hpd t).inv.isSymm'.eq]
        have hs' : (-(nS t • (S t - (a.R t)⁻¹))).IsSymm := by rw [IsSymm, transpose_neg, hs.eq]
        rw [symmetrize_of_isSymm hs', add_neg_cancel])
    have e3 : ∑ t, frobInner (-(nS t • (S t - (a.R t)⁻¹))) ((q.1 t - q.2 t) - a.R t) =
        rho * famIn a.X ((q.1 - q.2) - (a.Z - a.W)) := by
      rw [famIn_add_left, famIn_smul_left] at h2
      have e1 : ∑ t, frobInner (-(nS t • (S t - (a.R t)⁻¹))) ((q.1 t - q.2 t) - a.R t) =
          -famIn (ldGrad S nS a.R) ((fun t => q.1 t - q.2 t) - a.R) := by
        unfold famIn
        rw [← Finset.sum_neg_distrib]
        exact Finset.sum_congr rfl fun t _ => frobInner_neg_left _ _
      have e2 : (fun t => q.1 t - q.2 t) - a.R = (q.1 - q.2) - (a.Z - a.W) := by rw [hR]; rfl
      rw [e1, ← e2]
      linarith
    rw [e3] at h3
    have eR : (fun t => (a.Z, a.W).1 t - (a.Z, a.W).2 t) = a.R := funext fun t => (hRt t).symm
    change (alpha * ∑ t, absSumMat (a.Z t) + psi (pull ep a.Z)) + (tau * ∑ t, trace (a.W t) + phi (pull ep a.W))
      + rho * famIn a.X (q.1 - q.2 - (a.Z - a.W)) ≤ (alpha * ∑ t, absSumMat (q.1 t) + psi (pull ep q.1))
      + (tau * ∑ t, trace (q.2 t) + phi (pull ep q.2)) at h1
    unfold ldObj latPen
    rw [eR]
    refine ⟨?_, fun hne => ?_⟩
    · have := h3.1; simp only; linarith
    · have := h3.2 hne; simp only; linarith
  have hmem : (a.Z, a.W) ∈ LatentSeqFeasible k n := fun t => ⟨by
    change (a.Z t - a.W t).PosDef
    rw [← hRt]; exact hpd t, hW t⟩
  refine ⟨⟨hmem, fun q hq => (key0 q hq).1⟩, fun q hq t => ?_⟩
  by_contra hne
  have h3 := (key0 q hq.1).2 (fun hc => hne (by rw [← hRt]; exact congrFun hc t))
  exact absurd (hq.2 _ hmem) (not_le.mpr h3)

theorem ld_saddle {ep : I → Fin k} {S : Batch k n} {nS : Fin k → ℝ} (hS : ∀ t, (S t).PosSemidef)
    (hn : ∀ t, 0 < nS t) {alpha tau : ℝ} {psi phi : (I → Matrix n n ℝ) → ℝ} (h : LatPens alpha tau psi phi)
    {rho : ℝ} (hr : 0 < rho) :
    ∃ st, LPass (ldProb ep S nS alpha tau psi phi) rho st st ∧ (∀ t, (st.R t).PosDef) ∧
      alpha * ∑ t, trace (st.R t) ≤ Fintype.card n * ∑ t, nS t + (psi 0 + phi 0) := by
  obtain ⟨p, hp, hX, heq⟩ := ld_exists_min ep hS hn h
  obtain ⟨V, hV1, hV2⟩ := ld_multiplier hS hn h hX hr
  have hW : p.2 ∈ PsdFam (Fin k) n := fun t => (hp.1 t).2
  have hsub : ∀ A B : Batch k n, B ∈ PsdFam (Fin k) n → latPen ep alpha tau psi phi p
      + rho * famIn V (A - B - (p.1 - p.2)) ≤ latPen ep alpha tau psi phi (A, B) := by
    intro A B hB
    have h1 := hV2 (A - B)
    rw [heq] at h1
    refine h1.trans ?_
    have h2 := (latInf_spec (ep := ep) h (A - B)).2 B hB
    rwa [sub_add_cancel] at h2
  obtain ⟨XP, UP, hst⟩ := latent_saddle (p := ldProb ep S nS alpha tau psi phi) (rho := rho) (Z := p.1) (W := p.2)
    (X := V) hr (convexFam_abs h.al.le) (convexFam_trace tau) h.cpsi h.cphi psdFam_convex
    (fun t => (hp.1 t).1.isSymm')
    (fun Y hY => ld_grad_symm hV1 fun t => by
      have h1 := (hp.1 t).1.isSymm'
      change (Y t - (p.1 t - p.2 t)).IsSymm
      rw [IsSymm, transpose_sub, h1.eq, (hY t).eq])
    (fun Y => by
      have h1 := hsub Y p.2 hW
      have e : Y - p.2 - (p.1 - p.2) = Y - p.1 := by abel
      rw [e] at h1
      unfold latPen at h1
      change alpha * ∑ t, absSumMat (p.1 t) + psi (pull ep p.1) + rho * famIn V (Y - p.1) ≤
        alpha * ∑ t, absSumMat (Y t) + psi (pull ep Y)
      simp only at h1
      linarith) hW
    (fun Y hY => by
      have h1 := hsub p.1 Y hY
      have e : p.1 - Y - (p.1 - p.2) = -(Y - p.2) := by abel
      rw [e, famIn_comm, famIn_neg_left, famIn_comm] at h1
      unfold latPen at h1
      change tau * ∑ t, trace (p.2 t) + phi (pull ep p.2) - rho * famIn V (Y - p.2) ≤
        tau * ∑ t, trace (Y t) + phi (pull ep Y)
      simp only at h1
      linarith)
  exact ⟨_, hst, fun t => (hp.1 t).1, ld_trace_bound hS hn h hX⟩

/-- Passes with the log-likelihood converge to a minimiser if the computed `R` stay below `c` and
`rho c b < 2 m`, where `b` bounds the optimal `K - L` and `m` the sample sizes from below. -/
theorem ld_main {ep : I → Fin k} {S : Batch k n} {nS : Fin k → ℝ} (hS : ∀ t, (S t).PosSemidef)
    {m : ℝ} (hm : 0 < m) (hn : ∀ t, m ≤ nS t) {alpha tau : ℝ} {psi phi : (I → Matrix n n ℝ) → ℝ}
    (h : LatPens alpha tau psi phi)
    {rho : ℝ} (hr : 0 < rho) {c b : ℝ} (hc : 0 < c) (hb : 0 < b) (hrc : rho * (c * b) < 2 * m)
    (hopt : ∀ p, IsMin (LatentSeqFeasible k n) (ldObj ep S nS alpha tau psi phi) p →
      ∀ t, (b • 1 - (p.1 t - p.2 t)).PosSemidef)
    {s : ℕ → LSt (Fin k) I n}
    (hs : ∀ j, LPass (ldProb ep S nS alpha tau psi phi) rho (s j) (s (j + 1)))
    (hpd : ∀ j t, ((s (j + 1)).R t).PosDef)
    (hbd : ∀ᶠ j in atTop, ∀ t, (c • 1 - (s j).R t).PosSemidef) :
    ∃ a, LPass (ldProb ep S nS alpha tau psi phi) rho a a ∧ (∀ t, (a.R t).PosDef) ∧
      Tendsto (fun j => (s j).R) atTop (𝓝 a.R) ∧ LTends s (fun j => j) a := by
  have hn0 : ∀ t, 0 < nS t := fun t => hm.trans_le (hn t)
  obtain ⟨st, hst, hstpd, -⟩ := ld_saddle (ep := ep) hS hn0 h hr
  have hstb : ∀ t, (b • 1 - st.R t).PosSemidef := by
    intro t
    have h1 := hopt _ (ld_min_of_pass hS hn0 hst hstpd).1 t
    have h2 := congrFun hst.penalties.1 t
    rw [h2]
    exact h1
  obtain ⟨N, hN⟩ := eventually_atTop.mp hbd
  have hcb : 0 < c * b := mul_pos hc hb
  obtain ⟨a, h1, h0, h2, h3⟩ := latent_converges (mu := m / (c * b)) (s := fun j => s (j + N)) hr (by
      rw [← mul_div_assoc, lt_div_iff₀ hcb]; exact hrc)
    (fun j => by
      have := hs (j + N)
      have e : j + N + 1 = j + 1 + N := by omega
      rw [e] at this
      exact this) hst (fun j => by
      have e : j + 1 + N = j + N + 1 := by omega
      have hp := hpd (j + N)
      rw [← e] at hp
      have hcc := hN (j + 1 + N) (by omega)
      set R := (s (j + 1 + N)).R with hR
      unfold famSq famIn
      rw [Finset.mul_sum]
      refine Finset.sum_le_sum fun t _ => ?_
      have h4 := inv_strict_mono_le (hp t) (hstpd t) hc.le (hcc t) (hstb t)
      change m / (c * b) * frobSq (R t - st.R t) ≤
        frobInner (nS t • (S t - (R t)⁻¹) - nS t • (S t - (st.R t)⁻¹)) (R t - st.R t)
      rw [← smul_sub, sub_sub_sub_cancel_left, frobInner_smul_left]
      have h5 : frobSq (R t - st.R t) / (c * b) ≤ frobInner ((st.R t)⁻¹ - (R t)⁻¹) (R t - st.R t) := by
        rw [div_le_iff₀ hcb, mul_comm]; exact h4
      have h6 := mul_le_mul (hn t) h5 (div_nonneg (frobSq_nonneg _) hcb.le) (hn0 t).le
      rw [div_mul_eq_mul_div]
      rw [← mul_div_assoc] at h6
      exact h6)
    (continuous_const.mul continuous_famAbs) (continuous_const.mul continuous_famTrace) h.hpsi h.hphi isClosed_psdFam
    (by
      change ContinuousAt (ldGrad S nS) st.R
      unfold ldGrad
      refine continuousAt_pi.mpr fun t => ?_
      have h4 : ContinuousAt (Inv.inv : Matrix n n ℝ → Matrix n n ℝ) (st.R t) := by
        apply continuousAt_matrix_inv
        rw [Ring.inverse_eq_inv']
        exact continuousAt_inv₀ (hstpd t).det_pos.ne'
      have h5 : ContinuousAt (fun R : Batch k n => (R t)⁻¹) st.R :=
        ContinuousAt.comp (f := fun R : Batch k n => R t) h4 (continuous_apply t).continuousAt
      exact (continuousAt_const.sub h5).const_smul (nS t))
  refine ⟨a, h1, fun t => by rw [h0]; exact hstpd t, (tendsto_add_atTop_iff_nat N).mp h2, ?_⟩
  exact ⟨(tendsto_add_atTop_iff_nat N).mp h3.z, (tendsto_add_atTop_iff_nat N).mp h3.w,
    (tendsto_add_atTop_iff_nat N).mp h3.x, (tendsto_add_atTop_iff_nat N).mp h3.zp,
    (tendsto_add_atTop_iff_nat N).mp h3.wp, (tendsto_add_atTop_iff_nat N).mp h3.xp,
    (tendsto_add_atTop_iff_nat N).mp h3.up⟩

end Verif.Lemmas
