import Verif.Model.Objective
import Verif.Props.GLConv
import Verif.Props.GLExist
import Verif.Props.LGL
import Verif.Props.LTGL
import Verif.Props.Infimal
import Verif.Props.TimeConv
import Verif.Lemmas.FB
import Mathlib.Topology.Instances.Matrix
import Mathlib.Algebra.Order.Chebyshev
import Mathlib.Analysis.Convex.Continuous
import Mathlib.Analysis.SpecialFunctions.Log.Basic

/-! Property theorems C132 (the objective values in the history). -/

namespace Verif.Props

open Verif.Model Verif.Spec Verif.Lemmas Matrix Filter Topology

set_option autoImplicit false
set_option linter.unusedSectionVars false

variable {n : Type*} [Fintype n] [DecidableEq n] {k : ℕ} {E : Type*} [Fintype E]

/-! ### The nuclear norm of a positive semidefinite matrix is its trace -/

theorem orth_diag_le {W : Matrix n n ℝ} (h : Wᵀ * W = 1) (i : n) : W i i ≤ 1 := by
  have h1 := congrFun (congrFun h i) i
  rw [Matrix.mul_apply, Matrix.one_apply_eq] at h1
  have h2 : W i i ^ 2 ≤ 1 := by
    rw [← h1]
    have := Finset.single_le_sum (f := fun j => Wᵀ i j * W j i) (fun j _ => mul_self_nonneg (W j i))
      (Finset.mem_univ i)
    simpa [transpose_apply, sq] using this
  nlinarith

theorem trace_diag_mul (s : n → ℝ) (W : Matrix n n ℝ) : trace (diagonal s * W) = ∑ i, s i * W i i := by
  simp [trace, diag, diagonal_mul]

theorem nucNorm_psd {sv : Svdvals n} (hsv : IsSvdOracle sv) {L : Matrix n n ℝ} (hL : L.PosSemidef) :
    nucNorm sv L = trace L := by
  obtain ⟨R, Rt, h⟩ := hsv L
  have hl' : R * Rᵀ = 1 := mul_eq_one_comm.mp h.left
  have hr' : Rtᵀ * Rt = 1 := mul_eq_one_comm.mp h.right
  have hs : L.IsSymm := by
    have := hL.isHermitian
    rwa [IsHermitian, conjTranspose_eq_transpose_of_trivial] at this
  refine le_antisymm ?_ ?_
  · obtain ⟨Q, e, hE⟩ := exists_isEigh hs
    have h1 : nucNorm sv L = trace (L * (Rtᵀ * Rᵀ)) := by
      have h2 : diagonal (sv L) = Rᵀ * L * Rtᵀ := by
        have h3 : Rᵀ * (R * diagonal (sv L) * Rt) * Rtᵀ = diagonal (sv L) := by
          rw [← Matrix.mul_assoc, ← Matrix.mul_assoc, h.left, Matrix.one_mul, Matrix.mul_assoc, h.right,
            Matrix.mul_one]
        rw [← h3, ← h.decomp]
      have h4 : nucNorm sv L = trace (diagonal (sv L)) := (trace_diagonal _).symm
      rw [h4, h2, Matrix.mul_assoc, Matrix.trace_mul_comm, Matrix.mul_assoc]
    have h5 : trace (L * (Rtᵀ * Rᵀ)) = ∑ i, e i * (Qᵀ * (Rtᵀ * Rᵀ) * Q) i i := by
      rw [← trace_diag_mul]
      conv_lhs => rw [hE.decomp]
      rw [Matrix.mul_assoc, Matrix.mul_assoc, Matrix.trace_mul_comm, Matrix.mul_assoc, ← Matrix.mul_assoc Qᵀ]
    have h6 : trace L = ∑ i, e i := by
      conv_lhs => rw [hE.decomp]
      rw [Matrix.mul_assoc, Matrix.trace_mul_comm, Matrix.mul_assoc, hE.orth', Matrix.mul_one, trace_diagonal]
    rw [h1, h5, h6]
    refine Finset.sum_le_sum fun i _ => ?_
    have hW : (Qᵀ * (Rtᵀ * Rᵀ) * Q)ᵀ * (Qᵀ * (Rtᵀ * Rᵀ) * Q) = 1 := by
      simp only [transpose_mul, transpose_transpose]
      calc _ = Qᵀ * (R * (Rt * (Q * Qᵀ) * Rtᵀ) * Rᵀ) * Q := by simp only [Matrix.mul_assoc]
        _ = 1 := by rw [hE.orth, Matrix.mul_one, h.right, Matrix.mul_one, hl', Matrix.mul_one, hE.orth']
    have := mul_le_mul_of_nonneg_left (orth_diag_le hW i) (hE.eigen_nonneg hL i)
    rwa [mul_one] at this
  · have h1 : trace L = ∑ i, sv L i * (Rt * R) i i := by
      rw [← trace_diag_mul]
      conv_lhs => rw [h.decomp]
      rw [Matrix.mul_assoc, Matrix.trace_mul_comm, Matrix.mul_assoc]
    rw [h1]
    refine Finset.sum_le_sum fun i _ => ?_
    have hW : (Rt * R)ᵀ * (Rt * R) = 1 := by
      rw [transpose_mul]
      calc _ = Rᵀ * (Rtᵀ * Rt) * R := by simp only [Matrix.mul_assoc]
        _ = 1 := by rw [hr', Matrix.mul_one, h.left]
    have := mul_le_mul_of_nonneg_left (orth_diag_le hW i) (h.nonneg i)
    rwa [mul_one] at this

/-- A singular value oracle exists. -/
theorem exists_svdOracle_one : ∃ sv : Svdvals (Fin 1), IsSvdOracle sv := by
  refine ⟨fun A _ => |A 0 0|, fun A => ⟨1, (if 0 ≤ A 0 0 then 1 else -1 : ℝ) • 1, by simp, ?_,
    fun _ => abs_nonneg _, ?_⟩⟩
  · rw [transpose_smul, transpose_one, smul_mul_smul_comm, Matrix.one_mul]
    split <;> simp
  · ext i j
    have hi : i = 0 := Subsingleton.elim _ _
    have hj : j = 0 := Subsingleton.elim _ _
    subst hi hj
    rw [Matrix.one_mul, Matrix.mul_smul, Matrix.mul_one, Matrix.smul_apply, diagonal_apply_eq, smul_eq_mul]
    beta_reduce
    split
    · rw [abs_of_nonneg ‹_›, one_mul]
    · rw [abs_of_neg (not_le.mp ‹_›)]; ring

/-! ### Graphical lasso -/

theorem l1OdNorm_smul (c : ℝ) (A : Matrix n n ℝ) : l1OdNorm (c • A) = |c| * absSumOff A := by
  rw [l1OdNorm_eq]
  unfold absSumOff
  simp only [Finset.mul_sum]
  refine Finset.sum_congr rfl fun i _ => Finset.sum_congr rfl fun j _ => ?_
  split
  · rw [mul_zero]
  · rw [Matrix.smul_apply, smul_eq_mul, abs_mul]

theorem glObjectiveCode_pos {S x : Matrix n n ℝ} (hS : S.IsSymm) (hx : x.PosDef) (z : Matrix n n ℝ) (alpha : ℝ) :
    glObjectiveCode S x z alpha = .fin (trace (S * x) - Real.log x.det + |alpha| * absSumOff z) := by
  unfold glObjectiveCode loglXF logdetXF
  rw [if_pos hx.det_pos, l1OdNorm_smul, ← frobInner_eq_trace_of_symm hS]
  simp only [XF.sub, XF.add, XF.neg, frobInner]
  congr 1
  ring

theorem absSumOff_sub_le (A B : Matrix n n ℝ) :
    |absSumOff A - absSumOff B| ≤ Fintype.card n * froNorm (B - A) := by
  have h1 : |absSumOff A - absSumOff B| ≤ ∑ i, ∑ j, |(B - A) i j| := by
    unfold absSumOff
    rw [← Finset.sum_sub_distrib]
    refine (Finset.abs_sum_le_sum_abs _ _).trans (Finset.sum_le_sum fun i _ => ?_)
    rw [← Finset.sum_sub_distrib]
    refine (Finset.abs_sum_le_sum_abs _ _).trans (Finset.sum_le_sum fun j _ => ?_)
    split
    · simp
    · rw [Matrix.sub_apply, abs_sub_comm (B i j)]
      exact abs_abs_sub_abs_le_abs_sub _ _
  refine h1.trans ?_
  have h2 : (∑ i, ∑ j, |(B - A) i j|) ^ 2 ≤ (Fintype.card n * froNorm (B - A)) ^ 2 := by
    rw [mul_pow, froNorm_sq]
    unfold frobSq
    rw [← Finset.sum_product', ← Finset.sum_product' (f := fun i j => (B - A) i j ^ 2)]
    refine (sq_sum_le_card_mul_sum_sq (s := Finset.univ ×ˢ Finset.univ)).trans (le_of_eq ?_)
    rw [Finset.card_product, Finset.card_univ]
    push_cast
    rw [sq ((Fintype.card n : ℝ))]
    congr 1
    refine Finset.sum_congr rfl fun p _ => ?_
    rw [sq_abs]
  exact abs_le_of_sq_le_sq' h2 (mul_nonneg (Nat.cast_nonneg _) (froNorm_nonneg _)) |>.2

theorem glBody_Z (eigh : Eigh n) (a : GLArgs n) (it : ℕ) (s : GLState n) :
    (glBody eigh a it s).1.Z =
      glZ a.alpha s.rho (glKhat a.overRelax (glK eigh a.empCov s.rho s.Z s.U) s.Z) s.U := by
  unfold glBody
  simp only
  split <;> rfl

/-- C132 (graphical lasso): every objective value of the history is a finite number; it is the documented
objective of a positive definite matrix up to `alpha` times the dimension times the recorded primal residual, and
whenever the recorded primal residual is 0 it is the documented objective of the precision the pass produces. -/
theorem C132_graphical_lasso {eigh : Eigh n} (he : IsEighOracle eigh) (a : GLArgs n) (hS : a.empCov.IsSymm)
    (hal : 0 ≤ a.alpha) (it : ℕ) (s : GLState n) (hr : 0 < s.rho) :
    ∃ v, glReported eigh a s = .fin v ∧
      (∃ K, K.PosDef ∧ |v - glObjective a.empCov a.alpha K| ≤
        a.alpha * Fintype.card n * (glBody eigh a it s).2.1.rnorm ∧
        froNorm (K - (glBody eigh a it s).1.Z) = (glBody eigh a it s).2.1.rnorm) ∧
      ((glBody eigh a it s).2.1.rnorm = 0 → (glBody eigh a it s).1.Z.PosDef ∧
        v = glObjective a.empCov a.alpha (glBody eigh a it s).1.Z) := by
  set K := glK eigh a.empCov s.rho s.Z s.U with hK
  set Z := glZ a.alpha s.rho (glKhat a.overRelax K s.Z) s.U with hZ
  have hpd : K.PosDef := glK_posDef he hS hr _ _
  have hZ' : (glBody eigh a it s).1.Z = Z := glBody_Z eigh a it s
  have hrn : (glBody eigh a it s).2.1.rnorm = froNorm (K - Z) := rfl
  refine ⟨_, glObjectiveCode_pos hS hpd Z a.alpha, ⟨K, hpd, ?_, ?_⟩, fun h => ?_⟩
  · rw [hrn, abs_of_nonneg hal]
    unfold glObjective
    have e : trace (a.empCov * K) - Real.log K.det + a.alpha * absSumOff Z
        - (trace (a.empCov * K) - Real.log K.det + a.alpha * absSumOff K)
        = a.alpha * (absSumOff Z - absSumOff K) := by ring
    rw [e, abs_mul, abs_of_nonneg hal, mul_assoc]
    exact mul_le_mul_of_nonneg_left (absSumOff_sub_le Z K) hal
  · rw [hZ', hrn]
  · rw [hrn] at h
    have : K = Z := sub_eq_zero.mp (froNorm_eq_zero' h)
    rw [hZ', ← this, abs_of_nonneg hal]
    exact ⟨hpd, rfl⟩

/-- C132 (graphical lasso, limit): at a constant penalty the objective values of the history tend to the minimum
of the documented problem. -/
theorem C132_graphical_lasso_limit {eigh : Eigh n} {a : GLArgs n} {Z0 : Matrix n n ℝ} {rho : ℝ}
    (h : ConstPenalty eigh a Z0 rho) {X : Matrix n n ℝ} (hX : IsMin (PD n) (glObjective a.empCov a.alpha) X) :
    ∃ v : ℕ → ℝ, (∀ j, glReported eigh a (st eigh a Z0 rho j) = .fin (v j)) ∧
      Tendsto v atTop (𝓝 (glObjective a.empCov a.alpha X)) := by
  obtain ⟨-, -, hK, hZ⟩ := C18_converges h hX
  have hZ1 := hZ.comp (tendsto_add_atTop_nat 1)
  refine ⟨fun j => trace (a.empCov * Kit eigh a Z0 rho j) - Real.log (Kit eigh a Z0 rho j).det
    + |a.alpha| * absSumOff (st eigh a Z0 rho (j + 1)).Z, fun j => ?_, ?_⟩
  · have e : (st eigh a Z0 rho (j + 1)).Z = (glBody eigh a j (st eigh a Z0 rho j)).1.Z := rfl
    simp only
    rw [e, glBody_Z]
    exact glObjectiveCode_pos h.symS (Kit_posDef h j) _ _
  · rw [abs_of_nonneg h.alphaNonneg]
    unfold glObjective
    have c1 : Continuous fun M : Matrix n n ℝ => trace (a.empCov * M) :=
      (continuous_const.matrix_mul continuous_id).matrix_trace
    have c2 : Continuous fun M : Matrix n n ℝ => M.det := continuous_id.matrix_det
    exact (((c1.tendsto X).comp hK).sub (((c2.tendsto X).comp hK).log hX.1.det_pos.ne')).add
      (((absSumOff_continuous.tendsto X).comp hZ1).const_mul _)

/-! ### Latent variable graphical lasso and infimal convolution -/

/-- C132 (latent graphical lasso): every objective value of the history is finite, with the trace of the returned
latent part as nuclear norm, and it is the documented objective of the returned pair whenever the recorded primal
residual is 0. -/
theorem C132_latent {eigh : Eigh n} (he : IsEighOracle eigh) {sv : Svdvals n} (hsv : IsSvdOracle sv)
    (a : LGLArgs n) (hS : a.empCov.IsSymm) (hal : 0 ≤ a.alpha) (it : ℕ) (s : LGLState n) (hr : 0 < s.rho) :
    ∃ (v : ℝ) (R : Matrix n n ℝ), lglReported eigh sv a s = .fin v ∧ R.PosDef ∧
      v = trace (a.empCov * R) - Real.log R.det + a.alpha * absSumOff (lglBody eigh a it s).1.K
        + a.tau * trace (lglBody eigh a it s).1.L ∧
      ((lglBody eigh a it s).2.1.rnorm = 0 →
        ((lglBody eigh a it s).1.K, (lglBody eigh a it s).1.L) ∈ LatentFeasible n ∧
        v = latentObjective a.empCov a.alpha a.tau absSumOff
          ((lglBody eigh a it s).1.K, (lglBody eigh a it s).1.L)) := by
  set R := lglR eigh a.empCov s.rho s.K s.L s.U with hR
  set K := lglK a.alpha s.rho s.L R s.U with hK
  set L := lglL eigh a.tau s.rho K R s.U with hL
  have hpd : R.PosDef := glK_posDef he hS hr (s.K - s.L) s.U
  have hpsd : L.PosSemidef := lglL_posSemidef eigh a.tau s.rho K R s.U
  have hKb : (lglBody eigh a it s).1.K = K := by unfold lglBody; simp only; split <;> rfl
  have hLb : (lglBody eigh a it s).1.L = L := by unfold lglBody; simp only; split <;> rfl
  have hrn : (lglBody eigh a it s).2.1.rnorm = froNorm (R - K + L) := rfl
  refine ⟨trace (a.empCov * R) - Real.log R.det + a.alpha * absSumOff K + a.tau * trace L, R, ?_, hpd, ?_,
    fun h => ?_⟩
  · change XF.add (glObjectiveCode a.empCov R K a.alpha) (.fin (a.tau * nucNorm sv L)) = _
    rw [glObjectiveCode_pos hS hpd, nucNorm_psd hsv hpsd, abs_of_nonneg hal]
    rfl
  · rw [hKb, hLb]
  · rw [hrn] at h
    have h1 : R - K + L = 0 := froNorm_eq_zero' h
    have h2 : R = K - L := by
      rw [sub_add] at h1
      exact sub_eq_zero.mp h1
    rw [hKb, hLb]
    unfold latentObjective LatentFeasible
    simp only [Set.mem_ofPred_eq]
    rw [← h2]
    exact ⟨⟨hpd, hpsd⟩, rfl⟩

/-- C132 (infimal convolution): the objective values are those of the squared-loss problem of the returned pair
whenever the recorded primal residual is 0. -/
theorem C132_infimal (eigh : Eigh n) {sv : Svdvals n} (hsv : IsSvdOracle sv) (a : InfArgs n) (it : ℕ)
    (s : InfState n) (h : (infBody eigh a it s).2.1.rnorm = 0) :
    infReported eigh sv a s = squareLatentObjective a.S a.alpha a.tau absSumOff
      ((infBody eigh a it s).1.K, (infBody eigh a it s).1.L) := by
  set R := infR a.S s.rho s.K s.L s.U with hR
  set K := infK a.alpha s.rho s.L R s.U with hK
  set L := infL eigh a.tau s.rho K R s.U with hL
  have hpsd : L.PosSemidef := recompose_posSemidef _ fun _ => le_max_right _ _
  have hKb : (infBody eigh a it s).1.K = K := by unfold infBody; simp only; split <;> rfl
  have hLb : (infBody eigh a it s).1.L = L := by unfold infBody; simp only; split <;> rfl
  have hrn : (infBody eigh a it s).2.1.rnorm = froNorm (R - K + L) := by
    unfold infBody; simp only; split <;> rfl
  rw [hrn] at h
  have h1 : R - K + L = 0 := froNorm_eq_zero' h
  have h2 : R = K - L := by
    rw [sub_add] at h1
    exact sub_eq_zero.mp h1
  rw [hKb, hLb]
  change infObjectiveCode sv a.S R K L a.alpha a.tau = _
  unfold infObjectiveCode squareLatentObjective
  rw [l1OdNorm_eq, nucNorm_psd hsv hpsd, h2]
  rfl

/-! ### Time-varying solvers -/

theorem sum_frobSq_eq_zero {ι : Type*} [Fintype ι] {f : ι → Matrix n n ℝ} (h : ∑ i, frobSq (f i) = 0) (i : ι) :
    f i = 0 :=
  (frobSq_eq_zero_iff _).mp
    ((Finset.sum_eq_zero_iff_of_nonneg fun i _ => frobSq_nonneg (f i)).mp h i (Finset.mem_univ _))

theorem tglLoss_posDef {S K : Batch k n} (hS : ∀ t, (S t).IsSymm) (hK : ∀ t, 0 < (K t).det) (nS : Fin k → ℝ) :
    tglLoss S K nS = .fin (negLogLik S nS K) := by
  unfold tglLoss negLogLik
  refine xf_sum_fin _ _ fun t => ?_
  unfold logdetXF
  rw [if_pos (hK t), ← frobInner_eq_trace_of_symm (hS t)]
  simp only [XF.sub, XF.add, XF.neg, XF.mul, frobInner]
  congr 1
  ring

/-- C132 (time-varying graphical lasso): whenever the recorded primal residual is 0 the recorded objective is the
documented one of the precisions the pass produces. -/
theorem C132_time {T : ℕ} {eigh : Eigh n} (he : IsEighOracle eigh) (a : TGLArgs T n)
    (hS : ∀ t, (a.empCov t).IsSymm) (hn : ∀ t, 0 < a.nSamples t) (hc : a.computeObjective = true) (it : ℕ)
    (s : TGLState T n) (hr : 0 < s.rho) (h : (tglBody eigh a it s).2.1.rnorm = 0) :
    (tglBody eigh a it s).1.Z0 ∈ PDSeq (T + 1) n ∧
    (tglBody eigh a it s).2.1.obj = .fin (timeObjective a.empCov a.nSamples a.alpha a.beta absSumOff a.psi
      (tglBody eigh a it s).1.Z0) := by
  set s' := tglNext eigh a s with hs'
  set K := tglK eigh a s with hK
  have hpd : ∀ t, (K t).PosDef := fun t => (tglK_spec he a s t (hS t) (hn t) hr).1
  have hZ : (tglBody eigh a it s).1.Z0 = s'.Z0 := by unfold tglBody; simp only; split <;> rfl
  have hobj : (tglBody eigh a it s).2.1.obj = tglObjectiveCode a s'.Z0 K s'.Z1 s'.Z2 := by
    unfold tglBody tglDiagnose; simp only [hc, if_true]; rfl
  have hrn : (tglBody eigh a it s).2.1.rnorm =
      Real.sqrt (batchSq (K - s'.Z0) + batchSq (init K - s'.Z1) + batchSq (tail K - s'.Z2)) := rfl
  rw [hrn] at h
  have p0 := sum_frobSq_nonneg (K - s'.Z0)
  have p1 := sum_frobSq_nonneg (init K - s'.Z1)
  have p2 := sum_frobSq_nonneg (tail K - s'.Z2)
  simp only [batchSq_eq] at h
  rw [Real.sqrt_eq_zero (by linarith)] at h
  have e0 : s'.Z0 = K := funext fun t =>
    (sub_eq_zero.mp (sum_frobSq_eq_zero (f := K - s'.Z0) (by linarith) t)).symm
  have e1 : ∀ p, s'.Z1 p = K p.castSucc := fun p =>
    (sub_eq_zero.mp (sum_frobSq_eq_zero (f := init K - s'.Z1) (by linarith) p)).symm
  have e2 : ∀ p, s'.Z2 p = K p.succ := fun p =>
    (sub_eq_zero.mp (sum_frobSq_eq_zero (f := tail K - s'.Z2) (by linarith) p)).symm
  rw [hZ, hobj, e0]
  refine ⟨hpd, ?_⟩
  unfold tglObjectiveCode
  rw [tglLoss_posDef hS fun t => (hpd t).det_pos]
  simp only [e1, e2, l1OdNorm_eq]
  rfl

/-- C132 (kernel time-varying graphical lasso): the same with the coupling of the kernel. -/
theorem C132_kernel_time {eigh : Eigh n} (he : IsEighOracle eigh) (a : KTArgs k Empty n)
    (kernel : Option (Fin k → Fin k → ℝ)) (hS : ∀ t, (a.empCov t).IsSymm) (hn : ∀ t, 0 < a.nSamples t)
    (hc : a.computeObjective = true) (it : ℕ) (s : KTState k (PairIdx k) n) (hr : 0 < s.rho)
    (h : (ktBody eigh (allPairs k) (ktArgsOf a kernel) it s).2.1.rnorm = 0) :
    (ktBody eigh (allPairs k) (ktArgsOf a kernel) it s).1.Z0 ∈ PDSeq k n ∧
    (ktBody eigh (allPairs k) (ktArgsOf a kernel) it s).2.1.obj =
      .fin (kernelObjective a.empCov a.nSamples a.alpha (kernelOf kernel) absSumOff a.psi
        (ktBody eigh (allPairs k) (ktArgsOf a kernel) it s).1.Z0) := by
  set b := ktArgsOf a kernel with hb
  set s' := ktNext eigh (allPairs k) b s with hs'
  set K := ktK eigh (allPairs k) b s with hK
  have hpd : ∀ t, (K t).PosDef := fun t => (ktK_spec he (allPairs k) b s t (hS t) (hn t) hr).1
  have hZ : (ktBody eigh (allPairs k) b it s).1.Z0 = s'.Z0 := by unfold ktBody; simp only; split <;> rfl
  have hc' : b.computeObjective = true := hc
  have hobj : (ktBody eigh (allPairs k) b it s).2.1.obj = ktObjectiveCode b s'.Z0 K s'.ZL s'.ZR := by
    unfold ktBody ktDiagnose; simp only [hc', if_true]; rfl
  have hrn : (ktBody eigh (allPairs k) b it s).2.1.rnorm =
      Real.sqrt (batchSq (K - s'.Z0) + (pairSq ((fun e => K ((allPairs k).src e)) - s'.ZL)
        + pairSq ((fun e => K ((allPairs k).dst e)) - s'.ZR))) := rfl
  rw [hrn] at h
  have p0 := sum_frobSq_nonneg (K - s'.Z0)
  have p1 := sum_frobSq_nonneg ((fun e => K ((allPairs k).src e)) - s'.ZL)
  have p2 := sum_frobSq_nonneg ((fun e => K ((allPairs k).dst e)) - s'.ZR)
  simp only [batchSq_eq, pairSq_eq] at h
  rw [Real.sqrt_eq_zero (by linarith)] at h
  have e0 : s'.Z0 = K := funext fun t =>
    (sub_eq_zero.mp (sum_frobSq_eq_zero (f := K - s'.Z0) (by linarith) t)).symm
  have e1 : ∀ e, s'.ZL e = K ((allPairs k).src e) := fun e =>
    (sub_eq_zero.mp (sum_frobSq_eq_zero (f := (fun e => K ((allPairs k).src e)) - s'.ZL) (by linarith) e)).symm
  have e2 : ∀ e, s'.ZR e = K ((allPairs k).dst e) := fun e =>
    (sub_eq_zero.mp (sum_frobSq_eq_zero (f := (fun e => K ((allPairs k).dst e)) - s'.ZR) (by linarith) e)).symm
  rw [hZ, hobj, e0]
  refine ⟨hpd, ?_⟩
  unfold ktObjectiveCode kernelObjective
  have hS' : ∀ t, (b.empCov t).IsSymm := hS
  rw [tglLoss_posDef hS' fun t => (hpd t).det_pos, kernelCoupling_eq]
  simp only [e1, e2, l1OdNorm_eq, mul_comm (a.psi _)]
  have e3 : ∀ e, b.psi (K ((allPairs k).dst e) - K ((allPairs k).src e)) * b.weight e =
      kernelWeight kernel e * a.psi (K ((allPairs k).dst e) - K ((allPairs k).src e)) := fun e => mul_comm _ _
  simp only [e3]
  rfl

/-- The reported values along a run that converges. -/
theorem pairs_limit {S : Batch k n} {nS : Fin k → ℝ} (g : TimePairs k E) {alpha : ℝ} {w : E → ℝ}
    {psi : Matrix n n ℝ → ℝ} (hpsi : Continuous psi) {X : Batch k n} (hX : ∀ t, (X t).PosDef)
    {K Z0 : ℕ → Batch k n} {ZL ZR : ℕ → E → Matrix n n ℝ}
    (hK : ∀ t, Tendsto (fun j => K j t) atTop (𝓝 (X t))) (hZ : ∀ t, Tendsto (fun j => Z0 j t) atTop (𝓝 (X t)))
    (hpri : Tendsto (passPri g K Z0 ZL ZR) atTop (𝓝 0)) :
    (∀ᶠ j in atTop, ∀ t, 0 < (Z0 (j + 1) t).det) ∧
    Tendsto (fun j => negLogLik S nS (Z0 (j + 1)) + alpha * ∑ t, absSumOff (K j t)
      + ∑ e, psi (ZR (j + 1) e - ZL (j + 1) e) * w e) atTop
      (𝓝 (negLogLik S nS X + alpha * ∑ t, absSumOff (X t) + ∑ e, psi (X (g.dst e) - X (g.src e)) * w e)) := by
  have hZ1 : ∀ t, Tendsto (fun j => Z0 (j + 1) t) atTop (𝓝 (X t)) := fun t =>
    (hZ t).comp (tendsto_add_atTop_nat 1)
  have c2 : Continuous fun M : Matrix n n ℝ => M.det := continuous_id.matrix_det
  have hdet : ∀ t, Tendsto (fun j => (Z0 (j + 1) t).det) atTop (𝓝 (X t).det) := fun t =>
    (c2.tendsto (X t)).comp (hZ1 t)
  -- the pair copies converge as well
  have hpair : ∀ (f : ℕ → E → Matrix n n ℝ) (ep : E → Fin k),
      (∀ j, ∑ e, frobSq (K j (ep e) - f (j + 1) e) ≤ passPri g K Z0 ZL ZR j) →
      ∀ e, Tendsto (fun j => f (j + 1) e) atTop (𝓝 (X (ep e))) := by
    intro f ep hle e
    have h1 : Tendsto (fun j => frobSq ((K j (ep e) - f (j + 1) e) - 0)) atTop (𝓝 0) := by
      refine tendsto_of_tendsto_of_tendsto_of_le_of_le tendsto_const_nhds hpri (fun j => frobSq_nonneg _)
        fun j => ?_
      rw [sub_zero]
      exact (Finset.single_le_sum (f := fun e => frobSq (K j (ep e) - f (j + 1) e))
        (fun e _ => frobSq_nonneg _) (Finset.mem_univ e)).trans (hle j)
    have h2 := tendsto_of_frobSq h1
    have h3 := (hK (ep e)).sub h2
    rw [sub_zero] at h3
    refine h3.congr fun j => ?_
    abel
  have hL := hpair ZL g.src fun j => by
    unfold passPri
    have q1 := sum_frobSq_nonneg fun t => K j t - Z0 (j + 1) t
    have q2 := sum_frobSq_nonneg fun e => K j (g.dst e) - ZR (j + 1) e
    linarith
  have hR := hpair ZR g.dst fun j => by
    unfold passPri
    have q1 := sum_frobSq_nonneg fun t => K j t - Z0 (j + 1) t
    have q2 := sum_frobSq_nonneg fun e => K j (g.src e) - ZL (j + 1) e
    linarith
  refine ⟨?_, ?_⟩
  · rw [eventually_all]
    exact fun t => (tendsto_order.mp (hdet t)).1 0 (hX t).det_pos
  · unfold negLogLik
    refine ((tendsto_finsetSum _ fun t _ => ?_).add ((tendsto_finsetSum _ fun t _ => ?_).const_mul _)).add
      (tendsto_finsetSum _ fun e _ => ?_)
    · have c1 : Continuous fun M : Matrix n n ℝ => trace (S t * M) :=
        (continuous_const.matrix_mul continuous_id).matrix_trace
      exact (((c1.tendsto (X t)).comp (hZ1 t)).sub ((hdet t).log (hX t).det_pos.ne')).const_mul _
    · exact (absSumOff_continuous.tendsto (X t)).comp (hK t)
    · exact ((hpsi.tendsto _).comp ((hR e).sub (hL e))).mul_const _

/-- C132 (time-varying graphical lasso, limit): at a constant penalty the objective values of the history are
finite from some pass on and tend to the documented objective of the limit of the returned precisions. -/
theorem C132_time_limit {T : ℕ} {eigh : Eigh n} (he : IsEighOracle eigh) (a : TGLArgs T n)
    (hS : ∀ t, (a.empCov t).PosSemidef) (hn : ∀ t, 0 < a.nSamples t) (hal : 0 < a.alpha) (hbe : 0 ≤ a.beta)
    (hconv : ConvexPen a.psi) (hpos : ∀ X, 0 ≤ a.psi X) (hprox : IsProxOf a.psi a.prox)
    (hi : a.rhoOptions.tauInc = 1) (hd : a.rhoOptions.tauDec = 1) (hc : a.computeObjective = true)
    (K0 : Batch (T + 1) n) {rho : ℝ} (hr : 0 < rho) :
    ∃ (X : Batch (T + 1) n) (v : ℕ → ℝ), (∀ t, Tendsto
        (fun j => (stateAt (tglBody eigh a) (tglInit K0 rho) j).Z0 t) atTop (𝓝 (X t))) ∧ X ∈ PDSeq (T + 1) n ∧
      (∀ᶠ j in atTop, (checkAt (tglBody eigh a) (tglInit K0 rho) j).obj = .fin (v j)) ∧
      Tendsto v atTop (𝓝 (timeObjective a.empCov a.nSamples a.alpha a.beta absSumOff a.psi X)) := by
  have hSs : ∀ t, (a.empCov t).IsSymm := fun t => by
    have := (hS t).isHermitian
    rwa [IsHermitian, conjTranspose_eq_transpose_of_trivial] at this
  obtain ⟨X, hX, hpri, -, hK, hZ, -⟩ := (tglRun he a hSs hn K0 hr).main (psi := a.psi) covers_chain hS hn hal hr
    (fun _ => hbe) hconv hpos hprox
  obtain ⟨h1, h2⟩ := pairs_limit (S := a.empCov) (nS := a.nSamples) (alpha := a.alpha) (w := fun _ => a.beta)
    (chainPairs T) (ConvexPen.continuous hconv) hX.1 hK hZ hpri
  refine ⟨X, fun j => negLogLik a.empCov a.nSamples (tglSt eigh a K0 rho (j + 1)).Z0
    + a.alpha * ∑ t, absSumOff (tglK eigh a (tglSt eigh a K0 rho j) t)
    + ∑ e, a.psi ((tglSt eigh a K0 rho (j + 1)).Z2 e - (tglSt eigh a K0 rho (j + 1)).Z1 e) * a.beta,
    fun t => ?_, hX.1, ?_, ?_⟩
  rotate_left 2
  · have e : timeObjective a.empCov a.nSamples a.alpha a.beta absSumOff a.psi X =
        negLogLik a.empCov a.nSamples X + a.alpha * ∑ t, absSumOff (X t)
          + ∑ e, a.psi (X ((chainPairs T).dst e) - X ((chainPairs T).src e)) * a.beta := by
      unfold timeObjective negLogLik
      rw [Finset.mul_sum Finset.univ _ a.beta]
      congr 1
      exact Finset.sum_congr rfl fun p _ => mul_comm _ _
    rw [e]
    exact h2
  · refine (hZ t).congr fun j => ?_
    rw [stateAt_tgl eigh hi hd K0 hr.ne']
  · filter_upwards [h1] with j hj
    unfold checkAt
    rw [stateAt_tgl eigh hi hd K0 hr.ne']
    have hobj : (tglBody eigh a j (tglSt eigh a K0 rho j)).2.1.obj =
        tglObjectiveCode a (tglSt eigh a K0 rho (j + 1)).Z0 (tglK eigh a (tglSt eigh a K0 rho j))
          (tglSt eigh a K0 rho (j + 1)).Z1 (tglSt eigh a K0 rho (j + 1)).Z2 := by
      rw [tglSt_succ]
      unfold tglBody tglDiagnose
      simp only [hc, if_true]
    rw [hobj]
    unfold tglObjectiveCode
    rw [tglLoss_posDef hSs hj, Finset.mul_sum Finset.univ _ a.beta]
    simp only [l1OdNorm_eq, mul_comm a.beta]
    rfl

/-- C132 (kernel time-varying graphical lasso, limit). -/
theorem C132_kernel_time_limit {eigh : Eigh n} (he : IsEighOracle eigh) (a : KTArgs k Empty n)
    (kernel : Option (Fin k → Fin k → ℝ)) (hker : ∀ s t, s < t → 0 ≤ kernelOf kernel s t)
    (hS : ∀ t, (a.empCov t).PosSemidef) (hn : ∀ t, 0 < a.nSamples t) (hal : 0 < a.alpha)
    (hconv : ConvexPen a.psi) (hpos : ∀ X, 0 ≤ a.psi X) (hprox : IsProxOf a.psi a.prox)
    (hi : a.rhoOptions.tauInc = 1) (hd : a.rhoOptions.tauDec = 1) (hc : a.computeObjective = true)
    (K0 : Batch k n) {rho : ℝ} (hr : 0 < rho) :
    ∃ (X : Batch k n) (v : ℕ → ℝ), (∀ t, Tendsto
        (fun j => (stateAt (ktBody eigh (allPairs k) (ktArgsOf a kernel)) (ktInit (allPairs k) K0 rho) j).Z0 t)
        atTop (𝓝 (X t))) ∧ X ∈ PDSeq k n ∧
      (∀ᶠ j in atTop, (checkAt (ktBody eigh (allPairs k) (ktArgsOf a kernel)) (ktInit (allPairs k) K0 rho) j).obj
        = .fin (v j)) ∧
      Tendsto v atTop
        (𝓝 (kernelObjective a.empCov a.nSamples a.alpha (kernelOf kernel) absSumOff a.psi X)) := by
  set b := ktArgsOf a kernel with hb
  have hw : ∀ e : PairIdx k, 0 ≤ kernelWeight kernel e := by
    intro e
    have := hker e.1.1 e.1.2 e.2
    cases kernel <;> exact this
  have hSs : ∀ t, (a.empCov t).IsSymm := fun t => by
    have := (hS t).isHermitian
    rwa [IsHermitian, conjTranspose_eq_transpose_of_trivial] at this
  obtain ⟨X, hX, hpri, -, hK, hZ, -⟩ := (ktRun he (allPairs k) b hSs hn K0 hr).main (psi := a.psi) covers_all hS hn
    hal hr hw hconv hpos hprox
  obtain ⟨h1, h2⟩ := pairs_limit (S := a.empCov) (nS := a.nSamples) (alpha := a.alpha) (w := kernelWeight kernel)
    (allPairs k) (ConvexPen.continuous hconv) hX.1 hK hZ hpri
  refine ⟨X, fun j => negLogLik a.empCov a.nSamples (ktSt eigh (allPairs k) b K0 rho (j + 1)).Z0
    + a.alpha * ∑ t, absSumOff (ktK eigh (allPairs k) b (ktSt eigh (allPairs k) b K0 rho j) t)
    + ∑ e, a.psi ((ktSt eigh (allPairs k) b K0 rho (j + 1)).ZR e - (ktSt eigh (allPairs k) b K0 rho (j + 1)).ZL e)
      * kernelWeight kernel e,
    fun t => ?_, hX.1, ?_, ?_⟩
  rotate_left 2
  · have e : kernelObjective a.empCov a.nSamples a.alpha (kernelOf kernel) absSumOff a.psi X =
        negLogLik a.empCov a.nSamples X + a.alpha * ∑ t, absSumOff (X t)
          + ∑ e, a.psi (X ((allPairs k).dst e) - X ((allPairs k).src e)) * kernelWeight kernel e := by
      unfold kernelObjective
      rw [kernelCoupling_eq]
      congr 1
      exact Finset.sum_congr rfl fun p _ => mul_comm _ _
    rw [e]
    exact h2
  · refine (hZ t).congr fun j => ?_
    rw [stateAt_kt eigh (allPairs k) (a := b) hi hd K0 hr.ne']
  · filter_upwards [h1] with j hj
    unfold checkAt
    rw [stateAt_kt eigh (allPairs k) (a := b) hi hd K0 hr.ne']
    have hc' : b.computeObjective = true := hc
    have hobj : (ktBody eigh (allPairs k) b j (ktSt eigh (allPairs k) b K0 rho j)).2.1.obj =
        ktObjectiveCode b (ktSt eigh (allPairs k) b K0 rho (j + 1)).Z0
          (ktK eigh (allPairs k) b (ktSt eigh (allPairs k) b K0 rho j))
          (ktSt eigh (allPairs k) b K0 rho (j + 1)).ZL (ktSt eigh (allPairs k) b K0 rho (j + 1)).ZR := by
      rw [ktSt_succ]
      unfold ktBody ktDiagnose
      simp only [hc', if_true]
    rw [hobj]
    unfold ktObjectiveCode
    have hS' : ∀ t, (b.empCov t).IsSymm := hSs
    rw [tglLoss_posDef hS' hj]
    simp only [l1OdNorm_eq]
    rfl

/-! ### Latent variable time-varying solvers -/

/-- What a recorded primal residual of 0 means for the latent time solvers. -/
theorem lt_consensus {rUpd : ℝ → Batch k n → Batch k n} (eigh : Eigh n) (g : TimePairs k E) (a : LTArgs k E n)
    (it : ℕ) (s : LTState k E n) (h : (ltBody eigh rUpd g a it s).2.1.rnorm = 0) :
    let s' := ltNext eigh rUpd g a s
    (∀ t, s'.Rold t = s'.Z0 t - s'.W0 t) ∧ (∀ e, s'.ZL e = s'.Z0 (g.src e)) ∧ (∀ e, s'.ZR e = s'.Z0 (g.dst e)) ∧
      (∀ e, s'.WL e = s'.W0 (g.src e)) ∧ (∀ e, s'.WR e = s'.W0 (g.dst e)) := by
  intro s'
  have hrn : (ltBody eigh rUpd g a it s).2.1.rnorm =
      Real.sqrt (batchSq (s'.Rold - s'.Z0 + s'.W0) + pairSq ((fun e => s'.Z0 (g.src e)) - s'.ZL)
        + pairSq ((fun e => s'.Z0 (g.dst e)) - s'.ZR) + pairSq ((fun e => s'.W0 (g.src e)) - s'.WL)
        + pairSq ((fun e => s'.W0 (g.dst e)) - s'.WR)) := rfl
  have p0 := sum_frobSq_nonneg (s'.Rold - s'.Z0 + s'.W0)
  have p1 := sum_frobSq_nonneg ((fun e => s'.Z0 (g.src e)) - s'.ZL)
  have p2 := sum_frobSq_nonneg ((fun e => s'.Z0 (g.dst e)) - s'.ZR)
  have p3 := sum_frobSq_nonneg ((fun e => s'.W0 (g.src e)) - s'.WL)
  have p4 := sum_frobSq_nonneg ((fun e => s'.W0 (g.dst e)) - s'.WR)
  rw [hrn] at h
  simp only [batchSq_eq, pairSq_eq] at h
  rw [Real.sqrt_eq_zero (by linarith)] at h
  refine ⟨fun t => ?_, fun e => ?_, fun e => ?_, fun e => ?_, fun e => ?_⟩
  · have h1 : s'.Rold t - s'.Z0 t + s'.W0 t = 0 :=
      sum_frobSq_eq_zero (f := s'.Rold - s'.Z0 + s'.W0) (by linarith) t
    rw [sub_add] at h1
    exact sub_eq_zero.mp h1
  · exact (sub_eq_zero.mp (sum_frobSq_eq_zero (f := (fun e => s'.Z0 (g.src e)) - s'.ZL) (by linarith) e)).symm
  · exact (sub_eq_zero.mp (sum_frobSq_eq_zero (f := (fun e => s'.Z0 (g.dst e)) - s'.ZR) (by linarith) e)).symm
  · exact (sub_eq_zero.mp (sum_frobSq_eq_zero (f := (fun e => s'.W0 (g.src e)) - s'.WL) (by linarith) e)).symm
  · exact (sub_eq_zero.mp (sum_frobSq_eq_zero (f := (fun e => s'.W0 (g.dst e)) - s'.WR) (by linarith) e)).symm

theorem ltBody_fst (eigh : Eigh n) (rUpd : ℝ → Batch k n → Batch k n) (g : TimePairs k E) (a : LTArgs k E n)
    (it : ℕ) (s : LTState k E n) : (ltBody eigh rUpd g a it s).1.Z0 = (ltNext eigh rUpd g a s).Z0 ∧
      (ltBody eigh rUpd g a it s).1.W0 = (ltNext eigh rUpd g a s).W0 := by
  unfold ltBody
  simp only
  split <;> exact ⟨rfl, rfl⟩

theorem lt_reported {eigh : Eigh n} (he : IsEighOracle eigh) {sv : Svdvals n} (hsv : IsSvdOracle sv)
    (g : TimePairs k E) (a : LTArgs k E n) (psi phi : Matrix n n ℝ → ℝ) (hS : ∀ t, (a.empCov t).IsSymm)
    (hn : ∀ t, 0 < a.nSamples t) (it : ℕ) (s : LTState k E n) (hr : 0 < s.rho)
    (h : (ltBody eigh (ltLogdetR eigh a) g a it s).2.1.rnorm = 0) :
    let K := (ltBody eigh (ltLogdetR eigh a) g a it s).1.Z0
    let L := (ltBody eigh (ltLogdetR eigh a) g a it s).1.W0
    (K, L) ∈ LatentSeqFeasible k n ∧ ltReported eigh sv g a psi phi s =
      .fin (negLogLik a.empCov a.nSamples (fun t => K t - L t) + a.alpha * ∑ t, absSumOff (K t)
        + a.tau * ∑ t, trace (L t) + ∑ e, psi (K (g.dst e) - K (g.src e)) * a.wPsi e
        + ∑ e, phi (L (g.dst e) - L (g.src e)) * a.wPhi e) := by
  obtain ⟨c0, c1, c2, c3, c4⟩ := lt_consensus eigh g a it s h
  obtain ⟨b1, b2⟩ := ltBody_fst eigh (ltLogdetR eigh a) g a it s
  intro K L
  have hK : K = (ltNext eigh (ltLogdetR eigh a) g a s).Z0 := b1
  have hL : L = (ltNext eigh (ltLogdetR eigh a) g a s).W0 := b2
  have hpd : ∀ t, ((ltNext eigh (ltLogdetR eigh a) g a s).Rold t).PosDef := fun t =>
    (logdetStep_spec he (hS t) (hn t) hr _).1
  have hpsd : ∀ t, (L t).PosSemidef := fun t => by rw [hL]; exact ltNext_W0_posSemidef eigh _ g a s t
  have hR : (ltNext eigh (ltLogdetR eigh a) g a s).Rold = fun t => K t - L t := by
    funext t; rw [c0 t, hK, hL]
  refine ⟨fun t => ⟨?_, hpsd t⟩, ?_⟩
  · have := hpd t
    rw [hR] at this
    exact this
  · unfold ltReported ltObjectiveCode
    simp only
    rw [tglLoss_posDef hS fun t => (hpd t).det_pos, hR]
    simp only [c1, c2, c3, c4, l1OdNorm_eq, ← hK, ← hL, nucNorm_psd hsv (hpsd _), XF.add]
    congr 1
    ring

/-- C132 (latent variable time-varying graphical lasso): whenever the recorded primal residual is 0 the recorded
objective is the documented one of the pair the pass produces. -/
theorem C132_latent_time {T : ℕ} {eigh : Eigh n} (he : IsEighOracle eigh) {sv : Svdvals n} (hsv : IsSvdOracle sv)
    (o : LTOptions (T + 1) n) (beta eta : ℝ) (psi phi : Matrix n n ℝ → ℝ) (hS : ∀ t, (o.empCov t).IsSymm)
    (hn : ∀ t, 0 < o.nSamples t) (it : ℕ) (s : LTState (T + 1) (Fin T) n) (hr : 0 < s.rho)
    (h : (ltBody eigh (ltLogdetR eigh (chainArgs o beta eta)) (chainPairs T) (chainArgs o beta eta) it s).2.1.rnorm
      = 0) :
    let s' := (ltBody eigh (ltLogdetR eigh (chainArgs o beta eta)) (chainPairs T) (chainArgs o beta eta) it s).1
    (s'.Z0, s'.W0) ∈ LatentSeqFeasible (T + 1) n ∧
      ltReported eigh sv (chainPairs T) (chainArgs o beta eta) psi phi s =
        .fin (latentTimeObjective o.empCov o.nSamples o.alpha o.tau beta eta absSumOff psi phi
          (s'.Z0, s'.W0)) := by
  obtain ⟨h1, h2⟩ := lt_reported he hsv (chainPairs T) (chainArgs o beta eta) psi phi hS hn it s hr h
  intro s'
  refine ⟨h1, h2.trans ?_⟩
  unfold latentTimeObjective chainCoupling
  rw [Finset.mul_sum Finset.univ _ beta, Finset.mul_sum Finset.univ _ eta]
  simp only [mul_comm beta, mul_comm eta]
  rfl

/-- C132 (kernel latent variable time-varying graphical lasso). -/
theorem C132_kernel_latent {eigh : Eigh n} (he : IsEighOracle eigh) {sv : Svdvals n} (hsv : IsSvdOracle sv)
    (o : LTOptions k n) (kpsi kphi : Option (Fin k → Fin k → ℝ)) (psi phi : Matrix n n ℝ → ℝ)
    (hS : ∀ t, (o.empCov t).IsSymm) (hn : ∀ t, 0 < o.nSamples t) (it : ℕ) (s : LTState k (PairIdx k) n)
    (hr : 0 < s.rho)
    (h : (ltBody eigh (ltLogdetR eigh (kernelArgs o kpsi kphi)) (allPairs k) (kernelArgs o kpsi kphi)
      it s).2.1.rnorm = 0) :
    let s' := (ltBody eigh (ltLogdetR eigh (kernelArgs o kpsi kphi)) (allPairs k) (kernelArgs o kpsi kphi) it s).1
    (s'.Z0, s'.W0) ∈ LatentSeqFeasible k n ∧
      ltReported eigh sv (allPairs k) (kernelArgs o kpsi kphi) psi phi s =
        .fin (kernelLatentObjective o.empCov o.nSamples o.alpha o.tau (kernelOf kpsi) (kernelOf kphi) absSumOff
          psi phi (s'.Z0, s'.W0)) := by
  obtain ⟨h1, h2⟩ := lt_reported he hsv (allPairs k) (kernelArgs o kpsi kphi) psi phi hS hn it s hr h
  intro s'
  refine ⟨h1, h2.trans ?_⟩
  unfold kernelLatentObjective
  rw [kernelCoupling_eq, kernelCoupling_eq]
  simp only [mul_comm (kernelWeight kpsi _), mul_comm (kernelWeight kphi _)]
  rfl

/-- C132 (latent variable time-varying matrix decomposition). -/
theorem C132_decomposition {T : ℕ} (eigh : Eigh n) {sv : Svdvals n} (hsv : IsSvdOracle sv)
    (o : LTOptions (T + 1) n) (beta eta : ℝ) (psi phi : Matrix n n ℝ → ℝ) (it : ℕ)
    (s : LTState (T + 1) (Fin T) n)
    (h : (ltBody eigh (ltSquareR (chainArgs o beta eta)) (chainPairs T) (chainArgs o beta eta) it s).2.1.rnorm
      = 0) :
    let s' := (ltBody eigh (ltSquareR (chainArgs o beta eta)) (chainPairs T) (chainArgs o beta eta) it s).1
    (s'.Z0, s'.W0) ∈ PSDSecond (T + 1) n ∧
      ltSquareReported eigh sv (chainPairs T) (chainArgs o beta eta) psi phi s =
        decompositionObjective o.empCov o.alpha o.tau beta eta absSumOff psi phi (s'.Z0, s'.W0) := by
  obtain ⟨c0, c1, c2, c3, c4⟩ := lt_consensus eigh (chainPairs T) (chainArgs o beta eta) it s h
  obtain ⟨b1, b2⟩ := ltBody_fst eigh (ltSquareR (chainArgs o beta eta)) (chainPairs T) (chainArgs o beta eta) it s
  intro s'
  have hK : s'.Z0 = (ltNext eigh (ltSquareR (chainArgs o beta eta)) (chainPairs T) (chainArgs o beta eta) s).Z0 := b1
  have hL : s'.W0 = (ltNext eigh (ltSquareR (chainArgs o beta eta)) (chainPairs T) (chainArgs o beta eta) s).W0 := b2
  have hpsd : ∀ t, (s'.W0 t).PosSemidef := fun t => by rw [hL]; exact ltNext_W0_posSemidef eigh _ _ _ s t
  have hR : (ltNext eigh (ltSquareR (chainArgs o beta eta)) (chainPairs T) (chainArgs o beta eta) s).Rold =
      fun t => s'.Z0 t - s'.W0 t := by
    funext t; rw [c0 t, hK, hL]
  refine ⟨hpsd, ?_⟩
  unfold ltSquareReported ltSquareObjectiveCode decompositionObjective chainCoupling
  simp only
  rw [hR, Finset.mul_sum Finset.univ _ beta, Finset.mul_sum Finset.univ _ eta]
  simp only [c1, c2, c3, c4, l1OdNorm_eq, ← hK, ← hL, nucNorm_psd hsv (hpsd _), mul_comm beta, mul_comm eta]
  rfl

/-! ### A value outside the domain, and non-vacuity -/

/-- The full statement of C132 is false for matrices outside the domain: the code only tests the sign of the
determinant, so the first history entry of `time_graphical_lasso(init = -I)` with two variables is a finite number
although `-I` is not positive definite. -/
theorem C132_domain_false : ∃ (a : TGLArgs 0 (Fin 2)) (K0 : Batch 1 (Fin 2)),
    (∀ t, (a.empCov t).IsSymm) ∧ (∀ t, 0 < a.nSamples t) ∧ K0 ∉ PDSeq 1 (Fin 2) ∧
      ∃ v : ℝ, tglObjectiveCode a K0 K0 (init K0) (tail K0) = .fin v := by
  refine ⟨⟨fun _ => 1, fun _ => 1, 1, 1, absSumMat, softThresholdingMat, 1, 1, none, 1, true, {}⟩, fun _ => -1,
    fun _ => isSymm_one, fun _ => one_pos, fun h => ?_, ?_⟩
  rotate_left
  · unfold tglObjectiveCode
    rw [tglLoss_posDef (fun _ => isSymm_one) fun t => ?_]
    · exact ⟨_, rfl⟩
    · rw [det_neg]; simp
  · have h1 : (-1 : Matrix (Fin 2) (Fin 2) ℝ).PosDef := h 0
    have h2 := h1.diag_pos (i := 0)
    simp at h2
    linarith

/-- At a stationary state the recorded primal residual is 0. -/
theorem lgl_stationary_rnorm (eigh : Eigh n) (a : LGLArgs n) (hi : 0 < a.rhoOptions.tauInc)
    (hd : 0 < a.rhoOptions.tauDec) (s : LGLState n) (hr : 0 < s.rho) (h : LGLStationary eigh a s) :
    (lglBody eigh a 0 s).2.1.rnorm = 0 := by
  obtain ⟨h1, h2, h3⟩ := (lglStationary_iff eigh a hi hd s hr).mp h
  have hrn : (lglBody eigh a 0 s).2.1.rnorm = froNorm (lglR eigh a.empCov s.rho s.K s.L s.U
      - lglK a.alpha s.rho s.L (lglR eigh a.empCov s.rho s.K s.L s.U) s.U
      + lglL eigh a.tau s.rho (lglK a.alpha s.rho s.L (lglR eigh a.empCov s.rho s.K s.L s.U) s.U)
        (lglR eigh a.empCov s.rho s.K s.L s.U) s.U) := rfl
  have hK : lglK a.alpha s.rho s.L (s.K - s.L) s.U = s.K := by
    unfold lglK
    rw [add_sub_cancel, h2]
  rw [hrn, h1, hK, h3]
  simp [froNorm]

theorem inf_stationary_rnorm (eigh : Eigh n) (a : InfArgs n) (hi : 0 < a.rhoOptions.tauInc)
    (hd : 0 < a.rhoOptions.tauDec) (s : InfState n) (hr : 0 < s.rho) (h : InfStationary eigh a s) :
    (infBody eigh a 0 s).2.1.rnorm = 0 := by
  obtain ⟨h1, h2, h3⟩ := (infStationary_iff eigh a hi hd s hr).mp h
  have hrn : (infBody eigh a 0 s).2.1.rnorm = froNorm (infR a.S s.rho s.K s.L s.U
      - infK a.alpha s.rho s.L (infR a.S s.rho s.K s.L s.U) s.U
      + infL eigh a.tau s.rho (infK a.alpha s.rho s.L (infR a.S s.rho s.K s.L s.U) s.U)
        (infR a.S s.rho s.K s.L s.U) s.U) := by
    unfold infBody; simp only; split <;> rfl
  have hK : infK a.alpha s.rho s.L (s.K - s.L) s.U = s.K := by
    unfold infK
    rw [add_sub_cancel, h2]
  rw [hrn, h1, hK, h3]
  simp [froNorm]

theorem tgl_stationary_rnorm {T : ℕ} (eigh : Eigh n) (a : TGLArgs T n) (hi : 0 < a.rhoOptions.tauInc)
    (hd : 0 < a.rhoOptions.tauDec) (s : TGLState T n) (hr : 0 < s.rho) (h : TGLStationary eigh a s) :
    (tglBody eigh a 0 s).2.1.rnorm = 0 := by
  obtain ⟨k0, k1, k2, f0, f1, f2⟩ := (tglStationary_iff eigh a hi hd s hr).mp h
  have hK : tglK eigh a s = s.Z0 := funext k0
  have hrn : (tglBody eigh a 0 s).2.1.rnorm = Real.sqrt (batchSq (tglK eigh a s - (tglNext eigh a s).Z0)
      + batchSq (init (tglK eigh a s) - (tglNext eigh a s).Z1)
      + batchSq (tail (tglK eigh a s) - (tglNext eigh a s).Z2)) := rfl
  have e0 : (tglNext eigh a s).Z0 = s.Z0 := by
    funext t
    change tglZ0 a.alpha s.rho (tglK eigh a s t) (s.U0 t) = _
    rw [k0, f0]
  have e1 : (tglNext eigh a s).Z1 = init s.Z0 := by
    funext p
    change tglZ1 a.prox a.beta s.rho (tglK eigh a s p.castSucc + s.U1 p) (tglK eigh a s p.succ + s.U2 p) = _
    rw [k0, k0, ← k1, ← k2, f1, k1]; rfl
  have e2 : (tglNext eigh a s).Z2 = tail s.Z0 := by
    funext p
    change tglZ2 a.prox a.beta s.rho (tglK eigh a s p.castSucc + s.U1 p) (tglK eigh a s p.succ + s.U2 p) = _
    rw [k0, k0, ← k1, ← k2, f2, k2]; rfl
  rw [hrn, hK, e0, e1, e2]
  simp [batchSq]

theorem lt_stationary_rnorm (eigh : Eigh n) (rUpd : ℝ → Batch k n → Batch k n) (g : TimePairs k E)
    (a : LTArgs k E n) (hi : 0 < a.rhoOptions.tauInc) (hd : 0 < a.rhoOptions.tauDec) (s : LTState k E n)
    (hr : 0 < s.rho) (h : LTStationary eigh rUpd g a s) : (ltBody eigh rUpd g a 0 s).2.1.rnorm = 0 := by
  obtain ⟨f1, f2, f3, f4, f5, f6, f7, f8, f9, f10, f11⟩ := (ltStationary_iff eigh rUpd g a hi hd s hr).mp h
  set s' := ltNext eigh rUpd g a s with hs'
  have dR : s'.Rold = fun t => s.Z0 t - s.W0 t := f1
  have dz0 : s'.Z0 = s.Z0 := by
    change ltZ0 g a s s'.Rold = _
    rw [dR, f2]
  have dw0 : s'.W0 = s.W0 := by
    change ltW0 eigh g a s s'.Rold s'.Z0 = _
    rw [dR, dz0, f3]
  have g1 : s'.ZL = fun e => s.Z0 (g.src e) := by
    funext e
    change tglZ1 a.proxPsi (a.wPsi e) s.rho (s'.Z0 (g.src e) + s.XL e) (s'.Z0 (g.dst e) + s.XR e) = _
    rw [dz0, ← f4, ← f5, f8]
  have g2 : s'.ZR = fun e => s.Z0 (g.dst e) := by
    funext e
    change tglZ2 a.proxPsi (a.wPsi e) s.rho (s'.Z0 (g.src e) + s.XL e) (s'.Z0 (g.dst e) + s.XR e) = _
    rw [dz0, ← f4, ← f5, f9]
  have g3 : s'.WL = fun e => s.W0 (g.src e) := by
    funext e
    change tglZ1 a.proxPhi (a.wPhi e) s.rho (s'.W0 (g.src e) + s.UL e) (s'.W0 (g.dst e) + s.UR e) = _
    rw [dw0, ← f6, ← f7, f10]
  have g4 : s'.WR = fun e => s.W0 (g.dst e) := by
    funext e
    change tglZ2 a.proxPhi (a.wPhi e) s.rho (s'.W0 (g.src e) + s.UL e) (s'.W0 (g.dst e) + s.UR e) = _
    rw [dw0, ← f6, ← f7, f11]
  have hrn : (ltBody eigh rUpd g a 0 s).2.1.rnorm =
      Real.sqrt (batchSq (s'.Rold - s'.Z0 + s'.W0) + pairSq ((fun e => s'.Z0 (g.src e)) - s'.ZL)
        + pairSq ((fun e => s'.Z0 (g.dst e)) - s'.ZR) + pairSq ((fun e => s'.W0 (g.src e)) - s'.WL)
        + pairSq ((fun e => s'.W0 (g.dst e)) - s'.WR)) := rfl
  rw [hrn, g1, g2, g3, g4, dR, dz0, dw0]
  simp [batchSq, pairSq]

/-- Non-vacuity for `C132_latent`: the recorded primal residual is 0 at a stationary state. -/
example : ∃ (eigh : Eigh (Fin 1)) (sv : Svdvals (Fin 1)) (a : LGLArgs (Fin 1)) (s : LGLState (Fin 1)),
    IsEighOracle eigh ∧ IsSvdOracle sv ∧ a.empCov.IsSymm ∧ 0 ≤ a.alpha ∧ 0 < s.rho ∧
      (lglBody eigh a 0 s).2.1.rnorm = 0 := by
  obtain ⟨eigh, he⟩ := exists_eighOracle (n := Fin 1)
  obtain ⟨sv, hsv⟩ := exists_svdOracle_one
  exact ⟨eigh, sv, _, _, he, hsv, by simp [IsSymm], by norm_num, by norm_num,
    lgl_stationary_rnorm eigh _ (by norm_num) (by norm_num) _ (by norm_num) (lgl_witness he)⟩

/-- Non-vacuity for `C132_infimal`. -/
example : ∃ (eigh : Eigh (Fin 1)) (sv : Svdvals (Fin 1)) (a : InfArgs (Fin 1)) (s : InfState (Fin 1)),
    IsSvdOracle sv ∧ (infBody eigh a 0 s).2.1.rnorm = 0 := by
  obtain ⟨eigh, he⟩ := exists_eighOracle (n := Fin 1)
  obtain ⟨sv, hsv⟩ := exists_svdOracle_one
  exact ⟨eigh, sv, _, _, hsv, inf_stationary_rnorm eigh _ (by norm_num) (by norm_num) _ (by norm_num)
    (inf_witness he)⟩

/-- Non-vacuity for `C132_time`. -/
example (T : ℕ) : ∃ (eigh : Eigh (Fin 1)) (a : TGLArgs T (Fin 1)) (s : TGLState T (Fin 1)), IsEighOracle eigh ∧
    (∀ t, (a.empCov t).IsSymm) ∧ (∀ t, 0 < a.nSamples t) ∧ a.computeObjective = true ∧ 0 < s.rho ∧
      (tglBody eigh a 0 s).2.1.rnorm = 0 := by
  obtain ⟨eigh, he⟩ := exists_eighOracle (n := Fin 1)
  exact ⟨eigh, tglWitnessArgs T, tglWitnessState T, he, fun _ => isSymm_one, fun _ => one_pos, rfl, one_pos,
    tgl_stationary_rnorm eigh _ (by norm_num [tglWitnessArgs]) (by norm_num [tglWitnessArgs]) _ one_pos
      (tglWitness_stationary he T)⟩

/-- Non-vacuity for `C132_latent_time`, `C132_kernel_latent` and `C132_decomposition`. -/
example (T : ℕ) (beta eta : ℝ) (kpsi kphi : Option (Fin k → Fin k → ℝ)) : ∃ (eigh : Eigh (Fin 1)) (sv : Svdvals (Fin 1)),
    IsEighOracle eigh ∧ IsSvdOracle sv ∧
    (∃ (o : LTOptions (T + 1) (Fin 1)) (s : LTState (T + 1) (Fin T) (Fin 1)), (∀ t, (o.empCov t).IsSymm) ∧
      (∀ t, 0 < o.nSamples t) ∧ 0 < s.rho ∧ (ltBody eigh (ltLogdetR eigh (chainArgs o beta eta)) (chainPairs T)
        (chainArgs o beta eta) 0 s).2.1.rnorm = 0 ∧ (ltBody eigh (ltSquareR (chainArgs o beta eta)) (chainPairs T)
        (chainArgs o beta eta) 0 s).2.1.rnorm = 0) ∧
    ∃ (o : LTOptions k (Fin 1)) (s : LTState k (PairIdx k) (Fin 1)), (∀ t, (o.empCov t).IsSymm) ∧
      (∀ t, 0 < o.nSamples t) ∧ 0 < s.rho ∧ (ltBody eigh (ltLogdetR eigh (kernelArgs o kpsi kphi)) (allPairs k)
        (kernelArgs o kpsi kphi) 0 s).2.1.rnorm = 0 := by
  obtain ⟨eigh, he⟩ := exists_eighOracle (n := Fin 1)
  obtain ⟨sv, hsv⟩ := exists_svdOracle_one
  have hi : ∀ k, 0 < (ltWitnessOptions k).rhoOptions.tauInc := fun k => by norm_num [ltWitnessOptions]
  have hd : ∀ k, 0 < (ltWitnessOptions k).rhoOptions.tauDec := fun k => by norm_num [ltWitnessOptions]
  exact ⟨eigh, sv, he, hsv, ⟨ltWitnessOptions (T + 1), ltWitnessState (T + 1) (Fin T), fun _ => isSymm_one, fun _ => one_pos,
    one_pos, lt_stationary_rnorm eigh _ _ _ (hi (T + 1)) (hd (T + 1)) _ one_pos (ltWitness_chain he beta eta),
    lt_stationary_rnorm eigh _ _ _ (hi (T + 1)) (hd (T + 1)) _ one_pos (ltWitness_square he beta eta)⟩,
    ltWitnessOptions k, ltWitnessState k (PairIdx k), fun _ => isSymm_one, fun _ => one_pos, one_pos,
    lt_stationary_rnorm eigh _ _ _ (hi k) (hd k) _ one_pos (ltWitness_kernel he kpsi kphi)⟩

theorem kt_stationary_rnorm (eigh : Eigh n) (g : TimePairs k E) (a : KTArgs k E n) (hi : 0 < a.rhoOptions.tauInc)
    (hd : 0 < a.rhoOptions.tauDec) (s : KTState k E n) (hr : 0 < s.rho) (h : KTStationary eigh g a s) :
    (ktBody eigh g a 0 s).2.1.rnorm = 0 := by
  obtain ⟨k0, k1, k2, f0, f1, f2⟩ := (ktStationary_iff eigh g a hi hd s hr).mp h
  have hK : ktK eigh g a s = s.Z0 := funext k0
  have hrn : (ktBody eigh g a 0 s).2.1.rnorm = Real.sqrt (batchSq (ktK eigh g a s - (ktNext eigh g a s).Z0)
      + (pairSq ((fun e => ktK eigh g a s (g.src e)) - (ktNext eigh g a s).ZL)
      + pairSq ((fun e => ktK eigh g a s (g.dst e)) - (ktNext eigh g a s).ZR))) := rfl
  have e0 : (ktNext eigh g a s).Z0 = s.Z0 := by
    funext t
    change tglZ0 a.alpha s.rho (ktK eigh g a s t) (s.U0 t) = _
    rw [k0, f0]
  have e1 : (ktNext eigh g a s).ZL = fun e => s.Z0 (g.src e) := by
    funext e
    change tglZ1 a.prox (a.weight e) s.rho (ktK eigh g a s (g.src e) + s.UL e) (ktK eigh g a s (g.dst e) + s.UR e) = _
    rw [k0, k0, ← k1, ← k2, f1]
  have e2 : (ktNext eigh g a s).ZR = fun e => s.Z0 (g.dst e) := by
    funext e
    change tglZ2 a.prox (a.weight e) s.rho (ktK eigh g a s (g.src e) + s.UL e) (ktK eigh g a s (g.dst e) + s.UR e) = _
    rw [k0, k0, ← k1, ← k2, f2]
  rw [hrn, hK, e0, e1, e2]
  simp [batchSq, pairSq]

/-- Non-vacuity for `C132_kernel_time`. -/
example (k : ℕ) (kernel : Option (Fin k → Fin k → ℝ)) : ∃ (eigh : Eigh (Fin 1)) (a : KTArgs k Empty (Fin 1))
    (s : KTState k (PairIdx k) (Fin 1)), IsEighOracle eigh ∧ (∀ t, (a.empCov t).IsSymm) ∧ (∀ t, 0 < a.nSamples t) ∧
      a.computeObjective = true ∧ 0 < s.rho ∧
      (ktBody eigh (allPairs k) (ktArgsOf a kernel) 0 s).2.1.rnorm = 0 := by
  obtain ⟨eigh, he⟩ := exists_eighOracle (n := Fin 1)
  exact ⟨eigh, ktWitnessArgs k, ktWitnessState k, he, fun _ => isSymm_one, fun _ => one_pos, rfl, one_pos,
    kt_stationary_rnorm eigh _ _ (by norm_num [ktArgsOf, ktWitnessArgs]) (by norm_num [ktArgsOf, ktWitnessArgs]) _
      one_pos (ktWitness_stationary he k kernel)⟩

/-- Non-vacuity for `C132_graphical_lasso`: the hypotheses, and a state at which the recorded residual is 0. -/
example : ∃ (eigh : Eigh (Fin 1)) (a : GLArgs (Fin 1)) (s : GLState (Fin 1)), IsEighOracle eigh ∧ a.empCov.IsSymm ∧
    0 < a.alpha ∧ 0 < s.rho ∧ (glBody eigh a 0 s).2.1.rnorm = 0 := by
  obtain ⟨eigh, he⟩ := exists_eighOracle (n := Fin 1)
  refine ⟨eigh, ⟨1, 1, 1, 1, 1, {}⟩, ⟨1, 0, 0, 1⟩, he, isSymm_one, one_pos, one_pos, ?_⟩
  have hrn : (glBody eigh (⟨1, 1, 1, 1, 1, {}⟩ : GLArgs (Fin 1)) 0 ⟨1, 0, 0, 1⟩).2.1.rnorm =
    froNorm (glK eigh 1 1 1 0 - glZ 1 1 (glKhat 1 (glK eigh 1 1 1 0) 1) 0) := rfl
  have e : glZ 1 1 (glKhat 1 (glK eigh 1 1 1 0) 1) 0 = glK eigh 1 1 1 (0 : Matrix (Fin 1) (Fin 1) ℝ) := by
    ext i j
    rw [Subsingleton.elim j i]
    simp only [glZ, glKhat, softOff_apply]
    simp [softScalar_zero_right]
  rw [hrn, e]
  simp [froNorm]

/-- Non-vacuity for `C132_graphical_lasso_limit`. -/
example : ∃ (eigh : Eigh (Fin 1)) (a : GLArgs (Fin 1)) (X : Matrix (Fin 1) (Fin 1) ℝ), ConstPenalty eigh a 0 1 ∧
    IsMin (PD (Fin 1)) (glObjective a.empCov a.alpha) X := by
  obtain ⟨eigh, he⟩ := exists_eighOracle (n := Fin 1)
  refine ⟨eigh, ⟨1, 1, 1, 1, 0, ⟨10, 1, 1⟩⟩, 1, ⟨he, by simp [IsSymm], by norm_num, rfl, rfl, rfl, by simp [IsSymm],
    by norm_num⟩, ?_⟩
  exact (gl_optimal_of_subgrad (n := Fin 1) (S := 1) (K := 1) (G := 0) (alpha := 1) (by simp [IsSymm]) PosDef.one
    (by simp [symmetrize]) (by intro X; simp [absSumOff, frobInner])).isMin

/-- Non-vacuity for `C132_time_limit`. -/
example (T : ℕ) : ∃ (eigh : Eigh (Fin 2)) (a : TGLArgs T (Fin 2)), IsEighOracle eigh ∧
      (∀ t, (a.empCov t).PosSemidef) ∧ (∀ t, 0 < a.nSamples t) ∧ 0 < a.alpha ∧ 0 ≤ a.beta ∧ ConvexPen a.psi ∧
      (∀ X, 0 ≤ a.psi X) ∧ IsProxOf a.psi a.prox ∧ a.rhoOptions.tauInc = 1 ∧ a.rhoOptions.tauDec = 1 ∧
      a.computeObjective = true := by
  obtain ⟨eigh, he⟩ := exists_eighOracle (n := Fin 2)
  exact ⟨eigh, ⟨fun _ => 1, fun _ => 3, 1, 2, absSumMat, softThresholdingMat, 1, 1, none, 1 / 10000, true,
      ⟨10, 1, 1⟩⟩, he, fun _ => PosSemidef.one, fun _ => by norm_num, one_pos, by norm_num, absSumMat_convexPen,
    absSumMat_nonneg', soft_isProxOf, rfl, rfl, rfl⟩

/-- Non-vacuity for `C132_kernel_time_limit`. -/
example (k : ℕ) : ∃ (eigh : Eigh (Fin 2)) (a : KTArgs k Empty (Fin 2)) (kernel : Option (Fin k → Fin k → ℝ)),
      IsEighOracle eigh ∧ (∀ s t, s < t → 0 ≤ kernelOf kernel s t) ∧
      (∀ t, (a.empCov t).PosSemidef) ∧ (∀ t, 0 < a.nSamples t) ∧ 0 < a.alpha ∧ ConvexPen a.psi ∧
      (∀ X, 0 ≤ a.psi X) ∧ IsProxOf a.psi a.prox ∧ a.rhoOptions.tauInc = 1 ∧ a.rhoOptions.tauDec = 1 ∧
      a.computeObjective = true := by
  obtain ⟨eigh, he⟩ := exists_eighOracle (n := Fin 2)
  exact ⟨eigh, ⟨fun _ => 1, fun _ => 3, 1, fun e => e.elim, absSumMat, softThresholdingMat, 1, 1, none,
      1 / 10000, true, ⟨10, 1, 1⟩⟩,
    some fun s t => Real.exp (-((s : ℝ) - t) ^ 2), he, fun s t _ => (Real.exp_pos _).le,
    fun _ => PosSemidef.one, fun _ => by norm_num, one_pos, absSumMat_convexPen, absSumMat_nonneg',
    soft_isProxOf, rfl, rfl, rfl⟩

end Verif.Props
