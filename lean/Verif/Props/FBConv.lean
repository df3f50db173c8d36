import Verif.Lemmas.Exist
import Verif.Props.FBSearch
import Mathlib.Topology.Order.MonotoneConvergence

/-! C151: convergence of the forward-backward solver with the step search (`choose='gamma'`). -/

namespace Verif.Props

open Matrix Verif.Spec Verif.Model Verif.Lemmas Filter Topology

set_option autoImplicit false
set_option linter.unusedSectionVars false

variable {n : Type*} [Fintype n] [LinearOrder n] {T : ℕ}

/-! ### Continuity and compactness -/

/-- The documented objective of the mode. -/
noncomputable def fbTarget (a : FBArgs T n) (nS : Fin (T + 1) → ℝ) (K : Batch (T + 1) n) : ℝ :=
  smoothTime a.empCov nS a.vareps (modeBeta a) K + modePenalty a K

/-- The part of the objective without the log-determinants. -/
noncomputable def fbRegular (a : FBArgs T n) (nS : Fin (T + 1) → ℝ) (K : Batch (T + 1) n) : ℝ :=
  ∑ t, nS t * frobInner (a.empCov t) (K t) + a.vareps / 2 * seqSq K
    + modeBeta a * ∑ p : Fin T, frobSq (K p.succ - K p.castSucc) + modePenalty a K

theorem fbTarget_eq (a : FBArgs T n) (nS : Fin (T + 1) → ℝ) (K : Batch (T + 1) n) :
    fbTarget a nS K = fbRegular a nS K - ∑ t, nS t * Real.log (K t).det := by
  unfold fbTarget fbRegular smoothTime
  simp only [mul_sub, Finset.sum_sub_distrib]
  ring

theorem frobSq_continuous {X : Type*} [TopologicalSpace X] {f : X → Matrix n n ℝ} (hf : Continuous f) :
    Continuous fun x => frobSq (f x) := by
  unfold frobSq
  exact continuous_finsetSum _ fun i _ => continuous_finsetSum _ fun j _ =>
    (hf.matrix_elem i j).pow 2

theorem absSumOff_cont {X : Type*} [TopologicalSpace X] {f : X → Matrix n n ℝ} (hf : Continuous f) :
    Continuous fun x => absSumOff (f x) := by
  unfold absSumOff
  refine continuous_finsetSum _ fun i _ => continuous_finsetSum _ fun j _ => ?_
  split
  · exact continuous_const
  · exact (hf.matrix_elem i j).abs

theorem absSumMat_cont {X : Type*} [TopologicalSpace X] {f : X → Matrix n n ℝ} (hf : Continuous f) :
    Continuous fun x => absSumMat (f x) := by
  unfold absSumMat
  exact continuous_finsetSum _ fun i _ => continuous_finsetSum _ fun j _ => (hf.matrix_elem i j).abs

theorem modePenalty_continuous (a : FBArgs T n) : Continuous (modePenalty a) := by
  unfold modePenalty sparsePenalty fusedPenalty
  have h : ∀ t, Continuous fun K : Batch (T + 1) n => K t := fun t => continuous_apply t
  split
  · exact continuous_const.mul (continuous_finsetSum _ fun t _ => absSumOff_cont (h t))
  · exact (continuous_const.mul (continuous_finsetSum _ fun t _ => absSumOff_cont (h t))).add
      (continuous_const.mul (continuous_finsetSum _ fun p _ => absSumMat_cont ((h _).sub (h _))))

theorem fbRegular_continuous (a : FBArgs T n) (nS : Fin (T + 1) → ℝ) :
    Continuous (fbRegular a nS) := by
  have h : ∀ t, Continuous fun K : Batch (T + 1) n => K t := fun t => continuous_apply t
  unfold fbRegular
  refine (((continuous_finsetSum _ fun t _ => continuous_const.mul ?_).add
    (continuous_const.mul (continuous_finsetSum _ fun t _ => frobSq_continuous (h t)))).add
    (continuous_const.mul (continuous_finsetSum _ fun p _ => frobSq_continuous ((h _).sub (h _))))).add
    (modePenalty_continuous a)
  unfold frobInner
  exact continuous_finsetSum _ fun i _ => continuous_finsetSum _ fun j _ =>
    continuous_const.mul ((h t).matrix_elem i j)

theorem inv_continuousOn {C : Set (Batch (T + 1) n)} (hC : ∀ K ∈ C, ∀ t, (K t).PosDef)
    (t : Fin (T + 1)) : ContinuousOn (fun K : Batch (T + 1) n => (K t)⁻¹) C := by
  have h : Continuous fun K : Batch (T + 1) n => K t := continuous_apply t
  simp only [Matrix.inv_def, Ring.inverse_eq_inv']
  exact (h.matrix_det.continuousOn.inv₀ fun K hK => (hC K hK t).det_pos.ne').smul
    h.matrix_adjugate.continuousOn

/-- Coercivity: with a positive jitter the regular part dominates the traces. -/
theorem fbRegular_lower (a : FBArgs T n) {nS : Fin (T + 1) → ℝ} (hpos : ∀ t, 0 < nS t)
    (hS : ∀ t, (a.empCov t).PosSemidef) (ha : 0 ≤ a.alpha) (hb : 0 ≤ a.beta) (hv : 0 < a.vareps)
    (K : Batch (T + 1) n) (hK : ∀ t, (K t).PosDef) :
    -(∑ _t : Fin (T + 1), ∑ _i : n, a.vareps / 2) + ∑ t, a.vareps * trace (K t) ≤
      fbRegular a nS K := by
  have hmb : 0 ≤ modeBeta a := by unfold modeBeta; split <;> simp [hb]
  have h1 : 0 ≤ ∑ t, nS t * frobInner (a.empCov t) (K t) := Finset.sum_nonneg fun t _ =>
    mul_nonneg (hpos t).le (by
      rw [frobInner_eq_trace_of_symm (hS t).isSymm']
      have hnn := (hS t)
      obtain ⟨R, hR, hRR⟩ := exists_sqrt (hK t)
      rw [← hRR, ← Matrix.mul_assoc, Matrix.trace_mul_comm, ← Matrix.mul_assoc]
      have := hnn.mul_mul_conjTranspose_same R
      rw [conjTranspose_eq_transpose_of_trivial, hR.isSymm'] at this
      exact this.trace_nonneg)
  have h2 : 0 ≤ modeBeta a * ∑ p : Fin T, frobSq (K p.succ - K p.castSucc) :=
    mul_nonneg hmb (Finset.sum_nonneg fun p _ => frobSq_nonneg _)
  have h3 := modePenalty_nonneg a ha hb K
  have h4 : -(∑ _t : Fin (T + 1), ∑ _i : n, a.vareps / 2) + ∑ t, a.vareps * trace (K t) ≤
      a.vareps / 2 * seqSq K := by
    unfold seqSq trace
    rw [Finset.mul_sum, neg_add_eq_sub, ← Finset.sum_sub_distrib]
    refine Finset.sum_le_sum fun t _ => ?_
    rw [Finset.mul_sum, ← Finset.sum_sub_distrib]
    unfold frobSq
    rw [Finset.mul_sum]
    refine Finset.sum_le_sum fun i _ => ?_
    have h5 : K t i i ^ 2 ≤ ∑ j, K t i j ^ 2 :=
      Finset.single_le_sum (f := fun j => K t i j ^ 2) (fun j _ => sq_nonneg _) (Finset.mem_univ i)
    rw [diag_apply]
    nlinarith [mul_nonneg hv.le (sq_nonneg (K t i i - 1)), mul_le_mul_of_nonneg_left h5 hv.le]
  unfold fbRegular
  linarith

/-- The value of the gradient (zero where the call raises). -/
noncomputable def gradOf (a : FBArgs T n) (K : Batch (T + 1) n) : Batch (T + 1) n :=
  match fbGradient a K fun t => (K t)⁻¹ with
  | .ok g => g
  | .error _ => 0

theorem gradOf_continuousOn (a : FBArgs T n) {C : Set (Batch (T + 1) n)}
    (hC : ∀ K ∈ C, ∀ t, (K t).PosDef) : ContinuousOn (gradOf a) C := by
  have hinv := inv_continuousOn hC
  have h : ∀ t, Continuous fun K : Batch (T + 1) n => K t := fun t => continuous_apply t
  have hgl : ∀ nS, ContinuousOn (fun K : Batch (T + 1) n =>
      gradLoss a.empCov nS a.vareps K fun t => (K t)⁻¹) C := by
    intro nS
    refine continuousOn_pi.mpr fun t => ?_
    unfold gradLoss
    exact ((continuousOn_const.sub (hinv t)).const_smul (nS t)).add
      ((h t).continuousOn.const_smul a.vareps)
  unfold gradOf fbGradient
  cases hn : a.nSamples with
  | none => exact continuousOn_const
  | some nS =>
    cases hl : a.laplacian with
    | false => simpa [hl] using hgl nS
    | true =>
      cases T with
      | zero => simpa [hl] using continuousOn_const
      | succ T =>
        simp only [if_true]
        refine (hgl nS).add (Continuous.continuousOn ?_)
        refine Continuous.const_smul ?_ (2 * a.beta)
        refine continuous_pi fun t => ?_
        unfold laplacianAux
        split
        · exact (h _).sub (h _)
        · split
          · exact (h _).sub (h _)
          · exact (((h _).const_smul (2 : ℝ)).sub (h _)).sub (h _)

theorem seqSq_continuous : Continuous (seqSq (n := n) (k := T + 1)) := by
  unfold seqSq
  exact continuous_finsetSum _ fun t _ => frobSq_continuous (continuous_apply t)

theorem seqInner_sq_le {k : ℕ} (A B : Batch k n) : seqInner A B ^ 2 ≤ seqSq A * seqSq B := by
  have h1 : ∀ A B : Batch k n, seqInner A B =
      ∑ x : Fin k × n × n, A x.1 x.2.1 x.2.2 * B x.1 x.2.1 x.2.2 := by
    intro A B
    unfold seqInner frobInner
    simp only [Fintype.sum_prod_type]
  rw [← seqInner_self, ← seqInner_self, h1, h1, h1]
  simp only [← sq]
  exact Finset.sum_mul_sq_le_sq_mul_sq _ _ _

/-- A sequence in a compact set whose values converge to the value at the only point of the set with
that value converges to the point. -/
theorem tendsto_of_unique_value {X : Type*} [TopologicalSpace X] {C : Set X} (hC : IsCompact C)
    {J : X → ℝ} (hJ : ∀ y ∈ C, ContinuousAt J y) {x : ℕ → X} (hx : ∀ i, x i ∈ C) {z : X}
    (hz : ∀ y ∈ C, J y = J z → y = z) (hlim : Tendsto (fun i => J (x i)) atTop (𝓝 (J z))) :
    Tendsto x atTop (𝓝 z) := by
  refine hC.tendsto_nhds_of_unique_mapClusterPt (Eventually.of_forall hx) fun y hy hcl => ?_
  refine hz y hy ?_
  have h1 : MapClusterPt (J y) atTop (J ∘ x) := hcl.continuousAt_comp (hJ y hy)
  have h2 : ClusterPt (J y) (𝓝 (J z)) := ClusterPt.mono h1 hlim
  exact eq_of_nhds_neBot h2

/-! ### One pass -/

/-- What one pass of the loop does when the step search succeeds. -/
structure FBPass (tv : (Fin (T + 1) → ℝ) → ℝ → Fin (T + 1) → ℝ) (a : FBArgs T n)
    (g0 lamda : ℝ) (x g x' : Batch (T + 1) n) (gamma : ℝ) : Prop where
  next : x' = x + lamda • (fbProx tv a x g gamma - x)
  adm : Admissible "gamma" (fbLoss a) x g lamda a.delta gamma (fbProx tv a x g gamma)
  found : ∃ i, gamma = g0 * a.eps ^ i ∧ ∀ j < i, ¬ Admissible "gamma" (fbLoss a) x g lamda a.delta
    (g0 * a.eps ^ j) (fbProx tv a x g (g0 * a.eps ^ j))

theorem fbStep_pass {tv : (Fin (T + 1) → ℝ) → ℝ → Fin (T + 1) → ℝ}
    (pinvh : Matrix n n ℝ → Matrix n n ℝ) (a : FBArgs T n) (hc : a.choose = "gamma")
    (it : ℕ) (s s' : FBState T n) (hl0 : 0 ≤ s.lamda) (hl1 : s.lamda ≤ 1) (obj : XF) (stop : Bool)
    (hstep : fbStep pinvh tv a it s = .ok (s', obj, stop)) (grad : Batch (T + 1) n)
    (hgrad : fbGradient a s.K (fun t => pinvh (s.K t)) = .ok grad)
    (hfound : ∃ j < 200,
      Admissible "gamma" (fbLoss a) s.K grad s.lamda a.delta
        ((if it > 0 then s.gamma / a.eps else s.gamma) * a.eps ^ j)
        (fbProx tv a s.K grad ((if it > 0 then s.gamma / a.eps else s.gamma) * a.eps ^ j))) :
    s'.lamda = s.lamda ∧ FBPass tv a (if it > 0 then s.gamma / a.eps else s.gamma) s.lamda s.K grad
      s'.K s'.gamma ∧ obj = fbObjective a s'.K ∧
      stop = (fbStop a it s.maxResidual obj s'.gamma grad (s.K - s'.gamma • grad) s'.K s.K).2 := by
  obtain ⟨j, hj, hadm⟩ := hfound
  set g0 := (if it > 0 then s.gamma / a.eps else s.gamma) with hg0
  rcases gammaLoop_cases (fbProx tv a s.K grad)
      (gammaAccept a.choose (fbLoss a) s.K grad s.lamda a.delta) a.eps 200 g0 with
      ⟨i, hi, h1, h2⟩ | hno
  · have hch : chooseGamma tv a 200 g0 s.K grad s.lamda =
        .ok (g0 * a.eps ^ i, fbProx tv a s.K grad (g0 * a.eps ^ i)) :=
      gammaLoop_first _ _ _ _ _ none i hi h1 h2
    have hdir := fbDirection_gamma tv a it s grad hc _ hch
    unfold fbStep at hstep
    simp only [hgrad, hdir] at hstep
    injection hstep with hstep
    rw [Prod.mk.injEq, Prod.mk.injEq] at hstep
    obtain ⟨e1, e2, e3⟩ := hstep
    subst e1
    refine ⟨rfl, ⟨(C45_clip _ _ _).2.2 hl0 hl1, ?_, i, rfl, fun k hk hbad => ?_⟩, e2.symm, ?_⟩
    · rw [gammaAccept_iff, hc] at h1
      exact h1
    · have := h2 k hk
      rw [hc, (gammaAccept_iff _ _ _ _ _ _ _ _).mpr hbad] at this
      exact absurd this (by simp)
    · rw [← e3, ← e2]
  · have := hno j hj
    rw [hc, (gammaAccept_iff _ _ _ _ _ _ _ _).mpr hadm] at this
    exact absurd this (by simp)

/-- Convexity of the smooth part along its gradient. -/
theorem smooth_below (a : FBArgs T n) (nS : Fin (T + 1) → ℝ) (hn : a.nSamples = some nS)
    (hpos : ∀ t, 0 < nS t) (hb : 0 ≤ a.beta) (hv : 0 ≤ a.vareps) {x z g : Batch (T + 1) n}
    (hx : ∀ t, (x t).PosDef) (hz : ∀ t, (z t).PosDef)
    (h : fbGradient a x (fun t => (x t)⁻¹) = .ok g) :
    smoothTime a.empCov nS a.vareps (modeBeta a) x + seqInner g (z - x) ≤
      smoothTime a.empCov nS a.vareps (modeBeta a) z := by
  have hmb : 0 ≤ modeBeta a := by unfold modeBeta; split <;> simp [hb]
  by_cases hne : z = x
  · rw [hne, sub_self, seqInner_comm, seqInner_zero_left, add_zero]
  · rw [fbGradient_inner a nS hn x _ g h]
    exact (smoothTime_lt a.empCov hpos hv hmb hx hz hne).le

theorem pass_real (a : FBArgs T n) (nS : Fin (T + 1) → ℝ) (hn : a.nSamples = some nS)
    {lamda gamma : ℝ} {x g y : Batch (T + 1) n} (hx : ∀ t, (x t).PosDef)
    (hx' : ∀ t, ((x + lamda • (y - x)) t).PosDef)
    (hadm : Admissible "gamma" (fbLoss a) x g lamda a.delta gamma y) :
    smoothTime a.empCov nS a.vareps (modeBeta a) (x + lamda • (y - x)) -
        smoothTime a.empCov nS a.vareps (modeBeta a) x ≤
      lamda * (seqInner (y - x) g + a.delta / gamma * seqSq (y - x)) := by
  have hs : a.samples = nS := by unfold FBArgs.samples; rw [hn]; rfl
  unfold Admissible at hadm
  rw [if_pos rfl, C67_loss_value a hx, C67_loss_value a hx', hs] at hadm
  simp only [XF.sub, XF.add, XF.neg, xfLe] at hadm
  linarith

/-- Decrease of the objective in one pass. -/
theorem pass_descent {tv : (Fin (T + 1) → ℝ) → ℝ → Fin (T + 1) → ℝ} (htv : IsTVSolver tv)
    (a : FBArgs T n) (nS : Fin (T + 1) → ℝ) (hn : a.nSamples = some nS)
    (ha : 0 ≤ a.alpha) (hb : 0 ≤ a.beta) {g0 lamda gamma : ℝ} (hg : 0 < gamma) (hl0 : 0 ≤ lamda)
    (hl1 : lamda ≤ 1) {x g x' : Batch (T + 1) n} (hx : ∀ t, (x t).PosDef) (hx' : ∀ t, (x' t).PosDef)
    (hpass : FBPass tv a g0 lamda x g x' gamma) :
    fbTarget a nS x' + lamda * (1 - a.delta) / gamma * seqSq (fbProx tv a x g gamma - x) ≤
      fbTarget a nS x := by
  obtain ⟨hnext, hadm, -⟩ := hpass
  have hdrop := (fbProx_ineq htv a ha hb x g hg).drop hg
  set y := fbProx tv a x g gamma
  subst hnext
  have h1 := pass_real a nS hn hx hx' hadm
  have h2 := modePenalty_convex a ha hb x y lamda hl0 hl1
  have h3 := mul_le_mul_of_nonneg_left hdrop hl0
  have e : lamda * (1 - a.delta) / gamma * seqSq (y - x) =
      lamda * (1 / gamma * seqSq (y - x)) - lamda * (a.delta / gamma * seqSq (y - x)) := by
    field_simp
  unfold fbTarget
  rw [e]
  linarith

/-- Distance to any other value of the objective in one pass. -/
theorem pass_gap {tv : (Fin (T + 1) → ℝ) → ℝ → Fin (T + 1) → ℝ} (htv : IsTVSolver tv)
    (a : FBArgs T n) (nS : Fin (T + 1) → ℝ) (hn : a.nSamples = some nS) (hpos : ∀ t, 0 < nS t)
    (ha : 0 ≤ a.alpha) (hb : 0 ≤ a.beta) (hv : 0 ≤ a.vareps) (hd : a.delta ≤ 1) {g0 lamda gamma : ℝ}
    (hg : 0 < gamma) (hl0 : 0 < lamda) (hl1 : lamda ≤ 1) {x g x' z : Batch (T + 1) n}
    (hx : ∀ t, (x t).PosDef) (hx' : ∀ t, (x' t).PosDef) (hz : ∀ t, (z t).PosDef)
    (h : fbGradient a x (fun t => (x t)⁻¹) = .ok g)
    (hpass : FBPass tv a g0 lamda x g x' gamma) :
    fbTarget a nS x + (fbTarget a nS x' - fbTarget a nS x) / lamda
      - seqInner (fbProx tv a x g gamma - x) (z - x) / gamma ≤ fbTarget a nS z := by
  obtain ⟨hnext, hadm, -⟩ := hpass
  have hprox := fbProx_ineq htv a ha hb x g hg z
  set y := fbProx tv a x g gamma
  subst hnext
  have h1 := pass_real a nS hn hx hx' hadm
  have h2 := modePenalty_convex a ha hb x y lamda hl0.le hl1
  have h3 := smooth_below a nS hn hpos hb hv hx hz h
  have e : seqInner (x - gamma • g - y) (z - y) =
      -seqInner (y - x) (z - x) + seqSq (y - x) - gamma * seqInner g (z - x)
        + gamma * seqInner (y - x) g := by
    rw [← seqInner_self]
    simp only [seqInner_sub_left, seqInner_sub_right, seqInner_smul_left]
    rw [seqInner_comm x y, seqInner_comm y g, seqInner_comm x g]
    ring
  rw [e] at hprox
  have hq := seqSq_nonneg (y - x)
  unfold fbTarget
  set f := smoothTime a.empCov nS a.vareps (modeBeta a)
  set q := modePenalty a
  set x' := x + lamda • (y - x)
  have h4 : q y - seqInner (y - x) (z - x) / gamma + seqSq (y - x) / gamma - seqInner g (z - x)
      + seqInner (y - x) g ≤ q z := by
    have h5 : gamma * (q y - seqInner (y - x) (z - x) / gamma + seqSq (y - x) / gamma
        - seqInner g (z - x) + seqInner (y - x) g) ≤ gamma * q z := by
      refine le_trans (le_of_eq ?_) hprox
      field_simp
      ring
    exact le_of_mul_le_mul_left h5 hg
  have h6 : (f x' + q x' - (f x + q x)) / lamda ≤
      seqInner (y - x) g + a.delta / gamma * seqSq (y - x) + q y - q x := by
    rw [div_le_iff₀ hl0]
    linarith
  have h7 : a.delta / gamma * seqSq (y - x) ≤ seqSq (y - x) / gamma := by
    rw [div_mul_eq_mul_div]
    exact div_le_div_of_nonneg_right (by nlinarith) hg.le
  linarith

/-! ### Whole runs -/

/-- The states passed through by the loop of the solver when it is started at `K0` and not
interrupted, for a run that keeps positive definite iterates and whose step searches succeed within
the 200 trials. -/
structure FBRun (pinvh : Matrix n n ℝ → Matrix n n ℝ)
    (tv : (Fin (T + 1) → ℝ) → ℝ → Fin (T + 1) → ℝ) (a : FBArgs T n) (K0 : Batch (T + 1) n)
    (s : ℕ → FBState T n) : Prop where
  init : s 0 = { K := K0, gamma := a.gamma, lamda := a.lamda, maxResidual := .ninf }
  step : ∀ it, ∃ obj stop, fbStep pinvh tv a it (s it) = .ok (s (it + 1), obj, stop)
  posDef : ∀ it t, ((s it).K t).PosDef
  found : ∀ it g, fbGradient a (s it).K (fun t => pinvh ((s it).K t)) = .ok g → ∃ j < 200,
    Admissible "gamma" (fbLoss a) (s it).K g (s it).lamda a.delta
      ((if it > 0 then (s it).gamma / a.eps else (s it).gamma) * a.eps ^ j)
      (fbProx tv a (s it).K g ((if it > 0 then (s it).gamma / a.eps else (s it).gamma) * a.eps ^ j))

/-- Conditions on the arguments: documented ranges and a positive jitter (the default is `1e-5`). -/
structure FBGood (a : FBArgs T n) (nS : Fin (T + 1) → ℝ) : Prop where
  choose : a.choose = "gamma"
  samples : a.nSamples = some nS
  pos : ∀ t, 0 < nS t
  cov : ∀ t, (a.empCov t).PosSemidef
  alpha : 0 ≤ a.alpha
  beta : 0 ≤ a.beta
  vareps : 0 < a.vareps
  delta0 : 0 < a.delta
  delta1 : a.delta < 1
  eps0 : 0 < a.eps
  eps1 : a.eps < 1
  gamma : 0 < a.gamma
  lamda0 : 0 < a.lamda
  lamda1 : a.lamda ≤ 1

theorem fbStep_grad {tv : (Fin (T + 1) → ℝ) → ℝ → Fin (T + 1) → ℝ}
    {pinvh : Matrix n n ℝ → Matrix n n ℝ} {a : FBArgs T n} {it : ℕ} {s s' : FBState T n} {obj : XF}
    {stop : Bool} (hstep : fbStep pinvh tv a it s = .ok (s', obj, stop)) :
    ∃ g, fbGradient a s.K (fun t => pinvh (s.K t)) = .ok g := by
  unfold fbStep at hstep
  cases hg : fbGradient a s.K fun t => pinvh (s.K t) with
  | error e => simp [hg] at hstep
  | ok g => exact ⟨g, rfl⟩

/-- The facts about an uninterrupted run used below. -/
theorem run_facts {tv : (Fin (T + 1) → ℝ) → ℝ → Fin (T + 1) → ℝ} (htv : IsTVSolver tv)
    (pinvh : Matrix n n ℝ → Matrix n n ℝ) (hp : ∀ K : Matrix n n ℝ, K.PosDef → pinvh K = K⁻¹)
    (a : FBArgs T n) (nS : Fin (T + 1) → ℝ) (ha : FBGood a nS) (K0 : Batch (T + 1) n)
    (s : ℕ → FBState T n) (hrun : FBRun pinvh tv a K0 s) :
    ∃ Z, UniqueMin {X : Batch (T + 1) n | ∀ t, (X t).PosDef} (fbTarget a nS) Z ∧
      Tendsto (fun it => (s it).K) atTop (𝓝 Z) ∧
      Tendsto (fun it => fbTarget a nS (s it).K) atTop (𝓝 (fbTarget a nS Z)) ∧
      (∀ it, 0 < (s it).gamma) ∧
      Tendsto (fun it => Real.sqrt (seqSq ((s (it + 1)).K - (s it).K)) / (s (it + 1)).gamma)
        atTop (𝓝 0) := by
  obtain ⟨hch, hn, hpos, hS, hal, hbe, hv, hd0, hd1, he0, he1, hg, hl0, hl1⟩ := ha
  -- gradients, step data
  choose obj stop hstep using hrun.step
  choose g hgp using fun it => fbStep_grad (hstep it)
  have hpin : ∀ it, (fun t => pinvh ((s it).K t)) = fun t => ((s it).K t)⁻¹ := fun it =>
    funext fun t => hp _ (hrun.posDef it t)
  have hgr : ∀ it, fbGradient a (s it).K (fun t => ((s it).K t)⁻¹) = .ok (g it) := fun it => by
    rw [← hpin]; exact hgp it
  have hlam : ∀ it, (s it).lamda = a.lamda := by
    intro it
    induction it with
    | zero => rw [hrun.init]
    | succ it ih =>
      rw [(fbStep_pass pinvh a hch it _ _ (by rw [ih]; exact hl0.le) (by rw [ih]; exact hl1) _ _ (hstep it)
        (g it) (hgp it) (hrun.found it _ (hgp it))).1, ih]
  have hpass : ∀ it, FBPass tv a (if it > 0 then (s it).gamma / a.eps else (s it).gamma) a.lamda
      (s it).K (g it) (s (it + 1)).K (s (it + 1)).gamma := fun it => by
    have := (fbStep_pass pinvh a hch it _ _ (by rw [hlam]; exact hl0.le) (by rw [hlam]; exact hl1) _ _
      (hstep it) (g it) (hgp it) (hrun.found it _ (hgp it))).2.1
    rw [hlam] at this
    exact this
  have hgam : ∀ it, 0 < (s it).gamma := by
    intro it
    induction it with
    | zero => rw [hrun.init]; exact hg
    | succ it ih =>
      obtain ⟨i, hi, -⟩ := (hpass it).found
      rw [hi]
      refine mul_pos ?_ (pow_pos he0 i)
      split
      · exact div_pos ih he0
      · exact ih
  have hpd := hrun.posDef
  -- monotone objective
  have hdesc : ∀ it, fbTarget a nS (s (it + 1)).K + a.lamda * (1 - a.delta) / (s (it + 1)).gamma *
      seqSq (fbProx tv a (s it).K (g it) (s (it + 1)).gamma - (s it).K) ≤ fbTarget a nS (s it).K :=
    fun it => pass_descent htv a nS hn hal hbe (hgam (it + 1)) hl0.le hl1 (hpd it) (hpd (it + 1))
      (hpass it)
  set q : ℕ → ℝ := fun it => seqSq (fbProx tv a (s it).K (g it) (s (it + 1)).gamma - (s it).K) with hq
  have hq0 : ∀ it, 0 ≤ q it := fun it => seqSq_nonneg _
  have hk0 : 0 < a.lamda * (1 - a.delta) := mul_pos hl0 (by linarith)
  have hanti : Antitone fun it => fbTarget a nS (s it).K := by
    refine antitone_nat_of_succ_le fun it => ?_
    have := hdesc it
    have h2 : 0 ≤ a.lamda * (1 - a.delta) / (s (it + 1)).gamma * q it :=
      mul_nonneg (div_nonneg hk0.le (hgam _).le) (hq0 it)
    linarith
  -- compact sub-level set and minimiser
  have hlow := fbRegular_lower a hpos hS hal hbe hv
  have hPc := fbRegular_continuous a nS
  have hJ : fbTarget a nS = fun K => fbRegular a nS K - ∑ t, nS t * Real.log (K t).det :=
    funext (fbTarget_eq a nS)
  obtain ⟨C, hC, hCpd, hCmem, -⟩ := sublevel_compact hpos (fun _ => hv) hPc hlow
    (fbTarget a nS (s 0).K)
  obtain ⟨Z, hZ⟩ := exists_min_logdet hpos (fun _ => hv) hPc hlow
  rw [← hJ] at hZ
  have hmb : 0 ≤ modeBeta a := by unfold modeBeta; split <;> simp [hbe]
  have hZpd : ∀ t, (Z t).PosDef := hZ.1
  have huniq : UniqueMin {X : Batch (T + 1) n | ∀ t, (X t).PosDef} (fbTarget a nS) Z := by
    refine ⟨hZ.1, fun Y hY hne => lt_of_le_of_ne (hZ.2 Y hY) fun heq => ?_⟩
    -- strict convexity: the midpoint would be better
    have hYpd : ∀ t, (Y t).PosDef := hY
    set M : Batch (T + 1) n := Z + (1 / 2 : ℝ) • (Y - Z) with hM
    have hMpd : ∀ t, (M t).PosDef := by
      intro t
      have e : M t = (1 / 2 : ℝ) • Z t + (1 / 2 : ℝ) • Y t := by
        rw [hM, Pi.add_apply, Pi.smul_apply, Pi.sub_apply]
        ext i j
        simp only [Matrix.add_apply, Matrix.smul_apply, Matrix.sub_apply, smul_eq_mul]
        ring
      rw [e]
      exact ((hZpd t).smul (by norm_num)).add ((hYpd t).smul (by norm_num))
    have hMZ : Z ≠ M := by
      intro h
      refine hne ?_
      have h0 : (1 / 2 : ℝ) • (Y - Z) = 0 := by
        have : Z + (1 / 2 : ℝ) • (Y - Z) = Z + 0 := by rw [add_zero, ← hM, ← h]
        exact add_left_cancel this
      exact sub_eq_zero.mp ((smul_eq_zero.mp h0).resolve_left (by norm_num))
    have hMY : Y ≠ M := by
      intro h
      refine hne ?_
      have h0 : (1 / 2 : ℝ) • (Y - Z) = 0 := by
        have h1 : Y - Z = (1 / 2 : ℝ) • (Y - Z) := by
          conv_lhs => rw [h, hM, add_sub_cancel_left]
        have h2 : (1 / 2 : ℝ) • (Y - Z) = (Y - Z) - (1 / 2 : ℝ) • (Y - Z) := by
          funext t
          ext i j
          simp only [Pi.smul_apply, Pi.sub_apply, Matrix.smul_apply, Matrix.sub_apply, smul_eq_mul]
          ring
        rw [h2, ← h1, sub_self]
      exact sub_eq_zero.mp ((smul_eq_zero.mp h0).resolve_left (by norm_num))
    have h1 := smoothTime_lt a.empCov hpos hv.le hmb hMpd hZpd hMZ
    have h2 := smoothTime_lt a.empCov hpos hv.le hmb hMpd hYpd hMY
    have hL : ∀ V : Batch (T + 1) n, (∑ t, nS t * (frobInner (a.empCov t) (V t)
        - frobInner (M t)⁻¹ (V t)) + a.vareps * seqInner M V + 2 * modeBeta a * ∑ p : Fin T,
          frobInner (M p.succ - M p.castSucc) (V p.succ - V p.castSucc)) =
        seqInner (gradOf a M) V := by
      intro V
      have hg' : ∃ gM, fbGradient a M (fun t => (M t)⁻¹) = .ok gM := by
        have h0 := hgr 0
        unfold fbGradient at h0 ⊢
        rw [hn] at h0 ⊢
        cases hlap : a.laplacian with
        | false => exact ⟨_, by simp only [Bool.false_eq_true, if_false]; rfl⟩
        | true =>
          rw [hlap] at h0
          cases T with
          | zero => simp at h0
          | succ T => exact ⟨_, by simp only [if_true]; rfl⟩
      obtain ⟨gM, hgM⟩ := hg'
      have : gradOf a M = gM := by unfold gradOf; rw [hgM]
      rw [this, fbGradient_inner a nS hn M _ gM hgM V]
    rw [hL] at h1 h2
    have hpen := modePenalty_convex a hal hbe Z Y (1 / 2) (by norm_num) (by norm_num)
    have e1 : seqInner (gradOf a M) (Z - M) + seqInner (gradOf a M) (Y - M) = 0 := by
      rw [← seqInner_add_right]
      have : Z - M + (Y - M) = 0 := by
        rw [hM]
        funext t
        ext i j
        simp only [Pi.add_apply, Pi.sub_apply, Pi.smul_apply, Matrix.add_apply, Matrix.sub_apply,
          Matrix.smul_apply, smul_eq_mul, Pi.zero_apply, Matrix.zero_apply]
        ring
      rw [this, seqInner_comm, seqInner_zero_left]
    have h3 := hZ.2 M hMpd
    unfold fbTarget at h3 heq
    rw [← hM] at hpen
    linarith
  have hmem : ∀ it, (s it).K ∈ C := fun it => hCmem _ (hpd it) (by
    rw [← fbTarget_eq]; exact hanti (Nat.zero_le it))
  have hZC : Z ∈ C := hCmem Z hZpd (by rw [← fbTarget_eq]; exact hZ.2 _ (hpd 0))
  -- uniform bounds on the compact set
  obtain ⟨B, hB⟩ : ∃ B, ∀ K ∈ C, ∀ t, trace (K t)⁻¹ ≤ B := by
    have hcont : ContinuousOn (fun K : Batch (T + 1) n => ∑ t, trace (K t)⁻¹) C :=
      continuousOn_finsetSum _ fun t _ =>
        (Continuous.matrix_trace continuous_id).comp_continuousOn (inv_continuousOn hCpd t)
    obtain ⟨B, hB⟩ := hC.bddAbove_image hcont
    refine ⟨B, fun K hK t => ?_⟩
    exact (Finset.single_le_sum (f := fun t => trace (K t)⁻¹)
        (fun u _ => (hCpd K hK u).inv.posSemidef.trace_nonneg) (Finset.mem_univ t)).trans
      (hB ⟨K, hK, rfl⟩)
  obtain ⟨W, hW⟩ : ∃ W, ∀ K ∈ C, 2 * modePenalty a K + seqSq (gradOf a K) ≤ W := by
    have hcont : ContinuousOn (fun K : Batch (T + 1) n => 2 * modePenalty a K + seqSq (gradOf a K)) C :=
      (continuous_const.mul (modePenalty_continuous a)).continuousOn.add
        (seqSq_continuous.comp_continuousOn (gradOf_continuousOn a hCpd))
    obtain ⟨W, hW⟩ := hC.bddAbove_image hcont
    exact ⟨W, fun K hK => hW ⟨K, hK, rfl⟩⟩
  obtain ⟨D, hD⟩ : ∃ D, ∀ K ∈ C, seqSq (Z - K) ≤ D := by
    have hcont : ContinuousOn (fun K : Batch (T + 1) n => seqSq (Z - K)) C :=
      (seqSq_continuous.comp (continuous_const.sub continuous_id)).continuousOn
    obtain ⟨D, hD⟩ := hC.bddAbove_image hcont
    exact ⟨D, fun K hK => hD ⟨K, hK, rfl⟩⟩
  have hD0 : 0 ≤ D := (seqSq_nonneg _).trans (hD Z hZC)
  have hgo : ∀ it, gradOf a (s it).K = g it := fun it => by unfold gradOf; rw [hgr]
  have hW0 : 0 ≤ W := le_trans (add_nonneg (mul_nonneg zero_le_two (modePenalty_nonneg a hal hbe Z))
    (seqSq_nonneg _)) (hW Z hZC)
  -- the steps stay away from zero
  set b := stepBound a nS B W with hb
  have hb0 : 0 < b := stepBound_pos a (fun t => (hpos t).le) hbe hv.le hd0 B hW0
  set gmin := min a.gamma (b * a.eps) with hgmin
  have hgmin0 : 0 < gmin := lt_min hg (mul_pos hb0 he0)
  have hgm : ∀ it, gmin ≤ (s it).gamma := by
    intro it
    induction it with
    | zero => rw [hrun.init]; exact min_le_left _ _
    | succ it ih =>
      obtain ⟨i, hi, hbad⟩ := (hpass it).found
      set g0 := (if it > 0 then (s it).gamma / a.eps else (s it).gamma) with hg0
      have hg0le : (s it).gamma ≤ g0 := by
        rw [hg0]; split
        · rw [le_div_iff₀ he0]
          have := mul_le_mul_of_nonneg_left he1.le (hgam it).le
          linarith
        · exact le_rfl
      rw [hi]
      cases i with
      | zero => rw [pow_zero, mul_one]; exact ih.trans hg0le
      | succ i =>
        have hnot := hbad i (Nat.lt_succ_self i)
        have hgt : b < g0 * a.eps ^ i := by
          by_contra hle
          refine hnot (small_steps_of htv pinvh a nS hn (fun t => (hpos t).le)
            (fun t => (hS t).isSymm') hal hbe hv.le hd0 (hpd it) (fun t => hp _ (hpd it t)) (g it)
            (hgp it) hl0.le hl1 (hB _ (hmem it)) (by rw [← hgo]; exact hW _ (hmem it)) _
            (mul_pos ((hgam it).trans_le hg0le) (pow_pos he0 i)) (not_lt.mp hle)).1
        refine (min_le_right _ _).trans ?_
        rw [pow_succ, ← mul_assoc]
        exact mul_le_mul_of_nonneg_right hgt.le he0.le
  -- limits
  have hbdd : BddBelow (Set.range fun it => fbTarget a nS (s it).K) :=
    ⟨fbTarget a nS Z, by rintro _ ⟨it, rfl⟩; exact hZ.2 _ (hpd it)⟩
  have hL := tendsto_atTop_ciInf hanti hbdd
  set L := ⨅ it, fbTarget a nS (s it).K with hLdef
  have hL1 : Tendsto (fun it => fbTarget a nS (s (it + 1)).K) atTop (𝓝 L) :=
    (tendsto_add_atTop_iff_nat 1).mpr hL
  have hdiff : Tendsto (fun it => fbTarget a nS (s it).K - fbTarget a nS (s (it + 1)).K) atTop (𝓝 0) := by
    simpa using hL.sub hL1
  have hqg : Tendsto (fun it => q it / (s (it + 1)).gamma) atTop (𝓝 0) := by
    have hup : Tendsto (fun it => (a.lamda * (1 - a.delta))⁻¹ *
        (fbTarget a nS (s it).K - fbTarget a nS (s (it + 1)).K)) atTop (𝓝 0) := by
      simpa using hdiff.const_mul (a.lamda * (1 - a.delta))⁻¹
    refine squeeze_zero (fun it => div_nonneg (hq0 it) (hgam _).le) (fun it => ?_) hup
    have h1 := hdesc it
    have h2 : a.lamda * (1 - a.delta) * (q it / (s (it + 1)).gamma) ≤
        fbTarget a nS (s it).K - fbTarget a nS (s (it + 1)).K := by
      have e : a.lamda * (1 - a.delta) / (s (it + 1)).gamma * q it =
        a.lamda * (1 - a.delta) * (q it / (s (it + 1)).gamma) := by ring
      rw [← e]
      linarith
    rw [inv_mul_eq_div, le_div_iff₀ hk0]
    linarith
  have hsq : Tendsto (fun it => Real.sqrt (q it) / (s (it + 1)).gamma) atTop (𝓝 0) := by
    have hup : Tendsto (fun it => Real.sqrt (q it / (s (it + 1)).gamma * gmin⁻¹)) atTop (𝓝 0) := by
      have := (hqg.mul_const gmin⁻¹).sqrt
      simpa using this
    refine squeeze_zero (fun it => div_nonneg (Real.sqrt_nonneg _) (hgam _).le) (fun it => ?_) hup
    have hg1 := hgam (it + 1)
    apply Real.le_sqrt_of_sq_le
    rw [div_pow, Real.sq_sqrt (hq0 it), sq, ← div_div, div_eq_mul_inv (q it / _)]
    exact mul_le_mul_of_nonneg_left (inv_anti₀ hgmin0 (hgm _)) (div_nonneg (hq0 it) hg1.le)
  have hLZ : L = fbTarget a nS Z := by
    refine le_antisymm ?_ (le_ciInf fun it => hZ.2 _ (hpd it))
    have hup : Tendsto (fun it => fbTarget a nS (s it).K
        + (fbTarget a nS (s (it + 1)).K - fbTarget a nS (s it).K) / a.lamda
        - Real.sqrt (q it) / (s (it + 1)).gamma * Real.sqrt D) atTop
        (𝓝 (L + 0 / a.lamda - 0 * Real.sqrt D)) := by
      refine (hL.add (Tendsto.div_const ?_ _)).sub (hsq.mul_const _)
      simpa using hL1.sub hL
    rw [zero_div, zero_mul, add_zero, sub_zero] at hup
    refine le_of_tendsto' hup fun it => ?_
    have h1 := pass_gap htv a nS hn hpos hal hbe hv.le hd1.le (hgam (it + 1)) hl0 hl1 (hpd it)
      (hpd (it + 1)) hZpd (hgr it) (hpass it)
    have h2 : seqInner (fbProx tv a (s it).K (g it) (s (it + 1)).gamma - (s it).K) (Z - (s it).K) ≤
        Real.sqrt (q it) * Real.sqrt D := by
      rw [← Real.sqrt_mul (hq0 it)]
      refine Real.le_sqrt_of_sq_le ((seqInner_sq_le _ _).trans ?_)
      exact mul_le_mul_of_nonneg_left (hD _ (hmem it)) (hq0 it)
    have h3 := div_le_div_of_nonneg_right h2 (hgam (it + 1)).le
    rw [mul_div_right_comm] at h3
    linarith
  rw [hLZ] at hL
  refine ⟨Z, huniq, ?_, hL, hgam, ?_⟩
  · refine tendsto_of_unique_value hC (J := fbTarget a nS) (fun K hK => ?_) hmem (fun K hK he => ?_) hL
    · rw [hJ]
      refine hPc.continuousAt.sub ?_
      refine tendsto_finsetSum _ fun t _ => ?_
      have hdet : Continuous fun K : Batch (T + 1) n => (K t).det :=
        Continuous.matrix_det (continuous_apply t)
      exact (hdet.continuousAt.log (hCpd K hK t).det_pos.ne').const_mul (nS t)
    · by_contra hne
      exact absurd he (huniq.2 K (hCpd K hK) hne).ne'
  · have hup : Tendsto (fun it => a.lamda * (Real.sqrt (q it) / (s (it + 1)).gamma)) atTop (𝓝 0) := by
      simpa using hsq.const_mul a.lamda
    refine hup.congr fun it => ?_
    have e : (s (it + 1)).K - (s it).K =
        a.lamda • (fbProx tv a (s it).K (g it) (s (it + 1)).gamma - (s it).K) := by
      rw [(hpass it).next, add_sub_cancel_left]
    have e2 : seqSq ((s (it + 1)).K - (s it).K) = a.lamda ^ 2 * q it := by
      rw [e, ← seqInner_self, seqInner_smul_left, seqInner_smul_right, seqInner_self]
      ring
    rw [e2, Real.sqrt_mul (sq_nonneg _), Real.sqrt_sq hl0.le, mul_div_assoc]

/-- C151: along every uninterrupted run with the step search, positive definite iterates and successful
searches, the iterates converge to the unique minimiser of the documented objective over positive
definite sequences, and the recorded objective values converge to the minimum. Missing for the full
claim: runs that leave the positive definite matrices (possible by C70) or exhaust the 200 trials. -/
theorem C151_converges_partial {tv : (Fin (T + 1) → ℝ) → ℝ → Fin (T + 1) → ℝ} (htv : IsTVSolver tv)
    (pinvh : Matrix n n ℝ → Matrix n n ℝ) (hp : ∀ K : Matrix n n ℝ, K.PosDef → pinvh K = K⁻¹)
    (a : FBArgs T n) (nS : Fin (T + 1) → ℝ) (ha : FBGood a nS) (K0 : Batch (T + 1) n)
    (s : ℕ → FBState T n) (hrun : FBRun pinvh tv a K0 s) :
    ∃ Z, UniqueMin {X : Batch (T + 1) n | ∀ t, (X t).PosDef}
        (fun X => smoothTime a.empCov nS a.vareps (modeBeta a) X + modePenalty a X) Z ∧
      Tendsto (fun it => (s it).K) atTop (𝓝 Z) ∧
      ∃ F : ℕ → ℝ, (∀ it, fbObjective a (s it).K = .fin (F it)) ∧
        Tendsto F atTop (𝓝 (smoothTime a.empCov nS a.vareps (modeBeta a) Z + modePenalty a Z)) := by
  obtain ⟨Z, h1, h2, h3, -, -⟩ := run_facts htv pinvh hp a nS ha K0 s hrun
  refine ⟨Z, h1, h2, fun it => fbTarget a nS (s it).K, fun it => ?_, h3⟩
  have hs : a.samples = nS := by unfold FBArgs.samples; rw [ha.samples]; rfl
  unfold fbObjective fbTarget
  rw [C67_loss_value a (hrun.posDef it), fbPenalty_eq, hs]
  rfl

theorem fbLoop_stops {pinvh : Matrix n n ℝ → Matrix n n ℝ}
    {tv : (Fin (T + 1) → ℝ) → ℝ → Fin (T + 1) → ℝ} {a : FBArgs T n} {s : ℕ → FBState T n}
    {obj : ℕ → XF} {stop : ℕ → Bool}
    (hstep : ∀ it, fbStep pinvh tv a it (s it) = .ok (s (it + 1), obj it, stop it)) {N : ℕ}
    (hN : stop N = true) : ∀ (fuel it : ℕ) (hist : List XF) (last : Option ℕ), it ≤ N →
      N < it + fuel → ∃ j hist', it ≤ j ∧ j ≤ N ∧
        fbLoop pinvh tv a fuel it (s it) hist last = .ok (s (j + 1), hist', true, some j)
  | 0, it, _, _, h1, h2 => by omega
  | fuel + 1, it, hist, last, h1, h2 => by
      unfold fbLoop
      rw [hstep it]
      by_cases hs : stop it = true
      · exact ⟨it, hist ++ [obj it], le_rfl, h1, by simp only [hs, if_true]⟩
      · have hne : it ≠ N := fun h => hs (h ▸ hN)
        obtain ⟨j, hist', hj1, hj2, hj3⟩ := fbLoop_stops hstep hN fuel (it + 1) (hist ++ [obj it])
          (some it) (by omega) (by omega)
        refine ⟨j, hist', by omega, hj2, ?_⟩
        simp only [hs, Bool.false_eq_true, if_false]
        exact hj3

theorem fbStep_maxIter (pinvh : Matrix n n ℝ → Matrix n n ℝ)
    (tv : (Fin (T + 1) → ℝ) → ℝ → Fin (T + 1) → ℝ) (a : FBArgs T n) (m it : ℕ) (s : FBState T n) :
    fbStep pinvh tv { a with maxIter := m } it s = fbStep pinvh tv a it s := by
  have h : fbGradient { a with maxIter := m } s.K (fun t => pinvh (s.K t)) =
      fbGradient a s.K (fun t => pinvh (s.K t)) := by
    cases T <;> rfl
  unfold fbStep
  rw [h]
  rfl

/-- The stopping rule is met as soon as the step length relative to `gamma` is small. -/
theorem fbStop_small (a : FBArgs T n) (hdb : a.debug = false) (hst : a.stopAt = none) {it : ℕ}
    (hit : 0 < it) (maxRes obj : XF) {gamma : ℝ} (hg : 0 < gamma) (grad xhat K Kprev : Batch (T + 1) n)
    (hsmall : Real.sqrt (seqSq (K - Kprev)) / gamma ≤ a.tol * 1e-6) (htol : 0 ≤ a.tol) :
    (fbStop a it maxRes obj gamma grad xhat K Kprev).2 = true := by
  unfold fbStop
  rw [hst]
  simp only [hdb, Bool.not_false, Bool.true_and, Bool.and_eq_true, decide_eq_true_eq]
  refine ⟨Or.inr ?_, hit⟩
  simp only [batchSq_eq]
  have hga : |gamma| ≠ 0 := (abs_pos.mpr hg.ne').ne'
  have e1 : XF.div (.fin (Real.sqrt (seqSq (K - Kprev)))) (.fin gamma) =
      .fin (Real.sqrt (seqSq (K - Kprev)) / gamma) := by simp [XF.div, hg.ne']
  have e2 : XF.div (.fin (Real.sqrt (seqSq (xhat - K)))) (.fin |gamma|) =
      .fin (Real.sqrt (seqSq (xhat - K)) / |gamma|) := by simp [XF.div, hga]
  rw [e1, e2]
  set m := max (Real.sqrt (seqSq grad)) (Real.sqrt (seqSq (xhat - K)) / |gamma|) with hm
  have hm0 : 0 ≤ m := (Real.sqrt_nonneg _).trans (le_max_left _ _)
  have e3 : XF.add (XF.max (.fin (Real.sqrt (seqSq grad)))
      (.fin (Real.sqrt (seqSq (xhat - K)) / |gamma|))) (.fin 1e-6) = .fin (m + 1e-6) := by
    simp [XF.max, XF.add, hm]
  have hpos : 0 < m + 1e-6 := by
    have : (0 : ℝ) < 1e-6 := by norm_num
    linarith
  rw [e3]
  simp only [XF.div]
  rw [if_pos hpos.ne']
  simp only [xfLe]
  rw [div_le_iff₀ hpos]
  nlinarith

/-- C151: with a positive tolerance such a run is interrupted by the stopping rule: for all large enough
`max_iter` the call returns and reports convergence after the same pass. -/
theorem C151_stops_partial {tv : (Fin (T + 1) → ℝ) → ℝ → Fin (T + 1) → ℝ} (htv : IsTVSolver tv)
    (pinvh : Matrix n n ℝ → Matrix n n ℝ) (hp : ∀ K : Matrix n n ℝ, K.PosDef → pinvh K = K⁻¹)
    (a : FBArgs T n) (nS : Fin (T + 1) → ℝ) (ha : FBGood a nS) (hT : 0 < T) (htol : 0 < a.tol)
    (hdb : a.debug = false) (hst : a.stopAt = none) (K0 : Batch (T + 1) n)
    (s : ℕ → FBState T n) (hrun : FBRun pinvh tv a K0 s) :
    ∃ M, ∀ m > M, ∃ r, tglForwardBackward pinvh tv { a with maxIter := m } K0 = .ok r ∧
      r.converged = true ∧ ∃ j, 1 < j ∧ j ≤ M + 1 ∧ r.K = (s j).K := by
  obtain ⟨Z, -, -, -, hgam, hres⟩ := run_facts htv pinvh hp a nS ha K0 s hrun
  choose obj stop hstep using hrun.step
  choose g hgp using fun it => fbStep_grad (hstep it)
  have hlam : ∀ it, (s it).lamda = a.lamda := by
    intro it
    induction it with
    | zero => rw [hrun.init]
    | succ it ih =>
      rw [(fbStep_pass pinvh a ha.choose it _ _ (by rw [ih]; exact ha.lamda0.le)
        (by rw [ih]; exact ha.lamda1) _ _ (hstep it) (g it) (hgp it) (hrun.found it _ (hgp it))).1, ih]
  have hstopeq : ∀ it, stop it = (fbStop a it (s it).maxResidual (obj it) (s (it + 1)).gamma (g it)
      ((s it).K - (s (it + 1)).gamma • g it) (s (it + 1)).K (s it).K).2 := fun it =>
    (fbStep_pass pinvh a ha.choose it _ _ (by rw [hlam]; exact ha.lamda0.le)
      (by rw [hlam]; exact ha.lamda1) _ _ (hstep it) (g it) (hgp it) (hrun.found it _ (hgp it))).2.2.2
  have hev := hres.eventually (gt_mem_nhds (show (0 : ℝ) < a.tol * 1e-6 by
    exact mul_pos htol (by norm_num)))
  obtain ⟨N, hN⟩ := eventually_atTop.mp (hev.and (eventually_gt_atTop 0))
  have hs : stop N = true := by
    obtain ⟨h1, h2⟩ := hN N le_rfl
    rw [hstopeq]
    exact fbStop_small a hdb hst h2 _ _ (hgam _) _ _ _ _ h1.le htol.le
  have hs0 : stop 0 = false := by
    rw [hstopeq]
    unfold fbStop
    rw [hst]
    simp
  refine ⟨N, fun m hm => ?_⟩
  have hstep' : ∀ it, fbStep pinvh tv { a with maxIter := m } it (s it) =
      .ok (s (it + 1), obj it, stop it) := fun it => by rw [fbStep_maxIter]; exact hstep it
  have hN1 : 1 ≤ N := by
    by_contra h
    have : N = 0 := by omega
    rw [this, hs0] at hs
    simp at hs
  obtain ⟨k, rfl⟩ : ∃ k, m = k + 1 := ⟨m - 1, by omega⟩
  obtain ⟨j, hist, hj1, hj2, hj3⟩ := fbLoop_stops hstep' hs k 1
    ([fbObjective a K0] ++ [obj 0]) (some 0) hN1 (by omega)
  have hloop : fbLoop pinvh tv { a with maxIter := k + 1 } (k + 1) 0
      { K := K0, gamma := a.gamma, lamda := a.lamda, maxResidual := .ninf }
      [fbObjective a K0] none = .ok (s (j + 1), hist, true, some j) := by
    rw [← hrun.init]
    unfold fbLoop
    rw [hstep' 0]
    simp only [hs0, Bool.false_eq_true, if_false]
    exact hj3
  refine ⟨⟨(s (j + 1)).K, fun t => pinvh ((s (j + 1)).K t), hist, true,
    if a.returnNIter then some (j + 1) else none⟩, ?_, rfl, j + 1, by omega, by omega, rfl⟩
  unfold tglForwardBackward
  have hc1 : ¬ ¬ (a.choose ∈ availableChoose) := by rw [ha.choose]; decide
  rw [if_neg hc1, if_neg (by rintro ⟨h, -⟩; omega)]
  have hob : fbObjective { a with maxIter := k + 1 } K0 = fbObjective a K0 := rfl
  simp only [hob, hloop]
  cases a.returnNIter <;> rfl

/-! ### A concrete run -/

/-- One feature, two time points, covariances `1/2`, jitter `1/2`, Laplacian coupling. -/
noncomputable def fbMove : FBArgs 1 (Fin 1) where
  empCov := fun _ => (1 / 2 : ℝ) • 1
  alpha := 1
  beta := 1
  maxIter := 10
  nSamples := some fun _ => 1
  tol := 1 / 100
  delta := 1 / 2
  gamma := 1
  lamda := 1
  eps := 1 / 2
  choose := "gamma"
  vareps := 1 / 2
  stopWhen := 0
  laplacian := true

theorem fbMove_good : FBGood fbMove fun _ => 1 where
  choose := rfl
  samples := rfl
  pos := fun _ => one_pos
  cov := fun _ => PosSemidef.one.smul (by norm_num)
  alpha := by norm_num [fbMove]
  beta := by norm_num [fbMove]
  vareps := by norm_num [fbMove]
  delta0 := by norm_num [fbMove]
  delta1 := by norm_num [fbMove]
  eps0 := by norm_num [fbMove]
  eps1 := by norm_num [fbMove]
  gamma := by norm_num [fbMove]
  lamda0 := by norm_num [fbMove]
  lamda1 := by norm_num [fbMove]

theorem fbMove_gradient (c : ℝ) :
    fbGradient fbMove (fun _ => c • 1) (fun _ => (c • (1 : Matrix (Fin 1) (Fin 1) ℝ))⁻¹) =
      .ok fun _ => (1 / 2 - c⁻¹ + 1 / 2 * c) • 1 := by
  unfold fbGradient
  simp only [fbMove, if_true]
  congr 1
  funext t
  rw [Pi.add_apply]
  have h0 : laplacianAux (fun _ : Fin 2 => c • (1 : Matrix (Fin 1) (Fin 1) ℝ)) = 0 := by
    funext t
    unfold laplacianAux
    split
    · simp
    · split
      · simp
      · rw [two_smul]; simp
  have h1 : (c • (1 : Matrix (Fin 1) (Fin 1) ℝ))⁻¹ = c⁻¹ • 1 := by
    ext i j
    fin_cases i; fin_cases j
    rw [Matrix.inv_def]
    simp
  rw [h0, h1]
  unfold gradLoss
  ext i j
  fin_cases i; fin_cases j
  simp

theorem fbMove_prox (tv : (Fin 2 → ℝ) → ℝ → Fin 2 → ℝ) (c d gamma : ℝ) :
    fbProx tv fbMove (fun _ => c • 1) (fun _ => d • 1) gamma = fun _ => (c - gamma * d) • 1 := by
  unfold fbProx
  have : fbMove.laplacian = true := rfl
  rw [if_pos this]
  funext t
  ext i j
  fin_cases i; fin_cases j
  rw [softOff_apply, if_pos rfl, softScalar_zero_right]
  simp

theorem fbMove_loss {c : ℝ} (hc : 0 < c) :
    fbLoss fbMove (fun _ => c • 1) = .fin (2 * (c / 2 - Real.log c) + c ^ 2 / 2) := by
  rw [C67_loss_value fbMove (K := fun _ => c • 1) fun _ => PosDef.one.smul hc]
  congr 1
  unfold smoothTime seqSq
  simp only [sub_self, frobSq_zero]
  simp [fbMove, FBArgs.samples, frobInner, frobSq]
  ring

theorem fbMove_admissible (tv : (Fin 2 → ℝ) → ℝ → Fin 2 → ℝ) :
    Admissible "gamma" (fbLoss fbMove) (fun _ => (2 : ℝ) • 1) (fun _ => (1 : ℝ) • 1) 1 fbMove.delta 1
      (fbProx tv fbMove (fun _ => (2 : ℝ) • 1) (fun _ => (1 : ℝ) • 1) 1) := by
  rw [fbMove_prox]
  unfold Admissible
  rw [if_pos rfl]
  have e : (fun _ => (2 : ℝ) • 1 : Batch 2 (Fin 1)) + (1 : ℝ) • ((fun _ => (2 - 1 * 1 : ℝ) • 1) -
      fun _ => (2 : ℝ) • 1) = fun _ => (1 : ℝ) • 1 := by
    funext t
    ext i j
    fin_cases i; fin_cases j
    simp
    norm_num
  rw [e, fbMove_loss two_pos, fbMove_loss one_pos]
  simp only [XF.sub, XF.add, XF.neg, xfLe]
  have hl := Real.log_two_lt_d9
  have h1 : seqInner ((fun _ => (2 - 1 * 1 : ℝ) • 1) - (fun _ => (2 : ℝ) • 1) : Batch 2 (Fin 1))
      (fun _ => (1 : ℝ) • 1) = -2 := by
    unfold seqInner frobInner
    norm_num
  have h2 : seqSq ((fun _ => (2 - 1 * 1 : ℝ) • 1) - (fun _ => (2 : ℝ) • 1) : Batch 2 (Fin 1)) = 2 := by
    unfold seqSq frobSq
    norm_num
  rw [h1, h2, Real.log_one]
  norm_num [fbMove]
  linarith

theorem fbMove_rest (tv : (Fin 2 → ℝ) → ℝ → Fin 2 → ℝ) (gamma : ℝ) :
    Admissible "gamma" (fbLoss fbMove) (fun _ => (1 : ℝ) • 1) (fun _ => (0 : ℝ) • 1) 1 fbMove.delta gamma
      (fbProx tv fbMove (fun _ => (1 : ℝ) • 1) (fun _ => (0 : ℝ) • 1) gamma) := by
  rw [fbMove_prox, mul_zero, sub_zero]
  unfold Admissible
  rw [if_pos rfl, sub_self, smul_zero, add_zero, fbMove_loss one_pos]
  simp [XF.sub, XF.add, XF.neg, xfLe, seqInner, seqSq, frobInner]

/-- The states of the loop. -/
noncomputable def fbMoveRun (tv : (Fin 2 → ℝ) → ℝ → Fin 2 → ℝ) : ℕ → FBState 1 (Fin 1)
  | 0 => { K := fun _ => (2 : ℝ) • 1, gamma := 1, lamda := 1, maxResidual := .ninf }
  | it + 1 =>
      match fbStep (fun K => K⁻¹) tv fbMove it (fbMoveRun tv it) with
      | .ok r => r.1
      | .error _ => fbMoveRun tv it

/-- The hypotheses of C151 are met by a run that starts away from the optimum. -/
theorem fbMove_run (tv : (Fin 2 → ℝ) → ℝ → Fin 2 → ℝ) :
    FBRun (fun K => K⁻¹) tv fbMove (fun _ => (2 : ℝ) • 1) (fbMoveRun tv) ∧
      (fbMoveRun tv 0).K = (fun _ => (2 : ℝ) • 1) ∧
      ∀ it, (fbMoveRun tv (it + 1)).K = fun _ => (1 : ℝ) • 1 := by
  have hstep : ∀ (it : ℕ) (c : ℝ), (fbMoveRun tv it).K = (fun _ => c • 1) →
      ∃ obj stop, fbStep (fun K => K⁻¹) tv fbMove it (fbMoveRun tv it) =
        .ok (fbMoveRun tv (it + 1), obj, stop) := by
    intro it c hc
    have h : ∃ r, fbStep (fun K => K⁻¹) tv fbMove it (fbMoveRun tv it) = .ok r := by
      obtain ⟨r, hr⟩ := gammaLoop_ok (fbProx tv fbMove (fbMoveRun tv it).K
          (fun _ => (1 / 2 - c⁻¹ + 1 / 2 * c) • 1))
        (gammaAccept fbMove.choose (fbLoss fbMove) (fbMoveRun tv it).K
          (fun _ => (1 / 2 - c⁻¹ + 1 / 2 * c) • 1) (fbMoveRun tv it).lamda fbMove.delta) fbMove.eps 199
        (if it > 0 then (fbMoveRun tv it).gamma / fbMove.eps else (fbMoveRun tv it).gamma)
      have hdir := fbDirection_gamma tv fbMove it (fbMoveRun tv it) _ rfl r hr
      unfold fbStep
      have hg := fbMove_gradient c
      rw [← hc] at hg
      have hg' : fbGradient fbMove (fbMoveRun tv it).K (fun t => ((fbMoveRun tv it).K t)⁻¹) =
          .ok fun _ => (1 / 2 - c⁻¹ + 1 / 2 * c) • 1 := by
        rw [← hg]
        congr 1
        rw [hc]
      simp only [hg', hdir]
      exact ⟨_, rfl⟩
    obtain ⟨⟨s', obj, stop⟩, hr⟩ := h
    refine ⟨obj, stop, ?_⟩
    rw [hr, fbMoveRun, hr]
  have hgrad : ∀ (it : ℕ) (c : ℝ), (fbMoveRun tv it).K = (fun _ => c • 1) →
      fbGradient fbMove (fbMoveRun tv it).K (fun t => ((fbMoveRun tv it).K t)⁻¹) =
        .ok fun _ => (1 / 2 - c⁻¹ + 1 / 2 * c) • 1 := by
    intro it c hc
    rw [hc]; exact fbMove_gradient c
  have e2 : (1 / 2 - (2 : ℝ)⁻¹ + 1 / 2 * 2) = 1 := by norm_num
  have e1 : (1 / 2 - (1 : ℝ)⁻¹ + 1 / 2 * 1) = 0 := by norm_num
  have hall : ∀ it, (fbMoveRun tv (it + 1)).K = (fun _ => (1 : ℝ) • 1) ∧
      (fbMoveRun tv (it + 1)).lamda = 1 := by
    intro it
    induction it with
    | zero =>
      obtain ⟨obj, stop, hs⟩ := hstep 0 2 rfl
      have hg := hgrad 0 2 rfl
      rw [e2] at hg
      have hadm := fbMove_admissible tv
      obtain ⟨h1, h2, -⟩ := fbStep_pass (fun K => K⁻¹) fbMove rfl 0 _ _ zero_le_one le_rfl _ _ hs _ hg
        ⟨0, by norm_num, by simpa [fbMoveRun] using hadm⟩
      obtain ⟨i, hi, hbad⟩ := h2.found
      have hi0 : i = 0 := by
        by_contra hne
        refine hbad 0 (Nat.pos_of_ne_zero hne) ?_
        simpa [fbMoveRun] using hadm
      rw [hi0] at hi
      have hgam : (fbMoveRun tv (0 + 1)).gamma = 1 := by rw [hi]; simp [fbMoveRun]
      refine ⟨?_, h1⟩
      rw [h2.next, hgam]
      change (fun _ => (2 : ℝ) • 1 : Batch 2 (Fin 1)) + (1 : ℝ) • (fbProx tv fbMove (fun _ => (2 : ℝ) • 1)
        (fun _ => (1 : ℝ) • 1) 1 - fun _ => (2 : ℝ) • 1) = _
      rw [fbMove_prox]
      funext t
      ext i j
      fin_cases i; fin_cases j
      simp
      norm_num
    | succ it ih =>
      obtain ⟨hK, hl⟩ := ih
      obtain ⟨obj, stop, hs⟩ := hstep (it + 1) 1 hK
      have hg := hgrad (it + 1) 1 hK
      rw [e1] at hg
      obtain ⟨h1, h2, -⟩ := fbStep_pass (fun K => K⁻¹) fbMove rfl (it + 1) _ _ (by rw [hl]; exact zero_le_one)
        (by rw [hl]) _ _ hs _ hg
        ⟨0, by norm_num, by rw [hK, hl]; exact fbMove_rest tv _⟩
      refine ⟨?_, h1.trans hl⟩
      rw [h2.next, hK, hl, fbMove_prox]
      funext t
      ext i j
      fin_cases i; fin_cases j
      simp
  refine ⟨⟨rfl, ?_, ?_, ?_⟩, rfl, fun it => (hall it).1⟩
  · intro it
    cases it with
    | zero => exact hstep 0 2 rfl
    | succ it => exact hstep (it + 1) 1 (hall it).1
  · intro it t
    cases it with
    | zero => exact PosDef.one.smul two_pos
    | succ it => rw [(hall it).1]; exact PosDef.one.smul one_pos
  · intro it g hg
    cases it with
    | zero =>
      have h := hgrad 0 2 rfl
      rw [e2] at h
      have : g = fun _ => (1 : ℝ) • 1 := by
        rw [h] at hg
        injection hg with hg
        exact hg.symm
      rw [this]
      exact ⟨0, by norm_num, by simpa [fbMoveRun] using fbMove_admissible tv⟩
    | succ it =>
      have h := hgrad (it + 1) 1 (hall it).1
      rw [e1] at h
      have : g = fun _ => (0 : ℝ) • 1 := by
        rw [h] at hg
        injection hg with hg
        exact hg.symm
      rw [this, (hall it).1, (hall it).2]
      exact ⟨0, by norm_num, fbMove_rest tv _⟩

/-- Non-trivial case for both theorems: the run starts at `2` and ends at the optimum `1`. -/
example : ∃ (tv : (Fin 2 → ℝ) → ℝ → Fin 2 → ℝ) (s : ℕ → FBState 1 (Fin 1)), IsTVSolver tv ∧
    FBGood fbMove (fun _ => 1) ∧ 0 < fbMove.tol ∧ fbMove.debug = false ∧ fbMove.stopAt = none ∧
    FBRun (fun K => K⁻¹) tv fbMove (fun _ => (2 : ℝ) • 1) s ∧ (s 0).K ≠ (s 1).K := by
  obtain ⟨tv, h⟩ := exists_tvSolver 1
  refine ⟨tv, fbMoveRun tv, h, fbMove_good, by norm_num [fbMove], rfl, rfl, (fbMove_run tv).1, ?_⟩
  rw [(fbMove_run tv).2.1, (fbMove_run tv).2.2 0]
  intro he
  have := congrFun (congrFun (congrFun he 0) 0) 0
  norm_num at this

end Verif.Props
