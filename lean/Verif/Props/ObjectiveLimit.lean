import Verif.Props.Objective
import Verif.Props.LatentConv
import Verif.Props.LatentLogdet
import Verif.Props.LatentStatic

/-! Property theorems C132 for the solvers with latent variables: where the objective values of the history
converge to when the runs converge (C155, C156, C158, C161). -/

namespace Verif.Props

open Verif.Model Verif.Spec Verif.Lemmas Matrix Filter Topology

set_option autoImplicit false
set_option linter.unusedSectionVars false

variable {n : Type*} [Fintype n] [DecidableEq n] {k : ℕ} {E : Type*} [Fintype E]

theorem trace_mul_tendsto (S : Matrix n n ℝ) {f : ℕ → Matrix n n ℝ} {X : Matrix n n ℝ}
    (hf : Tendsto f atTop (𝓝 X)) : Tendsto (fun j => trace (S * f j)) atTop (𝓝 (trace (S * X))) :=
  (((continuous_const.matrix_mul continuous_id).matrix_trace : Continuous fun M : Matrix n n ℝ =>
    trace (S * M)).tendsto X).comp hf

theorem trace_tendsto {f : ℕ → Matrix n n ℝ} {X : Matrix n n ℝ}
    (hf : Tendsto f atTop (𝓝 X)) : Tendsto (fun j => trace (f j)) atTop (𝓝 (trace X)) :=
  ((continuous_id.matrix_trace : Continuous fun M : Matrix n n ℝ => trace M).tendsto X).comp hf

theorem logdet_tendsto {f : ℕ → Matrix n n ℝ} {X : Matrix n n ℝ} (hX : X.PosDef)
    (hf : Tendsto f atTop (𝓝 X)) : Tendsto (fun j => Real.log (f j).det) atTop (𝓝 (Real.log X.det)) :=
  (((continuous_id.matrix_det : Continuous fun M : Matrix n n ℝ => M.det).tendsto X).comp hf).log hX.det_pos.ne'

theorem absSumOff_tendsto {f : ℕ → Matrix n n ℝ} {X : Matrix n n ℝ}
    (hf : Tendsto f atTop (𝓝 X)) : Tendsto (fun j => absSumOff (f j)) atTop (𝓝 (absSumOff X)) :=
  (absSumOff_continuous.tendsto X).comp hf

theorem frobSq_tendsto {f : ℕ → Matrix n n ℝ} {X : Matrix n n ℝ}
    (hf : Tendsto f atTop (𝓝 X)) : Tendsto (fun j => frobSq (f j)) atTop (𝓝 (frobSq X)) := by
  have hc : Continuous fun M : Matrix n n ℝ => frobSq M := by
    unfold frobSq
    exact continuous_finsetSum _ fun i _ => continuous_finsetSum _ fun j _ =>
      (continuous_id.matrix_elem i j).pow 2
  exact (hc.tendsto X).comp hf

/-! ### Latent variable graphical lasso -/

/-- The reported values along a run that converges. -/
theorem lgl_reported_limit {eigh : Eigh n} (he : IsEighOracle eigh) {sv : Svdvals n} (hsv : IsSvdOracle sv)
    (a : LGLArgs n) (hS : a.empCov.IsSymm) (hal : 0 ≤ a.alpha)
    (hi : a.rhoOptions.tauInc = 1) (hd : a.rhoOptions.tauDec = 1) (K0 : Matrix n n ℝ) {rho : ℝ} (hr : 0 < rho)
    {Kl Ll : Matrix n n ℝ} (hpd : (Kl - Ll).PosDef)
    (hR : Tendsto (fun j => (lglState eigh a K0 rho j).Rold) atTop (𝓝 (Kl - Ll)))
    (hK : Tendsto (fun j => (lglState eigh a K0 rho j).K) atTop (𝓝 Kl))
    (hL : Tendsto (fun j => (lglState eigh a K0 rho j).L) atTop (𝓝 Ll)) :
    ∃ v : ℕ → ℝ, (∀ j, lglReported eigh sv a (lglState eigh a K0 rho j) = .fin (v j)) ∧
      Tendsto v atTop (𝓝 (latentObjective a.empCov a.alpha a.tau absSumOff (Kl, Ll))) := by
  have sh : ∀ {f : ℕ → Matrix n n ℝ} {X : Matrix n n ℝ}, Tendsto f atTop (𝓝 X) →
      Tendsto (fun j => f (j + 1)) atTop (𝓝 X) := fun h => h.comp (tendsto_add_atTop_nat 1)
  refine ⟨fun j => trace (a.empCov * (lglState eigh a K0 rho (j + 1)).Rold)
    - Real.log (lglState eigh a K0 rho (j + 1)).Rold.det + a.alpha * absSumOff (lglState eigh a K0 rho (j + 1)).K
    + a.tau * trace (lglState eigh a K0 rho (j + 1)).L, fun j => ?_, ?_⟩
  · have hrho := lglState_rho eigh hi hd K0 rho j
    beta_reduce
    rw [lglState_succ eigh hi hd K0 hr.ne' j]
    set s := lglState eigh a K0 rho j with hs
    unfold lglReported lglObjectiveCode
    simp only [hrho]
    set R := lglR eigh a.empCov rho s.K s.L s.U with hRd
    have h1 : R.PosDef := glK_posDef he hS hr (s.K - s.L) s.U
    have h2 : (lglL eigh a.tau rho (lglK a.alpha rho s.L R s.U) R s.U).PosSemidef :=
      lglL_posSemidef eigh a.tau rho _ R s.U
    rw [glObjectiveCode_pos hS h1, nucNorm_psd hsv h2, abs_of_nonneg hal]
    rfl
  · unfold latentObjective
    exact (((trace_mul_tendsto _ (sh hR)).sub (logdet_tendsto hpd (sh hR))).add
      ((absSumOff_tendsto (sh hK)).const_mul _)).add ((trace_tendsto (sh hL)).const_mul _)

/-- C132 (latent graphical lasso, limit): with `tau ≥ d alpha` and any constant penalty all objective values of the
history are finite and they tend to the documented objective of the limit `(X, 0)` of the returned pair, which
minimises the problem that the iteration solves (with the full l1 norm, C161). -/
theorem C132_latent_limit [Nonempty n] {eigh : Eigh n} (he : IsEighOracle eigh) {sv : Svdvals n} (hsv : IsSvdOracle sv)
    (a : LGLArgs n) (hS : a.empCov.PosSemidef) (hal : 0 < a.alpha) (ht : Fintype.card n * a.alpha ≤ a.tau)
    (hi : a.rhoOptions.tauInc = 1) (hd : a.rhoOptions.tauDec = 1) (K0 : Matrix n n ℝ) {rho : ℝ} (hr : 0 < rho) :
    ∃ (X : Matrix n n ℝ) (v : ℕ → ℝ),
      IsMin (LatentFeasible n) (latentObjective a.empCov a.alpha a.tau absSumMat) (X, 0) ∧
      Tendsto (fun j => (stateAt (lglBody eigh a) (lglInit K0 rho) j).K) atTop (𝓝 X) ∧
      (∀ j, (stateAt (lglBody eigh a) (lglInit K0 rho) j).L = 0) ∧
      (∀ j, lglReported eigh sv a (stateAt (lglBody eigh a) (lglInit K0 rho) j) = .fin (v j)) ∧
      Tendsto v atTop (𝓝 (latentObjective a.empCov a.alpha a.tau absSumOff (X, 0))) := by
  obtain ⟨X, -, hmin, hR, hK, hL⟩ := noLatent_limits he a hS hal ht hi hd K0 hr
  obtain ⟨v, h1, h2⟩ := lgl_reported_limit he hsv a hS.isSymm' hal.le hi hd K0 hr (Kl := X) (Ll := 0) hmin.1.1
    (by rw [sub_zero]; exact hR) hK (by simp only [hL]; exact tendsto_const_nhds)
  exact ⟨X, v, hmin, hK, hL, h1, h2⟩

/-- C132 (latent graphical lasso, limit, part proved): the same for every `tau ≥ 0` under the hypotheses of
`C161_converges_partial`. MISSING: that the computed `R` stay bounded by such a `c`. -/
theorem C132_latent_limit_partial [Nonempty n] {eigh : Eigh n} (he : IsEighOracle eigh) {sv : Svdvals n}
    (hsv : IsSvdOracle sv) (a : LGLArgs n) (hS : a.empCov.PosSemidef) (hal : 0 < a.alpha) (hta : 0 ≤ a.tau)
    (hi : a.rhoOptions.tauInc = 1) (hd : a.rhoOptions.tauDec = 1) (K0 : Matrix n n ℝ) {rho : ℝ} (hr : 0 < rho)
    {c b : ℝ} (hc : 0 < c) (hb : 0 < b) (hrc : rho * (c * b) < 2)
    (hopt : ∀ p, IsMin (LatentFeasible n) (latentObjective a.empCov a.alpha a.tau absSumMat) p →
      (b • 1 - (p.1 - p.2)).PosSemidef)
    (hbd : ∀ᶠ j in atTop, (c • 1 - (stateAt (lglBody eigh a) (lglInit K0 rho) j).Rold).PosSemidef) :
    ∃ (p : Matrix n n ℝ × Matrix n n ℝ) (v : ℕ → ℝ),
      IsMin (LatentFeasible n) (latentObjective a.empCov a.alpha a.tau absSumMat) p ∧
      Tendsto (fun j => (stateAt (lglBody eigh a) (lglInit K0 rho) j).K) atTop (𝓝 p.1) ∧
      Tendsto (fun j => (stateAt (lglBody eigh a) (lglInit K0 rho) j).L) atTop (𝓝 p.2) ∧
      (∀ j, lglReported eigh sv a (stateAt (lglBody eigh a) (lglInit K0 rho) j) = .fin (v j)) ∧
      Tendsto v atTop (𝓝 (latentObjective a.empCov a.alpha a.tau absSumOff p)) := by
  obtain ⟨p, hmin, hR, hK, hL⟩ := lgl_limits he a hS hal hta hi hd K0 hr hc hb hrc hopt hbd
  obtain ⟨v, h1, h2⟩ := lgl_reported_limit he hsv a hS.isSymm' hal.le hi hd K0 hr (Kl := p.1) (Ll := p.2) hmin.1.1
    hR hK hL
  exact ⟨p, v, hmin, hK, hL, h1, h2⟩

/-! ### Infimal convolution -/

/-- C132 (infimal convolution, limit): with a constant penalty below 2 the returned pairs converge to a minimiser of
the problem solved (C155), and the objective values of the history to the documented objective of that limit. -/
theorem C132_infimal_limit [Nonempty n] {eigh : Eigh n} (he : IsEighOracle eigh) {sv : Svdvals n}
    (hsv : IsSvdOracle sv) (a : InfArgs n) (hS : a.S.IsSymm) (hal : 0 < a.alpha) (hta : 0 ≤ a.tau)
    (hi : a.rhoOptions.tauInc = 1) (hd : a.rhoOptions.tauDec = 1) {rho : ℝ} (hr : 0 < rho) (hr2 : rho < 2) :
    ∃ p : Matrix n n ℝ × Matrix n n ℝ,
      IsMin {p | p.2.PosSemidef} (squareLatentObjective a.S a.alpha a.tau absSumMat) p ∧
      Tendsto (fun j => (stateAt (infBody eigh a) ⟨0, 0, 0, 0, rho⟩ j).K) atTop (𝓝 p.1) ∧
      Tendsto (fun j => (stateAt (infBody eigh a) ⟨0, 0, 0, 0, rho⟩ j).L) atTop (𝓝 p.2) ∧
      Tendsto (fun j => infReported eigh sv a (stateAt (infBody eigh a) ⟨0, 0, 0, 0, rho⟩ j)) atTop
        (𝓝 (squareLatentObjective a.S a.alpha a.tau absSumOff p)) := by
  have c0 : ConvexFam fun _ : Empty → Matrix n n ℝ => (0 : ℝ) := fun X Y t _ _ => by simp
  obtain ⟨lim, hlim, hR, hT⟩ := sq_main (c := 1 / 2) (by norm_num) hal hta (fun _ => le_rfl) (fun _ => le_rfl)
    continuous_const continuous_const c0 c0 hr (by linarith) (inf_pass he a hS hal hr)
  obtain ⟨hmin, -⟩ := sq_min_of_pass (by norm_num : (0 : ℝ) < 1 / 2) hlim
  have hfR : lim.R () = lim.Z () - lim.W () := congrFun hlim.penalties.1 ()
  have hobj : ∀ p : (Unit → Matrix n n ℝ) × (Unit → Matrix n n ℝ),
      sqObj (fun e : Empty => e.elim) (fun _ => a.S) (1 / 2) a.alpha a.tau (fun _ => 0) (fun _ => 0) p =
      squareLatentObjective a.S a.alpha a.tau absSumMat (p.1 (), p.2 ()) := by
    intro p
    unfold sqObj latPen squareLatentObjective famSq
    simp only [Fintype.sum_unique, add_zero]
    rw [← add_assoc]
    rfl
  have hR1 : Tendsto (fun j => (infIter eigh a rho j).Rold) atTop (𝓝 (lim.R ())) :=
    ((continuous_apply ()).tendsto lim.R).comp hR
  have hK1 : Tendsto (fun j => (infIter eigh a rho j).K) atTop (𝓝 (lim.Z ())) :=
    ((continuous_apply ()).tendsto lim.Z).comp hT.z
  have hL1 : Tendsto (fun j => (infIter eigh a rho j).L) atTop (𝓝 (lim.W ())) :=
    ((continuous_apply ()).tendsto lim.W).comp hT.w
  simp only [stateAt_inf eigh hi hd hr.ne']
  have sh : ∀ {f : ℕ → Matrix n n ℝ} {X : Matrix n n ℝ}, Tendsto f atTop (𝓝 X) →
      Tendsto (fun j => f (j + 1)) atTop (𝓝 X) := fun h => h.comp (tendsto_add_atTop_nat 1)
  refine ⟨(lim.Z (), lim.W ()), ⟨hmin.1 (), fun q hq => ?_⟩, hK1, hL1, ?_⟩
  · have h := hmin.2 (fun _ => q.1, fun _ => q.2) fun _ => hq
    rw [hobj, hobj] at h
    exact h
  · have hrep : ∀ j, infReported eigh sv a (infIter eigh a rho j) =
        1 / 2 * frobSq (a.S - (infIter eigh a rho (j + 1)).Rold)
          + a.alpha * absSumOff (infIter eigh a rho (j + 1)).K + a.tau * trace (infIter eigh a rho (j + 1)).L := by
      intro j
      rw [infIter_succ]
      set s := infIter eigh a rho j
      have h2 : (infL eigh a.tau s.rho (infK a.alpha s.rho s.L (infR a.S s.rho s.K s.L s.U) s.U)
          (infR a.S s.rho s.K s.L s.U) s.U).PosSemidef := recompose_posSemidef _ fun _ => le_max_right _ _
      unfold infReported infObjectiveCode
      simp only
      rw [nucNorm_psd hsv h2, l1OdNorm_eq]
      rfl
    simp only [hrep]
    unfold squareLatentObjective
    simp only
    rw [← hfR]
    exact (((frobSq_tendsto (tendsto_const_nhds.sub (sh hR1))).const_mul _).add
      ((absSumOff_tendsto (sh hK1)).const_mul _)).add ((trace_tendsto (sh hL1)).const_mul _)

/-! ### Time-varying solvers -/

/-- The penalties of the reported values along a run that converges. -/
theorem lt_penalties_limit (g : TimePairs k E) (a : LTArgs k E n) {psi phi : Matrix n n ℝ → ℝ}
    (cpsi : Continuous psi) (cphi : Continuous phi) {s : ℕ → LTState k E n} {lim : LSt (Fin k) (E ⊕ E) n}
    (hZP : lim.ZP = pull (pairEp g) lim.Z) (hWP : lim.WP = pull (pairEp g) lim.W)
    (hT : LTends (fun j => ltLSt (s j)) (fun j => j) lim) :
    Tendsto (fun j => a.alpha * ∑ t, absSumOff ((s j).Z0 t)) atTop (𝓝 (a.alpha * ∑ t, absSumOff (lim.Z t))) ∧
    Tendsto (fun j => a.tau * ∑ t, trace ((s j).W0 t)) atTop (𝓝 (a.tau * ∑ t, trace (lim.W t))) ∧
    Tendsto (fun j => ∑ e, psi ((s j).ZR e - (s j).ZL e) * a.wPsi e) atTop
      (𝓝 (∑ e, psi (lim.Z (g.dst e) - lim.Z (g.src e)) * a.wPsi e)) ∧
    Tendsto (fun j => ∑ e, phi ((s j).WR e - (s j).WL e) * a.wPhi e) atTop
      (𝓝 (∑ e, phi (lim.W (g.dst e) - lim.W (g.src e)) * a.wPhi e)) := by
  have hZ : ∀ t, Tendsto (fun j => (s j).Z0 t) atTop (𝓝 (lim.Z t)) := fun t =>
    ((continuous_apply t).tendsto lim.Z).comp hT.z
  have hW : ∀ t, Tendsto (fun j => (s j).W0 t) atTop (𝓝 (lim.W t)) := fun t =>
    ((continuous_apply t).tendsto lim.W).comp hT.w
  have hZR : ∀ e, Tendsto (fun j => (s j).ZR e) atTop (𝓝 (lim.Z (g.dst e))) := fun e => by
    have h := ((continuous_apply (Sum.inr e)).tendsto lim.ZP).comp hT.zp
    rw [hZP] at h
    exact h
  have hZL : ∀ e, Tendsto (fun j => (s j).ZL e) atTop (𝓝 (lim.Z (g.src e))) := fun e => by
    have h := ((continuous_apply (Sum.inl e)).tendsto lim.ZP).comp hT.zp
    rw [hZP] at h
    exact h
  have hWR : ∀ e, Tendsto (fun j => (s j).WR e) atTop (𝓝 (lim.W (g.dst e))) := fun e => by
    have h := ((continuous_apply (Sum.inr e)).tendsto lim.WP).comp hT.wp
    rw [hWP] at h
    exact h
  have hWL : ∀ e, Tendsto (fun j => (s j).WL e) atTop (𝓝 (lim.W (g.src e))) := fun e => by
    have h := ((continuous_apply (Sum.inl e)).tendsto lim.WP).comp hT.wp
    rw [hWP] at h
    exact h
  exact ⟨(tendsto_finsetSum _ fun t _ => absSumOff_tendsto (hZ t)).const_mul _,
    (tendsto_finsetSum _ fun t _ => trace_tendsto (hW t)).const_mul _,
    tendsto_finsetSum _ fun e _ => ((cpsi.tendsto _).comp ((hZR e).sub (hZL e))).mul_const _,
    tendsto_finsetSum _ fun e _ => ((cphi.tendsto _).comp ((hWR e).sub (hWL e))).mul_const _⟩

/-- The reported values of the solvers with the log-likelihood along a run that converges. -/
theorem lt_reported_limit {eigh : Eigh n} (he : IsEighOracle eigh) {sv : Svdvals n} (hsv : IsSvdOracle sv)
    (g : TimePairs k E) (a : LTArgs k E n) {psi phi : Matrix n n ℝ → ℝ} (cpsi : Continuous psi) (cphi : Continuous phi)
    (hS : ∀ t, (a.empCov t).IsSymm) (hn : ∀ t, 0 < a.nSamples t) (K0 : Batch k n) {rho : ℝ} (hr : 0 < rho)
    {lim : LSt (Fin k) (E ⊕ E) n} (hpd : ∀ t, (lim.Z t - lim.W t).PosDef) (hfR : lim.R = lim.Z - lim.W)
    (hZP : lim.ZP = pull (pairEp g) lim.Z) (hWP : lim.WP = pull (pairEp g) lim.W)
    (hR : Tendsto (fun j => (ltLSt (ltIter eigh (ltLogdetR eigh a) g a K0 rho j)).R) atTop (𝓝 lim.R))
    (hT : LTends (fun j => ltLSt (ltIter eigh (ltLogdetR eigh a) g a K0 rho j)) (fun j => j) lim) :
    ∃ v : ℕ → ℝ,
      (∀ j, ltReported eigh sv g a psi phi (ltIter eigh (ltLogdetR eigh a) g a K0 rho j) = .fin (v j)) ∧
      Tendsto v atTop (𝓝 (negLogLik a.empCov a.nSamples (fun t => lim.Z t - lim.W t)
        + a.alpha * ∑ t, absSumOff (lim.Z t) + a.tau * ∑ t, trace (lim.W t)
        + ∑ e, psi (lim.Z (g.dst e) - lim.Z (g.src e)) * a.wPsi e
        + ∑ e, phi (lim.W (g.dst e) - lim.W (g.src e)) * a.wPhi e)) := by
  set s := fun j => ltIter eigh (ltLogdetR eigh a) g a K0 rho j with hs
  have sh : ∀ {f : ℕ → ℝ} {x : ℝ}, Tendsto f atTop (𝓝 x) →
      Tendsto (fun j => f (j + 1)) atTop (𝓝 x) := fun h => h.comp (tendsto_add_atTop_nat 1)
  obtain ⟨t1, t2, t3, t4⟩ := lt_penalties_limit g a cpsi cphi hZP hWP hT
  have hR1 : ∀ t, Tendsto (fun j => (s j).Rold t) atTop (𝓝 (lim.Z t - lim.W t)) := fun t => by
    have h := ((continuous_apply t).tendsto lim.R).comp hR
    rw [hfR] at h
    exact h
  have hL : Tendsto (fun j => negLogLik a.empCov a.nSamples (s j).Rold) atTop
      (𝓝 (negLogLik a.empCov a.nSamples fun t => lim.Z t - lim.W t)) := by
    unfold negLogLik
    exact tendsto_finsetSum _ fun t _ => ((trace_mul_tendsto _ (hR1 t)).sub (logdet_tendsto (hpd t) (hR1 t))).const_mul _
  refine ⟨fun j => negLogLik a.empCov a.nSamples (s (j + 1)).Rold + a.alpha * ∑ t, absSumOff ((s (j + 1)).Z0 t)
    + a.tau * ∑ t, trace ((s (j + 1)).W0 t) + ∑ e, psi ((s (j + 1)).ZR e - (s (j + 1)).ZL e) * a.wPsi e
    + ∑ e, phi ((s (j + 1)).WR e - (s (j + 1)).WL e) * a.wPhi e, fun j => ?_,
    ((((sh hL).add (sh t1)).add (sh t2)).add (sh t3)).add (sh t4)⟩
  have e : s (j + 1) = ltNext eigh (ltLogdetR eigh a) g a (s j) := ltIter_succ _ _ _ _ _ _ _
  have hrho : (s j).rho = rho := ltIter_rho _ _ _ _ _ _ _
  have hp : ∀ t, ((s (j + 1)).Rold t).PosDef := fun t => by
    rw [e]
    exact (logdetStep_spec he (hS t) (hn t) (by rw [hrho]; exact hr) _).1
  have hpsd : ∀ t, ((s (j + 1)).W0 t).PosSemidef := fun t => by
    rw [e]; exact ltNext_W0_posSemidef eigh _ g a (s j) t
  change ltObjectiveCode sv a psi phi (ltNext eigh (ltLogdetR eigh a) g a (s j)).Rold _ = _
  rw [← e]
  unfold ltObjectiveCode
  rw [tglLoss_posDef hS fun t => (hp t).det_pos]
  simp only [l1OdNorm_eq, nucNorm_psd hsv (hpsd _), XF.add]
  congr 1
  ring

/-- C132 (latent variable time-varying graphical lasso, limit, part proved): under the hypotheses of
`C158_chain_partial` the returned pairs converge to a minimiser of the problem solved, all objective values of the
history are finite and they tend to the documented objective of that limit. MISSING: that the computed `R` stay
bounded by such a `c`. -/
theorem C132_latent_time_limit_partial [Nonempty n] {T : ℕ} {eigh : Eigh n} (he : IsEighOracle eigh)
    {sv : Svdvals n} (hsv : IsSvdOracle sv)
    (o : LTOptions (T + 1) n) {beta eta : ℝ} (hS : ∀ t, (o.empCov t).PosSemidef) {m : ℝ} (hm : 0 < m)
    (hn : ∀ t, m ≤ o.nSamples t) (hal : 0 < o.alpha) (hta : 0 ≤ o.tau) (hbe : 0 ≤ beta) (het : 0 ≤ eta)
    {psi phi : Matrix n n ℝ → ℝ} (cpsi : ConvexPen psi) (cphi : ConvexPen phi)
    (ppsi : IsProxOf psi o.proxPsi) (pphi : IsProxOf phi o.proxPhi) (npsi : ∀ X, 0 ≤ psi X) (nphi : ∀ X, 0 ≤ phi X)
    (hi : o.rhoOptions.tauInc = 1) (hd : o.rhoOptions.tauDec = 1) (K0 : Batch (T + 1) n) {rho : ℝ} (hr : 0 < rho)
    {c b : ℝ} (hc : 0 < c) (hb : 0 < b) (hrc : rho * (c * b) < 2 * m)
    (hopt : ∀ p, IsMin (LatentSeqFeasible (T + 1) n)
      (latentTimeObjective o.empCov o.nSamples o.alpha o.tau beta eta absSumMat psi phi) p →
      ∀ t, (b • 1 - (p.1 t - p.2 t)).PosSemidef)
    (hbd : ∀ᶠ j in atTop, ∀ t, (c • 1 - (stateAt (ltBody eigh (ltLogdetR eigh (chainArgs o beta eta)) (chainPairs T)
      (chainArgs o beta eta)) (ltInit (chainPairs T) K0 rho) j).Rold t).PosSemidef) :
    let s := stateAt (ltBody eigh (ltLogdetR eigh (chainArgs o beta eta)) (chainPairs T) (chainArgs o beta eta))
      (ltInit (chainPairs T) K0 rho)
    ∃ (p : Batch (T + 1) n × Batch (T + 1) n) (v : ℕ → ℝ), IsMin (LatentSeqFeasible (T + 1) n)
        (latentTimeObjective o.empCov o.nSamples o.alpha o.tau beta eta absSumMat psi phi) p ∧
      Tendsto (fun j => (s j).Z0) atTop (𝓝 p.1) ∧ Tendsto (fun j => (s j).W0) atTop (𝓝 p.2) ∧
      (∀ j, ltReported eigh sv (chainPairs T) (chainArgs o beta eta) psi phi (s j) = .fin (v j)) ∧
      Tendsto v atTop
        (𝓝 (latentTimeObjective o.empCov o.nSamples o.alpha o.tau beta eta absSumOff psi phi p)) := by
  have hst : ∀ j, stateAt (ltBody eigh (ltLogdetR eigh (chainArgs o beta eta)) (chainPairs T) (chainArgs o beta eta))
      (ltInit (chainPairs T) K0 rho) j = _ :=
    stateAt_lt eigh (ltLogdetR eigh (chainArgs o beta eta)) (chainPairs T) (a := chainArgs o beta eta) hi hd K0 hr.ne'
  simp only [hst] at hbd ⊢
  obtain ⟨lim, hmin, hfR, hZP, hWP, hR, hT⟩ := ltLogdet_limits he (chainArgs o beta eta) hS hm hn covers_chain
    tglDivisor_pos hal hta (fun _ => hbe) (fun _ => het) cpsi cphi ppsi pphi npsi nphi K0 hr hc hb hrc
    (obj := latentTimeObjective o.empCov o.nSamples o.alpha o.tau beta eta absSumMat psi phi) (by
      funext p
      rw [ldObj_pair]
      unfold latentTimeObjective chainCoupling
      simp only [chainPairs, chainArgs]
      rw [← Finset.mul_sum, ← Finset.mul_sum]
      ring) hopt hbd
  obtain ⟨v, h1, h2⟩ := lt_reported_limit he hsv (chainPairs T) (chainArgs o beta eta) (ConvexPen.continuous cpsi)
    (ConvexPen.continuous cphi) (fun t => (hS t).isSymm') (fun t => hm.trans_le (hn t)) K0 hr
    (fun t => (hmin.1 t).1) hfR hZP hWP hR hT
  refine ⟨(lim.Z, lim.W), v, hmin, hT.z, hT.w, h1, ?_⟩
  refine h2.trans_eq ?_
  unfold latentTimeObjective chainCoupling
  rw [Finset.mul_sum Finset.univ _ beta, Finset.mul_sum Finset.univ _ eta]
  simp only [mul_comm beta, mul_comm eta]
  rfl

/-- C132 (kernel latent variable time-varying graphical lasso, limit, part proved): the same under the hypotheses of
`C158_kernel_partial`. -/
theorem C132_kernel_latent_limit_partial [Nonempty n] (hk : 0 < k) {eigh : Eigh n} (he : IsEighOracle eigh)
    {sv : Svdvals n} (hsv : IsSvdOracle sv)
    (o : LTOptions k n) (kpsi kphi : Option (Fin k → Fin k → ℝ)) (hpsi : ∀ s t, s < t → 0 ≤ kernelOf kpsi s t)
    (hphi : ∀ s t, s < t → 0 ≤ kernelOf kphi s t)
    (hS : ∀ t, (o.empCov t).PosSemidef) {m : ℝ} (hm : 0 < m)
    (hn : ∀ t, m ≤ o.nSamples t) (hal : 0 < o.alpha) (hta : 0 ≤ o.tau)
    {psi phi : Matrix n n ℝ → ℝ} (cpsi : ConvexPen psi) (cphi : ConvexPen phi)
    (ppsi : IsProxOf psi o.proxPsi) (pphi : IsProxOf phi o.proxPhi) (npsi : ∀ X, 0 ≤ psi X) (nphi : ∀ X, 0 ≤ phi X)
    (hi : o.rhoOptions.tauInc = 1) (hd : o.rhoOptions.tauDec = 1) (K0 : Batch k n) {rho : ℝ} (hr : 0 < rho)
    {c b : ℝ} (hc : 0 < c) (hb : 0 < b) (hrc : rho * (c * b) < 2 * m)
    (hopt : ∀ p, IsMin (LatentSeqFeasible k n)
      (kernelLatentObjective o.empCov o.nSamples o.alpha o.tau (kernelOf kpsi) (kernelOf kphi) absSumMat psi phi) p →
      ∀ t, (b • 1 - (p.1 t - p.2 t)).PosSemidef)
    (hbd : ∀ᶠ j in atTop, ∀ t, (c • 1 - (stateAt (ltBody eigh (ltLogdetR eigh (kernelArgs o kpsi kphi)) (allPairs k)
      (kernelArgs o kpsi kphi)) (ltInit (allPairs k) K0 rho) j).Rold t).PosSemidef) :
    let s := stateAt (ltBody eigh (ltLogdetR eigh (kernelArgs o kpsi kphi)) (allPairs k) (kernelArgs o kpsi kphi))
      (ltInit (allPairs k) K0 rho)
    ∃ (p : Batch k n × Batch k n) (v : ℕ → ℝ), IsMin (LatentSeqFeasible k n)
        (kernelLatentObjective o.empCov o.nSamples o.alpha o.tau (kernelOf kpsi) (kernelOf kphi) absSumMat psi phi) p ∧
      Tendsto (fun j => (s j).Z0) atTop (𝓝 p.1) ∧ Tendsto (fun j => (s j).W0) atTop (𝓝 p.2) ∧
      (∀ j, ltReported eigh sv (allPairs k) (kernelArgs o kpsi kphi) psi phi (s j) = .fin (v j)) ∧
      Tendsto v atTop (𝓝 (kernelLatentObjective o.empCov o.nSamples o.alpha o.tau (kernelOf kpsi) (kernelOf kphi)
        absSumOff psi phi p)) := by
  have hst : ∀ j, stateAt (ltBody eigh (ltLogdetR eigh (kernelArgs o kpsi kphi)) (allPairs k) (kernelArgs o kpsi kphi))
      (ltInit (allPairs k) K0 rho) j = _ :=
    stateAt_lt eigh (ltLogdetR eigh (kernelArgs o kpsi kphi)) (allPairs k) (a := kernelArgs o kpsi kphi) hi hd K0 hr.ne'
  simp only [hst] at hbd ⊢
  obtain ⟨lim, hmin, hfR, hZP, hWP, hR, hT⟩ := ltLogdet_limits he (kernelArgs o kpsi kphi) hS hm hn covers_all
    (fun _ => by
      have : (0 : ℝ) < k := by exact_mod_cast hk
      exact this) hal hta (kernelWeight_nonneg hpsi) (kernelWeight_nonneg hphi) cpsi cphi ppsi pphi npsi nphi K0 hr
    hc hb hrc (kernelObj_eq _ _ _ _ _ _ _ _) hopt hbd
  obtain ⟨v, h1, h2⟩ := lt_reported_limit he hsv (allPairs k) (kernelArgs o kpsi kphi) (ConvexPen.continuous cpsi)
    (ConvexPen.continuous cphi) (fun t => (hS t).isSymm') (fun t => hm.trans_le (hn t)) K0 hr
    (fun t => (hmin.1 t).1) hfR hZP hWP hR hT
  refine ⟨(lim.Z, lim.W), v, hmin, hT.z, hT.w, h1, ?_⟩
  refine h2.trans_eq ?_
  unfold kernelLatentObjective
  rw [kernelCoupling_eq, kernelCoupling_eq]
  simp only [mul_comm (kernelWeight kpsi _), mul_comm (kernelWeight kphi _)]
  rfl

/-- C132 (latent variable time-varying matrix decomposition, limit): with a constant penalty below 4 the returned
pairs converge to a minimiser of the problem solved (C156), and the objective values of the history to the documented
objective of that limit. -/
theorem C132_decomposition_limit [Nonempty n] {T : ℕ} {eigh : Eigh n} (he : IsEighOracle eigh)
    {sv : Svdvals n} (hsv : IsSvdOracle sv)
    (o : LTOptions (T + 1) n) {beta eta : ℝ} (hal : 0 < o.alpha) (hta : 0 ≤ o.tau) (hbe : 0 ≤ beta) (het : 0 ≤ eta)
    {psi phi : Matrix n n ℝ → ℝ} (cpsi : ConvexPen psi) (cphi : ConvexPen phi)
    (ppsi : IsProxOf psi o.proxPsi) (pphi : IsProxOf phi o.proxPhi) (npsi : ∀ X, 0 ≤ psi X) (nphi : ∀ X, 0 ≤ phi X)
    (hi : o.rhoOptions.tauInc = 1) (hd : o.rhoOptions.tauDec = 1) {rho : ℝ} (hr : 0 < rho) (hr4 : rho < 4) :
    let s := stateAt (ltBody eigh (ltSquareR (chainArgs o beta eta)) (chainPairs T) (chainArgs o beta eta))
      (ltInit (chainPairs T) 0 rho)
    ∃ p : Batch (T + 1) n × Batch (T + 1) n,
      IsMin (PSDSecond (T + 1) n) (decompositionObjective o.empCov o.alpha o.tau beta eta absSumMat psi phi) p ∧
      Tendsto (fun j => (s j).Z0) atTop (𝓝 p.1) ∧ Tendsto (fun j => (s j).W0) atTop (𝓝 p.2) ∧
      Tendsto (fun j => ltSquareReported eigh sv (chainPairs T) (chainArgs o beta eta) psi phi (s j)) atTop
        (𝓝 (decompositionObjective o.empCov o.alpha o.tau beta eta absSumOff psi phi p)) := by
  have hst : ∀ j, stateAt (ltBody eigh (ltSquareR (chainArgs o beta eta)) (chainPairs T) (chainArgs o beta eta))
      (ltInit (chainPairs T) 0 rho) j = _ :=
    stateAt_lt eigh (ltSquareR (chainArgs o beta eta)) (chainPairs T) (a := chainArgs o beta eta) hi hd 0 hr.ne'
  simp only [hst]
  have hpass := decomposition_pass he o hal hbe het cpsi cphi ppsi pphi hr
  set a := chainArgs o beta eta with ha
  set g := chainPairs T with hg
  have hw : ∀ e, 0 ≤ a.wPsi e := fun _ => hbe
  have hv : ∀ e, 0 ≤ a.wPhi e := fun _ => het
  obtain ⟨lim, hlim, hR, hT⟩ := sq_main (c := 1) one_pos hal hta (pairFam_nonneg hw npsi) (pairFam_nonneg hv nphi)
    (pairFam_continuous _ cpsi) (pairFam_continuous _ cphi) (pairFam_convex hw cpsi) (pairFam_convex hv cphi)
    hr (by linarith) hpass
  obtain ⟨hmin, -⟩ := sq_min_of_pass one_pos hlim
  have hfR := hlim.penalties.1
  have hZP : lim.ZP = pull (pairEp g) lim.Z := by
    have := hlim.xp
    rw [left_eq_add, sub_eq_zero] at this
    exact this.symm
  have hWP : lim.WP = pull (pairEp g) lim.W := by
    have := hlim.up
    rw [left_eq_add, sub_eq_zero] at this
    exact this.symm
  have hobj : decompositionObjective o.empCov o.alpha o.tau beta eta absSumMat psi phi =
      sqObj (pairEp g) o.empCov 1 o.alpha o.tau (pairPen a.wPsi psi) (pairPen a.wPhi phi) := by
    funext p
    have e1 : famSq (o.empCov - (p.1 - p.2)) = ∑ t, frobSq (o.empCov t - (p.1 t - p.2 t)) := rfl
    have e2 : pairPen a.wPsi psi (pull (pairEp g) p.1) = beta * chainCoupling psi p.1 := by
      unfold pairPen chainCoupling
      rw [Finset.mul_sum]
      rfl
    have e3 : pairPen a.wPhi phi (pull (pairEp g) p.2) = eta * chainCoupling phi p.2 := by
      unfold pairPen chainCoupling
      rw [Finset.mul_sum]
      rfl
    unfold decompositionObjective sqObj latPen
    rw [e1, e2, e3]
    ring
  obtain ⟨t1, t2, t3, t4⟩ := lt_penalties_limit g a (ConvexPen.continuous cpsi) (ConvexPen.continuous cphi) hZP hWP hT
  refine ⟨(lim.Z, lim.W), by rw [hobj]; exact hmin, hT.z, hT.w, ?_⟩
  have sh : ∀ {f : ℕ → ℝ} {x : ℝ}, Tendsto f atTop (𝓝 x) →
      Tendsto (fun j => f (j + 1)) atTop (𝓝 x) := fun h => h.comp (tendsto_add_atTop_nat 1)
  have hR1 : ∀ t, Tendsto (fun j => (ltIter eigh (ltSquareR a) g a 0 rho j).Rold t) atTop
      (𝓝 (lim.Z t - lim.W t)) := fun t => by
    have h := ((continuous_apply t).tendsto lim.R).comp hR
    rw [hfR] at h
    exact h
  have hL : Tendsto (fun j => ∑ t, frobSq (a.empCov t - (ltIter eigh (ltSquareR a) g a 0 rho j).Rold t)) atTop
      (𝓝 (∑ t, frobSq (a.empCov t - (lim.Z t - lim.W t)))) :=
    tendsto_finsetSum _ fun t _ => frobSq_tendsto (tendsto_const_nhds.sub (hR1 t))
  have hrep : ∀ j, ltSquareReported eigh sv g a psi phi (ltIter eigh (ltSquareR a) g a 0 rho j) =
      (∑ t, frobSq (a.empCov t - (ltIter eigh (ltSquareR a) g a 0 rho (j + 1)).Rold t))
        + a.alpha * ∑ t, absSumOff ((ltIter eigh (ltSquareR a) g a 0 rho (j + 1)).Z0 t)
        + a.tau * ∑ t, trace ((ltIter eigh (ltSquareR a) g a 0 rho (j + 1)).W0 t)
        + ∑ e, psi ((ltIter eigh (ltSquareR a) g a 0 rho (j + 1)).ZR e
          - (ltIter eigh (ltSquareR a) g a 0 rho (j + 1)).ZL e) * a.wPsi e
        + ∑ e, phi ((ltIter eigh (ltSquareR a) g a 0 rho (j + 1)).WR e
          - (ltIter eigh (ltSquareR a) g a 0 rho (j + 1)).WL e) * a.wPhi e := by
    intro j
    have e : ltIter eigh (ltSquareR a) g a 0 rho (j + 1) = ltNext eigh (ltSquareR a) g a
      (ltIter eigh (ltSquareR a) g a 0 rho j) := ltIter_succ _ _ _ _ _ _ _
    have hpsd : ∀ t, ((ltIter eigh (ltSquareR a) g a 0 rho (j + 1)).W0 t).PosSemidef := fun t => by
      rw [e]; exact ltNext_W0_posSemidef eigh _ g a _ t
    change ltSquareObjectiveCode sv a psi phi (ltNext eigh (ltSquareR a) g a _).Rold _ = _
    rw [← e]
    unfold ltSquareObjectiveCode
    simp only [l1OdNorm_eq, nucNorm_psd hsv (hpsd _)]
    rfl
  simp only [hrep]
  refine (((((sh hL).add (sh t1)).add (sh t2)).add (sh t3)).add (sh t4)).trans_eq ?_
  congr 1
  unfold decompositionObjective chainCoupling
  rw [Finset.mul_sum Finset.univ _ beta, Finset.mul_sum Finset.univ _ eta]
  simp only [mul_comm beta, mul_comm eta]
  rfl

/-- Non-vacuity: an input for which the limits of C132 apply. -/
example : ∃ a : LGLArgs (Fin 2), a.empCov.PosSemidef ∧ 0 < a.alpha ∧ Fintype.card (Fin 2) * a.alpha ≤ a.tau ∧
    a.rhoOptions.tauInc = 1 ∧ a.rhoOptions.tauDec = 1 :=
  ⟨⟨1, 1, 2, 1, 1, { tauInc := 1, tauDec := 1 }, true⟩, PosSemidef.one, one_pos, by simp, rfl, rfl⟩

end Verif.Props
