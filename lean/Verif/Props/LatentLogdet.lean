import Verif.Lemmas.LatentLogdet
import Verif.Props.LatentConv
import Verif.Props.LTGL
import Verif.Props.LGL

/-! Property theorems C157 (the latent variable problems have solutions) and C158 (convergence of the temporal latent
variable solvers while the computed `R` stay bounded). -/

namespace Verif.Props

open Verif.Model Verif.Spec Verif.Lemmas Matrix Filter Topology

set_option autoImplicit false
set_option linter.unusedSectionVars false

variable {n : Type*} [Fintype n] [DecidableEq n] {k : ℕ} {E : Type*} [Fintype E]

/-! ### C157 -/

theorem latPens_pair {w v : E → ℝ} {alpha tau : ℝ} (hal : 0 < alpha) (hta : 0 ≤ tau) (hw : ∀ e, 0 ≤ w e)
    (hv : ∀ e, 0 ≤ v e) {psi phi : Matrix n n ℝ → ℝ} (cpsi : ConvexPen psi) (cphi : ConvexPen phi)
    (npsi : ∀ X, 0 ≤ psi X) (nphi : ∀ X, 0 ≤ phi X) :
    LatPens alpha tau (pairPen w psi) (pairPen v phi) :=
  ⟨hal, hta, pairFam_nonneg hw npsi, pairFam_nonneg hv nphi, pairFam_continuous _ cpsi, pairFam_continuous _ cphi,
    pairFam_convex hw cpsi, pairFam_convex hv cphi⟩

theorem ldObj_pair (g : TimePairs k E) (S : Batch k n) (nS : Fin k → ℝ) (alpha tau : ℝ) (w v : E → ℝ)
    (psi phi : Matrix n n ℝ → ℝ) (p : Batch k n × Batch k n) :
    ldObj (pairEp g) S nS alpha tau (pairPen w psi) (pairPen v phi) p =
      negLogLik S nS (fun t => p.1 t - p.2 t) + ((alpha * ∑ t, absSumMat (p.1 t)
        + ∑ e, w e * psi (p.1 (g.dst e) - p.1 (g.src e))) + (tau * ∑ t, trace (p.2 t)
        + ∑ e, v e * phi (p.2 (g.dst e) - p.2 (g.src e)))) := rfl

/-- All minimisers share `K - L`, so the trace bound holds for every one. -/
theorem ld_solution (g : TimePairs k E) {S : Batch k n} {nS : Fin k → ℝ} (hS : ∀ t, (S t).PosSemidef)
    (hn : ∀ t, 0 < nS t) {alpha tau : ℝ} {w v : E → ℝ} (hal : 0 < alpha) (hta : 0 ≤ tau) (hw : ∀ e, 0 ≤ w e)
    (hv : ∀ e, 0 ≤ v e) {psi phi : Matrix n n ℝ → ℝ} (cpsi : ConvexPen psi) (cphi : ConvexPen phi)
    (npsi : ∀ X, 0 ≤ psi X) (nphi : ∀ X, 0 ≤ phi X) (zpsi : psi 0 = 0) (zphi : phi 0 = 0) :
    ∃ p, IsMin (LatentSeqFeasible k n) (ldObj (pairEp g) S nS alpha tau (pairPen w psi) (pairPen v phi)) p ∧
      ∀ q, IsMin (LatentSeqFeasible k n) (ldObj (pairEp g) S nS alpha tau (pairPen w psi) (pairPen v phi)) q →
        (∀ t, q.1 t - q.2 t = p.1 t - p.2 t) ∧
        alpha * ∑ t, trace (q.1 t - q.2 t) ≤ Fintype.card n * ∑ t, nS t := by
  have hP := latPens_pair hal hta hw hv cpsi cphi npsi nphi
  obtain ⟨st, hst, hpd, htr⟩ := ld_saddle (ep := pairEp g) hS hn hP one_pos
  obtain ⟨h1, h2⟩ := ld_min_of_pass hS hn hst hpd
  have hR := hst.penalties.1
  refine ⟨_, h1, fun q hq => ⟨fun t => h2 q hq t, ?_⟩⟩
  have e0 : pairPen w psi (0 : E ⊕ E → Matrix n n ℝ) + pairPen v phi (0 : E ⊕ E → Matrix n n ℝ) = 0 := by
    unfold Lemmas.pairPen
    simp [zpsi, zphi]
  rw [e0, add_zero] at htr
  refine le_trans (le_of_eq ?_) htr
  congr 1
  refine Finset.sum_congr rfl fun t _ => ?_
  rw [h2 q hq t, hR]
  rfl

/-- C157: for positive semidefinite `S_t`, positive sample sizes, `alpha > 0`, `tau, beta, eta ≥ 0` and convex
penalties `≥ 0` vanishing at 0, the latent variable time-varying problem has a minimiser `(K, L)`; all minimisers have
the same `K_t - L_t`, and its traces sum to at most `d (∑ n_t) / alpha`. (With the full l1 norm, which is what the
code uses: C96.) -/
theorem C157_chain {T : ℕ} (S : Batch (T + 1) n) (nS : Fin (T + 1) → ℝ) (hS : ∀ t, (S t).PosSemidef)
    (hn : ∀ t, 0 < nS t) {alpha tau beta eta : ℝ} (hal : 0 < alpha) (hta : 0 ≤ tau) (hbe : 0 ≤ beta) (het : 0 ≤ eta)
    {psi phi : Matrix n n ℝ → ℝ} (cpsi : ConvexPen psi) (cphi : ConvexPen phi)
    (npsi : ∀ X, 0 ≤ psi X) (nphi : ∀ X, 0 ≤ phi X) (zpsi : psi 0 = 0) (zphi : phi 0 = 0) :
    ∃ p, IsMin (LatentSeqFeasible (T + 1) n) (latentTimeObjective S nS alpha tau beta eta absSumMat psi phi) p ∧
      ∀ q, IsMin (LatentSeqFeasible (T + 1) n) (latentTimeObjective S nS alpha tau beta eta absSumMat psi phi) q →
        (∀ t, q.1 t - q.2 t = p.1 t - p.2 t) ∧
        ∑ t, trace (q.1 t - q.2 t) ≤ Fintype.card n * (∑ t, nS t) / alpha := by
  have hobj : latentTimeObjective S nS alpha tau beta eta absSumMat psi phi =
      ldObj (pairEp (chainPairs T)) S nS alpha tau (pairPen (fun _ => beta) psi) (pairPen (fun _ => eta) phi) := by
    funext p
    rw [ldObj_pair]
    unfold latentTimeObjective chainCoupling
    simp only [chainPairs]
    rw [← Finset.mul_sum, ← Finset.mul_sum]
    ring
  rw [hobj]
  obtain ⟨p, h1, h2⟩ := ld_solution (chainPairs T) (w := fun _ => beta) (v := fun _ => eta) hS hn hal hta
    (fun _ => hbe) (fun _ => het) cpsi cphi npsi nphi zpsi zphi
  exact ⟨p, h1, fun q hq => ⟨(h2 q hq).1, by rw [le_div_iff₀ hal, mul_comm]; exact (h2 q hq).2⟩⟩

theorem kernelObj_eq (S : Batch k n) (nS : Fin k → ℝ) (alpha tau : ℝ) (kpsi kphi : Option (Fin k → Fin k → ℝ))
    (psi phi : Matrix n n ℝ → ℝ) :
    kernelLatentObjective S nS alpha tau (kernelOf kpsi) (kernelOf kphi) absSumMat psi phi =
      ldObj (pairEp (allPairs k)) S nS alpha tau (pairPen (kernelWeight kpsi) psi) (pairPen (kernelWeight kphi) phi) := by
  funext p
  rw [ldObj_pair]
  unfold kernelLatentObjective
  rw [kernelCoupling_eq, kernelCoupling_eq]
  ring

theorem kernelWeight_nonneg {kk : Option (Fin k → Fin k → ℝ)} (h : ∀ s t, s < t → 0 ≤ kernelOf kk s t)
    (e : PairIdx k) : 0 ≤ kernelWeight kk e := by
  have := h e.1.1 e.1.2 e.2
  cases kk <;> exact this

/-- C157: the same for the kernel version. -/
theorem C157_kernel (S : Batch k n) (nS : Fin k → ℝ) (hS : ∀ t, (S t).PosSemidef)
    (hn : ∀ t, 0 < nS t) {alpha tau : ℝ} (hal : 0 < alpha) (hta : 0 ≤ tau)
    (kpsi kphi : Option (Fin k → Fin k → ℝ)) (hpsi : ∀ s t, s < t → 0 ≤ kernelOf kpsi s t)
    (hphi : ∀ s t, s < t → 0 ≤ kernelOf kphi s t)
    {psi phi : Matrix n n ℝ → ℝ} (cpsi : ConvexPen psi) (cphi : ConvexPen phi)
    (npsi : ∀ X, 0 ≤ psi X) (nphi : ∀ X, 0 ≤ phi X) (zpsi : psi 0 = 0) (zphi : phi 0 = 0) :
    ∃ p, IsMin (LatentSeqFeasible k n)
        (kernelLatentObjective S nS alpha tau (kernelOf kpsi) (kernelOf kphi) absSumMat psi phi) p ∧
      ∀ q, IsMin (LatentSeqFeasible k n)
        (kernelLatentObjective S nS alpha tau (kernelOf kpsi) (kernelOf kphi) absSumMat psi phi) q →
        (∀ t, q.1 t - q.2 t = p.1 t - p.2 t) ∧
        ∑ t, trace (q.1 t - q.2 t) ≤ Fintype.card n * (∑ t, nS t) / alpha := by
  rw [kernelObj_eq]
  obtain ⟨p, h1, h2⟩ := ld_solution (allPairs k) (w := kernelWeight kpsi) (v := kernelWeight kphi) hS hn hal hta
    (kernelWeight_nonneg hpsi) (kernelWeight_nonneg hphi) cpsi cphi npsi nphi zpsi zphi
  exact ⟨p, h1, fun q hq => ⟨(h2 q hq).1, by rw [le_div_iff₀ hal, mul_comm]; exact (h2 q hq).2⟩⟩

/-- One matrix as a family. -/
theorem latent_single (S : Matrix n n ℝ) (alpha tau : ℝ) (p : Batch 1 n × Batch 1 n) :
    latentTimeObjective (T := 0) (fun _ => S) (fun _ => 1) alpha tau 0 0 absSumMat absSumMat absSumMat p =
      latentObjective S alpha tau absSumMat (p.1 0, p.2 0) := by
  unfold latentTimeObjective latentObjective negLogLik
  simp

/-- C157: the same for the latent variable graphical lasso: a minimiser exists, all minimisers have the same `K - L`,
and its trace is at most `d / alpha`. -/
theorem C157_single {S : Matrix n n ℝ} (hS : S.PosSemidef) {alpha tau : ℝ} (hal : 0 < alpha) (hta : 0 ≤ tau) :
    ∃ p, IsMin (LatentFeasible n) (latentObjective S alpha tau absSumMat) p ∧
      ∀ q, IsMin (LatentFeasible n) (latentObjective S alpha tau absSumMat) q →
        q.1 - q.2 = p.1 - p.2 ∧ trace (q.1 - q.2) ≤ Fintype.card n / alpha := by
  have hmin : ∀ q : Matrix n n ℝ × Matrix n n ℝ, IsMin (LatentFeasible n) (latentObjective S alpha tau absSumMat) q ↔
      IsMin (LatentSeqFeasible 1 n) (latentTimeObjective (T := 0) (fun _ => S) (fun _ => 1) alpha tau 0 0 absSumMat
        absSumMat absSumMat) (fun _ => q.1, fun _ => q.2) := by
    intro q
    constructor
    · rintro ⟨h1, h2⟩
      refine ⟨fun _ => h1, fun r hr => ?_⟩
      rw [latent_single, latent_single]
      exact h2 (r.1 0, r.2 0) (hr 0)
    · rintro ⟨h1, h2⟩
      refine ⟨h1 0, fun r hr => ?_⟩
      have := h2 (fun _ => r.1, fun _ => r.2) (fun _ => hr)
      rwa [latent_single, latent_single] at this
  obtain ⟨p, hp, hq⟩ := C157_chain (T := 0) (fun _ => S) (fun _ => 1) (fun _ => hS) (fun _ => one_pos) hal hta le_rfl
    le_rfl absSumMat_convexPen absSumMat_convexPen absSumMat_nonneg' absSumMat_nonneg'
    (by simp [absSumMat]) (by simp [absSumMat])
  have hc : p = (fun _ => p.1 0, fun _ => p.2 0) := by
    refine Prod.ext (funext fun t => ?_) (funext fun t => ?_)
    · rw [show t = 0 from Fin.ext (by omega)]
    · rw [show t = 0 from Fin.ext (by omega)]
  refine ⟨(p.1 0, p.2 0), (hmin _).mpr (by rw [hc] at hp; exact hp), fun q hq' => ?_⟩
  have h := hq _ ((hmin q).mp hq')
  refine ⟨h.1 0, ?_⟩
  have h2 := h.2
  simpa using h2

/-- Non-vacuity of C157. -/
example : (1 : Matrix (Fin 2) (Fin 2) ℝ).PosSemidef ∧ ConvexPen (absSumMat (m := Fin 2) (n := Fin 2)) ∧
    (∀ X : Matrix (Fin 2) (Fin 2) ℝ, 0 ≤ absSumMat X) ∧ absSumMat (0 : Matrix (Fin 2) (Fin 2) ℝ) = 0 :=
  ⟨PosSemidef.one, absSumMat_convexPen, absSumMat_nonneg', by simp [absSumMat]⟩

/-! ### C158 -/

/-- The passes with the log-likelihood as `LPass`. -/
theorem ltLogdet_pass {eigh : Eigh n} (he : IsEighOracle eigh) {g : TimePairs k E} {a : LTArgs k E n}
    (hS : ∀ t, (a.empCov t).PosSemidef) (hn : ∀ t, 0 < a.nSamples t)
    (hcov : Covers g a.divisor n) (hdiv : ∀ t, 0 < a.divisor t)
    (hal : 0 ≤ a.alpha) (hw : ∀ e, 0 ≤ a.wPsi e) (hv : ∀ e, 0 ≤ a.wPhi e)
    {psi phi : Matrix n n ℝ → ℝ} (cpsi : ConvexPen psi) (cphi : ConvexPen phi)
    (ppsi : IsProxOf psi a.proxPsi) (pphi : IsProxOf phi a.proxPhi) (K0 : Batch k n) {rho : ℝ} (hr : 0 < rho) (j : ℕ) :
    LPass (ldProb (pairEp g) a.empCov a.nSamples a.alpha a.tau (pairPen a.wPsi psi) (pairPen a.wPhi phi)) rho
      (ltLSt (ltIter eigh (ltLogdetR eigh a) g a K0 rho j))
      (ltLSt (ltIter eigh (ltLogdetR eigh a) g a K0 rho (j + 1))) ∧
    ∀ t, ((ltLSt (ltIter eigh (ltLogdetR eigh a) g a K0 rho (j + 1))).R t).PosDef := by
  have hrho := ltIter_rho eigh (ltLogdetR eigh a) g a K0 rho j
  set s := ltIter eigh (ltLogdetR eigh a) g a K0 rho j with hs
  have hsp := fun t => logdetStep_spec he (hS t).isSymm' (hn t) (by rw [hrho]; exact hr : 0 < s.rho)
    (s.Z0 t - s.W0 t - s.X0 t)
  have hpd : ∀ t, (ltLogdetR eigh a s.rho (fun t => s.Z0 t - s.W0 t - s.X0 t) t).PosDef := fun t => (hsp t).1
  have h := ltNext_pass (rUpd := ltLogdetR eigh a) (g := g) (a := a) (DR := SymmFam k n)
    (grad := ldGrad a.empCov a.nSamples) he hcov hdiv hal hw hv cpsi cphi ppsi pphi
    (s := s) (by rw [hrho]; exact hr) (fun t => (hpd t).isSymm') (fun Y hY => by
      unfold famIn
      refine Finset.sum_eq_zero fun t _ => ?_
      set R := ltLogdetR eigh a s.rho (fun t => s.Z0 t - s.W0 t - s.X0 t) with hRd
      set A := s.Z0 t - s.W0 t - s.X0 t with hA
      have h1 : a.nSamples t • (a.empCov t - (R t)⁻¹) + s.rho • R t - s.rho • symmetrize A = 0 := (hsp t).2
      have hD : (Y t - R t).IsSymm := isSymm_sub' (hY t) (hpd t).isSymm'
      change frobInner (a.nSamples t • (a.empCov t - (R t)⁻¹) + s.rho • (R t - A)) (Y t - R t) = 0
      have h2 := congrArg (fun M => frobInner M (Y t - R t)) h1
      simp only [frobInner_sub_left, frobInner_add_left, frobInner_smul_left, frobInner_zero_left'] at h2
      rw [frobInner_symmetrize hD] at h2
      simp only [frobInner_sub_left, frobInner_add_left, frobInner_smul_left]
      linarith)
  rw [hrho] at h
  rw [ltIter_succ]
  exact ⟨h, hpd⟩

/-- The states converge to a minimiser under the hypotheses of C158. -/
theorem ltLogdet_limits [Nonempty n] {eigh : Eigh n} (he : IsEighOracle eigh) {g : TimePairs k E}
    (a : LTArgs k E n) (hS : ∀ t, (a.empCov t).PosSemidef) {m : ℝ} (hm : 0 < m) (hn : ∀ t, m ≤ a.nSamples t)
    (hcov : Covers g a.divisor n) (hdiv : ∀ t, 0 < a.divisor t)
    (hal : 0 < a.alpha) (hta : 0 ≤ a.tau) (hw : ∀ e, 0 ≤ a.wPsi e) (hv : ∀ e, 0 ≤ a.wPhi e)
    {psi phi : Matrix n n ℝ → ℝ} (cpsi : ConvexPen psi) (cphi : ConvexPen phi)
    (ppsi : IsProxOf psi a.proxPsi) (pphi : IsProxOf phi a.proxPhi) (npsi : ∀ X, 0 ≤ psi X) (nphi : ∀ X, 0 ≤ phi X)
    (K0 : Batch k n) {rho : ℝ} (hr : 0 < rho)
    {c b : ℝ} (hc : 0 < c) (hb : 0 < b) (hrc : rho * (c * b) < 2 * m)
    {obj : Batch k n × Batch k n → ℝ}
    (hobj : obj = ldObj (pairEp g) a.empCov a.nSamples a.alpha a.tau (pairPen a.wPsi psi) (pairPen a.wPhi phi))
    (hopt : ∀ p, IsMin (LatentSeqFeasible k n) obj p → ∀ t, (b • 1 - (p.1 t - p.2 t)).PosSemidef)
    (hbd : ∀ᶠ j in atTop, ∀ t, (c • 1 - (ltIter eigh (ltLogdetR eigh a) g a K0 rho j).Rold t).PosSemidef) :
    ∃ lim : LSt (Fin k) (E ⊕ E) n, IsMin (LatentSeqFeasible k n) obj (lim.Z, lim.W) ∧
      lim.R = lim.Z - lim.W ∧ lim.ZP = pull (pairEp g) lim.Z ∧ lim.WP = pull (pairEp g) lim.W ∧
      Tendsto (fun j => (ltLSt (ltIter eigh (ltLogdetR eigh a) g a K0 rho j)).R) atTop (𝓝 lim.R) ∧
      LTends (fun j => ltLSt (ltIter eigh (ltLogdetR eigh a) g a K0 rho j)) (fun j => j) lim := by
  subst hobj
  have hn0 : ∀ t, 0 < a.nSamples t := fun t => hm.trans_le (hn t)
  have hpass := fun j => ltLogdet_pass he hS hn0 hcov hdiv hal.le hw hv cpsi cphi ppsi pphi K0 hr j
  obtain ⟨lim, hlim, hpd, hR, hT⟩ := ld_main hS hm hn (latPens_pair hal hta hw hv cpsi cphi npsi nphi) hr hc hb hrc hopt
    (fun j => (hpass j).1) (fun j => (hpass j).2) hbd
  obtain ⟨hmin, -⟩ := ld_min_of_pass hS hn0 hlim hpd
  have hfR := hlim.penalties.1
  have hZP : lim.ZP = pull (pairEp g) lim.Z := by
    have := hlim.xp
    rw [left_eq_add, sub_eq_zero] at this
    exact this.symm
  have hWP : lim.WP = pull (pairEp g) lim.W := by
    have := hlim.up
    rw [left_eq_add, sub_eq_zero] at this
    exact this.symm
  exact ⟨lim, hmin, hfR, hZP, hWP, hR, hT⟩

/-- The convergence statement of C158 for any pairs of time points. -/
theorem ltLogdet_main [Nonempty n] (hk : 0 < k) {eigh : Eigh n} (he : IsEighOracle eigh) {g : TimePairs k E}
    (a : LTArgs k E n) (hS : ∀ t, (a.empCov t).PosSemidef) {m : ℝ} (hm : 0 < m) (hn : ∀ t, m ≤ a.nSamples t)
    (hcov : Covers g a.divisor n) (hdiv : ∀ t, 0 < a.divisor t)
    (hal : 0 < a.alpha) (hta : 0 ≤ a.tau) (hw : ∀ e, 0 ≤ a.wPsi e) (hv : ∀ e, 0 ≤ a.wPhi e)
    {psi phi : Matrix n n ℝ → ℝ} (cpsi : ConvexPen psi) (cphi : ConvexPen phi)
    (ppsi : IsProxOf psi a.proxPsi) (pphi : IsProxOf phi a.proxPhi) (npsi : ∀ X, 0 ≤ psi X) (nphi : ∀ X, 0 ≤ phi X)
    (hi : a.rhoOptions.tauInc = 1) (hd : a.rhoOptions.tauDec = 1) (K0 : Batch k n) {rho : ℝ} (hr : 0 < rho)
    {c b : ℝ} (hc : 0 < c) (hb : 0 < b) (hrc : rho * (c * b) < 2 * m)
    {obj : Batch k n × Batch k n → ℝ}
    (hobj : obj = ldObj (pairEp g) a.empCov a.nSamples a.alpha a.tau (pairPen a.wPsi psi) (pairPen a.wPhi phi))
    (hopt : ∀ p, IsMin (LatentSeqFeasible k n) obj p → ∀ t, (b • 1 - (p.1 t - p.2 t)).PosSemidef)
    (hbd : ∀ᶠ j in atTop, ∀ t, (c • 1 - (ltIter eigh (ltLogdetR eigh a) g a K0 rho j).Rold t).PosSemidef) :
    ∃ p, IsMin (LatentSeqFeasible k n) obj p ∧
      (0 < a.tol → 0 ≤ a.rtol → ∃ M, ∀ m, M ≤ m → ∀ rh rn, ∃ K L h it,
        ltRun eigh (ltLogdetR eigh a) g a K0 rho m rh rn = .ok K L h it false) ∧
      (∀ ε, 0 < ε → ∃ M, ∀ tol rtol m rh K L h it w,
        ltRun eigh (ltLogdetR eigh a) g { a with tol := tol, rtol := rtol } K0 rho m rh true =
          .ok K L h (some it) w → M ≤ it → CloseSeq ε K p.1 ∧ CloseSeq ε L p.2) ∧
      ∀ ε, 0 < ε → ∃ δ, 0 < δ ∧ ∃ M, ∀ tol rtol, 0 ≤ tol → tol ≤ δ → 0 ≤ rtol → rtol ≤ δ → ∀ m, M ≤ m → ∀ rn,
        ∃ K L hist it w,
          ltRun eigh (ltLogdetR eigh a) g { a with tol := tol, rtol := rtol } K0 rho m true rn =
            .ok K L (some hist) it w ∧
          ((CloseSeq ε K p.1 ∧ CloseSeq ε L p.2) ∨ ∃ c ∈ hist, c.rnorm = 0 ∧ c.snorm = 0) := by
  obtain ⟨lim, hmin, hfR, hZP, hWP, hR, hT⟩ := ltLogdet_limits he a hS hm hn hcov hdiv hal hta hw hv cpsi cphi ppsi
    pphi npsi nphi K0 hr hc hb hrc hobj hopt hbd
  obtain ⟨c1, c2, c3⟩ := lt_calls hk a hi hd K0 hr hfR hZP hWP hR hT
  exact ⟨_, hmin, c1, c2, c3⟩

/-- C158 (part proved): let the penalty be constant, `alpha > 0`, `tau, beta, eta ≥ 0`, the penalties convex, `≥ 0`
with exact prox, and the sample sizes at least `m`. If from some pass on the matrices `R` computed by
`latent_time_graphical_lasso` have eigenvalues at most `c`, those of the optimal `K_t - L_t` are at most `b` (C157 gives
such a `b`) and `rho c b < 2 m`, then there is a minimiser `p` such that for positive `tol` every call with `max_iter`
large enough ends without the warning; every call that ran long enough returns a pair as close to `p` as desired,
whatever the tolerances; and for tolerances small enough a call runs that long, unless it recorded a pass with both
residuals exactly zero. MISSING: that the computed `R` stay bounded by such a `c`. -/
theorem C158_chain_partial [Nonempty n] {T : ℕ} {eigh : Eigh n} (he : IsEighOracle eigh)
    (o : LTOptions (T + 1) n) {beta eta : ℝ} (hS : ∀ t, (o.empCov t).PosSemidef) {m : ℝ} (hm : 0 < m)
    (hn : ∀ t, m ≤ o.nSamples t) (hal : 0 < o.alpha) (hta : 0 ≤ o.tau) (hbe : 0 ≤ beta) (het : 0 ≤ eta)
    {psi phi : Matrix n n ℝ → ℝ} (cpsi : ConvexPen psi) (cphi : ConvexPen phi)
    (ppsi : IsProxOf psi o.proxPsi) (pphi : IsProxOf phi o.proxPhi) (npsi : ∀ X, 0 ≤ psi X) (nphi : ∀ X, 0 ≤ phi X)
    (hi : o.rhoOptions.tauInc = 1) (hd : o.rhoOptions.tauDec = 1) (K0 : Batch (T + 1) n) {rho : ℝ} (hr : 0 < rho)
    {c b : ℝ} (hc : 0 < c) (hb : 0 < b) (hrc : rho * (c * b) < 2 * m)
    (hopt : ∀ p, IsMin (LatentSeqFeasible (T + 1) n)
      (latentTimeObjective o.empCov o.nSamples o.alpha o.tau beta eta absSumMat psi phi) p →
      ∀ t, (b • 1 - (p.1 t - p.2 t)).PosSemidef)
    (hbd : ∀ᶠ j in atTop, ∀ t, (c • 1 - (ltIter eigh (ltLogdetR eigh (chainArgs o beta eta)) (chainPairs T)
      (chainArgs o beta eta) K0 rho j).Rold t).PosSemidef) :
    ∃ p, IsMin (LatentSeqFeasible (T + 1) n)
        (latentTimeObjective o.empCov o.nSamples o.alpha o.tau beta eta absSumMat psi phi) p ∧
      (0 < o.tol → 0 ≤ o.rtol → ∃ M, ∀ m, M ≤ m → ∀ rh rn, ∃ K L h it,
        latentTimeGraphicalLasso eigh o beta eta K0 rho m rh rn = .ok K L h it false) ∧
      (∀ ε, 0 < ε → ∃ M, ∀ tol rtol m rh K L h it w,
        latentTimeGraphicalLasso eigh { o with tol := tol, rtol := rtol } beta eta K0 rho m rh true =
          .ok K L h (some it) w → M ≤ it → CloseSeq ε K p.1 ∧ CloseSeq ε L p.2) ∧
      ∀ ε, 0 < ε → ∃ δ, 0 < δ ∧ ∃ M, ∀ tol rtol, 0 ≤ tol → tol ≤ δ → 0 ≤ rtol → rtol ≤ δ → ∀ m, M ≤ m → ∀ rn,
        ∃ K L hist it w,
          latentTimeGraphicalLasso eigh { o with tol := tol, rtol := rtol } beta eta K0 rho m true rn =
            .ok K L (some hist) it w ∧
          ((CloseSeq ε K p.1 ∧ CloseSeq ε L p.2) ∨ ∃ c ∈ hist, c.rnorm = 0 ∧ c.snorm = 0) :=
  ltLogdet_main (Nat.succ_pos T) he (chainArgs o beta eta) hS hm hn covers_chain tglDivisor_pos hal hta
    (fun _ => hbe) (fun _ => het) cpsi cphi ppsi pphi npsi nphi hi hd K0 hr hc hb hrc (by
      funext p
      rw [ldObj_pair]
      unfold latentTimeObjective chainCoupling
      simp only [chainPairs, chainArgs]
      rw [← Finset.mul_sum, ← Finset.mul_sum]
      ring) hopt hbd

/-- C158 (part proved): the same for `kernel_latent_time_graphical_lasso`. -/
theorem C158_kernel_partial [Nonempty n] (hk : 0 < k) {eigh : Eigh n} (he : IsEighOracle eigh)
    (o : LTOptions k n) (kpsi kphi : Option (Fin k → Fin k → ℝ)) (hpsi : ∀ s t, s < t → 0 ≤ kernelOf kpsi s t)
    (hphi : ∀ s t, s < t → 0 ≤ kernelOf kphi s t)
    (hS : ∀ t, (o.empCov t).PosSemidef) {m : ℝ} (hm : 0 < m)
    (hn : ∀ t, m ≤ o.nSamples t) (hal : 0 < o.alpha) (hta : 0 ≤ o.tau)
    {psi phi : Matrix n n ℝ → ℝ} (cpsi : ConvexPen psi) (cphi : ConvexPen phi)
    (ppsi : IsProxOf psi o.proxPsi) (pphi : IsProxOf phi o.proxPhi) (npsi : ∀ X, 0 ≤ psi X) (nphi : ∀ X, 0 ≤ phi X)
    (hi : o.rhoOptions.tauInc = 1) (hd : o.rhoOptions.tauDec = 1) (K0 : Batch k n) {rho : ℝ} (hr : 0 < rho)
    {c b : ℝ} (hc : 0 < c) (hb : 0 < b) (hrc : rho * (c * b) < 2 * m)
    (hopt : ∀ p, IsMin (LatentSeqFeasible k n)
      (kernelLatentObjective o.empCov o.nSamples o.alpha o.tau (kernelOf kpsi) (kernelOf kphi) absSumMat psi phi) p →
      ∀ t, (b • 1 - (p.1 t - p.2 t)).PosSemidef)
    (hbd : ∀ᶠ j in atTop, ∀ t, (c • 1 - (ltIter eigh (ltLogdetR eigh (kernelArgs o kpsi kphi)) (allPairs k)
      (kernelArgs o kpsi kphi) K0 rho j).Rold t).PosSemidef) :
    ∃ p, IsMin (LatentSeqFeasible k n)
        (kernelLatentObjective o.empCov o.nSamples o.alpha o.tau (kernelOf kpsi) (kernelOf kphi) absSumMat psi phi) p ∧
      (0 < o.tol → 0 ≤ o.rtol → ∃ M, ∀ m, M ≤ m → ∀ rh rn, ∃ K L h it,
        kernelLatentTimeGraphicalLasso eigh o kpsi kphi K0 rho m rh rn = .ok K L h it false) ∧
      (∀ ε, 0 < ε → ∃ M, ∀ tol rtol m rh K L h it w,
        kernelLatentTimeGraphicalLasso eigh { o with tol := tol, rtol := rtol } kpsi kphi K0 rho m rh true =
          .ok K L h (some it) w → M ≤ it → CloseSeq ε K p.1 ∧ CloseSeq ε L p.2) ∧
      ∀ ε, 0 < ε → ∃ δ, 0 < δ ∧ ∃ M, ∀ tol rtol, 0 ≤ tol → tol ≤ δ → 0 ≤ rtol → rtol ≤ δ → ∀ m, M ≤ m → ∀ rn,
        ∃ K L hist it w,
          kernelLatentTimeGraphicalLasso eigh { o with tol := tol, rtol := rtol } kpsi kphi K0 rho m true rn =
            .ok K L (some hist) it w ∧
          ((CloseSeq ε K p.1 ∧ CloseSeq ε L p.2) ∨ ∃ c ∈ hist, c.rnorm = 0 ∧ c.snorm = 0) :=
  ltLogdet_main hk he (kernelArgs o kpsi kphi) hS hm hn covers_all (fun _ => by
      have : (0 : ℝ) < k := by exact_mod_cast hk
      exact this) hal hta
    (kernelWeight_nonneg hpsi) (kernelWeight_nonneg hphi) cpsi cphi ppsi pphi npsi nphi hi hd K0 hr hc hb hrc
    (kernelObj_eq _ _ _ _ _ _ _ _) hopt hbd

end Verif.Props
