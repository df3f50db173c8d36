import Verif.Props.LatentOne
import Verif.Props.TimeConv
import Verif.Props.PosDefUtils

/-! Property theorems C160 (a large `tau` switches the latent part off) and C161 (convergence of
`latent_graphical_lasso`). -/

namespace Verif.Props

open Verif.Model Verif.Spec Verif.Lemmas Matrix Filter Topology

set_option autoImplicit false
set_option linter.unusedSectionVars false

variable {n : Type*} [Fintype n] [DecidableEq n]

/-! ### C160 -/

/-- Entries of a PSD matrix against its diagonal. -/
theorem psd_entry_le {L : Matrix n n ℝ} (hL : L.PosSemidef) (i j : n) : |L i j| ≤ (L i i + L j j) / 2 := by
  have hs := hL.isSymm'
  have key : ∀ c : ℝ, 0 ≤ L i i + 2 * c * L i j + c ^ 2 * L j j := by
    intro c
    have h := (posSemidef_iff_dotProduct_mulVec.mp hL).2 (Pi.single i 1 + c • Pi.single j 1)
    have e : star (Pi.single i (1 : ℝ) + c • Pi.single j (1 : ℝ)) ⬝ᵥ
        (L *ᵥ (Pi.single i (1 : ℝ) + c • Pi.single j (1 : ℝ))) = L i i + 2 * c * L i j + c ^ 2 * L j j := by
      rw [star_trivial, mulVec_add, mulVec_smul, mulVec_single_one, mulVec_single_one, add_dotProduct, dotProduct_add,
        dotProduct_add, smul_dotProduct, smul_dotProduct, dotProduct_smul, dotProduct_smul, single_one_dotProduct,
        single_one_dotProduct, single_one_dotProduct, single_one_dotProduct]
      simp only [col_apply, smul_eq_mul]
      rw [hs.apply i j]
      ring
    rw [e] at h
    exact h
  have h1 := key 1
  have h2 := key (-1)
  rw [abs_le]
  constructor <;> linarith

theorem psd_absSum_le {L : Matrix n n ℝ} (hL : L.PosSemidef) : absSumMat L ≤ Fintype.card n * trace L := by
  have h : absSumMat L ≤ ∑ i, ∑ j, (L i i + L j j) / 2 :=
    Finset.sum_le_sum fun i _ => Finset.sum_le_sum fun j _ => psd_entry_le hL i j
  refine h.trans (le_of_eq ?_)
  have e : ∀ i, ∑ j, (L i i + L j j) / 2 = Fintype.card n * (L i i / 2) + trace L / 2 := by
    intro i
    simp only [add_div]
    rw [Finset.sum_add_distrib, Finset.sum_const, Finset.card_univ, nsmul_eq_mul]
    congr 1
    unfold trace
    rw [Finset.sum_div]
    rfl
  simp only [e]
  rw [Finset.sum_add_distrib, Finset.sum_const, Finset.card_univ, nsmul_eq_mul, ← Finset.mul_sum]
  have e2 : ∑ i, L i i / 2 = trace L / 2 := by
    unfold trace
    rw [Finset.sum_div]
    rfl
  rw [e2]
  ring

/-- The prox of the trace at a matrix with small entries. -/
theorem proxTrace_zero {eigh : Eigh n} (he : IsEighOracle eigh) {M : Matrix n n ℝ} {c t : ℝ} (hc : 0 ≤ c)
    (hM : ∀ i j, |M i j| ≤ c) (ht : Fintype.card n * c ≤ t) :
    proxTraceIndicator (eigh (symmetrize M)).1 (eigh (symmetrize M)).2 t = 0 := by
  set L := proxTraceIndicator (eigh (symmetrize M)).1 (eigh (symmetrize M)).2 t with hLd
  have hL : L.PosSemidef := recompose_posSemidef _ fun _ => le_max_right _ _
  have h := proxTrace_vi (he _ (symmetrize_isSymm M)) t (PosSemidef.zero (n := n) (R := ℝ))
  rw [← hLd, zero_sub, frobInner_neg_right, frobInner_sub_left, frobInner_symmetrize hL.isSymm', trace_zero,
    mul_zero] at h
  have h1 : frobInner M L ≤ c * absSumMat L := by
    unfold frobInner absSumMat
    rw [Finset.mul_sum]
    refine Finset.sum_le_sum fun i _ => ?_
    rw [Finset.mul_sum]
    refine Finset.sum_le_sum fun j _ => ?_
    calc M i j * L i j ≤ |M i j * L i j| := le_abs_self _
      _ = |M i j| * |L i j| := abs_mul _ _
      _ ≤ c * |L i j| := mul_le_mul_of_nonneg_right (hM i j) (abs_nonneg _)
  have h2 : c * absSumMat L ≤ c * (Fintype.card n * trace L) := mul_le_mul_of_nonneg_left (psd_absSum_le hL) hc
  have h3 : 0 ≤ trace L := hL.trace_nonneg
  have h4 : Fintype.card n * c * trace L ≤ t * trace L := mul_le_mul_of_nonneg_right ht h3
  have h5 : frobInner L L = frobSq L := frobInner_self L
  rw [h5] at h
  have h6 : frobSq L ≤ 0 := by nlinarith
  exact (frobSq_eq_zero_iff L).mp (le_antisymm h6 (frobSq_nonneg L))

/-- The remainder of soft thresholding. -/
theorem soft_rest (A : Matrix n n ℝ) {c : ℝ} (hc : 0 ≤ c) (i j : n) : |(softThresholdingMat A c - A) i j| ≤ c := by
  rw [Matrix.sub_apply]
  change |softScalar (A i j) c - A i j| ≤ c
  rcases le_or_gt |A i j| c with h | h
  · rw [softScalar_of_abs_le h, zero_sub, abs_neg]
    exact h
  · rcases lt_or_ge 0 (A i j) with h0 | h0
    · rw [softScalar_of_pos hc (by rwa [abs_of_pos h0] at h)]
      rw [show A i j - c - A i j = -c by ring, abs_neg, abs_of_nonneg hc]
    · rw [softScalar_of_neg hc (by rw [abs_of_nonpos h0] at h; linarith)]
      rw [show A i j + c - A i j = c by ring, abs_of_nonneg hc]

theorem lglL_zero {eigh : Eigh n} (he : IsEighOracle eigh) {alpha tau rho : ℝ} (hal : 0 ≤ alpha)
    (ht : Fintype.card n * alpha ≤ tau) (hr : 0 < rho) (R U : Matrix n n ℝ) :
    lglL eigh tau rho (lglK alpha rho 0 R U) R U = 0 := by
  have hc : 0 ≤ alpha / rho := by positivity
  refine proxTrace_zero he (c := alpha / rho) hc (fun i j => ?_) ?_
  · have h := soft_rest (0 + R + U) hc i j
    have e : lglK alpha rho 0 R U - R - U = softThresholdingMat (0 + R + U) (alpha / rho) - (0 + R + U) := by
      unfold lglK
      abel
    rw [e]
    exact h
  · rw [← mul_div_assoc]
    exact div_le_div_of_nonneg_right ht hr.le

theorem lglBody_L_zero {eigh : Eigh n} (he : IsEighOracle eigh) {a : LGLArgs n} (hal : 0 ≤ a.alpha)
    (ht : Fintype.card n * a.alpha ≤ a.tau) (hi : 0 < a.rhoOptions.tauInc) (hd : 0 < a.rhoOptions.tauDec) (it : ℕ)
    (s : LGLState n) (hs : s.L = 0 ∧ 0 < s.rho) :
    (lglBody eigh a it s).1.L = 0 ∧ 0 < (lglBody eigh a it s).1.rho := by
  obtain ⟨h1, h2⟩ := hs
  unfold lglBody
  simp only [h1]
  split
  · exact ⟨lglL_zero he hal ht h2 _ _, h2⟩
  · exact ⟨lglL_zero he hal ht h2 _ _, updateRho_pos hi hd h2 _ _⟩

/-- C160: with `tau ≥ d alpha` (`d` features) `latent_graphical_lasso` never finds a latent part: whatever the data,
the start, the tolerances, the iteration budget and the rule for the penalty, the latent matrix it returns is exactly
zero. -/
theorem C160_no_latent {eigh : Eigh n} (he : IsEighOracle eigh) (a : LGLArgs n) (hal : 0 ≤ a.alpha)
    (ht : Fintype.card n * a.alpha ≤ a.tau) (hi : 0 < a.rhoOptions.tauInc) (hd : 0 < a.rhoOptions.tauDec)
    (K0 : Matrix n n ℝ) {rho : ℝ} (hr : 0 < rho) (m : ℕ) (rh rn : Bool) {K L : Matrix n n ℝ}
    {hist : Option (List LGLCheck)} {it : Option ℕ} {w : Bool}
    (h : latentGraphicalLasso eigh a K0 rho m rh rn = .ok K L hist it w) : L = 0 := by
  have hinv := runLoop_invariant (lglBody eigh a) (fun s => s.L = 0 ∧ 0 < s.rho)
    (fun it s hs => lglBody_L_zero he hal ht hi hd it s hs) m (s := lglInit K0 rho) ⟨rfl, hr⟩
  unfold latentGraphicalLasso at h
  simp only at h
  split at h
  · split at h
    · cases h
    · injection h with _ h2 _ _ _
      rw [← h2]
      exact hinv.1
  · injection h with _ h2 _ _ _
    rw [← h2]
    exact hinv.1

/-- C160: the same for `infimal_convolution`. -/
theorem C160_infimal_no_latent {eigh : Eigh n} (he : IsEighOracle eigh) (a : InfArgs n) (hal : 0 ≤ a.alpha)
    (ht : Fintype.card n * a.alpha ≤ a.tau) (hi : 0 < a.rhoOptions.tauInc) (hd : 0 < a.rhoOptions.tauDec)
    {rho : ℝ} (hr : 0 < rho) (m : ℕ) (rh rn : Bool) {K L : Matrix n n ℝ}
    {hist : Option (List GLCheck)} {it : Option ℕ} {w : Bool}
    (h : infimalConvolution eigh a rho m rh rn = .ok K L hist it w) : L = 0 := by
  have hinv := runLoop_invariant (infBody eigh a) (fun s => s.L = 0 ∧ 0 < s.rho) (fun it s hs => by
      obtain ⟨h1, h2⟩ := hs
      have h3 : ∀ R U : Matrix n n ℝ, infL eigh a.tau s.rho (infK a.alpha s.rho 0 R U) R U = 0 :=
        fun R U => lglL_zero he hal ht h2 R U
      unfold infBody
      simp only [h1]
      split
      · exact ⟨h3 _ _, h2⟩
      · exact ⟨h3 _ _, updateRho_pos hi hd h2 _ _⟩) m (s := ⟨0, 0, 0, 0, rho⟩) ⟨rfl, hr⟩
  unfold infimalConvolution at h
  simp only at h
  split at h
  · split at h
    · cases h
    · injection h with _ h2 _ _ _
      rw [← h2]
      exact hinv.1
  · injection h with _ h2 _ _ _
    rw [← h2]
    exact hinv.1

theorem latent_drop {S K L : Matrix n n ℝ} {alpha tau : ℝ} (hal : 0 ≤ alpha) (hL : L.PosSemidef) :
    latentObjective S alpha tau absSumMat (K - L, 0) + (tau - Fintype.card n * alpha) * trace L ≤
      latentObjective S alpha tau absSumMat (K, L) := by
  unfold latentObjective
  simp only [sub_zero, trace_zero, mul_zero, add_zero]
  have h1 : absSumMat (K - L) ≤ absSumMat K + absSumMat L := by
    unfold absSumMat
    rw [← Finset.sum_add_distrib]
    refine Finset.sum_le_sum fun i _ => ?_
    rw [← Finset.sum_add_distrib]
    exact Finset.sum_le_sum fun j _ => abs_sub _ _
  have h2 := mul_le_mul_of_nonneg_left (h1.trans (add_le_add_right (psd_absSum_le hL) _)) hal
  nlinarith

/-- C160: and this is what the optimisation problem demands: with `tau > d alpha` every minimiser has `L = 0`, and with
`tau ≥ d alpha` dropping `L` from a minimiser leaves a minimiser. -/
theorem C160_optimum_no_latent {S : Matrix n n ℝ} {alpha tau : ℝ} (hal : 0 ≤ alpha) {p : Matrix n n ℝ × Matrix n n ℝ}
    (hp : IsMin (LatentFeasible n) (latentObjective S alpha tau absSumMat) p) :
    (Fintype.card n * alpha < tau → p.2 = 0) ∧
    (Fintype.card n * alpha ≤ tau → IsMin (LatentFeasible n) (latentObjective S alpha tau absSumMat) (p.1 - p.2, 0)) := by
  have hL : p.2.PosSemidef := hp.1.2
  have hf : (p.1 - p.2, (0 : Matrix n n ℝ)) ∈ LatentFeasible n := by
    refine ⟨?_, PosSemidef.zero⟩
    simp only [sub_zero]
    exact hp.1.1
  have h1 := latent_drop (S := S) (K := p.1) (tau := tau) hal hL
  have h0 : 0 ≤ trace p.2 := hL.trace_nonneg
  constructor
  · intro ht
    have h2 := hp.2 _ hf
    have h3 : (tau - Fintype.card n * alpha) * trace p.2 ≤ 0 := by linarith
    have h4 : trace p.2 ≤ 0 := by
      by_contra hc
      have := mul_pos (sub_pos.mpr ht) (not_le.mp hc)
      linarith
    exact (hL.trace_eq_zero_iff).mp (le_antisymm h4 h0)
  · intro ht
    refine ⟨hf, fun q hq => ?_⟩
    have h2 := hp.2 q hq
    have h3 := mul_nonneg (sub_nonneg.mpr ht) h0
    linarith

/-- Non-vacuity of C160: `tau = d alpha` and a minimiser. -/
example : ∃ p, IsMin (LatentFeasible (Fin 2)) (latentObjective (1 : Matrix (Fin 2) (Fin 2) ℝ) 1 2 absSumMat) p ∧
    (Fintype.card (Fin 2) : ℝ) * 1 ≤ 2 :=
  (C157_single (n := Fin 2) PosSemidef.one one_pos (tau := 2) (by norm_num)).imp fun p hp => ⟨hp.1, by norm_num⟩

/-! ### C161 -/

/-- No pairs. -/
def onePairs : TimePairs 1 Empty := ⟨Empty.elim, Empty.elim⟩

/-- The static arguments as temporal ones. -/
noncomputable def oneArgs (b : LGLArgs n) : LTArgs 1 Empty n :=
  ⟨fun _ => b.empCov, fun _ => 1, b.alpha, b.tau, Empty.elim, Empty.elim, softThresholdingMat, softThresholdingMat,
    fun _ => 1, b.tol, b.rtol, b.rhoOptions⟩

theorem oneArgs_ok (b : LGLArgs n) : OneArgs (oneArgs b) b := ⟨rfl, rfl, rfl, rfl, rfl, rfl, rfl, rfl⟩

/-- The state of `latent_graphical_lasso` before iteration `j` (had it not stopped earlier). -/
noncomputable def lglState (eigh : Eigh n) (b : LGLArgs n) (K0 : Matrix n n ℝ) (rho : ℝ) (j : ℕ) : LGLState n :=
  Lemmas.stateAt (lglBody eigh b) (lglInit K0 rho) j

theorem lglState_rho (eigh : Eigh n) {b : LGLArgs n} (hi : b.rhoOptions.tauInc = 1) (hd : b.rhoOptions.tauDec = 1)
    (K0 : Matrix n n ℝ) (rho : ℝ) (j : ℕ) : (lglState eigh b K0 rho j).rho = rho :=
  stateAt_invariant (lglBody eigh b) (fun s => s.rho = rho) (fun it s hs => by
    unfold lglBody
    simp only
    split
    · exact hs
    · simp only [updateRho_const hi hd]; exact hs) rfl j

theorem lglState_succ (eigh : Eigh n) {b : LGLArgs n} (hi : b.rhoOptions.tauInc = 1) (hd : b.rhoOptions.tauDec = 1)
    (K0 : Matrix n n ℝ) {rho : ℝ} (hr : rho ≠ 0) (j : ℕ) :
    lglState eigh b K0 rho (j + 1) =
      let s := lglState eigh b K0 rho j
      let R := lglR eigh b.empCov rho s.K s.L s.U
      let K := lglK b.alpha rho s.L R s.U
      let L := lglL eigh b.tau rho K R s.U
      ⟨K, L, s.U + (R - K + L), R, rho⟩ := by
  have h := lglState_rho eigh hi hd K0 rho j
  change (lglBody eigh b j (lglState eigh b K0 rho j)).1 = _
  unfold lglBody
  simp only [h, updateRho_const hi hd, div_self hr, one_smul]
  split <;> rfl

theorem lglState_one {E : Type*} [Fintype E] [IsEmpty E] {eigh : Eigh n} (he : IsEighOracle eigh) {b : LGLArgs n}
    {A : LTArgs 1 E n} (hA : OneArgs A b) (g : TimePairs 1 E) (hS : b.empCov.IsSymm)
    (hi : b.rhoOptions.tauInc = 1) (hd : b.rhoOptions.tauDec = 1) (K0 : Matrix n n ℝ) {rho : ℝ} (hr : 0 < rho) (j : ℕ) :
    ltIter eigh (ltLogdetR eigh A) g A (fun _ => K0) rho j = oneState (lglState eigh b K0 rho j) := by
  rw [← stateAt_lt eigh (ltLogdetR eigh A) g (a := A) (by rw [hA.ro]; exact hi) (by rw [hA.ro]; exact hd) (fun _ => K0)
    hr.ne' j]
  induction j with
  | zero => apply LTState.ext' <;> rfl
  | succ j ih =>
    change (ltBody eigh (ltLogdetR eigh A) g A j (Lemmas.stateAt _ _ j)).1 = _
    rw [ih, oneBody he hA hS j _ (by rw [lglState_rho eigh hi hd]; exact hr)]
    rfl

theorem asOne_ok {r : LGLReturn n} {K L : Batch 1 n} {h : Option (List GLCheck)} {it : Option ℕ} {w : Bool}
    (e : asOne r = .ok K L h it w) : ∃ K' L' h', r = .ok K' L' h' it w ∧ K = (fun _ => K') ∧ L = (fun _ => L') ∧
      h = h'.map fun l => l.map oneCheck := by
  cases r with
  | unbound => simp [asOne] at e
  | ok K' L' h' it' w' =>
    simp only [asOne, LTReturn.ok.injEq] at e
    obtain ⟨rfl, rfl, rfl, rfl, rfl⟩ := e
    exact ⟨K', L', h', rfl, rfl, rfl, rfl⟩

/-- What calls of `latent_graphical_lasso` do once its passes converge. -/
theorem lgl_calls [Nonempty n] {eigh : Eigh n} (he : IsEighOracle eigh) (a : LGLArgs n) (hS : a.empCov.IsSymm)
    (hi : a.rhoOptions.tauInc = 1) (hd : a.rhoOptions.tauDec = 1) (K0 : Matrix n n ℝ) {rho : ℝ} (hr : 0 < rho)
    {Kl Ll : Matrix n n ℝ}
    (hR : Tendsto (fun j => (lglState eigh a K0 rho j).Rold) atTop (𝓝 (Kl - Ll)))
    (hK : Tendsto (fun j => (lglState eigh a K0 rho j).K) atTop (𝓝 Kl))
    (hL : Tendsto (fun j => (lglState eigh a K0 rho j).L) atTop (𝓝 Ll)) :
    (0 < a.tol → 0 ≤ a.rtol → ∃ M, ∀ m, M ≤ m → ∀ rh rn, ∃ K L h it,
        latentGraphicalLasso eigh a K0 rho m rh rn = .ok K L h it false) ∧
    (∀ ε, 0 < ε → ∃ M, ∀ tol rtol m rh K L h it w,
        latentGraphicalLasso eigh { a with tol := tol, rtol := rtol } K0 rho m rh true = .ok K L h (some it) w →
          M ≤ it → (∀ i j, |K i j - Kl i j| ≤ ε) ∧ ∀ i j, |L i j - Ll i j| ≤ ε) ∧
    ∀ ε, 0 < ε → ∃ δ, 0 < δ ∧ ∃ M, ∀ tol rtol, 0 ≤ tol → tol ≤ δ → 0 ≤ rtol → rtol ≤ δ → ∀ m, M ≤ m → ∀ rn,
      ∃ K L hist it w,
        latentGraphicalLasso eigh { a with tol := tol, rtol := rtol } K0 rho m true rn = .ok K L (some hist) it w ∧
        (((∀ i j, |K i j - Kl i j| ≤ ε) ∧ ∀ i j, |L i j - Ll i j| ≤ ε) ∨ ∃ c ∈ hist, c.rnorm = 0 ∧ c.snorm = 0) := by
  set lim : LSt (Fin 1) (Empty ⊕ Empty) n := ⟨fun _ => Kl - Ll, fun _ => Kl, fun _ => Ll, 0, isEmptyElim, isEmptyElim,
    isEmptyElim, isEmptyElim⟩ with hlim
  have hst := fun j => lglState_one he (oneArgs_ok a) onePairs hS hi hd K0 hr j
  have hemp : ∀ (f : ℕ → (Empty ⊕ Empty) → Matrix n n ℝ) A, Tendsto f atTop (𝓝 A) := fun f A =>
    tendsto_pi_nhds.mpr fun e => isEmptyElim e
  obtain ⟨c1, c2, c3⟩ := lt_calls' one_pos (eigh := eigh) (rUpd := ltLogdetR eigh (oneArgs a)) (g := onePairs)
    (oneArgs a) hi hd (fun _ => K0) hr (lim := lim) rfl (Subsingleton.elim _ _) (Subsingleton.elim _ _)
    (tendsto_pi_nhds.mpr fun t => by simp only [hst]; exact hR)
    (tendsto_pi_nhds.mpr fun t => by simp only [hst]; exact hK)
    (tendsto_pi_nhds.mpr fun t => by simp only [hst]; exact hL) (hemp _ _) (hemp _ _)
  have hrun : ∀ tol rtol m rh rn, ltRun eigh (ltLogdetR eigh (oneArgs a)) onePairs
      { oneArgs a with tol := tol, rtol := rtol } (fun _ => K0) rho m rh rn =
      asOne (latentGraphicalLasso eigh { a with tol := tol, rtol := rtol } K0 rho m rh rn) := fun tol rtol m rh rn =>
    oneRun he (oneArgs_ok { a with tol := tol, rtol := rtol }) hS (by change 0 < a.rhoOptions.tauInc; rw [hi]; exact one_pos)
      (by change 0 < a.rhoOptions.tauDec; rw [hd]; exact one_pos) K0 hr m rh rn
  refine ⟨fun h1 h2 => ?_, fun ε hε => ?_, fun ε hε => ?_⟩
  · obtain ⟨M, hM⟩ := c1 h1 h2
    refine ⟨M, fun m hm rh rn => ?_⟩
    obtain ⟨K, L, h, it, hcall⟩ := hM m hm rh rn
    have e := (hrun a.tol a.rtol m rh rn).symm.trans hcall
    obtain ⟨K', L', h', hok, -⟩ := asOne_ok e
    exact ⟨K', L', h', it, hok⟩
  · obtain ⟨M, hM⟩ := c2 ε hε
    refine ⟨M, fun tol rtol m rh K L h it w hcall hit => ?_⟩
    have e := hrun tol rtol m rh true
    rw [hcall] at e
    have h := hM tol rtol m rh _ _ _ it w e hit
    exact ⟨fun i j => h.1 0 i j, fun i j => h.2 0 i j⟩
  · obtain ⟨δ, hδ, M, hM⟩ := c3 ε hε
    refine ⟨δ, hδ, M, fun tol rtol t0 t1 r0 r1 m hm rn => ?_⟩
    obtain ⟨K, L, hist, it, w, hcall, hor⟩ := hM tol rtol t0 t1 r0 r1 m hm rn
    have e := (hrun tol rtol m true rn).symm.trans hcall
    obtain ⟨K', L', h', hok, rfl, rfl, hh⟩ := asOne_ok e
    cases h' with
    | none => simp at hh
    | some l =>
      simp only [Option.map_some, Option.some.injEq] at hh
      refine ⟨K', L', l, it, w, hok, ?_⟩
      rcases hor with h | ⟨c, hc, h1, h2⟩
      · exact Or.inl ⟨fun i j => h.1 0 i j, fun i j => h.2 0 i j⟩
      · right
        rw [hh] at hc
        obtain ⟨c', hc', rfl⟩ := List.mem_map.mp hc
        exact ⟨c', hc', h1, h2⟩

/-- The objective for one time point. -/
theorem oneObj (b : LGLArgs n) (p : Batch 1 n × Batch 1 n) :
    ldObj (pairEp onePairs) (oneArgs b).empCov (oneArgs b).nSamples (oneArgs b).alpha (oneArgs b).tau
      (pairPen (oneArgs b).wPsi absSumMat) (pairPen (oneArgs b).wPhi absSumMat) p =
    latentObjective b.empCov b.alpha b.tau absSumMat (p.1 0, p.2 0) := by
  rw [ldObj_pair]
  unfold latentObjective negLogLik
  simp [oneArgs]
  ring

theorem oneMin (b : LGLArgs n) (q : Batch 1 n × Batch 1 n) :
    IsMin (LatentSeqFeasible 1 n) (ldObj (pairEp onePairs) (oneArgs b).empCov (oneArgs b).nSamples (oneArgs b).alpha
      (oneArgs b).tau (pairPen (oneArgs b).wPsi absSumMat) (pairPen (oneArgs b).wPhi absSumMat)) q ↔
    IsMin (LatentFeasible n) (latentObjective b.empCov b.alpha b.tau absSumMat) (q.1 0, q.2 0) := by
  constructor
  · rintro ⟨h1, h2⟩
    refine ⟨h1 0, fun r hr => ?_⟩
    have := h2 (fun _ => r.1, fun _ => r.2) (fun _ => hr)
    rwa [oneObj, oneObj] at this
  · rintro ⟨h1, h2⟩
    refine ⟨fun t => by rw [Subsingleton.elim t 0]; exact h1, fun r hr => ?_⟩
    rw [oneObj, oneObj]
    exact h2 (r.1 0, r.2 0) (hr 0)

/-- The states converge to a minimiser under the hypotheses of `C161_converges_partial`. -/
theorem lgl_limits [Nonempty n] {eigh : Eigh n} (he : IsEighOracle eigh) (a : LGLArgs n)
    (hS : a.empCov.PosSemidef) (hal : 0 < a.alpha) (hta : 0 ≤ a.tau)
    (hi : a.rhoOptions.tauInc = 1) (hd : a.rhoOptions.tauDec = 1) (K0 : Matrix n n ℝ) {rho : ℝ} (hr : 0 < rho)
    {c b : ℝ} (hc : 0 < c) (hb : 0 < b) (hrc : rho * (c * b) < 2)
    (hopt : ∀ p, IsMin (LatentFeasible n) (latentObjective a.empCov a.alpha a.tau absSumMat) p →
      (b • 1 - (p.1 - p.2)).PosSemidef)
    (hbd : ∀ᶠ j in atTop, (c • 1 - (lglState eigh a K0 rho j).Rold).PosSemidef) :
    ∃ p : Matrix n n ℝ × Matrix n n ℝ,
      IsMin (LatentFeasible n) (latentObjective a.empCov a.alpha a.tau absSumMat) p ∧
      Tendsto (fun j => (lglState eigh a K0 rho j).Rold) atTop (𝓝 (p.1 - p.2)) ∧
      Tendsto (fun j => (lglState eigh a K0 rho j).K) atTop (𝓝 p.1) ∧
      Tendsto (fun j => (lglState eigh a K0 rho j).L) atTop (𝓝 p.2) := by
  have hSs := hS.isSymm'
  have hcov : Covers onePairs (oneArgs a).divisor n := by
    intro X t
    rw [Finset.univ_eq_empty]
    simp [oneArgs]
  have hpass := fun j => ltLogdet_pass he (g := onePairs) (a := oneArgs a) (fun _ => hS) (fun _ => one_pos) hcov
    (fun _ => one_pos) hal.le (fun e => e.elim) (fun e => e.elim) absSumMat_convexPen absSumMat_convexPen
    soft_isProxOf soft_isProxOf (fun _ => K0) hr j
  have hst := fun j => lglState_one he (oneArgs_ok a) onePairs hSs hi hd K0 hr j
  obtain ⟨lim, hlim, hpd, hR, hT⟩ := ld_main (k := 1) (m := 1) (fun _ => hS) one_pos (fun _ => le_rfl)
    (latPens_pair hal hta (fun e : Empty => e.elim) (fun e => e.elim) absSumMat_convexPen absSumMat_convexPen
      absSumMat_nonneg' absSumMat_nonneg') hr hc hb (by linarith) (fun p hp t => by
      rw [Subsingleton.elim t 0]
      exact hopt (p.1 0, p.2 0) ((oneMin a p).mp hp))
    (fun j => (hpass j).1) (fun j => (hpass j).2) (hbd.mono fun j h t => by
      rw [hst]
      exact h)
  obtain ⟨hmin, -⟩ := ld_min_of_pass (fun _ => hS) (fun _ => one_pos) hlim hpd
  have hfR := hlim.penalties.1
  have hfR0 : lim.R 0 = lim.Z 0 - lim.W 0 := congrFun hfR 0
  have hK : Tendsto (fun j => (lglState eigh a K0 rho j).K) atTop (𝓝 (lim.Z 0)) := by
    have h := ((continuous_apply 0).tendsto lim.Z).comp hT.z
    refine h.congr fun j => ?_
    simp only [Function.comp]
    rw [hst]
    rfl
  have hL : Tendsto (fun j => (lglState eigh a K0 rho j).L) atTop (𝓝 (lim.W 0)) := by
    have h := ((continuous_apply 0).tendsto lim.W).comp hT.w
    refine h.congr fun j => ?_
    simp only [Function.comp]
    rw [hst]
    rfl
  have hR' : Tendsto (fun j => (lglState eigh a K0 rho j).Rold) atTop (𝓝 (lim.Z 0 - lim.W 0)) := by
    have h := ((continuous_apply 0).tendsto lim.R).comp hR
    rw [hfR0] at h
    refine h.congr fun j => ?_
    simp only [Function.comp]
    rw [hst]
    rfl
  exact ⟨(lim.Z 0, lim.W 0), (oneMin a (lim.Z, lim.W)).mp hmin, hR', hK, hL⟩

/-- C161 (part proved): let the penalty be constant, `alpha > 0`, `tau ≥ 0` and `S` PSD. If from some pass on the
matrices `R` computed by `latent_graphical_lasso` have eigenvalues at most `c`, those of the optimal `K - L` are at
most `b` (C157: `d / alpha` will do) and `rho c b < 2`, then there is a minimiser `p` of `tr(S (K - L)) -
log det (K - L) + alpha ‖K‖_1 + tau tr L` such that for positive `tol` every call with `max_iter` large enough ends
without the warning; every call that ran long enough returns a pair as close to `p` as desired, whatever the
tolerances; and for tolerances small enough a call runs that long, unless it recorded a pass with both residuals
exactly zero. MISSING: that the computed `R` stay bounded by such a `c` (proved in `C161_no_latent_converges` when
`tau ≥ d alpha`). -/
theorem C161_converges_partial [Nonempty n] {eigh : Eigh n} (he : IsEighOracle eigh) (a : LGLArgs n)
    (hS : a.empCov.PosSemidef) (hal : 0 < a.alpha) (hta : 0 ≤ a.tau)
    (hi : a.rhoOptions.tauInc = 1) (hd : a.rhoOptions.tauDec = 1) (K0 : Matrix n n ℝ) {rho : ℝ} (hr : 0 < rho)
    {c b : ℝ} (hc : 0 < c) (hb : 0 < b) (hrc : rho * (c * b) < 2)
    (hopt : ∀ p, IsMin (LatentFeasible n) (latentObjective a.empCov a.alpha a.tau absSumMat) p →
      (b • 1 - (p.1 - p.2)).PosSemidef)
    (hbd : ∀ᶠ j in atTop, (c • 1 - (lglState eigh a K0 rho j).Rold).PosSemidef) :
    ∃ p, IsMin (LatentFeasible n) (latentObjective a.empCov a.alpha a.tau absSumMat) p ∧
      (0 < a.tol → 0 ≤ a.rtol → ∃ M, ∀ m, M ≤ m → ∀ rh rn, ∃ K L h it,
        latentGraphicalLasso eigh a K0 rho m rh rn = .ok K L h it false) ∧
      (∀ ε, 0 < ε → ∃ M, ∀ tol rtol m rh K L h it w,
        latentGraphicalLasso eigh { a with tol := tol, rtol := rtol } K0 rho m rh true = .ok K L h (some it) w →
          M ≤ it → (∀ i j, |K i j - p.1 i j| ≤ ε) ∧ ∀ i j, |L i j - p.2 i j| ≤ ε) ∧
      ∀ ε, 0 < ε → ∃ δ, 0 < δ ∧ ∃ M, ∀ tol rtol, 0 ≤ tol → tol ≤ δ → 0 ≤ rtol → rtol ≤ δ → ∀ m, M ≤ m → ∀ rn,
        ∃ K L hist it w,
          latentGraphicalLasso eigh { a with tol := tol, rtol := rtol } K0 rho m true rn = .ok K L (some hist) it w ∧
          (((∀ i j, |K i j - p.1 i j| ≤ ε) ∧ ∀ i j, |L i j - p.2 i j| ≤ ε) ∨
            ∃ c ∈ hist, c.rnorm = 0 ∧ c.snorm = 0) := by
  obtain ⟨p, hmin, hR, hK, hL⟩ := lgl_limits he a hS hal hta hi hd K0 hr hc hb hrc hopt hbd
  obtain ⟨c1, c2, c3⟩ := lgl_calls he a hS.isSymm' hi hd K0 hr hR hK hL
  exact ⟨p, hmin, c1, c2, c3⟩

/-- The states when `tau ≥ d alpha`, as passes without a latent part. -/
theorem noLatent_passRun {eigh : Eigh n} (he : IsEighOracle eigh) {a : LGLArgs n} (hS : a.empCov.IsSymm)
    (hal : 0 ≤ a.alpha) (ht : Fintype.card n * a.alpha ≤ a.tau)
    (hi : a.rhoOptions.tauInc = 1) (hd : a.rhoOptions.tauDec = 1) (K0 : Matrix n n ℝ) {rho : ℝ} (hr : 0 < rho) :
    (∀ j, (lglState eigh a K0 rho j).L = 0) ∧
    PassRun onePairs (fun _ => 1) (fun _ => a.empCov) (fun _ => 1) a.alpha Empty.elim
      (softThresholdingMat (m := n) (n := n)) rho
      (fun j _ => (lglState eigh a K0 rho (j + 1)).Rold) (fun j _ => (lglState eigh a K0 rho j).K)
      (fun j _ => (lglState eigh a K0 rho j).U) (fun _ => Empty.elim) (fun _ => Empty.elim) (fun _ => Empty.elim)
      (fun _ => Empty.elim) := by
  have hsucc := fun j => lglState_succ eigh hi hd K0 hr.ne' j
  have hL : ∀ j, (lglState eigh a K0 rho j).L = 0 := fun j =>
    (stateAt_invariant (lglBody eigh a) (fun s => s.L = 0 ∧ 0 < s.rho)
      (fun it s hs => lglBody_L_zero he hal ht (by rw [hi]; exact one_pos) (by rw [hd]; exact one_pos) it s hs)
      (s := lglInit K0 rho) ⟨rfl, hr⟩ j).1
  have hRpd : ∀ j, (lglState eigh a K0 rho (j + 1)).Rold.PosDef := fun j => by
    rw [hsucc]
    exact lglR_posDef he hS hr _ _ _
  have hU : ∀ j, (lglState eigh a K0 rho j).U.IsSymm := by
    intro j
    induction j with
    | zero => exact (by rw [IsSymm, transpose_zero] : (0 : Matrix n n ℝ).IsSymm)
    | succ j ih =>
      have h1 := hRpd j
      have h2 := hL (j + 1)
      rw [hsucc] at h1 h2 ⊢
      simp only at h1 h2 ⊢
      rw [h2]
      have h3 : (lglState eigh a K0 rho j).L = 0 := hL j
      have h4 : (lglK a.alpha rho (lglState eigh a K0 rho j).L (lglR eigh a.empCov rho (lglState eigh a K0 rho j).K
          (lglState eigh a K0 rho j).L (lglState eigh a K0 rho j).U) (lglState eigh a K0 rho j).U).IsSymm := by
        unfold lglK
        refine softMat_isSymm ?_ _
        rw [h3] at h1 ⊢
        rw [zero_add]
        exact isSymm_add' h1.isSymm' ih
      rw [add_zero]
      exact isSymm_add' ih (isSymm_sub' h1.isSymm' h4)
  refine ⟨hL, fun j _ => hRpd j, fun j t => ?_, fun j t => ?_, fun j e => e.elim, fun j e => e.elim, fun j t => ?_,
    fun j e => e.elim, fun j e => e.elim⟩
  · have h := logdetStep_spec he hS one_pos hr ((lglState eigh a K0 rho j).K - (lglState eigh a K0 rho j).L
      - (lglState eigh a K0 rho j).U)
    have e : (-rho / 1) • symmetrize ((lglState eigh a K0 rho j).K - (lglState eigh a K0 rho j).L
        - (lglState eigh a K0 rho j).U) + a.empCov = a.empCov - rho • symmetrize ((lglState eigh a K0 rho j).K
        - (lglState eigh a K0 rho j).L - (lglState eigh a K0 rho j).U) := by
      rw [div_one, neg_smul]; abel
    have h1 := h.2
    rw [e] at h1
    rw [scatter_empty, scatter_empty, add_zero, add_zero, mul_one]
    have e2 : (lglState eigh a K0 rho (j + 1)).Rold = proxLogdet (eigh (a.empCov - rho • symmetrize
        ((lglState eigh a K0 rho j).K - (lglState eigh a K0 rho j).L - (lglState eigh a K0 rho j).U))).1
        (eigh (a.empCov - rho • symmetrize ((lglState eigh a K0 rho j).K - (lglState eigh a K0 rho j).L
        - (lglState eigh a K0 rho j).U))).2 (1 / rho) := by
      rw [hsucc]
      rfl
    rw [← e2] at h1
    rw [hL j, sub_zero] at h1
    exact h1
  · have h1 := hRpd j
    have h3 := hU j
    rw [hsucc] at h1 ⊢
    simp only at h1 ⊢
    unfold tglZ0
    rw [symmetrize_of_isSymm (isSymm_add' h1.isSymm' h3)]
    unfold lglK
    rw [hL j, zero_add]
  · have h2 := hL (j + 1)
    rw [hsucc] at h2 ⊢
    simp only at h2 ⊢
    rw [h2, add_zero]

/-- The states converge to the minimiser without latent part when `tau ≥ d alpha`. -/
theorem noLatent_limits [Nonempty n] {eigh : Eigh n} (he : IsEighOracle eigh) (a : LGLArgs n)
    (hS : a.empCov.PosSemidef) (hal : 0 < a.alpha) (ht : Fintype.card n * a.alpha ≤ a.tau)
    (hi : a.rhoOptions.tauInc = 1) (hd : a.rhoOptions.tauDec = 1) (K0 : Matrix n n ℝ) {rho : ℝ} (hr : 0 < rho) :
    ∃ X, UniqueMin (PD n) (fun X => trace (a.empCov * X) - Real.log X.det + a.alpha * absSumMat X) X ∧
      IsMin (LatentFeasible n) (latentObjective a.empCov a.alpha a.tau absSumMat) (X, 0) ∧
      Tendsto (fun j => (lglState eigh a K0 rho j).Rold) atTop (𝓝 X) ∧
      Tendsto (fun j => (lglState eigh a K0 rho j).K) atTop (𝓝 X) ∧
      ∀ j, (lglState eigh a K0 rho j).L = 0 := by
  have hSs := hS.isSymm'
  obtain ⟨hL, hrun⟩ := noLatent_passRun he hSs hal.le ht hi hd K0 hr
  have hcov : Covers onePairs (fun _ => (1 : ℝ)) n := by
    intro X t
    rw [Finset.univ_eq_empty]
    simp
  obtain ⟨X, hX, -, -, hR, hK, -⟩ := hrun.main hcov (fun _ => hS) (fun _ => one_pos) hal hr (fun e => e.elim)
    absSumMat_convexPen absSumMat_nonneg' soft_isProxOf
  have hobj : ∀ Y : Batch 1 n, pairTimeObjective onePairs (fun _ => a.empCov) (fun _ => 1) a.alpha Empty.elim absSumMat Y =
      trace (a.empCov * Y 0) - Real.log (Y 0).det + a.alpha * absSumMat (Y 0) := by
    intro Y
    unfold pairTimeObjective negLogLik
    simp
  have hU : UniqueMin (PD n) (fun X => trace (a.empCov * X) - Real.log X.det + a.alpha * absSumMat X) (X 0) := by
    refine ⟨hX.1 0, fun Y hY hne => ?_⟩
    have h := hX.2 (fun _ => Y) (fun _ => hY) (fun h => hne (by rw [← h]))
    rw [hobj, hobj] at h
    exact h
  have hmin : IsMin (LatentFeasible n) (latentObjective a.empCov a.alpha a.tau absSumMat) (X 0, 0) := by
    refine ⟨⟨by simp only [sub_zero]; exact hX.1 0, PosSemidef.zero⟩, fun q hq => ?_⟩
    have h1 := latent_drop (S := a.empCov) (K := q.1) (tau := a.tau) hal.le hq.2
    have h2 : (0 : ℝ) ≤ (a.tau - Fintype.card n * a.alpha) * trace q.2 :=
      mul_nonneg (sub_nonneg.mpr ht) hq.2.trace_nonneg
    have h3 := hU.isMin.2 (q.1 - q.2) hq.1
    have e : ∀ Y : Matrix n n ℝ, latentObjective a.empCov a.alpha a.tau absSumMat (Y, 0) =
        trace (a.empCov * Y) - Real.log Y.det + a.alpha * absSumMat Y := by
      intro Y
      unfold latentObjective
      simp
    rw [e] at h1 ⊢
    linarith
  have hR' : Tendsto (fun j => (lglState eigh a K0 rho j).Rold) atTop (𝓝 (X 0)) :=
    (tendsto_add_atTop_iff_nat (f := fun j => (lglState eigh a K0 rho j).Rold) 1).mp (hR 0)
  exact ⟨X 0, hU, hmin, hR', hK 0, hL⟩

/-- C161: with `tau ≥ d alpha` and any constant penalty `latent_graphical_lasso` converges: the problem has a minimiser
`(X, 0)`, `X` the unique minimiser of `tr(S X) - log det X + alpha ‖X‖_1`, and the calls behave as in
`C161_converges_partial`, with `L = 0` exactly. -/
theorem C161_no_latent_converges [Nonempty n] {eigh : Eigh n} (he : IsEighOracle eigh) (a : LGLArgs n)
    (hS : a.empCov.PosSemidef) (hal : 0 < a.alpha) (ht : Fintype.card n * a.alpha ≤ a.tau)
    (hi : a.rhoOptions.tauInc = 1) (hd : a.rhoOptions.tauDec = 1) (K0 : Matrix n n ℝ) {rho : ℝ} (hr : 0 < rho) :
    ∃ X, UniqueMin (PD n) (fun X => trace (a.empCov * X) - Real.log X.det + a.alpha * absSumMat X) X ∧
      IsMin (LatentFeasible n) (latentObjective a.empCov a.alpha a.tau absSumMat) (X, 0) ∧
      Tendsto (fun j => (lglState eigh a K0 rho j).Rold) atTop (𝓝 X) ∧
      (0 < a.tol → 0 ≤ a.rtol → ∃ M, ∀ m, M ≤ m → ∀ rh rn, ∃ K h it,
        latentGraphicalLasso eigh a K0 rho m rh rn = .ok K 0 h it false) ∧
      (∀ ε, 0 < ε → ∃ M, ∀ tol rtol m rh K L h it w,
        latentGraphicalLasso eigh { a with tol := tol, rtol := rtol } K0 rho m rh true = .ok K L h (some it) w →
          M ≤ it → (∀ i j, |K i j - X i j| ≤ ε) ∧ L = 0) ∧
      ∀ ε, 0 < ε → ∃ δ, 0 < δ ∧ ∃ M, ∀ tol rtol, 0 ≤ tol → tol ≤ δ → 0 ≤ rtol → rtol ≤ δ → ∀ m, M ≤ m → ∀ rn,
        ∃ K hist it w,
          latentGraphicalLasso eigh { a with tol := tol, rtol := rtol } K0 rho m true rn = .ok K 0 (some hist) it w ∧
          ((∀ i j, |K i j - X i j| ≤ ε) ∨ ∃ c ∈ hist, c.rnorm = 0 ∧ c.snorm = 0) := by
  have hSs := hS.isSymm'
  obtain ⟨X, hU, hmin, hR', hK, hL⟩ := noLatent_limits he a hS hal ht hi hd K0 hr
  have hno : ∀ tol rtol m rh rn K L h it w,
      latentGraphicalLasso eigh { a with tol := tol, rtol := rtol } K0 rho m rh rn = .ok K L h it w → L = 0 :=
    fun tol rtol m rh rn K L h it w hcall => C160_no_latent he { a with tol := tol, rtol := rtol } hal.le ht
      (by change 0 < a.rhoOptions.tauInc; rw [hi]; exact one_pos)
      (by change 0 < a.rhoOptions.tauDec; rw [hd]; exact one_pos) K0 hr m rh rn hcall
  obtain ⟨c1, c2, c3⟩ := lgl_calls he a hSs hi hd K0 hr (Kl := X) (Ll := 0) (by rw [sub_zero]; exact hR') hK
    (by simp only [hL]; exact tendsto_const_nhds)
  refine ⟨X, hU, hmin, hR', fun h1 h2 => ?_, fun ε hε => ?_, fun ε hε => ?_⟩
  · obtain ⟨M, hM⟩ := c1 h1 h2
    refine ⟨M, fun m hm rh rn => ?_⟩
    obtain ⟨K, L, h, it, hcall⟩ := hM m hm rh rn
    have h0 := hno a.tol a.rtol m rh rn K L h it false hcall
    rw [h0] at hcall
    exact ⟨K, h, it, hcall⟩
  · obtain ⟨M, hM⟩ := c2 ε hε
    exact ⟨M, fun tol rtol m rh K L h it w hcall hit =>
      ⟨(hM tol rtol m rh K L h it w hcall hit).1, hno tol rtol m rh true K L h (some it) w hcall⟩⟩
  · obtain ⟨δ, hδ, M, hM⟩ := c3 ε hε
    refine ⟨δ, hδ, M, fun tol rtol t0 t1 r0 r1 m hm rn => ?_⟩
    obtain ⟨K, L, hist, it, w, hcall, hor⟩ := hM tol rtol t0 t1 r0 r1 m hm rn
    have h0 := hno tol rtol m true rn K L (some hist) it w hcall
    rw [h0] at hcall
    exact ⟨K, hist, it, w, hcall, hor.imp_left fun h => h.1⟩

/-- A bound on the limit is, up to a margin, a bound on the tail. -/
theorem eventually_below {f : ℕ → Matrix n n ℝ} {X : Matrix n n ℝ} (hf : Tendsto f atTop (𝓝 X)) (hs : ∀ j, (f j).IsSymm)
    (hX : X.IsSymm) {b c : ℝ} (hb : (b • 1 - X).PosSemidef) (hbc : b < c) :
    ∀ᶠ j in atTop, (c • 1 - f j).PosSemidef := by
  set δ : ℝ := (c - b) / (Fintype.card n + 1) with hδ
  have hp : (0 : ℝ) < Fintype.card n + 1 := by positivity
  have hδp : 0 < δ := div_pos (sub_pos.mpr hbc) hp
  have hev := closeSeq_eventually (k := 1) (X := fun _ => X) (f := fun j _ => f j) (fun _ => hf) hδp
  refine hev.mono fun j hj => ?_
  have hd : ∀ i l, |f j i l - X i l| ≤ δ := fun i l => hj 0 i l
  have h1 : ((c - b) • 1 - (f j - X)).PosDef := by
    refine posDef_of_dominant (c := δ) ?_ hδp fun i => ?_
    · have h0 : ((c - b) • (1 : Matrix n n ℝ)).IsSymm := by rw [IsSymm, transpose_smul, transpose_one]
      exact isSymm_sub' h0 (isSymm_sub' (hs j) hX)
    · have h2 : (∑ l, if i = l then 0 else |((c - b) • (1 : Matrix n n ℝ) - (f j - X)) i l|) ≤
          ∑ l, (if i = l then 0 else δ) := by
        refine Finset.sum_le_sum fun l _ => ?_
        split
        · exact le_rfl
        · rename_i hne
          simp only [Matrix.sub_apply, Matrix.smul_apply, smul_eq_mul]
          rw [one_apply_ne hne, mul_zero, zero_sub, abs_neg]
          exact hd i l
      have h3 : ∑ l, (if i = l then 0 else δ) = Fintype.card n * δ - δ := by
        have e : ∀ l, (if i = l then (0 : ℝ) else δ) = δ - if i = l then δ else 0 := by
          intro l
          split <;> ring
        simp only [e]
        rw [Finset.sum_sub_distrib, Finset.sum_const, Finset.card_univ, nsmul_eq_mul]
        simp
      have h4 : ((c - b) • (1 : Matrix n n ℝ) - (f j - X)) i i = c - b - (f j i i - X i i) := by
        simp
      rw [h4]
      have h5 := (abs_le.mp (hd i i)).2
      have h6 : (Fintype.card n + 1) * δ = c - b := mul_div_cancel₀ _ hp.ne'
      linarith
  have h2 := hb.add h1.posSemidef
  have e : b • 1 - X + ((c - b) • 1 - (f j - X)) = c • 1 - f j := by
    rw [sub_smul]
    abel
  rw [e] at h2
  exact h2

/-- The bound of C157 as a bound on the eigenvalues. -/
theorem optimum_below {S : Matrix n n ℝ} (hS : S.PosSemidef) {alpha tau : ℝ} (hal : 0 < alpha) (hta : 0 ≤ tau)
    {p : Matrix n n ℝ × Matrix n n ℝ} (hp : IsMin (LatentFeasible n) (latentObjective S alpha tau absSumMat) p) :
    ((Fintype.card n / alpha) • 1 - (p.1 - p.2)).PosSemidef := by
  obtain ⟨q, -, h⟩ := C157_single hS hal hta
  have h1 := (h p hp).2
  have h2 := le_trace_of_posSemidef hp.1.1.posSemidef
  have h3 : ((Fintype.card n / alpha - trace (p.1 - p.2)) • (1 : Matrix n n ℝ)).PosSemidef :=
    PosSemidef.one.smul (sub_nonneg.mpr h1)
  have h4 := h3.add h2
  have e : (Fintype.card n / alpha - trace (p.1 - p.2)) • (1 : Matrix n n ℝ) + (trace (p.1 - p.2) • 1 - (p.1 - p.2)) =
      (Fintype.card n / alpha) • 1 - (p.1 - p.2) := by
    rw [sub_smul]
    abel
  rw [e] at h4
  exact h4

theorem lglState_R_symm {eigh : Eigh n} (he : IsEighOracle eigh) {a : LGLArgs n} (hS : a.empCov.IsSymm)
    (hi : a.rhoOptions.tauInc = 1) (hd : a.rhoOptions.tauDec = 1) (K0 : Matrix n n ℝ) {rho : ℝ} (hr : 0 < rho) (j : ℕ) :
    (lglState eigh a K0 rho j).Rold.IsSymm := by
  cases j with
  | zero => exact (by rw [IsSymm, transpose_zero] : (0 : Matrix n n ℝ).IsSymm)
  | succ j =>
    rw [lglState_succ eigh hi hd K0 hr.ne']
    exact (lglR_posDef he hS hr _ _ _).isSymm'

/-- Non-vacuity: the hypotheses of `C161_converges_partial`, the bound on the computed matrices included, hold for
`tau ≥ d alpha` and a penalty with `rho (d / alpha) (d / alpha + 1) < 2`. -/
theorem noLatent_bound [Nonempty n] {eigh : Eigh n} (he : IsEighOracle eigh) (a : LGLArgs n)
    (hS : a.empCov.PosSemidef) (hal : 0 < a.alpha) (ht : Fintype.card n * a.alpha ≤ a.tau)
    (hi : a.rhoOptions.tauInc = 1) (hd : a.rhoOptions.tauDec = 1) (K0 : Matrix n n ℝ) {rho : ℝ} (hr : 0 < rho) :
    ∀ᶠ j in atTop, ((Fintype.card n / a.alpha + 1) • 1 - (lglState eigh a K0 rho j).Rold).PosSemidef := by
  have hta : 0 ≤ a.tau := le_trans (by positivity) ht
  obtain ⟨X, hX, hmin, hR, -⟩ := C161_no_latent_converges he a hS hal ht hi hd K0 hr
  have h := optimum_below hS hal hta hmin
  simp only [sub_zero] at h
  exact eventually_below hR (fun j => lglState_R_symm he hS.isSymm' hi hd K0 hr j) (PosDef.isSymm' hX.1) h (by linarith)

example : ∃ (eigh : Eigh (Fin 2)) (a : LGLArgs (Fin 2)) (rho c b : ℝ), IsEighOracle eigh ∧ a.empCov.PosSemidef ∧
    0 < a.alpha ∧ 0 ≤ a.tau ∧ a.rhoOptions.tauInc = 1 ∧ a.rhoOptions.tauDec = 1 ∧ 0 < rho ∧ 0 < c ∧ 0 < b ∧
    rho * (c * b) < 2 ∧
    (∀ p, IsMin (LatentFeasible (Fin 2)) (latentObjective a.empCov a.alpha a.tau absSumMat) p →
      (b • 1 - (p.1 - p.2)).PosSemidef) ∧
    ∀ᶠ j in atTop, (c • 1 - (lglState eigh a 1 rho j).Rold).PosSemidef := by
  obtain ⟨eigh, he⟩ := exists_eighOracle (n := Fin 2)
  set a : LGLArgs (Fin 2) := ⟨1, 1, 2, 1, 1, { tauInc := 1, tauDec := 1 }, true⟩ with ha
  refine ⟨eigh, a, 1 / 4, Fintype.card (Fin 2) / a.alpha + 1, Fintype.card (Fin 2) / a.alpha, he, PosSemidef.one, one_pos,
    zero_le_two, rfl, rfl, by norm_num, by norm_num [ha], by norm_num [ha], by norm_num [ha],
    fun p hp => optimum_below PosSemidef.one one_pos zero_le_two hp,
    noLatent_bound he a PosSemidef.one one_pos (by norm_num [ha]) rfl rfl 1 (by norm_num)⟩

/-- Non-vacuity: the hypotheses of `C158_chain_partial`, likewise. -/
example : ∃ (eigh : Eigh (Fin 2)) (o : LTOptions (0 + 1) (Fin 2)) (rho c b : ℝ), IsEighOracle eigh ∧
    (∀ t, (o.empCov t).PosSemidef) ∧ (∀ t, 1 ≤ o.nSamples t) ∧
    0 < o.alpha ∧ 0 ≤ o.tau ∧ ConvexPen (absSumMat (m := Fin 2) (n := Fin 2)) ∧ IsProxOf absSumMat o.proxPsi ∧
    IsProxOf absSumMat o.proxPhi ∧ o.rhoOptions.tauInc = 1 ∧ o.rhoOptions.tauDec = 1 ∧ 0 < rho ∧ 0 < c ∧ 0 < b ∧
    rho * (c * b) < 2 * 1 ∧
    (∀ p, IsMin (LatentSeqFeasible (0 + 1) (Fin 2))
      (latentTimeObjective o.empCov o.nSamples o.alpha o.tau 0 0 absSumMat absSumMat absSumMat) p →
      ∀ t, (b • 1 - (p.1 t - p.2 t)).PosSemidef) ∧
    ∀ᶠ j in atTop, ∀ t, (c • 1 - (ltIter eigh (ltLogdetR eigh (chainArgs o 0 0)) (chainPairs 0)
      (chainArgs o 0 0) (fun _ => 1) rho j).Rold t).PosSemidef := by
  obtain ⟨eigh, he⟩ := exists_eighOracle (n := Fin 2)
  set a : LGLArgs (Fin 2) := ⟨1, 1, 2, 1, 1, { tauInc := 1, tauDec := 1 }, true⟩ with ha
  have hdiv : (chainArgs (T := 0) (oneOptions a softThresholdingMat softThresholdingMat) 0 0).divisor = fun _ => 1 := by
    funext t
    change tglDivisor (T := 0) t = 1
    rw [show t = 0 from Fin.ext (by omega)]
    unfold tglDivisor
    norm_num
  have hA : OneArgs (chainArgs (T := 0) (oneOptions a softThresholdingMat softThresholdingMat) 0 0) a :=
    ⟨rfl, rfl, rfl, rfl, hdiv, rfl, rfl, rfl⟩
  have hbd := noLatent_bound he a PosSemidef.one one_pos (by norm_num [ha]) rfl rfl 1 (rho := 1 / 4) (by norm_num)
  refine ⟨eigh, oneOptions a softThresholdingMat softThresholdingMat, 1 / 4, Fintype.card (Fin 2) / a.alpha + 1,
    Fintype.card (Fin 2) / a.alpha, he, fun _ => PosSemidef.one, fun _ => le_rfl, one_pos,
    zero_le_two, absSumMat_convexPen, soft_isProxOf, soft_isProxOf, rfl, rfl, by norm_num, by norm_num [ha],
    by norm_num [ha], by norm_num [ha], fun p hp t => ?_, hbd.mono fun j h t => ?_⟩
  · have hq : IsMin (LatentFeasible (Fin 2)) (latentObjective a.empCov a.alpha a.tau absSumMat) (p.1 0, p.2 0) := by
      refine ⟨hp.1 0, fun r hr => ?_⟩
      have := hp.2 (fun _ => r.1, fun _ => r.2) (fun _ => hr)
      exact (latent_single _ _ _ _).symm.le.trans (this.trans (latent_single _ _ _ _).le)
    rw [show t = 0 from Fin.ext (by omega)]
    exact optimum_below PosSemidef.one one_pos zero_le_two hq
  · have e := lglState_one he hA (chainPairs 0) (by rw [IsSymm]; exact transpose_one) rfl rfl 1
      (rho := 1 / 4) (by norm_num) j
    exact (congrArg (fun s : LTState 1 (Fin 0) (Fin 2) => ((Fintype.card (Fin 2) / a.alpha + 1) • 1 - s.Rold t).PosSemidef)
      e).mpr h

end Verif.Props
