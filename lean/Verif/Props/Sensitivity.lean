import Verif.Lemmas.Sensitivity
import Verif.Props.GLExist
import Verif.Props.Screen
import Verif.Props.Moments
import Verif.Props.TimeConv
import Verif.Props.LatentLogdet

/-! Property theorems C194 (small changes of the data), C195 (the regularisation path) and C196 (units). -/

namespace Verif.Props

open Verif.Model Verif.Spec Verif.Lemmas Matrix Filter Topology

set_option autoImplicit false
set_option linter.unusedSectionVars false

variable {n : Type*} [Fintype n] [DecidableEq n] {k : ℕ}

/-! ### C194: data -/

theorem absSumOff_convexPen : ConvexPen (absSumOff : Matrix n n ℝ → ℝ) := by
  rw [← diagPen_zero]
  exact diagPen_convex le_rfl

theorem gl_as_seq (S : Matrix n n ℝ) (alpha : ℝ) (X : Matrix n n ℝ)
    (hX : IsMin (PD n) (glObjective S alpha) X) :
    IsMin (PDSeq 1 n) (fun Y => negLogLik (fun _ => S) (fun _ => 1) Y + alpha * ∑ t, absSumOff (Y t)) (fun _ => X) := by
  refine ⟨fun _ => hX.1, fun Y hY => ?_⟩
  have h := hX.2 (Y 0) (hY 0)
  unfold glObjective at h
  unfold negLogLik
  simp only [Fin.sum_univ_one, one_mul]
  exact h

/-- C194 (graphical lasso). The optima of two problems with the same penalty differ by at most the difference of
the covariances times the two traces. -/
theorem C194_graphical_lasso {S S' X X' : Matrix n n ℝ} {alpha : ℝ} (hal : 0 ≤ alpha) (hS : S.IsSymm)
    (hS' : S'.IsSymm) (hX : IsMin (PD n) (glObjective S alpha) X) (hX' : IsMin (PD n) (glObjective S' alpha) X') :
    froNorm (X' - X) ≤ trace X * trace X' * froNorm (S' - S) := by
  have hXp : X.PosDef := hX.1
  have hXp' : X'.PosDef := hX'.1
  have hF := (segConvex_pen (k := 1) (absSumOff_convexPen (n := n))).const_mul hal
  have h := loglik_two (k := 1) (fun _ => hS) (fun _ => hS') (fun _ => zero_le_one)
    (F := fun Y => alpha * ∑ t, absSumOff (Y t)) (F' := fun Y => alpha * ∑ t, absSumOff (Y t)) hF hF (gl_as_seq S alpha X hX)
    (gl_as_seq S' alpha X' hX')
  simp only [Fin.sum_univ_one, one_mul, sub_self, add_zero] at h
  have h1 := inv_strict_mono hXp' hXp
  have ht := hXp.posSemidef.trace_nonneg
  have ht' := hXp'.posSemidef.trace_nonneg
  have h2 : frobInner (S - S') (X' - X) ≤ froNorm (S' - S) * froNorm (X' - X) := by
    have h5 := (le_abs_self _).trans (abs_frobInner_le (S - S') (X' - X))
    have e : froNorm (S - S') = froNorm (S' - S) := by
      rw [froNorm_eq_sqrt, froNorm_eq_sqrt, ← neg_sub, frobSq_neg]
    rwa [e] at h5
  have h3 : froNorm (X' - X) * froNorm (X' - X)
      ≤ (trace X * trace X' * froNorm (S' - S)) * froNorm (X' - X) := by
    rw [← pow_two, froNorm_sq]
    calc frobSq (X' - X) ≤ trace X' * trace X * frobInner (X⁻¹ - X'⁻¹) (X' - X) := h1
      _ ≤ trace X' * trace X * (froNorm (S' - S) * froNorm (X' - X)) :=
          mul_le_mul_of_nonneg_left (h.trans h2) (mul_nonneg ht' ht)
      _ = _ := by ring
  rcases (froNorm_nonneg (X' - X)).eq_or_lt with h0 | h0
  · rw [← h0]
    exact mul_nonneg (mul_nonneg ht ht') (froNorm_nonneg _)
  · exact le_of_mul_le_mul_right h3 h0

/-- C194 (graphical lasso): the traces are controlled by the variances and `alpha`, so the constant is explicit. -/
theorem C194_trace {S X : Matrix n n ℝ} {alpha s m : ℝ} (hal : 0 < alpha) (hS : S.PosSemidef) (hs : 0 < s)
    (hsd : ∀ i, s ≤ S i i) (hm0 : 0 ≤ m) (hm : ∀ i j, i ≠ j → |S i j| ≤ m)
    (hX : IsMin (PD n) (glObjective S alpha) X) :
    trace X ≤ Fintype.card n * (1 + m / alpha) / s := by
  have hXp : X.PosDef := hX.1
  have hF := (segConvex_pen (k := 1) (absSumOff_convexPen (n := n))).const_mul hal.le
  have h := penalty_le (k := 1) (S := fun _ => S) (w := fun _ => 1) (fun _ => hS) (fun _ => zero_le_one) hF
    (by simp [absSumOff]) (gl_as_seq S alpha X hX)
  simp only [Fin.sum_univ_one, one_mul, mul_one] at h
  have h1 : 0 ≤ trace (S * X) := trace_mul_nonneg' hS hXp
  have h2 : s * trace X - m * absSumOff X ≤ trace (S * X) := by
    have e : trace (S * X) = ∑ i, ∑ j, S i j * X i j := by
      rw [← frobInner_eq_trace_of_symm hS.isSymm']
      rfl
    rw [e]
    unfold absSumOff trace
    rw [Finset.mul_sum, Finset.mul_sum, ← Finset.sum_sub_distrib]
    refine Finset.sum_le_sum fun i _ => ?_
    have e2 : ∑ j, S i j * X i j = S i i * X i i + ∑ j, if i = j then 0 else S i j * X i j := by
      have : ∀ j, S i j * X i j = (if j = i then S i i * X i i else 0) + if i = j then 0 else S i j * X i j := by
        intro j
        by_cases hj : j = i
        · subst hj; simp
        · simp [hj, Ne.symm hj]
      rw [Finset.sum_congr rfl fun j _ => this j, Finset.sum_add_distrib, Finset.sum_ite_eq' Finset.univ i]
      simp
    rw [e2, diag_apply]
    have h3 : s * X i i ≤ S i i * X i i := mul_le_mul_of_nonneg_right (hsd i) hXp.diag_pos.le
    have h4 : -(m * ∑ j, if i = j then 0 else |X i j|) ≤ ∑ j, if i = j then 0 else S i j * X i j := by
      rw [Finset.mul_sum, ← Finset.sum_neg_distrib]
      refine Finset.sum_le_sum fun j _ => ?_
      by_cases hij : i = j
      · simp [hij]
      · simp only [hij, if_false]
        have h5 := neg_abs_le (S i j * X i j)
        rw [abs_mul] at h5
        have := mul_le_mul_of_nonneg_right (hm i j hij) (abs_nonneg (X i j))
        linarith
    linarith
  have h6 : alpha * absSumOff X ≤ Fintype.card n := by linarith
  have h7 : absSumOff X ≤ Fintype.card n / alpha := by
    rw [le_div_iff₀ hal]; linarith
  have h8 : 0 ≤ alpha * absSumOff X := by
    have : 0 ≤ absSumOff X := absSumOff_nonneg' X
    positivity
  rw [le_div_iff₀ hs]
  have h9 := mul_le_mul_of_nonneg_left h7 hm0
  have e : (Fintype.card n : ℝ) * (1 + m / alpha) = Fintype.card n + m * (Fintype.card n / alpha) := by
    field_simp
  rw [e]
  linarith

/-- C194 (sequences). For every convex penalty of the differences that is nonnegative and zero at zero, chained or
weighted by a kernel (`F`), the optima of two problems with the same sample sizes and penalties satisfy
`∑ n_t ‖X'_t - X_t‖² ≤ (d N / alpha)⁴ ∑ n_t ‖S'_t - S_t‖²` (`d` variables, `N` observations in all). -/
theorem C194_pooled {S S' X X' : Fin k → Matrix n n ℝ} {w : Fin k → ℝ} (hS : ∀ t, (S t).PosSemidef)
    (hS' : ∀ t, (S' t).PosSemidef) (hw : ∀ t, 0 ≤ w t) {alpha : ℝ} (hal : 0 < alpha)
    {F : (Fin k → Matrix n n ℝ) → ℝ} (hF : SegConvex F) (hpos : ∀ K, 0 ≤ F K) (hF0 : F (fun _ => 0) = 0)
    (hX : IsMin (PDSeq k n) (fun Y => negLogLik S w Y + alpha * ∑ t, absSumMat (Y t) + F Y) X)
    (hX' : IsMin (PDSeq k n) (fun Y => negLogLik S' w Y + alpha * ∑ t, absSumMat (Y t) + F Y) X') :
    ∑ t, w t * frobSq (X' t - X t)
      ≤ (Fintype.card n * (∑ t, w t) / alpha) ^ 4 * ∑ t, w t * frobSq (S' t - S t) := by
  have hG : SegConvex (fun Y : Fin k → Matrix n n ℝ => alpha * ∑ t, absSumMat (Y t) + F Y) :=
    ((segConvex_pen absSumMat_convexPen).const_mul hal.le).add hF
  have hG0 : (fun Y : Fin k → Matrix n n ℝ => alpha * ∑ t, absSumMat (Y t) + F Y) (fun _ => 0) = 0 := by
    simp [hF0, absSumMat]
  have tr : ∀ {Q Y : Fin k → Matrix n n ℝ}, (∀ t, (Q t).PosSemidef) →
      IsMin (PDSeq k n) (fun Y => negLogLik Q w Y + (alpha * ∑ t, absSumMat (Y t) + F Y)) Y →
      ∀ t, trace (Y t) ≤ Fintype.card n * (∑ t, w t) / alpha := by
    intro Q Y hQ hY t
    have hYp : ∀ t, (Y t).PosDef := hY.1
    have h := penalty_le hQ hw hG hG0 hY
    have h1 : 0 ≤ ∑ t, w t * trace (Q t * Y t) := Finset.sum_nonneg fun t _ =>
      mul_nonneg (hw t) (trace_mul_nonneg' (hQ t) (hYp t))
    have h2 := hpos Y
    have h3 : trace (Y t) ≤ ∑ t, absSumMat (Y t) :=
      trace_le_absSumMat.trans (Finset.single_le_sum (f := fun t => absSumMat (Y t))
        (fun t _ => absSumMat_nonneg' _) (Finset.mem_univ t))
    rw [le_div_iff₀ hal]
    have := mul_le_mul_of_nonneg_left h3 hal.le
    linarith
  simp only [add_assoc] at hX hX'
  have h := loglik_two (fun t => (hS t).isSymm') (fun t => (hS' t).isSymm') hw
    (F := fun Y => alpha * ∑ t, absSumMat (Y t) + F Y) (F' := fun Y => alpha * ∑ t, absSumMat (Y t) + F Y) hG hG hX hX'
  rw [sub_self, add_zero] at h
  have h2 := distance_of_two hw hX.1 hX'.1 (tr hS hX) (tr hS' hX') h
  have e : ∀ t, frobSq (S t - S' t) = frobSq (S' t - S t) := fun t => by rw [← neg_sub, frobSq_neg]
  simpa only [e] using h2

theorem chain_nonneg {T : ℕ} {psi : Matrix n n ℝ → ℝ} (hpos : ∀ X, 0 ≤ psi X) (K : Fin (T + 1) → Matrix n n ℝ) :
    0 ≤ chainCoupling psi K := Finset.sum_nonneg fun _ _ => hpos _

theorem kernel_nonneg {kernel : Fin k → Fin k → ℝ} (hk : ∀ s t, s < t → 0 ≤ kernel s t) {psi : Matrix n n ℝ → ℝ}
    (hpos : ∀ X, 0 ≤ psi X) (K : Fin k → Matrix n n ℝ) : 0 ≤ kernelCoupling kernel psi K :=
  Finset.sum_nonneg fun s _ => Finset.sum_nonneg fun t _ => by
    split
    · next h => exact mul_nonneg (hk s t h) (hpos _)
    · exact le_rfl

/-- C194 (`time_graphical_lasso`), whole calls: two calls on two sets of covariances with the same options return,
for small tolerances, sequences as close as wanted to `X` and `X'`, whose distance is bounded by that of the data,
whatever the starting points and whatever the two penalty parameters. -/
theorem C194_time_calls [Nonempty n] {T : ℕ} {eigh : Eigh n} (he : IsEighOracle eigh)
    (a : TGLArgs T n) (S' : Batch (T + 1) n) (hS : ∀ t, (a.empCov t).PosSemidef) (hS' : ∀ t, (S' t).PosSemidef)
    (hn : ∀ t, 0 < a.nSamples t) (hal : 0 < a.alpha) (hbe : 0 ≤ a.beta) (hconv : ConvexPen a.psi)
    (hpos : ∀ X, 0 ≤ a.psi X) (hzero : a.psi 0 = 0)
    (hprox : IsProxOf a.psi a.prox) (hi : a.rhoOptions.tauInc = 1) (hd : a.rhoOptions.tauDec = 1)
    (hst : a.stopAt = none) (K0 K0' : Batch (T + 1) n) {rho rho' : ℝ} (hr : 0 < rho) (hr' : 0 < rho') :
    ∃ X X', (∑ t, a.nSamples t * frobSq (X' t - X t) ≤
        (Fintype.card n * (∑ t, a.nSamples t) / a.alpha) ^ 4 * ∑ t, a.nSamples t * frobSq (S' t - a.empCov t)) ∧
      ∀ ε, 0 < ε → ∃ δ, 0 < δ ∧ ∃ M, ∀ tol rtol, 0 ≤ tol → tol ≤ δ → 0 ≤ rtol → rtol ≤ δ → ∀ m, M ≤ m →
        ∀ rh rn, ∃ Z h it w Z' h' it' w',
          timeGraphicalLasso eigh { a with tol := tol, rtol := rtol } K0 rho m rh rn = .ok Z h it w ∧
          timeGraphicalLasso eigh { a with empCov := S', tol := tol, rtol := rtol } K0' rho' m rh rn = .ok Z' h' it' w'
          ∧ CloseSeq ε Z X ∧ CloseSeq ε Z' X' := by
  obtain ⟨X, hX, -, hc⟩ := C103_time_converges he a hS hn hal hbe hconv hpos hprox hi hd hst K0 hr
  obtain ⟨X', hX', -, hc'⟩ := C103_time_converges he { a with empCov := S' } hS' hn hal hbe hconv hpos hprox hi hd hst
    K0' hr'
  refine ⟨X, X', ?_, fun ε hε => ?_⟩
  · refine C194_pooled hS hS' (fun t => (hn t).le) hal ((segConvex_chain hconv).const_mul hbe)
      (fun K => mul_nonneg hbe (chain_nonneg hpos K)) ?_ hX.isMin hX'.isMin
    unfold chainCoupling
    simp [hzero]
  · obtain ⟨d, hd0, M, h⟩ := hc ε hε
    obtain ⟨d', hd0', M', h'⟩ := hc' ε hε
    refine ⟨min d d', lt_min hd0 hd0', max M M', fun tol rtol t0 t1 r0 r1 m hm rh rn => ?_⟩
    obtain ⟨Z, hh, it, w, e1, c1⟩ := h tol rtol t0 (t1.trans (min_le_left _ _)) r0 (r1.trans (min_le_left _ _)) m
      ((le_max_left _ _).trans hm) rh rn
    obtain ⟨Z', hh', it', w', e1', c1'⟩ := h' tol rtol t0 (t1.trans (min_le_right _ _)) r0
      (r1.trans (min_le_right _ _)) m ((le_max_right _ _).trans hm) rh rn
    exact ⟨Z, hh, it, w, Z', hh', it', w', e1, e1', c1, c1'⟩

/-- C194 (`kernel_time_graphical_lasso`). -/
theorem C194_kernel {S S' X X' : Fin k → Matrix n n ℝ} {w : Fin k → ℝ} (hS : ∀ t, (S t).PosSemidef)
    (hS' : ∀ t, (S' t).PosSemidef) (hw : ∀ t, 0 ≤ w t) {alpha : ℝ} (hal : 0 < alpha) {kernel : Fin k → Fin k → ℝ}
    (hk : ∀ s t, s < t → 0 ≤ kernel s t) {psi : Matrix n n ℝ → ℝ} (hconv : ConvexPen psi) (hpos : ∀ X, 0 ≤ psi X)
    (hzero : psi 0 = 0)
    (hX : IsMin (PDSeq k n) (kernelObjective S w alpha kernel absSumMat psi) X)
    (hX' : IsMin (PDSeq k n) (kernelObjective S' w alpha kernel absSumMat psi) X') :
    ∑ t, w t * frobSq (X' t - X t)
      ≤ (Fintype.card n * (∑ t, w t) / alpha) ^ 4 * ∑ t, w t * frobSq (S' t - S t) := by
  refine C194_pooled hS hS' hw hal (segConvex_kernel hconv hk) (kernel_nonneg hk hpos) ?_ hX hX'
  unfold kernelCoupling
  simp [hzero]

/-- C194 (latent estimators): the precision `R_t = K_t - L_t` of the observed variables depends on the data in the same
way, although `K_t` and `L_t` themselves need not be determined by them. -/
theorem C194_latent {T : ℕ} {S S' : Fin (T + 1) → Matrix n n ℝ} {w : Fin (T + 1) → ℝ} (hS : ∀ t, (S t).PosSemidef)
    (hS' : ∀ t, (S' t).PosSemidef) (hw : ∀ t, 0 < w t) {alpha tau beta eta : ℝ} (hal : 0 < alpha) (hta : 0 ≤ tau)
    (hbe : 0 ≤ beta) (het : 0 ≤ eta) {psi phi : Matrix n n ℝ → ℝ} (cpsi : ConvexPen psi) (cphi : ConvexPen phi)
    (npsi : ∀ X, 0 ≤ psi X) (nphi : ∀ X, 0 ≤ phi X) (zpsi : psi 0 = 0) (zphi : phi 0 = 0)
    {p q : (Fin (T + 1) → Matrix n n ℝ) × (Fin (T + 1) → Matrix n n ℝ)}
    (hp : IsMin (LatentSeqFeasible (T + 1) n) (latentTimeObjective S w alpha tau beta eta absSumMat psi phi) p)
    (hq : IsMin (LatentSeqFeasible (T + 1) n) (latentTimeObjective S' w alpha tau beta eta absSumMat psi phi) q) :
    ∑ t, w t * frobSq ((q.1 t - q.2 t) - (p.1 t - p.2 t))
      ≤ (Fintype.card n * (∑ t, w t) / alpha) ^ 4 * ∑ t, w t * frobSq (S' t - S t) := by
  have tr : ∀ {Q : Fin (T + 1) → Matrix n n ℝ} {y : (Fin (T + 1) → Matrix n n ℝ) × (Fin (T + 1) → Matrix n n ℝ)},
      (∀ t, (Q t).PosSemidef) →
      IsMin (LatentSeqFeasible (T + 1) n) (latentTimeObjective Q w alpha tau beta eta absSumMat psi phi) y →
      ∀ t, trace (y.1 t - y.2 t) ≤ Fintype.card n * (∑ t, w t) / alpha := by
    intro Q y hQ hy t
    obtain ⟨_, _, h⟩ := C157_chain Q w hQ hw hal hta hbe het cpsi cphi npsi nphi zpsi zphi
    refine le_trans ?_ (h y hy).2
    exact Finset.single_le_sum (f := fun t => trace (y.1 t - y.2 t))
      (fun t _ => (hy.1 t).1.posSemidef.trace_nonneg) (Finset.mem_univ t)
  have hF : SegConvex (fun Y : Fin (T + 1) → Matrix n n ℝ => alpha * ∑ t, absSumMat (Y t) + beta * chainCoupling psi Y) :=
    ((segConvex_pen absSumMat_convexPen).const_mul hal.le).add ((segConvex_chain cpsi).const_mul hbe)
  have hct : ConvexPen (fun X : Matrix n n ℝ => trace X) := fun X Y r _ _ => by
    simp only [trace_add, trace_smul, trace_sub, smul_eq_mul]
    apply le_of_eq; ring
  have hG : SegConvex (fun Y : Fin (T + 1) → Matrix n n ℝ => tau * ∑ t, trace (Y t) + eta * chainCoupling phi Y) :=
    ((segConvex_pen hct).const_mul hta).add ((segConvex_chain cphi).const_mul het)
  have obj : ∀ Q : Fin (T + 1) → Matrix n n ℝ, latentTimeObjective Q w alpha tau beta eta absSumMat psi phi =
      fun x => negLogLik Q w (fun t => x.1 t - x.2 t) + ((alpha * ∑ t, absSumMat (x.1 t) + beta * chainCoupling psi x.1)
        + (tau * ∑ t, trace (x.2 t) + eta * chainCoupling phi x.2)) := by
    intro Q
    funext x
    unfold latentTimeObjective
    ring
  have hw' : ∀ t, 0 ≤ w t := fun t => (hw t).le
  have h := latent_two (fun t => (hS t).isSymm') (fun t => (hS' t).isSymm') hw' hF hG (by rw [← obj]; exact hp)
    (by rw [← obj]; exact hq)
  have h2 := distance_of_two (X := fun t => p.1 t - p.2 t) (X' := fun t => q.1 t - q.2 t) hw' (fun t => (hp.1 t).1)
    (fun t => (hq.1 t).1) (tr hS hp) (tr hS' hq) h
  have e : ∀ t, frobSq (S t - S' t) = frobSq (S' t - S t) := fun t => by rw [← neg_sub, frobSq_neg]
  simpa only [e] using h2

/-! ### C195: penalties -/

/-- C195 (graphical lasso). A larger `alpha` never gives a larger l1 norm off the diagonal, gives a strictly smaller
one unless the network stays the same, and never a better likelihood. -/
theorem C195_graphical_lasso {S X X' : Matrix n n ℝ} {alpha alpha' : ℝ} (h0 : 0 ≤ alpha) (hlt : alpha < alpha')
    (hS : S.IsSymm) (hX : IsMin (PD n) (glObjective S alpha) X) (hX' : IsMin (PD n) (glObjective S alpha') X') :
    absSumOff X' ≤ absSumOff X ∧ (X' ≠ X → absSumOff X' < absSumOff X) ∧
    trace (S * X) - Real.log X.det ≤ trace (S * X') - Real.log X'.det := by
  have h := exchange (f := fun Y => trace (S * Y) - Real.log Y.det) (P := absSumOff) hlt hX hX'
  exact ⟨h.1, fun hne => exchange_strict (f := fun Y => trace (S * Y) - Real.log Y.det) (P := absSumOff) hlt
    (gl_uniqueMin hS h0 hX) hX' hne, h.2 h0⟩

/-- C195 (time-varying graphical lasso): a larger `alpha` gives no larger l1 norm, a larger `beta` no larger
variation over time, and neither a better likelihood plus remaining penalty. -/
theorem C195_time {T : ℕ} {S : Fin (T + 1) → Matrix n n ℝ} {w : Fin (T + 1) → ℝ} {pen psi : Matrix n n ℝ → ℝ}
    {alpha alpha' beta beta' : ℝ} :
    (alpha < alpha' → ∀ X X', IsMin (PDSeq (T + 1) n) (timeObjective S w alpha beta pen psi) X →
      IsMin (PDSeq (T + 1) n) (timeObjective S w alpha' beta pen psi) X' → ∑ t, pen (X' t) ≤ ∑ t, pen (X t)) ∧
    (beta < beta' → ∀ X X', IsMin (PDSeq (T + 1) n) (timeObjective S w alpha beta pen psi) X →
      IsMin (PDSeq (T + 1) n) (timeObjective S w alpha beta' pen psi) X' →
      chainCoupling psi X' ≤ chainCoupling psi X) := by
  constructor
  · intro hlt X X' hX hX'
    have e : ∀ a, timeObjective S w a beta pen psi = fun Y => (negLogLik S w Y + beta * chainCoupling psi Y)
        + a * ∑ t, pen (Y t) := by
      intro a; funext Y; unfold timeObjective negLogLik chainCoupling; ring
    rw [e] at hX hX'
    exact (exchange (f := fun Y => negLogLik S w Y + beta * chainCoupling psi Y) (P := fun Y => ∑ t, pen (Y t)) hlt
      hX hX').1
  · intro hlt X X' hX hX'
    exact (exchange (f := fun Y => negLogLik S w Y + alpha * ∑ t, pen (Y t)) (P := fun Y => chainCoupling psi Y) hlt
      hX hX').1

/-- C195 (latent time-varying graphical lasso): the same for each of the four penalties. -/
theorem C195_latent {T : ℕ} {S : Fin (T + 1) → Matrix n n ℝ} {w : Fin (T + 1) → ℝ} {pen psi phi : Matrix n n ℝ → ℝ}
    {alpha alpha' tau tau' beta beta' eta eta' : ℝ} {p p' : (Fin (T + 1) → Matrix n n ℝ) × (Fin (T + 1) → Matrix n n ℝ)}
    (hp : IsMin (LatentSeqFeasible (T + 1) n) (latentTimeObjective S w alpha tau beta eta pen psi phi) p) :
    (alpha < alpha' → IsMin (LatentSeqFeasible (T + 1) n) (latentTimeObjective S w alpha' tau beta eta pen psi phi) p' →
      ∑ t, pen (p'.1 t) ≤ ∑ t, pen (p.1 t)) ∧
    (tau < tau' → IsMin (LatentSeqFeasible (T + 1) n) (latentTimeObjective S w alpha tau' beta eta pen psi phi) p' →
      ∑ t, trace (p'.2 t) ≤ ∑ t, trace (p.2 t)) ∧
    (beta < beta' → IsMin (LatentSeqFeasible (T + 1) n) (latentTimeObjective S w alpha tau beta' eta pen psi phi) p' →
      chainCoupling psi p'.1 ≤ chainCoupling psi p.1) ∧
    (eta < eta' → IsMin (LatentSeqFeasible (T + 1) n) (latentTimeObjective S w alpha tau beta eta' pen psi phi) p' →
      chainCoupling phi p'.2 ≤ chainCoupling phi p.2) := by
  refine ⟨fun hlt h => ?_, fun hlt h => ?_, fun hlt h => ?_, fun hlt h => ?_⟩
  · exact exchange_of_eq (fun x => negLogLik S w (fun t => x.1 t - x.2 t)
      + tau * ∑ t, trace (x.2 t) + beta * chainCoupling psi x.1 + eta * chainCoupling phi x.2)
      (fun x => ∑ t, pen (x.1 t)) hlt (fun x => by unfold latentTimeObjective; ring)
      (fun x => by unfold latentTimeObjective; ring) hp h
  · exact exchange_of_eq (fun x => negLogLik S w (fun t => x.1 t - x.2 t)
      + alpha * ∑ t, pen (x.1 t) + beta * chainCoupling psi x.1 + eta * chainCoupling phi x.2)
      (fun x => ∑ t, trace (x.2 t)) hlt (fun x => by unfold latentTimeObjective; ring)
      (fun x => by unfold latentTimeObjective; ring) hp h
  · exact exchange_of_eq (fun x => negLogLik S w (fun t => x.1 t - x.2 t)
      + alpha * ∑ t, pen (x.1 t) + tau * ∑ t, trace (x.2 t) + eta * chainCoupling phi x.2)
      (fun x => chainCoupling psi x.1) hlt (fun x => by unfold latentTimeObjective; ring)
      (fun x => by unfold latentTimeObjective; ring) hp h
  · exact exchange_of_eq (fun x => negLogLik S w (fun t => x.1 t - x.2 t)
      + alpha * ∑ t, pen (x.1 t) + tau * ∑ t, trace (x.2 t) + beta * chainCoupling psi x.1)
      (fun x => chainCoupling phi x.2) hlt (fun x => by unfold latentTimeObjective; ring)
      (fun x => by unfold latentTimeObjective; ring) hp h

theorem absSumOff_close {X Y : Matrix n n ℝ} {ε : ℝ} (hε : 0 ≤ ε) (h : CloseMat ε X Y) :
    absSumOff X ≤ absSumOff Y + Fintype.card n ^ 2 * ε := by
  have e : (Fintype.card n : ℝ) ^ 2 * ε = ∑ _i : n, ∑ _j : n, ε := by
    simp only [Finset.sum_const, Finset.card_univ, nsmul_eq_mul]; ring
  unfold absSumOff
  rw [e, ← Finset.sum_add_distrib]
  refine Finset.sum_le_sum fun i _ => ?_
  rw [← Finset.sum_add_distrib]
  refine Finset.sum_le_sum fun j _ => ?_
  by_cases hij : i = j
  · simp [hij, hε]
  · simp only [hij, if_false]
    have h1 := h i j
    have h2 := abs_sub_abs_le_abs_sub (X i j) (Y i j)
    linarith

/-- C195 (`graphical_lasso`), whole calls: two calls that differ in `alpha` (and, if one likes, in the start and in the
penalty parameter) return, for small tolerances, networks whose l1 norms are ordered up to any `ε`. -/
theorem C195_calls [Nonempty n] {eigh : Eigh n} {a : GLArgs n} {alpha' : ℝ} {Z0 Z0' : Matrix n n ℝ} {rho rho' : ℝ}
    (h : ConstPenalty eigh a Z0 rho) (h' : ConstPenalty eigh { a with alpha := alpha' } Z0' rho')
    (hS : a.empCov.PosSemidef) (hdiag : ∀ i, 0 < a.empCov i i) (hal : 0 < a.alpha) (hlt : a.alpha < alpha') :
    ∀ ε, 0 < ε → ∃ δ, 0 < δ ∧ ∃ M, ∀ tol rtol, 0 ≤ tol → tol ≤ δ → 0 ≤ rtol → rtol ≤ δ → ∀ m, M ≤ m →
      ∀ rh rn, ∃ Z C hist it w Z' C' hist' it' w',
        graphicalLasso eigh { a with tol := tol, rtol := rtol } Z0 rho m rh rn = .ok Z C hist it w ∧
        graphicalLasso eigh { a with alpha := alpha', tol := tol, rtol := rtol } Z0' rho' m rh rn
          = .ok Z' C' hist' it' w' ∧ absSumOff Z' ≤ absSumOff Z + ε := by
  intro ε hε
  obtain ⟨X, hX, -, hc⟩ := C104_solves h hS hdiag hal
  obtain ⟨X', hX', -, hc'⟩ := C104_solves h' hS hdiag (hal.trans hlt)
  have hcard : (0 : ℝ) < Fintype.card n := by exact_mod_cast Fintype.card_pos
  set e := ε / (2 * (Fintype.card n : ℝ) ^ 2) with he
  have he0 : 0 < e := by positivity
  have he1 : 2 * ((Fintype.card n : ℝ) ^ 2 * e) = ε := by rw [he]; field_simp
  obtain ⟨d, hd0, M, hh⟩ := hc e he0
  obtain ⟨d', hd0', M', hh'⟩ := hc' e he0
  refine ⟨min d d', lt_min hd0 hd0', max M M', fun tol rtol t0 t1 r0 r1 m hm rh rn => ?_⟩
  obtain ⟨Z, C, hist, it, w, e1, c1⟩ := hh tol rtol t0 (t1.trans (min_le_left _ _)) r0 (r1.trans (min_le_left _ _)) m
    ((le_max_left _ _).trans hm) rh rn
  obtain ⟨Z', C', hist', it', w', e1', c1'⟩ := hh' tol rtol t0 (t1.trans (min_le_right _ _)) r0
    (r1.trans (min_le_right _ _)) m ((le_max_right _ _).trans hm) rh rn
  refine ⟨Z, C, hist, it, w, Z', C', hist', it', w', e1, e1', ?_⟩
  have hmono := (C195_graphical_lasso hal.le hlt h.symS hX.isMin hX'.isMin).1
  have b1 := absSumOff_close he0.le c1'
  have b2 := absSumOff_close (X := X) (Y := Z) he0.le fun i j => by rw [abs_sub_comm]; exact c1 i j
  linarith

/-! ### C196: units -/

/-- Transport of optima by a change of variables that moves the objective by a constant. -/
theorem isMin_transport {V W : Type*} {D : Set V} {E : Set W} {f : V → ℝ} {g : W → ℝ} (s : V → W) (s' : W → V)
    (hs : ∀ x ∈ D, s x ∈ E) (hs' : ∀ y ∈ E, s' y ∈ D) (hss' : ∀ y, s (s' y) = y) (hs's : ∀ x, s' (s x) = x) {c : ℝ}
    (hfg : ∀ x ∈ D, g (s x) = f x + c) (x : V) : IsMin D f x ↔ IsMin E g (s x) := by
  constructor
  · intro hx
    refine ⟨hs x hx.1, fun y hy => ?_⟩
    have h1 := hx.2 (s' y) (hs' y hy)
    rw [← hss' y, hfg x hx.1, hfg _ (hs' y hy)]
    linarith
  · intro hx
    have hxD : x ∈ D := by rw [← hs's x]; exact hs' _ hx.1
    refine ⟨hxD, fun y hy => ?_⟩
    have h1 := hx.2 (s y) (hs y hy)
    rw [hfg x hxD, hfg y hy] at h1
    linarith

theorem log_det_scale {R : Matrix n n ℝ} (hR : R.PosDef) {c : ℝ} (hc : 0 < c) :
    Real.log (c⁻¹ • R).det = Real.log R.det - Fintype.card n * Real.log c := by
  rw [det_smul, Real.log_mul (by positivity) hR.det_pos.ne', Real.log_pow, Real.log_inv]
  ring

theorem trace_scale (S R : Matrix n n ℝ) {c : ℝ} (hc : 0 < c) : trace ((c • S) * (c⁻¹ • R)) = trace (S * R) := by
  rw [smul_mul_smul_comm, mul_inv_cancel₀ hc.ne', one_smul]

theorem absSumOff_scale (X : Matrix n n ℝ) {c : ℝ} (hc : 0 < c) : c * absSumOff (c⁻¹ • X) = absSumOff X := by
  unfold absSumOff
  rw [Finset.mul_sum]
  refine Finset.sum_congr rfl fun i _ => ?_
  rw [Finset.mul_sum]
  refine Finset.sum_congr rfl fun j _ => ?_
  split
  · simp
  · rw [Matrix.smul_apply, smul_eq_mul, abs_mul, abs_inv, abs_of_pos hc, mul_inv_cancel_left₀ hc.ne']

theorem absSumMat_scale (X : Matrix n n ℝ) {c : ℝ} (hc : 0 < c) : c * absSumMat (c⁻¹ • X) = absSumMat X := by
  unfold absSumMat
  rw [Finset.mul_sum]
  refine Finset.sum_congr rfl fun i _ => ?_
  rw [Finset.mul_sum]
  refine Finset.sum_congr rfl fun j _ => ?_
  rw [Matrix.smul_apply, smul_eq_mul, abs_mul, abs_inv, abs_of_pos hc, mul_inv_cancel_left₀ hc.ne']

theorem negLogLik_scale (S : Fin k → Matrix n n ℝ) (w : Fin k → ℝ) {R : Fin k → Matrix n n ℝ}
    (hR : ∀ t, (R t).PosDef) {c : ℝ} (hc : 0 < c) :
    negLogLik (fun t => c • S t) w (fun t => c⁻¹ • R t) = negLogLik S w R
      + (∑ t, w t) * (Fintype.card n * Real.log c) := by
  unfold negLogLik
  rw [Finset.sum_mul, ← Finset.sum_add_distrib]
  refine Finset.sum_congr rfl fun t _ => ?_
  rw [trace_scale _ _ hc, log_det_scale (hR t) hc]
  ring

/-- C196 (graphical lasso). Measuring the variables in other units (covariances times `c`) and multiplying `alpha` by
`c` divides the optimum by `c`: the network is the same. -/
theorem C196_graphical_lasso (S X : Matrix n n ℝ) (alpha : ℝ) {c : ℝ} (hc : 0 < c) :
    IsMin (PD n) (glObjective S alpha) X ↔ IsMin (PD n) (glObjective (c • S) (c * alpha)) (c⁻¹ • X) := by
  refine isMin_transport (fun X => c⁻¹ • X) (fun X => c • X) (fun X hX => ?_) (fun X hX => ?_)
    (fun X => by rw [inv_smul_smul₀ hc.ne']) (fun X => by rw [smul_inv_smul₀ hc.ne'])
    (c := Fintype.card n * Real.log c) (fun X hX => ?_) X
  · exact PosDef.smul hX (by positivity)
  · exact PosDef.smul hX hc
  · unfold glObjective
    rw [trace_scale _ _ hc, log_det_scale hX hc, ← absSumOff_scale X hc]
    ring

/-- C196 (time-varying graphical lasso). `beta'` is `c beta` for the norms l1, l2, linf and `c^2 beta` for the
Laplacian penalty (`C196_norm`, `C196_square`). -/
theorem C196_time {T : ℕ} (S X : Fin (T + 1) → Matrix n n ℝ) (w : Fin (T + 1) → ℝ) (alpha : ℝ) {beta beta' : ℝ} {c : ℝ}
    (hc : 0 < c) {psi : Matrix n n ℝ → ℝ} (hpsi : ∀ M, beta' * psi (c⁻¹ • M) = beta * psi M) :
    IsMin (PDSeq (T + 1) n) (timeObjective S w alpha beta absSumMat psi) X ↔
      IsMin (PDSeq (T + 1) n) (timeObjective (fun t => c • S t) w (c * alpha) beta' absSumMat psi)
        (fun t => c⁻¹ • X t) := by
  refine isMin_transport (fun (X : Fin (T + 1) → Matrix n n ℝ) t => c⁻¹ • X t) (fun X t => c • X t)
    (fun X hX => ?_) (fun X hX => ?_)
    (fun X => funext fun t => by rw [inv_smul_smul₀ hc.ne']) (fun X => funext fun t => by rw [smul_inv_smul₀ hc.ne'])
    (c := (∑ t, w t) * (Fintype.card n * Real.log c)) (fun X hX => ?_) X
  · exact fun t => PosDef.smul (hX t) (by positivity)
  · exact fun t => PosDef.smul (hX t) hc
  · have h1 := negLogLik_scale S w hX hc
    unfold negLogLik at h1
    unfold timeObjective
    rw [h1]
    have h2 : c * alpha * ∑ t, absSumMat (c⁻¹ • X t) = alpha * ∑ t, absSumMat (X t) := by
      rw [Finset.mul_sum, Finset.mul_sum]
      refine Finset.sum_congr rfl fun t _ => ?_
      rw [← absSumMat_scale (X t) hc]
      ring
    have h3 : beta' * ∑ p : Fin T, psi (c⁻¹ • X p.succ - c⁻¹ • X p.castSucc)
        = beta * ∑ p : Fin T, psi (X p.succ - X p.castSucc) := by
      rw [Finset.mul_sum, Finset.mul_sum]
      refine Finset.sum_congr rfl fun p _ => ?_
      rw [← smul_sub, hpsi]
    rw [h2, h3]
    ring

/-- C196 (latent time-varying graphical lasso). -/
theorem C196_latent {T : ℕ} (S : Fin (T + 1) → Matrix n n ℝ) (w : Fin (T + 1) → ℝ) (alpha tau : ℝ)
    {beta beta' eta eta' : ℝ} {c : ℝ} (hc : 0 < c) {psi phi : Matrix n n ℝ → ℝ}
    (hpsi : ∀ M, beta' * psi (c⁻¹ • M) = beta * psi M) (hphi : ∀ M, eta' * phi (c⁻¹ • M) = eta * phi M)
    (p : (Fin (T + 1) → Matrix n n ℝ) × (Fin (T + 1) → Matrix n n ℝ)) :
    IsMin (LatentSeqFeasible (T + 1) n) (latentTimeObjective S w alpha tau beta eta absSumMat psi phi) p ↔
      IsMin (LatentSeqFeasible (T + 1) n) (latentTimeObjective (fun t => c • S t) w (c * alpha) (c * tau) beta' eta'
        absSumMat psi phi) (fun t => c⁻¹ • p.1 t, fun t => c⁻¹ • p.2 t) := by
  refine isMin_transport
    (fun (p : (Fin (T + 1) → Matrix n n ℝ) × (Fin (T + 1) → Matrix n n ℝ)) =>
      ((fun t => c⁻¹ • p.1 t, fun t => c⁻¹ • p.2 t) : (Fin (T + 1) → Matrix n n ℝ) × (Fin (T + 1) → Matrix n n ℝ)))
    (fun p => (fun t => c • p.1 t, fun t => c • p.2 t)) (fun p hp => ?_) (fun p hp => ?_)
    (fun p => Prod.ext (funext fun t => inv_smul_smul₀ hc.ne' _) (funext fun t => inv_smul_smul₀ hc.ne' _))
    (fun p => Prod.ext (funext fun t => smul_inv_smul₀ hc.ne' _) (funext fun t => smul_inv_smul₀ hc.ne' _))
    (c := (∑ t, w t) * (Fintype.card n * Real.log c)) (fun p hp => ?_) p
  · refine fun t => ⟨?_, (hp t).2.smul (by positivity)⟩
    show (c⁻¹ • p.1 t - c⁻¹ • p.2 t).PosDef
    rw [← smul_sub]
    exact PosDef.smul (hp t).1 (by positivity)
  · refine fun t => ⟨?_, (hp t).2.smul hc.le⟩
    show (c • p.1 t - c • p.2 t).PosDef
    rw [← smul_sub]
    exact PosDef.smul (hp t).1 hc
  · have h1 := negLogLik_scale S w (R := fun t => p.1 t - p.2 t) (fun t => (hp t).1) hc
    unfold latentTimeObjective chainCoupling
    simp only [← smul_sub]
    rw [h1]
    have h2 : c * alpha * ∑ t, absSumMat (c⁻¹ • p.1 t) = alpha * ∑ t, absSumMat (p.1 t) := by
      rw [Finset.mul_sum, Finset.mul_sum]
      refine Finset.sum_congr rfl fun t _ => ?_
      rw [← absSumMat_scale (p.1 t) hc]
      ring
    have h3 : c * tau * ∑ t, trace (c⁻¹ • p.2 t) = tau * ∑ t, trace (p.2 t) := by
      rw [Finset.mul_sum, Finset.mul_sum]
      refine Finset.sum_congr rfl fun t _ => ?_
      rw [trace_smul, smul_eq_mul, mul_comm c tau, mul_assoc, mul_inv_cancel_left₀ hc.ne']
    have h4 : beta' * ∑ q : Fin T, psi (c⁻¹ • (p.1 q.succ - p.1 q.castSucc))
        = beta * ∑ q : Fin T, psi (p.1 q.succ - p.1 q.castSucc) := by
      rw [Finset.mul_sum, Finset.mul_sum]
      exact Finset.sum_congr rfl fun q _ => hpsi _
    have h5 : eta' * ∑ q : Fin T, phi (c⁻¹ • (p.2 q.succ - p.2 q.castSucc))
        = eta * ∑ q : Fin T, phi (p.2 q.succ - p.2 q.castSucc) := by
      rw [Finset.mul_sum, Finset.mul_sum]
      exact Finset.sum_congr rfl fun q _ => hphi _
    rw [h2, h3, h4, h5]
    ring

/-- C196, the hypothesis on the penalty of the differences: l1. -/
theorem C196_norm {c : ℝ} (hc : 0 < c) (beta : ℝ) (M : Matrix n n ℝ) :
    c * beta * absSumMat (c⁻¹ • M) = beta * absSumMat M := by
  rw [← absSumMat_scale M hc]; ring

/-- C196, the hypothesis on the penalty of the differences: Laplacian. -/
theorem C196_square {c : ℝ} (hc : 0 < c) (beta : ℝ) (M : Matrix n n ℝ) :
    c ^ 2 * beta * frobSq (c⁻¹ • M) = beta * frobSq M := by
  rw [frobSq_smul]
  field_simp

/-- C196 (`graphical_lasso`), whole calls: with small tolerances the call on the covariances in the other units returns
the network of the first call divided by `c`, up to any `ε`, whatever the starts and the penalty parameters. -/
theorem C196_calls [Nonempty n] {eigh : Eigh n} {a : GLArgs n} {c : ℝ} (hc : 0 < c) {Z0 Z0' : Matrix n n ℝ} {rho rho' : ℝ}
    (h : ConstPenalty eigh a Z0 rho)
    (h' : ConstPenalty eigh { a with empCov := c • a.empCov, alpha := c * a.alpha } Z0' rho')
    (hS : a.empCov.PosSemidef) (hdiag : ∀ i, 0 < a.empCov i i) (hal : 0 < a.alpha) :
    ∀ ε, 0 < ε → ∃ δ, 0 < δ ∧ ∃ M, ∀ tol rtol, 0 ≤ tol → tol ≤ δ → 0 ≤ rtol → rtol ≤ δ → ∀ m, M ≤ m →
      ∀ rh rn, ∃ Z C hist it w Z' C' hist' it' w',
        graphicalLasso eigh { a with tol := tol, rtol := rtol } Z0 rho m rh rn = .ok Z C hist it w ∧
        graphicalLasso eigh { a with empCov := c • a.empCov, alpha := c * a.alpha, tol := tol, rtol := rtol } Z0' rho' m
          rh rn = .ok Z' C' hist' it' w' ∧ CloseMat ε Z' (c⁻¹ • Z) := by
  intro ε hε
  obtain ⟨X, hX, -, hcl⟩ := C104_solves h hS hdiag hal
  obtain ⟨X', hX', -, hcl'⟩ := C104_solves h' (hS.smul hc.le) (fun i => by
    simp only [Matrix.smul_apply, smul_eq_mul]
    exact mul_pos hc (hdiag i)) (mul_pos hc hal)
  have hXX : X' = c⁻¹ • X :=
    (hX'.eq_of_isMin ((C196_graphical_lasso a.empCov X a.alpha hc).mp hX.isMin)).symm
  set e := ε / (1 + c⁻¹) with he
  have hci : 0 < c⁻¹ := by positivity
  have he0 : 0 < e := by positivity
  have he1 : e + c⁻¹ * e = ε := by rw [he]; field_simp
  obtain ⟨d, hd0, M, hh⟩ := hcl e he0
  obtain ⟨d', hd0', M', hh'⟩ := hcl' e he0
  refine ⟨min d d', lt_min hd0 hd0', max M M', fun tol rtol t0 t1 r0 r1 m hm rh rn => ?_⟩
  obtain ⟨Z, C, hist, it, w, e1, c1⟩ := hh tol rtol t0 (t1.trans (min_le_left _ _)) r0 (r1.trans (min_le_left _ _)) m
    ((le_max_left _ _).trans hm) rh rn
  obtain ⟨Z', C', hist', it', w', e1', c1'⟩ := hh' tol rtol t0 (t1.trans (min_le_right _ _)) r0
    (r1.trans (min_le_right _ _)) m ((le_max_right _ _).trans hm) rh rn
  refine ⟨Z, C, hist, it, w, Z', C', hist', it', w', e1, e1', fun i j => ?_⟩
  have b1 := c1' i j
  have b2 := c1 i j
  rw [hXX] at b1
  simp only [Matrix.smul_apply, smul_eq_mul] at b1 ⊢
  have b3 : |c⁻¹ * X i j - c⁻¹ * Z i j| ≤ c⁻¹ * e := by
    rw [← mul_sub, abs_mul, abs_of_pos hci, abs_sub_comm]
    exact mul_le_mul_of_nonneg_left b2 hci.le
  have b4 := abs_add_le (Z' i j - c⁻¹ * X i j) (c⁻¹ * X i j - c⁻¹ * Z i j)
  rw [sub_add_sub_cancel] at b4
  linarith

/-- C194-C196, the hypotheses of the whole calls: a two-variable problem. -/
example : ∃ (eigh : Eigh (Fin 2)) (a : GLArgs (Fin 2)), ConstPenalty eigh a 1 1 ∧
    ConstPenalty eigh { a with alpha := 2 } 1 1 ∧
    ConstPenalty eigh { a with empCov := (3 : ℝ) • a.empCov, alpha := 3 * a.alpha } 1 1 ∧
    a.empCov.PosSemidef ∧ (∀ i, 0 < a.empCov i i) ∧ 0 < a.alpha ∧ a.alpha < 2 := by
  obtain ⟨eigh, he⟩ := exists_eighOracle (n := Fin 2)
  refine ⟨eigh, ⟨1, 1, 1, 1, 0, ⟨10, 1, 1⟩⟩, ?_, ?_, ?_, ?_⟩
  · exact ⟨he, by simp [IsSymm], by norm_num, rfl, rfl, rfl, by simp [IsSymm], by norm_num⟩
  · exact ⟨he, by simp [IsSymm], by norm_num, rfl, rfl, rfl, by simp [IsSymm], by norm_num⟩
  · exact ⟨he, by simp [IsSymm], by norm_num, rfl, rfl, rfl, by simp [IsSymm], by norm_num⟩
  · exact ⟨PosSemidef.one, fun i => by simp, by norm_num, by norm_num⟩

/-- C194-C196, the hypotheses on the penalties of the differences: l1 norm and square. -/
example : ConvexPen (absSumMat : Matrix (Fin 2) (Fin 2) ℝ → ℝ) ∧ (∀ X : Matrix (Fin 2) (Fin 2) ℝ, 0 ≤ absSumMat X) ∧
    absSumMat (0 : Matrix (Fin 2) (Fin 2) ℝ) = 0 ∧
    SegConvex (fun K : Fin 3 → Matrix (Fin 2) (Fin 2) ℝ => 2 * chainCoupling absSumMat K) :=
  ⟨absSumMat_convexPen, absSumMat_nonneg', by simp [absSumMat], (segConvex_chain absSumMat_convexPen).const_mul (by norm_num)⟩

end Verif.Props
