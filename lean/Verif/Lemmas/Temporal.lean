import Verif.Model.Temporal
import Verif.Spec.Temporal
import Verif.Lemmas.TGL

/-! Helper lemmas for the solvers coupling pairs of time points. -/

namespace Verif.Lemmas

open Verif.Model Verif.Spec Matrix

set_option autoImplicit false
set_option linter.unusedSectionVars false

variable {n : Type*} [Fintype n] [DecidableEq n] {k : ℕ} {E : Type*} [Fintype E]

theorem scatter_sub (f : E → Fin k) (X Y : E → Matrix n n ℝ) (t : Fin k) :
    scatter f (fun e => X e - Y e) t = scatter f X t - scatter f Y t := by
  unfold scatter
  rw [← Finset.sum_sub_distrib]
  exact Finset.sum_congr rfl fun e _ => by split <;> simp

theorem scatter_smul (f : E → Fin k) (c : ℝ) (X : E → Matrix n n ℝ) (t : Fin k) :
    scatter f (fun e => c • X e) t = c • scatter f X t := by
  unfold scatter
  rw [Finset.smul_sum]
  exact Finset.sum_congr rfl fun e _ => by split <;> simp

theorem frobInner_sum_left {ι : Type*} (s : Finset ι) (A : ι → Matrix n n ℝ) (B : Matrix n n ℝ) :
    frobInner (∑ i ∈ s, A i) B = ∑ i ∈ s, frobInner (A i) B := by
  classical
  induction s using Finset.induction_on with
  | empty => simp [frobInner]
  | insert a s ha ih => rw [Finset.sum_insert ha, Finset.sum_insert ha, frobInner_add_left, ih]

theorem frobInner_zero_left' (B : Matrix n n ℝ) : frobInner (0 : Matrix n n ℝ) B = 0 := by
  simp [frobInner]

theorem sum_scatter (f : E → Fin k) (U : E → Matrix n n ℝ) (D : Fin k → Matrix n n ℝ) :
    ∑ t, frobInner (scatter f U t) (D t) = ∑ e, frobInner (U e) (D (f e)) := by
  unfold scatter
  simp only [frobInner_sum_left]
  rw [Finset.sum_comm]
  refine Finset.sum_congr rfl fun e _ => ?_
  have : ∀ t, frobInner (if f e = t then U e else 0) (D t) =
      if f e = t then frobInner (U e) (D t) else 0 := by
    intro t; split
    · rfl
    · exact frobInner_zero_left' _
  simp only [this]
  simp

theorem sum_pairIdx {M : Type*} [AddCommMonoid M] (f : Fin k → Fin k → M) :
    ∑ e : PairIdx k, f e.1.1 e.1.2 = ∑ s, ∑ t, if s < t then f s t else 0 := by
  rw [← Finset.sum_product' (s := Finset.univ) (t := Finset.univ)
    (f := fun s t => if s < t then f s t else 0), Finset.univ_product_univ]
  have h := Finset.sum_subtype (F := inferInstance)
    (Finset.univ.filter fun p : Fin k × Fin k => p.1 < p.2)
    (p := fun p => p.1 < p.2) (by simp) (fun p => f p.1 p.2)
  exact h.symm.trans (Finset.sum_filter _ _)

/-- The two ends of the pairs cover each time point the right number of times. -/
def Covers (g : TimePairs k E) (divisor : Fin k → ℝ) (n : Type*) : Prop :=
  ∀ (X : Batch k n) t, X t + (∑ e, if g.src e = t then X (g.src e) else 0)
    + (∑ e, if g.dst e = t then X (g.dst e) else 0) = divisor t • X t

theorem covers_all : Covers (allPairs k) (fun _ => (k : ℝ)) n := by
  intro X t
  have h1 : (∑ e : PairIdx k, if (allPairs k).src e = t then X ((allPairs k).src e) else 0) =
      ∑ t' : Fin k, if t < t' then X t else 0 := by
    have := sum_pairIdx (k := k) (fun s _ => if s = t then X s else 0)
    refine this.trans ?_
    rw [Finset.sum_comm]
    refine Finset.sum_congr rfl fun t' _ => ?_
    have : ∀ s : Fin k, (if s < t' then if s = t then X s else 0 else 0) =
        if s = t then (if t < t' then X t else 0) else 0 := by
      intro s
      by_cases hs : s = t
      · subst hs; simp
      · simp [hs]
    simp only [this]
    simp
  have h2 : (∑ e : PairIdx k, if (allPairs k).dst e = t then X ((allPairs k).dst e) else 0) =
      ∑ s : Fin k, if s < t then X t else 0 := by
    have := sum_pairIdx (k := k) (fun _ u => if u = t then X u else 0)
    refine this.trans ?_
    refine Finset.sum_congr rfl fun s _ => ?_
    have : ∀ u : Fin k, (if s < u then if u = t then X u else 0 else 0) =
        if u = t then (if s < t then X t else 0) else 0 := by
      intro u
      by_cases hu : u = t
      · subst hu; simp
      · simp [hu]
    simp only [this]
    simp
  rw [h1, h2]
  have h3 : X t = ∑ s : Fin k, if s = t then X t else 0 := by simp
  have h4 : (k : ℝ) • X t = ∑ _s : Fin k, X t := by
    rw [Finset.sum_const, Finset.card_univ, Fintype.card_fin, Nat.cast_smul_eq_nsmul]
  change _ = (k : ℝ) • X t
  rw [h4]
  refine Eq.trans (congrArg₂ (· + ·) (congrArg₂ (· + ·) h3 rfl) rfl) ?_
  rw [← Finset.sum_add_distrib, ← Finset.sum_add_distrib]
  refine Finset.sum_congr rfl fun s _ => ?_
  rcases lt_trichotomy s t with h | h | h
  · simp [h, h.ne, h.not_gt]
  · simp [h]
  · simp [h, h.ne', h.not_gt]

theorem scatter_castSucc {T : ℕ} (X : Batch T n) (t : Fin (T + 1)) :
    scatter (chainPairs T).src X t = padLast X t := by
  unfold scatter chainPairs
  refine Fin.lastCases ?_ (fun p => ?_) t
  · simp [padLast, (Fin.castSucc_lt_last _).ne]
  · simp [padLast]

theorem scatter_succ {T : ℕ} (X : Batch T n) (t : Fin (T + 1)) :
    scatter (chainPairs T).dst X t = padFirst X t := by
  unfold scatter chainPairs
  refine Fin.cases ?_ (fun p => ?_) t
  · simp [padFirst]
  · simp [padFirst]

theorem covers_chain {T : ℕ} : Covers (chainPairs T) tglDivisor n := by
  intro X t
  have h := tglDivisor_smul X t
  rw [← h, ← scatter_castSucc, ← scatter_succ]
  rfl

/-- One block of variables: the subgradient inequalities add up, the pair multipliers cancel. -/
theorem block_le (g : TimePairs k E) {pen : Matrix n n ℝ → ℝ} {psi : E → Matrix n n ℝ → ℝ} {c : ℝ}
    {K X G : Batch k n} {YL YR : E → Matrix n n ℝ} (hY : ∀ e, YL e = -YR e)
    (hpen : ∀ t, c * pen (K t) + frobInner (G t - scatter g.src YL t - scatter g.dst YR t) (X t - K t)
      ≤ c * pen (X t))
    (hpsi : ∀ e, psi e (K (g.dst e) - K (g.src e))
      + frobInner (YR e) ((X (g.dst e) - X (g.src e)) - (K (g.dst e) - K (g.src e)))
      ≤ psi e (X (g.dst e) - X (g.src e))) :
    c * ∑ t, pen (K t) + ∑ e, psi e (K (g.dst e) - K (g.src e)) + ∑ t, frobInner (G t) (X t - K t)
      ≤ c * ∑ t, pen (X t) + ∑ e, psi e (X (g.dst e) - X (g.src e)) := by
  have h1 := Finset.sum_le_sum (s := Finset.univ) (fun t (_ : t ∈ Finset.univ) => hpen t)
  have h2 := Finset.sum_le_sum (s := Finset.univ) (fun e (_ : e ∈ Finset.univ) => hpsi e)
  simp only [frobInner_sub_left] at h1
  rw [Finset.sum_add_distrib, Finset.sum_sub_distrib, Finset.sum_sub_distrib,
    sum_scatter g.src YL (fun t => X t - K t), sum_scatter g.dst YR (fun t => X t - K t),
    ← Finset.mul_sum, ← Finset.mul_sum] at h1
  rw [Finset.sum_add_distrib] at h2
  have h3 : ∑ e, frobInner (YR e) ((X (g.dst e) - X (g.src e)) - (K (g.dst e) - K (g.src e))) =
      ∑ e, frobInner (YR e) (X (g.dst e) - K (g.dst e))
        + ∑ e, frobInner (YL e) (X (g.src e) - K (g.src e)) := by
    rw [← Finset.sum_add_distrib]
    refine Finset.sum_congr rfl fun e _ => ?_
    rw [hY e, frobInner_neg_left]
    have : (X (g.dst e) - X (g.src e)) - (K (g.dst e) - K (g.src e)) =
      (X (g.dst e) - K (g.dst e)) - (X (g.src e) - K (g.src e)) := by abel
    rw [this, frobInner_sub_right]; ring
  rw [h3] at h2
  linarith

/-- The log-likelihood part. -/
theorem negLogLik_le {S : Batch k n} {nS : Fin k → ℝ} {R X G : Batch k n} (hS : ∀ t, (S t).IsSymm)
    (hn : ∀ t, 0 < nS t) (hR : ∀ t, (R t).PosDef) (hX : ∀ t, (X t).PosDef)
    (hG : ∀ t, nS t • (S t - (R t)⁻¹) + symmetrize (G t) = 0) :
    negLogLik S nS R - ∑ t, frobInner (G t) (X t - R t) ≤ negLogLik S nS X ∧
    (X ≠ R → negLogLik S nS R - ∑ t, frobInner (G t) (X t - R t) < negLogLik S nS X) := by
  have e1 : ∀ t, ∀ Y : Matrix n n ℝ, trace (S t * Y) = frobInner (S t) Y :=
    fun t Y => (frobInner_eq_trace_of_symm (hS t) Y).symm
  have hlin : ∀ t, nS t * frobInner (S t - (R t)⁻¹) (X t - R t) = -frobInner (G t) (X t - R t) := by
    intro t
    have hsym : (X t - R t).IsSymm := by
      rw [IsSymm, transpose_sub, (hX t).isSymm'.eq, (hR t).isSymm'.eq]
    have h := congrArg (fun M => frobInner M (X t - R t)) (hG t)
    simp only [frobInner_add_left, frobInner_smul_left] at h
    rw [frobInner_symmetrize hsym, frobInner_zero_left'] at h
    linarith
  have hle : ∀ t, nS t * (trace (S t * R t) - Real.log (R t).det)
      - frobInner (G t) (X t - R t) ≤ nS t * (trace (S t * X t) - Real.log (X t).det) := by
    intro t
    rw [sub_eq_add_neg, ← hlin, ← mul_add]
    refine mul_le_mul_of_nonneg_left ?_ (hn t).le
    rw [e1, e1, frobInner_sub_left, frobInner_sub_right (S t)]
    have := log_det_le (hX t) (hR t)
    linarith
  constructor
  · unfold negLogLik
    rw [← Finset.sum_sub_distrib]
    exact Finset.sum_le_sum fun t _ => hle t
  · intro hne
    obtain ⟨t0, ht0⟩ : ∃ t, X t ≠ R t := by
      by_contra h
      push Not at h
      exact hne (funext h)
    unfold negLogLik
    rw [← Finset.sum_sub_distrib]
    refine Finset.sum_lt_sum (fun t _ => hle t) ⟨t0, Finset.mem_univ _, ?_⟩
    rw [sub_eq_add_neg, ← hlin, ← mul_add]
    refine mul_lt_mul_of_pos_left ?_ (hn t0)
    rw [e1, e1, frobInner_sub_left, frobInner_sub_right (S t0)]
    have := log_det_lt (hX t0) (hR t0) ht0
    linarith

/-- The pair update at a fixed point: the multipliers are opposite and the difference is a proximal
point. -/
theorem pair_fixed {prox : Matrix n n ℝ → ℝ → Matrix n n ℝ} {beta rho : ℝ} {Z1 Z2 U1 U2 : Matrix n n ℝ}
    (g1 : tglZ1 prox beta rho (Z1 + U1) (Z2 + U2) = Z1) (g2 : tglZ2 prox beta rho (Z1 + U1) (Z2 + U2) = Z2) :
    U1 = -U2 ∧ prox (Z2 - Z1 + (2 : ℝ) • U2) (2 * beta / rho) = Z2 - Z1 := by
  unfold tglZ1 at g1
  unfold tglZ2 at g2
  set e := prox (Z2 + U2 - (Z1 + U1)) (2 * beta / rho) with hE
  have hsum : Z1 + U1 + (Z2 + U2) = Z1 + Z2 := by
    have h3 := congrArg₂ (· + ·) g1 g2
    rw [← smul_add] at h3
    have : Z1 + U1 + (Z2 + U2) - e + (Z1 + U1 + (Z2 + U2) + e) = (2 : ℝ) • (Z1 + U1 + (Z2 + U2)) := by
      rw [two_smul]; abel
    rw [this, smul_smul] at h3
    norm_num at h3
    exact h3
  have hU : U1 = -U2 := by
    have h3 : U1 + U2 = 0 := by
      have : Z1 + U1 + (Z2 + U2) = (Z1 + Z2) + (U1 + U2) := by abel
      rw [this] at hsum
      simpa using hsum
    exact eq_neg_of_add_eq_zero_left h3
  have hdiff : e = Z2 - Z1 := by
    have h3 := congrArg₂ (· - ·) g2 g1
    rw [← smul_sub] at h3
    have : Z1 + U1 + (Z2 + U2) + e - (Z1 + U1 + (Z2 + U2) - e) = (2 : ℝ) • e := by rw [two_smul]; abel
    rw [this, smul_smul] at h3
    norm_num at h3
    exact h3
  refine ⟨hU, ?_⟩
  have harg : Z2 + U2 - (Z1 + U1) = Z2 - Z1 + (2 : ℝ) • U2 := by
    rw [hU, two_smul]; abel
  rw [← harg]
  exact hdiff

/-- Conversely, opposite multipliers and a proximal difference are a fixed point of the pair update. -/
theorem pair_fixed_of {prox : Matrix n n ℝ → ℝ → Matrix n n ℝ} {beta rho : ℝ} {Z1 Z2 U1 U2 : Matrix n n ℝ}
    (hU : U1 = -U2) (hp : prox (Z2 - Z1 + (2 : ℝ) • U2) (2 * beta / rho) = Z2 - Z1) :
    tglZ1 prox beta rho (Z1 + U1) (Z2 + U2) = Z1 ∧ tglZ2 prox beta rho (Z1 + U1) (Z2 + U2) = Z2 := by
  have harg : Z2 + U2 - (Z1 + U1) = Z2 - Z1 + (2 : ℝ) • U2 := by
    rw [hU, two_smul]; abel
  unfold tglZ1 tglZ2
  rw [harg, hp, hU]
  constructor
  · have : Z1 + -U2 + (Z2 + U2) - (Z2 - Z1) = (2 : ℝ) • Z1 := by rw [two_smul]; abel
    rw [this, smul_smul]; norm_num
  · have : Z1 + -U2 + (Z2 + U2) + (Z2 - Z1) = (2 : ℝ) • Z2 := by rw [two_smul]; abel
    rw [this, smul_smul]; norm_num

/-- The subgradient inequality of the pair at a fixed point. -/
theorem pair_subgrad {psi : Matrix n n ℝ → ℝ} {prox : Matrix n n ℝ → ℝ → Matrix n n ℝ}
    (hconv : ConvexPen psi) (hprox : IsProxOf psi prox) {beta rho : ℝ} (hb : 0 ≤ beta) (hr : 0 < rho)
    {D U : Matrix n n ℝ} (h : prox (D + (2 : ℝ) • U) (2 * beta / rho) = D) (X : Matrix n n ℝ) :
    beta * psi D + frobInner (rho • U) (X - D) ≤ beta * psi X := by
  have h4 := prox_subgrad hconv (lam := 2 * beta / rho) (by positivity)
    (hprox (D + (2 : ℝ) • U) _ (by positivity)).isMin X
  rw [h, add_sub_cancel_left, frobInner_smul_left] at h4
  have h6 := mul_le_mul_of_nonneg_left h4 (by positivity : 0 ≤ rho / 2)
  have e : ∀ c : ℝ, rho / 2 * (2 * beta / rho * c) = beta * c := by
    intro c; field_simp
  rw [mul_add, e, e] at h6
  rw [frobInner_smul_left]
  linarith

/-- The log-determinant step shared by the solvers: with `M = (-c/n) sym(A) + S` and parameter `n/c`, the
result is positive definite and satisfies the stationarity equation. -/
theorem logdetStep_spec {eigh : Eigh n} (he : IsEighOracle eigh) {S : Matrix n n ℝ} (hS : S.IsSymm)
    {N c : ℝ} (hN : 0 < N) (hc : 0 < c) (A : Matrix n n ℝ) :
    let M := (-c / N) • symmetrize A + S
    let K := proxLogdet (eigh M).1 (eigh M).2 (N / c)
    K.PosDef ∧ N • (S - K⁻¹) + c • K - c • symmetrize A = 0 := by
  intro M K
  have hMs : M.IsSymm := by
    rw [IsSymm, transpose_add, transpose_smul, (symmetrize_isSymm _).eq, hS.eq]
  have hE := he M hMs
  have hl : 0 < N / c := by positivity
  refine ⟨proxLogdet_posDef hE.orth _ hl, ?_⟩
  have h1 := proxLogdet_stationary hE hl
  change M - K⁻¹ + (N / c)⁻¹ • K = 0 at h1
  have h2 : N • (M - K⁻¹ + (N / c)⁻¹ • K) = 0 := by rw [h1, smul_zero]
  change N • ((-c / N) • symmetrize A + S - K⁻¹ + (N / c)⁻¹ • K) = 0 at h2
  rw [smul_add, smul_sub, smul_add, smul_smul, smul_smul] at h2
  have e1 : N * (-c / N) = -c := by field_simp
  have e2 : N * (N / c)⁻¹ = c := by field_simp
  rw [e1, e2, neg_smul] at h2
  rw [smul_sub, ← h2]
  abel

/-- The log-determinant step is characterised by its stationarity equation. -/
theorem logdetStep_unique {eigh : Eigh n} (he : IsEighOracle eigh) {S : Matrix n n ℝ} (hS : S.IsSymm)
    {N c : ℝ} (hN : 0 < N) (hc : 0 < c) (A : Matrix n n ℝ) {X : Matrix n n ℝ} (hX : X.PosDef)
    (hst : N • (S - X⁻¹) + c • X - c • symmetrize A = 0) :
    proxLogdet (eigh ((-c / N) • symmetrize A + S)).1 (eigh ((-c / N) • symmetrize A + S)).2 (N / c) = X := by
  obtain ⟨hK, h1⟩ := logdetStep_spec he hS hN hc A
  set K := proxLogdet (eigh ((-c / N) • symmetrize A + S)).1 (eigh ((-c / N) • symmetrize A + S)).2 (N / c)
  have h2 : N • (X⁻¹ - K⁻¹) + c • (K - X) = 0 := by
    have : N • (X⁻¹ - K⁻¹) + c • (K - X) = (N • (S - K⁻¹) + c • K - c • symmetrize A) -
      (N • (S - X⁻¹) + c • X - c • symmetrize A) := by
      simp only [smul_sub]; abel
    rw [this, h1, hst, sub_zero]
  have h3 := congrArg (fun M => frobInner M (K - X)) h2
  simp only [frobInner_add_left, frobInner_smul_left, frobInner_self] at h3
  rw [frobInner_zero_left'] at h3
  have h4 := inv_mono hK hX
  have h5 := frobSq_nonneg (K - X)
  have h6 : 0 ≤ N * frobInner (X⁻¹ - K⁻¹) (K - X) := by positivity
  have h8 : frobSq (K - X) = 0 := by nlinarith
  exact sub_eq_zero.mp ((frobSq_eq_zero_iff _).mp h8)

end Verif.Lemmas
