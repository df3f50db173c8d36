import Verif.Lemmas.Certificate
import Verif.Props.TimeConv
import Mathlib.Algebra.Order.Chebyshev
import Mathlib.Algebra.BigOperators.Fin

/-! Property theorem C187 (when the time-varying problem has one network for all time points). -/

namespace Verif.Props

open Verif.Model Verif.Spec Verif.Lemmas Matrix Filter Topology

set_option autoImplicit false
set_option linter.unusedSectionVars false

variable {n : Type*} [Fintype n] [DecidableEq n]

/-- The problem of a single time point: `nS (tr(S K) - log det K) + alpha |K|_1`. -/
noncomputable def staticObjective (S : Matrix n n ℝ) (nS alpha : ℝ) (K : Matrix n n ℝ) : ℝ :=
  nS * (trace (S * K) - Real.log K.det) + alpha * absSumMat K

/-- One network for all time points: the sum of the problems of the single time points. -/
noncomputable def pooledObjective {k : ℕ} (S : Fin k → Matrix n n ℝ) (nS : Fin k → ℝ) (alpha : ℝ)
    (K : Matrix n n ℝ) : ℝ := ∑ t, staticObjective (S t) (nS t) alpha K

theorem timeObjective_eq_static {T : ℕ} (S : Fin (T + 1) → Matrix n n ℝ) (nS : Fin (T + 1) → ℝ) (alpha beta : ℝ)
    (psi : Matrix n n ℝ → ℝ) (K : Fin (T + 1) → Matrix n n ℝ) :
    timeObjective S nS alpha beta absSumMat psi K =
      ∑ t, staticObjective (S t) (nS t) alpha (K t) + beta * ∑ p : Fin T, psi (K p.succ - K p.castSucc) := by
  unfold timeObjective staticObjective
  rw [Finset.sum_add_distrib, Finset.mul_sum]

theorem kernelObjective_eq_static {k : ℕ} (S : Fin k → Matrix n n ℝ) (nS : Fin k → ℝ) (alpha : ℝ)
    (kernel : Fin k → Fin k → ℝ) (psi : Matrix n n ℝ → ℝ) (K : Fin k → Matrix n n ℝ) :
    kernelObjective S nS alpha kernel absSumMat psi K =
      ∑ t, staticObjective (S t) (nS t) alpha (K t) + kernelCoupling kernel psi K := by
  unfold kernelObjective staticObjective negLogLik
  rw [Finset.sum_add_distrib, Finset.mul_sum]

theorem kernelCoupling_const {k : ℕ} (kernel : Fin k → Fin k → ℝ) {psi : Matrix n n ℝ → ℝ} (h0 : psi 0 = 0)
    (X : Matrix n n ℝ) : kernelCoupling kernel psi (fun _ => X) = 0 := by
  unfold kernelCoupling
  refine Finset.sum_eq_zero fun s _ => Finset.sum_eq_zero fun t _ => ?_
  rw [sub_self, h0, mul_zero, ite_self]

theorem kernelCoupling_nonneg' {k : ℕ} {kernel : Fin k → Fin k → ℝ} (hker : ∀ s t, s < t → 0 ≤ kernel s t)
    {psi : Matrix n n ℝ → ℝ} (hpos : ∀ X, 0 ≤ psi X) (K : Fin k → Matrix n n ℝ) : 0 ≤ kernelCoupling kernel psi K := by
  unfold kernelCoupling
  refine Finset.sum_nonneg fun s _ => Finset.sum_nonneg fun t _ => ?_
  by_cases hst : s < t
  · rw [if_pos hst]; exact mul_nonneg (hker s t hst) (hpos _)
  · rw [if_neg hst]

/-- A unique minimiser of a sum of equal terms plus a coupling that vanishes on constant sequences is constant. -/
theorem const_of_equal {k : ℕ} (t0 : Fin k) {s : Set (Matrix n n ℝ)} {f : Matrix n n ℝ → ℝ}
    {C : (Fin k → Matrix n n ℝ) → ℝ} (hC : ∀ K, 0 ≤ C K) (hC0 : ∀ X, C (fun _ => X) = 0) {X : Fin k → Matrix n n ℝ}
    (hX : UniqueMin {K | ∀ t, K t ∈ s} (fun K => ∑ t, f (K t) + C K) X) :
    ∃ X0, UniqueMin s f X0 ∧ ∀ t, X t = X0 := by
  have : Nonempty (Fin k) := ⟨t0⟩
  obtain ⟨m, -, hm⟩ := Finset.exists_min_image Finset.univ (fun t => f (X t)) Finset.univ_nonempty
  have hcard : (0 : ℝ) < (Fintype.card (Fin k) : ℝ) := by exact_mod_cast Fintype.card_pos
  have hconst : (fun _ => X m) = X := by
    by_contra hne
    have h1 := hX.2 (fun _ => X m) (fun _ => hX.1 m) hne
    simp only [hC0, add_zero] at h1
    have h2 : ∑ _t : Fin k, f (X m) ≤ ∑ t, f (X t) := Finset.sum_le_sum fun t ht => hm t ht
    have := hC X
    linarith
  refine ⟨X m, ⟨hX.1 m, fun Y hY hne => ?_⟩, fun t => (congrFun hconst t).symm⟩
  have h1 := hX.2 (fun _ => Y) (fun _ => hY) (by
    rw [← hconst]
    exact fun e => hne (congrFun e m))
  rw [← hconst] at h1
  simp only [hC0, add_zero, Finset.sum_const, nsmul_eq_mul, Finset.card_univ] at h1
  exact lt_of_mul_lt_mul_left h1 hcard.le

/-- C187 (equal data): if all time points have the same covariance and the same number of samples, the optimum of the
time-varying problem has the same network at every time point, and it is the optimum of the problem of a single time
point, whatever `beta` and the penalty on differences are. -/
theorem C187_equal_data {T : ℕ} {S0 : Matrix n n ℝ} {nS0 alpha beta : ℝ} (hbe : 0 ≤ beta) {psi : Matrix n n ℝ → ℝ}
    (hpos : ∀ X, 0 ≤ psi X) (h0 : psi 0 = 0) {X : Fin (T + 1) → Matrix n n ℝ}
    (hX : UniqueMin (PDSeq (T + 1) n) (timeObjective (fun _ => S0) (fun _ => nS0) alpha beta absSumMat psi) X) :
    ∃ X0, UniqueMin (PD n) (staticObjective S0 nS0 alpha) X0 ∧ ∀ t, X t = X0 := by
  refine const_of_equal (0 : Fin (T + 1)) (C := fun K => beta * ∑ p : Fin T, psi (K p.succ - K p.castSucc))
    (fun K => mul_nonneg hbe (Finset.sum_nonneg fun p _ => hpos _)) (fun X => by simp [h0]) ?_
  have e : timeObjective (fun _ => S0) (fun _ => nS0) alpha beta absSumMat psi =
      fun K : Fin (T + 1) → Matrix n n ℝ => ∑ t, staticObjective S0 nS0 alpha (K t)
        + beta * ∑ p : Fin T, psi (K p.succ - K p.castSucc) := by
    funext K
    exact timeObjective_eq_static _ _ _ _ _ _
  rw [e] at hX
  exact hX

/-- C187 (equal data, kernel): the same for every kernel with values `≥ 0`. -/
theorem C187_equal_data_kernel {k : ℕ} (t0 : Fin k) {S0 : Matrix n n ℝ} {nS0 alpha : ℝ} {kernel : Fin k → Fin k → ℝ}
    (hker : ∀ s t, s < t → 0 ≤ kernel s t) {psi : Matrix n n ℝ → ℝ}
    (hpos : ∀ X, 0 ≤ psi X) (h0 : psi 0 = 0) {X : Fin k → Matrix n n ℝ}
    (hX : UniqueMin (PDSeq k n) (kernelObjective (fun _ => S0) (fun _ => nS0) alpha kernel absSumMat psi) X) :
    ∃ X0, UniqueMin (PD n) (staticObjective S0 nS0 alpha) X0 ∧ ∀ t, X t = X0 := by
  refine const_of_equal t0 (C := kernelCoupling kernel psi) (kernelCoupling_nonneg' hker hpos)
    (kernelCoupling_const kernel h0) ?_
  have e : kernelObjective (fun _ => S0) (fun _ => nS0) alpha kernel absSumMat psi =
      fun K : Fin k → Matrix n n ℝ => ∑ t, staticObjective S0 nS0 alpha (K t) + kernelCoupling kernel psi K := by
    funext K
    exact kernelObjective_eq_static _ _ _ _ _ _
  rw [e] at hX
  exact hX

/-- C187 (no penalty on differences): with `beta = 0` every time point of the optimum is the optimum of the problem of
that time point alone. -/
theorem C187_beta_zero {T : ℕ} {S : Fin (T + 1) → Matrix n n ℝ} {nS : Fin (T + 1) → ℝ} {alpha : ℝ}
    {psi : Matrix n n ℝ → ℝ} {X : Fin (T + 1) → Matrix n n ℝ}
    (hX : UniqueMin (PDSeq (T + 1) n) (timeObjective S nS alpha 0 absSumMat psi) X) (t : Fin (T + 1)) :
    UniqueMin (PD n) (staticObjective (S t) (nS t) alpha) (X t) := by
  refine ⟨hX.1 t, fun Y hY hne => ?_⟩
  have h1 := hX.2 (Function.update X t Y) (by
    intro s
    by_cases hs : s = t
    · rw [hs, Function.update_self]; exact hY
    · rw [Function.update_of_ne hs]; exact hX.1 s) (by
    intro e
    have := congrFun e t
    rw [Function.update_self] at this
    exact hne this)
  rw [timeObjective_eq_static, timeObjective_eq_static, zero_mul, zero_mul, add_zero, add_zero,
    ← Finset.add_sum_erase _ _ (Finset.mem_univ t),
    ← Finset.add_sum_erase _ (fun s => staticObjective (S s) (nS s) alpha (Function.update X t Y s))
      (Finset.mem_univ t), Function.update_self] at h1
  have h2 : ∑ s ∈ Finset.univ.erase t, staticObjective (S s) (nS s) alpha (Function.update X t Y s) =
      ∑ s ∈ Finset.univ.erase t, staticObjective (S s) (nS s) alpha (X s) :=
    Finset.sum_congr rfl fun s hs => by rw [Function.update_of_ne (Finset.ne_of_mem_erase hs)]
  rw [h2] at h1
  linarith

/-- First order condition of the pooled problem, along symmetric directions. -/
theorem pooled_direction {k : ℕ} [Nonempty (Fin k)] {S : Fin k → Matrix n n ℝ} {nS : Fin k → ℝ} {alpha : ℝ}
    (hS : ∀ t, (S t).IsSymm) (hn : ∀ t, 0 < nS t) (hal : 0 ≤ alpha) {X : Matrix n n ℝ}
    (hX : IsMin (PD n) (pooledObjective S nS alpha) X) (H : Matrix n n ℝ) (hH : H.IsSymm) :
    (k * alpha) * absSumMat X + ∑ t, nS t * frobInner (X⁻¹ - S t) H ≤ (k * alpha) * absSumMat (X + H) := by
  set N : ℝ := ∑ t, nS t with hN
  have hNpos : 0 < N := Finset.sum_pos (fun t _ => hn t) Finset.univ_nonempty
  set Sb : Matrix n n ℝ := N⁻¹ • ∑ t, nS t • S t with hSb
  have hSbs : Sb.IsSymm := by
    rw [hSb, IsSymm, transpose_smul, transpose_sum]
    congr 1
    exact Finset.sum_congr rfl fun t _ => by rw [transpose_smul, (hS t).eq]
  have hobj : ∀ K : Matrix n n ℝ, pooledObjective S nS alpha K =
      N * (trace (Sb * K) - Real.log K.det) + (k * alpha) * absSumMat K := by
    intro K
    unfold pooledObjective staticObjective
    rw [Finset.sum_add_distrib, Finset.sum_const, Finset.card_univ, Fintype.card_fin, nsmul_eq_mul]
    have h1 : N * trace (Sb * K) = ∑ t, nS t * trace (S t * K) := by
      rw [hSb, Matrix.smul_mul, trace_smul, smul_eq_mul, mul_inv_cancel_left₀ hNpos.ne', Finset.sum_mul, trace_sum]
      exact Finset.sum_congr rfl fun t _ => by rw [Matrix.smul_mul, trace_smul, smul_eq_mul]
    rw [mul_sub, h1, hN, Finset.sum_mul, ← Finset.sum_sub_distrib, mul_assoc]
    congr 1
    exact Finset.sum_congr rfl fun t _ => by rw [mul_sub]
  have hmin : IsMin (PDSeq 1 n) (fun K => negLogLik (fun _ => Sb) (fun _ => N) K +
      (fun Z : Fin 1 → Matrix n n ℝ => (k * alpha) * absSumMat (Z 0)) (fun i => K i)) (fun _ => X) := by
    refine ⟨fun _ => hX.1, fun Y hY => ?_⟩
    have := hX.2 (Y 0) (hY 0)
    rw [hobj, hobj] at this
    simpa [negLogLik] using this
  have h := optimum_direction (ep := (id : Fin 1 → Fin 1)) (fun _ => hSbs) (fun _ => hNpos)
    (F := fun Z : Fin 1 → Matrix n n ℝ => (k * alpha) * absSumMat (Z 0)) (by
      intro A B t h0 h1
      have hk : 0 ≤ (k : ℝ) * alpha := by positivity
      have := mul_le_mul_of_nonneg_left (absSumMat_convexPen (A 0) (B 0) t h0 h1) hk
      simp only [Pi.add_apply, Pi.smul_apply, Pi.sub_apply]
      linarith) hmin (fun _ => H) (fun _ => hH)
  simp only [Finset.univ_unique, Finset.sum_const, Finset.card_singleton, one_smul, Pi.add_apply] at h
  have e : N * frobInner (X⁻¹ - Sb) H = ∑ t, nS t * frobInner (X⁻¹ - S t) H := by
    have h1 : N * frobInner Sb H = ∑ t, nS t * frobInner (S t) H := by
      rw [hSb, frobInner_smul_left, mul_inv_cancel_left₀ hNpos.ne']
      have : ∀ u : Finset (Fin k), frobInner (∑ t ∈ u, nS t • S t) H = ∑ t ∈ u, nS t * frobInner (S t) H := by
        intro u
        induction u using Finset.induction_on with
        | empty => simp [frobInner]
        | insert t u ht ih => rw [Finset.sum_insert ht, Finset.sum_insert ht, frobInner_add_left, ih, frobInner_smul_left]
      exact this _
    rw [frobInner_sub_left, mul_sub, h1, hN, Finset.sum_mul, ← Finset.sum_sub_distrib]
    exact Finset.sum_congr rfl fun t _ => by rw [frobInner_sub_left, mul_sub]
  rw [← e]
  exact h

/-- Every entry agrees up to `ε`. -/
def CloseMat' (ε : ℝ) (X Y : Matrix n n ℝ) : Prop := ∀ i j, |X i j - Y i j| ≤ ε

/-- What the data of time point `t` pull the common network away from the compromise with. -/
noncomputable def pull {k : ℕ} (S : Fin k → Matrix n n ℝ) (nS : Fin k → ℝ) (X : Matrix n n ℝ) (t : Fin k) :
    Matrix n n ℝ :=
  nS t • (S t - X⁻¹) - (k : ℝ)⁻¹ • ∑ s, nS s • (S s - X⁻¹)

theorem pull_sum {k : ℕ} [Nonempty (Fin k)] (S : Fin k → Matrix n n ℝ) (nS : Fin k → ℝ) (X : Matrix n n ℝ) :
    ∑ t, pull S nS X t = 0 := by
  unfold pull
  rw [Finset.sum_sub_distrib, Finset.sum_const, Finset.card_univ, Fintype.card_fin, ← Nat.cast_smul_eq_nsmul ℝ,
    smul_smul, mul_inv_cancel₀, one_smul, sub_self]
  have : k ≠ 0 := by
    rintro rfl
    exact (‹Nonempty (Fin 0)›).elim fun t => t.elim0
  exact_mod_cast this

theorem frobInner_sum_left' {ι : Type*} (u : Finset ι) (f : ι → Matrix n n ℝ) (H : Matrix n n ℝ) :
    frobInner (∑ t ∈ u, f t) H = ∑ t ∈ u, frobInner (f t) H := by
  classical
  induction u using Finset.induction_on with
  | empty => simp [frobInner]
  | insert t u ht ih => rw [Finset.sum_insert ht, Finset.sum_insert ht, frobInner_add_left, ih]

/-- The sum of the problems of the single time points lies above its value at the common network plus the pulls. -/
theorem static_sum_ge {k : ℕ} [Nonempty (Fin k)] {S : Fin k → Matrix n n ℝ} {nS : Fin k → ℝ} {alpha : ℝ}
    (hS : ∀ t, (S t).IsSymm) (hn : ∀ t, 0 < nS t) (hal : 0 ≤ alpha) {X : Matrix n n ℝ}
    (hX : IsMin (PD n) (pooledObjective S nS alpha) X) {K : Fin k → Matrix n n ℝ} (hK : ∀ t, (K t).PosDef)
    (hne : K ≠ fun _ => X) (r : Fin k) :
    pooledObjective S nS alpha X + ∑ t, frobInner (pull S nS X t) (K t - K r) <
      ∑ t, staticObjective (S t) (nS t) alpha (K t) := by
  have hXpd : X.PosDef := hX.1
  have hk : (0 : ℝ) < k := by
    have : 0 < k := Fin.pos r
    exact_mod_cast this
  have h1 : ∀ t, alpha * absSumMat X + frobInner (-((k : ℝ)⁻¹ • ∑ s, nS s • (S s - X⁻¹))) (K t - X) ≤
      alpha * absSumMat (K t) := by
    intro t
    have hsym : (K t - X).IsSymm := by rw [IsSymm, transpose_sub, (hK t).isSymm'.eq, hXpd.isSymm'.eq]
    have h := pooled_direction hS hn hal hX (K t - X) hsym
    rw [add_sub_cancel] at h
    have e : ∑ s, nS s * frobInner (X⁻¹ - S s) (K t - X) = -frobInner (∑ s, nS s • (S s - X⁻¹)) (K t - X) := by
      rw [frobInner_sum_left', ← Finset.sum_neg_distrib]
      refine Finset.sum_congr rfl fun s _ => ?_
      rw [frobInner_smul_left, frobInner_sub_left, frobInner_sub_left]
      ring
    rw [e] at h
    rw [← neg_smul, frobInner_smul_left]
    have h2 := mul_le_mul_of_nonneg_left h (inv_pos.mpr hk).le
    have h3 : (k : ℝ)⁻¹ * (k * alpha * absSumMat X + -frobInner (∑ s, nS s • (S s - X⁻¹)) (K t - X)) =
        alpha * absSumMat X + -(k : ℝ)⁻¹ * frobInner (∑ s, nS s • (S s - X⁻¹)) (K t - X) := by
      rw [mul_add, ← mul_assoc, ← mul_assoc, inv_mul_cancel₀ hk.ne', one_mul]
      ring
    have h4 : (k : ℝ)⁻¹ * (k * alpha * absSumMat (K t)) = alpha * absSumMat (K t) := by
      rw [← mul_assoc, ← mul_assoc, inv_mul_cancel₀ hk.ne', one_mul]
    linarith
  have hle : ∀ t, staticObjective (S t) (nS t) alpha X + frobInner (pull S nS X t) (K t - X) ≤
      staticObjective (S t) (nS t) alpha (K t) := by
    intro t
    have h2 := mul_le_mul_of_nonneg_left (loglik_tangent (hS t) hXpd (hK t)) (hn t).le
    have h3 := h1 t
    unfold staticObjective pull
    rw [sub_eq_add_neg (nS t • _), frobInner_add_left, frobInner_smul_left]
    rw [mul_add] at h2
    linarith
  obtain ⟨u, hu⟩ : ∃ u, K u ≠ X := by
    by_contra hc
    push Not at hc
    exact hne (funext hc)
  have hlt : staticObjective (S u) (nS u) alpha X + frobInner (pull S nS X u) (K u - X) <
      staticObjective (S u) (nS u) alpha (K u) := by
    have h2 : trace (S u * X) - Real.log X.det + frobInner (S u - X⁻¹) (K u - X) <
        trace (S u * K u) - Real.log (K u).det := by
      have h := log_det_lt (hK u) hXpd hu
      rw [← frobInner_eq_trace_of_symm (hS u), ← frobInner_eq_trace_of_symm (hS u), frobInner_sub_left,
        frobInner_sub_right (S u)]
      linarith
    have h2 := mul_lt_mul_of_pos_left h2 (hn u)
    have h3 := h1 u
    unfold staticObjective pull
    rw [sub_eq_add_neg (nS u • _), frobInner_add_left, frobInner_smul_left]
    rw [mul_add] at h2
    linarith
  have hsum := Finset.sum_lt_sum (fun t _ => hle t) ⟨u, Finset.mem_univ u, hlt⟩
  rw [Finset.sum_add_distrib] at hsum
  have e : ∑ t, frobInner (pull S nS X t) (K t - X) = ∑ t, frobInner (pull S nS X t) (K t - K r) := by
    have h0 : ∑ t, frobInner (pull S nS X t) (K r - X) = 0 := by
      rw [← frobInner_sum_left', pull_sum]
      simp [frobInner]
    have : ∀ t, frobInner (pull S nS X t) (K t - X) =
        frobInner (pull S nS X t) (K t - K r) + frobInner (pull S nS X t) (K r - X) := by
      intro t
      rw [← frobInner_add_right, sub_add_sub_cancel]
    rw [Finset.sum_congr rfl fun t _ => this t, Finset.sum_add_distrib, h0, add_zero]
  rw [e] at hsum
  exact hsum

theorem frobInner_ge_absSum (A B : Matrix n n ℝ) : -(absSumMat A * absSumMat B) ≤ frobInner A B := by
  have hB : ∀ i j, |B i j| ≤ absSumMat B := fun i j =>
    (Finset.single_le_sum (f := fun j => |B i j|) (fun j _ => abs_nonneg _) (Finset.mem_univ j)).trans
      (Finset.single_le_sum (f := fun i => ∑ j, |B i j|)
        (fun i _ => Finset.sum_nonneg fun j _ => abs_nonneg _) (Finset.mem_univ i))
  unfold frobInner
  have e : -(absSumMat A * absSumMat B) = ∑ i, ∑ j, -(|A i j| * absSumMat B) := by
    conv_lhs => rw [absSumMat.eq_1 A]
    simp only [Finset.sum_mul, Finset.sum_neg_distrib]
  rw [e]
  refine Finset.sum_le_sum fun i _ => Finset.sum_le_sum fun j _ => ?_
  have h1 := neg_abs_le (A i j * B i j)
  rw [abs_mul] at h1
  have h2 := mul_le_mul_of_nonneg_left (hB i j) (abs_nonneg (A i j))
  linarith

theorem absSumMat_add_le (A B : Matrix n n ℝ) : absSumMat (A + B) ≤ absSumMat A + absSumMat B := by
  unfold absSumMat
  rw [← Finset.sum_add_distrib]
  refine Finset.sum_le_sum fun i _ => ?_
  rw [← Finset.sum_add_distrib]
  exact Finset.sum_le_sum fun j _ => abs_add_le _ _

/-- The distance of a time point to the first one is at most the sum of all steps. -/
theorem steps_bound {T : ℕ} (K : Fin (T + 1) → Matrix n n ℝ) (t : Fin (T + 1)) :
    absSumMat (K t - K 0) ≤ ∑ p : Fin T, absSumMat (K p.succ - K p.castSucc) := by
  have key : ∀ j (hj : j < T + 1), absSumMat (K ⟨j, hj⟩ - K 0) ≤
      ∑ p ∈ Finset.univ.filter (fun p : Fin T => p.val < j), absSumMat (K p.succ - K p.castSucc) := by
    intro j
    induction j with
    | zero =>
      intro hj
      have : (⟨0, hj⟩ : Fin (T + 1)) = 0 := rfl
      rw [this, sub_self]
      simp [absSumMat]
    | succ j ih =>
      intro hj
      have h1 := ih (by omega)
      have hj' : j < T := by omega
      have h2 := absSumMat_add_le (K ⟨j + 1, hj⟩ - K ⟨j, by omega⟩) (K ⟨j, by omega⟩ - K 0)
      rw [sub_add_sub_cancel] at h2
      have e : Finset.univ.filter (fun p : Fin T => p.val < j + 1) =
          insert ⟨j, hj'⟩ (Finset.univ.filter (fun p : Fin T => p.val < j)) := by
        ext p
        simp only [Finset.mem_filter, Finset.mem_univ, true_and, Finset.mem_insert, Fin.ext_iff]
        omega
      rw [e, Finset.sum_insert (by simp)]
      have h3 : absSumMat (K ⟨j + 1, hj⟩ - K ⟨j, by omega⟩) =
          absSumMat (K (Fin.succ ⟨j, hj'⟩) - K (Fin.castSucc ⟨j, hj'⟩)) := rfl
      rw [← h3]
      linarith
  refine (key t.val t.isLt).trans (Finset.sum_le_sum_of_subset_of_nonneg (Finset.filter_subset _ _) ?_)
  exact fun _ _ _ => absSumMat_nonneg' _

/-- C187 (large `beta`): if the penalty on differences is at least `c` times the l1 norm, every `beta` above a value
given by the data makes the optimum of the time-varying problem one and the same network at all time points: the optimum
of the pooled problem. -/
theorem C187_beta_large {T : ℕ} {S : Fin (T + 1) → Matrix n n ℝ} {nS : Fin (T + 1) → ℝ} {alpha : ℝ}
    (hS : ∀ t, (S t).IsSymm) (hn : ∀ t, 0 < nS t) (hal : 0 ≤ alpha) {psi : Matrix n n ℝ → ℝ} {c : ℝ}
    (h0 : psi 0 = 0) (hc : ∀ M, c * absSumMat M ≤ psi M) {X : Matrix n n ℝ}
    (hX : IsMin (PD n) (pooledObjective S nS alpha) X) {beta : ℝ}
    (hbe : 0 ≤ beta) (hbc : ∑ t, absSumMat (pull S nS X t) ≤ beta * c) :
    UniqueMin (PDSeq (T + 1) n) (timeObjective S nS alpha beta absSumMat psi) (fun _ => X) := by
  refine ⟨fun _ => hX.1, fun K hK hne => ?_⟩
  have h1 := static_sum_ge hS hn hal hX hK hne 0
  rw [timeObjective_eq_static, timeObjective_eq_static]
  simp only [sub_self, h0, Finset.sum_const_zero, mul_zero, add_zero]
  set D : ℝ := ∑ p : Fin T, absSumMat (K p.succ - K p.castSucc) with hD
  have hD0 : 0 ≤ D := Finset.sum_nonneg fun p _ => absSumMat_nonneg' _
  have h2 : -((∑ t, absSumMat (pull S nS X t)) * D) ≤ ∑ t, frobInner (pull S nS X t) (K t - K 0) := by
    rw [Finset.sum_mul, ← Finset.sum_neg_distrib]
    refine Finset.sum_le_sum fun t _ => ?_
    have h3 := frobInner_ge_absSum (pull S nS X t) (K t - K 0)
    have h4 := mul_le_mul_of_nonneg_left (steps_bound K t) (absSumMat_nonneg' (pull S nS X t))
    linarith
  have h5 := mul_le_mul_of_nonneg_right hbc hD0
  have h6 : c * D ≤ ∑ p : Fin T, psi (K p.succ - K p.castSucc) := by
    rw [hD, Finset.mul_sum]
    exact Finset.sum_le_sum fun p _ => hc _
  have h7 := mul_le_mul_of_nonneg_left h6 hbe
  unfold pooledObjective at h1
  linarith

/-- C187 (large kernel): the same for a kernel that is large enough between the first time point and every other one. -/
theorem C187_kernel_large {k : ℕ} {S : Fin (k + 1) → Matrix n n ℝ} {nS : Fin (k + 1) → ℝ} {alpha : ℝ}
    (hS : ∀ t, (S t).IsSymm) (hn : ∀ t, 0 < nS t) (hal : 0 ≤ alpha) {psi : Matrix n n ℝ → ℝ} {c : ℝ} (hc0 : 0 ≤ c)
    (h0 : psi 0 = 0) (hc : ∀ M, c * absSumMat M ≤ psi M) {X : Matrix n n ℝ}
    (hX : IsMin (PD n) (pooledObjective S nS alpha) X) {kernel : Fin (k + 1) → Fin (k + 1) → ℝ}
    (hker : ∀ s t, s < t → 0 ≤ kernel s t) (hbc : ∀ t, 0 < t → absSumMat (pull S nS X t) ≤ kernel 0 t * c) :
    UniqueMin (PDSeq (k + 1) n) (kernelObjective S nS alpha kernel absSumMat psi) (fun _ => X) := by
  have hpos : ∀ M, 0 ≤ psi M := fun M => (mul_nonneg hc0 (absSumMat_nonneg' M)).trans (hc M)
  refine ⟨fun _ => hX.1, fun K hK hne => ?_⟩
  have h1 := static_sum_ge hS hn hal hX hK hne 0
  rw [kernelObjective_eq_static, kernelObjective_eq_static, kernelCoupling_const kernel h0, add_zero]
  have h2 : ∑ t, (if 0 < t then kernel 0 t * psi (K t - K 0) else 0) ≤ kernelCoupling kernel psi K := by
    unfold kernelCoupling
    refine Finset.single_le_sum (f := fun s => ∑ t, if s < t then kernel s t * psi (K t - K s) else 0) ?_
      (Finset.mem_univ 0)
    intro s _
    refine Finset.sum_nonneg fun t _ => ?_
    by_cases hst : s < t
    · rw [if_pos hst]; exact mul_nonneg (hker s t hst) (hpos _)
    · rw [if_neg hst]
  have h3 : -∑ t, (if 0 < t then kernel 0 t * psi (K t - K 0) else 0) ≤
      ∑ t, frobInner (pull S nS X t) (K t - K 0) := by
    rw [← Finset.sum_neg_distrib]
    refine Finset.sum_le_sum fun t _ => ?_
    by_cases ht : 0 < t
    · rw [if_pos ht]
      have h4 := frobInner_ge_absSum (pull S nS X t) (K t - K 0)
      have h5 := mul_le_mul_of_nonneg_right (hbc t ht) (absSumMat_nonneg' (K t - K 0))
      have h6 := mul_le_mul_of_nonneg_left (hc (K t - K 0)) (hker 0 t ht)
      linarith
    · rw [if_neg ht, neg_zero]
      have : t = 0 := le_antisymm (not_lt.mp ht) (Fin.zero_le t)
      rw [this, sub_self]
      simp [frobInner]
  unfold pooledObjective at h1
  linarith

/-- The pooled problem has an optimum for every positive semidefinite data and `alpha > 0`. -/
theorem C187_pooled_exists {k : ℕ} [Nonempty (Fin k)] {S : Fin k → Matrix n n ℝ} {nS : Fin k → ℝ} {alpha : ℝ}
    (hS : ∀ t, (S t).PosSemidef) (hn : ∀ t, 0 < nS t) (hal : 0 < alpha) :
    ∃ X, IsMin (PD n) (pooledObjective S nS alpha) X := by
  set P : Batch 1 n → ℝ := fun K => ∑ t, nS t * trace (S t * K 0) + (k * alpha) * absSumMat (K 0) with hP
  have hproj : Continuous fun K : Batch 1 n => K 0 := continuous_apply 0
  have hk : (0 : ℝ) < k := by
    have : 0 < k := by
      rcases Nat.eq_zero_or_pos k with h | h
      · subst h; exact (‹Nonempty (Fin 0)›).elim fun t => t.elim0
      · exact h
    exact_mod_cast this
  have hN : 0 < ∑ t, nS t := Finset.sum_pos (fun t _ => hn t) Finset.univ_nonempty
  have hPc : Continuous P := by
    refine Continuous.add ?_ ?_
    · refine continuous_finsetSum _ fun t _ => continuous_const.mul ?_
      exact (continuous_const.matrix_mul hproj).matrix_trace
    · exact continuous_const.mul ((ConvexPen.continuous absSumMat_convexPen).comp hproj)
  obtain ⟨X, hX⟩ := exists_min_logdet (N := fun _ : Fin 1 => ∑ t, nS t) (c := fun _ => k * alpha) (b := 0)
    (fun _ => hN) (fun _ => by positivity) hPc (by
      intro K hK
      have h1 : 0 ≤ ∑ t, nS t * trace (S t * K 0) := Finset.sum_nonneg fun t _ =>
        mul_nonneg (hn t).le (trace_mul_nonneg' (hS t) (hK 0))
      have h2 := mul_le_mul_of_nonneg_left (trace_le_absSumMat (K := K 0)) (by positivity : 0 ≤ (k : ℝ) * alpha)
      simp only [hP, Finset.univ_unique, Finset.sum_singleton]
      have : (default : Fin 1) = 0 := rfl
      rw [this]
      linarith)
  refine ⟨X 0, hX.1 0, fun Y hY => ?_⟩
  have h := hX.2 (fun _ => Y) (fun _ => hY)
  have e : ∀ K : Matrix n n ℝ, pooledObjective S nS alpha K =
      P (fun _ => K) - (∑ t, nS t) * Real.log K.det := by
    intro K
    unfold pooledObjective staticObjective
    simp only [hP]
    rw [Finset.sum_add_distrib, Finset.sum_const, Finset.card_univ, Fintype.card_fin, nsmul_eq_mul, Finset.sum_mul]
    simp only [mul_sub, Finset.sum_sub_distrib]
    ring
  rw [e, e]
  simpa [hP] using h

/-- C187 (solver): for every data set there is a value above which every `beta` makes the results of
`time_graphical_lasso` converge to one network for all time points. -/
theorem C187_solver [Nonempty n] {T : ℕ} {eigh : Eigh n} (he : IsEighOracle eigh)
    (a : TGLArgs T n) (hS : ∀ t, (a.empCov t).PosSemidef) (hn : ∀ t, 0 < a.nSamples t) (hal : 0 < a.alpha)
    (hconv : ConvexPen a.psi) (h0 : a.psi 0 = 0) {c : ℝ} (hc0 : 0 < c) (hc : ∀ M, c * absSumMat M ≤ a.psi M)
    (hprox : IsProxOf a.psi a.prox) (hi : a.rhoOptions.tauInc = 1) (hd : a.rhoOptions.tauDec = 1)
    (hst : a.stopAt = none) (K0 : Batch (T + 1) n) {rho : ℝ} (hr : 0 < rho) :
    ∃ X, IsMin (PD n) (pooledObjective a.empCov a.nSamples a.alpha) X ∧ ∃ beta0, ∀ beta, beta0 ≤ beta → ∀ ε, 0 < ε →
      ∃ δ, 0 < δ ∧ ∃ M, ∀ tol rtol, 0 ≤ tol → tol ≤ δ → 0 ≤ rtol → rtol ≤ δ → ∀ m, M ≤ m → ∀ rh rn, ∃ Z hist it w,
        timeGraphicalLasso eigh { a with beta := beta, tol := tol, rtol := rtol } K0 rho m rh rn = .ok Z hist it w
          ∧ ∀ t, CloseMat' ε (Z t) X := by
  obtain ⟨X, hX⟩ := C187_pooled_exists (n := n) hS hn hal
  have hSs : ∀ t, (a.empCov t).IsSymm := fun t => by
    have := (hS t).isHermitian
    rwa [IsHermitian, conjTranspose_eq_transpose_of_trivial] at this
  refine ⟨X, hX, (∑ t, absSumMat (pull a.empCov a.nSamples X t)) / c, fun beta hbeta ε hε => ?_⟩
  have hpull : 0 ≤ ∑ t, absSumMat (pull a.empCov a.nSamples X t) := Finset.sum_nonneg fun t _ => absSumMat_nonneg' _
  have hbe : 0 ≤ beta := (div_nonneg hpull hc0.le).trans hbeta
  have hpos : ∀ M, 0 ≤ a.psi M := fun M => (mul_nonneg hc0.le (absSumMat_nonneg' M)).trans (hc M)
  have hun := C187_beta_large hSs hn hal.le h0 hc hX hbe ((div_le_iff₀ hc0).mp hbeta)
  obtain ⟨Y, hY, -, hacc⟩ := C103_time_converges he { a with beta := beta } hS hn hal hbe hconv hpos hprox hi hd hst K0 hr
  have hYX : Y = fun _ => X := by
    by_contra hne
    have h1 := hun.2 Y hY.1 hne
    have h2 := hY.2 _ hun.1 (fun e => hne e.symm)
    exact lt_asymm h1 h2
  obtain ⟨δ, hδ, M, hM⟩ := hacc ε hε
  refine ⟨δ, hδ, M, fun tol rtol h1 h2 h3 h4 m hm rh rn => ?_⟩
  obtain ⟨Z, hist, it, w, hrun, hcl⟩ := hM tol rtol h1 h2 h3 h4 m hm rh rn
  refine ⟨Z, hist, it, w, hrun, fun t i j => ?_⟩
  have := hcl t i j
  rwa [hYX] at this

/-- The condition on the penalty holds for `psi="l1"` with `c = 1`. -/
theorem C187_psi_l1 : (l1Norm : Matrix n n ℝ → ℝ) 0 = 0 ∧ ∀ M : Matrix n n ℝ, 1 * absSumMat M ≤ l1Norm M :=
  ⟨by simp [l1Norm], fun M => by rw [one_mul]; exact le_rfl⟩

/-- The condition on the penalty holds for the sum of the column norms, the penalty whose proximal map `psi="l2"` applies,
with `c = 1 / sqrt p` for `p` variables. -/
theorem C187_psi_l2 [Nonempty n] : (colNormSum : Matrix n n ℝ → ℝ) 0 = 0 ∧
    ∀ M : Matrix n n ℝ, (1 / Real.sqrt (Fintype.card n)) * absSumMat M ≤ colNormSum M := by
  have hcard : (0 : ℝ) < Fintype.card n := by exact_mod_cast Fintype.card_pos
  refine ⟨by simp [colNormSum], fun M => ?_⟩
  rw [one_div, inv_mul_le_iff₀ (Real.sqrt_pos.mpr hcard)]
  unfold absSumMat colNormSum
  rw [Finset.sum_comm, Finset.mul_sum]
  refine Finset.sum_le_sum fun j _ => ?_
  rw [← Real.sqrt_mul hcard.le]
  refine Real.le_sqrt_of_sq_le ?_
  have := sq_sum_le_card_mul_sum_sq (s := (Finset.univ : Finset n)) (f := fun i => |M i j|)
  simpa [sq_abs, Finset.card_univ] using this

theorem logdet_segment {X Y : Matrix n n ℝ} (hX : X.PosDef) (hY : Y.PosDef) {s : ℝ} (h0 : 0 ≤ s) (h1 : s ≤ 1)
    (hM : (X + s • (Y - X)).PosDef) :
    (1 - s) * Real.log X.det + s * Real.log Y.det ≤ Real.log (X + s • (Y - X)).det := by
  have h2 := mul_le_mul_of_nonneg_left (log_det_le hX hM) (sub_nonneg.mpr h1)
  have h3 := mul_le_mul_of_nonneg_left (log_det_le hY hM) h0
  have e1 : X - (X + s • (Y - X)) = (-s) • (Y - X) := by rw [neg_smul]; abel
  have e2 : Y - (X + s • (Y - X)) = (1 - s) • (Y - X) := by rw [sub_smul, one_smul]; abel
  rw [e1, frobInner_smul_right] at h2
  rw [e2, frobInner_smul_right] at h3
  linarith

theorem static_segment {S X Y : Matrix n n ℝ} {nS alpha : ℝ} (hn : 0 ≤ nS) (hal : 0 ≤ alpha) (hX : X.PosDef)
    (hY : Y.PosDef) {s : ℝ} (h0 : 0 ≤ s) (h1 : s ≤ 1) (hM : (X + s • (Y - X)).PosDef) :
    staticObjective S nS alpha (X + s • (Y - X)) ≤
      staticObjective S nS alpha X + s * (staticObjective S nS alpha Y - staticObjective S nS alpha X) := by
  have h2 := mul_le_mul_of_nonneg_left (logdet_segment hX hY h0 h1 hM) hn
  have h3 := mul_le_mul_of_nonneg_left (absSumMat_convexPen X Y s h0 h1) hal
  have h4 : trace (S * (X + s • (Y - X))) = trace (S * X) + s * (trace (S * Y) - trace (S * X)) := by
    rw [mul_add, mul_smul_comm, mul_sub, trace_add, trace_smul, trace_sub, smul_eq_mul]
  unfold staticObjective
  rw [h4]
  linarith

/-- C187 (squared differences): with `psi="laplacian"` no `beta` has this effect. The optimum is one network for all
time points only if that network is the optimum of every single time point. -/
theorem C187_laplacian {T : ℕ} {S : Fin (T + 1) → Matrix n n ℝ} {nS : Fin (T + 1) → ℝ} {alpha beta : ℝ}
    (hn : ∀ t, 0 ≤ nS t) (hal : 0 ≤ alpha) (hbe : 0 ≤ beta) {X : Matrix n n ℝ}
    (hX : IsMin (PDSeq (T + 1) n) (timeObjective S nS alpha beta absSumMat fun M => ∑ i, ∑ j, M i j ^ 2) fun _ => X)
    (t : Fin (T + 1)) : IsMin (PD n) (staticObjective (S t) (nS t) alpha) X := by
  have hXpd : X.PosDef := hX.1 t
  refine ⟨hXpd, fun Y hY => ?_⟩
  have hYpd : Y.PosDef := hY
  set q : ℝ := ∑ i, ∑ j, (Y - X) i j ^ 2 with hq
  have hq0 : 0 ≤ q := Finset.sum_nonneg fun i _ => Finset.sum_nonneg fun j _ => sq_nonneg _
  have key : ∀ s : ℝ, 0 < s → s ≤ 1 → staticObjective (S t) (nS t) alpha X ≤
      staticObjective (S t) (nS t) alpha Y + s * (beta * (T * q)) := by
    intro s hs hs1
    have hM : (X + s • (Y - X)).PosDef := by
      rcases eq_or_lt_of_le hs1 with h | h
      · rw [h, one_smul, add_sub_cancel]; exact hYpd
      · have e : X + s • (Y - X) = (1 - s) • X + s • Y := by
          rw [sub_smul, one_smul, smul_sub]; abel
        rw [e]
        exact (hXpd.smul (sub_pos.mpr h)).add (hYpd.smul hs)
    set K : Fin (T + 1) → Matrix n n ℝ := Function.update (fun _ => X) t (X + s • (Y - X)) with hK
    have hKt : K t = X + s • (Y - X) := Function.update_self ..
    have hKo : ∀ u, u ≠ t → K u = X := fun u hu => Function.update_of_ne hu ..
    have h1 := hX.2 K (fun u => by
      by_cases hu : u = t
      · rw [hu, hKt]; exact hM
      · rw [hKo u hu]; exact hXpd)
    rw [timeObjective_eq_static, timeObjective_eq_static] at h1
    have hz : ∑ _p : Fin T, ∑ i, ∑ j, (X - X) i j ^ 2 = 0 := by simp
    rw [hz, mul_zero, add_zero] at h1
    have hc : ∑ p : Fin T, ∑ i, ∑ j, (K p.succ - K p.castSucc) i j ^ 2 ≤ T * (s ^ 2 * q) := by
      have hs2 : ∀ c : ℝ, c ^ 2 = s ^ 2 → ∑ i, ∑ j, (c • (Y - X)) i j ^ 2 = s ^ 2 * q := by
        intro c hcs
        rw [hq, Finset.mul_sum]
        refine Finset.sum_congr rfl fun i _ => ?_
        rw [Finset.mul_sum]
        refine Finset.sum_congr rfl fun j _ => ?_
        rw [Matrix.smul_apply, smul_eq_mul, mul_pow, hcs]
      have hb : ∀ p : Fin T, ∑ i, ∑ j, (K p.succ - K p.castSucc) i j ^ 2 ≤ s ^ 2 * q := by
        intro p
        have hne : p.succ ≠ p.castSucc := (Fin.castSucc_lt_succ (i := p)).ne'
        by_cases h2 : p.succ = t
        · rw [h2, hKt, hKo p.castSucc (fun e => hne (h2.trans e.symm)), add_sub_cancel_left, hs2 s rfl]
        · rw [hKo _ h2]
          by_cases h3 : p.castSucc = t
          · have e : X - K p.castSucc = (-s) • (Y - X) := by rw [h3, hKt, neg_smul]; abel
            rw [e, hs2 (-s) (by ring)]
          · rw [hKo _ h3, sub_self]
            simp only [Matrix.zero_apply, ne_eq, OfNat.ofNat_ne_zero, not_false_eq_true, zero_pow,
              Finset.sum_const_zero]
            positivity
      calc _ ≤ ∑ _p : Fin T, s ^ 2 * q := Finset.sum_le_sum fun p _ => hb p
        _ = _ := by rw [Finset.sum_const, Finset.card_univ, Fintype.card_fin, nsmul_eq_mul]
    rw [← Finset.add_sum_erase _ _ (Finset.mem_univ t),
      ← Finset.add_sum_erase _ (fun u => staticObjective (S u) (nS u) alpha (K u)) (Finset.mem_univ t), hKt] at h1
    have h2 : ∑ u ∈ Finset.univ.erase t, staticObjective (S u) (nS u) alpha (K u) =
        ∑ u ∈ Finset.univ.erase t, staticObjective (S u) (nS u) alpha X :=
      Finset.sum_congr rfl fun u hu => by rw [hKo u (Finset.ne_of_mem_erase hu)]
    rw [h2] at h1
    have h3 := static_segment (S := S t) (hn t) hal hXpd hYpd hs.le hs1 hM
    have h4 := mul_le_mul_of_nonneg_left hc hbe
    have h5 : s * staticObjective (S t) (nS t) alpha X ≤
        s * (staticObjective (S t) (nS t) alpha Y + s * (beta * (T * q))) := by
      have : s * (s * (beta * (T * q))) = beta * (T * (s ^ 2 * q)) := by ring
      rw [mul_add, this]
      linarith
    exact le_of_mul_le_mul_left h5 hs
  refine le_of_forall_pos_le_add fun ε hε => ?_
  set b : ℝ := beta * (T * q) with hb
  have hb0 : 0 ≤ b := by positivity
  have hs := key (min 1 (ε / (b + 1))) (lt_min one_pos (by positivity)) (min_le_left _ _)
  have : min 1 (ε / (b + 1)) * b ≤ ε := by
    have h1 : min 1 (ε / (b + 1)) * b ≤ ε / (b + 1) * b := mul_le_mul_of_nonneg_right (min_le_right _ _) hb0
    have h2 : ε / (b + 1) * b ≤ ε := by
      rw [div_mul_eq_mul_div, div_le_iff₀ (by linarith)]
      nlinarith
    linarith
  linarith

/-- Two time points with different data: a pooled optimum exists, so C187_beta_large applies, and the pulls of the two
time points are not zero. -/
example : ∃ (S : Fin 2 → Matrix Unit Unit ℝ) (X : Matrix Unit Unit ℝ), (∀ t, (S t).PosSemidef) ∧
    IsMin (PD Unit) (pooledObjective S (fun _ => 1) 1) X ∧ pull S (fun _ => 1) X 0 ≠ 0 := by
  set S : Fin 2 → Matrix Unit Unit ℝ := fun t => if t = 0 then 1 else 0 with hS
  have hpsd : ∀ t, (S t).PosSemidef := by
    intro t
    simp only [hS]
    split
    · exact PosSemidef.one
    · exact PosSemidef.zero
  obtain ⟨X, hX⟩ := C187_pooled_exists (n := Unit) hpsd (nS := fun _ => 1) (fun _ => one_pos) (alpha := 1) one_pos
  refine ⟨S, X, hpsd, hX, fun h => ?_⟩
  have h1 := congrFun (congrFun h ()) ()
  have e : pull S (fun _ => 1) X 0 () () = 1 / 2 := by
    unfold pull
    rw [Fin.sum_univ_two]
    simp only [hS, Matrix.sub_apply, Matrix.smul_apply, Matrix.add_apply, smul_eq_mul, if_true, Matrix.one_apply_eq,
      one_ne_zero, if_false, Matrix.zero_apply, Nat.cast_ofNat]
    ring
  rw [e, Matrix.zero_apply] at h1
  norm_num at h1

end Verif.Props
