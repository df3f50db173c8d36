import Verif.Lemmas.Direction

/-! Comparison of the optima of two problems: changed data, changed penalties, changed units. -/

namespace Verif.Lemmas

open Verif.Model Verif.Spec Matrix Filter Topology

set_option autoImplicit false
set_option linter.unusedSectionVars false

variable {n : Type*} [Fintype n] [DecidableEq n] {k : ℕ}

/-- Convex along segments of sequences. -/
def SegConvex (F : (Fin k → Matrix n n ℝ) → ℝ) : Prop :=
  ∀ A B : Fin k → Matrix n n ℝ, ∀ r : ℝ, 0 ≤ r → r ≤ 1 →
    F (fun t => A t + r • (B t - A t)) ≤ (1 - r) * F A + r * F B

theorem SegConvex.add {F G : (Fin k → Matrix n n ℝ) → ℝ} (hF : SegConvex F) (hG : SegConvex G) :
    SegConvex (fun K => F K + G K) := fun A B r h0 h1 => by
  have h2 := hF A B r h0 h1
  have h3 := hG A B r h0 h1
  simp only
  linarith

theorem SegConvex.const_mul {F : (Fin k → Matrix n n ℝ) → ℝ} (hF : SegConvex F) {c : ℝ} (hc : 0 ≤ c) :
    SegConvex (fun K => c * F K) := fun A B r h0 h1 => by
  have h2 := mul_le_mul_of_nonneg_left (hF A B r h0 h1) hc
  simp only
  linarith

theorem segConvex_sum {ι : Type*} [Fintype ι] {F : ι → (Fin k → Matrix n n ℝ) → ℝ} (hF : ∀ i, SegConvex (F i)) :
    SegConvex (fun K => ∑ i, F i K) := fun A B r h0 h1 => by
  simp only
  rw [Finset.mul_sum, Finset.mul_sum, ← Finset.sum_add_distrib]
  exact Finset.sum_le_sum fun i _ => hF i A B r h0 h1

theorem segConvex_at {psi : Matrix n n ℝ → ℝ} (h : ConvexPen psi) (t : Fin k) :
    SegConvex (fun K : Fin k → Matrix n n ℝ => psi (K t)) := fun A B r h0 h1 => h (A t) (B t) r h0 h1

theorem segConvex_diff {psi : Matrix n n ℝ → ℝ} (h : ConvexPen psi) (s t : Fin k) :
    SegConvex (fun K : Fin k → Matrix n n ℝ => psi (K t - K s)) := fun A B r h0 h1 => by
  have := h (A t - A s) (B t - B s) r h0 h1
  rw [show A t - A s + r • (B t - B s - (A t - A s)) = (A t + r • (B t - A t)) - (A s + r • (B s - A s)) by
    module] at this
  exact this

theorem segConvex_pen {psi : Matrix n n ℝ → ℝ} (h : ConvexPen psi) :
    SegConvex (fun K : Fin k → Matrix n n ℝ => ∑ t, psi (K t)) := segConvex_sum fun t => segConvex_at h t

theorem segConvex_chain {T : ℕ} {psi : Matrix n n ℝ → ℝ} (h : ConvexPen psi) :
    SegConvex (fun K : Fin (T + 1) → Matrix n n ℝ => chainCoupling psi K) :=
  segConvex_sum fun p => segConvex_diff h p.castSucc p.succ

theorem segConvex_kernel {psi : Matrix n n ℝ → ℝ} (h : ConvexPen psi) {kernel : Fin k → Fin k → ℝ}
    (hk : ∀ s t, s < t → 0 ≤ kernel s t) :
    SegConvex (fun K : Fin k → Matrix n n ℝ => kernelCoupling kernel psi K) := by
  unfold kernelCoupling
  refine segConvex_sum fun s => segConvex_sum fun t => ?_
  by_cases hst : s < t
  · simp only [hst, if_true]
    exact (segConvex_diff h s t).const_mul (hk s t hst)
  · simp only [hst, if_false]
    intro A B r _ _
    simp

/-- Two optima of latent problems with the same kind of penalties. -/
theorem latent_variational {S : Fin k → Matrix n n ℝ} {w : Fin k → ℝ} (hS : ∀ t, (S t).IsSymm)
    (hw : ∀ t, 0 ≤ w t) {F G : (Fin k → Matrix n n ℝ) → ℝ} (hF : SegConvex F) (hG : SegConvex G)
    {p q : (Fin k → Matrix n n ℝ) × (Fin k → Matrix n n ℝ)} (hq : q ∈ LatentSeqFeasible k n)
    (hp : IsMin (LatentSeqFeasible k n) (fun x => negLogLik S w (fun t => x.1 t - x.2 t) + (F x.1 + G x.2)) p) :
    0 ≤ ∑ t, w t * frobInner (S t - (p.1 t - p.2 t)⁻¹) ((q.1 t - q.2 t) - (p.1 t - p.2 t))
      + ((F q.1 + G q.2) - (F p.1 + G p.2)) := by
  have hR : ∀ t, (p.1 t - p.2 t).PosDef := fun t => (hp.1 t).1
  refine loglik_direction (K := fun t => p.1 t - p.2 t) hS hw hR (fun t => ?_) fun r h0 h1 hr => ?_
  · rw [IsSymm, transpose_sub, (hq t).1.isSymm'.eq, (hR t).isSymm'.eq]
  · have e : ∀ t, p.1 t - p.2 t + r • (q.1 t - q.2 t - (p.1 t - p.2 t))
        = (p.1 t + r • (q.1 t - p.1 t)) - (p.2 t + r • (q.2 t - p.2 t)) := fun t => by module
    have h2 := hp.2 (fun t => p.1 t + r • (q.1 t - p.1 t), fun t => p.2 t + r • (q.2 t - p.2 t)) (fun t => ⟨by
      have := hr t
      rwa [e t] at this, by
      show (p.2 t + r • (q.2 t - p.2 t)).PosSemidef
      rw [show p.2 t + r • (q.2 t - p.2 t) = (1 - r) • p.2 t + r • q.2 t by module]
      exact ((hp.1 t).2.smul (by linarith)).add ((hq t).2.smul h0.le)⟩)
    have h3 := hF p.1 q.1 r h0.le h1
    have h4 := hG p.2 q.2 r h0.le h1
    rw [show (fun t => p.1 t - p.2 t + r • (q.1 t - q.2 t - (p.1 t - p.2 t)))
        = fun t => (p.1 t + r • (q.1 t - p.1 t)) - (p.2 t + r • (q.2 t - p.2 t)) from funext e]
    simp only at h2
    linarith

theorem latent_two {S S' : Fin k → Matrix n n ℝ} {w : Fin k → ℝ} (hS : ∀ t, (S t).IsSymm)
    (hS' : ∀ t, (S' t).IsSymm) (hw : ∀ t, 0 ≤ w t) {F G : (Fin k → Matrix n n ℝ) → ℝ} (hF : SegConvex F)
    (hG : SegConvex G) {p q : (Fin k → Matrix n n ℝ) × (Fin k → Matrix n n ℝ)}
    (hp : IsMin (LatentSeqFeasible k n) (fun x => negLogLik S w (fun t => x.1 t - x.2 t) + (F x.1 + G x.2)) p)
    (hq : IsMin (LatentSeqFeasible k n) (fun x => negLogLik S' w (fun t => x.1 t - x.2 t) + (F x.1 + G x.2)) q) :
    ∑ t, w t * frobInner ((p.1 t - p.2 t)⁻¹ - (q.1 t - q.2 t)⁻¹) ((q.1 t - q.2 t) - (p.1 t - p.2 t))
      ≤ ∑ t, w t * frobInner (S t - S' t) ((q.1 t - q.2 t) - (p.1 t - p.2 t)) := by
  have h1 := latent_variational hS hw hF hG hq.1 hp
  have h2 := latent_variational hS' hw hF hG hp.1 hq
  have e : ∑ t, w t * frobInner (S t - (p.1 t - p.2 t)⁻¹) ((q.1 t - q.2 t) - (p.1 t - p.2 t))
      + ∑ t, w t * frobInner (S' t - (q.1 t - q.2 t)⁻¹) ((p.1 t - p.2 t) - (q.1 t - q.2 t))
      = ∑ t, w t * frobInner (S t - S' t) ((q.1 t - q.2 t) - (p.1 t - p.2 t))
        - ∑ t, w t * frobInner ((p.1 t - p.2 t)⁻¹ - (q.1 t - q.2 t)⁻¹) ((q.1 t - q.2 t) - (p.1 t - p.2 t)) := by
    rw [← Finset.sum_add_distrib, ← Finset.sum_sub_distrib]
    refine Finset.sum_congr rfl fun t _ => ?_
    rw [← neg_sub (q.1 t - q.2 t) (p.1 t - p.2 t), frobInner_neg_right]
    simp only [frobInner_sub_left]
    ring
  linarith

/-- From the comparison of the gradients to a bound on the distance. -/
theorem distance_of_two {X X' D : Fin k → Matrix n n ℝ} {w : Fin k → ℝ} (hw : ∀ t, 0 ≤ w t)
    (hX : ∀ t, (X t).PosDef) (hX' : ∀ t, (X' t).PosDef) {B : ℝ} (hB : ∀ t, trace (X t) ≤ B)
    (hB' : ∀ t, trace (X' t) ≤ B)
    (h : ∑ t, w t * frobInner ((X t)⁻¹ - (X' t)⁻¹) (X' t - X t) ≤ ∑ t, w t * frobInner (D t) (X' t - X t)) :
    ∑ t, w t * frobSq (X' t - X t) ≤ B ^ 4 * ∑ t, w t * frobSq (D t) := by
  have h1 : ∀ t, frobSq (X' t - X t) ≤ B ^ 2 * frobInner ((X t)⁻¹ - (X' t)⁻¹) (X' t - X t) := by
    intro t
    refine (inv_strict_mono (hX' t) (hX t)).trans (mul_le_mul_of_nonneg_right ?_ (inv_mono (hX' t) (hX t)))
    have a1 := (hX t).posSemidef.trace_nonneg
    have a2 := (hX' t).posSemidef.trace_nonneg
    rw [pow_two]
    exact mul_le_mul (hB' t) (hB t) a1 (a2.trans (hB' t))
  have h2 : ∑ t, w t * frobSq (X' t - X t) ≤ B ^ 2 * ∑ t, w t * frobInner (D t) (X' t - X t) := by
    calc ∑ t, w t * frobSq (X' t - X t)
        ≤ ∑ t, w t * (B ^ 2 * frobInner ((X t)⁻¹ - (X' t)⁻¹) (X' t - X t)) :=
          Finset.sum_le_sum fun t _ => mul_le_mul_of_nonneg_left (h1 t) (hw t)
      _ = B ^ 2 * ∑ t, w t * frobInner ((X t)⁻¹ - (X' t)⁻¹) (X' t - X t) := by
          rw [Finset.mul_sum]; exact Finset.sum_congr rfl fun t _ => by ring
      _ ≤ _ := mul_le_mul_of_nonneg_left h (by positivity)
  have h3 : ∀ t, B ^ 2 * frobInner (D t) (X' t - X t) ≤ 1 / 2 * (B ^ 4 * frobSq (D t)) + 1 / 2 * frobSq (X' t - X t) := by
    intro t
    have h := frobSq_nonneg (B ^ 2 • D t - (X' t - X t))
    rw [frobSq_sub (B ^ 2 • D t), frobSq_smul, frobInner_smul_left] at h
    nlinarith
  have h4 : B ^ 2 * ∑ t, w t * frobInner (D t) (X' t - X t)
      ≤ 1 / 2 * (B ^ 4 * ∑ t, w t * frobSq (D t)) + 1 / 2 * ∑ t, w t * frobSq (X' t - X t) := by
    rw [Finset.mul_sum, Finset.mul_sum, Finset.mul_sum, Finset.mul_sum, ← Finset.sum_add_distrib]
    refine Finset.sum_le_sum fun t _ => ?_
    have := mul_le_mul_of_nonneg_left (h3 t) (hw t)
    linarith
  linarith

/-- The penalty at an optimum is at most the number of variables times the total sample size. -/
theorem penalty_le {S X : Fin k → Matrix n n ℝ} {w : Fin k → ℝ} (hS : ∀ t, (S t).PosSemidef)
    (hw : ∀ t, 0 ≤ w t) {F : (Fin k → Matrix n n ℝ) → ℝ} (hF : SegConvex F) (hF0 : F (fun _ => 0) = 0)
    (hX : IsMin (PDSeq k n) (fun Y => negLogLik S w Y + F Y) X) :
    F X + ∑ t, w t * trace (S t * X t) ≤ Fintype.card n * ∑ t, w t := by
  have hXp : ∀ t, (X t).PosDef := hX.1
  have hSs : ∀ t, (S t).IsSymm := fun t => (hS t).isSymm'
  have h := loglik_direction (H := fun t => 0 - X t) (c := -F X) hSs hw hXp
    (fun t => by rw [IsSymm, transpose_sub, (hXp t).isSymm'.eq, transpose_zero]) fun r h0 h1 hr => by
      have h2 := hX.2 (fun t => X t + r • (0 - X t)) hr
      have h3 := hF X (fun _ => 0) r h0.le h1
      rw [hF0] at h3
      simp only at h2
      linarith
  have e : ∀ t, w t * frobInner (S t - (X t)⁻¹) (0 - X t) = w t * Fintype.card n - w t * trace (S t * X t) := by
    intro t
    rw [zero_sub, frobInner_neg_right, frobInner_sub_left, frobInner_eq_trace_of_symm (hSs t),
      frobInner_eq_trace_of_symm (hXp t).inv.isSymm', nonsing_inv_mul _ (isUnit_iff_ne_zero.mpr (hXp t).det_pos.ne'),
      trace_one]
    ring
  simp only [e, Finset.sum_sub_distrib] at h
  rw [← Finset.sum_mul] at h
  linarith

/-- The exchange argument for two penalty weights. -/
theorem exchange {V : Type*} {D : Set V} {f P : V → ℝ} {a b : ℝ} (hab : a < b) {x y : V}
    (hx : IsMin D (fun z => f z + a * P z) x) (hy : IsMin D (fun z => f z + b * P z) y) :
    P y ≤ P x ∧ (0 ≤ a → f x ≤ f y) := by
  have h1 := hx.2 y hy.1
  have h2 := hy.2 x hx.1
  simp only at h1 h2
  have h3 : P y ≤ P x := by nlinarith
  exact ⟨h3, fun ha => by nlinarith⟩

/-- The same for objectives given in another form. -/
theorem exchange_of_eq {V : Type*} {D : Set V} {g g' : V → ℝ} (f P : V → ℝ) {a b : ℝ} (hab : a < b) {x y : V}
    (hg : ∀ z, g z = f z + a * P z) (hg' : ∀ z, g' z = f z + b * P z)
    (hx : IsMin D g x) (hy : IsMin D g' y) : P y ≤ P x := by
  have h1 := hx.2 y hy.1
  have h2 := hy.2 x hx.1
  rw [hg, hg] at h1
  rw [hg', hg'] at h2
  nlinarith

/-- The exchange argument when the first optimum is the only one. -/
theorem exchange_strict {V : Type*} {D : Set V} {f P : V → ℝ} {a b : ℝ} (hab : a < b) {x y : V}
    (hx : UniqueMin D (fun z => f z + a * P z) x) (hy : IsMin D (fun z => f z + b * P z) y) (hne : y ≠ x) :
    P y < P x := by
  have h1 := hx.2 y hy.1 hne
  have h2 := hy.2 x hx.1
  simp only at h1 h2
  nlinarith

end Verif.Lemmas
