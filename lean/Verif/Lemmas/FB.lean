import Verif.Lemmas.Seq
import Verif.Lemmas.GLOpt
import Mathlib.Analysis.Calculus.Deriv.Slope
import Verif.Model.FB
import Verif.Props.FL
import Verif.Props.Scores
import Verif.Props.Soft

/-! Helper lemmas about the forward-backward model. -/

namespace Verif.Lemmas

open Matrix Verif.Spec Verif.Model Verif.Props

set_option autoImplicit false
set_option linter.unusedSectionVars false

variable {n : Type*} [Fintype n] [LinearOrder n] {T : ℕ}

/-- Time index moved inside. -/
theorem sum_time_inside {k : ℕ} (F : Fin k → n → n → ℝ) :
    ∑ t, ∑ i, ∑ j, F t i j = ∑ i, ∑ j, ∑ t, F t i j := by
  rw [Finset.sum_comm]
  exact Finset.sum_congr rfl fun i _ => Finset.sum_comm

theorem scalarProduct_eq {k : ℕ} (x y : Batch k n) : scalarProduct x y = seqInner x y := rfl

theorem batchSq_eq {k : ℕ} (x : Batch k n) : batchSq x = seqSq x := rfl

/-- The documented penalty of the mode. -/
noncomputable def modePenalty (a : FBArgs T n) (K : Batch (T + 1) n) : ℝ :=
  if a.laplacian then sparsePenalty a.alpha K else fusedPenalty a.alpha a.beta K

/-- Weight of the quadratic coupling inside the smooth part. -/
noncomputable def modeBeta (a : FBArgs T n) : ℝ := if a.laplacian then a.beta else 0

theorem fbPenalty_eq (a : FBArgs T n) (K : Batch (T + 1) n) : fbPenalty a K = modePenalty a K := by
  unfold fbPenalty modePenalty sparsePenalty fusedPenalty
  have h1 : ∑ t, l1OdNorm (K t) = ∑ t, absSumOff (K t) :=
    Finset.sum_congr rfl fun t _ => l1OdNorm_eq (K t)
  have h2 : ∑ i, ∑ j, ∑ p, |(tail K - init K) p i j| =
      ∑ p : Fin T, absSumMat (K p.succ - K p.castSucc) := by
    unfold absSumMat
    rw [sum_time_inside]
    rfl
  rw [h1, h2]

theorem tglLoss_pos {S K : Batch (T + 1) n} (hK : ∀ t, 0 < (K t).det) (nS : Fin (T + 1) → ℝ) :
    tglLoss S K nS = .fin (∑ t, nS t * (frobInner (S t) (K t) - Real.log (K t).det)) := by
  unfold tglLoss
  refine xf_sum_fin _ _ fun t => ?_
  unfold logdetXF
  rw [if_pos (hK t)]
  simp only [XF.sub, XF.add, XF.neg, XF.mul, frobInner]
  congr 1
  ring

/-- With positive determinants the code's loss is the documented smooth part. -/
theorem fbLoss_pos (a : FBArgs T n) {K : Batch (T + 1) n} (hK : ∀ t, 0 < (K t).det) :
    fbLoss a K = .fin (smoothTime a.empCov a.samples a.vareps (modeBeta a) K) := by
  unfold fbLoss
  rw [tglLoss_pos hK, scalarProduct_eq, seqInner_self]
  unfold smoothTime modeBeta
  by_cases h : a.laplacian
  · simp only [h, if_true, XF.add]
    rfl
  · rw [if_neg h, if_neg h, zero_mul, add_zero]
    rfl

/-- A sum without minus infinity and nan is finite or plus infinity. -/
theorem xf_sum_ge {k : ℕ} (f : Fin k → XF) (h : ∀ t, (∃ r, f t = .fin r) ∨ f t = .pinf) :
    (∃ r, XF.sum f = .fin r) ∨ XF.sum f = .pinf := by
  unfold XF.sum
  have : ∀ (l : List (Fin k)) (acc : XF), ((∃ r, acc = .fin r) ∨ acc = .pinf) →
      (∃ r, l.foldl (fun acc i => XF.add acc (f i)) acc = .fin r) ∨
        l.foldl (fun acc i => XF.add acc (f i)) acc = .pinf := by
    intro l
    induction l with
    | nil => intro acc h; exact h
    | cons t l ih =>
      intro acc hacc
      refine ih _ ?_
      change (∃ r, XF.add acc (f t) = .fin r) ∨ XF.add acc (f t) = .pinf
      rcases hacc with ⟨r, rfl⟩ | rfl <;> rcases h t with ⟨q, hq⟩ | hq <;> rw [hq] <;>
        simp [XF.add]
  exact this _ _ (Or.inl ⟨0, rfl⟩)

/-- With positive sample counts the loss is finite or plus infinity. -/
theorem fbLoss_ge (a : FBArgs T n) (hn : ∀ t, 0 < a.samples t) (K : Batch (T + 1) n) :
    (∃ r, fbLoss a K = .fin r) ∨ fbLoss a K = .pinf := by
  have h1 : (∃ r, tglLoss a.empCov K a.samples = .fin r) ∨
      tglLoss a.empCov K a.samples = .pinf := by
    unfold tglLoss
    refine xf_sum_ge _ fun t => ?_
    unfold logdetXF
    by_cases hd : (K t).det > 0
    · rw [if_pos hd]; left; simp [XF.sub, XF.add, XF.neg, XF.mul]
    · rw [if_neg hd]
      right
      simp [XF.sub, XF.add, XF.neg, XF.mul, hn t, (hn t).le]
  unfold fbLoss
  rcases h1 with ⟨r, h⟩ | h <;> rw [h] <;> cases a.laplacian <;> simp [XF.add]

/-- The loss determines nothing but the determinants: finite exactly when all are positive. -/
theorem modePenalty_convex (a : FBArgs T n) (ha : 0 ≤ a.alpha) (hb : 0 ≤ a.beta) :
    SeqConvex (modePenalty a) := by
  intro X Y s h0 h1
  unfold modePenalty
  cases a.laplacian
  · exact fusedPenalty_convex ha hb X Y s h0 h1
  · exact sparsePenalty_convex ha X Y s h0 h1

theorem modePenalty_nonneg (a : FBArgs T n) (ha : 0 ≤ a.alpha) (hb : 0 ≤ a.beta)
    (K : Batch (T + 1) n) : 0 ≤ modePenalty a K := by
  have h1 : 0 ≤ ∑ t, absSumOff (K t) := Finset.sum_nonneg fun t _ =>
    Finset.sum_nonneg fun i _ => Finset.sum_nonneg fun j _ => by split <;> positivity
  have h2 : 0 ≤ ∑ p : Fin T, absSumMat (K p.succ - K p.castSucc) := Finset.sum_nonneg fun t _ =>
    Finset.sum_nonneg fun i _ => Finset.sum_nonneg fun j _ => abs_nonneg _
  unfold modePenalty sparsePenalty fusedPenalty
  split
  · positivity
  · positivity

/-- Variational inequality of the fused lasso signal approximator. -/
theorem fused_ineq {beta lam : ℝ} (hb : 0 ≤ beta) (hl : 0 ≤ lam) {a y : Fin (T + 1) → ℝ}
    (h : IsMin Set.univ (fusedObjective beta 0 a) y) (z : Fin (T + 1) → ℝ) :
    beta * totalVariation (softThresholding y lam) + lam * absSum (softThresholding y lam)
      + ∑ t, (a t - softThresholding y lam t) * (z t - softThresholding y lam t)
      ≤ beta * totalVariation z + lam * absSum z := by
  have h1 := tv_subgrad_soft hb hl h z
  set x := softThresholding y lam with hx
  have h2 : lam * absSum x + ∑ t, (y t - x t) * (z t - x t) ≤ lam * absSum z := by
    unfold absSum
    rw [Finset.mul_sum, Finset.mul_sum, ← Finset.sum_add_distrib]
    exact Finset.sum_le_sum fun t _ => softScalar_subgrad hl (y t) (z t)
  have e : ∑ t, (a t - x t) * (z t - x t) =
      ∑ t, (a t - y t) * (z t - x t) + ∑ t, (y t - x t) * (z t - x t) := by
    rw [← Finset.sum_add_distrib]
    exact Finset.sum_congr rfl fun t _ => by ring
  rw [e]
  linarith

/-- Entrywise form of the fused penalty. -/
theorem fusedPenalty_entry (alpha beta : ℝ) (K : Batch (T + 1) n) :
    fusedPenalty alpha beta K = ∑ i, ∑ j, (beta * totalVariation (fun t => K t i j)
      + (if i = j then 0 else alpha) * absSum (fun t => K t i j)) := by
  unfold fusedPenalty absSumOff absSumMat totalVariation absSum
  simp only [Finset.sum_add_distrib, ← Finset.mul_sum]
  rw [add_comm]
  congr 1
  · rw [sum_time_inside]
    rfl
  · rw [sum_time_inside, Finset.mul_sum]
    refine Finset.sum_congr rfl fun i _ => ?_
    rw [Finset.mul_sum]
    refine Finset.sum_congr rfl fun j _ => ?_
    by_cases hij : i = j <;> simp [hij]

/-- The proximal step of either mode satisfies the variational inequality of its penalty. -/
theorem fbProx_ineq {tv : (Fin (T + 1) → ℝ) → ℝ → Fin (T + 1) → ℝ} (htv : IsTVSolver tv)
    (a : FBArgs T n) (ha : 0 ≤ a.alpha) (hb : 0 ≤ a.beta) (x grad : Batch (T + 1) n) {gamma : ℝ}
    (hg : 0 < gamma) :
    ProxIneq (modePenalty a) gamma (x - gamma • grad) (fbProx tv a x grad gamma) := by
  intro z
  unfold modePenalty fbProx
  cases a.laplacian
  · simp only [Bool.false_eq_true, if_false]
    set xh : Batch (T + 1) n := x - gamma • grad with hxh
    rw [fusedPenalty_entry, fusedPenalty_entry]
    have key : ∀ i j, a.beta * gamma * totalVariation
          (fun t => proxFL tv xh (a.beta * gamma) (a.alpha * gamma) true true t i j)
        + (if i = j then 0 else a.alpha * gamma) * absSum
          (fun t => proxFL tv xh (a.beta * gamma) (a.alpha * gamma) true true t i j)
        + ∑ t, (xh t i j - proxFL tv xh (a.beta * gamma) (a.alpha * gamma) true true t i j)
          * (z t i j - proxFL tv xh (a.beta * gamma) (a.alpha * gamma) true true t i j)
        ≤ a.beta * gamma * totalVariation (fun t => z t i j)
          + (if i = j then 0 else a.alpha * gamma) * absSum (fun t => z t i j) := by
      intro i j
      have e := proxFL_entry tv xh (a.beta * gamma) (a.alpha * gamma) false true (by simp) i j
      have e' : (fun t => proxFL tv xh (a.beta * gamma) (a.alpha * gamma) true true t i j) =
          softThresholding (tv (fun t => xh t i j) (a.beta * gamma))
            (if i = j then 0 else a.alpha * gamma) := by
        refine Eq.trans e ?_
        by_cases h : i = j
        · rw [if_pos h, if_pos h]
          funext t
          exact (softScalar_zero_right _).symm
        · rw [if_neg h, if_neg h]
      have hl : (0 : ℝ) ≤ if i = j then 0 else a.alpha * gamma := by
        split
        · exact le_rfl
        · exact mul_nonneg ha hg.le
      have hb' : 0 ≤ a.beta * gamma := mul_nonneg hb hg.le
      have := fused_ineq hb' hl (htv (fun t => xh t i j) _ hb') (fun t => z t i j)
      have e3 : ∀ t, proxFL tv xh (a.beta * gamma) (a.alpha * gamma) true true t i j =
          softThresholding (tv (fun t => xh t i j) (a.beta * gamma))
            (if i = j then 0 else a.alpha * gamma) t := fun t => congrFun e' t
      rw [e']
      simp only [e3]
      exact this
    have hsum := Finset.sum_le_sum fun i (_ : i ∈ Finset.univ) =>
      Finset.sum_le_sum fun j (_ : j ∈ Finset.univ) => key i j
    have e1 : ∀ w : Batch (T + 1) n, gamma * ∑ i, ∑ j, (a.beta * totalVariation (fun t => w t i j)
        + (if i = j then 0 else a.alpha) * absSum (fun t => w t i j)) =
        ∑ i, ∑ j, (a.beta * gamma * totalVariation (fun t => w t i j)
        + (if i = j then 0 else a.alpha * gamma) * absSum (fun t => w t i j)) := by
      intro w
      rw [Finset.mul_sum]
      refine Finset.sum_congr rfl fun i _ => ?_
      rw [Finset.mul_sum]
      refine Finset.sum_congr rfl fun j _ => ?_
      by_cases h : i = j
      · simp only [if_pos h]; ring
      · simp only [if_neg h]; ring
    rw [e1, e1]
    refine le_trans (le_of_eq ?_) hsum
    simp only [Finset.sum_add_distrib]
    congr 1
    unfold seqInner frobInner
    rw [sum_time_inside]
    rfl
  · simp only [if_true]
    unfold sparsePenalty seqInner
    simp only [Finset.mul_sum]
    rw [← Finset.sum_add_distrib]
    refine Finset.sum_le_sum fun t _ => ?_
    have h := softOff_subgrad (mul_nonneg ha hg.le) ((x - gamma • grad) t) (z t)
    have e : ∀ w, gamma * (a.alpha * w) = a.alpha * gamma * w := fun w => by ring
    rw [e, e]
    exact h

theorem modePenalty_transpose (a : FBArgs T n) (K : Batch (T + 1) n) :
    modePenalty a (fun t => (K t)ᵀ) = modePenalty a K := by
  unfold modePenalty sparsePenalty fusedPenalty
  simp only [absSumOff_transpose]
  have : ∀ A B : Matrix n n ℝ, absSumMat (Aᵀ - Bᵀ) = absSumMat (A - B) := by
    intro A B
    unfold absSumMat
    rw [Finset.sum_comm]
    rfl
  simp only [this]

theorem modePenalty_symmetrize_le (a : FBArgs T n) (ha : 0 ≤ a.alpha) (hb : 0 ≤ a.beta)
    (K : Batch (T + 1) n) : modePenalty a (fun t => symmetrize (K t)) ≤ modePenalty a K := by
  have h := modePenalty_convex a ha hb K (fun t => (K t)ᵀ) (1 / 2) (by norm_num) (by norm_num)
  rw [modePenalty_transpose] at h
  have e : K + (1 / 2 : ℝ) • ((fun t => (K t)ᵀ) - K) = fun t => symmetrize (K t) := by
    funext t
    unfold symmetrize
    ext i j
    simp [Pi.add_apply, Matrix.add_apply]
    ring
  rw [e] at h
  linarith

/-- First order optimality: at a minimiser over positive definite sequences the negative gradient is
a subgradient of the penalty. -/
theorem subgrad_of_isMin (a : FBArgs T n) (ha : 0 ≤ a.alpha) (hb : 0 ≤ a.beta)
    (f : Batch (T + 1) n → ℝ) (g : Batch (T + 1) n) (hgs : ∀ t, (g t).IsSymm)
    {K : Batch (T + 1) n}
    (hd : ∀ V : Batch (T + 1) n, HasDerivAt (fun s : ℝ => f (K + s • V)) (seqInner g V) 0)
    (hmin : IsMin {X : Batch (T + 1) n | ∀ t, (X t).PosDef} (fun X => f X + modePenalty a X) K)
    (Z : Batch (T + 1) n) : modePenalty a K - seqInner g (Z - K) ≤ modePenalty a Z := by
  have hK : ∀ t, (K t).PosDef := hmin.1
  have main : ∀ W : Batch (T + 1) n, (∀ t, (W t).IsSymm) →
      modePenalty a K - seqInner g (W - K) ≤ modePenalty a W := by
    intro W hW
    have hpd : ∀ᶠ s : ℝ in nhdsWithin 0 (Set.Ioi 0), ∀ t, ((K + s • (W - K)) t).PosDef := by
      rw [Filter.eventually_all]
      intro t
      exact posDef_add_smul (hK t) ((hW t).sub (hK t).isSymm')
    have hsl := (hd (W - K)).tendsto_slope
    have hsl' : Filter.Tendsto (slope (fun s : ℝ => f (K + s • (W - K))) 0)
        (nhdsWithin 0 (Set.Ioi 0)) (nhds (seqInner g (W - K))) :=
      hsl.mono_left (nhdsWithin_mono 0 fun x hx => ne_of_gt hx)
    have hge : modePenalty a K - modePenalty a W ≤ seqInner g (W - K) := by
      refine ge_of_tendsto hsl' ?_
      have h1 : ∀ᶠ s : ℝ in nhdsWithin 0 (Set.Ioi 0), s < 1 :=
        nhdsWithin_le_nhds (Iio_mem_nhds one_pos)
      filter_upwards [hpd, h1, self_mem_nhdsWithin] with s hs hs1 hs0
      have hs0 : 0 < s := hs0
      have h2 := hmin.2 (K + s • (W - K)) hs
      have h3 := modePenalty_convex a ha hb K W s hs0.le hs1.le
      rw [slope_def_field, sub_zero, le_div_iff₀ hs0]
      simp only [zero_smul, add_zero]
      change f K + modePenalty a K ≤ f (K + s • (W - K)) + modePenalty a (K + s • (W - K)) at h2
      nlinarith
    linarith
  have h1 := main (fun t => symmetrize (Z t)) fun t => symmetrize_isSymm (Z t)
  have h2 := modePenalty_symmetrize_le a ha hb Z
  have e : seqInner g ((fun t => symmetrize (Z t)) - K) = seqInner g (Z - K) := by
    rw [seqInner_sub_right, seqInner_sub_right]
    congr 1
    refine Finset.sum_congr rfl fun t _ => ?_
    rw [frobInner_comm, frobInner_symmetrize (hgs t), frobInner_comm]
  rw [e] at h1
  linarith

/-! ### The loop of choose_gamma -/

theorem gammaLoop_first {β : Type*} (prox : ℝ → β) (accept : ℝ → β → Bool) (eps : ℝ) :
    ∀ (k : ℕ) (gamma : ℝ) (last : Option β) (j : ℕ), j < k →
      accept (gamma * eps ^ j) (prox (gamma * eps ^ j)) = true →
      (∀ i < j, accept (gamma * eps ^ i) (prox (gamma * eps ^ i)) = false) →
      gammaLoop prox accept eps k gamma last = .ok (gamma * eps ^ j, prox (gamma * eps ^ j))
  | 0, _, _, _, h, _, _ => absurd h (Nat.not_lt_zero _)
  | k + 1, gamma, last, 0, _, hacc, _ => by
      rw [pow_zero, mul_one] at hacc ⊢
      unfold gammaLoop
      rw [if_pos hacc]
  | k + 1, gamma, last, j + 1, hj, hacc, hno => by
      have h0 := hno 0 (Nat.succ_pos _)
      rw [pow_zero, mul_one] at h0
      unfold gammaLoop
      rw [if_neg (by rw [h0]; simp)]
      have e : ∀ i, gamma * eps * eps ^ i = gamma * eps ^ (i + 1) := fun i => by ring
      have := gammaLoop_first prox accept eps k (gamma * eps) (some (prox gamma)) j
        (Nat.lt_of_succ_lt_succ hj) (by rw [e]; exact hacc)
        (fun i hi => by rw [e]; exact hno (i + 1) (Nat.succ_lt_succ hi))
      rw [this, e]

theorem gammaLoop_exhausted {β : Type*} (prox : ℝ → β) (accept : ℝ → β → Bool) (eps : ℝ) :
    ∀ (k : ℕ) (gamma : ℝ) (last : Option β),
      (∀ i < k + 1, accept (gamma * eps ^ i) (prox (gamma * eps ^ i)) = false) →
      gammaLoop prox accept eps (k + 1) gamma last =
        .ok (gamma * eps ^ (k + 1), prox (gamma * eps ^ k))
  | 0, gamma, last, hno => by
      have h0 := hno 0 (Nat.succ_pos _)
      rw [pow_zero, mul_one] at h0
      unfold gammaLoop
      rw [if_neg (by rw [h0]; simp)]
      unfold gammaLoop
      rw [zero_add, pow_one, pow_zero, mul_one]
  | k + 1, gamma, last, hno => by
      have h0 := hno 0 (Nat.succ_pos _)
      rw [pow_zero, mul_one] at h0
      unfold gammaLoop
      rw [if_neg (by rw [h0]; simp)]
      have e : ∀ i, gamma * eps * eps ^ i = gamma * eps ^ (i + 1) := fun i => by ring
      have := gammaLoop_exhausted prox accept eps k (gamma * eps) (some (prox gamma))
        (fun i hi => by rw [e]; exact hno (i + 1) (Nat.succ_lt_succ hi))
      rw [this, e, e]

/-- The search either returns the first admissible step or is exhausted. -/
theorem gammaLoop_cases {β : Type*} (prox : ℝ → β) (accept : ℝ → β → Bool) (eps : ℝ)
    (k : ℕ) (gamma : ℝ) :
    (∃ j < k, accept (gamma * eps ^ j) (prox (gamma * eps ^ j)) = true ∧
      ∀ i < j, accept (gamma * eps ^ i) (prox (gamma * eps ^ i)) = false) ∨
    (∀ i < k, accept (gamma * eps ^ i) (prox (gamma * eps ^ i)) = false) := by
  classical
  by_cases h : ∃ j, j < k ∧ accept (gamma * eps ^ j) (prox (gamma * eps ^ j)) = true
  · left
    refine ⟨Nat.find h, (Nat.find_spec h).1, (Nat.find_spec h).2, fun i hi => ?_⟩
    have := Nat.find_min h hi
    rw [not_and] at this
    have := this (hi.trans (Nat.find_spec h).1)
    simpa using this
  · right
    intro i hi
    by_contra hc
    exact h ⟨i, hi, by simpa using hc⟩

theorem gammaLoop_ok {β : Type*} (prox : ℝ → β) (accept : ℝ → β → Bool) (eps : ℝ)
    (k : ℕ) (gamma : ℝ) : ∃ r, gammaLoop prox accept eps (k + 1) gamma none = .ok r := by
  rcases gammaLoop_cases prox accept eps (k + 1) gamma with ⟨j, hj, h1, h2⟩ | h
  · exact ⟨_, gammaLoop_first prox accept eps (k + 1) gamma none j hj h1 h2⟩
  · exact ⟨_, gammaLoop_exhausted prox accept eps k gamma none h⟩

end Verif.Lemmas
