import Verif.Props.OverlapConv

/-! Property theorems C176, continued: convergence of the loop of `group_lasso_overlap`
(regain/linear_model/group_lasso_overlap_.py:91-180) when `rho` is small. -/

namespace Verif.Props

open Matrix Verif.Model Verif.Spec Verif.Lemmas Filter Topology

set_option autoImplicit false
set_option linter.unusedSectionVars false

variable {m p : ℕ}

/-- The penalty of a coefficient around the solution. -/
noncomputable def shiftPen (l xs ys t : ℝ) : ℝ := l * |xs + t| - l * |xs| + ys * t

/-- One coordinate of the energy of two consecutive passes: `x`, `w` the errors of the copies and of the scaled
multipliers, `e` the error of the coefficients, `s` the subgradient used by the pass. -/
noncomputable def smallEnergy (g x w e s : ℝ) : ℝ :=
  1 / 2 * (s + (w + e)) ^ 2 + (x - (w + e) / 2) ^ 2 + 1 / 4 * (w ^ 2 - e ^ 2) + (s * x - g)

theorem smallEnergy_step {g g' x w e s x' w' e' s' : ℝ} (hx : x' + s' = x - w) (hw : w' + e' = x' + w) :
    smallEnergy g x w e s - smallEnergy g' x' w' e' s' =
      (g' - g - s * (x' - x)) + s * x + e * w - 1 / 2 * e ^ 2 + 1 / 2 * (e + s - s') ^ 2 +
        1 / 2 * (e - e') * (w - w') + 1 / 2 * (e - e') ^ 2 + 1 / 2 * (e' * w - e * w') := by
  have h1 : s' = x - w - x' := by linarith
  have h2 : e' = x' + w - w' := by linarith
  unfold smallEnergy
  rw [h1, h2]
  ring

/-- The passes converge to the solution of the weighted lasso when the loss is curved enough: the quadratic form of
`A` dominates `rho` times the group counts. -/
theorem featStep_small_converges (A : Matrix (Fin m) (Fin p) ℝ) (b : Fin m → ℝ) {lamda rho : ℝ} (hr : 0 < rho)
    (hl : 0 ≤ lamda) {D : ℕ → ℕ} (hD : ∀ i : Fin p, D i ≠ 0) {inv : Matrix (Fin p) (Fin p) ℝ}
    (hinv : (Aᵀ * A + rho • diagonal fun i : Fin p => (D i : ℝ)) * inv = 1)
    (hc : ∀ u : Fin p → ℝ, rho * ∑ i : Fin p, (D i : ℝ) * u i ^ 2 ≤ ∑ k, ((A *ᵥ u) k) ^ 2)
    {s : ℕ → FeatState p} (hs : ∀ k, s (k + 1) = featStep A b lamda rho D inv (s k)) :
    ∃ x y, OverlapKKT A b lamda D x y ∧ Tendsto (fun k => (s k).x) atTop (𝓝 x) ∧
      Tendsto (fun k => (s k).z) atTop (𝓝 x) ∧ Tendsto (fun k => (s k).y) atTop (𝓝 y) := by
  obtain ⟨xs, ys, hk⟩ := exists_overlapKKT A b hl hD
  have hD1 : ∀ i : Fin p, (1 : ℝ) ≤ D i := fun i => by exact_mod_cast Nat.one_le_iff_ne_zero.mpr (hD i)
  have hD0 : ∀ i : Fin p, (0 : ℝ) ≤ D i := fun i => Nat.cast_nonneg _
  -- errors
  obtain ⟨X, hX⟩ : ∃ X : ℕ → Fin p → ℝ, ∀ k i, X k i = (s k).x i - xs i := ⟨_, fun _ _ => rfl⟩
  obtain ⟨W, hW⟩ : ∃ W : ℕ → Fin p → ℝ, ∀ k i, W k i = ((s k).y i - ys i) / rho := ⟨_, fun _ _ => rfl⟩
  obtain ⟨E, hE⟩ : ∃ E : ℕ → Fin p → ℝ, ∀ k i, E k i = (s (k + 1)).z i - xs i := ⟨_, fun _ _ => rfl⟩
  obtain ⟨S, hS⟩ : ∃ S : ℕ → Fin p → ℝ, ∀ k i, S k i = X k i - W k i - X (k + 1) i := ⟨_, fun _ _ => rfl⟩
  obtain ⟨G, hG⟩ : ∃ G : ℕ → Fin p → ℝ, ∀ k i, G k i = shiftPen (lamda / rho) (xs i) (ys i / rho) (X (k + 1) i) :=
    ⟨_, fun _ _ => rfl⟩
  have hwe : ∀ k i, W (k + 1) i + E k i = X (k + 1) i + W k i := by
    intro k i
    have h : (s (k + 1)).y i = (s k).y i + rho * ((s (k + 1)).x i - (s (k + 1)).z i) := by rw [hs k]; rfl
    rw [hW, hW, hE, hX, h]
    field_simp
    ring
  -- the loss ties the multipliers to the coefficients
  have hgr : ∀ k i, (Aᵀ *ᵥ (A *ᵥ E k)) i = D i * (rho * W (k + 1) i) := by
    intro k i
    have e : A *ᵥ E k = (A *ᵥ (s (k + 1)).z - b) - (A *ᵥ xs - b) := by
      have : E k = (s (k + 1)).z - xs := funext fun i => hE k i
      rw [this, mulVec_sub]; abel
    have h := featStep_grad A b lamda hinv (s k) i
    rw [← hs k] at h
    rw [e, mulVec_sub, Pi.sub_apply, h, hk.2, hW]
    field_simp
  have hpair : ∀ k (v : Fin p → ℝ), ∑ i : Fin p, (D i : ℝ) * (v i * W (k + 1) i) =
      1 / rho * ∑ q, (A *ᵥ E k) q * (A *ᵥ v) q := by
    intro k v
    have h1 : (Aᵀ *ᵥ (A *ᵥ E k)) ⬝ᵥ v = (A *ᵥ E k) ⬝ᵥ (A *ᵥ v) := by
      rw [mulVec_transpose, ← dotProduct_mulVec]
    have h2 : (Aᵀ *ᵥ (A *ᵥ E k)) ⬝ᵥ v = rho * ∑ i : Fin p, (D i : ℝ) * (v i * W (k + 1) i) := by
      unfold dotProduct
      rw [Finset.mul_sum]
      exact Finset.sum_congr rfl fun i _ => by rw [hgr]; ring
    have h3 : rho * ∑ i : Fin p, (D i : ℝ) * (v i * W (k + 1) i) = ∑ q, (A *ᵥ E k) q * (A *ᵥ v) q := by
      rw [← h2, h1]; rfl
    rw [← h3]
    field_simp
  have hEW : ∀ k, ∑ i : Fin p, (D i : ℝ) * E k i ^ 2 ≤ ∑ i : Fin p, (D i : ℝ) * (E k i * W (k + 1) i) := by
    intro k
    rw [hpair k (E k), one_div, ← div_eq_inv_mul, le_div_iff₀ hr, mul_comm]
    simp only [← pow_two]
    exact hc (E k)
  have hsym : ∀ k, ∑ i : Fin p, (D i : ℝ) * (E (k + 1) i * W (k + 1) i) =
      ∑ i : Fin p, (D i : ℝ) * (E k i * W (k + 2) i) := by
    intro k
    rw [hpair k (E (k + 1)), hpair (k + 1) (E k)]
    congr 1
    exact Finset.sum_congr rfl fun q _ => mul_comm _ _
  have hmono : ∀ k, 0 ≤ ∑ i : Fin p, (D i : ℝ) * ((E k i - E (k + 1) i) * (W (k + 1) i - W (k + 2) i)) := by
    intro k
    have e1 : ∑ i : Fin p, (D i : ℝ) * ((E k i - E (k + 1) i) * (W (k + 1) i - W (k + 2) i)) =
        ∑ i : Fin p, (D i : ℝ) * ((E k - E (k + 1)) i * W (k + 1) i) -
          ∑ i : Fin p, (D i : ℝ) * ((E k - E (k + 1)) i * W (k + 2) i) := by
      rw [← Finset.sum_sub_distrib]
      exact Finset.sum_congr rfl fun i _ => by rw [Pi.sub_apply]; ring
    rw [e1, hpair k, hpair (k + 1), ← mul_sub, ← Finset.sum_sub_distrib]
    refine mul_nonneg (by positivity) (Finset.sum_nonneg fun q _ => ?_)
    rw [mulVec_sub, Pi.sub_apply]
    nlinarith [sq_nonneg ((A *ᵥ E k) q - (A *ᵥ E (k + 1)) q)]
  -- the penalty
  have hsub : ∀ k i t, G k i + S k i * (t - X (k + 1) i) ≤ shiftPen (lamda / rho) (xs i) (ys i / rho) t := by
    intro k i t
    have h := softScalar_subgrad (div_nonneg hl hr.le) ((s k).x i - (s k).y i / rho) (xs i + t)
    have hx : (s (k + 1)).x i = softScalar ((s k).x i - (s k).y i / rho) (lamda / rho) := by rw [hs k]; rfl
    rw [← hx] at h
    have ex : (s (k + 1)).x i = xs i + X (k + 1) i := by rw [hX]; ring
    have es : (s k).x i - (s k).y i / rho - (xs i + X (k + 1) i) = S k i - ys i / rho := by
      rw [hS, hX k, hW]; field_simp; ring
    rw [ex, es] at h
    rw [hG]
    unfold shiftPen
    nlinarith
  have hzero : ∀ i, shiftPen (lamda / rho) (xs i) (ys i / rho) 0 = 0 := by
    intro i; unfold shiftPen; rw [add_zero]; ring
  have hSX : ∀ k i, 0 ≤ S k i * X (k + 1) i - G k i := by
    intro k i
    have h := hsub k i 0
    rw [hzero] at h
    linarith
  have hpos : ∀ k i, 0 ≤ G k i := by
    intro k i
    have h := div_le_div_of_nonneg_right (hk.1 i (xs i + X (k + 1) i)) hr.le
    rw [hG]
    unfold shiftPen
    have e1 : (lamda * |xs i| - ys i * (xs i + X (k + 1) i - xs i)) / rho =
        lamda / rho * |xs i| - ys i / rho * X (k + 1) i := by field_simp; ring
    have e2 : lamda * |xs i + X (k + 1) i| / rho = lamda / rho * |xs i + X (k + 1) i| := by ring
    rw [e1, e2] at h
    linarith
  -- the energy
  obtain ⟨V, hV⟩ : ∃ V : ℕ → ℝ, ∀ k, V k = ∑ i : Fin p, (D i : ℝ) *
      smallEnergy (G k i) (X (k + 1) i) (W (k + 1) i) (E k i) (S k i) := ⟨_, fun _ => rfl⟩
  have hVpos : ∀ k, 0 ≤ V k := by
    intro k
    have h1 : ∑ i : Fin p, (D i : ℝ) * (1 / 4 * (2 * (E k i * W (k + 1) i) - 2 * E k i ^ 2)) ≤ V k := by
      rw [hV]
      refine Finset.sum_le_sum fun i _ => mul_le_mul_of_nonneg_left ?_ (hD0 i)
      unfold smallEnergy
      nlinarith [hSX k i, sq_nonneg (S k i + (W (k + 1) i + E k i)),
        sq_nonneg (X (k + 1) i - (W (k + 1) i + E k i) / 2), sq_nonneg (W (k + 1) i - E k i)]
    refine le_trans ?_ h1
    have e : ∑ i : Fin p, (D i : ℝ) * (1 / 4 * (2 * (E k i * W (k + 1) i) - 2 * E k i ^ 2)) =
        1 / 2 * (∑ i : Fin p, (D i : ℝ) * (E k i * W (k + 1) i) - ∑ i : Fin p, (D i : ℝ) * E k i ^ 2) := by
      rw [← Finset.sum_sub_distrib, Finset.mul_sum]
      exact Finset.sum_congr rfl fun i _ => by ring
    rw [e]
    linarith [hEW k]
  have hstep : ∀ k, V (k + 1) + 1 / 2 * ∑ i : Fin p, (D i : ℝ) * E k i ^ 2 ≤ V k := by
    intro k
    have h1 : ∑ i : Fin p, (D i : ℝ) * (E k i * W (k + 1) i - 1 / 2 * E k i ^ 2 +
        1 / 2 * ((E k i - E (k + 1) i) * (W (k + 1) i - W (k + 2) i)) +
        1 / 2 * (E (k + 1) i * W (k + 1) i - E k i * W (k + 2) i)) ≤ V k - V (k + 1) := by
      rw [hV, hV, ← Finset.sum_sub_distrib]
      refine Finset.sum_le_sum fun i _ => ?_
      rw [← mul_sub]
      refine mul_le_mul_of_nonneg_left ?_ (hD0 i)
      rw [smallEnergy_step (show X (k + 2) i + S (k + 1) i = X (k + 1) i - W (k + 1) i by rw [hS (k + 1)]; ring)
        (hwe (k + 1) i)]
      have h2 := hsub k i (X (k + 2) i)
      rw [show shiftPen (lamda / rho) (xs i) (ys i / rho) (X (k + 2) i) = G (k + 1) i from (hG (k + 1) i).symm] at h2
      have h3 := hSX k i
      have h4 := hpos k i
      nlinarith [sq_nonneg (E k i + S k i - S (k + 1) i), sq_nonneg (E k i - E (k + 1) i)]
    have e : ∑ i : Fin p, (D i : ℝ) * (E k i * W (k + 1) i - 1 / 2 * E k i ^ 2 +
        1 / 2 * ((E k i - E (k + 1) i) * (W (k + 1) i - W (k + 2) i)) +
        1 / 2 * (E (k + 1) i * W (k + 1) i - E k i * W (k + 2) i)) =
        ∑ i : Fin p, (D i : ℝ) * (E k i * W (k + 1) i) - 1 / 2 * ∑ i : Fin p, (D i : ℝ) * E k i ^ 2 +
        1 / 2 * ∑ i : Fin p, (D i : ℝ) * ((E k i - E (k + 1) i) * (W (k + 1) i - W (k + 2) i)) +
        1 / 2 * (∑ i : Fin p, (D i : ℝ) * (E (k + 1) i * W (k + 1) i) -
          ∑ i : Fin p, (D i : ℝ) * (E k i * W (k + 2) i)) := by
      rw [Finset.mul_sum, Finset.mul_sum, ← Finset.sum_sub_distrib, ← Finset.sum_sub_distrib, Finset.mul_sum,
        ← Finset.sum_add_distrib, ← Finset.sum_add_distrib]
      exact Finset.sum_congr rfl fun i _ => by ring
    rw [e, hsym k, sub_self, mul_zero, add_zero] at h1
    linarith [hEW k, hmono k]
  have hEto : ∀ i, Tendsto (fun k => E k i) atTop (𝓝 0) := by
    have h1 := tendsto_loss hVpos (fun k => mul_nonneg (by norm_num)
      (Finset.sum_nonneg fun i _ => mul_nonneg (hD0 i) (sq_nonneg _))) hstep
    have h2 := h1.const_mul (2 : ℝ)
    rw [mul_zero] at h2
    exact tendsto_of_weighted hD (h2.congr fun k => by ring)
  have hz : Tendsto (fun k => (s k).z) atTop (𝓝 xs) := by
    rw [tendsto_pi_nhds]
    intro i
    have h1 : Tendsto (fun k => (s (k + 1)).z i) atTop (𝓝 (xs i)) := by
      have := (hEto i).add_const (xs i)
      rw [zero_add] at this
      exact this.congr fun k => by rw [hE]; ring
    exact (tendsto_add_atTop_iff_nat (f := fun k => (s k).z i) 1).mp h1
  have hWto : ∀ i, Tendsto (fun k => W (k + 1) i) atTop (𝓝 0) := by
    intro i
    have hE' : Tendsto E atTop (𝓝 0) := by
      rw [tendsto_pi_nhds]; exact hEto
    have hcont : Continuous fun v : Fin p → ℝ => (Aᵀ *ᵥ (A *ᵥ v)) i := by fun_prop
    have h1 := (hcont.tendsto 0).comp hE'
    rw [mulVec_zero, mulVec_zero, Pi.zero_apply] at h1
    have h2 := h1.const_mul (1 / (D i * rho) : ℝ)
    rw [mul_zero] at h2
    refine h2.congr fun k => ?_
    show 1 / ((D i : ℝ) * rho) * (Aᵀ *ᵥ (A *ᵥ E k)) i = _
    rw [hgr]
    have := (lt_of_lt_of_le one_pos (hD1 i)).ne'
    field_simp
  have hy : Tendsto (fun k => (s k).y) atTop (𝓝 ys) := by
    rw [tendsto_pi_nhds]
    intro i
    have h1 := ((hWto i).const_mul rho).add_const (ys i)
    rw [mul_zero, zero_add] at h1
    refine (tendsto_add_atTop_iff_nat (f := fun k => (s k).y i) 1).mp (h1.congr fun k => ?_)
    rw [hW]
    field_simp
    ring
  refine ⟨xs, ys, hk, ?_, hz, hy⟩
  rw [tendsto_pi_nhds]
  intro i
  have h1 := ((((hWto i).comp (tendsto_add_atTop_nat 1)).add ((hEto i).comp (tendsto_add_atTop_nat 1))).sub
    (hWto i)).add_const (xs i)
  rw [add_zero, sub_zero, zero_add] at h1
  refine (tendsto_add_atTop_iff_nat (f := fun k => (s k).x i) 2).mp (h1.congr fun k => ?_)
  have h2 := hwe (k + 1) i
  have h3 := hX (k + 2) i
  show W (k + 2) i + E (k + 1) i - W (k + 1) i + xs i = (s (k + 2)).x i
  linarith

/-- **C176, partial** `group_lasso_overlap` converges when `rho` is small: every feature is in a group, the inverse is
exact and the loss is curved, its quadratic form dominating `rho` times the group counts. Then there is a minimiser `w`
of the lasso with every feature weighted by its number of groups, and whatever `tol`, `rtol` and `max_iter`, a call that
made enough passes returns coefficients as close to `w` as desired. Missing: `rho` above the smallest curvature of the
loss relative to the counts and below half of the largest one (`C176_converges_partial`). -/
theorem C176_small_rho_partial (npInv : Matrix (Fin p) (Fin p) ℝ → Matrix (Fin p) (Fin p) ℝ)
    (a : OverlapArgs m p) (hr : 0 < a.rho) (hl : 0 ≤ a.lamda)
    (hcov : ∀ i : Fin p, groupCount a.groups i ≠ 0)
    (hinv : overlapGram a * npInv (overlapGram a) = 1)
    (hc : ∀ u : Fin p → ℝ, a.rho * ∑ i : Fin p, (groupCount a.groups i : ℝ) * u i ^ 2 ≤ ∑ k, ((a.A *ᵥ u) k) ^ 2) :
    ∃ w, IsMin Set.univ (weightedLassoObj a.A a.b a.lamda fun i => groupCount a.groups i) w ∧
      ∀ ε > 0, ∃ N, ∀ (rag : Bool) (tol rtol : ℝ) (maxIter : ℕ) (z : Fin p → ℝ) (hist : List LassoHist) (k : ℕ),
        groupLassoOverlap rag npInv { a with tol := tol, rtol := rtol, maxIter := maxIter } = .ok (z, hist, k) →
        N ≤ k → ∀ i, |z i - w i| < ε :=
  overlap_close npInv a (featStep_small_converges a.A a.b hr hl hcov (overlapGram_count a ▸ hinv) hc
    (s := featSeq a (npInv (overlapGram a))) fun _ => rfl)

/-- **C176, partial** under the same conditions and with `tol > 0` the loop stops by its own test: the number of passes
is bounded whatever `max_iter`. -/
theorem C176_small_rho_stops_partial (npInv : Matrix (Fin p) (Fin p) ℝ → Matrix (Fin p) (Fin p) ℝ)
    (a : OverlapArgs m p) (hr : 0 < a.rho) (hl : 0 ≤ a.lamda) (hp : 0 < p)
    (hcov : ∀ i : Fin p, groupCount a.groups i ≠ 0)
    (hinv : overlapGram a * npInv (overlapGram a) = 1)
    (hc : ∀ u : Fin p → ℝ, a.rho * ∑ i : Fin p, (groupCount a.groups i : ℝ) * u i ^ 2 ≤ ∑ k, ((a.A *ᵥ u) k) ^ 2)
    (ht : 0 < a.tol) (hrt : 0 ≤ a.rtol) :
    ∃ N, ∀ (rag : Bool) (maxIter : ℕ) (z : Fin p → ℝ) (hist : List LassoHist) (k : ℕ),
      groupLassoOverlap rag npInv { a with maxIter := maxIter } = .ok (z, hist, k) → k ≤ N :=
  overlap_stops npInv a hr hp hcov (featStep_small_converges a.A a.b hr hl hcov (overlapGram_count a ▸ hinv) hc
    (s := featSeq a (npInv (overlapGram a))) fun _ => rfl) ht hrt

/-- Two features, two overlapping groups, default `rho` and two independent columns: the hypotheses hold. -/
noncomputable def overlapTall : OverlapArgs 2 2 := ⟨!![3, 1; 0, 2], ![1, 5], 1, [[0, 1], [1]], 1, 100, 1, 0⟩

example : 0 < overlapTall.rho ∧ 0 ≤ overlapTall.lamda ∧ 0 < overlapTall.tol ∧
    (∀ i : Fin 2, groupCount overlapTall.groups i ≠ 0) ∧
    (∃ npInv : Matrix (Fin 2) (Fin 2) ℝ → Matrix (Fin 2) (Fin 2) ℝ,
      overlapGram overlapTall * npInv (overlapGram overlapTall) = 1) ∧
    ∀ u : Fin 2 → ℝ, overlapTall.rho * ∑ i : Fin 2, (groupCount overlapTall.groups i : ℝ) * u i ^ 2 ≤
      ∑ k, ((overlapTall.A *ᵥ u) k) ^ 2 := by
  have hcov : ∀ i : Fin 2, groupCount overlapTall.groups i ≠ 0 := by
    show ∀ i : Fin 2, groupCount [[0, 1], [1]] i ≠ 0
    decide
  have h0 : groupCount [[0, 1], [1]] 0 = 1 := by decide
  have h1 : groupCount [[0, 1], [1]] 1 = 2 := by decide
  have hr : overlapTall.rho = 1 := rfl
  have hg : overlapTall.groups = [[0, 1], [1]] := rfl
  have hA : overlapTall.A = !![3, 1; 0, 2] := rfl
  refine ⟨by norm_num [overlapTall], by norm_num [overlapTall], by norm_num [overlapTall], hcov, ?_, fun u => ?_⟩
  · refine ⟨fun _ => !![7 / 61, -3 / 61; -3 / 61, 10 / 61], ?_⟩
    rw [overlapGram_count, hr, hg, hA]
    funext i j
    rw [Matrix.mul_apply, Fin.sum_univ_two]
    fin_cases i <;> fin_cases j <;>
      simp [h0, h1, Matrix.mul_apply, Fin.sum_univ_two, Matrix.transpose_apply] <;> norm_num
  · rw [hr, hg, hA]
    simp only [Fin.sum_univ_two, mulVec, dotProduct, Matrix.of_apply, Matrix.cons_val', Matrix.cons_val_zero,
      Matrix.cons_val_one, Fin.val_zero, Fin.val_one, h0, h1]
    simp
    nlinarith [sq_nonneg (u 0 + u 1), sq_nonneg (8 * u 0 + 3 * u 1)]

end Verif.Props
