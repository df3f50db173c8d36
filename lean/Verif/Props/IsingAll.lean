import Verif.Model.IsingFit
import Verif.Props.IsingConv

/-! Property theorems C189: which networks `IsingGraphicalModel` can return. -/

namespace Verif.Props

open Matrix Verif.Model Verif.Spec Verif.Lemmas

set_option autoImplicit false
set_option linter.unusedSectionVars false

variable {m d : ℕ}

/-- Specification: a network whose every pair of variables is connected, all with the same strength, the sign of an
edge being the sign of the product of the two values in `x`. -/
def CompleteAlong (x : Fin d → ℝ) (theta : Matrix (Fin d) (Fin d) ℝ) : Prop :=
  ∃ c > 0, ∀ r j, theta r j = if r = j then 0 else c * (x r * x j)

/-- Specification: no edge. -/
def NoEdge (theta : Matrix (Fin d) (Fin d) ℝ) : Prop := ∀ r j, r ≠ j → theta r j = 0

/-- Specification: an edge between every pair. -/
def AllEdges (theta : Matrix (Fin d) (Fin d) ℝ) : Prop := ∀ r j, r ≠ j → theta r j ≠ 0

theorem softScalar_sign {s : ℝ} (hs : s = -1 ∨ s = 1) (b t : ℝ) : softScalar (b * s) t = softScalar b t * s := by
  rcases hs with rfl | rfl
  · unfold softScalar npSign
    have h1 : (0 < b * -1) = (b < 0) := by simp
    have h2 : (b * -1 < 0) = (0 < b) := by simp
    rw [mul_neg_one, abs_neg]
    rcases lt_trichotomy b 0 with h | h | h
    · simp [h, not_lt.mpr h.le]
    · simp [h]
    · simp [h, not_lt.mpr h.le]
  · rw [mul_one, mul_one]

theorem sign_mul {a b : ℝ} (ha : a = -1 ∨ a = 1) (hb : b = -1 ∨ b = 1) : a * b = -1 ∨ a * b = 1 := by
  rcases ha with rfl | rfl <;> rcases hb with rfl | rfl <;> simp

theorem th_odd {s : ℝ} (hs : s = -1 ∨ s = 1) (a : ℝ) : th (a * s) = th a * s := by
  rcases hs with rfl | rfl
  · unfold th
    rw [mul_neg_one, neg_neg, mul_neg_one, ← neg_div, add_comm (Real.exp (-a)), neg_sub]
  · rw [mul_one, mul_one]

/-- The common strength after one more iteration. -/
noncomputable def strength (m d : ℕ) (alpha gamma c : ℝ) : ℝ :=
  softScalar (c + gamma / ((m + 1 : ℕ) : ℝ) * (1 - th (c * ((d : ℝ) - 1)))) (alpha * gamma)

/-- The matrix with all edges of strength `c` along `x`. -/
def along (x : Fin d → ℝ) (c : ℝ) : Matrix (Fin d) (Fin d) ℝ := Matrix.of fun r j => if r = j then 0 else c * (x r * x j)

theorem isingStep_along (X : Fin (m + 1) → Fin d → ℝ) (hX : ∀ j, X 0 j = -1 ∨ X 0 j = 1) (alpha gamma c : ℝ) :
    (isingStep X alpha gamma (along (X 0) c)).getD (along (X 0) c) = along (X 0) (strength m d alpha gamma c) := by
  have hsq : ∀ j, X 0 j * X 0 j = 1 := fun j => by rcases hX j with h | h <;> rw [h] <;> norm_num
  have hf : ∀ r, isingField X (along (X 0) c) 0 r = c * ((d : ℝ) - 1) * X 0 r := by
    intro r
    unfold isingField along
    have : ∀ k, (if k ≠ r then X 0 k * (Matrix.of fun r j => if r = j then 0 else c * (X 0 r * X 0 j)) k r else 0) =
        c * X 0 r - if k = r then c * X 0 r else 0 := by
      intro k
      by_cases h : k = r
      · simp [h]
      · simp only [h, ne_eq, not_false_eq_true, if_true, if_false, Matrix.of_apply]
        linear_combination (c * X 0 r) * hsq k
    simp only [this, Finset.sum_sub_distrib, Finset.sum_const, Finset.card_univ, Fintype.card_fin, nsmul_eq_mul,
      Finset.sum_ite_eq', Finset.mem_univ, if_true]
    ring
  unfold isingStep gradientIsing
  rw [dif_pos (Nat.succ_pos m)]
  obtain ⟨G, hG, hGv⟩ : ∃ G : Matrix (Fin d) (Fin d) ℝ,
      (fun r j => if j = r then 0 else isingTerm X (along (X 0) c) ⟨0, Nat.succ_pos m⟩ r j) = G ∧
      ∀ r j, G r j = if j = r then 0 else
        1 / ((m + 1 : ℕ) : ℝ) * X 0 j * (th (c * ((d : ℝ) - 1)) * X 0 r - X 0 r) := by
    refine ⟨_, rfl, fun r j => ?_⟩
    split_ifs with h
    · rfl
    · unfold isingTerm
      rw [show (⟨0, Nat.succ_pos m⟩ : Fin (m + 1)) = 0 from rfl, hf, ← th_odd (hX r)]
      rfl
  rw [hG]
  show softThresholdingOffDiagonal ((1 / 2 : ℝ) • (along (X 0) c - gamma • G + (along (X 0) c - gamma • G)ᵀ))
    (alpha * gamma) = _
  ext r j
  rw [softOff_apply]
  simp only [Matrix.smul_apply, Matrix.add_apply, Matrix.sub_apply, transpose_apply, smul_eq_mul, hGv]
  by_cases hrj : r = j
  · subst hrj
    simp only [if_true, softScalar_zero_right]
    simp [along]
  · have hjr : ¬ j = r := fun h => hrj h.symm
    simp only [hrj, hjr, if_false, along, Matrix.of_apply]
    rw [show strength m d alpha gamma c * (X 0 r * X 0 j) = softScalar ((c + gamma / ((m + 1 : ℕ) : ℝ) *
      (1 - th (c * ((d : ℝ) - 1)))) * (X 0 r * X 0 j)) (alpha * gamma) from
      (softScalar_sign (sign_mul (hX r) (hX j)) _ _).symm]
    congr 1
    ring

theorem along_zero (x : Fin d → ℝ) : along x 0 = 0 := by
  ext r j
  simp [along]

/-- Everything the loop can return is a matrix along the first sample, the strength being in any set that is kept by
the update. -/
theorem isingFit_along (X : Fin (m + 1) → Fin d → ℝ) (hX : ∀ j, X 0 j = -1 ∨ X 0 j = 1) (alpha gamma tol : ℝ) (N : ℕ)
    (S : ℝ → Prop) (h0 : S 0) (hS : ∀ c, S c → S (strength m d alpha gamma c)) :
    ∃ c, S c ∧ isingFitPlain X alpha gamma tol N = along (X 0) c :=
  isingFitLoop_inv (fun M => ∃ c, S c ∧ M = along (X 0) c) _ (by
    rintro M ⟨c, hc, rfl⟩
    exact ⟨_, hS c hc, isingStep_along X hX alpha gamma c⟩) tol N 0 ⟨0, h0, (along_zero _).symm⟩

/-- After at least one iteration the strength is an updated one. -/
theorem isingFit_along_succ (X : Fin (m + 1) → Fin d → ℝ) (hX : ∀ j, X 0 j = -1 ∨ X 0 j = 1) (alpha gamma tol : ℝ)
    (N : ℕ) (S P : ℝ → Prop) (h0 : S 0) (hP : ∀ c, P c → S c) (hS : ∀ c, S c → P (strength m d alpha gamma c)) :
    ∃ c, P c ∧ isingFitPlain X alpha gamma tol (N + 1) = along (X 0) c := by
  have e := isingStep_along X hX alpha gamma 0
  rw [along_zero] at e
  unfold isingFitPlain isingFitLoop
  simp only [e]
  split
  · exact ⟨_, hS 0 h0, rfl⟩
  · exact isingFitLoop_inv (fun M => ∃ c, P c ∧ M = along (X 0) c) _ (by
      rintro M ⟨c, hc, rfl⟩
      exact ⟨_, hS c (hP c hc), isingStep_along X hX alpha gamma c⟩) tol N _ ⟨_, hS 0 h0, rfl⟩

theorem th_zero : th 0 = 0 := by unfold th; simp

theorem th_lt_one (a : ℝ) : th a < 1 := by
  unfold th
  rw [div_lt_one (exp_sum_pos a)]
  have := Real.exp_pos (-a)
  linarith

theorem strength_zero (m d : ℕ) {alpha gamma : ℝ} (hg : 0 ≤ gamma) (ha : 1 ≤ alpha * ((m + 1 : ℕ) : ℝ)) :
    strength m d alpha gamma 0 = 0 := by
  unfold strength
  rw [zero_mul, th_zero]
  refine softScalar_of_abs_le ?_
  have hm : (0 : ℝ) < ((m + 1 : ℕ) : ℝ) := by positivity
  rw [zero_add, sub_zero, mul_one, abs_of_nonneg (by positivity), div_le_iff₀ hm]
  nlinarith

theorem strength_pos (m d : ℕ) (hd : 1 ≤ d) {alpha gamma c : ℝ} (hal : 0 ≤ alpha) (hg : 0 < gamma)
    (ha : alpha * ((m + 1 : ℕ) : ℝ) < 1) (hs : gamma * ((d : ℝ) - 1) ≤ ((m + 1 : ℕ) : ℝ)) (hc : 0 ≤ c) :
    0 < strength m d alpha gamma c := by
  have hm : (0 : ℝ) < ((m + 1 : ℕ) : ℝ) := by positivity
  set M : ℝ := ((m + 1 : ℕ) : ℝ)
  have hd' : (0 : ℝ) ≤ (d : ℝ) - 1 := by
    have : (1 : ℝ) ≤ d := by exact_mod_cast hd
    linarith
  have h1 : th (c * ((d : ℝ) - 1)) ≤ c * ((d : ℝ) - 1) := by
    have := sub_th_mono (mul_nonneg hc hd')
    simp only [th_zero] at this
    linarith
  have h2 : gamma / M * th (c * ((d : ℝ) - 1)) ≤ c := by
    calc gamma / M * th (c * ((d : ℝ) - 1)) ≤ gamma / M * (c * ((d : ℝ) - 1)) :=
          mul_le_mul_of_nonneg_left h1 (by positivity)
      _ = c * (gamma * ((d : ℝ) - 1)) / M := by ring
      _ ≤ c := by
        rw [div_le_iff₀ hm]
        exact mul_le_mul_of_nonneg_left hs hc
  have h3 : alpha * gamma < gamma / M := by
    rw [lt_div_iff₀ hm]
    nlinarith
  have h4 : alpha * gamma < c + gamma / M * (1 - th (c * ((d : ℝ) - 1))) := by
    have : gamma / M * (1 - th (c * ((d : ℝ) - 1))) = gamma / M - gamma / M * th (c * ((d : ℝ) - 1)) := by ring
    linarith
  show 0 < softScalar (c + gamma / M * (1 - th (c * ((d : ℝ) - 1)))) (alpha * gamma)
  rw [softScalar_of_pos (by positivity) h4]
  linarith

/-! ### The estimator -/

/-- C189 is false: for binary data in {-1, 1} every network that `IsingGraphicalModel` can return with its default mode,
whatever the number of samples and variables, `alpha`, the step size, the tolerance and the number of iterations, has
either no edge or all of them, and all edges have the same strength. No proper subset of the pairs can be selected. -/
theorem C189_selects_false (logit : ℝ → ℕ → ℕ → ℝ) (e : IsingEstimator) (he : e.mode = "symmetric_fbs")
    (X : Fin (m + 1) → Fin d → ℝ) (hX : ∀ i j, X i j = -1 ∨ X i j = 1) :
    ∃ P, isingModelFit logit e X = .ok P ∧ (NoEdge P ∨ AllEdges P) ∧
      ∀ r j r' j', r ≠ j → r' ≠ j' → |P r j| = |P r' j'| := by
  obtain ⟨c, -, hc⟩ := isingFit_along X (hX 0) e.alpha e.gamma e.tol e.maxIter (fun _ => True) trivial fun _ _ => trivial
  have hab : ∀ j, |X 0 j| = 1 := fun j => by rcases hX 0 j with h | h <;> rw [h] <;> norm_num
  have hval : ∀ r j, r ≠ j → isingFitPlain X e.alpha e.gamma e.tol e.maxIter r j = c * (X 0 r * X 0 j) := by
    intro r j h
    rw [hc]
    simp [along, h]
  refine ⟨_, by unfold isingModelFit; rw [if_pos he], ?_, fun r j r' j' h h' => ?_⟩
  · by_cases h0 : c = 0
    · exact Or.inl fun r j h => by rw [hval r j h, h0, zero_mul]
    · refine Or.inr fun r j h hz => ?_
      rw [hval r j h] at hz
      have := congrArg abs hz
      rw [abs_mul, abs_mul, hab, hab, mul_one, mul_one, abs_zero] at this
      exact h0 (abs_eq_zero.mp this)
  · rw [hval r j h, hval r' j' h', abs_mul, abs_mul, abs_mul, abs_mul, hab, hab, hab, hab]

/-- C189: with `alpha * n_samples >= 1` the network is empty for every binary data set, every step size, tolerance and
number of iterations. -/
theorem C189_empty (logit : ℝ → ℕ → ℕ → ℝ) (e : IsingEstimator) (he : e.mode = "symmetric_fbs") (hg : 0 ≤ e.gamma)
    (X : Fin (m + 1) → Fin d → ℝ) (hX : ∀ i j, X i j = -1 ∨ X i j = 1) (ha : 1 ≤ e.alpha * ((m + 1 : ℕ) : ℝ)) :
    isingModelFit logit e X = .ok 0 := by
  obtain ⟨c, rfl, hc⟩ := isingFit_along X (hX 0) e.alpha e.gamma e.tol e.maxIter (fun c => c = 0) rfl fun c h => by
    rw [h]; exact strength_zero m d hg ha
  unfold isingModelFit
  rw [if_pos he, hc, along_zero]

/-- C189: with `alpha * n_samples < 1`, a step size of at most `n_samples / (n_features - 1)` and at least one iteration
every pair of variables is connected, and the sign of the edge is the sign of the product of the two values in the first
row of the data. -/
theorem C189_complete (logit : ℝ → ℕ → ℕ → ℝ) (e : IsingEstimator) (he : e.mode = "symmetric_fbs") (hal : 0 ≤ e.alpha)
    (hg : 0 < e.gamma) (hd : 1 ≤ d) (hs : e.gamma * ((d : ℝ) - 1) ≤ ((m + 1 : ℕ) : ℝ)) (hN : 1 ≤ e.maxIter)
    (X : Fin (m + 1) → Fin d → ℝ) (hX : ∀ i j, X i j = -1 ∨ X i j = 1) (ha : e.alpha * ((m + 1 : ℕ) : ℝ) < 1) :
    ∃ P, isingModelFit logit e X = .ok P ∧ CompleteAlong (X 0) P := by
  obtain ⟨N, hN'⟩ : ∃ N, e.maxIter = N + 1 := ⟨e.maxIter - 1, by omega⟩
  obtain ⟨c, hc0, hc⟩ := isingFit_along_succ X (hX 0) e.alpha e.gamma e.tol N (fun c => 0 ≤ c) (fun c => 0 < c) le_rfl
    (fun c h => h.le) fun c h => strength_pos m d hd hal hg ha hs h
  refine ⟨_, by unfold isingModelFit; rw [if_pos he], c, hc0, fun r j => ?_⟩
  rw [hN', hc]
  rfl

/-- C189: with the default options the network is empty whenever there are at least 100 samples, whatever they are. -/
theorem C189_default_false (logit : ℝ → ℕ → ℕ → ℝ) (X : Fin (m + 1) → Fin d → ℝ) (hX : ∀ i j, X i j = -1 ∨ X i j = 1)
    (hm : 100 ≤ m + 1) : isingModelFit logit {} X = .ok 0 := by
  refine C189_empty logit {} rfl (by norm_num) X hX ?_
  have : (100 : ℝ) ≤ ((m + 1 : ℕ) : ℝ) := by exact_mod_cast hm
  show (1 : ℝ) ≤ 1 / 100 * _
  linarith

/-- C189: the mode `'coordinate_descent'` always raises `ValueError`, as do unknown modes. -/
theorem C189_mode (logit : ℝ → ℕ → ℕ → ℝ) (e : IsingEstimator) (X : Fin (m + 1) → Fin d → ℝ)
    (h1 : e.mode ≠ "symmetric_fbs") (h2 : e.mode ≠ "logistic_regression") :
    isingModelFit logit e X = .error .value := by
  unfold isingModelFit
  rw [if_neg h1]
  by_cases h : e.mode = "coordinate_descent"
  · rw [if_pos h]
  · rw [if_neg h, if_neg h2]

/-! ### The time-varying estimator -/

/-- The inner fit with a zero target returns zero above the threshold. -/
theorem isingFit_zero (X : Fin (m + 1) → Fin d → ℝ) (hX : ∀ i j, X i j = -1 ∨ X i j = 1) {alpha gamma : ℝ} (hg : 0 ≤ gamma)
    (ha : 1 ≤ alpha * ((m + 1 : ℕ) : ℝ)) (tol : ℝ) (N : ℕ) (T rho : ℝ) : isingFit X alpha gamma tol N T 0 rho = 0 := by
  have hm : (0 : ℝ) < ((m + 1 : ℕ) : ℝ) := by positivity
  refine isingFitLoop_inv (fun M => M = 0) _ ?_ tol N 0 rfl
  rintro M rfl
  have hf : ∀ r, isingField X 0 0 r = 0 := fun r => by unfold isingField; simp
  have hab : ∀ j, |X 0 j| = 1 := fun j => by rcases hX 0 j with h | h <;> rw [h] <;> norm_num
  ext r j
  unfold isingFitStep
  rw [softOff_apply]
  simp only [Matrix.smul_apply, Matrix.add_apply, Matrix.sub_apply, transpose_apply, smul_eq_mul, isingGradA,
    Matrix.of_apply, Matrix.zero_apply, isingTerm, hf]
  by_cases hrj : r = j
  · subst hrj
    simp only [if_true, softScalar_zero_right]
    simp
  · have hjr : ¬ j = r := fun h => hrj h.symm
    simp only [hrj, hjr, if_false]
    refine softScalar_of_abs_le ?_
    have e : 1 / 2 * (0 - gamma * (1 / ((m + 1 : ℕ) : ℝ) * X 0 j * ((Real.exp 0 - Real.exp (-0)) / (Real.exp 0 + Real.exp (-0))
        - X 0 r) + rho * T * (0 - 0)) + (0 - gamma * (1 / ((m + 1 : ℕ) : ℝ) * X 0 r * ((Real.exp 0 - Real.exp (-0)) /
        (Real.exp 0 + Real.exp (-0)) - X 0 j) + rho * T * (0 - 0)))) = gamma / ((m + 1 : ℕ) : ℝ) * (X 0 r * X 0 j) := by
      rw [neg_zero, sub_self, zero_div]
      ring
    rw [e, abs_mul, abs_mul, hab, hab, mul_one, mul_one, abs_of_nonneg (by positivity), div_le_iff₀ hm]
    nlinarith

/-- C189, time-varying estimator: with `alpha * n_samples >= 1` (samples per time) and a penalty whose proximal map keeps
the zero matrix, every returned network is empty, for all binary data, kernels, `rho`, tolerances and numbers of
iterations. -/
theorem C189_time_empty {k : ℕ} {E : Type*} [Fintype E] (g : TimePairs k E) (X : Fin k → Fin (m + 1) → Fin d → ℝ)
    (hX : ∀ t i j, X t i j = -1 ∨ X t i j = 1) {alpha gamma : ℝ} (hg : 0 ≤ gamma) (ha : 1 ≤ alpha * ((m + 1 : ℕ) : ℝ))
    (tol rtol : ℝ) (weight : E → ℝ) (psi : Matrix (Fin d) (Fin d) ℝ → ℝ)
    (prox : Matrix (Fin d) (Fin d) ℝ → ℝ → Matrix (Fin d) (Fin d) ℝ) (hprox : ∀ lam, prox 0 lam = 0) (rho : ℝ)
    (maxIter : ℕ) (h ni : Bool) {K : Batch k (Fin d)}
    (hK : tgResult (fitTimeGLM g (timeIsingArgs X alpha gamma tol rtol maxIter weight psi prox) rho maxIter h ni) = some K) :
    K = 0 := by
  set a := timeIsingArgs X alpha gamma tol rtol maxIter weight psi prox with hadef
  let Q : TGState k E (Fin d) → Prop := fun s => s.K = 0 ∧ (∀ e, s.ZL e = 0) ∧ (∀ e, s.ZR e = 0) ∧
    (∀ e, s.UL e = 0) ∧ ∀ e, s.UR e = 0
  have hstep : ∀ it s, Q s → Q (tgBody g a it s).1 := by
    rintro it s ⟨-, h1, h2, h3, h4⟩
    have hA : ∀ t, tgA g s t = 0 := by
      intro t
      have e : ∀ f : E → Fin k, scatter f (fun _ : E => (0 : Matrix (Fin d) (Fin d) ℝ)) t = 0 := by
        intro f
        unfold scatter
        simp
      unfold tgA
      simp only [h1, h2, h3, h4, sub_zero, e, add_zero, smul_zero]
      unfold symmetrize
      simp
    have hKn : (tgNext g a s).K = 0 := by
      funext t
      show isingFit (X t) alpha gamma tol maxIter k (tgA g s t) s.rho = 0
      rw [hA]
      exact isingFit_zero (X t) (hX t) hg ha tol maxIter k s.rho
    have hZL : ∀ e, (tgNext g a s).ZL e = 0 := by
      intro e
      show tglZ1 prox (weight e) s.rho ((tgNext g a s).K (g.src e) + s.UL e) ((tgNext g a s).K (g.dst e) + s.UR e) = 0
      rw [hKn, h3, h4]
      unfold tglZ1
      simp [hprox]
    have hZR : ∀ e, (tgNext g a s).ZR e = 0 := by
      intro e
      show tglZ2 prox (weight e) s.rho ((tgNext g a s).K (g.src e) + s.UL e) ((tgNext g a s).K (g.dst e) + s.UR e) = 0
      rw [hKn, h3, h4]
      unfold tglZ2
      simp [hprox]
    have hUL : ∀ e, (tgNext g a s).UL e = 0 := by
      intro e
      show s.UL e + ((tgNext g a s).K (g.src e) - (tgNext g a s).ZL e) = 0
      rw [h3, hKn, hZL]
      simp
    have hUR : ∀ e, (tgNext g a s).UR e = 0 := by
      intro e
      show s.UR e + ((tgNext g a s).K (g.dst e) - (tgNext g a s).ZR e) = 0
      rw [h4, hKn, hZR]
      simp
    obtain ⟨r, hb | hb⟩ := tgBody_cases g a it s <;> rw [hb]
    · exact ⟨hKn, hZL, hZR, hUL, hUR⟩
    · refine ⟨hKn, hZL, hZR, fun e => ?_, fun e => ?_⟩
      · show (s.rho / r) • (tgNext g a s).UL e = 0
        rw [hUL, smul_zero]
      · show (s.rho / r) • (tgNext g a s).UR e = 0
        rw [hUR, smul_zero]
  have hall : ∀ j, Q (stateAt (tgBody g a) (tgInit rho) j) := by
    intro j
    induction j with
    | zero => exact ⟨rfl, fun _ => rfl, fun _ => rfl, fun _ => rfl, fun _ => rfl⟩
    | succ j ih => exact hstep j _ ih
  rw [tgResult_state hK]
  rcases runLoop_spec (tgBody g a) maxIter (tgInit rho) with ⟨j, -, -, -, hrun⟩ | ⟨-, hrun⟩ <;> rw [hrun]
  · exact (hall (j + 1)).1
  · exact (hall maxIter).1

/-- Non-vacuity for C189: ten samples of four variables, the default options; and 100 samples. -/
example : ∃ P, isingModelFit (fun _ _ _ => 0) {} (fun (_ : Fin (9 + 1)) (j : Fin 4) => if j = 0 then (-1 : ℝ) else 1) = .ok P ∧
    P 0 1 < 0 ∧ 0 < P 1 2 := by
  obtain ⟨P, hP, c, hc, h⟩ := C189_complete (m := 9) (d := 4) (fun _ _ _ => 0) {} rfl (by norm_num) (by norm_num) (by norm_num)
    (by norm_num) (by norm_num) (fun _ j => if j = 0 then (-1 : ℝ) else 1)
    (fun _ j => by by_cases h : j = 0 <;> simp [h]) (by norm_num)
  exact ⟨P, hP, by rw [h]; simp [hc], by rw [h]; simp [hc]⟩

example : isingModelFit (m := 99) (d := 3) (fun _ _ _ => 0) {} (fun i j => if (i : ℕ) ≤ j then (-1 : ℝ) else 1) = .ok 0 :=
  C189_default_false _ _ (fun i j => by by_cases h : (i : ℕ) ≤ j <;> simp [h]) le_rfl

end Verif.Props
