import Verif.Model.PoissonTime
import Verif.Props.GLMEmpty
import Verif.Props.TimeGLM

/-! Property theorems C190: when the fit of the time-varying Poisson model returns. -/

namespace Verif.Props

open Matrix Verif.Model Verif.Spec Verif.Lemmas

set_option autoImplicit false
set_option linter.unusedSectionVars false

variable {k m d : ℕ} {E : Type*} [Fintype E]

/-! ### Large penalties -/

/-- Specification: no entry off the diagonal. -/
def DiagOnly (M : Matrix (Fin d) (Fin d) ℝ) : Prop := ∀ i j, i ≠ j → M i j = 0

theorem DiagOnly.add {M N : Matrix (Fin d) (Fin d) ℝ} (hM : DiagOnly M) (hN : DiagOnly N) : DiagOnly (M + N) :=
  fun i j h => by rw [Matrix.add_apply, hM i j h, hN i j h, add_zero]

theorem DiagOnly.sub {M N : Matrix (Fin d) (Fin d) ℝ} (hM : DiagOnly M) (hN : DiagOnly N) : DiagOnly (M - N) :=
  fun i j h => by rw [Matrix.sub_apply, hM i j h, hN i j h, sub_zero]

theorem DiagOnly.smul {M : Matrix (Fin d) (Fin d) ℝ} (c : ℝ) (hM : DiagOnly M) : DiagOnly (c • M) :=
  fun i j h => by rw [Matrix.smul_apply, hM i j h, smul_zero]

theorem DiagOnly.scatter {X : E → Matrix (Fin d) (Fin d) ℝ} (hX : ∀ e, DiagOnly (X e)) (f : E → Fin k) (t : Fin k) :
    DiagOnly (scatter f X t) := by
  intro i j h
  unfold Model.scatter
  rw [Matrix.sum_apply]
  refine Finset.sum_eq_zero fun e _ => ?_
  split_ifs
  · exact hX e i j h
  · rfl

theorem diagOnly_one : DiagOnly (1 : Matrix (Fin d) (Fin d) ℝ) := fun _ _ h => Matrix.one_apply_ne h

/-- The K-update returns the identity when the target has no edges and `alpha` is above the threshold. -/
theorem timeInner_one {X : Fin m → Fin d → ℝ} {alpha : ℝ} (ha : 0 ≤ alpha)
    (h : ∀ r k : Fin d, k ≠ r → |1 / (m : ℝ) * ∑ i, X i k * (X i r - 1)| ≤ alpha) (tol T rho : ℝ)
    {A : Matrix (Fin d) (Fin d) ℝ} (hA : DiagOnly A) : poissonTimeInner X alpha tol T A rho = some 1 := by
  have hz : ∀ ix : Fin d, ∃ checks last, poissonFitNode (poissonTimeNode X alpha tol T rho A ix) =
      some (fun _ => 0, checks, last) := by
    intro ix
    refine poisson_stays _ ha one_pos fun j => ?_
    show |poissonGradient (fun i (k : {k : Fin d // k ≠ ix}) => X i k.1) (fun i => X i ix) (fun _ => 0) j +
      rho * T * (0 - A ix j.1) / m| ≤ alpha
    rw [hA ix j.1 j.2.symm, sub_zero, mul_zero, zero_div, add_zero, poissonGradient_zero, abs_neg]
    exact h ix j.1 j.2
  unfold poissonTimeInner
  rw [if_pos fun ix => by obtain ⟨c, l, e⟩ := hz ix; rw [e]; rfl]
  congr 1
  set nb : ℕ → ℕ → ℝ := fun i j =>
      if h : ∃ (hi : i < d) (hj : j < d), (⟨j, hj⟩ : Fin d) ≠ ⟨i, hi⟩ then
        match poissonFitNode (poissonTimeNode X alpha tol T rho A ⟨i, h.1⟩) with
        | none => 0
        | some r => r.1 ⟨⟨j, h.2.1⟩, h.2.2⟩
      else 0 with hnb
  have hnb0 : ∀ i j, nb i j = 0 := by
    intro i j
    simp only [hnb]
    split_ifs with hc
    · obtain ⟨c, l, e⟩ := hz ⟨i, hc.1⟩
      simp only [e]
    · rfl
  ext i j
  show buildAdjacency d nb "union" i j = _
  obtain ⟨-, h1, h2, -⟩ := C40_union_partial d nb i j i.2 j.2
  by_cases hij : i = j
  · subst hij
    rw [h1, Matrix.one_apply_eq]
  · rw [h2 (fun hc => hij (Fin.ext hc)) (hnb0 _ _) (hnb0 _ _), Matrix.one_apply_ne hij]

/-- **C190** (partial: only at or above the threshold): if `alpha` is at least the threshold of every variable at every
time and the penalty keeps matrices without edges, the fit returns after any number of passes, and every network is
exactly the identity. Below the threshold the call may not return (`C190_returns_false`). -/
theorem C190_empty_partial (g : TimePairs k E) (X : Fin k → Fin m → Fin d → ℝ) (a : TGArgs k E (Fin d))
    (ha : 0 ≤ a.alpha) (hprox : ∀ M lam, DiagOnly M → DiagOnly (a.prox M lam))
    (h : ∀ t, ∀ r k : Fin d, k ≠ r → |1 / (m : ℝ) * ∑ i, X t i k * (X t i r - 1)| ≤ a.alpha) (rho : ℝ) {N : ℕ}
    (hN : 1 ≤ N) : fitTimePoisson g X a rho N = some fun _ => 1 := by
  have hinner : ∀ t A r, DiagOnly A → poissonTimeInner (X t) a.alpha a.tol k A r = some 1 :=
    fun t A r hA => timeInner_one ha (h t) _ _ _ hA
  let Q : Option (TGState k E (Fin d)) → Prop := fun o => ∃ s, o = some s ∧ (∀ e, DiagOnly (s.ZL e)) ∧
    (∀ e, DiagOnly (s.ZR e)) ∧ (∀ e, DiagOnly (s.UL e)) ∧ ∀ e, DiagOnly (s.UR e)
  have hA : ∀ s : TGState k E (Fin d), (∀ e, DiagOnly (s.ZL e)) → (∀ e, DiagOnly (s.ZR e)) → (∀ e, DiagOnly (s.UL e)) →
      (∀ e, DiagOnly (s.UR e)) → ∀ t, DiagOnly (tgA g s t) := by
    intro s h1 h2 h3 h4 t
    unfold tgA
    have hS : DiagOnly (((k : ℝ))⁻¹ • (scatter g.src (fun e => s.ZL e - s.UL e) t +
        scatter g.dst (fun e => s.ZR e - s.UR e) t)) :=
      ((DiagOnly.scatter (fun e => (h1 e).sub (h3 e)) _ _).add
        (DiagOnly.scatter (fun e => (h2 e).sub (h4 e)) _ _)).smul _
    unfold symmetrize
    refine DiagOnly.smul _ (hS.add fun i j hij => ?_)
    rw [transpose_apply]
    exact hS j i (Ne.symm hij)
  have key : ∀ j, Q (stateAt (timePoissonBody g X a) (some (tgInit rho)) j) ∧
      ∀ i, j = i + 1 → ∃ s, stateAt (timePoissonBody g X a) (some (tgInit rho)) j = some s ∧ s.K = fun _ => 1 := by
    intro j
    induction j with
    | zero =>
      have z : DiagOnly (0 : Matrix (Fin d) (Fin d) ℝ) := fun _ _ _ => rfl
      exact ⟨⟨_, rfl, fun _ => z, fun _ => z, fun _ => z, fun _ => z⟩, fun i hi => by omega⟩
    | succ j ih =>
      obtain ⟨⟨s, hs, h1, h2, h3, h4⟩, -⟩ := ih
      have hstep : stateAt (timePoissonBody g X a) (some (tgInit rho)) (j + 1) =
          some (tgBody g (timePoissonArgs X a) j s).1 := by
        show (timePoissonBody g X a j (stateAt (timePoissonBody g X a) (some (tgInit rho)) j)).1 = _
        rw [hs]
        unfold timePoissonBody
        simp only
        rw [if_pos fun t => by rw [hinner t _ _ (hA s h1 h2 h3 h4 t)]; rfl]
      have hK : (tgNext g (timePoissonArgs X a) s).K = fun _ => 1 := by
        funext t
        show (poissonTimeInner (X t) a.alpha a.tol k (tgA g s t) s.rho).getD 0 = 1
        rw [hinner t _ _ (hA s h1 h2 h3 h4 t)]
        rfl
      have hAL : ∀ e, DiagOnly (1 + s.UL e) := fun e => diagOnly_one.add (h3 e)
      have hAR : ∀ e, DiagOnly (1 + s.UR e) := fun e => diagOnly_one.add (h4 e)
      have hZL : ∀ e, DiagOnly ((tgNext g (timePoissonArgs X a) s).ZL e) := by
        intro e
        show DiagOnly (tglZ1 a.prox (a.weight e) s.rho ((tgNext g (timePoissonArgs X a) s).K (g.src e) + s.UL e)
          ((tgNext g (timePoissonArgs X a) s).K (g.dst e) + s.UR e))
        rw [hK]
        exact (((hAL e).add (hAR e)).sub (hprox _ _ ((hAR e).sub (hAL e)))).smul _
      have hZR : ∀ e, DiagOnly ((tgNext g (timePoissonArgs X a) s).ZR e) := by
        intro e
        show DiagOnly (tglZ2 a.prox (a.weight e) s.rho ((tgNext g (timePoissonArgs X a) s).K (g.src e) + s.UL e)
          ((tgNext g (timePoissonArgs X a) s).K (g.dst e) + s.UR e))
        rw [hK]
        exact (((hAL e).add (hAR e)).add (hprox _ _ ((hAR e).sub (hAL e)))).smul _
      have hUL : ∀ e, DiagOnly ((tgNext g (timePoissonArgs X a) s).UL e) := by
        intro e
        show DiagOnly (s.UL e + ((tgNext g (timePoissonArgs X a) s).K (g.src e) - (tgNext g (timePoissonArgs X a) s).ZL e))
        rw [hK]
        exact (h3 e).add (diagOnly_one.sub (hZL e))
      have hUR : ∀ e, DiagOnly ((tgNext g (timePoissonArgs X a) s).UR e) := by
        intro e
        show DiagOnly (s.UR e + ((tgNext g (timePoissonArgs X a) s).K (g.dst e) - (tgNext g (timePoissonArgs X a) s).ZR e))
        rw [hK]
        exact (h4 e).add (diagOnly_one.sub (hZR e))
      obtain ⟨r, hb | hb⟩ := tgBody_cases g (timePoissonArgs X a) j s <;> rw [hstep, hb]
      · exact ⟨⟨_, rfl, hZL, hZR, hUL, hUR⟩, fun _ _ => ⟨_, rfl, hK⟩⟩
      · exact ⟨⟨_, rfl, hZL, hZR, fun e => (hUL e).smul _, fun e => (hUR e).smul _⟩, fun _ _ => ⟨_, rfl, hK⟩⟩
  unfold fitTimePoisson
  rcases runLoop_spec (timePoissonBody g X a) N (some (tgInit rho)) with ⟨j, -, -, -, hrun⟩ | ⟨-, hrun⟩
  · obtain ⟨s, hs, hK⟩ := (key (j + 1)).2 j rfl
    rw [hrun]
    simp only [hs, Option.map_some, hK]
  · obtain ⟨s, hs, hK⟩ := (key N).2 (N - 1) (by omega)
    rw [hrun]
    simp only [hs, Option.map_some, hK]

/-! ### Small penalties -/

theorem soft_up {alpha gamma g x : ℝ} (ha : 0 ≤ alpha) (hg : 0 < gamma) (h : g < -alpha) :
    x < softScalar (x - gamma * g) (alpha * gamma) ∧
      softScalar (x - gamma * g) (alpha * gamma) ≤ x + gamma * (-g + alpha) := by
  have hl := mul_nonneg ha hg.le
  have h1 : gamma * alpha < gamma * -g := by nlinarith
  obtain ⟨hc, e⟩ | ⟨hc, e⟩ | ⟨hc, hc', e⟩ := softScalar_cases hl (x - gamma * g) <;> rw [e] <;> constructor <;> nlinarith

theorem exp_reject {alpha gamma g x p : ℝ} (hg : 0 < gamma) (hx : alpha < Real.exp x) (h : x < p)
    (hp : p - x ≤ 2 * (gamma * (-g + alpha))) :
    Real.exp x - g * (x - p) + (x - p) ^ 2 / (2 * gamma) < Real.exp p := by
  have hs : 0 < p - x := by linarith
  have h1 : (x - p) ^ 2 / (2 * gamma) ≤ (p - x) * (-g + alpha) := by
    rw [div_le_iff₀ (by positivity)]
    nlinarith
  have h2 : Real.exp x * (p - x + 1) ≤ Real.exp p := by
    have := Real.add_one_le_exp (p - x)
    calc Real.exp x * (p - x + 1) ≤ Real.exp x * Real.exp (p - x) := mul_le_mul_of_nonneg_left this (Real.exp_pos x).le
      _ = Real.exp p := by rw [← Real.exp_add]; congr 1; ring
  nlinarith [mul_lt_mul_of_pos_right hx hs]

/-- A search on the loss `exp` along a direction that increases it never accepts. -/
theorem exp_blocked {ι : Type*} [Fintype ι] [Unique ι] {alpha g x shrink : ℝ} (ha : 0 ≤ alpha) (h : g < -alpha)
    (hx : alpha < Real.exp x) (hs : 0 < shrink) (fuel : ℕ) : ∀ (start : ι → ℝ) (gamma : ℝ), 0 < gamma →
    (start = (fun _ => x) ∨ start = fun _ => softScalar (x - gamma * g) (alpha * gamma)) →
    lineSearch (fun theta : ι → ℝ => Real.exp (theta default)) (fun _ => g) (fun _ => x) alpha shrink fuel start gamma = none := by
  induction fuel with
  | zero => intro start gamma _ _; rfl
  | succ fuel ih =>
    intro start gamma hg hst
    unfold lineSearch
    simp only
    rw [if_pos]
    · exact ih _ _ (by positivity) (Or.inr rfl)
    · unfold searchBound softThresholding
      simp only [Fintype.sum_unique]
      obtain ⟨h1, h2⟩ := soft_up (x := x) ha hg h
      rcases hst with rfl | rfl
      · refine exp_reject hg hx h1 ?_
        have : 0 ≤ gamma * (-g + alpha) := by nlinarith
        linarith
      · obtain ⟨h3, h4⟩ := soft_up (x := softScalar (x - gamma * g) (alpha * gamma)) ha hg h
        exact exp_reject hg hx (h1.trans h3) (by linarith)

theorem exp_neg_le {v : ℝ} (hv : 0 ≤ v) : Real.exp (-v) ≤ 1 - v + v ^ 2 / 2 := by
  have h1 := Real.quadratic_le_exp_of_nonneg hv
  have h2 : Real.exp (-v) * Real.exp v = 1 := by rw [← Real.exp_add, neg_add_cancel, Real.exp_zero]
  have h3 := Real.exp_pos (-v)
  have h4 : 0 < 1 - v + v ^ 2 / 2 := by nlinarith [sq_nonneg (v - 1)]
  have h5 : 1 ≤ (1 - v + v ^ 2 / 2) * (1 + v + v ^ 2 / 2) := by nlinarith [sq_nonneg (v ^ 2)]
  by_contra hc
  push Not at hc
  have h6 : (1 - v + v ^ 2 / 2) * (1 + v + v ^ 2 / 2) ≤ (1 - v + v ^ 2 / 2) * Real.exp v :=
    mul_le_mul_of_nonneg_left h1 h4.le
  have h7 : (1 - v + v ^ 2 / 2) * Real.exp v < Real.exp (-v) * Real.exp v :=
    mul_lt_mul_of_pos_right hc (Real.exp_pos v)
  linarith

/-- The neighbourhood fit of a variable that is always 0 on one that is always 1 does not return: the first step is
accepted, after it the coupling term reverses the direction and no step is ever accepted. -/
theorem node_blocked {ι : Type*} [Fintype ι] [Unique ι] (hm : 1 ≤ m) {alpha rho T tol : ℝ} (ha0 : 0 ≤ alpha)
    (ha : alpha ≤ 1 / 4) (hr : 2 * (m : ℝ) ≤ rho * T) :
    poissonFitNode (m := m) (ι := ι) ⟨fun _ _ => 1, fun _ => 0, alpha, 1, tol, 100, 1 / 2, some fun _ => 0, T, rho⟩ = none := by
  set a : PoissonArgs m ι := ⟨fun _ _ => 1, fun _ => 0, alpha, 1, tol, 100, 1 / 2, some fun _ => 0, T, rho⟩ with hadef
  have hm' : (0 : ℝ) < m := by exact_mod_cast hm
  have hloss : poissonLoss a.Xs a.xr = fun theta : ι → ℝ => Real.exp (theta default) := by
    funext theta
    unfold poissonLoss linPred
    simp only [hadef, Fintype.sum_unique, one_mul, zero_mul, sub_zero, Finset.sum_const, Finset.card_univ,
      Fintype.card_fin, nsmul_eq_mul]
    field_simp
  have hgrad : ∀ x : ℝ, poissonGradientA a.Xs a.xr a.rho a.T a.A (fun _ => x) =
      fun _ => Real.exp x + rho * T / m * x := by
    intro x
    funext j
    unfold poissonGradientA poissonGradient linPred
    simp only [hadef, one_mul, mul_zero, Finset.sum_const, Finset.card_univ, Fintype.card_fin, nsmul_eq_mul, sub_zero,
      Fintype.card_unique, Nat.cast_one]
    field_simp
    ring
  set x : ℝ := -(1 - alpha) with hxdef
  have hb0 : poissonBody a 0 (some ⟨fun _ => 0, 1⟩) = (some ⟨fun _ => x, 1⟩, none, false) := by
    have hls : ∀ fuel, lineSearch (fun theta : ι → ℝ => Real.exp (theta default)) (fun _ => Real.exp 0 + rho * T / m * 0)
        (fun _ => 0) alpha (1 / 2) (fuel + 1) (fun _ => 0) 1 = some (fun _ => x, 1) := by
      intro fuel
      have hsoft : softThresholding (fun _ : ι => 0 - 1 * (Real.exp 0 + rho * T / m * 0)) (alpha * 1) = fun _ => x := by
        funext j
        show softScalar _ _ = x
        rw [Real.exp_zero, mul_zero, add_zero, mul_one, mul_one, zero_sub, softScalar_of_neg ha0 (by linarith), hxdef]
        ring
      unfold lineSearch
      simp only [hsoft]
      rw [if_neg]
      unfold searchBound
      simp only [Fintype.sum_unique, Real.exp_zero]
      have := exp_neg_le (v := 1 - alpha) (by linarith)
      rw [← hxdef] at this
      rw [not_lt]
      have e : 1 - (1 + rho * T / m * 0) * (0 - x) + (0 - x) ^ 2 / (2 * 1) = 1 - (1 - alpha) + (1 - alpha) ^ 2 / 2 := by
        rw [hxdef]; ring
      rw [e]
      exact this
    have hs : searchWhile (poissonLoss a.Xs a.xr) (poissonGradientA a.Xs a.xr a.rho a.T a.A fun _ => 0) (fun _ => 0) a.alpha
        a.updateGamma (fun _ => 0) 1 = some (fun _ => x, 1) := by
      rw [hloss, hgrad]
      obtain ⟨r, hr⟩ := searchWhile_isSome (fun theta : ι → ℝ => Real.exp (theta default))
        (fun _ => Real.exp 0 + rho * T / m * 0) (fun _ => 0) alpha (1 / 2) (fun _ => 0) 1 ⟨1, by rw [hls]; rfl⟩
      obtain ⟨fuel, hf⟩ := searchWhile_spec _ _ _ _ _ _ _ hr
      cases fuel with
      | zero => simp [lineSearch] at hf
      | succ fuel =>
        rw [hls] at hf
        exact hr.trans hf.symm
    unfold poissonBody
    simp only [hs]
    rfl
  have hb1 : poissonBody a 1 (some ⟨fun _ => x, 1⟩) = (none, none, true) := by
    have hex1 : Real.exp x < 1 := by
      rw [Real.exp_lt_one_iff]
      linarith
    have hex2 : alpha < Real.exp x := by
      have := Real.add_one_lt_exp (x := x) (by rw [hxdef]; intro h; linarith)
      linarith
    have hneg : Real.exp x + rho * T / m * x < -alpha := by
      have h2 : 2 ≤ rho * T / m := by rw [le_div_iff₀ hm']; exact hr
      have h3 : rho * T / m * x ≤ 2 * x := mul_le_mul_of_nonpos_right h2 (by linarith)
      linarith
    have hs : searchWhile (poissonLoss a.Xs a.xr) (poissonGradientA a.Xs a.xr a.rho a.T a.A fun _ => x) (fun _ => x) a.alpha
        a.updateGamma (fun _ => x) 1 = none := by
      rw [hloss, hgrad]
      unfold searchWhile
      rw [dif_neg]
      rintro ⟨fuel, hf⟩
      rw [exp_blocked ha0 hneg hex2 (by norm_num [hadef]) fuel _ _ one_pos (Or.inl rfl)] at hf
      exact absurd hf (by simp)
    unfold poissonBody
    simp only [hs]
  have hst1 : stateAt (poissonBody a) (some ⟨fun _ => 0, 1⟩) 1 = some ⟨fun _ => x, 1⟩ := by
    show (poissonBody a 0 (some ⟨fun _ => 0, 1⟩)).1 = _
    rw [hb0]
  have hst2 : stateAt (poissonBody a) (some ⟨fun _ => 0, 1⟩) 2 = none := by
    show (poissonBody a 1 (stateAt (poissonBody a) (some ⟨fun _ => 0, 1⟩) 1)).1 = _
    rw [hst1, hb1]
  have hsp0 : stopAt (poissonBody a) (some ⟨fun _ => 0, 1⟩) 0 = false := by
    show (poissonBody a 0 (some ⟨fun _ => 0, 1⟩)).2.2 = _
    rw [hb0]
  have hsp1 : stopAt (poissonBody a) (some ⟨fun _ => 0, 1⟩) 1 = true := by
    show (poissonBody a 1 (stateAt (poissonBody a) (some ⟨fun _ => 0, 1⟩) 1)).2.2 = _
    rw [hst1, hb1]
  have hrun : (runLoop (poissonBody a) 100 (some ⟨fun _ => 0, 1⟩)).state = none := by
    rcases runLoop_spec (poissonBody a) 100 (some ⟨fun _ => 0, 1⟩) with ⟨j, hj, hno, hsj, hrun⟩ | ⟨hno, -⟩
    · have hj1 : j = 1 := by
        rcases lt_trichotomy j 1 with h | h | h
        · have : j = 0 := by omega
          rw [this, hsp0] at hsj
          exact absurd hsj (by simp)
        · exact h
        · have := hno 1 h
          rw [hsp1] at this
          exact absurd this (by simp)
      rw [hrun, hj1]
      exact hst2
    · have := hno 1 (by norm_num)
      rw [hsp1] at this
      exact absurd this (by simp)
  have hrun' : (runLoop (poissonBody a) a.maxIter (some ⟨fun _ => 0, a.gamma⟩)).state = none := hrun
  unfold poissonFitNode
  simp only [hrun']

instance otherUnique : Unique {k : Fin 2 // k ≠ 1} where
  default := ⟨0, by decide⟩
  uniq := fun ⟨k, hk⟩ => Subtype.ext (by
    show k = 0
    omega)

/-- The data of the counterexample: at every time every sample is `(1, 0)`. -/
def oneZero (k m : ℕ) : Fin k → Fin m → Fin 2 → ℝ := fun _ _ j => if j = 0 then 1 else 0

/-- **C190** is false: on constant counts with as few as two variables the fit never returns, for every `alpha` up to
1/4 (the default is 1/100), every kernel, penalty, tolerance and `max_iter`, once `rho` times the number of times
is at least twice the number of samples per time. The line search of the neighbourhood fits compares losses without the
coupling term that its direction contains. -/
theorem C190_returns_false (g : TimePairs k E) (a : TGArgs k E (Fin 2)) (hm : 1 ≤ m) (ha0 : 0 ≤ a.alpha)
    (ha : a.alpha ≤ 1 / 4) {rho : ℝ} (hr : 2 * (m : ℝ) ≤ rho * k) {N : ℕ} (hN : 1 ≤ N) :
    fitTimePoisson g (oneZero k m) a rho N = none := by
  have hk : 0 < k := by
    rcases Nat.eq_zero_or_pos k with rfl | h
    · have : (1 : ℝ) ≤ m := by exact_mod_cast hm
      rw [Nat.cast_zero, mul_zero] at hr
      linarith
    · exact h
  have hA : ∀ t, tgA g (tgInit rho : TGState k E (Fin 2)) t = 0 := by
    intro t
    ext i j
    unfold tgA tgInit symmetrize Model.scatter
    simp
  have hnode : poissonFitNode (poissonTimeNode (oneZero k m ⟨0, hk⟩) a.alpha a.tol k rho
      (0 : Matrix (Fin 2) (Fin 2) ℝ) 1) = none := by
    have e : poissonTimeNode (oneZero k m ⟨0, hk⟩) a.alpha a.tol k rho (0 : Matrix (Fin 2) (Fin 2) ℝ) 1 =
        ⟨fun _ _ => 1, fun _ => 0, a.alpha, 1, a.tol, 100, 1 / 2, some fun _ => 0, k, rho⟩ := by
      unfold poissonTimeNode oneZero
      congr 1
      funext i j
      rw [if_pos]
      have := j.2
      omega
    rw [e]
    exact node_blocked hm ha0 ha hr
  have hb : timePoissonBody g (oneZero k m) a 0 (some (tgInit rho)) = (none, none, true) := by
    unfold timePoissonBody
    simp only
    rw [if_neg]
    intro hall
    have h1 := hall ⟨0, hk⟩
    rw [hA] at h1
    unfold poissonTimeInner at h1
    rw [if_neg] at h1
    · exact absurd h1 (by simp)
    · intro h2
      have := h2 1
      rw [show (tgInit rho : TGState k E (Fin 2)).rho = rho from rfl, hnode] at this
      exact absurd this (by simp)
  have hst : stopAt (timePoissonBody g (oneZero k m) a) (some (tgInit rho)) 0 = true := by
    show (timePoissonBody g (oneZero k m) a 0 (some (tgInit rho))).2.2 = true
    rw [hb]
  unfold fitTimePoisson
  rcases runLoop_spec (timePoissonBody g (oneZero k m) a) N (some (tgInit rho)) with ⟨j, hj, hno, -, hrun⟩ | ⟨hno, -⟩
  · have hj0 : j = 0 := by
      by_contra hc
      have := hno 0 (by omega)
      rw [hst] at this
      exact absurd this (by simp)
    have e : stateAt (timePoissonBody g (oneZero k m) a) (some (tgInit rho)) (0 + 1) = none := by
      show (timePoissonBody g (oneZero k m) a 0 (some (tgInit rho))).1 = none
      rw [hb]
    rw [hrun, hj0]
    simp only [e, Option.map_none]
  · have := hno 0 (by omega)
    rw [hst] at this
    exact absurd this (by simp)

/-- Non-vacuity for C190: the default `alpha` and `rho = 1`, ten times with five samples each; the l1 penalty keeps
matrices without edges. -/
example (a : TGArgs 10 (PairIdx 10) (Fin 2)) (ha : a.alpha = 1 / 100) :
    fitTimePoisson (allPairs 10) (oneZero 10 5) a 1 100 = none :=
  C190_returns_false _ a (by norm_num) (by rw [ha]; norm_num) (by rw [ha]; norm_num) (by norm_num) (by norm_num)

example (M : Matrix (Fin d) (Fin d) ℝ) (lam : ℝ) (h : DiagOnly M) : DiagOnly (softThresholdingMat M lam) ∧
    DiagOnly (proxLaplacianMat M lam) := by
  constructor
  · intro i j hij
    simp only [softThresholdingMat, h i j hij]
    unfold softScalar npSign
    simp
  · intro i j hij
    simp [proxLaplacianMat, h i j hij]

/-- Non-vacuity for `C190_empty_partial`: the data above with `alpha = 1`. -/
example (t : Fin 3) (r k : Fin 2) (hk : k ≠ r) :
    |1 / ((4 : ℕ) : ℝ) * ∑ i, oneZero 3 4 t i k * (oneZero 3 4 t i r - 1)| ≤ 1 := by
  unfold oneZero
  fin_cases r <;> fin_cases k <;> simp at hk ⊢

end Verif.Props
