import Verif.Model.Bayes
import Mathlib.MeasureTheory.Measure.Lebesgue.Basic
import Mathlib.LinearAlgebra.Matrix.PosDef
import Mathlib.Algebra.Order.Star.Real
import Mathlib.Algebra.BigOperators.Fin
import Mathlib.Tactic.Linarith
import Mathlib.Tactic.Ring
import Mathlib.Tactic.FieldSimp
import Mathlib.Tactic.NormNum
import Mathlib.Tactic.FinCases

/-! Properties of the Bayesian samplers (C55, C56, C57, C86-C91). -/

namespace Verif.Props

open Verif.Model Matrix

set_option autoImplicit false
set_option linter.unusedSectionVars false

variable {ι σ : Type}

/-! ### C55 -/

theorem sliceProposal_zero (xx nu : ι → ℝ) : sliceProposal xx nu 0 = xx := by
  funext i; simp [sliceProposal]

theorem sliceLoop_ret (xx nu : ι → ℝ) (construct : (ι → ℝ) → σ) (lik : σ → ℝ) (hh : ℝ) (us : ℕ → ℝ) :
    ∀ (fuel k : ℕ) (phi pmin pmax : ℝ) (s : SliceState ι σ),
    sliceLoop xx nu construct lik hh us fuel k phi pmin pmax = .ret (some s) →
    ∃ a, s.xx = sliceProposal xx nu a ∧ s.V = construct s.xx ∧ s.loglik = some (lik s.V) ∧ hh < lik s.V := by
  intro fuel
  induction fuel with
  | zero => intro k phi pmin pmax s h; simp [sliceLoop] at h
  | succ fuel ih =>
      intro k phi pmin pmax s h
      unfold sliceLoop at h
      simp only at h
      split at h
      · rename_i hgt
        cases h
        exact ⟨phi, rfl, rfl, rfl, hgt⟩
      · split at h
        · exact ih _ _ _ _ s h
        · cases h

/-- Whatever the random numbers, the likelihood and the number of iterations, the returned state is the
original one, or a point of the ellipse whose log-likelihood exceeds the threshold and whose stored `V` and
log-likelihood are those of the point. -/
theorem C55_returned_state (st : SliceState ι σ) (nu : ι → ℝ) (construct : (ι → ℝ) → σ) (lik : σ → ℝ)
    (angleRange : ℝ) (maxIter : ℕ) (d : SliceDraws) (s : SliceState ι σ)
    (h : ellipticalSlice st nu construct lik angleRange maxIter d = .ret s) :
    s = st ∨ ∃ a : ℝ, (∀ i, s.xx i = st.xx i * Real.cos a + nu i * Real.sin a) ∧ s.V = construct s.xx ∧
      s.loglik = some (lik s.V) ∧ (1 / 1000) * Real.log d.u + st.loglik.getD (lik st.V) < lik s.V := by
  unfold ellipticalSlice at h
  simp only at h
  split at h
  · cases h
  · cases h; exact Or.inl rfl
  · rename_i s' hs'
    cases h
    obtain ⟨a, h1, h2, h3, h4⟩ := sliceLoop_ret _ _ _ _ _ _ _ _ _ _ _ _ hs'
    exact Or.inr ⟨a, fun i => by rw [h1]; rfl, h2, h3, h4⟩

/-- The first bracket contains 0 and the first angle, for draws in [0, 1]. -/
theorem C55_first_bracket (angleRange u1 u2 : ℝ) (h1 : 0 ≤ u1 ∧ u1 ≤ 1) (h2 : 0 ≤ u2 ∧ u2 ≤ 1) :
    let b := sliceBracket angleRange u1 u2
    b.2.1 ≤ 0 ∧ 0 ≤ b.2.2 ∧ b.2.1 ≤ b.1 ∧ b.1 ≤ b.2.2 := by
  have hpi := Real.pi_pos
  simp only [sliceBracket]
  split
  · simp only
    refine ⟨by nlinarith [h1.2], by have := h1.1; positivity, by linarith, le_refl _⟩
  · rename_i ha
    have ha := not_le.mp ha
    simp only
    refine ⟨by nlinarith [h1.1], by nlinarith [h1.2], by nlinarith [h2.1], by nlinarith [h2.2]⟩

/-- Every rejection shrinks the bracket: the new one lies inside the old one, still contains 0 and the next
angle, and the rejected angle is one of its ends. -/
theorem C55_shrinks (phi pmin pmax u : ℝ) (hu : 0 ≤ u ∧ u ≤ 1) (h0 : pmin ≤ 0 ∧ 0 ≤ pmax)
    (hphi : pmin ≤ phi ∧ phi ≤ pmax) (hne : phi ≠ 0) :
    ∃ phi' pmin' pmax', sliceShrink phi pmin pmax u = some (phi', pmin', pmax') ∧
      pmin ≤ pmin' ∧ pmin' ≤ 0 ∧ 0 ≤ pmax' ∧ pmax' ≤ pmax ∧ pmin' ≤ phi' ∧ phi' ≤ pmax' ∧
      (pmin' = phi ∨ pmax' = phi) := by
  unfold sliceShrink
  by_cases hp : phi > 0
  · rw [if_pos hp]
    refine ⟨_, _, _, rfl, le_refl _, h0.1, hp.le, hphi.2, ?_, ?_, Or.inr rfl⟩
    · nlinarith [hu.1, hphi.1]
    · nlinarith [hu.2, hphi.1]
  · have hn : phi < 0 := lt_of_le_of_ne (not_lt.mp hp) hne
    rw [if_neg hp, if_pos hn]
    refine ⟨_, _, _, rfl, hphi.1, hn.le, h0.2, le_refl _, ?_, ?_, Or.inl rfl⟩
    · nlinarith [hu.1, hphi.2]
    · nlinarith [hu.2, hphi.2]

theorem sliceLoop_no_error (xx nu : ι → ℝ) (construct : (ι → ℝ) → σ) (lik : σ → ℝ) (hh : ℝ) (us : ℕ → ℝ)
    (h0 : hh < lik (construct xx)) :
    ∀ (fuel k : ℕ) (phi pmin pmax : ℝ),
    sliceLoop xx nu construct lik hh us fuel k phi pmin pmax ≠ .runtimeError := by
  intro fuel
  induction fuel with
  | zero => intro k phi pmin pmax h; simp [sliceLoop] at h
  | succ fuel ih =>
      intro k phi pmin pmax h
      unfold sliceLoop at h
      simp only at h
      split at h
      · cases h
      · rename_i hgt
        split at h
        · exact ih _ _ _ _ h
        · rename_i hs
          unfold sliceShrink at hs
          have hphi : phi = 0 := by
            split at hs
            · cases hs
            · split at hs
              · cases hs
              · rename_i h1 h2
                exact le_antisymm (not_lt.mp h1) (not_lt.mp h2)
          rw [hphi, sliceProposal_zero] at hgt
          exact hgt h0

/-- From a consistent state (the stored `V` and log-likelihood are those of the point) and a slice draw
strictly between 0 and 1 the error branch is never reached. -/
theorem C55_never_raises (st : SliceState ι σ) (nu : ι → ℝ) (construct : (ι → ℝ) → σ) (lik : σ → ℝ)
    (angleRange : ℝ) (maxIter : ℕ) (d : SliceDraws) (hV : st.V = construct st.xx)
    (hl : ∀ l, st.loglik = some l → l = lik st.V) (hu : 0 < d.u ∧ d.u < 1) :
    ∃ s, ellipticalSlice st nu construct lik angleRange maxIter d = .ret s ∧ s.V = construct s.xx ∧
      (∀ l, s.loglik = some l → l = lik s.V) := by
  have hlog : Real.log d.u < 0 := Real.log_neg hu.1 hu.2
  have hstart : st.loglik.getD (lik st.V) = lik st.V := by
    cases h : st.loglik with
    | none => rfl
    | some l => exact hl l h
  have hth : sliceThreshold st lik d.u < lik (construct st.xx) := by
    unfold sliceThreshold; rw [hstart, hV]; linarith
  cases hr : ellipticalSlice st nu construct lik angleRange maxIter d with
  | ret s =>
      refine ⟨s, rfl, ?_, ?_⟩
      · rcases C55_returned_state _ _ _ _ _ _ _ _ hr with rfl | ⟨_, _, h2, _, _⟩
        · exact hV
        · exact h2
      · rcases C55_returned_state _ _ _ _ _ _ _ _ hr with rfl | ⟨_, _, _, h3, _⟩
        · exact hl
        · intro l hl'; rw [h3] at hl'; exact (Option.some.inj hl').symm
  | runtimeError =>
      exfalso
      unfold ellipticalSlice at hr
      simp only at hr
      split at hr
      · rename_i h; exact sliceLoop_no_error _ _ _ _ _ _ hth _ _ _ _ _ h
      · cases hr
      · cases hr

/-- A consistent state. -/
example : ∃ (st : SliceState (Fin 1) ℝ) (construct : (Fin 1 → ℝ) → ℝ) (lik : ℝ → ℝ),
    st.V = construct st.xx ∧ (∀ l, st.loglik = some l → l = lik st.V) ∧ st.loglik ≠ none :=
  ⟨⟨fun _ => 1, 1, some (-1)⟩, fun x => x 0, fun v => -v, rfl, by simp, by simp⟩

/-! ### C86: the slice threshold -/

/-- Probability (over the slice draw) that a point of log-likelihood `l'` passes the threshold from a state of
log-likelihood `l`: the likelihood ratio to the power 1000, cut at 1. -/
theorem C86_acceptance_partial (V : σ) (xx : ι → ℝ) (lik : σ → ℝ) (l l' : ℝ) :
    MeasureTheory.volume {u : ℝ | 0 < u ∧ u < 1 ∧ sliceThreshold (⟨xx, V, some l⟩ : SliceState ι σ) lik u < l'} =
      ENNReal.ofReal (min 1 (Real.exp (1000 * (l' - l)))) := by
  have : {u : ℝ | 0 < u ∧ u < 1 ∧ sliceThreshold (⟨xx, V, some l⟩ : SliceState ι σ) lik u < l'} =
      Set.Ioo 0 (min 1 (Real.exp (1000 * (l' - l)))) := by
    ext u
    simp only [Set.mem_ofPred_eq, Set.mem_Ioo, sliceThreshold, Option.getD_some, lt_min_iff]
    constructor
    · rintro ⟨h0, h1, h2⟩
      refine ⟨h0, h1, ?_⟩
      rw [← Real.log_lt_iff_lt_exp h0]
      linarith
    · rintro ⟨h0, h1, h2⟩
      refine ⟨h0, h1, ?_⟩
      rw [← Real.log_lt_iff_lt_exp h0] at h2
      linarith
  rw [this, Real.volume_Ioo, sub_zero]

/-- The probability is not the likelihood ratio that slice sampling of the likelihood requires: it differs for
every point less likely than the current one. -/
theorem C86_acceptance_false (V : σ) (xx : ι → ℝ) (lik : σ → ℝ) (l l' : ℝ) (h : l' < l) :
    MeasureTheory.volume {u : ℝ | 0 < u ∧ u < 1 ∧ sliceThreshold (⟨xx, V, some l⟩ : SliceState ι σ) lik u < l'} <
      ENNReal.ofReal (min 1 (Real.exp (l' - l))) := by
  rw [C86_acceptance_partial]
  have h1 : Real.exp (1000 * (l' - l)) < Real.exp (l' - l) := Real.exp_lt_exp.mpr (by linarith)
  have h2 : Real.exp (l' - l) < 1 := by
    rw [← Real.exp_zero]; exact Real.exp_lt_exp.mpr (by linarith)
  rw [min_eq_right h2.le, min_eq_right (h1.trans h2).le]
  exact (ENNReal.ofReal_lt_ofReal_iff (Real.exp_pos _)).mpr h1

example : (-2 : ℝ) < -1 := by norm_num

/-! ### C87: the chain of the Wishart process -/

theorem slice_multiple (st : SliceState ι σ) (u : ι → ℝ) (construct : (ι → ℝ) → σ) (lik : σ → ℝ)
    (r : ℝ) (m : ℕ) (d : SliceDraws) (s : SliceState ι σ)
    (h : ellipticalSlice st u construct lik r m d = .ret s) (hm : ∃ c : ℝ, ∀ i, st.xx i = c * u i) :
    ∃ c : ℝ, ∀ i, s.xx i = c * u i := by
  obtain ⟨c, hc⟩ := hm
  rcases C55_returned_state _ _ _ _ _ _ _ _ h with rfl | ⟨a, ha, _⟩
  · exact ⟨c, hc⟩
  · refine ⟨c * Real.cos a + Real.sin a, fun i => ?_⟩
    rw [ha i, hc i]; ring

/-- In every run, after every iteration, the state is a scalar multiple of the current Gaussian process
sample: the slice step uses that very sample as the second axis of the ellipse. -/
theorem C87_always_multiple_false (lik : σ → ℝ) (inps : List (WPInput ι σ)) :
    ∀ (s : WPState ι σ), (∃ c : ℝ, ∀ i, s.slice.xx i = c * s.umat i) →
    ∀ out, wpChain lik s inps = .ret out →
    ∀ t ∈ out, ∃ c : ℝ, ∀ i, t.slice.xx i = c * t.umat i := by
  induction inps with
  | nil => intro s _ out h; simp only [wpChain, SliceOut.ret.injEq] at h; subst h; simp
  | cons inp rest ih =>
      intro s hs out h
      unfold wpChain at h
      split at h
      · cases h
      · rename_i s' hs'
        split at h
        · cases h
        · rename_i l hl
          cases h
          have hmul : ∃ c : ℝ, ∀ i, s'.slice.xx i = c * s'.umat i := by
            unfold wpStep at hs'
            split at hs'
            · cases hs'
            · rename_i sl hsl
              split at hs'
              · cases hs'; exact ⟨1, fun i => by simp⟩
              · cases hs'
                have := slice_multiple _ _ _ _ _ _ _ _ hsl hs
                exact this
          intro t ht
          rcases List.mem_cons.mp ht with rfl | ht
          · exact hmul
          · exact ih s' hmul l hl t ht

/-- The start of the chain satisfies the hypothesis: the state is the sample itself. -/
example (umat : ι → ℝ) (V : σ) (l : ℝ) :
    ∃ c : ℝ, ∀ i, (⟨umat, ⟨umat, V, some l⟩⟩ : WPState ι σ).slice.xx i = c * umat i :=
  ⟨1, fun i => by simp⟩

/-! ### C91: the history of `L` -/

/-- All entries of the returned history are the last value, so `L` of the best sample is not available:
whenever some iteration had another value, the history differs from the values of the iterations. -/
theorem C91_history_false {α : Type} (init last : α) (updates : List α) :
    (∀ x ∈ wpHistory init (updates ++ [last]), x = last) ∧
      ((∃ x ∈ updates, x ≠ last) → wpHistory init (updates ++ [last]) ≠ updates ++ [last]) := by
  have h1 : ∀ x ∈ wpHistory init (updates ++ [last]), x = last := by
    intro x hx
    simp only [wpHistory, List.mem_map] at hx
    obtain ⟨_, _, rfl⟩ := hx
    simp
  refine ⟨h1, ?_⟩
  rintro ⟨x, hx, hne⟩ heq
  rw [heq] at h1
  exact hne (h1 x (by simp [hx]))

/-! ### C88: the log-likelihood of the data -/

/-- The function weighs every time by its number of samples. -/
theorem C88_weighted_partial {k : ℕ} (n : Fin k → ℕ) (lp : (t : Fin k) → Fin (n t) → ℝ) :
    tMvnLogpdf n lp = ∑ t, (n t : ℝ) * ∑ i, lp t i := by
  unfold tMvnLogpdf
  rw [Fin.sum_univ_def]
  have : ∀ (l : List (Fin k)) (c : ℝ), l.foldl (fun acc t => acc + (n t : ℝ) * ∑ i, lp t i) c =
      c + (l.map fun t => (n t : ℝ) * ∑ i, lp t i).sum := by
    intro l
    induction l with
    | nil => intro c; simp
    | cons a l ih => intro c; rw [List.foldl_cons, ih]; simp [add_assoc]
  rw [this, zero_add]

/-- It is not the log-density of the data: with two samples at one time it is twice that. -/
theorem C88_weighted_false :
    ∃ (n : Fin 1 → ℕ) (lp : (t : Fin 1) → Fin (n t) → ℝ), tMvnLogpdf n lp ≠ ∑ t, ∑ i, lp t i := by
  refine ⟨fun _ => 2, fun _ _ => 1, ?_⟩
  rw [C88_weighted_partial]
  simp

/-! ### C89: covariances are positive semidefinite -/

/-- `GWP_construct` returns symmetric positive semidefinite matrices for every input. -/
theorem C89_gwp_posSemidef {v p : ℕ} (U : Matrix (Fin v) (Fin p) ℝ) (L : Matrix (Fin p) (Fin p) ℝ) :
    (gwpConstruct U L).PosSemidef ∧ gwpConstruct U L = L * Uᵀ * U * Lᵀ := by
  have e : L * (Uᵀ * U) * Lᵀ = (U * Lᵀ)ᵀ * (U * Lᵀ) := by
    rw [Matrix.transpose_mul, Matrix.transpose_transpose]
    simp only [Matrix.mul_assoc]
  have h : gwpConstruct U L = (U * Lᵀ)ᵀ * (U * Lᵀ) := by
    unfold gwpConstruct
    rw [e, Matrix.transpose_mul, Matrix.transpose_transpose]
  constructor
  · rw [h]
    have := Matrix.posSemidef_conjTranspose_mul_self (U * Lᵀ)
    rwa [Matrix.conjTranspose_eq_transpose_of_trivial] at this
  · rw [h, ← e]; simp only [Matrix.mul_assoc]

/-! ### C90: Metropolis-Hastings acceptance -/

/-- The acceptance satisfies detailed balance with respect to the posterior, on the log scale. -/
theorem C90_detailed_balance {α : Type} (lp : α → ℝ) (lq : α → α → ℝ) (x y : α) :
    lp x + lq x y + mhLogAccept lp lq x y = lp y + lq y x + mhLogAccept lp lq y x := by
  unfold mhLogAccept
  rcases le_total 0 (lp y - lp x + lq y x - lq x y) with h | h
  · rw [min_eq_left h, min_eq_right (by linarith)]; ring
  · rw [min_eq_right h, min_eq_left (by linarith)]; ring

/-- The proposal is selected with the acceptance probability, over a uniform draw, and otherwise the current
value is kept. -/
theorem C90_selection {α : Type} (lp : α → ℝ) (lq : α → α → ℝ) (cur prop : α) :
    MeasureTheory.volume {u : ℝ | 0 < u ∧ u < 1 ∧ mhSelect lp lq cur prop u = (prop, true)} =
      ENNReal.ofReal (Real.exp (mhLogAccept lp lq cur prop)) ∧
    ∀ u, mhSelect lp lq cur prop u = (prop, true) ∨ mhSelect lp lq cur prop u = (cur, false) := by
  constructor
  · have hle : mhLogAccept lp lq cur prop ≤ 0 := min_le_left _ _
    have : {u : ℝ | 0 < u ∧ u < 1 ∧ mhSelect lp lq cur prop u = (prop, true)} =
        Set.Ioo 0 (Real.exp (mhLogAccept lp lq cur prop)) := by
      ext u
      simp only [Set.mem_ofPred_eq, Set.mem_Ioo, mhSelect]
      constructor
      · rintro ⟨h0, h1, h2⟩
        refine ⟨h0, ?_⟩
        split at h2
        · rename_i h; exact (Real.log_lt_iff_lt_exp h0).mp h
        · simp at h2
      · rintro ⟨h0, h2⟩
        refine ⟨h0, lt_of_lt_of_le h2 (Real.exp_le_one_iff.mpr hle), ?_⟩
        rw [if_pos ((Real.log_lt_iff_lt_exp h0).mpr h2)]
    rw [this, Real.volume_Ioo, sub_zero]
  · intro u
    unfold mhSelect
    split <;> simp

/-! ### C57 -/

/-- For a positive mean and variance, the returned parameters are those of the lognormal distribution with
that mean and variance. -/
theorem C57_lognstat (m v : ℝ) (hm : 0 < m) (hv : 0 < v) :
    Real.exp ((lognstat m v).1 + (lognstat m v).2 ^ 2 / 2) = m ∧
    (Real.exp ((lognstat m v).2 ^ 2) - 1) * Real.exp (2 * (lognstat m v).1 + (lognstat m v).2 ^ 2) = v ∧
    0 < (lognstat m v).2 := by
  have hm2 : 0 < m * m := by positivity
  have hr : 1 < v / (m * m) + 1 := by have : 0 < v / (m * m) := by positivity
                                      linarith
  have hs2 : (lognstat m v).2 ^ 2 = Real.log (v / (m * m) + 1) := by
    simp only [lognstat]
    exact Real.sq_sqrt (Real.log_nonneg hr.le)
  have hsq : 0 < Real.sqrt (v + m * m) := Real.sqrt_pos.mpr (by positivity)
  have he1 : Real.exp (lognstat m v).1 = m * m / Real.sqrt (v + m * m) := by
    simp only [lognstat]
    exact Real.exp_log (by positivity)
  have he2 : Real.exp ((lognstat m v).2 ^ 2) = v / (m * m) + 1 := by
    rw [hs2]; exact Real.exp_log (by linarith)
  have hhalf : Real.exp ((lognstat m v).2 ^ 2 / 2) = Real.sqrt (v + m * m) / m := by
    have h1 : Real.exp ((lognstat m v).2 ^ 2 / 2) ^ 2 = (Real.sqrt (v + m * m) / m) ^ 2 := by
      rw [← Real.exp_nat_mul, div_pow, Real.sq_sqrt (by positivity)]
      have : ((2 : ℕ) : ℝ) * ((lognstat m v).2 ^ 2 / 2) = (lognstat m v).2 ^ 2 := by push_cast; ring
      rw [this, he2]
      field_simp
    have h0 : 0 ≤ Real.sqrt (v + m * m) / m := by positivity
    exact (sq_eq_sq₀ (Real.exp_pos _).le h0).mp h1
  have hmean : Real.exp ((lognstat m v).1 + (lognstat m v).2 ^ 2 / 2) = m := by
    rw [Real.exp_add, he1, hhalf]
    field_simp
  refine ⟨hmean, ?_, ?_⟩
  · have : 2 * (lognstat m v).1 + (lognstat m v).2 ^ 2 =
        ((lognstat m v).1 + (lognstat m v).2 ^ 2 / 2) + ((lognstat m v).1 + (lognstat m v).2 ^ 2 / 2) := by ring
    rw [this, Real.exp_add, hmean, he2]
    field_simp
    ring
  · simp only [lognstat]
    exact Real.sqrt_pos.mpr (Real.log_pos hr)

example : (0 : ℝ) < 2 ∧ (0 : ℝ) < 3 := by norm_num

/-! ### C56 -/

theorem colMean_mul {n d : ℕ} (hn : n ≠ 0) (X : Matrix (Fin n) (Fin d) ℝ) (j : Fin d) :
    (n : ℝ) * colMean X j = ∑ i, X i j := by
  unfold colMean
  have : (n : ℝ) ≠ 0 := Nat.cast_ne_zero.mpr hn
  field_simp

/-- Stacking two data matrices. -/
def stackRows {n m d : ℕ} (X : Matrix (Fin n) (Fin d) ℝ) (Y : Matrix (Fin m) (Fin d) ℝ) :
    Matrix (Fin (n + m)) (Fin d) ℝ := Matrix.of (Fin.append (fun i => X i) (fun i => Y i))

theorem stackRows_sum {n m d : ℕ} (X : Matrix (Fin n) (Fin d) ℝ) (Y : Matrix (Fin m) (Fin d) ℝ)
    (f : (Fin d → ℝ) → ℝ) : ∑ i, f (stackRows X Y i) = ∑ i, f (X i) + ∑ i, f (Y i) := by
  rw [Fin.sum_univ_add]
  congr 1
  · apply Finset.sum_congr rfl
    intro i _
    congr 1
    exact Fin.append_left (fun i => X i) (fun i => Y i) i
  · apply Finset.sum_congr rfl
    intro i _
    congr 1
    exact Fin.append_right (fun i => X i) (fun i => Y i) i

/-- Updating with one batch and then another gives the parameters of the posterior of the stacked data. -/
theorem C56_sequential {n m d : ℕ} (q : NIW d) (hk : 0 < q.kappa) (hn : n ≠ 0) (hm : m ≠ 0)
    (X : Matrix (Fin n) (Fin d) ℝ) (Y : Matrix (Fin m) (Fin d) ℝ) :
    (q.posterior X).posterior Y = q.posterior (stackRows X Y) := by
  have hnm : n + m ≠ 0 := by omega
  have k1 : 0 < q.kappa + n := by positivity
  have k2 : 0 < q.kappa + n + m := by positivity
  have hsum : ∀ j, ∑ i, stackRows X Y i j = ∑ i, X i j + ∑ i, Y i j :=
    fun j => stackRows_sum X Y (fun r => r j)
  have hmu : ((q.posterior X).posterior Y).mu = (q.posterior (stackRows X Y)).mu := by
    funext j
    simp only [NIW.posterior]
    rw [colMean_mul hm, colMean_mul hnm, colMean_mul hn, hsum j]
    push_cast
    field_simp
    ring
  have hka : ((q.posterior X).posterior Y).kappa = (q.posterior (stackRows X Y)).kappa := by
    simp only [NIW.posterior]; push_cast; ring
  have hnu : ((q.posterior X).posterior Y).nu = (q.posterior (stackRows X Y)).nu := by
    simp only [NIW.posterior]; push_cast; ring
  have hS : ((q.posterior X).posterior Y).S = (q.posterior (stackRows X Y)).S := by
    have e1 : ((q.posterior X).posterior Y).S = (q.posterior X).S + Yᵀ * Y +
        (q.posterior X).kappa • vecMulVec (q.posterior X).mu (q.posterior X).mu -
        ((q.posterior X).posterior Y).kappa • vecMulVec ((q.posterior X).posterior Y).mu
          ((q.posterior X).posterior Y).mu := rfl
    have e2 : (q.posterior (stackRows X Y)).S = q.S + (stackRows X Y)ᵀ * stackRows X Y +
        q.kappa • vecMulVec q.mu q.mu -
        (q.posterior (stackRows X Y)).kappa • vecMulVec (q.posterior (stackRows X Y)).mu
          (q.posterior (stackRows X Y)).mu := rfl
    have e3 : (q.posterior X).S = q.S + Xᵀ * X + q.kappa • vecMulVec q.mu q.mu -
        (q.posterior X).kappa • vecMulVec (q.posterior X).mu (q.posterior X).mu := rfl
    have hg : (stackRows X Y)ᵀ * stackRows X Y = Xᵀ * X + Yᵀ * Y := by
      ext a b
      simp only [Matrix.mul_apply, Matrix.transpose_apply, Matrix.add_apply]
      exact stackRows_sum X Y (fun r => r a * r b)
    rw [e1, e2, e3, hmu, hka, hg]
    abel
  calc (q.posterior X).posterior Y = ⟨((q.posterior X).posterior Y).mu, ((q.posterior X).posterior Y).kappa,
        ((q.posterior X).posterior Y).nu, ((q.posterior X).posterior Y).S⟩ := rfl
    _ = _ := by rw [hmu, hka, hnu, hS]

/-- So two batches can be processed in either order. -/
theorem C56_order {n m d : ℕ} (q : NIW d) (hk : 0 < q.kappa) (hn : n ≠ 0) (hm : m ≠ 0)
    (X : Matrix (Fin n) (Fin d) ℝ) (Y : Matrix (Fin m) (Fin d) ℝ) :
    (q.posterior X).posterior Y = (q.posterior Y).posterior X := by
  have hsw : ∀ f : (Fin d → ℝ) → ℝ, ∑ i, f (stackRows X Y i) = ∑ i, f (stackRows Y X i) := by
    intro f; rw [stackRows_sum, stackRows_sum]; ring
  rw [C56_sequential q hk hn hm, C56_sequential q hk hm hn]
  have hc : ((n + m : ℕ) : ℝ) = ((m + n : ℕ) : ℝ) := by rw [Nat.add_comm]
  have hmean : colMean (stackRows X Y) = colMean (stackRows Y X) := by
    funext j
    unfold colMean
    rw [hc, hsw (fun r => r j)]
  have hg : (stackRows X Y)ᵀ * stackRows X Y = (stackRows Y X)ᵀ * stackRows Y X := by
    ext a b
    simp only [Matrix.mul_apply, Matrix.transpose_apply]
    exact hsw (fun r => r a * r b)
  simp only [NIW.posterior, hmean, hg, hc]

/-- The posterior scale matrix is the textbook one: prior scale plus scatter about the sample mean plus
`kappa n / (kappa + n)` times the squared distance between the sample mean and the prior mean. In
particular it is positive definite when the prior scale is. -/
theorem C56_textbook {n d : ℕ} (q : NIW d) (hk : 0 < q.kappa) (hn : n ≠ 0) (X : Matrix (Fin n) (Fin d) ℝ) :
    (∀ a b, (q.posterior X).S a b = q.S a b + (∑ i, (X i a - colMean X a) * (X i b - colMean X b)) +
      q.kappa * n / (q.kappa + n) * ((colMean X a - q.mu a) * (colMean X b - q.mu b))) ∧
    (q.S.PosDef → (q.posterior X).S.PosDef) := by
  have hn0 : (n : ℝ) ≠ 0 := Nat.cast_ne_zero.mpr hn
  have k1 : 0 < q.kappa + n := by positivity
  have hent : ∀ a b, (q.posterior X).S a b = q.S a b +
      (∑ i, (X i a - colMean X a) * (X i b - colMean X b)) +
      q.kappa * n / (q.kappa + n) * ((colMean X a - q.mu a) * (colMean X b - q.mu b)) := by
    intro a b
    have hsc : (∑ i, (X i a - colMean X a) * (X i b - colMean X b)) =
        (∑ i, X i a * X i b) - n * (colMean X a * colMean X b) := by
      have : ∀ i, (X i a - colMean X a) * (X i b - colMean X b) =
          X i a * X i b - colMean X b * X i a - colMean X a * X i b + colMean X a * colMean X b := by
        intro i; ring
      simp only [this, Finset.sum_add_distrib, Finset.sum_sub_distrib, ← Finset.mul_sum,
        ← colMean_mul hn, Finset.sum_const, Finset.card_univ, Fintype.card_fin, nsmul_eq_mul]
      ring
    rw [hsc]
    simp only [NIW.posterior, Matrix.sub_apply, Matrix.add_apply, Matrix.smul_apply, vecMulVec_apply,
      smul_eq_mul, Matrix.mul_apply, Matrix.transpose_apply]
    field_simp
    ring
  refine ⟨hent, fun hS => ?_⟩
  have hmat : (q.posterior X).S = q.S + ((Matrix.of fun i a => X i a - colMean X a)ᵀ *
      (Matrix.of fun i a => X i a - colMean X a) +
      (q.kappa * n / (q.kappa + n)) • vecMulVec (fun a => colMean X a - q.mu a)
        (fun a => colMean X a - q.mu a)) := by
    ext a b
    rw [hent a b]
    simp only [Matrix.add_apply, Matrix.smul_apply, vecMulVec_apply, smul_eq_mul, Matrix.mul_apply,
      Matrix.transpose_apply, Matrix.of_apply]
    ring
  rw [hmat]
  apply hS.add_posSemidef
  apply Matrix.PosSemidef.add
  · have := Matrix.posSemidef_conjTranspose_mul_self (Matrix.of fun i a => X i a - colMean X a)
    rwa [Matrix.conjTranspose_eq_transpose_of_trivial] at this
  · have h1 := Matrix.posSemidef_vecMulVec_self_star (fun a => colMean X a - q.mu a)
    have h2 : (star fun a => colMean X a - q.mu a) = fun a => colMean X a - q.mu a := by
      funext a; simp
    rw [h2] at h1
    exact h1.smul (by positivity)

/-- A prior with positive kappa and data. -/
example : ∃ q : NIW 2, 0 < q.kappa ∧ q.S.PosDef ∧ (3 : ℕ) ≠ 0 :=
  ⟨⟨0, 1, 4, 1⟩, by norm_num, Matrix.PosDef.one, by norm_num⟩

end Verif.Props
