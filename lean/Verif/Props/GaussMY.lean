import Verif.Model.Gaussian
import Verif.Props.PosDefUtils

/-! Property theorem C105: the Meinshausen-Yuan generator. -/

namespace Verif.Props

open Verif.Model Verif.Lemmas Matrix

set_option autoImplicit false
set_option linter.unusedSectionVars false

variable {p : ℕ}

theorem setCross_isSymm {theta : Matrix (Fin p) (Fin p) ℝ} (h : theta.IsSymm) (i : Fin p) (ixs : List (Fin p))
    (v : ℝ) : (setCross theta i ixs v).IsSymm := by
  ext a b
  simp only [transpose_apply, setCross, of_apply, h.apply a b]
  congr 1
  rw [or_comm]

theorem setCross_mem {theta : Matrix (Fin p) (Fin p) ℝ} {v : ℝ} (h : ∀ a b, theta a b = 0 ∨ theta a b = v)
    (i : Fin p) (ixs : List (Fin p)) (a b : Fin p) :
    setCross theta i ixs v a b = 0 ∨ setCross theta i ixs v a b = v := by
  simp only [setCross, of_apply]
  split
  · exact .inr rfl
  · exact h a b

theorem setCross_zero (theta : Matrix (Fin p) (Fin p) ℝ) (i : Fin p) (ixs : List (Fin p)) (a b : Fin p) :
    setCross theta i ixs 0 a b = 0 ∨ setCross theta i ixs 0 a b = theta a b := by
  simp only [setCross, of_apply]
  split
  · exact .inl rfl
  · exact .inr rfl

/-- An invariant of a left fold. -/
theorem foldl_inv {α β : Type*} (P : α → Prop) (f : α → β → α) (l : List β) (a : α) (h0 : P a)
    (hs : ∀ a b, b ∈ l → P a → P (f a b)) : P (l.foldl f a) := by
  induction l generalizing a with
  | nil => exact h0
  | cons b l ih =>
      exact ih (f a b) (hs a b (by simp) h0) fun a b' hb => hs a b' (by simp [hb])

theorem rowCount_le_of {A B : Matrix (Fin p) (Fin p) ℝ} (h : ∀ a b, B a b = 0 ∨ B a b = A a b) (t : Fin p) :
    rowCount B t ≤ rowCount A t := by
  classical
  unfold rowCount
  refine Finset.card_le_card fun j hj => ?_
  simp only [Finset.mem_filter, Finset.mem_univ, true_and] at hj ⊢
  rcases h t j with e | e
  · exact absurd e hj
  · rwa [← e]

theorem myTrim_rowCount (shuffle : Fin p → List (Fin p) → List (Fin p)) (hs : ∀ t l, (shuffle t l).Perm l)
    (theta : Matrix (Fin p) (Fin p) ℝ) (t : Fin p) : rowCount (myTrim shuffle theta t) t ≤ 4 := by
  classical
  set ed := shuffle t (rowEdges theta t) with hed
  have hsub : (Finset.univ.filter fun j => myTrim shuffle theta t t j ≠ 0) ⊆
      (ed.drop (ed.length - 4)).toFinset := by
    intro j hj
    simp only [Finset.mem_filter, Finset.mem_univ, true_and] at hj
    have hj1 : j ∉ allButLast4 ed := by
      intro hc
      apply hj
      unfold myTrim setCross
      rw [of_apply]
      exact if_pos (.inl ⟨rfl, hc⟩)
    have hj2 : theta t j ≠ 0 := by
      intro hc
      apply hj
      rcases setCross_zero theta t (allButLast4 ed) t j with e | e
      · exact e
      · exact e.trans hc
    have hmem : j ∈ ed := (hs t _).mem_iff.mpr (by simp [rowEdges, hj2])
    rw [← List.take_append_drop (ed.length - 4) ed, List.mem_append] at hmem
    rcases hmem with h | h
    · exact absurd h hj1
    · simpa using h
  calc rowCount (myTrim shuffle theta t) t
      ≤ (ed.drop (ed.length - 4)).toFinset.card := by unfold rowCount; convert Finset.card_le_card hsub
    _ ≤ (ed.drop (ed.length - 4)).length := List.toFinset_card_le _
    _ ≤ 4 := by rw [List.length_drop]; omega

/-- What the two loops of `_theta_my` guarantee. -/
theorem thetaMy_loops (value : ℝ) (order : Fin p → List (Fin p))
    (shuffle : Fin p → List (Fin p) → List (Fin p)) (hs : ∀ t l, (shuffle t l).Perm l) (L : List (Fin p))
    (theta : Matrix (Fin p) (Fin p) ℝ) (hth : theta = (List.finRange p).foldl (myRow value order) 0)
    (hL : ∀ t, t ∉ L → rowCount theta t ≤ 4) :
    (L.foldl (myTrim shuffle) theta).IsSymm ∧
    (∀ a b, L.foldl (myTrim shuffle) theta a b = 0 ∨ L.foldl (myTrim shuffle) theta a b = value) ∧
    ∀ t, rowCount (L.foldl (myTrim shuffle) theta) t ≤ 4 := by
  have h1 : theta.IsSymm ∧ ∀ a b, theta a b = 0 ∨ theta a b = value := by
    rw [hth]
    refine foldl_inv (fun A : Matrix (Fin p) (Fin p) ℝ => A.IsSymm ∧ ∀ a b, A a b = 0 ∨ A a b = value) _ _ _
      ⟨isSymm_zero, fun a b => .inl rfl⟩ ?_
    rintro A i - ⟨h, h'⟩
    exact ⟨setCross_isSymm h _ _ _, setCross_mem h' _ _⟩
  clear hth
  obtain ⟨h1, h2⟩ := h1
  induction L generalizing theta with
  | nil => exact ⟨h1, h2, fun t => hL t (by simp)⟩
  | cons t L ih =>
      rw [List.foldl_cons]
      refine ih (myTrim shuffle theta t) ?_ (setCross_isSymm h1 _ _ _) ?_
      · intro t' ht'
        by_cases e : t' = t
        · subst e; exact myTrim_rowCount shuffle hs theta t'
        · exact (rowCount_le_of (fun a b => setCross_zero theta t _ a b) t').trans
            (hL t' (by simp [e, ht']))
      · intro a b
        rcases setCross_zero theta t (allButLast4 (shuffle t (rowEdges theta t))) a b with e | e
        · exact .inl e
        · rcases h2 a b with e' | e'
          · exact .inl (e.trans e')
          · exact .inr (e.trans e')

/-- A matrix with entries `0` or `v` and at most four nonzero entries in row `i` has absolute row sum at most
`4 |v|`. -/
theorem row_abs_sum_le {A : Matrix (Fin p) (Fin p) ℝ} {v : ℝ} (h : ∀ a b, A a b = 0 ∨ A a b = v) (i : Fin p)
    (hc : rowCount A i ≤ 4) : ∑ j, |A i j| ≤ 4 * |v| := by
  classical
  calc ∑ j, |A i j| ≤ ∑ j, if A i j ≠ 0 then |v| else 0 := by
        refine Finset.sum_le_sum fun j _ => ?_
        rcases h i j with e | e
        · simp [e]
        · by_cases h0 : A i j = 0
          · simp [h0]
          · rw [if_pos h0, e]
    _ = (rowCount A i : ℝ) * |v| := by
        rw [Finset.sum_ite, Finset.sum_const, Finset.sum_const_zero, add_zero, nsmul_eq_mul]
        unfold rowCount
        congr!
    _ ≤ 4 * |v| := mul_le_mul_of_nonneg_right (by exact_mod_cast hc) (abs_nonneg v)

theorem thetaMy_spec (value : ℝ) (hv : 4 * |value| < 1) (order : Fin p → List (Fin p))
    (shuffle : Fin p → List (Fin p) → List (Fin p)) (hs : ∀ t l, (shuffle t l).Perm l) :
    ∃ theta, thetaMy value order shuffle = some theta ∧ theta.PosDef ∧ (∀ i, theta i i = 1) ∧
      (∀ i j, i ≠ j → theta i j = 0 ∨ theta i j = value) ∧
      ∀ i, (∑ j, if i = j then 0 else |theta i j|) ≤ 4 * |value| := by
  classical
  set th0 : Matrix (Fin p) (Fin p) ℝ := (List.finRange p).foldl (myRow value order) 0 with hth0
  set rem := (List.finRange p).filter fun t => 4 < rowCount th0 t with hrem
  obtain ⟨h1, h2, h3⟩ := thetaMy_loops value order shuffle hs rem th0 hth0 (by
    intro t ht
    by_contra hc
    exact ht (by simp [hrem]; omega))
  set B := rem.foldl (myTrim shuffle) th0 with hB
  set theta := fillDiagonal B (fun _ => 1) with hth
  have hoff : ∀ i j, i ≠ j → theta i j = B i j := fun i j hij => by simp [hth, fillDiagonal, hij]
  have hdiag : ∀ i, theta i i = 1 := fun i => by simp [hth, fillDiagonal]
  have hsym : theta.IsSymm := by
    ext i j
    rw [transpose_apply]
    by_cases e : i = j
    · rw [e]
    · rw [hoff i j e, hoff j i (Ne.symm e), h1.apply]
  have hrow : ∀ i, (∑ j, if i = j then 0 else |theta i j|) ≤ 4 * |value| := by
    intro i
    refine le_trans (Finset.sum_le_sum fun j _ => ?_) (row_abs_sum_le h2 i (h3 i))
    by_cases e : i = j
    · rw [if_pos e]; exact abs_nonneg _
    · rw [if_neg e, hoff i j e]
  have hpd : theta.PosDef := posDef_of_dominant hsym (c := 1 - 4 * |value|) (by linarith) fun i => by
    rw [hdiag]; linarith [hrow i]
  refine ⟨theta, ?_, hpd, hdiag, fun i j hij => by rw [hoff i j hij]; exact h2 i j, hrow⟩
  unfold thetaMy
  change (if isPosDef theta = true then some theta else none) = some theta
  rw [if_pos (by simp [isPosDef, hpd])]

/-- C105: `_theta_my` never fails its own assertion, for every ranking of the neighbours and every shuffle: the
graph it returns is symmetric positive definite with unit diagonal, every off-diagonal entry is `0` or `value`
and no row has more than four of them. The hypothesis on `value` holds for the default `0.245`. -/
theorem C105_precision (value : ℝ) (h0 : 0 < value) (hv : value < 1 / 4) (order : Fin p → List (Fin p))
    (shuffle : Fin p → List (Fin p) → List (Fin p)) (hs : ∀ t l, (shuffle t l).Perm l) :
    ∃ theta, thetaMy value order shuffle = some theta ∧ theta.PosDef ∧ (∀ i, theta i i = 1) ∧
      (∀ i j, i ≠ j → theta i j = 0 ∨ theta i j = value) ∧
      ∀ i, (Finset.univ.filter fun j => i ≠ j ∧ theta i j = value).card ≤ 4 := by
  obtain ⟨theta, h1, h2, h3, h4, h5⟩ := thetaMy_spec value (by rw [abs_of_pos h0]; linarith) order shuffle hs
  refine ⟨theta, h1, h2, h3, h4, fun i => ?_⟩
  have e : (∑ j, if i = j then 0 else |theta i j|) =
      ((Finset.univ.filter fun j => i ≠ j ∧ theta i j = value).card : ℝ) * value := by
    rw [← nsmul_eq_mul, ← Finset.sum_const, Finset.sum_filter]
    refine Finset.sum_congr rfl fun j _ => ?_
    by_cases hij : i = j
    · simp [hij]
    · rcases h4 i j hij with e | e
      · rw [if_neg hij, e, abs_zero, if_neg (fun h => h0.ne h.2)]
      · rw [if_neg hij, e, abs_of_pos h0, if_pos ⟨hij, rfl⟩]
  have h6 := h5 i
  rw [e, abs_of_pos h0] at h6
  have := le_of_mul_le_mul_right h6 h0
  exact_mod_cast this

/-- Quadratic form of a matrix with unit diagonal, nonnegative off-diagonal entries and row sums at most
`0.98`, against the positive and the negative part of the vector. -/
theorem my_quad_lower {theta : Matrix (Fin p) (Fin p) ℝ} (hs : theta.IsSymm) (hd : ∀ i, theta i i = 1)
    (hnn : ∀ i j, i ≠ j → 0 ≤ theta i j) (hrow : ∀ i, (∑ j, if i = j then 0 else |theta i j|) ≤ 0.98)
    (x : Fin p → ℝ) : 0.0396 * ∑ i, max (x i) 0 ^ 2 ≤ ∑ i, ∑ j, x i * theta i j * x j := by
  set B : Fin p → Fin p → ℝ := fun i j => if i = j then 0 else |theta i j| with hB
  have hB0 : ∀ i j, 0 ≤ B i j := fun i j => by simp only [hB]; split <;> simp
  have hBs : ∀ i j, B i j = B j i := fun i j => by
    simp only [hB]
    by_cases e : i = j
    · simp [e]
    · rw [if_neg e, if_neg (Ne.symm e), hs.apply]
  -- entrywise bound
  have hterm : ∀ i j, (if i = j then x i ^ 2 else 0)
      - B i j * ((0.98 * max (x i) 0 ^ 2 + max (-x j) 0 ^ 2 / 0.98) / 2
        + (0.98 * max (x j) 0 ^ 2 + max (-x i) 0 ^ 2 / 0.98) / 2) ≤ x i * theta i j * x j := by
    intro i j
    by_cases e : i = j
    · subst e
      rw [if_pos rfl, hd]
      have : B i i = 0 := by simp [hB]
      rw [this]; apply le_of_eq; ring
    · rw [if_neg e]
      have hBt : B i j = theta i j := by simp only [hB]; rw [if_neg e, abs_of_nonneg (hnn i j e)]
      rw [← hBt]
      have key : -((0.98 * max (x i) 0 ^ 2 + max (-x j) 0 ^ 2 / 0.98) / 2
        + (0.98 * max (x j) 0 ^ 2 + max (-x i) 0 ^ 2 / 0.98) / 2) ≤ x i * x j := by
        have e1 : x i = max (x i) 0 - max (-x i) 0 := by
          rcases le_total 0 (x i) with h | h
          · rw [max_eq_left h, max_eq_right (by linarith)]; ring
          · rw [max_eq_right h, max_eq_left (by linarith)]; ring
        have e2 : x j = max (x j) 0 - max (-x j) 0 := by
          rcases le_total 0 (x j) with h | h
          · rw [max_eq_left h, max_eq_right (by linarith)]; ring
          · rw [max_eq_right h, max_eq_left (by linarith)]; ring
        have a1 : 0 ≤ max (x i) 0 := le_max_right _ _
        have a2 : 0 ≤ max (-x i) 0 := le_max_right _ _
        have a3 : 0 ≤ max (x j) 0 := le_max_right _ _
        have a4 : 0 ≤ max (-x j) 0 := le_max_right _ _
        generalize max (x i) 0 = u at *
        generalize max (-x i) 0 = v at *
        generalize max (x j) 0 = s at *
        generalize max (-x j) 0 = t at *
        rw [e1, e2]
        have q1 : u * t ≤ (0.98 * u ^ 2 + t ^ 2 / 0.98) / 2 := by
          have := sq_nonneg (0.98 * u - t)
          norm_num at this ⊢
          nlinarith
        have q2 : s * v ≤ (0.98 * s ^ 2 + v ^ 2 / 0.98) / 2 := by
          have := sq_nonneg (0.98 * s - v)
          norm_num at this ⊢
          nlinarith
        have q3 := mul_nonneg a1 a3
        have q4 := mul_nonneg a2 a4
        nlinarith
      have := mul_le_mul_of_nonneg_left key (hB0 i j)
      nlinarith
  refine le_trans ?_ (Finset.sum_le_sum fun i _ => Finset.sum_le_sum fun j _ => hterm i j)
  -- sum the bound
  have hsplit : (∑ i, ∑ j, ((if i = j then x i ^ 2 else 0)
      - B i j * ((0.98 * max (x i) 0 ^ 2 + max (-x j) 0 ^ 2 / 0.98) / 2
        + (0.98 * max (x j) 0 ^ 2 + max (-x i) 0 ^ 2 / 0.98) / 2))) =
      (∑ i, x i ^ 2) - ∑ i, (∑ j, B i j) * (0.98 * max (x i) 0 ^ 2 + max (-x i) 0 ^ 2 / 0.98) := by
    have hsw : ∀ f : Fin p → ℝ, ∑ i, ∑ j, B i j * f j = ∑ i, ∑ j, B i j * f i := fun f => by
      rw [Finset.sum_comm]
      exact Finset.sum_congr rfl fun i _ => Finset.sum_congr rfl fun j _ => by rw [hBs i j]
    have hA := hsw fun i => max (-x i) 0 ^ 2 / 0.98 / 2
    have hC := hsw fun i => 0.98 * max (x i) 0 ^ 2 / 2
    simp only [Finset.sum_sub_distrib, Finset.sum_ite_eq, Finset.mem_univ, if_true]
    congr 1
    have : ∀ i j, B i j * ((0.98 * max (x i) 0 ^ 2 + max (-x j) 0 ^ 2 / 0.98) / 2
        + (0.98 * max (x j) 0 ^ 2 + max (-x i) 0 ^ 2 / 0.98) / 2) =
        B i j * (0.98 * max (x i) 0 ^ 2 / 2) + B i j * (max (-x i) 0 ^ 2 / 0.98 / 2)
        + B i j * (0.98 * max (x j) 0 ^ 2 / 2) + B i j * (max (-x j) 0 ^ 2 / 0.98 / 2) := fun i j => by ring
    simp only [this, Finset.sum_add_distrib]
    rw [hA, hC]
    simp only [← Finset.sum_mul, ← Finset.sum_add_distrib]
    refine Finset.sum_congr rfl fun i _ => ?_
    ring
  rw [hsplit, Finset.mul_sum, ← Finset.sum_sub_distrib]
  refine Finset.sum_le_sum fun i _ => ?_
  have hr : (∑ j, B i j) ≤ 0.98 := hrow i
  have hx : x i ^ 2 = max (x i) 0 ^ 2 + max (-x i) 0 ^ 2 := by
    rcases le_total 0 (x i) with h | h
    · rw [max_eq_left h, max_eq_right (by linarith)]; ring
    · rw [max_eq_right h, max_eq_left (by linarith)]; ring
  have h1 : 0 ≤ max (x i) 0 ^ 2 := sq_nonneg _
  have h2 : 0 ≤ max (-x i) 0 ^ 2 := sq_nonneg _
  have h3 : (∑ j, B i j) * (0.98 * max (x i) 0 ^ 2 + max (-x i) 0 ^ 2 / 0.98) ≤
      0.98 * (0.98 * max (x i) 0 ^ 2 + max (-x i) 0 ^ 2 / 0.98) :=
    mul_le_mul_of_nonneg_right hr (by positivity)
  rw [hx]
  norm_num at h3 ⊢
  nlinarith

/-- Squared product with a vector of `[0, 0.01)` against the larger one of the two parts. -/
theorem my_latent_row {l x : Fin p → ℝ} (hl : ∀ j, 0 ≤ l j ∧ l j < 0.01) {M : ℝ}
    (h1 : ∑ i, max (x i) 0 ^ 2 ≤ M) (h2 : ∑ i, max (-x i) 0 ^ 2 ≤ M) (hM : 0 < M) (hp : 0 < p) :
    (∑ j, l j * x j) ^ 2 < (p : ℝ) * 0.0001 * M := by
  have hbound : ∀ y : Fin p → ℝ, (∀ j, 0 ≤ y j) → ∑ j, y j ^ 2 ≤ M → (∑ j, l j * y j) ^ 2 < (p : ℝ) * 0.0001 * M := by
    intro y _ hyM
    have hcs := Finset.sum_mul_sq_le_sq_mul_sq Finset.univ l y
    have hl2 : ∑ j, l j ^ 2 < (p : ℝ) * 0.0001 := by
      have : (p : ℝ) * 0.0001 = ∑ _j : Fin p, (0.0001 : ℝ) := by simp
      rw [this]
      refine Finset.sum_lt_sum_of_nonempty ⟨⟨0, hp⟩, Finset.mem_univ _⟩ fun j _ => ?_
      have := hl j
      norm_num at this ⊢
      nlinarith [this.1, this.2]
    have h0 : 0 ≤ ∑ j, l j ^ 2 := Finset.sum_nonneg fun j _ => sq_nonneg _
    calc (∑ j, l j * y j) ^ 2 ≤ (∑ j, l j ^ 2) * ∑ j, y j ^ 2 := hcs
      _ ≤ (∑ j, l j ^ 2) * M := mul_le_mul_of_nonneg_left hyM h0
      _ < (p : ℝ) * 0.0001 * M := mul_lt_mul_of_pos_right hl2 hM
  have hP := hbound (fun j => max (x j) 0) (fun j => le_max_right _ _) h1
  have hN := hbound (fun j => max (-x j) 0) (fun j => le_max_right _ _) h2
  have up : ∑ j, l j * x j ≤ ∑ j, l j * max (x j) 0 :=
    Finset.sum_le_sum fun j _ => mul_le_mul_of_nonneg_left (le_max_left _ _) (hl j).1
  have lo : -(∑ j, l j * max (-x j) 0) ≤ ∑ j, l j * x j := by
    rw [← Finset.sum_neg_distrib]
    refine Finset.sum_le_sum fun j _ => ?_
    rw [← mul_neg]
    exact mul_le_mul_of_nonneg_left (by linarith [le_max_left (-x j) 0]) (hl j).1
  rcases le_total 0 (∑ j, l j * x j) with h | h
  · exact lt_of_le_of_lt (by nlinarith) hP
  · exact lt_of_le_of_lt (by nlinarith) hN

/-- C105: `data_Meinshausen_Yuan` never fails an assertion when the number of latent variables times the number
of variables is at most 396, which is exactly the case of the default arguments `p=198`, `h=2`: for every
draw, the observed precision `theta - latent.T latent` and its inverse are positive definite. -/
theorem C105_observed {h : ℕ} (hp : h * p ≤ 396) (latent : Matrix (Fin h) (Fin p) ℝ)
    (hl : ∀ i j, 0 ≤ latent i j ∧ latent i j < 0.01) (order : Fin p → List (Fin p))
    (shuffle : Fin p → List (Fin p) → List (Fin p)) (hs : ∀ t l, (shuffle t l).Perm l) :
    ∃ theta obs sigma, myTime latent order shuffle = some (theta, obs, sigma) ∧ theta.PosDef ∧
      obs = theta - latentᵀ * latent ∧ obs.PosDef ∧ sigma.PosDef ∧ obs * sigma = 1 := by
  obtain ⟨theta, t1, t2, t3, t4, t5⟩ := thetaMy_spec (p := p) 0.245
    (by rw [abs_of_pos (by norm_num)]; norm_num) order shuffle hs
  have hsym := t2.isSymm'
  have hnn : ∀ i j, i ≠ j → 0 ≤ theta i j := fun i j hij => by
    rcases t4 i j hij with e | e <;> rw [e] <;> norm_num
  have hrow : ∀ i, (∑ j, if i = j then 0 else |theta i j|) ≤ 0.98 := fun i => by
    have := t5 i
    rw [abs_of_pos (by norm_num : (0 : ℝ) < 0.245)] at this
    linarith
  have hobs : (theta - latentᵀ * latent).PosDef := by
    have hLs : (latentᵀ * latent).IsSymm := by
      rw [IsSymm, transpose_mul, transpose_transpose]
    refine PosDef.of_dotProduct_mulVec_pos (isHermitian_of_isSymm (hsym.sub hLs)) fun x hx => ?_
    have hq : star x ⬝ᵥ ((theta - latentᵀ * latent) *ᵥ x) =
        (∑ i, ∑ j, x i * theta i j * x j) - ∑ k, (∑ j, latent k j * x j) ^ 2 := by
      rw [sub_mulVec, dotProduct_sub, star_trivial]
      congr 1
      · simp only [dotProduct, mulVec, Finset.mul_sum, mul_assoc]
      · rw [← mulVec_mulVec, dotProduct_mulVec, vecMul_transpose]
        simp only [dotProduct, mulVec, pow_two]
    rw [hq]
    have hpp : 0 < p := by
      rcases Nat.eq_zero_or_pos p with e | e
      · exfalso; subst e; exact hx (Subsingleton.elim _ _)
      · exact e
    set a := ∑ i, max (x i) 0 ^ 2 with ha
    set b := ∑ i, max (-x i) 0 ^ 2 with hb
    have hab : 0 < a + b := by
      obtain ⟨i, hi⟩ := Function.ne_iff.mp hx
      have hxi : x i ≠ 0 := hi
      rw [ha, hb, ← Finset.sum_add_distrib]
      refine Finset.sum_pos' (fun j _ => by positivity) ⟨i, Finset.mem_univ _, ?_⟩
      rcases lt_or_gt_of_ne hxi with h | h
      · have h0 : 0 < max (-x i) 0 := lt_max_of_lt_left (by linarith)
        positivity
      · have h0 : 0 < max (x i) 0 := lt_max_of_lt_left h
        positivity
    have hqa := my_quad_lower hsym t3 hnn hrow x
    have hqb := my_quad_lower hsym t3 hnn hrow (fun i => -x i)
    have hneg : (∑ i, ∑ j, -x i * theta i j * -x j) = ∑ i, ∑ j, x i * theta i j * x j :=
      Finset.sum_congr rfl fun i _ => Finset.sum_congr rfl fun j _ => by ring
    rw [hneg] at hqb
    have ha0 : 0 ≤ a := Finset.sum_nonneg fun i _ => sq_nonneg _
    have hb0 : 0 ≤ b := Finset.sum_nonneg fun i _ => sq_nonneg _
    have hM : 0 < max a b := by
      rcases lt_or_ge 0 a with h | h
      · exact lt_max_of_lt_left h
      · exact lt_max_of_lt_right (by linarith)
    have hqM : 0.0396 * max a b ≤ ∑ i, ∑ j, x i * theta i j * x j := by
      rcases le_total a b with h | h
      · rw [max_eq_right h]; exact hqb
      · rw [max_eq_left h]; exact hqa
    have hrows : ∀ k, (∑ j, latent k j * x j) ^ 2 < (p : ℝ) * 0.0001 * max a b := fun k =>
      my_latent_row (hl k) (le_max_left a b) (le_max_right a b) hM hpp
    rcases Nat.eq_zero_or_pos h with e | e
    · subst e
      have hz : ∑ k : Fin 0, (∑ j, latent k j * x j) ^ 2 = 0 := Fin.sum_univ_zero _
      rw [hz, sub_zero]
      have : 0 < 0.0396 * max a b := by positivity
      linarith
    · have hsum : ∑ k, (∑ j, latent k j * x j) ^ 2 < ∑ _k : Fin h, (p : ℝ) * 0.0001 * max a b :=
        Finset.sum_lt_sum_of_nonempty ⟨⟨0, e⟩, Finset.mem_univ _⟩ fun k _ => hrows k
      rw [Finset.sum_const, Finset.card_univ, Fintype.card_fin, nsmul_eq_mul] at hsum
      have hhp : (h : ℝ) * p ≤ 396 := by exact_mod_cast hp
      have : (h : ℝ) * ((p : ℝ) * 0.0001 * max a b) ≤ 0.0396 * max a b := by
        have := mul_le_mul_of_nonneg_right hhp (show (0 : ℝ) ≤ 0.0001 * max a b by positivity)
        norm_num at this ⊢
        nlinarith
      linarith
  refine ⟨theta, _, _, ?_, t2, rfl, hobs, hobs.inv,
    mul_nonsing_inv _ (isUnit_iff_ne_zero.mpr hobs.det_pos.ne')⟩
  unfold myTime
  rw [t1, Option.bind_some]
  have h1 : isPosDef (theta - latentᵀ * latent) = true := by simp [isPosDef, hobs]
  have h2 : isPosDef (theta - latentᵀ * latent)⁻¹ = true := by simp [isPosDef, hobs.inv]
  simp only [h1, h2, if_true]

/-- Non-vacuity for C105: default sizes, rankings that list every index, and the identity as shuffle. -/
example : ∃ (latent : Matrix (Fin 2) (Fin 198) ℝ) (shuffle : Fin 198 → List (Fin 198) → List (Fin 198)),
    2 * 198 ≤ 396 ∧ (∀ i j, 0 ≤ latent i j ∧ latent i j < 0.01) ∧ (∃ i j, latent i j ≠ 0) ∧
    (∀ t l, (shuffle t l).Perm l) ∧ (0 : ℝ) < 0.245 ∧ (0.245 : ℝ) < 1 / 4 :=
  ⟨Matrix.of fun _ _ => 0.005, fun _ l => l, by norm_num, fun _ _ => by norm_num,
    ⟨0, 0, by norm_num⟩, fun _ l => List.Perm.refl l, by norm_num, by norm_num⟩

end Verif.Props
