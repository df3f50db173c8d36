import Verif.Model.UtilsMore
import Verif.Lemmas.Spectral
import Verif.Props.ErrorNorm
import Verif.Props.PosDefUtils
import Mathlib.Analysis.SpecialFunctions.Log.Basic
import Mathlib.Order.Bounds.Basic
import Mathlib.Tactic.Positivity
import Mathlib.Tactic.FinCases

/-! Property theorems C135 – C140: remaining helpers of `regain/utils.py`. -/

set_option autoImplicit false
set_option linter.unusedSectionVars false

namespace Verif.Props

open Verif.Spec Verif.Model Verif.Lemmas Matrix

/-! ### C135 normalize_matrix -/

section normalize
variable {p : ℕ}

theorem invSqrtDiag_pos {x : Matrix (Fin p) (Fin p) ℝ} {i : Fin p} (h : 0 < x i i) :
    invSqrtDiag x i = .fin (1 / Real.sqrt (x i i)) := by
  have h1 : Real.sqrt (x i i) ≠ 0 := (Real.sqrt_pos.mpr h).ne'
  simp [invSqrtDiag, xfSqrt, h.le.not_gt, XF.div, h1]

/-- C135: with positive diagonal entries the array holds, after the call, finite numbers with ones on
the diagonal, from which the input is recovered by scaling row and column `i` with `√x_ii`. -/
theorem C135_value {x : Matrix (Fin p) (Fin p) ℝ} (hpos : ∀ i, 0 < x i i) :
    ∃ R : Matrix (Fin p) (Fin p) ℝ, (∀ i j, normalizeMatrix x i j = .fin (R i j)) ∧
      (∀ i, R i i = 1) ∧ ∀ i j, x i j = Real.sqrt (x i i) * R i j * Real.sqrt (x j j) := by
  refine ⟨fun i j => x i j * (1 / Real.sqrt (x j j)) * (1 / Real.sqrt (x i i)), ?_, ?_, ?_⟩
  · intro i j
    simp only [normalizeMatrix, invSqrtDiag_pos (hpos _), XF.mul]
  · intro i
    have h1 : Real.sqrt (x i i) ≠ 0 := (Real.sqrt_pos.mpr (hpos i)).ne'
    have h2 := Real.mul_self_sqrt (hpos i).le
    field_simp
    rw [sq, h2]
  · intro i j
    have h1 : Real.sqrt (x i i) ≠ 0 := (Real.sqrt_pos.mpr (hpos i)).ne'
    have h2 : Real.sqrt (x j j) ≠ 0 := (Real.sqrt_pos.mpr (hpos j)).ne'
    field_simp

example : ∀ i, 0 < (!![4, 2; 2, 9] : Matrix (Fin 2) (Fin 2) ℝ) i i := by
  intro i; fin_cases i <;> norm_num

/-- C135: the call leaves only finite numbers in the array exactly when the diagonal is positive; a zero
or negative variance leaves NaN at that position. -/
theorem C135_finite_iff (x : Matrix (Fin p) (Fin p) ℝ) :
    (∀ i j, (normalizeMatrix x i j).isFin) ↔ ∀ i, 0 < x i i := by
  constructor
  · intro h i
    by_contra hi
    have h1 := h i i
    rcases lt_or_eq_of_le (not_lt.mp hi) with hn | h0
    · simp [normalizeMatrix, invSqrtDiag, xfSqrt, hn, XF.div, XF.mul, XF.isFin] at h1
    · simp [normalizeMatrix, invSqrtDiag, xfSqrt, h0, XF.div, XF.mul, XF.isFin] at h1
  · intro h i j
    obtain ⟨R, hR, -⟩ := C135_value h
    rw [hR]; trivial

theorem normalize_entry {x : Matrix (Fin p) (Fin p) ℝ} (hpos : ∀ i, 0 < x i i) {R : Matrix (Fin p) (Fin p) ℝ}
    (hR : ∀ i j, normalizeMatrix x i j = .fin (R i j)) (i j : Fin p) :
    R i j = x i j / (Real.sqrt (x i i) * Real.sqrt (x j j)) := by
  have h := hR i j
  simp only [normalizeMatrix, invSqrtDiag_pos (hpos _), XF.mul, XF.fin.injEq] at h
  rw [← h]
  have h1 : Real.sqrt (x i i) ≠ 0 := (Real.sqrt_pos.mpr (hpos i)).ne'
  have h2 : Real.sqrt (x j j) ≠ 0 := (Real.sqrt_pos.mpr (hpos j)).ne'
  field_simp

theorem normalize_congr {x : Matrix (Fin p) (Fin p) ℝ} (hpos : ∀ i, 0 < x i i)
    {R : Matrix (Fin p) (Fin p) ℝ} (hR : ∀ i j, normalizeMatrix x i j = .fin (R i j)) :
    R = diagonal (fun i => 1 / Real.sqrt (x i i)) * x *
      (diagonal (fun i => 1 / Real.sqrt (x i i)))ᴴ := by
  ext i j
  rw [normalize_entry hpos hR, conjTranspose_eq_transpose_of_trivial, diagonal_transpose,
    mul_diagonal, diagonal_mul]
  have h1 : Real.sqrt (x i i) ≠ 0 := (Real.sqrt_pos.mpr (hpos i)).ne'
  have h2 : Real.sqrt (x j j) ≠ 0 := (Real.sqrt_pos.mpr (hpos j)).ne'
  field_simp

theorem psd_offdiag_le_one {R : Matrix (Fin p) (Fin p) ℝ} (h : R.PosSemidef) (h1 : ∀ i, R i i = 1)
    (i j : Fin p) : |R i j| ≤ 1 := by
  by_cases hij : i = j
  · subst hij; rw [h1]; norm_num
  have hs : R j i = R i j := h.isSymm'.apply i j
  have key : ∀ c : ℝ, c ^ 2 = 1 → 0 ≤ 2 + 2 * c * R i j := by
    intro c hc
    have hq := h.dotProduct_mulVec_nonneg (Pi.single i 1 + Pi.single j c)
    have : star (Pi.single i 1 + Pi.single j c : Fin p → ℝ) ⬝ᵥ (R *ᵥ (Pi.single i 1 + Pi.single j c))
        = R i i + c * R i j + c * R j i + c ^ 2 * R j j := by
      simp [mulVec_add, add_dotProduct, dotProduct_add, mulVec_single]
      ring
    rw [this, h1, h1, hs, hc] at hq
    linarith
  rw [abs_le]
  constructor
  · have := key 1 (by norm_num); linarith
  · have := key (-1) (by norm_num); linarith

/-- C135: a covariance matrix (positive semidefinite, no constant variable) becomes a correlation
matrix: symmetric positive semidefinite, unit diagonal, entries in [-1, 1]; a positive definite one
stays positive definite. -/
theorem C135_correlation {x : Matrix (Fin p) (Fin p) ℝ} (hx : x.PosSemidef) (hpos : ∀ i, 0 < x i i) :
    ∃ R : Matrix (Fin p) (Fin p) ℝ, (∀ i j, normalizeMatrix x i j = .fin (R i j)) ∧
      R.PosSemidef ∧ (∀ i, R i i = 1) ∧ (∀ i j, |R i j| ≤ 1) ∧ (x.PosDef → R.PosDef) := by
  obtain ⟨R, hR, h1, -⟩ := C135_value hpos
  have hc := normalize_congr hpos hR
  have hpsd : R.PosSemidef := by
    rw [hc]; exact hx.mul_mul_conjTranspose_same _
  refine ⟨R, hR, hpsd, h1, psd_offdiag_le_one hpsd h1, fun hd => ?_⟩
  rw [hc]
  refine PosDef.of_dotProduct_mulVec_pos ?_ ?_
  · rw [← hc]; exact hpsd.isHermitian
  · intro v hv
    set D : Matrix (Fin p) (Fin p) ℝ := diagonal (fun i => 1 / Real.sqrt (x i i)) with hD
    have e : star v ⬝ᵥ ((D * x * Dᴴ) *ᵥ v) = star (Dᴴ *ᵥ v) ⬝ᵥ (x *ᵥ (Dᴴ *ᵥ v)) := by
      rw [star_mulVec, conjTranspose_conjTranspose, ← mulVec_mulVec, ← mulVec_mulVec,
        dotProduct_mulVec]
    rw [e]
    refine hd.dotProduct_mulVec_pos fun h0 => hv ?_
    funext i
    have := congrFun h0 i
    rw [hD, conjTranspose_eq_transpose_of_trivial, diagonal_transpose, mulVec_diagonal] at this
    have h1 : Real.sqrt (x i i) ≠ 0 := (Real.sqrt_pos.mpr (hpos i)).ne'
    simpa [h1] using this

example : (!![4, 2; 2, 9] : Matrix (Fin 2) (Fin 2) ℝ).PosSemidef ∧
    ∀ i, 0 < (!![4, 2; 2, 9] : Matrix (Fin 2) (Fin 2) ℝ) i i := by
  refine ⟨(posDef_of_dominant (c := 1) ?_ one_pos ?_).posSemidef, ?_⟩
  · ext i j; fin_cases i <;> fin_cases j <;> rfl
  · intro i; fin_cases i <;> norm_num [Fin.sum_univ_two]
  · intro i; fin_cases i <;> norm_num

/-- C135: measuring the variables in other units (any positive scale per variable) does not change the
result, and normalising a second time changes nothing. -/
theorem C135_invariant {x : Matrix (Fin p) (Fin p) ℝ} (hpos : ∀ i, 0 < x i i) {c : Fin p → ℝ}
    (hc : ∀ i, 0 < c i) :
    normalizeMatrix (fun i j => c i * x i j * c j) = normalizeMatrix x ∧
      ∀ R : Matrix (Fin p) (Fin p) ℝ, (∀ i j, normalizeMatrix x i j = .fin (R i j)) →
        normalizeMatrix R = normalizeMatrix x := by
  constructor
  · have hpos' : ∀ i, 0 < (fun i j => c i * x i j * c j : Matrix (Fin p) (Fin p) ℝ) i i := by
      intro i; have := hpos i; have := hc i; simp only; positivity
    obtain ⟨R, hR, -⟩ := C135_value hpos
    obtain ⟨R', hR', -⟩ := C135_value (x := fun i j => c i * x i j * c j) hpos'
    funext i j
    rw [hR, hR', normalize_entry hpos hR, normalize_entry (x := fun i j => c i * x i j * c j) hpos' hR']
    have hs : ∀ i, Real.sqrt (c i * x i i * c i) = c i * Real.sqrt (x i i) := by
      intro i
      rw [show c i * x i i * c i = c i ^ 2 * x i i by ring, Real.sqrt_mul (sq_nonneg _),
        Real.sqrt_sq (hc i).le]
    simp only [hs]
    have h1 : Real.sqrt (x i i) ≠ 0 := (Real.sqrt_pos.mpr (hpos i)).ne'
    have h2 : Real.sqrt (x j j) ≠ 0 := (Real.sqrt_pos.mpr (hpos j)).ne'
    have h3 := (hc i).ne'
    have h4 := (hc j).ne'
    congr 1
    field_simp
  · intro R hR
    obtain ⟨R', hR', h1, -⟩ := C135_value hpos
    have he : R' = R := by
      ext i j; have := hR i j; rw [hR'] at this; exact XF.fin.inj this
    subst he
    have hp1 : ∀ i, 0 < R' i i := fun i => by rw [h1]; exact one_pos
    obtain ⟨R2, hR2, -⟩ := C135_value hp1
    funext i j
    rw [hR2, hR, normalize_entry hp1 hR2, h1, h1]
    simp

end normalize

/-! ### C136 read_network -/

section network
variable {p : ℕ}

/-- The row joins `i` and `j`, in either direction. -/
def Joins (r : NetRow p) (i j : Fin p) : Prop :=
  (r.src = i ∧ r.dst = j) ∨ (r.src = j ∧ r.dst = i)

theorem Joins.symm {r : NetRow p} {i j : Fin p} (h : Joins r i j) : Joins r j i := Or.symm h

theorem setSymEntry_apply (M : Matrix (Fin p) (Fin p) ℝ) (r : NetRow p) (w : ℝ) (i j : Fin p) :
    (Joins r i j ∧ setSymEntry M r.src r.dst w i j = w) ∨
      (¬ Joins r i j ∧ setSymEntry M r.src r.dst w i j = M i j) := by
  by_cases h : (i = r.src ∧ j = r.dst) ∨ (i = r.dst ∧ j = r.src)
  · left
    refine ⟨?_, by simp only [setSymEntry]; rw [if_pos h]⟩
    rcases h with ⟨a, b⟩ | ⟨a, b⟩
    · exact Or.inl ⟨a.symm, b.symm⟩
    · exact Or.inr ⟨b.symm, a.symm⟩
  · right
    refine ⟨fun hj => h ?_, by simp only [setSymEntry]; rw [if_neg h]⟩
    rcases hj with ⟨a, b⟩ | ⟨a, b⟩
    · exact Or.inl ⟨a.symm, b.symm⟩
    · exact Or.inr ⟨b.symm, a.symm⟩

theorem setSymEntry_symm {M : Matrix (Fin p) (Fin p) ℝ} (h : M.IsSymm) (s t : Fin p) (w : ℝ) :
    (setSymEntry M s t w).IsSymm := by
  ext i j
  simp only [transpose_apply, setSymEntry]
  have e : ((j = s ∧ i = t) ∨ (j = t ∧ i = s)) ↔ ((i = s ∧ j = t) ∨ (i = t ∧ j = s)) := by tauto
  simp only [e, h.apply]

theorem netLoop_symm (rows : List (NetRow p)) : ∀ {M : Matrix (Fin p) (Fin p) ℝ}, M.IsSymm →
    (netLoop rows M).IsSymm := by
  induction rows with
  | nil => intro M h; exact h
  | cons r rs ih =>
      intro M h
      simp only [netLoop]
      apply ih
      split
      · exact setSymEntry_symm h _ _ _
      · exact h

/-- What the loop leaves at position `i, j`: the old value if no positive row joins the two nodes,
otherwise (rows in descending order) the least positive weight. -/
theorem netLoop_entry (rows : List (NetRow p)) (i j : Fin p) :
    rows.Pairwise (fun a b => b.w ≤ a.w) → ∀ M : Matrix (Fin p) (Fin p) ℝ,
    ((∀ r ∈ rows, 0 < r.w → ¬ Joins r i j) ∧ netLoop rows M i j = M i j) ∨
      IsLeast {w | 0 < w ∧ ∃ r ∈ rows, r.w = w ∧ Joins r i j} (netLoop rows M i j) := by
  induction rows with
  | nil => intro _ M; left; simp [netLoop]
  | cons r rs ih =>
      intro hs M
      rw [List.pairwise_cons] at hs
      simp only [netLoop]
      rcases ih hs.2 (if 0 < r.w then setSymEntry M r.src r.dst r.w else M) with ⟨h1, h2⟩ | h
      · by_cases hw : 0 < r.w
        · rw [if_pos hw] at h2 ⊢
          rcases setSymEntry_apply M r r.w i j with ⟨hj, he⟩ | ⟨hj, he⟩
          · right
            rw [h2, he]
            refine ⟨⟨hw, r, by simp, rfl, hj⟩, ?_⟩
            rintro w ⟨hw', r', hr', rfl, hj'⟩
            rcases List.mem_cons.mp hr' with rfl | hr'
            · exact le_rfl
            · exact absurd hj' (h1 r' hr' hw')
          · left
            refine ⟨?_, by rw [h2, he]⟩
            intro r' hr' hw'
            rcases List.mem_cons.mp hr' with rfl | hr'
            · exact hj
            · exact h1 r' hr' hw'
        · rw [if_neg hw] at h2 ⊢
          left
          refine ⟨?_, h2⟩
          intro r' hr' hw'
          rcases List.mem_cons.mp hr' with rfl | hr'
          · exact absurd hw' hw
          · exact h1 r' hr' hw'
      · right
        obtain ⟨⟨h0, r', hr', he, hj⟩, hl⟩ := h
        refine ⟨⟨h0, r', List.mem_cons_of_mem _ hr', he, hj⟩, ?_⟩
        rintro w ⟨hw', r2, hr2, rfl, hj2⟩
        rcases List.mem_cons.mp hr2 with rfl | hr2
        · rw [← he]; exact hs.1 r' hr'
        · exact hl ⟨hw', r2, hr2, rfl, hj2⟩

/-- The rows that survive the `threshold`. -/
noncomputable def keptRows (sorted : List (NetRow p)) (thr : ℝ) (full : Bool) : List (NetRow p) :=
  sorted.take (nTopRows sorted.length thr full)

/-- C136: the edges. For every file, threshold and order of ties, two nodes that no kept row with
positive weight joins get 0; two joined nodes get the least positive weight among the kept rows that
join them. Off the diagonal this does not depend on `fill_diagonal`. -/
theorem C136_entries {sorted : List (NetRow p)} (hs : sorted.Pairwise fun a b => b.w ≤ a.w)
    (thr : ℝ) (full fd : Bool) (i j : Fin p) (hij : fd = false ∨ i ≠ j) :
    ((∀ r ∈ keptRows sorted thr full, 0 < r.w → ¬ Joins r i j) ∧
      readNetwork sorted thr full fd i j = 0) ∨
    IsLeast {w | 0 < w ∧ ∃ r ∈ keptRows sorted thr full, r.w = w ∧ Joins r i j}
      (readNetwork sorted thr full fd i j) := by
  have e : readNetwork sorted thr full fd i j = netLoop (keptRows sorted thr full) 0 i j := by
    cases fd
    · rfl
    · have : i ≠ j := by simpa using hij
      simp [readNetwork, fillRowSums, this, keptRows]
  rw [e]
  exact netLoop_entry _ i j (hs.sublist (List.take_sublist _ _)) 0

example : ([⟨0, 1, 3⟩, ⟨1, 2, 2⟩, ⟨2, 1, 1⟩] : List (NetRow 3)).Pairwise
    (fun a b => b.w ≤ a.w) := by
  simp; norm_num

/-- C136: the rows kept are the heaviest: no dropped row outweighs a kept one. -/
theorem C136_top {sorted : List (NetRow p)} (hs : sorted.Pairwise fun a b => b.w ≤ a.w)
    (thr : ℝ) (full : Bool) :
    ∀ a ∈ keptRows sorted thr full, ∀ b ∈ sorted.drop (keptRows sorted thr full).length,
      b.w ≤ a.w := by
  intro a ha b hb
  set k := nTopRows sorted.length thr full
  have hk : (keptRows sorted thr full).length = min k sorted.length := by
    simp [keptRows, k]
  have hb' : b ∈ sorted.drop k := by
    rw [hk] at hb
    rcases le_total k sorted.length with h | h
    · rwa [min_eq_left h] at hb
    · rw [min_eq_right h] at hb; simp at hb
  have := (List.pairwise_append.mp (by rwa [List.take_append_drop k sorted])).2.2
  exact this a ha b hb'

theorem netLoop_nonneg (rows : List (NetRow p)) (i j : Fin p) :
    ∀ M : Matrix (Fin p) (Fin p) ℝ, (0 ≤ M i j) → 0 ≤ netLoop rows M i j := by
  induction rows with
  | nil => intro M h; exact h
  | cons r rs ih =>
      intro M h
      simp only [netLoop]
      apply ih
      split
      · rename_i hw
        rcases setSymEntry_apply M r r.w i j with ⟨-, he⟩ | ⟨-, he⟩ <;> rw [he]
        · exact hw.le
        · exact h
      · exact h

/-- The quadratic form of a non-negative symmetric matrix whose diagonal was replaced by its row sums. -/
theorem rowSums_quad {M : Matrix (Fin p) (Fin p) ℝ} (hM : M.IsSymm) (x : Fin p → ℝ) :
    star x ⬝ᵥ (fillRowSums M *ᵥ x) =
      (1 / 2) * ∑ i, ∑ j, (if i = j then 2 * M i i * x i ^ 2 else M i j * (x i + x j) ^ 2) := by
  have h1 : star x ⬝ᵥ (fillRowSums M *ᵥ x)
      = ∑ i, ((∑ k, M i k) * x i ^ 2 + ∑ j, if i = j then 0 else M i j * x i * x j) := by
    simp only [dotProduct, mulVec, Pi.star_apply, star_trivial]
    refine Finset.sum_congr rfl fun i _ => ?_
    rw [Finset.mul_sum, ← Finset.add_sum_erase _ _ (Finset.mem_univ i)]
    rw [← Finset.add_sum_erase (Finset.univ) (fun j => if i = j then 0 else M i j * x i * x j)
      (Finset.mem_univ i)]
    simp only [fillRowSums, if_true, zero_add]
    congr 1
    · ring
    · refine Finset.sum_congr rfl fun j hj => ?_
      have : i ≠ j := (Finset.ne_of_mem_erase hj).symm
      simp only [this, if_false]; ring
  have h2 : ∑ i, (∑ k, M i k) * x i ^ 2 = ∑ i, ∑ j, M i j * x i ^ 2 := by
    simp only [Finset.sum_mul]
  have h3 : ∑ i, ∑ j, M i j * x i ^ 2 = ∑ i, ∑ j, M i j * x j ^ 2 := by
    rw [Finset.sum_comm]
    refine Finset.sum_congr rfl fun i _ => Finset.sum_congr rfl fun j _ => ?_
    rw [hM.apply]
  have h4 : ∑ i, ∑ j, (if i = j then 2 * M i i * x i ^ 2 else M i j * (x i + x j) ^ 2)
      = ∑ i, ∑ j, M i j * x i ^ 2 + ∑ i, ∑ j, M i j * x j ^ 2
        + 2 * ∑ i, ∑ j, (if i = j then 0 else M i j * x i * x j) := by
    simp only [Finset.mul_sum, ← Finset.sum_add_distrib]
    refine Finset.sum_congr rfl fun i _ => Finset.sum_congr rfl fun j _ => ?_
    by_cases h : i = j
    · subst h; simp; ring
    · simp only [h, if_false]; ring
  rw [h1, Finset.sum_add_distrib, h2, h4, ← h3]
  ring

theorem fillRowSums_symm {M : Matrix (Fin p) (Fin p) ℝ} (hM : M.IsSymm) : (fillRowSums M).IsSymm := by
  ext i j
  simp only [transpose_apply, fillRowSums]
  by_cases h : i = j
  · subst h; rfl
  · simp only [h, Ne.symm h, if_false]
    exact hM.apply i j

/-- C136: whatever the file, the result is a symmetric matrix with non-negative entries, and with
`fill_diagonal` (the default) it is positive semidefinite. -/
theorem C136_psd (sorted : List (NetRow p)) (thr : ℝ) (full fd : Bool) :
    (readNetwork sorted thr full fd).IsSymm ∧ (∀ i j, 0 ≤ readNetwork sorted thr full fd i j) ∧
      (readNetwork sorted thr full true).PosSemidef := by
  set N := netLoop (keptRows sorted thr full) 0 with hN
  have hs : N.IsSymm := netLoop_symm _ (by ext i j; rfl)
  have h0 : ∀ i j, 0 ≤ N i j := fun i j => netLoop_nonneg _ i j 0 (by simp)
  have e1 : readNetwork sorted thr full true = fillRowSums N := rfl
  have e2 : readNetwork sorted thr full false = N := rfl
  refine ⟨?_, ?_, ?_⟩
  · cases fd
    · rw [e2]; exact hs
    · rw [e1]; exact fillRowSums_symm hs
  · intro i j
    cases fd
    · rw [e2]; exact h0 i j
    · rw [e1]
      simp only [fillRowSums]
      split
      · exact Finset.sum_nonneg fun k _ => h0 i k
      · exact h0 i j
  · rw [e1]
    refine PosSemidef.of_dotProduct_mulVec_nonneg (isHermitian_of_isSymm (fillRowSums_symm hs)) ?_
    intro x
    rw [rowSums_quad hs]
    refine mul_nonneg (by norm_num) (Finset.sum_nonneg fun i _ => Finset.sum_nonneg fun j _ => ?_)
    have := h0 i i
    have := h0 i j
    split <;> positivity

/-- C136 (the docstring's "for the positive definite constraint"): the matrix read with
`fill_diagonal` is NOT positive definite whenever the network is bipartite, that is, the nodes can be
coloured with two colours so that every kept row joins different colours (any tree, star, chain,
single edge, or node without edges). -/
theorem C136_posdef_false [NeZero p] (sorted : List (NetRow p)) (thr : ℝ) (full : Bool)
    (col : Fin p → Bool) (hcol : ∀ r ∈ sorted, col r.src ≠ col r.dst) :
    ¬ (readNetwork sorted thr full true).PosDef := by
  set N := netLoop (keptRows sorted thr full) 0 with hN
  have hs : N.IsSymm := netLoop_symm _ (by ext i j; rfl)
  have e1 : readNetwork sorted thr full true = fillRowSums N := rfl
  have hz : ∀ (rows : List (NetRow p)), (∀ r ∈ rows, col r.src ≠ col r.dst) →
      ∀ M : Matrix (Fin p) (Fin p) ℝ, (∀ i j, col i = col j → M i j = 0) →
        ∀ i j, col i = col j → netLoop rows M i j = 0 := by
    intro rows
    induction rows with
    | nil => intro _ M h; exact h
    | cons r rs ih =>
        intro hr M h
        simp only [netLoop]
        refine ih (fun r' h' => hr r' (List.mem_cons_of_mem _ h')) _ ?_
        intro i j hij
        split
        · rcases setSymEntry_apply M r r.w i j with ⟨hj, he⟩ | ⟨-, he⟩
          · exfalso
            have h1 := hr r (by simp)
            rcases hj with ⟨rfl, rfl⟩ | ⟨rfl, rfl⟩
            · exact h1 hij
            · exact h1 hij.symm
          · rw [he]; exact h i j hij
        · exact h i j hij
  have hzero : ∀ i j, col i = col j → N i j = 0 :=
    hz _ (fun r hr => hcol r (List.mem_of_mem_take hr)) 0 (fun _ _ _ => rfl)
  intro hd
  have hx : (fun i => if col i then (1 : ℝ) else -1) ≠ 0 := by
    intro h
    have := congrFun h (0 : Fin p)
    by_cases hc : col 0 <;> simp [hc] at this
  have := hd.dotProduct_mulVec_pos hx
  rw [e1, rowSums_quad hs] at this
  refine absurd this (not_lt.mpr (le_of_eq ?_))
  rw [mul_eq_zero]
  right
  refine Finset.sum_eq_zero fun i _ => Finset.sum_eq_zero fun j _ => ?_
  split
  · rw [hzero i i rfl]; ring
  · by_cases hc : col i = col j
    · rw [hzero i j hc]; ring
    · have : (if col i then (1 : ℝ) else -1) + (if col j then (1 : ℝ) else -1) = 0 := by
        cases h1 : col i <;> cases h2 : col j <;> simp_all
      simp only [this]; ring

/-- A chain of three nodes is such a network. -/
example : ∀ r ∈ ([⟨0, 1, 3⟩, ⟨1, 2, 2⟩] : List (NetRow 3)),
    (![true, false, true] : Fin 3 → Bool) r.src ≠ (![true, false, true] : Fin 3 → Bool) r.dst := by
  simp

/-- C136: with `threshold=1` every row is kept when the network is not "full" or has an even number
of rows. -/
theorem C136_all_rows (sorted : List (NetRow p)) (full : Bool)
    (h : full = false ∨ Even sorted.length) : keptRows sorted 1 full = sorted := by
  have : nTopRows sorted.length 1 full = sorted.length := by
    cases full
    · simp [nTopRows]
    · obtain ⟨k, hk⟩ : Even sorted.length := by simpa using h
      have : ((sorted.length : ℝ)) * 1 / 2 = (k : ℝ) := by rw [hk]; push_cast; ring
      simp only [nTopRows, if_true, this, Nat.floor_natCast]
      omega
  rw [keptRows, this, List.take_length]

example : Even ([⟨0, 1, 3⟩, ⟨1, 0, 3⟩] : List (NetRow 2)).length := ⟨1, rfl⟩

/-- C136: with the defaults the last of an odd number of rows is dropped. A file holding a single edge
is read as the empty network. -/
theorem C136_odd_false :
    ¬ ∀ (sorted : List (NetRow 2)) (r : NetRow 2), r ∈ sorted → 0 < r.w → r.src ≠ r.dst →
        sorted.Pairwise (fun a b => b.w ≤ a.w) → readNetwork sorted 1 true true r.src r.dst ≠ 0 := by
  intro h
  refine h [⟨0, 1, 1⟩] ⟨0, 1, 1⟩ (by simp) (by norm_num) (by decide) (by simp) ?_
  have : nTopRows 1 1 true = 0 := by
    have : ⌊((1 : ℕ) : ℝ) * 1 / 2⌋₊ = 0 := by rw [Nat.floor_eq_zero]; norm_num
    simp only [nTopRows, if_true, this]
  simp [readNetwork, this, netLoop, fillRowSums]

/-- C136: the separator. The extension decides for `delimiter="auto"`; an unknown extension is refused
exactly then; an explicit separator is always used, with a warning exactly when a known extension
suggests another one. -/
theorem C136_delimiter (ext d : String) :
    (networkDelimiter ext d = none ↔
      d = "auto" ∧ ext ≠ ".tsv" ∧ ext ≠ ".tab" ∧ ext ≠ ".csv") ∧
    (d ≠ "auto" → ∃ b, networkDelimiter ext d = some (d, b) ∧
      (b = true ↔ ((ext = ".tsv" ∨ ext = ".tab") ∧ d ≠ "\t") ∨ (ext = ".csv" ∧ d ≠ ","))) ∧
    (networkDelimiter ".csv" "auto" = some (",", false)) ∧
    (networkDelimiter ".tsv" "auto" = some ("\t", false)) ∧
    (networkDelimiter ".tab" "auto" = some ("\t", false)) := by
  refine ⟨?_, ?_, by decide, by decide, by decide⟩
  · unfold networkDelimiter
    by_cases h1 : ext = ".tsv" ∨ ext = ".tab"
    · rw [if_pos h1]
      by_cases h2 : d = "auto" <;> simp [h2] <;> tauto
    · rw [if_neg h1]
      push Not at h1
      by_cases h3 : ext = ".csv"
      · rw [if_pos h3]
        by_cases h2 : d = "auto" <;> simp [h2, h3]
      · rw [if_neg h3]
        by_cases h2 : d = "auto" <;> simp [h2, h1, h3]
  · intro hd
    unfold networkDelimiter
    by_cases h1 : ext = ".tsv" ∨ ext = ".tab"
    · have h3 : ext ≠ ".csv" := by rcases h1 with h | h <;> rw [h] <;> decide
      rw [if_pos h1, if_neg hd]
      exact ⟨_, rfl, by simp [h1, h3]⟩
    · by_cases h3 : ext = ".csv"
      · rw [if_neg h1, if_pos h3, if_neg hd]
        exact ⟨_, rfl, by simp [h3]⟩
      · rw [if_neg h1, if_neg h3, if_neg hd]
        exact ⟨_, rfl, by simp [h1, h3]⟩

end network

/-! ### C137 definiteness checks -/

section definite
variable {p : ℕ}

theorem lowerSym_isSymm (x : Matrix (Fin p) (Fin p) ℝ) : (lowerSym x).IsSymm := by
  ext i j
  simp only [transpose_apply, lowerSym]
  rcases lt_trichotomy i j with h | h | h
  · rw [if_pos h.le, if_neg (not_le.mpr h)]
  · subst h; rfl
  · rw [if_neg (not_le.mpr h), if_pos h.le]

theorem lowerSym_of_isSymm {x : Matrix (Fin p) (Fin p) ℝ} (h : x.IsSymm) : lowerSym x = x := by
  ext i j
  simp only [lowerSym]
  split
  · rfl
  · exact h.apply i j

theorem eigh_shift {A Q : Matrix (Fin p) (Fin p) ℝ} {e : Fin p → ℝ} (h : IsEigh A Q e) (c : ℝ) :
    IsEigh (A + c • (1 : Matrix (Fin p) (Fin p) ℝ)) Q (fun i => e i + c) := by
  refine ⟨h.orth, h.orth', ?_⟩
  have h1 : (diagonal fun i => e i + c) = diagonal e + c • (1 : Matrix (Fin p) (Fin p) ℝ) := by
    ext i j
    by_cases hij : i = j
    · subst hij; simp
    · simp [hij]
  rw [h1, Matrix.mul_add, Matrix.add_mul, ← h.decomp, Matrix.mul_smul, Matrix.mul_one,
    Matrix.smul_mul, h.orth]

theorem eigh_quad {A Q : Matrix (Fin p) (Fin p) ℝ} {e : Fin p → ℝ} (h : IsEigh A Q e) (i : Fin p) :
    star (Q *ᵥ Pi.single i 1) ⬝ᵥ (A *ᵥ (Q *ᵥ Pi.single i 1)) = e i := by
  have h1 : A *ᵥ (Q *ᵥ Pi.single i 1) = e i • (Q *ᵥ Pi.single i 1) := by
    rw [mulVec_mulVec, h.decomp, Matrix.mul_assoc, h.orth', Matrix.mul_one, ← mulVec_mulVec,
      ← mulVec_smul]
    congr 1
    funext k
    rw [mulVec_diagonal]
    by_cases hk : k = i
    · subst hk; simp
    · simp [hk]
  have h2 : star (Q *ᵥ Pi.single i 1) ⬝ᵥ (Q *ᵥ Pi.single i 1) = (1 : ℝ) := by
    have : star (Q *ᵥ Pi.single i 1) = (Q *ᵥ Pi.single i (1 : ℝ)) := by
      funext k; simp
    rw [this, dotProduct_mulVec, ← mulVec_transpose, mulVec_mulVec, h.orth', one_mulVec]
    simp
  rw [h1, dotProduct_smul, h2, smul_eq_mul, mul_one]

theorem eigh_posSemidef_iff {A Q : Matrix (Fin p) (Fin p) ℝ} {e : Fin p → ℝ} (h : IsEigh A Q e) :
    A.PosSemidef ↔ ∀ i, 0 ≤ e i := by
  constructor
  · intro hp i
    rw [← eigh_quad h i]; exact hp.dotProduct_mulVec_nonneg _
  · intro he
    rw [h.eq_recompose]; exact recompose_posSemidef Q he

theorem eigh_posDef_iff {A Q : Matrix (Fin p) (Fin p) ℝ} {e : Fin p → ℝ} (h : IsEigh A Q e) :
    A.PosDef ↔ ∀ i, 0 < e i := by
  constructor
  · intro hp i
    rw [← eigh_quad h i]
    refine hp.dotProduct_mulVec_pos fun h0 => ?_
    have h1 : Qᵀ *ᵥ (Q *ᵥ Pi.single i (1 : ℝ)) = 0 := by rw [h0, mulVec_zero]
    rw [mulVec_mulVec, h.orth', one_mulVec] at h1
    have := congrFun h1 i
    simp at this
  · intro he
    rw [h.eq_recompose]; exact recompose_posDef h.orth he

/-- C137: on a symmetric matrix `is_pos_semidef` answers True exactly when adding `tol` times the
identity makes the matrix positive definite; with `tol ≤ 0`, exactly when it is positive
semidefinite. In particular a positive semidefinite matrix is never refused. -/
theorem C137_psd {eigh : Eigh (Fin p)} (ho : IsEighOracle eigh) {x : Matrix (Fin p) (Fin p) ℝ}
    (hx : x.IsSymm) (tol : ℝ) :
    (0 < tol → (isPosSemidefEig eigh x tol = true ↔
      (x + tol • (1 : Matrix (Fin p) (Fin p) ℝ)).PosDef)) ∧
    (tol ≤ 0 → (isPosSemidefEig eigh x tol = true ↔ x.PosSemidef)) ∧
    (x.PosSemidef → isPosSemidefEig eigh x tol = true) := by
  have he := ho x hx
  have key : isPosSemidefEig eigh x tol = true ↔ ∀ i, 0 ≤ snapZero tol ((eigh x).2 i) := by
    simp only [isPosSemidefEig, lowerSym_of_isSymm hx, decide_eq_true_eq]
  refine ⟨fun ht => ?_, fun ht => ?_, fun hp => ?_⟩
  · rw [key, eigh_posDef_iff (eigh_shift he tol)]
    refine forall_congr' fun i => ?_
    unfold snapZero
    by_cases h : |(eigh x).2 i| < tol
    · rw [if_pos h]
      have := (abs_lt.mp h).1
      exact ⟨fun _ => by linarith, fun _ => le_rfl⟩
    · rw [if_neg h]
      constructor
      · intro h0; linarith
      · intro h0
        by_contra hneg
        push Not at hneg
        rw [abs_of_neg hneg] at h
        linarith
  · rw [key, eigh_posSemidef_iff he]
    refine forall_congr' fun i => ?_
    unfold snapZero
    rw [if_neg (not_lt.mpr (ht.trans (abs_nonneg _)))]
  · rw [key]
    intro i
    have := (eigh_posSemidef_iff he).mp hp i
    unfold snapZero
    split
    · exact le_rfl
    · exact this

/-- C137: on a symmetric matrix `is_pos_def` answers True (Cholesky) exactly for positive definite
matrices; with `chol=False` and `tol > 0`, exactly when subtracting `tol` times the identity leaves a
positive semidefinite matrix, so every matrix it accepts is positive definite. -/
theorem C137_posdef {eigh : Eigh (Fin p)} (ho : IsEighOracle eigh) {x : Matrix (Fin p) (Fin p) ℝ}
    (hx : x.IsSymm) (tol : ℝ) :
    (isPosDefFull eigh x tol true = true ↔ x.PosDef) ∧
    (0 < tol → (isPosDefFull eigh x tol false = true ↔
      (x + (-tol) • (1 : Matrix (Fin p) (Fin p) ℝ)).PosSemidef)) ∧
    (tol ≤ 0 → (isPosDefFull eigh x tol false = true ↔ x.PosDef)) ∧
    (isPosDefFull eigh x tol false = true → x.PosDef) := by
  have he := ho x hx
  have key : isPosDefFull eigh x tol false = true ↔ ∀ i, 0 < snapZero tol ((eigh x).2 i) := by
    simp [isPosDefFull, lowerSym_of_isSymm hx]
  refine ⟨?_, fun ht => ?_, fun ht => ?_, fun hp => ?_⟩
  · simp [isPosDefFull, lowerSym_of_isSymm hx, isPosDef]
  · rw [key, eigh_posSemidef_iff (eigh_shift he (-tol))]
    refine forall_congr' fun i => ?_
    unfold snapZero
    by_cases h : |(eigh x).2 i| < tol
    · rw [if_pos h]
      have := (abs_lt.mp h).2
      exact ⟨fun h0 => absurd h0 (lt_irrefl _), fun h0 => by linarith⟩
    · rw [if_neg h]
      push Not at h
      constructor
      · intro h0; rw [abs_of_pos h0] at h; linarith
      · intro h0; linarith
  · rw [key, eigh_posDef_iff he]
    refine forall_congr' fun i => ?_
    unfold snapZero
    rw [if_neg (not_lt.mpr (ht.trans (abs_nonneg _)))]
  · rw [eigh_posDef_iff he]
    intro i
    have := key.mp hp i
    unfold snapZero at this
    split at this
    · exact absurd this (lt_irrefl _)
    · exact this

/-- C137: `positive_definite` answers for one matrix or for every matrix of a stack, and its `tol`
argument changes nothing. -/
theorem C137_positive_definite {eigh : Eigh (Fin p)} (ho : IsEighOracle eigh) (tol tol' : ℝ) :
    (∀ x : Matrix (Fin p) (Fin p) ℝ, x.IsSymm →
      (positiveDefinite2 eigh x tol = true ↔ x.PosDef) ∧
        positiveDefinite2 eigh x tol = positiveDefinite2 eigh x tol') ∧
    ∀ xs : List (Matrix (Fin p) (Fin p) ℝ), (∀ x ∈ xs, x.IsSymm) →
      (positiveDefinite3 eigh xs tol = true ↔ ∀ x ∈ xs, x.PosDef) ∧
        positiveDefinite3 eigh xs tol = positiveDefinite3 eigh xs tol' := by
  refine ⟨fun x hx => ⟨(C137_posdef ho hx 1e-15).1, rfl⟩, fun xs hxs => ⟨?_, rfl⟩⟩
  simp only [positiveDefinite3, List.all_eq_true]
  exact forall_congr' fun x => forall_congr' fun hx => (C137_posdef ho (hxs x hx) 1e-15).1

example : ∃ eigh : Eigh (Fin 2), IsEighOracle eigh ∧
    (!![2, 1; 1, 2] : Matrix (Fin 2) (Fin 2) ℝ).IsSymm := by
  classical
  refine ⟨fun A => if h : A.IsSymm then
    ((exists_isEigh h).choose, (exists_isEigh h).choose_spec.choose) else (1, 0), ?_, ?_⟩
  · intro A hA
    simp only [hA, dif_pos]
    exact (exists_isEigh hA).choose_spec.choose_spec
  · ext i j; fin_cases i <;> fin_cases j <;> rfl

/-- C137: the checks look at the lower triangle only, so on a matrix that is not symmetric a True
answer says nothing about the quadratic form. -/
theorem C137_asymmetric_false {eigh : Eigh (Fin 2)} (ho : IsEighOracle eigh) (tol : ℝ) :
    ¬ ∀ x : Matrix (Fin 2) (Fin 2) ℝ, isPosSemidefEig eigh x tol = true →
        positiveDefinite2 eigh x tol = true → ∀ v : Fin 2 → ℝ, 0 ≤ v ⬝ᵥ (x *ᵥ v) := by
  intro h
  have hl : lowerSym (!![1, 10; 0, 1] : Matrix (Fin 2) (Fin 2) ℝ) = 1 := by
    ext i j; fin_cases i <;> fin_cases j <;> simp [lowerSym]
  have hsymm : (1 : Matrix (Fin 2) (Fin 2) ℝ).IsSymm := by simp [IsSymm]
  have hs : isPosSemidefEig eigh (!![1, 10; 0, 1] : Matrix (Fin 2) (Fin 2) ℝ) tol
      = isPosSemidefEig eigh 1 tol := by
    simp only [isPosSemidefEig, hl, lowerSym_of_isSymm hsymm]
  have hd : positiveDefinite2 eigh (!![1, 10; 0, 1] : Matrix (Fin 2) (Fin 2) ℝ) tol
      = positiveDefinite2 eigh 1 tol := by
    simp only [positiveDefinite2, isPosDefFull, hl, lowerSym_of_isSymm hsymm]
  have := h !![1, 10; 0, 1] (by rw [hs]; exact (C137_psd ho hsymm tol).2.2 PosSemidef.one)
    (by rw [hd]; exact ((C137_positive_definite ho tol tol).1 1 hsymm).1.mpr PosDef.one) ![1, -1]
  simp [dotProduct, mulVec, Fin.sum_univ_two] at this
  norm_num at this

end definite

/-! ### C138 logentropy_normalize -/

section logentropy
variable {n m : ℕ}

theorem plogp_bounds {X : Matrix (Fin n) (Fin m) ℝ} (hX : ∀ i j, 0 ≤ X i j) (j : Fin m) :
    (∀ i, plogp X i j ≤ 0) ∧ (0 < n → -Real.log n ≤ ∑ i, plogp X i j) := by
  set S := ∑ k, X k j with hS
  have hS0 : 0 ≤ S := Finset.sum_nonneg fun k _ => hX k j
  have hle : ∀ i, X i j ≤ S := fun i =>
    Finset.single_le_sum (f := fun k => X k j) (fun k _ => hX k j) (Finset.mem_univ i)
  by_cases h0 : S = 0
  · have hz : ∀ i, plogp X i j = 0 := fun i => by
      simp only [plogp]; rw [if_pos h0]
    refine ⟨fun i => (hz i).le, fun hn => ?_⟩
    simp only [hz, Finset.sum_const_zero]
    have : (1 : ℝ) ≤ n := by exact_mod_cast hn
    linarith [Real.log_nonneg this]
  · have hSp : 0 < S := lt_of_le_of_ne hS0 (Ne.symm h0)
    have hv : ∀ i, plogp X i j = X i j / S * Real.log (X i j / S) := by
      intro i
      simp only [plogp]
      rw [if_neg h0]
      by_cases hq : X i j / S = 0
      · rw [if_pos hq, hq]; simp
      · rw [if_neg hq]
    have hq0 : ∀ i, 0 ≤ X i j / S := fun i => div_nonneg (hX i j) hS0
    refine ⟨fun i => ?_, fun hn => ?_⟩
    · rw [hv]
      exact mul_nonpos_of_nonneg_of_nonpos (hq0 i)
        (Real.log_nonpos (hq0 i) ((div_le_one hSp).mpr (hle i)))
    · have hn' : (0 : ℝ) < n := by exact_mod_cast hn
      have hsum : ∑ i, X i j / S = 1 := by
        rw [← Finset.sum_div, ← hS, div_self h0]
      have hterm : ∀ i, X i j / S - 1 / n ≤ X i j / S * Real.log (X i j / S)
          + X i j / S * Real.log n := by
        intro i
        rcases eq_or_lt_of_le (hq0 i) with hz | hz
        · rw [← hz]; simp
        · have hlog := Real.log_le_sub_one_of_pos (x := 1 / (n * (X i j / S))) (by positivity)
          rw [Real.log_div one_ne_zero (by positivity), Real.log_one,
            Real.log_mul hn'.ne' hz.ne'] at hlog
          have h2 : X i j / S * (1 / (n * (X i j / S)) - 1) = 1 / n - X i j / S := by
            have h5 : X i j / S * (1 / (n * (X i j / S))) = 1 / n := by
              rw [mul_one_div, mul_comm (n : ℝ), div_mul_cancel_left₀ hz.ne', one_div]
            rw [mul_sub, h5, mul_one]
          have h3 := mul_le_mul_of_nonneg_left hlog hz.le
          rw [h2] at h3
          linarith
      have h4 := Finset.sum_le_sum fun i (_ : i ∈ Finset.univ) => hterm i
      rw [Finset.sum_sub_distrib, Finset.sum_add_distrib, ← Finset.sum_mul, hsum] at h4
      simp only [Finset.sum_const, Finset.card_univ, Fintype.card_fin, nsmul_eq_mul] at h4
      rw [mul_one_div_cancel hn'.ne'] at h4
      simp only [hv]
      linarith

theorem entropyWeight_bounds {X : Matrix (Fin n) (Fin m) ℝ} (hX : ∀ i j, 0 ≤ X i j) (hn : 0 < n)
    (j : Fin m) : 0 < entropyWeight X j ∧ entropyWeight X j ≤ 1 := by
  have hn' : (1 : ℝ) ≤ n := by exact_mod_cast hn
  have hlog : 0 < Real.log (1 + n) := Real.log_pos (by linarith)
  have hlt : Real.log n < Real.log (1 + n) := Real.log_lt_log (by linarith) (by linarith)
  obtain ⟨h1, h2⟩ := plogp_bounds hX j
  have h2 := h2 hn
  have h3 : ∑ i, plogp X i j ≤ 0 := Finset.sum_nonpos fun i _ => h1 i
  constructor
  · have : -1 < (∑ i, plogp X i j) / Real.log (1 + n) := by
      rw [lt_div_iff₀ hlog]; linarith
    unfold entropyWeight; linarith
  · have := div_nonpos_of_nonpos_of_nonneg h3 hlog.le
    unfold entropyWeight; linarith

/-- C138: for non-negative counts every entry lies between 0 and `log(1 + count)`, and is zero exactly
where the count is zero; the ordering of the counts of one term is preserved. -/
theorem C138_bounds {X : Matrix (Fin n) (Fin m) ℝ} (hX : ∀ i j, 0 ≤ X i j) (i : Fin n) (j : Fin m) :
    0 ≤ logentropyNormalize X i j ∧ logentropyNormalize X i j ≤ Real.log (1 + X i j) ∧
      (logentropyNormalize X i j = 0 ↔ X i j = 0) ∧
      ∀ i', (logentropyNormalize X i j < logentropyNormalize X i' j ↔ X i j < X i' j) := by
  have hn : 0 < n := i.pos
  obtain ⟨h1, h2⟩ := entropyWeight_bounds hX hn j
  have hl : ∀ i, 0 ≤ Real.log (1 + X i j) := fun i => Real.log_nonneg (by linarith [hX i j])
  refine ⟨mul_nonneg h1.le (hl i), ?_, ?_, fun i' => ?_⟩
  · have := mul_le_mul_of_nonneg_right h2 (hl i)
    rwa [one_mul] at this
  · simp only [logentropyNormalize, mul_eq_zero, h1.ne', false_or]
    constructor
    · intro h
      rcases eq_or_lt_of_le (hX i j) with h0 | h0
      · exact h0.symm
      · exact absurd h (Real.log_pos (by linarith)).ne'
    · intro h; rw [h]; simp
  · simp only [logentropyNormalize]
    rw [mul_lt_mul_iff_right₀ h1]
    rw [Real.log_lt_log_iff (by linarith [hX i j]) (by linarith [hX i' j])]
    constructor <;> intro h <;> linarith

example : ∀ i j, 0 ≤ (!![3, 0; 1, 2] : Matrix (Fin 2) (Fin 2) ℝ) i j := by
  intro i j; fin_cases i <;> fin_cases j <;> norm_num

/-- C138: a term that occurs in a single document keeps the full weight `log(1 + count)`. -/
theorem C138_single {X : Matrix (Fin n) (Fin m) ℝ} (i : Fin n) (j : Fin m) (hi : X i j ≠ 0)
    (hz : ∀ k, k ≠ i → X k j = 0) : logentropyNormalize X i j = Real.log (1 + X i j) := by
  have hS : ∑ k, X k j = X i j :=
    Finset.sum_eq_single i (fun k _ hk => hz k hk) (fun h => absurd (Finset.mem_univ _) h)
  have hp : ∀ k, plogp X k j = 0 := by
    intro k
    simp only [plogp, hS]
    rw [if_neg hi]
    by_cases hk : k = i
    · subst hk; simp [div_self hi]
    · simp [hz k hk]
  simp [logentropyNormalize, entropyWeight, hp]

example : (!![3, 0; 1, 2] : Matrix (Fin 2) (Fin 2) ℝ) 1 1 ≠ 0 ∧
    ∀ k, k ≠ 1 → (!![3, 0; 1, 2] : Matrix (Fin 2) (Fin 2) ℝ) k 1 = 0 := by
  refine ⟨by norm_num, ?_⟩
  intro k hk; fin_cases k
  · norm_num
  · exact absurd rfl hk

/-- C138: the log-entropy weighting is meant to remove terms spread evenly over all documents; because
the entropy is divided by `log(1 + n)` instead of `log n`, an even term is never removed. -/
theorem C138_uniform_false [NeZero n] [NeZero m] :
    ¬ ∀ X : Matrix (Fin n) (Fin m) ℝ, (∀ i j, 0 ≤ X i j) → ∀ j,
        (∀ i i', X i j = X i' j) → ∀ i, logentropyNormalize X i j = 0 := by
  intro h
  have h1 := h (fun _ _ => 1) (fun _ _ => zero_le_one) 0 (fun _ _ => rfl) 0
  have h2 := ((C138_bounds (X := (fun _ _ => 1 : Matrix (Fin n) (Fin m) ℝ))
    (fun _ _ => zero_le_one) 0 0).2.2.1).mp h1
  exact one_ne_zero h2

end logentropy

/-! ### C139 error_norm_time and error_rank -/

section timeerror
variable {p : ℕ}

theorem meanResults_fin (vs : List ℝ) :
    meanResults (vs.map fun v => .value (.fin v)) = .value (XF.div (.fin vs.sum) (.fin vs.length)) := by
  have key : ∀ (vs : List ℝ) (a : ℝ), (vs.map fun v => ErrResult.value (.fin v)).foldl
      accResult (some (.fin a)) = some (.fin (a + vs.sum)) := by
    intro vs
    induction vs with
    | nil => intro a; simp
    | cons v vs ih =>
        intro a
        have e : accResult (some (.fin a)) (.value (.fin v)) = some (.fin (a + v)) := rfl
        rw [List.map_cons, List.foldl_cons, e, ih, List.sum_cons, add_assoc]
  simp only [meanResults, key, List.length_map, zero_add]

/-- C139: with the defaults, for two sequences of the same positive length, the result is the mean over
time of the squared Frobenius distance divided by the number of features. -/
theorem C139_value (hp : 0 < p) (A B : List (Matrix (Fin p) (Fin p) ℝ)) (hl : A.length = B.length)
    (hA : A ≠ []) (sp : Matrix (Fin p) (Fin p) ℝ → Matrix (Fin p) (Fin p) ℝ → XF) :
    errorNormTime A B "frobenius" sp true true =
      .value (.fin ((List.zipWith (fun a b => frobSq (b - a) / p) A B).sum / A.length)) := by
  have h1 : (A.zip B).map (fun xy => errorNorm xy.1 xy.2 "frobenius" (sp xy.1 xy.2) true true false false)
      = ((A.zip B).map fun xy => frobSq (xy.2 - xy.1) / (p : ℝ)).map fun v => .value (.fin v) := by
    rw [List.map_map]
    refine List.map_congr_left fun xy _ => ?_
    simp only [Function.comp_apply, C28_default_value hp]
  have h2 : (A.zip B).length = A.length := by simp [hl]
  have h3 : ((A.length : ℕ) : ℝ) ≠ 0 := by
    have := List.length_pos_of_ne_nil hA
    positivity
  rw [errorNormTime, h1, meanResults_fin, List.length_map, h2]
  simp only [XF.div, h3, ne_eq, not_false_eq_true, if_true]
  rw [List.map_zip_eq_zipWith]
  rfl

example : [(1 : Matrix (Fin 2) (Fin 2) ℝ), 0].length = [(0 : Matrix (Fin 2) (Fin 2) ℝ), 1].length ∧
    [(1 : Matrix (Fin 2) (Fin 2) ℝ), 0] ≠ [] := by simp

/-- C139: it is non-negative, and zero exactly when the two sequences agree at every time. -/
theorem C139_zero_iff (hp : 0 < p) (A B : List (Matrix (Fin p) (Fin p) ℝ))
    (hl : A.length = B.length) (hA : A ≠ [])
    (sp : Matrix (Fin p) (Fin p) ℝ → Matrix (Fin p) (Fin p) ℝ → XF) :
    ∃ r : ℝ, errorNormTime A B "frobenius" sp true true = .value (.fin r) ∧ 0 ≤ r ∧
      (r = 0 ↔ A = B) := by
  have hp' : (0 : ℝ) < p := by exact_mod_cast hp
  have hlen : (0 : ℝ) < A.length := by exact_mod_cast List.length_pos_of_ne_nil hA
  have key : ∀ (A B : List (Matrix (Fin p) (Fin p) ℝ)), A.length = B.length →
      0 ≤ (List.zipWith (fun a b => frobSq (b - a) / (p : ℝ)) A B).sum ∧
      ((List.zipWith (fun a b => frobSq (b - a) / (p : ℝ)) A B).sum = 0 ↔ A = B) := by
    intro A
    induction A with
    | nil => intro B h; cases B <;> simp_all
    | cons a A ih =>
        intro B h
        cases B with
        | nil => simp at h
        | cons b B =>
            obtain ⟨h1, h2⟩ := ih B (by simpa using h)
            have h3 : 0 ≤ frobSq (b - a) / (p : ℝ) := div_nonneg (frobSq_nonneg _) hp'.le
            simp only [List.zipWith_cons_cons, List.sum_cons, List.cons.injEq]
            refine ⟨by linarith, ?_⟩
            rw [add_eq_zero_iff_of_nonneg h3 h1, h2, div_eq_zero_iff, or_iff_left hp'.ne',
              frobSq_eq_zero_iff, sub_eq_zero]
            constructor
            · rintro ⟨x, y⟩; exact ⟨x.symm, y⟩
            · rintro ⟨x, y⟩; exact ⟨x.symm, y⟩
  obtain ⟨h1, h2⟩ := key A B hl
  refine ⟨_, C139_value hp A B hl hA sp, div_nonneg h1 hlen.le, ?_⟩
  rw [div_eq_zero_iff, or_iff_left hlen.ne', h2]

/-- C139: sequences of different lengths are not refused: the longer one is cut, so the error can be
zero although one sequence has times the other lacks; an empty sequence gives NaN. -/
theorem C139_length_false (hp : 0 < p)
    (sp : Matrix (Fin p) (Fin p) ℝ → Matrix (Fin p) (Fin p) ℝ → XF) :
    (∀ (A B C : List (Matrix (Fin p) (Fin p) ℝ)), A.length = B.length →
      errorNormTime (A ++ C) B "frobenius" sp true true
        = errorNormTime A B "frobenius" sp true true) ∧
    (¬ ∀ A B : List (Matrix (Fin p) (Fin p) ℝ),
      errorNormTime A B "frobenius" sp true true = .value (.fin 0) → A = B) ∧
    errorNormTime [] ([] : List (Matrix (Fin p) (Fin p) ℝ)) "frobenius" sp true true
      = .value .nan := by
  have h1 : ∀ (A B C : List (Matrix (Fin p) (Fin p) ℝ)), A.length = B.length →
      errorNormTime (A ++ C) B "frobenius" sp true true
        = errorNormTime A B "frobenius" sp true true := by
    intro A B C h
    have : (A ++ C).zip B = A.zip B := by
      have := List.zip_append (l₁ := A) (r₁ := C) (l₂ := B) (r₂ := []) h
      simpa using this
    simp only [errorNormTime, this]
  refine ⟨h1, ?_, ?_⟩
  · intro h
    obtain ⟨r, hr, -, h0⟩ := C139_zero_iff hp [(0 : Matrix (Fin p) (Fin p) ℝ)] [0] rfl (by simp) sp
    rw [h0.mpr rfl] at hr
    have := h ([0] ++ [0]) [0] (by rw [h1 [0] [0] [0] rfl, hr])
    simp at this
  · simp [errorNormTime, meanResults, XF.div]

/-- C139: `error_norm` applied to the whole 3-d arrays divides by the number of features once more than
`error_norm_time` does. -/
theorem C139_versus_batch {T : ℕ} (hT : 0 < T) (hp : 0 < p) (A B : Fin T → Matrix (Fin p) (Fin p) ℝ)
    (sp : Matrix (Fin p) (Fin p) ℝ → Matrix (Fin p) (Fin p) ℝ → XF) (s3 : XF) :
    ∃ r : ℝ, errorNorm3 A B "frobenius" s3 true true false false = .value (.fin r) ∧
      errorNormTime (List.ofFn A) (List.ofFn B) "frobenius" sp true true = .value (.fin (p * r)) := by
  have hp' : (p : ℝ) ≠ 0 := by positivity
  have hT' : (T : ℝ) ≠ 0 := by positivity
  refine ⟨(∑ t, frobSq (B t - A t)) / (T * p * p), ?_, ?_⟩
  · simp [errorNorm3, errorNormCore, errSum_all, XF.div, hp', hT', frobSq, Fintype.sum_prod_type]
  · rw [C139_value hp _ _ (by simp) (by
      intro h; have := congrArg List.length h; simp at this; omega) sp]
    have e : (List.zipWith (fun a b => frobSq (b - a) / (p : ℝ)) (List.ofFn A) (List.ofFn B))
        = List.ofFn fun t => frobSq (B t - A t) / (p : ℝ) := by
      apply List.ext_getElem
      · simp
      · intro i h1 h2; simp
    rw [e, List.sum_ofFn, List.length_ofFn, ← Finset.sum_div]
    congr 2
    field_simp

example : ∃ T p : ℕ, 0 < T ∧ 0 < p := ⟨2, 3, by norm_num, by norm_num⟩

/-- C139: `error_rank` is a pseudo-distance between rank sequences: a finite number in `[0, p]`,
symmetric, with the triangle inequality, zero exactly when the ranks agree at every time. -/
theorem C139_rank {T : ℕ} (hT : 0 < T) (a b c : Fin T → Matrix (Fin p) (Fin p) ℝ) :
    ∃ r s u : ℝ, errorRank a b = .fin r ∧ errorRank b a = .fin r ∧ errorRank b c = .fin s ∧
      errorRank a c = .fin u ∧ 0 ≤ r ∧ r ≤ p ∧ u ≤ r + s ∧
      (r = 0 ↔ ∀ t, (a t).rank = (b t).rank) := by
  have hT' : (0 : ℝ) < T := by exact_mod_cast hT
  have hv : ∀ a b : Fin T → Matrix (Fin p) (Fin p) ℝ,
      errorRank a b = .fin ((∑ t, |((a t).rank : ℝ) - (b t).rank|) / T) := by
    intro a b; simp [errorRank, XF.div, hT'.ne']
  refine ⟨_, _, _, hv a b, ?_, hv b c, hv a c, ?_, ?_, ?_, ?_⟩
  · rw [hv b a]; simp only [abs_sub_comm]
  · exact div_nonneg (Finset.sum_nonneg fun t _ => abs_nonneg _) hT'.le
  · rw [div_le_iff₀ hT']
    have : ∀ t ∈ Finset.univ, |((a t).rank : ℝ) - (b t).rank| ≤ p := by
      intro t _
      have h1 : ((a t).rank : ℝ) ≤ p := by
        have := (a t).rank_le_card_width; simp at this; exact_mod_cast this
      have h2 : ((b t).rank : ℝ) ≤ p := by
        have := (b t).rank_le_card_width; simp at this; exact_mod_cast this
      have h3 : (0 : ℝ) ≤ (a t).rank := Nat.cast_nonneg _
      have h4 : (0 : ℝ) ≤ (b t).rank := Nat.cast_nonneg _
      rw [abs_le]; constructor <;> linarith
    have := Finset.sum_le_sum this
    simp only [Finset.sum_const, Finset.card_univ, Fintype.card_fin, nsmul_eq_mul] at this
    linarith
  · rw [← add_div]
    refine div_le_div_of_nonneg_right ?_ hT'.le
    rw [← Finset.sum_add_distrib]
    exact Finset.sum_le_sum fun t _ => abs_sub_le _ _ _
  · rw [div_eq_zero_iff, or_iff_left hT'.ne',
      Finset.sum_eq_zero_iff_of_nonneg fun t _ => abs_nonneg _]
    simp only [Finset.mem_univ, true_imp_iff, abs_eq_zero, sub_eq_zero, Nat.cast_inj]

end timeerror

/-! ### C140 alpha_heuristic -/

section alpha
variable {p : ℕ} [NeZero p]

theorem sup_products (d : Fin p → ℝ) (hd : ∀ i, 0 ≤ d i) :
    (Finset.univ.sup' Finset.univ_nonempty fun ij : Fin p × Fin p => d ij.1 * d ij.2)
      = (Finset.univ.sup' Finset.univ_nonempty d) ^ 2 := by
  apply le_antisymm
  · refine Finset.sup'_le _ _ fun ij _ => ?_
    have h1 := Finset.le_sup' d (Finset.mem_univ ij.1)
    have h2 := Finset.le_sup' d (Finset.mem_univ ij.2)
    rw [sq]
    exact mul_le_mul h1 h2 (hd _) ((hd ij.1).trans h1)
  · obtain ⟨i, -, hi⟩ := Finset.exists_mem_eq_sup' Finset.univ_nonempty d
    rw [hi, sq]
    exact Finset.le_sup' (fun ij : Fin p × Fin p => d ij.1 * d ij.2) (Finset.mem_univ (i, i))

/-- C140: for non-negative variances and `n_samples ≥ 3` the value is
`t · v² / √(n - 2 + t²)` where `v` is the largest variance. -/
theorem C140_value (tpdf : ℝ → ℝ → ℝ) (S : Matrix (Fin p) (Fin p) ℝ) (hS : ∀ i, 0 ≤ S i i) {n : ℕ}
    (hn : 3 ≤ n) (gamma : ℝ) (v : ℝ) (hv : IsGreatest (Set.range fun i => S i i) v) :
    alphaHeuristic2 tpdf S n gamma =
      .fin (2 * tpdf gamma ((n : ℝ) - 2) * v ^ 2 /
        Real.sqrt ((n : ℝ) - 2 + (2 * tpdf gamma ((n : ℝ) - 2)) ^ 2)) := by
  have hn' : (3 : ℝ) ≤ n := by exact_mod_cast hn
  have hsup : (Finset.univ.sup' Finset.univ_nonempty fun i => S i i) = v := by
    apply le_antisymm
    · exact Finset.sup'_le _ _ fun i _ => hv.2 ⟨i, rfl⟩
    · obtain ⟨i, hi⟩ := hv.1
      rw [← hi]; exact Finset.le_sup' (fun i => S i i) (Finset.mem_univ i)
  rw [alphaHeuristic2, sup_products (fun i => S i i) hS, hsup]
  set t := tpdf gamma ((n : ℝ) - 2)
  have h1 : 0 < (n : ℝ) - 2 + t * 2 * (t * 2) := by nlinarith [mul_self_nonneg (t * 2)]
  have h2 : Real.sqrt ((n : ℝ) - 2 + t * 2 * (t * 2)) ≠ 0 := (Real.sqrt_pos.mpr h1).ne'
  have h3 : (n : ℝ) - 2 + (2 * t) ^ 2 = (n : ℝ) - 2 + t * 2 * (t * 2) := by ring
  simp only [alphaOf, xfSqrt, h1.le.not_gt, if_false, XF.div, ne_eq, h2, not_false_eq_true, if_true, h3]
  congr 2
  ring

example : IsGreatest (Set.range fun i => (!![4, 2; 2, 9] : Matrix (Fin 2) (Fin 2) ℝ) i i) 9 ∧
    ∀ i, 0 ≤ (!![4, 2; 2, 9] : Matrix (Fin 2) (Fin 2) ℝ) i i := by
  refine ⟨⟨⟨1, by norm_num⟩, ?_⟩, ?_⟩
  · rintro _ ⟨i, rfl⟩; fin_cases i <;> norm_num
  · intro i; fin_cases i <;> norm_num

/-- C140: the regularisation parameter of a graphical lasso should scale like the covariance; the
heuristic (products of variances where the reference has products of standard deviations) scales with
its square. -/
theorem C140_units_false (tpdf : ℝ → ℝ → ℝ) {n : ℕ} (hn : 3 ≤ n) (gamma : ℝ)
    (ht : 0 < tpdf gamma ((n : ℝ) - 2)) :
    (∀ (S : Matrix (Fin p) (Fin p) ℝ) (c : ℝ), 0 ≤ c → (∀ i, 0 ≤ S i i) →
      ∃ r, alphaHeuristic2 tpdf S n gamma = .fin r ∧
        alphaHeuristic2 tpdf (c • S) n gamma = .fin (c ^ 2 * r)) ∧
    ¬ ∀ (S : Matrix (Fin p) (Fin p) ℝ) (c r : ℝ), 0 < c → S.PosDef →
        alphaHeuristic2 tpdf S n gamma = .fin r →
        alphaHeuristic2 tpdf (c • S) n gamma = .fin (c * r) := by
  have hg : ∀ d : Fin p → ℝ, IsGreatest (Set.range d) (Finset.univ.sup' Finset.univ_nonempty d) := by
    intro d
    constructor
    · obtain ⟨i, -, hi⟩ := Finset.exists_mem_eq_sup' Finset.univ_nonempty d
      exact ⟨i, hi.symm⟩
    · rintro _ ⟨i, rfl⟩; exact Finset.le_sup' d (Finset.mem_univ i)
  have hsc : ∀ (S : Matrix (Fin p) (Fin p) ℝ) (c : ℝ) (v : ℝ), 0 ≤ c →
      IsGreatest (Set.range fun i => S i i) v → IsGreatest (Set.range fun i => (c • S) i i) (c * v) := by
    intro S c v hc hv
    constructor
    · obtain ⟨i, hi⟩ := hv.1
      exact ⟨i, by simp only [Matrix.smul_apply, smul_eq_mul]; rw [← hi]⟩
    · rintro _ ⟨i, rfl⟩
      exact mul_le_mul_of_nonneg_left (hv.2 ⟨i, rfl⟩) hc
  refine ⟨?_, ?_⟩
  · intro S c hc hS
    have hv := hg fun i => S i i
    refine ⟨_, C140_value tpdf S hS hn gamma _ hv, ?_⟩
    rw [C140_value tpdf (c • S) (fun i => mul_nonneg hc (hS i)) hn gamma _ (hsc S c _ hc hv)]
    congr 1
    ring
  · intro h
    have hv : IsGreatest (Set.range fun i => (1 : Matrix (Fin p) (Fin p) ℝ) i i) 1 := by
      refine ⟨⟨0, by simp⟩, ?_⟩
      rintro _ ⟨i, rfl⟩; simp
    have e1 := C140_value tpdf (1 : Matrix (Fin p) (Fin p) ℝ) (fun i => by simp) hn gamma 1 hv
    have e2 := C140_value tpdf ((2 : ℝ) • (1 : Matrix (Fin p) (Fin p) ℝ)) (fun i => by simp) hn gamma _
      (hsc 1 2 1 (by norm_num) hv)
    have := h 1 2 _ (by norm_num) PosDef.one e1
    rw [e2] at this
    have := XF.fin.inj this
    have hn' : (3 : ℝ) ≤ n := by exact_mod_cast hn
    set t := tpdf gamma ((n : ℝ) - 2)
    have hs : 0 < Real.sqrt ((n : ℝ) - 2 + (2 * t) ^ 2) := Real.sqrt_pos.mpr (by nlinarith [sq_nonneg (2 * t)])
    rw [div_eq_iff hs.ne', mul_assoc 2 (_ / _) _, div_mul_cancel₀ _ hs.ne'] at this
    linarith

/-- C140: on a stack of covariances the result is the largest of the results for the single
matrices. -/
theorem C140_time {T : ℕ} [NeZero T] (tpdf : ℝ → ℝ → ℝ) (S : Fin T → Matrix (Fin p) (Fin p) ℝ) {n : ℕ}
    (hn : 3 ≤ n) (gamma : ℝ) (ht : 0 ≤ tpdf gamma ((n : ℝ) - 2)) :
    ∃ r : Fin T → ℝ, (∀ t, alphaHeuristic2 tpdf (S t) n gamma = .fin (r t)) ∧
      ∃ m, alphaHeuristic3 tpdf S n gamma = .fin m ∧ IsGreatest (Set.range r) m := by
  have hn' : (3 : ℝ) ≤ n := by exact_mod_cast hn
  set t0 := tpdf gamma ((n : ℝ) - 2) * 2 with ht0
  have ht0' : 0 ≤ t0 := by rw [ht0]; positivity
  have h1 : 0 < (n : ℝ) - 2 + t0 * t0 := by nlinarith [mul_self_nonneg t0]
  have h2 : 0 < Real.sqrt ((n : ℝ) - 2 + t0 * t0) := Real.sqrt_pos.mpr h1
  have hval : ∀ m, alphaOf m t0 n = .fin (t0 * m / Real.sqrt ((n : ℝ) - 2 + t0 * t0)) := by
    intro m
    simp only [alphaOf, xfSqrt, h1.le.not_gt, if_false, XF.div, ne_eq, h2.ne', not_false_eq_true, if_true]
  have hmono : ∀ a b, a ≤ b → t0 * a / Real.sqrt ((n : ℝ) - 2 + t0 * t0)
      ≤ t0 * b / Real.sqrt ((n : ℝ) - 2 + t0 * t0) := fun a b hab =>
    div_le_div_of_nonneg_right (mul_le_mul_of_nonneg_left hab ht0') h2.le
  refine ⟨_, fun t => hval _, _, hval _, ?_, ?_⟩
  · obtain ⟨⟨t, i, j⟩, -, he⟩ := Finset.exists_mem_eq_sup' Finset.univ_nonempty
      (fun tij : Fin T × Fin p × Fin p => S tij.1 tij.2.1 tij.2.1 * S tij.1 tij.2.2 tij.2.2)
    refine ⟨t, le_antisymm (hmono _ _ ?_) (hmono _ _ ?_)⟩
    · refine Finset.sup'_le _ _ fun ij _ => ?_
      exact Finset.le_sup'
        (fun tij : Fin T × Fin p × Fin p => S tij.1 tij.2.1 tij.2.1 * S tij.1 tij.2.2 tij.2.2)
        (Finset.mem_univ (t, ij))
    · rw [he]
      exact Finset.le_sup' (fun ij : Fin p × Fin p => S t ij.1 ij.1 * S t ij.2 ij.2)
        (Finset.mem_univ (i, j))
  · rintro _ ⟨t, rfl⟩
    refine hmono _ _ (Finset.sup'_le _ _ fun ij _ => ?_)
    exact Finset.le_sup'
        (fun tij : Fin T × Fin p × Fin p => S tij.1 tij.2.1 tij.2.1 * S tij.1 tij.2.2 tij.2.2)
        (Finset.mem_univ (t, ij))

example : ∃ (tpdf : ℝ → ℝ → ℝ) (n : ℕ), 3 ≤ n ∧ 0 < tpdf (1 / 10) ((n : ℝ) - 2) :=
  ⟨fun _ _ => 1 / 3, 10, by norm_num, by norm_num⟩

end alpha
end Verif.Props
