import Verif.Props.Similarity
import Mathlib.Algebra.BigOperators.Fin
import Mathlib.Algebra.BigOperators.Field
import Mathlib.Tactic.FinCases
import Mathlib.Tactic.NormNum
import Mathlib.Tactic.Ring

/-! Property theorem C222: whether the learned similarity table is a kernel, that is positive semidefinite. -/

namespace Verif.Props

open Matrix Verif.Model Verif.Spec

set_option autoImplicit false
set_option linter.unusedSectionVars false

variable {p T : ℕ}

/-- The table consists of numbers whose quadratic form is never negative. -/
def IsKernelTable (s : Fin T → Fin T → XF) : Prop :=
  ∃ v : Fin T → Fin T → ℝ, (∀ r c, s r c = .fin (v r c)) ∧ ∀ x : Fin T → ℝ, 0 ≤ ∑ r, ∑ c, x r * v r c * x c

theorem scaled_values [NeZero T] (d : Fin T → Fin T → ℝ) (M : ℝ) (hM : 0 < M) (hle : ∀ r c, d r c ≤ M)
    (hex : ∃ r c, d r c = M) (r c : Fin T) :
    XF.sub (.fin 1) (XF.div (.fin (d r c)) (.fin (tableMax d))) = .fin (1 - d r c / M) := by
  have hm : tableMax d = M := by
    obtain ⟨r, c, h⟩ := hex
    obtain ⟨r', c', h'⟩ := tableMax_attained d
    exact le_antisymm (h' ▸ hle r' c') (h ▸ tableMax_ge d r c)
  rw [hm]
  simp [XF.div, XF.sub, XF.neg, XF.add, hM.ne', sub_eq_add_neg]

/-- C222, two times: whatever the two networks are, as long as they differ, the table is the identity: the learned
similarity never couples them. -/
theorem C222_two_times {psi : Matrix (Fin p) (Fin p) ℝ → ℝ} (hp : Even psi)
    (K : Fin 2 → Matrix (Fin p) (Fin p) ℝ) (hne : psi (K 0 - K 1) ≠ 0) (r c : Fin 2) :
    precisionSimilarity psi K r c = .fin (if r = c then 1 else 0) := by
  have h01 : psi (K 1 - K 0) = psi (K 0 - K 1) := by rw [← hp.neg, neg_sub]
  have hpos : 0 < psi (K 0 - K 1) := lt_of_le_of_ne (hp.nonneg _) (Ne.symm hne)
  rw [precisionSimilarity_eq hp]
  have h := scaled_values (fun r c => psi (K r - K c)) (psi (K 0 - K 1)) hpos (fun r c => by
    fin_cases r <;> fin_cases c <;> simp [hp.zero, h01, hpos.le]) ⟨0, 1, rfl⟩ r c
  simp only at h ⊢
  rw [h]
  fin_cases r <;> fin_cases c <;> simp [hp.zero, h01, hpos.ne']

/-- C222, part: with three times and a penalty that satisfies the triangle inequality, the table is a kernel. Missing:
more times, where the claim fails. -/
theorem C222_three_times_partial {psi : Matrix (Fin p) (Fin p) ℝ → ℝ} (hp : Even psi)
    (htri : ∀ A B, psi (A + B) ≤ psi A + psi B) (K : Fin 3 → Matrix (Fin p) (Fin p) ℝ)
    (hne : ∃ r c, psi (K r - K c) ≠ 0) : IsKernelTable (precisionSimilarity psi K) := by
  have hs : ∀ r c, psi (K r - K c) = psi (K c - K r) := fun r c => by rw [← hp.neg, neg_sub]
  have ht : ∀ r s c, psi (K r - K c) ≤ psi (K r - K s) + psi (K s - K c) := fun r s c => by
    have := htri (K r - K s) (K s - K c)
    rwa [sub_add_sub_cancel] at this
  obtain ⟨r0, c0, h0⟩ := tableMax_attained fun r c => psi (K r - K c)
  set M := tableMax fun r c => psi (K r - K c) with hMd
  have hM : 0 < M := by
    obtain ⟨r, c, h⟩ := hne
    exact lt_of_lt_of_le (lt_of_le_of_ne (hp.nonneg _) (Ne.symm h)) (tableMax_ge (fun r c => psi (K r - K c)) r c)
  have hle : ∀ r c, psi (K r - K c) ≤ M := tableMax_ge fun r c => psi (K r - K c)
  refine ⟨fun r c => 1 - psi (K r - K c) / M, fun r c => ?_, fun x => ?_⟩
  · rw [precisionSimilarity_eq hp]
    exact scaled_values (fun r c => psi (K r - K c)) M hM hle ⟨r0, c0, h0⟩ r c
  · set a := 1 - psi (K 0 - K 1) / M with ha
    set b := 1 - psi (K 1 - K 2) / M with hb
    set e := 1 - psi (K 0 - K 2) / M with he
    have hn : ∀ r c, 0 ≤ 1 - psi (K r - K c) / M := fun r c => by
      have := (div_le_one hM).2 (hle r c); linarith
    have ha0 : 0 ≤ a := hn 0 1
    have hb0 : 0 ≤ b := hn 1 2
    have he0 : 0 ≤ e := hn 0 2
    have hform : ∑ r, ∑ c, x r * (1 - psi (K r - K c) / M) * x c =
        x 0 ^ 2 + x 1 ^ 2 + x 2 ^ 2 + 2 * a * x 0 * x 1 + 2 * b * x 1 * x 2 + 2 * e * x 0 * x 2 := by
      simp only [Fin.sum_univ_three, sub_self, hp.zero, hs 1 0, hs 2 0, hs 2 1, zero_div, sub_zero]
      rw [← ha, ← hb, ← he]
      ring
    rw [hform]
    have sum_le : ∀ u w : ℝ, M ≤ u + w → (1 - u / M) + (1 - w / M) ≤ 1 := by
      intro u w huw
      have : 1 ≤ (u + w) / M := (one_le_div hM).2 huw
      rw [add_div] at this
      linarith
    have quad : ∀ a b x y z : ℝ, 0 ≤ a → 0 ≤ b → a + b ≤ 1 →
        0 ≤ x ^ 2 + y ^ 2 + z ^ 2 + 2 * a * x * y + 2 * b * y * z := by
      intro a b x y z h1 h2 h3
      nlinarith [mul_nonneg h1 (sq_nonneg (x + y)), mul_nonneg h2 (sq_nonneg (y + z)),
        mul_nonneg (by linarith : 0 ≤ 1 - a) (sq_nonneg x), mul_nonneg (by linarith : 0 ≤ 1 - a - b) (sq_nonneg y),
        mul_nonneg (by linarith : 0 ≤ 1 - b) (sq_nonneg z)]
    have h1 := sum_le _ _ (h0 ▸ ht r0 0 c0)
    have h2 := sum_le _ _ (h0 ▸ ht r0 1 c0)
    have h3 := sum_le _ _ (h0 ▸ ht r0 2 c0)
    have hmax : 1 - psi (K r0 - K c0) / M = 0 := by rw [h0, div_self hM.ne', sub_self]
    have case1 : e = 0 → a + b ≤ 1 → 0 ≤ x 0 ^ 2 + x 1 ^ 2 + x 2 ^ 2 + 2 * a * x 0 * x 1 + 2 * b * x 1 * x 2 +
        2 * e * x 0 * x 2 := fun h h' => by
      have := quad a b (x 0) (x 1) (x 2) ha0 hb0 h'
      rw [h]; linarith
    have case2 : a = 0 → e + b ≤ 1 → 0 ≤ x 0 ^ 2 + x 1 ^ 2 + x 2 ^ 2 + 2 * a * x 0 * x 1 + 2 * b * x 1 * x 2 +
        2 * e * x 0 * x 2 := fun h h' => by
      have := quad e b (x 0) (x 2) (x 1) he0 hb0 h'
      rw [h]; linarith
    have case3 : b = 0 → a + e ≤ 1 → 0 ≤ x 0 ^ 2 + x 1 ^ 2 + x 2 ^ 2 + 2 * a * x 0 * x 1 + 2 * b * x 1 * x 2 +
        2 * e * x 0 * x 2 := fun h h' => by
      have := quad a e (x 1) (x 0) (x 2) ha0 he0 h'
      rw [h]; linarith
    have hdiag : ∀ r : Fin 3, 1 - psi (K r - K r) / M ≠ 0 := fun r => by simp [hp.zero]
    fin_cases r0 <;> fin_cases c0
    · exact absurd hmax (hdiag 0)
    · exact case2 hmax (by simpa [he, hb, hs 2 1] using h3)
    · exact case1 hmax (by simpa [ha, hb] using h2)
    · exact case2 (by simpa [ha, hs 1 0] using hmax) (by rw [add_comm]; simpa [he, hb, hs 2 0] using h3)
    · exact absurd hmax (hdiag 1)
    · exact case3 hmax (by simpa [ha, he, hs 1 0] using h1)
    · exact case1 (by simpa [he, hs 2 0] using hmax) (by simpa [ha, hb, hs 2 1, hs 1 0, add_comm] using h2)
    · exact case3 (by simpa [hb, hs 2 1] using hmax) (by simpa [ha, he, hs 2 0, add_comm] using h1)
    · exact absurd hmax (hdiag 2)

theorem not_kernel {s : Fin T → Fin T → XF} (v : Fin T → Fin T → ℝ) (hv : ∀ r c, s r c = .fin (v r c)) (x : Fin T → ℝ)
    (hx : ∑ r, ∑ c, x r * v r c * x c < 0) : ¬ IsKernelTable s := by
  rintro ⟨w, hw, h⟩
  have e : w = v := by
    funext r c
    have := (hw r c).symm.trans (hv r c)
    injection this
  have := h x
  rw [e] at this
  linarith

/-- C222 fails for the default penalty: three networks in a straight line, whatever they are, have a table with
similarities 3/4, 3/4 and 0, which is not positive semidefinite. -/
theorem C222_laplacian_false (A B : Matrix (Fin p) (Fin p) ℝ) (hB : B ≠ 0) :
    ¬ IsKernelTable (precisionSimilarity squaredNorm (fun t : Fin 3 => A + (t.val : ℝ) • B)) := by
  have hpos : 0 < squaredNorm B := by
    obtain ⟨i, j, hij⟩ : ∃ i j, B i j ≠ 0 := by
      by_contra hc
      push Not at hc
      exact hB (by ext i j; exact hc i j)
    unfold squaredNorm
    refine Finset.sum_pos' (fun i _ => Finset.sum_nonneg fun j _ => sq_nonneg _) ⟨i, Finset.mem_univ _, ?_⟩
    exact Finset.sum_pos' (fun j _ => sq_nonneg _) ⟨j, Finset.mem_univ _, by positivity⟩
  have hd : ∀ r c : Fin 3, squaredNorm ((A + (r.val : ℝ) • B) - (A + (c.val : ℝ) • B)) =
      ((r.val : ℝ) - c.val) ^ 2 * squaredNorm B := by
    intro r c
    unfold squaredNorm
    rw [Finset.mul_sum]
    refine Finset.sum_congr rfl fun i _ => ?_
    rw [Finset.mul_sum]
    refine Finset.sum_congr rfl fun j _ => ?_
    simp only [Matrix.sub_apply, Matrix.add_apply, Matrix.smul_apply, smul_eq_mul]
    ring
  refine not_kernel (fun r c : Fin 3 => 1 - ((r.val : ℝ) - c.val) ^ 2 * squaredNorm B / (4 * squaredNorm B))
    (fun r c => ?_) ![2, -3, 2] ?_
  · rw [precisionSimilarity_eq (show Even (squaredNorm (n := Fin p)) from even_laplacian)]
    have h := scaled_values (fun r c : Fin 3 => squaredNorm ((A + (r.val : ℝ) • B) - (A + (c.val : ℝ) • B)))
      (4 * squaredNorm B) (by positivity) (fun r c => by
        rw [hd]
        refine mul_le_mul_of_nonneg_right ?_ hpos.le
        fin_cases r <;> fin_cases c <;> norm_num) ⟨0, 2, by rw [hd]; norm_num⟩ r c
    simp only [hd] at h ⊢
    exact h
  · have : ∀ y : ℝ, y * squaredNorm B / (4 * squaredNorm B) = y / 4 := fun y => by field_simp
    have hx2 : (![2, -3, 2] : Fin 3 → ℝ) 2 = 2 := rfl
    simp only [this, Fin.sum_univ_three, hx2]
    norm_num

/-- Entries of five networks with one edge each, all different, and one without edges. -/
def starEntries : Fin 6 → Fin 4 → Fin 4 → ℤ :=
  let edge : Fin 6 → Fin 4 × Fin 4 := ![(0, 0), (0, 1), (0, 2), (0, 3), (1, 2), (1, 3)]
  fun t i j => if i = j ∨ edge t = (i, j) ∨ edge t = (j, i) then 1 else 0

/-- The six networks. -/
def starNetworks (t : Fin 6) : Matrix (Fin 4) (Fin 4) ℝ := Matrix.of fun i j => (starEntries t i j : ℝ)

/-- Distances of the six networks. -/
theorem star_distance (r c : Fin 6) : absSumOff (starNetworks r - starNetworks c) =
    ((if r = c then 0 else if r = 0 ∨ c = 0 then 2 else 4 : ℤ) : ℝ) := by
  have h : ∀ r c : Fin 6, (∑ i : Fin 4, ∑ j : Fin 4, if i = j then 0 else |starEntries r i j - starEntries c i j|) =
      if r = c then 0 else if r = 0 ∨ c = 0 then 2 else 4 := by decide
  rw [← h r c]
  unfold absSumOff starNetworks
  push_cast
  rfl

/-- C222 fails for the Ising table: five networks with one edge each and an empty one. -/
theorem C222_ising_false (psi : Matrix (Fin 4) (Fin 4) ℝ → ℝ) :
    ¬ IsKernelTable (precisionSimilarityIsing psi starNetworks) := by
  refine not_kernel (fun r c : Fin 6 => 1 - ((if r = c then 0 else if r = 0 ∨ c = 0 then 2 else 4 : ℤ) : ℝ) / 4)
    (fun r c => ?_) (fun r => ((if r = 0 then -5 else 2 : ℤ) : ℝ)) ?_
  · rw [precisionSimilarityIsing_eq]
    have h := scaled_values (fun r c : Fin 6 => absSumOff (starNetworks r - starNetworks c)) 4 (by norm_num)
      (fun r c => by rw [star_distance]; split_ifs <;> norm_num) ⟨1, 2, by
        rw [star_distance, if_neg (by decide), if_neg (by decide)]; norm_num⟩ r c
    simp only [star_distance] at h ⊢
    exact h
  · have h : (∑ r : Fin 6, ∑ c : Fin 6, (if r = 0 then -5 else 2 : ℤ) *
        (4 - if r = c then 0 else if r = 0 ∨ c = 0 then 2 else 4) * (if c = 0 then -5 else 2 : ℤ)) = -20 := by decide
    have h' : (∑ r : Fin 6, ∑ c : Fin 6, ((if r = 0 then -5 else 2 : ℤ) : ℝ) *
        (1 - ((if r = c then 0 else if r = 0 ∨ c = 0 then 2 else 4 : ℤ) : ℝ) / 4) *
          ((if c = 0 then -5 else 2 : ℤ) : ℝ)) = ((-20 : ℤ) : ℝ) / 4 := by
      rw [← h]
      push_cast
      rw [Finset.sum_div]
      refine Finset.sum_congr rfl fun r _ => ?_
      rw [Finset.sum_div]
      refine Finset.sum_congr rfl fun c _ => ?_
      ring
    rw [h']
    norm_num

/-- The hypotheses of `C222_three_times_partial` are met by the sum of absolute values. -/
example : Even (l1Norm (n := Fin 2)) ∧ ∀ A B : Matrix (Fin 2) (Fin 2) ℝ, l1Norm (A + B) ≤ l1Norm A + l1Norm B := by
  refine ⟨⟨by simp [l1Norm], fun A => ?_, fun A => by simp [l1Norm]⟩, fun A B => ?_⟩
  · exact Finset.sum_nonneg fun i _ => Finset.sum_nonneg fun j _ => abs_nonneg _
  · unfold l1Norm
    rw [← Finset.sum_add_distrib]
    refine Finset.sum_le_sum fun i _ => ?_
    rw [← Finset.sum_add_distrib]
    exact Finset.sum_le_sum fun j _ => abs_add_le _ _

end Verif.Props
