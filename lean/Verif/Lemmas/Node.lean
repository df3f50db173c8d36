import Verif.Lemmas.Certificate
import Verif.Lemmas.Group
import Verif.Spec.Node
import Mathlib.Analysis.SpecificLimits.Basic

/-! The iteration behind the node penalty: a contraction with factor `4/5`, and what its fixed point
minimises. -/

namespace Verif.Lemmas

open Verif.Model Verif.Spec Matrix Filter Topology

set_option autoImplicit false
set_option linter.unusedSectionVars false

variable {n : Type*} [Fintype n] [DecidableEq n]

/-- Column-wise shrinkage by `lam`. -/
noncomputable def grp (lam : ℝ) (X : Matrix n n ℝ) : Matrix n n ℝ :=
  Matrix.of fun i j => groupCoef (fun k => X k j) lam * X i j

theorem grp_subgrad {lam : ℝ} (hl : 0 ≤ lam) (X Y : Matrix n n ℝ) :
    lam * colNormSum (grp lam X) + frobInner (X - grp lam X) (Y - grp lam X) ≤ lam * colNormSum Y := by
  have h := Finset.sum_le_sum fun j (_ : j ∈ (Finset.univ : Finset n)) =>
    group_subgrad hl (fun k => X k j) (fun k => Y k j)
  rw [Finset.sum_add_distrib, ← Finset.mul_sum, ← Finset.mul_sum] at h
  unfold frobInner colNormSum
  rw [Finset.sum_comm]
  exact h

/-- The shrinkage does not increase distances. -/
theorem grp_nonexpansive {lam : ℝ} (hl : 0 ≤ lam) (X Y : Matrix n n ℝ) :
    froNorm (grp lam X - grp lam Y) ≤ froNorm (X - Y) := by
  have h1 := grp_subgrad hl X (grp lam Y)
  have h2 := grp_subgrad hl Y (grp lam X)
  set P := grp lam X
  set Q := grp lam Y
  have h3 : frobInner (P - Q) (P - Q) ≤ frobInner (X - Y) (P - Q) := by
    have e : frobInner (X - P) (Q - P) + frobInner (Y - Q) (P - Q)
        = frobInner (P - Q) (P - Q) - frobInner (X - Y) (P - Q) := by
      simp only [frobInner_sub_left, frobInner_sub_right]
      ring
    linarith
  have h4 := (abs_le.mp (abs_frobInner_le (X - Y) (P - Q))).2
  rw [frobInner_self, ← froNorm_sq] at h3
  rcases eq_or_lt_of_le (froNorm_nonneg (P - Q)) with h | h
  · rw [← h]; exact froNorm_nonneg _
  · have h5 : froNorm (P - Q) * froNorm (P - Q) ≤ froNorm (X - Y) * froNorm (P - Q) := by
      rw [← sq]; linarith
    exact le_of_mul_le_mul_right h5 h

theorem froNorm_tr (A : Matrix n n ℝ) : froNorm Aᵀ = froNorm A := by
  rw [froNorm_eq_sqrt, froNorm_eq_sqrt]
  unfold frobSq
  rw [Finset.sum_comm]
  rfl

theorem froNorm_smul_nonneg {c : ℝ} (hc : 0 ≤ c) (A : Matrix n n ℝ) : froNorm (c • A) = c * froNorm A := by
  rw [froNorm_eq_sqrt, froNorm_eq_sqrt, frobSq_smul, Real.sqrt_mul (sq_nonneg c), Real.sqrt_sq hc]

theorem froNorm_sub_comm (A B : Matrix n n ℝ) : froNorm (A - B) = froNorm (B - A) := by
  rw [froNorm_eq_sqrt, froNorm_eq_sqrt, ← frobSq_neg, neg_sub]

theorem abs_entry_le_fro (A : Matrix n n ℝ) (i j : n) : |A i j| ≤ froNorm A := by
  rw [froNorm_eq_sqrt]
  refine Real.abs_le_sqrt ?_
  unfold frobSq
  calc A i j ^ 2 ≤ ∑ j, A i j ^ 2 := Finset.single_le_sum (f := fun j => A i j ^ 2)
        (fun _ _ => sq_nonneg _) (Finset.mem_univ j)
    _ ≤ _ := Finset.single_le_sum (f := fun i => ∑ j, A i j ^ 2)
        (fun _ _ => Finset.sum_nonneg fun _ _ => sq_nonneg _) (Finset.mem_univ i)

/-- The matrix that is thresholded when the gap is `s`. -/
noncomputable def nodeX (d s : Matrix n n ℝ) : Matrix n n ℝ := (1 / 2 : ℝ) • (d - (1 / 5 : ℝ) • s)

/-- The next gap. -/
noncomputable def nodeStep (lam : ℝ) (d s : Matrix n n ℝ) : Matrix n n ℝ :=
  grp lam (nodeX d s) + (grp lam (nodeX d s))ᵀ + (3 / 5 : ℝ) • s - d

theorem nodeStep_lip {lam : ℝ} (hl : 0 ≤ lam) (d s t : Matrix n n ℝ) :
    froNorm (nodeStep lam d s - nodeStep lam d t) ≤ 4 / 5 * froNorm (s - t) := by
  set P := grp lam (nodeX d s)
  set Q := grp lam (nodeX d t)
  have e : nodeStep lam d s - nodeStep lam d t = (P - Q) + (P - Q)ᵀ + (3 / 5 : ℝ) • (s - t) := by
    unfold nodeStep
    rw [transpose_sub, smul_sub]
    abel
  have e2 : nodeX d s - nodeX d t = (1 / 10 : ℝ) • (t - s) := by
    unfold nodeX
    ext i j
    simp only [Matrix.sub_apply, Matrix.smul_apply, smul_eq_mul]
    ring
  have h1 := grp_nonexpansive hl (nodeX d s) (nodeX d t)
  rw [e2, froNorm_smul_nonneg (by norm_num), froNorm_sub_comm t s] at h1
  have h2 := froNorm_triangle ((P - Q) + (P - Q)ᵀ) ((3 / 5 : ℝ) • (s - t))
  have h3 := froNorm_triangle (P - Q) (P - Q)ᵀ
  rw [froNorm_tr] at h3
  rw [froNorm_smul_nonneg (by norm_num)] at h2
  rw [e]
  linarith

theorem fro_tendsto {x : ℕ → Matrix n n ℝ} {L : Matrix n n ℝ}
    (h : ∀ i j, Tendsto (fun k => x k i j) atTop (𝓝 (L i j))) :
    Tendsto (fun k => froNorm (x k - L)) atTop (𝓝 0) := by
  have h1 : Tendsto (fun k => frobSq (x k - L)) atTop (𝓝 0) := by
    have h2 : Tendsto (fun k => ∑ i, ∑ j, (x k - L) i j ^ 2) atTop (𝓝 (∑ i : n, ∑ j : n, (0 : ℝ))) := by
      refine tendsto_finsetSum _ fun i _ => tendsto_finsetSum _ fun j _ => ?_
      have h3 := ((h i j).sub_const (L i j)).pow 2
      rw [sub_self] at h3
      simpa using h3
    have e0 : ∑ i : n, ∑ j : n, (0 : ℝ) = 0 := by simp
    rw [e0] at h2
    exact h2
  have h4 := h1.sqrt
  rw [Real.sqrt_zero] at h4
  exact h4

/-- The iteration has a fixed point. -/
theorem exists_nodeFixed {lam : ℝ} (hl : 0 ≤ lam) (d : Matrix n n ℝ) : ∃ s, nodeStep lam d s = s := by
  let x : ℕ → Matrix n n ℝ := fun k => (nodeStep lam d)^[k] 0
  have hx : ∀ k, x (k + 1) = nodeStep lam d (x k) := fun k => Function.iterate_succ_apply' _ _ _
  have hr : ∀ k, froNorm (x k - x (k + 1)) ≤ froNorm (x 0 - x 1) * (4 / 5) ^ k := by
    intro k
    induction k with
    | zero => simp
    | succ k ih =>
      have h := nodeStep_lip hl d (x k) (x (k + 1))
      rw [← hx, ← hx] at h
      rw [pow_succ]
      linarith
  have hc : ∀ i j, ∃ L, Tendsto (fun k => x k i j) atTop (𝓝 L) := by
    intro i j
    refine cauchySeq_tendsto_of_complete (cauchySeq_of_le_geometric (4 / 5) (froNorm (x 0 - x 1))
      (by norm_num) fun k => ?_)
    rw [Real.dist_eq]
    exact le_trans (abs_entry_le_fro (x k - x (k + 1)) i j) (hr k)
  choose L0 hL using hc
  obtain ⟨L, rfl⟩ : ∃ L : Matrix n n ℝ, L0 = fun i j => L i j := ⟨Matrix.of L0, rfl⟩
  have h0 := fro_tendsto (L := L) hL
  refine ⟨L, ?_⟩
  have hb : ∀ k, froNorm (nodeStep lam d L - L) ≤ 4 / 5 * froNorm (x k - L) + froNorm (x (k + 1) - L) := by
    intro k
    have h1 := froNorm_triangle (nodeStep lam d L - x (k + 1)) (x (k + 1) - L)
    rw [sub_add_sub_cancel] at h1
    have h2 := nodeStep_lip hl d L (x k)
    rw [← hx, froNorm_sub_comm L] at h2
    linarith
  have hlim : Tendsto (fun k => 4 / 5 * froNorm (x k - L) + froNorm (x (k + 1) - L)) atTop (𝓝 0) := by
    have := (h0.const_mul (4 / 5)).add (h0.comp (tendsto_add_atTop_nat 1))
    simpa using this
  have h2 : froNorm (nodeStep lam d L - L) ≤ 0 := ge_of_tendsto' hlim hb
  have h3 : frobSq (nodeStep lam d L - L) = 0 := by
    rw [← froNorm_sq, le_antisymm h2 (froNorm_nonneg _)]
    norm_num
  exact sub_eq_zero.mp ((frobSq_eq_zero_iff _).mp h3)

/-- What the fixed point means: the split, the two networks and their cost. -/
theorem nodeFixed_uniqueMin {beta rho : ℝ} (hb : 0 ≤ beta) (hr : 0 < rho) {A1 A2 s : Matrix n n ℝ}
    (hd : (A1 - A2).IsSymm) (hs : nodeStep (beta / (2 * rho)) (A1 - A2) s = s) :
    UniqueMin (NodeSplit n) (nodeCodeCost beta rho A1 A2)
      (grp (beta / (2 * rho)) (nodeX (A1 - A2) s), A1 + (1 / 5 : ℝ) • s, A2 - (1 / 5 : ℝ) • s) := by
  set lam := beta / (2 * rho) with hlam
  have hl : 0 ≤ lam := by positivity
  have hbl : 2 / 3 * beta = 4 / 3 * rho * lam := by rw [hlam]; field_simp; ring
  set d := A1 - A2
  set V := grp lam (nodeX d s) with hV
  have hE : V + Vᵀ = d + (2 / 5 : ℝ) • s := by
    have e : V + Vᵀ = nodeStep lam d s + d - (3 / 5 : ℝ) • s := by unfold nodeStep; abel
    rw [e, hs]
    ext i j
    simp only [Matrix.add_apply, Matrix.sub_apply, Matrix.smul_apply, smul_eq_mul]
    ring
  have hsv : s = (5 / 2 : ℝ) • (V + Vᵀ - d) := by
    rw [hE, add_sub_cancel_left, smul_smul]; norm_num
  have hx : nodeX d s - V = (1 / 2 : ℝ) • (Vᵀ - V) - (3 / 4 : ℝ) • (V + Vᵀ - d) := by
    unfold nodeX
    rw [hsv]
    ext i j
    simp only [Matrix.add_apply, Matrix.sub_apply, Matrix.smul_apply, smul_eq_mul, transpose_apply]
    ring
  refine ⟨?_, ?_⟩
  · show V + Vᵀ = A1 + (1 / 5 : ℝ) • s - (A2 - (1 / 5 : ℝ) • s)
    rw [hE]
    ext i j
    simp only [d, Matrix.add_apply, Matrix.sub_apply, Matrix.smul_apply, smul_eq_mul]
    ring
  · rintro ⟨X, Y1, Y2⟩ hX hne
    replace hX : X + Xᵀ = Y1 - Y2 := hX
    have h1 := grp_subgrad hl (nodeX d s) X
    rw [← hV, hx] at h1
    set D := X - V with hD
    -- the three quadratic pieces
    have q1 : frobSq (X - Xᵀ) = frobSq (V - Vᵀ) + 4 * frobInner (V - Vᵀ) D + frobSq (D - Dᵀ) := by
      have e : X - Xᵀ = (V - Vᵀ) + (D - Dᵀ) := by rw [hD, transpose_sub]; abel
      have e2 : frobInner (V - Vᵀ) (D - Dᵀ) = 2 * frobInner (V - Vᵀ) D := by
        rw [frobInner_sub_right, ← frobInner_transpose]
        have e3 : (V - Vᵀ)ᵀ = -(V - Vᵀ) := by rw [transpose_sub, transpose_transpose]; abel
        rw [e3, frobInner_neg_left]
        ring
      rw [e, frobSq_add, e2]
      ring
    have q2 : frobSq (Y1 - A1) + frobSq (Y2 - A2)
        = 1 / 2 * frobSq (X + Xᵀ - d) + 1 / 2 * frobSq ((Y1 - A1) + (Y2 - A2)) := by
      have e : X + Xᵀ - d = (Y1 - A1) - (Y2 - A2) := by rw [hX]; simp only [d]; abel
      rw [e, frobSq_sub (Y1 - A1) (Y2 - A2), frobSq_add]
      ring
    have hsym : (V + Vᵀ - d)ᵀ = V + Vᵀ - d := by
      rw [transpose_sub, transpose_add, transpose_transpose, hd.eq, add_comm]
    have q3 : frobSq (X + Xᵀ - d) = frobSq (V + Vᵀ - d) + 4 * frobInner (V + Vᵀ - d) D
        + frobSq (D + Dᵀ) := by
      have e : X + Xᵀ - d = (V + Vᵀ - d) + (D + Dᵀ) := by rw [hD, transpose_sub]; abel
      have e2 : frobInner (V + Vᵀ - d) (D + Dᵀ) = 2 * frobInner (V + Vᵀ - d) D := by
        rw [frobInner_add_right, ← frobInner_transpose, hsym]
        ring
      rw [e, frobSq_add, e2]
      ring
    have q4 : frobSq (A1 + (1 / 5 : ℝ) • s - A1) + frobSq (A2 - (1 / 5 : ℝ) • s - A2)
        = 1 / 2 * frobSq (V + Vᵀ - d) := by
      have e1 : A1 + (1 / 5 : ℝ) • s - A1 = (1 / 2 : ℝ) • (V + Vᵀ - d) := by
        rw [hsv, smul_smul, add_sub_cancel_left]; norm_num
      have e2 : A2 - (1 / 5 : ℝ) • s - A2 = -((1 / 2 : ℝ) • (V + Vᵀ - d)) := by
        rw [hsv, smul_smul, sub_sub_cancel_left]; norm_num
      rw [e1, e2, frobSq_neg, frobSq_smul]
      ring
    have hlin : frobInner ((1 / 2 : ℝ) • (Vᵀ - V) - (3 / 4 : ℝ) • (V + Vᵀ - d)) D
        = -(1 / 2) * frobInner (V - Vᵀ) D - 3 / 4 * frobInner (V + Vᵀ - d) D := by
      rw [frobInner_sub_left, frobInner_smul_left, frobInner_smul_left,
        show Vᵀ - V = -(V - Vᵀ) by abel, frobInner_neg_left]
      ring
    rw [hlin] at h1
    have hpos : 0 < rho / 4 * frobSq (D + Dᵀ) + rho / 6 * frobSq (D - Dᵀ)
        + rho / 4 * frobSq ((Y1 - A1) + (Y2 - A2)) := by
      by_contra hcon
      have n1 := frobSq_nonneg (D + Dᵀ)
      have n2 := frobSq_nonneg (D - Dᵀ)
      have n3 := frobSq_nonneg ((Y1 - A1) + (Y2 - A2))
      have m1 : 0 ≤ rho / 4 * frobSq (D + Dᵀ) := by positivity
      have m2 : 0 ≤ rho / 6 * frobSq (D - Dᵀ) := by positivity
      have m3 : 0 ≤ rho / 4 * frobSq ((Y1 - A1) + (Y2 - A2)) := by positivity
      have z1 : frobSq (D + Dᵀ) = 0 := by
        have : rho / 4 * frobSq (D + Dᵀ) = 0 := by linarith
        rcases mul_eq_zero.mp this with h | h
        · linarith
        · exact h
      have z2 : frobSq (D - Dᵀ) = 0 := by
        have : rho / 6 * frobSq (D - Dᵀ) = 0 := by linarith
        rcases mul_eq_zero.mp this with h | h
        · linarith
        · exact h
      have z3 : frobSq ((Y1 - A1) + (Y2 - A2)) = 0 := by
        have : rho / 4 * frobSq ((Y1 - A1) + (Y2 - A2)) = 0 := by linarith
        rcases mul_eq_zero.mp this with h | h
        · linarith
        · exact h
      have w1 := (frobSq_eq_zero_iff _).mp z1
      have w2 := (frobSq_eq_zero_iff _).mp z2
      have w3 := (frobSq_eq_zero_iff _).mp z3
      have hXV : X = V := by
        ext i j
        have a1 := congrFun (congrFun w1 i) j
        have a2 := congrFun (congrFun w2 i) j
        simp only [hD, Matrix.add_apply, Matrix.sub_apply, transpose_apply, Matrix.zero_apply] at a1 a2
        linarith
      rw [hXV, hE] at hX
      refine hne ?_
      rw [Prod.mk.injEq, Prod.mk.injEq]
      refine ⟨hXV, ?_, ?_⟩
      · ext i j
        have a1 := congrFun (congrFun hX i) j
        have a3 := congrFun (congrFun w3 i) j
        simp only [d, Matrix.add_apply, Matrix.sub_apply, Matrix.smul_apply, smul_eq_mul,
          Matrix.zero_apply] at a1 a3 ⊢
        linarith
      · ext i j
        have a1 := congrFun (congrFun hX i) j
        have a3 := congrFun (congrFun w3 i) j
        simp only [d, Matrix.add_apply, Matrix.sub_apply, Matrix.smul_apply, smul_eq_mul,
          Matrix.zero_apply] at a1 a3 ⊢
        linarith
    unfold nodeCodeCost nodePairCost
    simp only
    rw [q4, q2, q3, q1, hbl]
    have h2 := mul_le_mul_of_nonneg_left h1 (by positivity : (0 : ℝ) ≤ 4 / 3 * rho)
    nlinarith [h2, hpos]

end Verif.Lemmas
