import Verif.Model.NodeProx
import Verif.Lemmas.Node
import Verif.Lemmas.Loop
import Verif.Props.Group
import Mathlib.Tactic.NoncommRing
import Mathlib.Tactic.Module
import Mathlib.Algebra.Order.Chebyshev

/-! Property theorems C191 (the pair update of the node penalty) and C192 (its recorded value). -/

namespace Verif.Props

open Verif.Model Verif.Spec Verif.Lemmas Matrix Filter Topology

set_option autoImplicit false
set_option linter.unusedSectionVars false

variable {k n : ℕ}

/-! ### One pass in closed form -/

theorem nodeC_mul_transpose : nodeC n * (nodeC n)ᵀ = (3 : ℝ) • (1 : Matrix (Fin n) (Fin n) ℝ) := by
  unfold nodeC
  rw [transpose_fromCols, transpose_fromCols, fromCols_mul_fromRows, fromCols_mul_fromRows]
  simp only [transpose_one, transpose_neg, mul_one, mul_neg, neg_neg]
  module

theorem nodeInverse_eq : nodeInverse n = (1 / 2 : ℝ) • (1 - (1 / 5 : ℝ) • ((nodeC n)ᵀ * nodeC n)) := by
  unfold nodeInverse
  refine inv_eq_right_inv ?_
  have hG : (nodeC n)ᵀ * nodeC n * ((nodeC n)ᵀ * nodeC n) = (3 : ℝ) • ((nodeC n)ᵀ * nodeC n) := by
    rw [Matrix.mul_assoc, ← Matrix.mul_assoc (nodeC n), nodeC_mul_transpose, Matrix.smul_mul, Matrix.one_mul,
      Matrix.mul_smul]
  simp only [Matrix.mul_smul, Matrix.mul_sub, Matrix.add_mul, hG, Matrix.smul_mul, Matrix.mul_one, Matrix.one_mul]
  module

/-- The gap left by the two linear constraints before the update of `W`, `Y_1`, `Y_2`. -/
def nodeGap (V U1 U2 A1 A2 : Matrix (Fin n) (Fin n) ℝ) : Matrix (Fin n) (Fin n) ℝ :=
  V + U1 + (V + U2)ᵀ - (A1 - A2)

theorem nodeZ_eq (V U1 U2 A1 A2 : Matrix (Fin n) (Fin n) ℝ) :
    nodeZ V U1 U2 A1 A2 = fromRows ((V + U2)ᵀ - (1 / 5 : ℝ) • nodeGap V U1 U2 A1 A2)
      (fromRows (A1 + (1 / 5 : ℝ) • nodeGap V U1 U2 A1 A2)
        (A2 - (1 / 5 : ℝ) • nodeGap V U1 U2 A1 A2)) := by
  set A := fromRows ((V + U2)ᵀ) (fromRows A1 A2) with hA
  have h1 : nodeC n * A = (V + U2)ᵀ - A1 + A2 := by
    unfold nodeC
    rw [hA, fromCols_mul_fromRows, fromCols_mul_fromRows]
    simp only [Matrix.one_mul, Matrix.neg_mul]
    abel
  have h2 : nodeZ V U1 U2 A1 A2 = A - (nodeC n)ᵀ * ((1 / 5 : ℝ) • nodeGap V U1 U2 A1 A2) := by
    unfold nodeZ
    have hg : nodeGap V U1 U2 A1 A2 = (V + U1) + nodeC n * A := by
      rw [h1]; unfold nodeGap; abel
    have hCC : ∀ X : Matrix (Fin n) (Fin n) ℝ, nodeC n * ((nodeC n)ᵀ * X) = (3 : ℝ) • X := fun X => by
      rw [← Matrix.mul_assoc, nodeC_mul_transpose, Matrix.smul_mul, Matrix.one_mul]
    rw [nodeInverse_eq, ← hA, hg]
    simp only [Matrix.smul_mul, Matrix.sub_mul, Matrix.one_mul, Matrix.mul_sub, Matrix.mul_smul,
      Matrix.mul_assoc, Matrix.mul_add, hCC]
    module
  rw [h2, hA]
  unfold nodeC
  rw [transpose_fromCols, transpose_fromCols, fromRows_mul, fromRows_mul]
  simp only [transpose_one, transpose_neg, Matrix.one_mul, Matrix.neg_mul]
  ext i j
  rcases i with i | i | i
  · simp [fromRows_apply_inl]
  · simp [fromRows_apply_inl, fromRows_apply_inr]
  · simp [fromRows_apply_inr]

theorem nodeNext_W (a : NodeArgs k n) (s : NodeState k n) (V : Batch k (Fin n)) (p : Fin k) :
    (nodeNext a s V).W p = (V p + s.U2 p)ᵀ
      - (1 / 5 : ℝ) • nodeGap (V p) (s.U1 p) (s.U2 p) (a.A1 p) (a.A2 p) := by
  unfold nodeNext
  simp only [nodeZ_eq, toRows₁_fromRows]

theorem nodeNext_Y1 (a : NodeArgs k n) (s : NodeState k n) (V : Batch k (Fin n)) (p : Fin k) :
    (nodeNext a s V).Y1 p = a.A1 p
      + (1 / 5 : ℝ) • nodeGap (V p) (s.U1 p) (s.U2 p) (a.A1 p) (a.A2 p) := by
  unfold nodeNext
  simp only [nodeZ_eq, toRows₂_fromRows, toRows₁_fromRows]

theorem nodeNext_Y2 (a : NodeArgs k n) (s : NodeState k n) (V : Batch k (Fin n)) (p : Fin k) :
    (nodeNext a s V).Y2 p = a.A2 p
      - (1 / 5 : ℝ) • nodeGap (V p) (s.U1 p) (s.U2 p) (a.A1 p) (a.A2 p) := by
  unfold nodeNext
  simp only [nodeZ_eq, toRows₂_fromRows]

theorem nodeNext_U1 (a : NodeArgs k n) (s : NodeState k n) (V : Batch k (Fin n)) (p : Fin k) :
    (nodeNext a s V).U1 p = (2 / 5 : ℝ) • nodeGap (V p) (s.U1 p) (s.U2 p) (a.A1 p) (a.A2 p) := by
  have h : (nodeNext a s V).U1 p = s.U1 p + (V p + (nodeNext a s V).W p
      - ((nodeNext a s V).Y1 p - (nodeNext a s V).Y2 p)) := rfl
  rw [h, nodeNext_W, nodeNext_Y1, nodeNext_Y2]
  unfold nodeGap
  rw [transpose_add]
  module

theorem nodeNext_U2 (a : NodeArgs k n) (s : NodeState k n) (V : Batch k (Fin n)) (p : Fin k) :
    (nodeNext a s V).U2 p = (1 / 5 : ℝ) • (nodeGap (V p) (s.U1 p) (s.U2 p) (a.A1 p) (a.A2 p))ᵀ := by
  have h : (nodeNext a s V).U2 p = s.U2 p + (V p - ((nodeNext a s V).W p)ᵀ) := rfl
  rw [h, nodeNext_W, transpose_sub, transpose_transpose, transpose_smul]
  module

/-- The two terms with `W` cancel. -/
theorem nodeA_eq (s : NodeState k n) (p : Fin k) :
    nodeA s p = (1 / 2 : ℝ) • (s.Y1 p - s.Y2 p - s.U1 p - (s.U2 p)ᵀ) := by
  unfold nodeA
  rw [transpose_sub, transpose_transpose]
  module

theorem nodeV_some {lam : ℝ} (hl : 0 ≤ lam) {s : NodeState k n} {V : Batch k (Fin n)}
    (h : nodeV lam s = some V) (p : Fin k) : V p = grp lam (nodeA s p) := by
  unfold nodeV at h
  split at h
  · rename_i hf
    cases h
    ext i j
    show xfVal (blockwiseSoftThresholdingSymmetric (nodeA s p) lam i j) = grp lam (nodeA s p) i j
    by_cases hz : ∃ q, nodeA s p q j ≠ 0
    · rw [(C05_blockwise_symmetric_entry (nodeA s p) hl i j).1 hz]
      rfl
    · push Not at hz
      obtain ⟨r, hr⟩ := hf p i j
      rw [(C05_blockwise_symmetric_entry (nodeA s p) hl i j).2 hz] at hr
      cases hr
  · cases h

theorem nodeV_of_ne {lam : ℝ} (hl : 0 ≤ lam) {s : NodeState k n}
    (h : ∀ p j, ∃ q, nodeA s p q j ≠ 0) : nodeV lam s = some fun p => grp lam (nodeA s p) := by
  unfold nodeV
  rw [if_pos]
  · refine congrArg some ?_
    funext p
    ext i j
    show xfVal (blockwiseSoftThresholdingSymmetric (nodeA s p) lam i j) = grp lam (nodeA s p) i j
    rw [(C05_blockwise_symmetric_entry (nodeA s p) hl i j).1 (h p j)]
    rfl
  · intro p i j
    exact ⟨_, (C05_blockwise_symmetric_entry (nodeA s p) hl i j).1 (h p j)⟩

theorem nodeV_none {lam : ℝ} (hl : 0 ≤ lam) {s : NodeState k n} (p : Fin k) (j : Fin n)
    (h : ∀ q, nodeA s p q j = 0) : nodeV lam s = none := by
  unfold nodeV
  rw [if_neg]
  intro hf
  obtain ⟨r, hr⟩ := hf p j j
  rw [(C05_blockwise_symmetric_entry (nodeA s p) hl j j).2 h] at hr
  cases hr

/-! ### The sequence of states -/

/-- The states before each pass, none of them containing NaN. -/
def NodeRun (a : NodeArgs k n) (rho : ℝ) (s : ℕ → NodeState k n) : Prop :=
  ∀ m, stateAt (nodeBody a) (some (nodeInit k n rho)) m = some (s m)

/-- The gap of pass `m`. -/
def runGap (a : NodeArgs k n) (s : ℕ → NodeState k n) (m : ℕ) (p : Fin k) : Matrix (Fin n) (Fin n) ℝ :=
  nodeGap ((s (m + 1)).V p) ((s m).U1 p) ((s m).U2 p) (a.A1 p) (a.A2 p)

theorem updateRho_pos_default {rho r t : ℝ} (h : 0 < rho) : 0 < updateRho {} rho r t := by
  unfold updateRho
  simp only
  split_ifs <;> positivity

theorem nodeRun_step {a : NodeArgs k n} {rho : ℝ} {s : ℕ → NodeState k n} (hs : NodeRun a rho s) (m : ℕ) :
    nodeV a.lam (s m) = some (s (m + 1)).V ∧
      (s (m + 1) = nodeNext a (s m) (s (m + 1)).V ∨
        s (m + 1) = nodeRescale (s (m + 1)).rho (nodeNext a (s m) (s (m + 1)).V) ∧
        (s (m + 1)).rho = updateRho {} (s m).rho
          (nodeDiagnose a (s m) (nodeNext a (s m) (s (m + 1)).V)).rnorm
          (nodeDiagnose a (s m) (nodeNext a (s m) (s (m + 1)).V)).snorm) := by
  have h1 := hs (m + 1)
  have h2 : stateAt (nodeBody a) (some (nodeInit k n rho)) (m + 1)
      = (nodeBody a m (stateAt (nodeBody a) (some (nodeInit k n rho)) m)).1 := rfl
  rw [h2, hs m] at h1
  unfold nodeBody at h1
  simp only at h1
  split at h1
  · cases h1
  · rename_i V hV
    split at h1
    · simp only [Option.some.injEq] at h1
      have e : (s (m + 1)).V = V := by rw [← h1]; rfl
      rw [e]
      exact ⟨hV, Or.inl h1.symm⟩
    · simp only [Option.some.injEq] at h1
      have e : (s (m + 1)).V = V := by rw [← h1]; rfl
      have e2 := congrArg NodeState.rho h1
      rw [e]
      refine ⟨hV, Or.inr ⟨?_, e2.symm⟩⟩
      rw [← h1]
      rfl

theorem nodeRun_rho {a : NodeArgs k n} {rho : ℝ} (hr : 0 < rho) {s : ℕ → NodeState k n}
    (hs : NodeRun a rho s) (m : ℕ) : 0 < (s m).rho := by
  induction m with
  | zero =>
    have := hs 0
    simp only [stateAt, Option.some.injEq] at this
    rw [← this]; exact hr
  | succ m ih =>
    rcases (nodeRun_step hs m).2 with h | h
    · rw [h]; exact ih
    · rw [h.2]; exact updateRho_pos_default ih

theorem nodeRun_Y {a : NodeArgs k n} {rho : ℝ} {s : ℕ → NodeState k n} (hs : NodeRun a rho s) (m : ℕ)
    (p : Fin k) : (s (m + 1)).Y1 p = a.A1 p + (1 / 5 : ℝ) • runGap a s m p ∧
      (s (m + 1)).Y2 p = a.A2 p - (1 / 5 : ℝ) • runGap a s m p := by
  have e1 : (s (m + 1)).Y1 = (nodeNext a (s m) (s (m + 1)).V).Y1 ∧
      (s (m + 1)).Y2 = (nodeNext a (s m) (s (m + 1)).V).Y2 := by
    rcases (nodeRun_step hs m).2 with h | h
    · exact ⟨congrArg NodeState.Y1 h, congrArg NodeState.Y2 h⟩
    · exact ⟨(congrArg NodeState.Y1 h.1).trans rfl, (congrArg NodeState.Y2 h.1).trans rfl⟩
  rw [e1.1, e1.2]
  exact ⟨nodeNext_Y1 _ _ _ _, nodeNext_Y2 _ _ _ _⟩

/-- While the penalty does not change the gap follows the contraction. -/
theorem nodeRun_gap {a : NodeArgs k n} (hl : 0 ≤ a.lam) {rho : ℝ} (hr : 0 < rho) {s : ℕ → NodeState k n}
    (hs : NodeRun a rho s) (m : ℕ) (hc : (s (m + 1)).rho = (s m).rho) (p : Fin k) :
    (s (m + 1)).U1 p = (2 / 5 : ℝ) • runGap a s m p ∧ (s (m + 1)).U2 p = (1 / 5 : ℝ) • (runGap a s m p)ᵀ ∧
      (s (m + 2)).V p = grp a.lam (nodeX (a.A1 p - a.A2 p) (runGap a s m p)) ∧
      runGap a s (m + 1) p = nodeStep a.lam (a.A1 p - a.A2 p) (runGap a s m p) := by
  have hU : (s (m + 1)).U1 p = (nodeNext a (s m) (s (m + 1)).V).U1 p ∧
      (s (m + 1)).U2 p = (nodeNext a (s m) (s (m + 1)).V).U2 p := by
    rcases (nodeRun_step hs m).2 with h | h
    · exact ⟨congrFun (congrArg NodeState.U1 h) p, congrFun (congrArg NodeState.U2 h) p⟩
    · have hq : (nodeNext a (s m) (s (m + 1)).V).rho / (s (m + 1)).rho = 1 := by
        rw [hc]; exact div_self (nodeRun_rho hr hs m).ne'
      have e1 := congrFun (congrArg NodeState.U1 h.1) p
      have e2 := congrFun (congrArg NodeState.U2 h.1) p
      simp only [nodeRescale, hq, one_smul] at e1 e2
      exact ⟨e1, e2⟩
  rw [nodeNext_U1, nodeNext_U2] at hU
  replace hU : (s (m + 1)).U1 p = (2 / 5 : ℝ) • runGap a s m p ∧
    (s (m + 1)).U2 p = (1 / 5 : ℝ) • (runGap a s m p)ᵀ := hU
  have hV := nodeV_some hl (nodeRun_step hs (m + 1)).1 p
  have hA : nodeA (s (m + 1)) p = nodeX (a.A1 p - a.A2 p) (runGap a s m p) := by
    rw [nodeA_eq, (nodeRun_Y hs m p).1, (nodeRun_Y hs m p).2, hU.1, hU.2]
    unfold nodeX
    rw [transpose_smul, transpose_transpose]
    module
  rw [hA] at hV
  refine ⟨hU.1, hU.2, hV, ?_⟩
  have e : runGap a s (m + 1) p
      = nodeGap ((s (m + 2)).V p) ((s (m + 1)).U1 p) ((s (m + 1)).U2 p) (a.A1 p) (a.A2 p) := rfl
  rw [e, hV, hU.1, hU.2]
  generalize runGap a s m p = g
  unfold nodeGap nodeStep
  rw [transpose_add, transpose_smul, transpose_transpose]
  module

theorem nodeStep_fixed_dist {lam : ℝ} (hl : 0 ≤ lam) {d L : Matrix (Fin n) (Fin n) ℝ}
    (hL : nodeStep lam d L = L) (g : Matrix (Fin n) (Fin n) ℝ) :
    froNorm (nodeStep lam d g - L) ≤ 4 / 5 * froNorm (g - L) := by
  have h := nodeStep_lip hl d g L
  rwa [hL] at h

/-- After the last change of the penalty the gap approaches the fixed point by a factor `4/5` per
pass. -/
theorem nodeRun_rate {a : NodeArgs k n} (hl : 0 ≤ a.lam) {rho : ℝ} (hr : 0 < rho) {s : ℕ → NodeState k n}
    (hs : NodeRun a rho s) {N : ℕ} (hc : ∀ m, N ≤ m → (s (m + 1)).rho = (s m).rho) (p : Fin k)
    {L : Matrix (Fin n) (Fin n) ℝ} (hL : nodeStep a.lam (a.A1 p - a.A2 p) L = L) (m : ℕ) :
    froNorm (runGap a s (N + m) p - L) ≤ (4 / 5) ^ m * froNorm (runGap a s N p - L) := by
  induction m with
  | zero => simp
  | succ m ih =>
    have h1 := (nodeRun_gap hl hr hs (N + m) (hc _ (by omega)) p).2.2.2
    have h2 := nodeStep_fixed_dist hl hL (runGap a s (N + m) p)
    rw [← h1] at h2
    rw [show N + (m + 1) = N + m + 1 by ring, pow_succ]
    linarith

theorem froNorm_Y1 {a : NodeArgs k n} {rho : ℝ} {s : ℕ → NodeState k n} (hs : NodeRun a rho s) (m : ℕ)
    (p : Fin k) (L : Matrix (Fin n) (Fin n) ℝ) :
    froNorm ((s (m + 1)).Y1 p - (a.A1 p + (1 / 5 : ℝ) • L)) = 1 / 5 * froNorm (runGap a s m p - L) ∧
      froNorm ((s (m + 1)).Y2 p - (a.A2 p - (1 / 5 : ℝ) • L)) = 1 / 5 * froNorm (runGap a s m p - L) := by
  rw [(nodeRun_Y hs m p).1, (nodeRun_Y hs m p).2, ← froNorm_smul_nonneg (by norm_num)]
  refine ⟨congrArg froNorm (by module), ?_⟩
  rw [froNorm_sub_comm]
  exact congrArg froNorm (by module)

/-- C191: the pair update of the node penalty, as the time-varying solver calls it. If no pass meets
a column that is exactly zero and the penalty stops changing after pass `N`, then for every pair of
symmetric difference the two networks converge, each pass reducing the error by the factor `4/5`,
to the unitB minimiser of a cost that charges `2/3 * beta` instead of `beta` for the columns of `V`
and `rho/6` for the asymmetry of `V`. Neither the starting values nor the tolerances matter. -/
theorem C191_converges (A1 A2 : Batch k (Fin n)) {beta rho : ℝ} (hb : 0 ≤ beta) (hr : 0 < rho) (tol rtol : ℝ)
    {s : ℕ → NodeState k n} (hs : NodeRun ⟨A1, A2, 1 / 2 * beta / rho, tol, rtol⟩ rho s) {N : ℕ}
    (hc : ∀ m, N ≤ m → (s (m + 1)).rho = (s m).rho) (p : Fin k) (hsym : (A1 p - A2 p).IsSymm) :
    ∃ V Y1 Y2 : Matrix (Fin n) (Fin n) ℝ,
      UniqueMin (NodeSplit (Fin n)) (nodeCodeCost beta rho (A1 p) (A2 p)) (V, Y1, Y2) ∧
      ∃ C, ∀ m, froNorm ((s (N + 1 + m)).Y1 p - Y1) ≤ C * (4 / 5) ^ m ∧
        froNorm ((s (N + 1 + m)).Y2 p - Y2) ≤ C * (4 / 5) ^ m := by
  have hlam : 1 / 2 * beta / rho = beta / (2 * rho) := by field_simp
  rw [hlam] at hs
  have hl : 0 ≤ beta / (2 * rho) := by positivity
  obtain ⟨L, hL⟩ := exists_nodeFixed hl (A1 p - A2 p)
  refine ⟨_, _, _, nodeFixed_uniqueMin hb hr hsym hL,
    1 / 5 * froNorm (runGap ⟨A1, A2, beta / (2 * rho), tol, rtol⟩ s N p - L), fun m => ?_⟩
  have h1 := nodeRun_rate hl hr hs hc p hL m
  have h2 := froNorm_Y1 hs (N + m) p L
  rw [show N + 1 + m = N + m + 1 by ring]
  simp only at h2
  rw [h2.1, h2.2]
  constructor <;> linarith

/-- C191: the residual recorded by a pass bounds the distance of the returned pair to that limit, as
long as the penalty was not changed by the pass before. -/
theorem C191_accuracy (A1 A2 : Batch k (Fin n)) {beta rho : ℝ} (hb : 0 ≤ beta) (hr : 0 < rho) (tol rtol : ℝ)
    {s : ℕ → NodeState k n} (hs : NodeRun ⟨A1, A2, 1 / 2 * beta / rho, tol, rtol⟩ rho s) (m : ℕ)
    (hc : (s (m + 1)).rho = (s m).rho) (p : Fin k) (hsym : (A1 p - A2 p).IsSymm) :
    ∃ V Y1 Y2 : Matrix (Fin n) (Fin n) ℝ,
      UniqueMin (NodeSplit (Fin n)) (nodeCodeCost beta rho (A1 p) (A2 p)) (V, Y1, Y2) ∧
      ∀ c, checkAt (nodeBody ⟨A1, A2, 1 / 2 * beta / rho, tol, rtol⟩) (some (nodeInit k n rho)) (m + 1) = some c →
        froNorm ((s (m + 2)).Y1 p - Y1) ≤ 2 * c.rnorm ∧ froNorm ((s (m + 2)).Y2 p - Y2) ≤ 2 * c.rnorm := by
  have hlam : 1 / 2 * beta / rho = beta / (2 * rho) := by field_simp
  rw [hlam] at hs ⊢
  have hl : 0 ≤ beta / (2 * rho) := by positivity
  obtain ⟨L, hL⟩ := exists_nodeFixed hl (A1 p - A2 p)
  refine ⟨_, _, _, nodeFixed_uniqueMin hb hr hsym hL, fun c hck => ?_⟩
  set a : NodeArgs k n := ⟨A1, A2, beta / (2 * rho), tol, rtol⟩ with ha
  have hg := nodeRun_gap (a := a) hl hr hs m hc p
  have hst := nodeRun_step hs (m + 1)
  -- the recorded residual
  have hcr : c.rnorm = (nodeDiagnose a (s (m + 1)) (nodeNext a (s (m + 1)) (s (m + 2)).V)).rnorm := by
    unfold checkAt at hck
    rw [hs (m + 1)] at hck
    unfold nodeBody at hck
    simp only at hck
    rw [hst.1] at hck
    simp only at hck
    split at hck <;> simp only [Option.some.injEq] at hck <;> rw [← hck]
  set s' := nodeNext a (s (m + 1)) (s (m + 2)).V with hs'
  have hd : froNorm (s'.U1 p - (s (m + 1)).U1 p) ≤ c.rnorm := by
    rw [hcr]
    have e : s'.U1 p - (s (m + 1)).U1 p = s'.V p + s'.W p - (s'.Y1 p - s'.Y2 p) := by
      rw [hs']; unfold nodeNext; simp only; abel
    rw [e, froNorm_eq_sqrt]
    refine Real.sqrt_le_sqrt ?_
    have h1 : frobSq (s'.V p + s'.W p - (s'.Y1 p - s'.Y2 p))
        ≤ batchSq fun p => s'.V p + s'.W p - (s'.Y1 p - s'.Y2 p) := by
      unfold batchSq
      exact Finset.single_le_sum (f := fun p => frobSq (s'.V p + s'.W p - (s'.Y1 p - s'.Y2 p)))
        (fun q _ => frobSq_nonneg _) (Finset.mem_univ p)
    have h2 : 0 ≤ batchSq fun p => s'.V p - (s'.W p)ᵀ := by
      unfold batchSq
      exact Finset.sum_nonneg fun q _ => frobSq_nonneg _
    linarith
  have e2 : s'.U1 p = (2 / 5 : ℝ) • runGap a s (m + 1) p := by rw [hs', nodeNext_U1]; rfl
  rw [e2, hg.1] at hd
  replace hd : froNorm ((2 / 5 : ℝ) • runGap a s (m + 1) p - (2 / 5 : ℝ) • runGap a s m p) ≤ c.rnorm := hd
  rw [← smul_sub, froNorm_smul_nonneg (by norm_num)] at hd
  have h1 := nodeStep_fixed_dist hl hL (runGap a s m p)
  rw [← hg.2.2.2] at h1
  have h2 := froNorm_triangle (runGap a s m p - runGap a s (m + 1) p) (runGap a s (m + 1) p - L)
  rw [sub_add_sub_cancel, froNorm_sub_comm (runGap a s m p) (runGap a s (m + 1) p)] at h2
  have h3 := froNorm_Y1 hs (m + 1) p L
  rw [h3.1, h3.2]
  constructor <;> linarith

/-! ### When the two networks become equal -/

theorem grp_eq_zero_iff {lam : ℝ} (hl : 0 ≤ lam) (X : Matrix (Fin n) (Fin n) ℝ) :
    grp lam X = 0 ↔ ∀ j, npNorm (fun i => X i j) ≤ lam := by
  constructor
  · intro h j
    by_contra hj
    push Not at hj
    have hp : 0 < npNorm fun i => X i j := lt_of_le_of_lt hl hj
    have hc : groupCoef (fun i => X i j) lam ≠ 0 := by
      unfold groupCoef
      rw [if_neg (not_le.mpr hj)]
      have : lam / npNorm (fun i => X i j) < 1 := (div_lt_one hp).mpr hj
      linarith
    have hz : ∀ i, X i j = 0 := fun i => by
      have := congrFun (congrFun h i) j
      rcases mul_eq_zero.mp (show groupCoef (fun i => X i j) lam * X i j = 0 from this) with h0 | h0
      · exact absurd h0 hc
      · exact h0
    rw [show (fun i => X i j) = fun _ => (0 : ℝ) from funext hz, npNorm_zero] at hp
    exact lt_irrefl _ hp
  · intro h
    ext i j
    show groupCoef (fun i => X i j) lam * X i j = 0
    unfold groupCoef
    rw [if_pos (h j), zero_mul]

/-- C191: the limit joins the two networks (`V = 0`, both equal to the mean) exactly when every column
of their difference has norm at most `2/3 * beta / rho`. -/
theorem C191_fuses_iff {beta rho : ℝ} (hb : 0 ≤ beta) (hr : 0 < rho) {A1 A2 : Matrix (Fin n) (Fin n) ℝ}
    (hd : (A1 - A2).IsSymm) :
    IsMin (NodeSplit (Fin n)) (nodeCodeCost beta rho A1 A2)
        (0, (1 / 2 : ℝ) • (A1 + A2), (1 / 2 : ℝ) • (A1 + A2)) ↔
      ∀ j, Real.sqrt (∑ i, (A1 - A2) i j ^ 2) ≤ 2 / 3 * (beta / rho) := by
  have hl : 0 ≤ beta / (2 * rho) := by positivity
  have hx : nodeX (A1 - A2) (-(5 / 2 : ℝ) • (A1 - A2)) = (3 / 4 : ℝ) • (A1 - A2) := by
    unfold nodeX; module
  have hiff : (∀ j, Real.sqrt (∑ i, (A1 - A2) i j ^ 2) ≤ 2 / 3 * (beta / rho)) ↔
      grp (beta / (2 * rho)) ((3 / 4 : ℝ) • (A1 - A2)) = 0 := by
    rw [grp_eq_zero_iff hl]
    refine forall_congr' fun j => ?_
    have e : npNorm (fun i => ((3 / 4 : ℝ) • (A1 - A2)) i j) = 3 / 4 * Real.sqrt (∑ i, (A1 - A2) i j ^ 2) := by
      have := npNorm_smul (3 / 4) fun i => (A1 - A2) i j
      rw [abs_of_pos (by norm_num)] at this
      exact this
    have e2 : beta / (2 * rho) = 3 / 4 * (2 / 3 * (beta / rho)) := by field_simp; norm_num
    rw [e, e2]
    constructor <;> intro h <;> linarith
  rw [hiff]
  constructor
  · intro h
    obtain ⟨L, hL⟩ := exists_nodeFixed hl (A1 - A2)
    have hu := (nodeFixed_uniqueMin hb hr hd hL).eq_of_isMin h
    rw [Prod.mk.injEq, Prod.mk.injEq] at hu
    have hz : grp (beta / (2 * rho)) (nodeX (A1 - A2) L) = 0 := hu.1.symm
    have hLd : L = -(5 / 2 : ℝ) • (A1 - A2) := by
      have h2 := hL
      unfold nodeStep at h2
      rw [hz] at h2
      ext i j
      have h3 := congrFun (congrFun h2 i) j
      simp only [transpose_zero, Matrix.add_apply, Matrix.sub_apply, Matrix.smul_apply, smul_eq_mul,
        Matrix.zero_apply] at h3 ⊢
      linarith
    rw [← hx, ← hLd]
    exact hz
  · intro h
    have hfix : nodeStep (beta / (2 * rho)) (A1 - A2) (-(5 / 2 : ℝ) • (A1 - A2)) = -(5 / 2 : ℝ) • (A1 - A2) := by
      unfold nodeStep
      rw [hx, h, transpose_zero]
      module
    have hu := (nodeFixed_uniqueMin hb hr hd hfix).isMin
    rw [hx, h] at hu
    have e1 : A1 + (1 / 5 : ℝ) • -(5 / 2 : ℝ) • (A1 - A2) = (1 / 2 : ℝ) • (A1 + A2) := by module
    have e2 : A2 - (1 / 5 : ℝ) • -(5 / 2 : ℝ) • (A1 - A2) = (1 / 2 : ℝ) • (A1 + A2) := by module
    rwa [e1, e2] at hu

/-- C191, the specification: the exact pair update joins the two networks already when the columns of
the difference have norm at most `beta / rho`. -/
theorem C191_exact_fuses {beta rho : ℝ} (hr : 0 < rho) {A1 A2 : Matrix (Fin n) (Fin n) ℝ}
    (hd : (A1 - A2).IsSymm) (h : ∀ j, Real.sqrt (∑ i, (A1 - A2) i j ^ 2) ≤ beta / rho) :
    IsNodePair beta rho A1 A2 ((1 / 2 : ℝ) • (A1 + A2)) ((1 / 2 : ℝ) • (A1 + A2)) := by
  refine ⟨0, ?_, ?_⟩
  · show (0 : Matrix (Fin n) (Fin n) ℝ) + 0ᵀ = _ - _
    rw [transpose_zero, add_zero, sub_self]
  · rintro ⟨X, Y1, Y2⟩ hX
    replace hX : X + Xᵀ = Y1 - Y2 := hX
    have q2 : frobSq (Y1 - A1) + frobSq (Y2 - A2)
        = 1 / 2 * frobSq (X + Xᵀ - (A1 - A2)) + 1 / 2 * frobSq ((Y1 - A1) + (Y2 - A2)) := by
      have e : X + Xᵀ - (A1 - A2) = (Y1 - A1) - (Y2 - A2) := by rw [hX]; abel
      rw [e, frobSq_sub (Y1 - A1) (Y2 - A2), frobSq_add]
      ring
    have q3 : frobSq (X + Xᵀ - (A1 - A2)) = frobSq (X + Xᵀ) - 4 * frobInner X (A1 - A2)
        + frobSq (A1 - A2) := by
      rw [frobSq_sub (X + Xᵀ), frobInner_add_left, frobInner_transpose, hd.eq]
      ring
    have q4 : frobSq ((1 / 2 : ℝ) • (A1 + A2) - A1) + frobSq ((1 / 2 : ℝ) • (A1 + A2) - A2)
        = 1 / 2 * frobSq (A1 - A2) := by
      have e1 : (1 / 2 : ℝ) • (A1 + A2) - A1 = -((1 / 2 : ℝ) • (A1 - A2)) := by module
      have e2 : (1 / 2 : ℝ) • (A1 + A2) - A2 = (1 / 2 : ℝ) • (A1 - A2) := by module
      rw [e1, e2, frobSq_neg, frobSq_smul]
      ring
    have hin : rho * frobInner X (A1 - A2) ≤ beta * colNormSum X := by
      have h1 : frobInner X (A1 - A2) ≤ beta / rho * colNormSum X := by
        unfold frobInner colNormSum
        rw [Finset.sum_comm, Finset.mul_sum]
        refine Finset.sum_le_sum fun j _ => ?_
        calc ∑ i, X i j * (A1 - A2) i j ≤ npNorm (fun i => X i j) * npNorm fun i => (A1 - A2) i j :=
              inner_le_npNorm _ _
          _ ≤ npNorm (fun i => X i j) * (beta / rho) :=
              mul_le_mul_of_nonneg_left (h j) (npNorm_nonneg _)
          _ = _ := mul_comm _ _
      calc rho * frobInner X (A1 - A2) ≤ rho * (beta / rho * colNormSum X) :=
            mul_le_mul_of_nonneg_left h1 hr.le
        _ = _ := by field_simp
    have hz : colNormSum (0 : Matrix (Fin n) (Fin n) ℝ) = 0 := by simp [colNormSum]
    unfold nodePairCost
    simp only
    rw [q4, q2, q3, hz]
    have n1 : 0 ≤ rho * frobSq (X + Xᵀ) := mul_nonneg hr.le (frobSq_nonneg _)
    have n2 : 0 ≤ rho * frobSq ((Y1 - A1) + (Y2 - A2)) := mul_nonneg hr.le (frobSq_nonneg _)
    nlinarith [n1, n2, hin]

/-! ### A run in full -/

/-- The batch of one 1×1 matrix. -/
def unitB (c : ℝ) : Batch 1 (Fin 1) := fun _ _ _ => c

/-- State made of such matrices, penalty 1. -/
def unitState (v w y1 y2 u1 u2 : ℝ) : NodeState 1 1 := ⟨unitB v, unitB w, unitB y1, unitB y2, unitB u1, unitB u2, 1⟩

theorem batchSq_one (c : ℝ) : batchSq (unitB c) = c ^ 2 := by
  simp [batchSq, unitB]

theorem nodeV_one {lam v w y1 y2 u1 u2 x : ℝ} (hl : 0 ≤ lam) (hx : x = (y1 - y2 - u1 - u2) / 2) (h0 : x ≠ 0) :
    nodeV lam (unitState v w y1 y2 u1 u2) = some (unitB (if |x| ≤ lam then 0 else x - lam / |x| * x)) := by
  have hA : ∀ p i j, nodeA (unitState v w y1 y2 u1 u2) p i j = x := by
    intro p i j
    rw [nodeA_eq, hx]
    simp only [unitState, unitB, Matrix.smul_apply, Matrix.sub_apply, transpose_apply, smul_eq_mul]
    ring
  rw [nodeV_of_ne hl fun p j => ⟨j, by rw [hA]; exact h0⟩]
  refine congrArg some ?_
  funext p
  ext i j
  show groupCoef (fun q => nodeA _ p q j) lam * nodeA _ p i j = _
  have e : (fun q => nodeA (unitState v w y1 y2 u1 u2) p q j) = fun _ => x := funext fun q => hA p q j
  have e2 : npNorm (fun _ : Fin 1 => x) = |x| := by simp [npNorm, Real.sqrt_sq_eq_abs]
  rw [e, hA]
  unfold groupCoef unitB
  rw [e2]
  split_ifs
  · ring
  · ring

theorem nodeNext_one (a b lam tol rtol v w y1 y2 u1 u2 v' : ℝ) :
    nodeNext ⟨unitB a, unitB b, lam, tol, rtol⟩ (unitState v w y1 y2 u1 u2) (unitB v') =
      unitState v' (v' + u2 - (2 * v' + u1 + u2 - (a - b)) / 5) (a + (2 * v' + u1 + u2 - (a - b)) / 5)
        (b - (2 * v' + u1 + u2 - (a - b)) / 5) (2 * (2 * v' + u1 + u2 - (a - b)) / 5)
        ((2 * v' + u1 + u2 - (a - b)) / 5) := by
  have h : ∀ s t : NodeState 1 1, s.V = t.V → s.W = t.W → s.Y1 = t.Y1 → s.Y2 = t.Y2 → s.U1 = t.U1 →
      s.U2 = t.U2 → s.rho = t.rho → s = t := by
    rintro ⟨⟩ ⟨⟩ h1 h2 h3 h4 h5 h6 h7
    simp only at h1 h2 h3 h4 h5 h6 h7
    subst h1 h2 h3 h4 h5 h6 h7
    rfl
  apply h
  · rfl
  · funext p
    rw [nodeNext_W]
    ext i j
    simp only [nodeGap, unitState, unitB, Matrix.smul_apply, Matrix.sub_apply, Matrix.add_apply,
      transpose_apply, smul_eq_mul]
    ring
  · funext p
    rw [nodeNext_Y1]
    ext i j
    simp only [nodeGap, unitState, unitB, Matrix.smul_apply, Matrix.sub_apply, Matrix.add_apply,
      transpose_apply, smul_eq_mul]
    ring
  · funext p
    rw [nodeNext_Y2]
    ext i j
    simp only [nodeGap, unitState, unitB, Matrix.smul_apply, Matrix.sub_apply, Matrix.add_apply,
      transpose_apply, smul_eq_mul]
    ring
  · funext p
    rw [nodeNext_U1]
    ext i j
    simp only [nodeGap, unitState, unitB, Matrix.smul_apply, Matrix.sub_apply, Matrix.add_apply,
      transpose_apply, smul_eq_mul]
    ring
  · funext p
    rw [nodeNext_U2]
    ext i j
    simp only [nodeGap, unitState, unitB, Matrix.smul_apply, Matrix.sub_apply, Matrix.add_apply,
      transpose_apply, smul_eq_mul]
    ring
  · rfl

theorem nodeDiagnose_one (a b lam tol rtol v w y1 y2 u1 u2 v' w' y1' y2' u1' u2' : ℝ) :
    nodeDiagnose ⟨unitB a, unitB b, lam, tol, rtol⟩ (unitState v w y1 y2 u1 u2) (unitState v' w' y1' y2' u1' u2') =
      ⟨Real.sqrt ((v' + w' - (y1' - y2')) ^ 2 + (v' - w') ^ 2),
        1 * Real.sqrt ((w' - w) ^ 2 + (v' + w' - v - w) ^ 2),
        Real.sqrt (2 * (1 * (1 * 1))) * tol + rtol * max (Real.sqrt (w' ^ 2 + (v' + w') ^ 2))
          (Real.sqrt (v' ^ 2 + (y1' - y2') ^ 2)),
        Real.sqrt (2 * (1 * (1 * 1))) * tol + rtol * 1 * Real.sqrt (u1' ^ 2 + u2' ^ 2)⟩ := by
  have e1 : (fun p => (unitB v' p + unitB w' p - (unitB y1' p - unitB y2' p) : Matrix (Fin 1) (Fin 1) ℝ))
      = unitB (v' + w' - (y1' - y2')) := rfl
  have e2 : (fun p => (unitB v' p - (unitB w' p)ᵀ : Matrix (Fin 1) (Fin 1) ℝ)) = unitB (v' - w') := rfl
  have e3 : (fun p => (unitB w' p - unitB w p : Matrix (Fin 1) (Fin 1) ℝ)) = unitB (w' - w) := rfl
  have e4 : (fun p => (unitB v' p + unitB w' p - unitB v p - unitB w p : Matrix (Fin 1) (Fin 1) ℝ))
      = unitB (v' + w' - v - w) := rfl
  have e5 : (fun p => (unitB v' p + unitB w' p : Matrix (Fin 1) (Fin 1) ℝ)) = unitB (v' + w') := rfl
  have e6 : (fun p => (unitB y1' p - unitB y2' p : Matrix (Fin 1) (Fin 1) ℝ)) = unitB (y1' - y2') := rfl
  unfold nodeDiagnose unitState
  simp only [e1, e2, e3, e4, e5, e6, batchSq_one, Nat.cast_one]

/-- One pass from such a state, when the residuals do not call for another penalty. -/
theorem nodeBody_one {a b lam tol rtol v w y1 y2 u1 u2 x v' g : ℝ} (it : ℕ) (hl : 0 ≤ lam)
    (hx : x = (y1 - y2 - u1 - u2) / 2) (h0 : x ≠ 0) (hv : (if |x| ≤ lam then 0 else x - lam / |x| * x) = v')
    (hg : g = 2 * v' + u1 + u2 - (a - b))
    (h1 : Real.sqrt ((v' + (v' + u2 - g / 5) - (a + g / 5 - (b - g / 5))) ^ 2 + (v' - (v' + u2 - g / 5)) ^ 2)
      ≤ 10 * Real.sqrt ((v' + u2 - g / 5 - w) ^ 2 + (v' + (v' + u2 - g / 5) - v - w) ^ 2))
    (h2 : Real.sqrt ((v' + u2 - g / 5 - w) ^ 2 + (v' + (v' + u2 - g / 5) - v - w) ^ 2) ≤
      10 * Real.sqrt ((v' + (v' + u2 - g / 5) - (a + g / 5 - (b - g / 5))) ^ 2 + (v' - (v' + u2 - g / 5)) ^ 2)) :
    (nodeBody ⟨unitB a, unitB b, lam, tol, rtol⟩ it (some (unitState v w y1 y2 u1 u2))).1 =
      some (unitState v' (v' + u2 - g / 5) (a + g / 5) (b - g / 5) (2 * g / 5) (g / 5)) ∧
    ((nodeBody ⟨unitB a, unitB b, lam, tol, rtol⟩ it (some (unitState v w y1 y2 u1 u2))).2.2 = true →
      Real.sqrt ((v' + (v' + u2 - g / 5) - (a + g / 5 - (b - g / 5))) ^ 2 + (v' - (v' + u2 - g / 5)) ^ 2) ≤
        Real.sqrt (2 * (1 * (1 * 1))) * tol + rtol * max
          (Real.sqrt ((v' + u2 - g / 5) ^ 2 + (v' + (v' + u2 - g / 5)) ^ 2))
          (Real.sqrt (v' ^ 2 + (a + g / 5 - (b - g / 5)) ^ 2))) := by
  have hn := nodeNext_one a b lam tol rtol v w y1 y2 u1 u2 v'
  rw [← hg] at hn
  have hV := nodeV_one (v := v) (w := w) hl hx h0
  rw [hv] at hV
  have hd := nodeDiagnose_one a b lam tol rtol v w y1 y2 u1 u2 v' (v' + u2 - g / 5) (a + g / 5)
    (b - g / 5) (2 * g / 5) (g / 5)
  unfold nodeBody
  simp only [hV, hn, hd]
  have hrho : ∀ r t : ℝ, r ≤ 10 * t → t ≤ 10 * r → updateRho {} (unitState v w y1 y2 u1 u2).rho r t = 1 := by
    intro r t hr ht
    unfold updateRho
    simp only
    rw [if_neg (not_lt.mpr hr), if_neg (not_lt.mpr ht)]
    rfl
  split_ifs with hs
  · exact ⟨rfl, fun _ => hs.1⟩
  · rw [hrho _ _ (by rw [one_mul]; exact h1) (by rw [one_mul]; exact h2)]
    refine ⟨?_, fun h => by cases h⟩
    unfold nodeRescale unitState
    simp

/-- The data of the example: `A_1 = 10`, `A_2 = 0`, `beta = 2`, `rho = 1`. -/
noncomputable def tenArgs (tol rtol : ℝ) : NodeArgs 1 1 := ⟨unitB 10, unitB 0, 1, tol, rtol⟩

/-- The state of the example after the second pass and later. -/
noncomputable def tenState (e : ℝ) : NodeState 1 1 :=
  unitState (13 / 3 + 5 / 2 * e) (13 / 3 - e / 2) (28 / 3 - 2 * e) (2 / 3 + 2 * e) (-4 / 3 - 4 * e) (-2 / 3 - 2 * e)

theorem sqrt_le_ten {x y : ℝ} (_hy : 0 ≤ y) (h : x ≤ 100 * y) : Real.sqrt x ≤ 10 * Real.sqrt y := by
  rw [show (10 : ℝ) = Real.sqrt (10 ^ 2) by rw [Real.sqrt_sq (by norm_num)], ← Real.sqrt_mul (by norm_num)]
  exact Real.sqrt_le_sqrt (by linarith)

theorem stop_bound {r q m t rt : ℝ} (h : r ≤ q * t + rt * m) (h1 : 1 ≤ r) (h2 : q ≤ 2) (h3 : m ≤ 11) (h4 : 0 ≤ q)
    (h5 : 0 ≤ m) (ht : t ≤ 1 / 100) (hr : rt ≤ 1 / 100) : False := by
  have := mul_le_mul_of_nonneg_left ht h4
  have := mul_le_mul_of_nonneg_right hr h5
  linarith

theorem ten_zero (tol rtol : ℝ) (it : ℕ) :
    (nodeBody (tenArgs tol rtol) it (some (nodeInit 1 1 1))).1 =
      some (unitState 0 (13 / 5) (42 / 5) (8 / 5) (-16 / 5) (-8 / 5)) ∧
    (tol ≤ 1 / 100 → rtol ≤ 1 / 100 →
      (nodeBody (tenArgs tol rtol) it (some (nodeInit 1 1 1))).2.2 = false) := by
  have hi : nodeInit 1 1 1 = unitState 0 0 1 1 1 1 := by
    unfold nodeInit unitState unitB
    simp only [Nat.cast_one, div_one]
    rfl
  have h := nodeBody_one (a := 10) (b := 0) (lam := 1) (tol := tol) (rtol := rtol) (v := 0) (w := 0) (y1 := 1)
    (y2 := 1) (u1 := 1) (u2 := 1) (x := -1) (v' := 0) (g := -8) it (by norm_num) (by norm_num) (by norm_num)
    (by norm_num) (by norm_num) (sqrt_le_ten (by positivity) (by norm_num)) (sqrt_le_ten (by positivity) (by norm_num))
  rw [hi]
  refine ⟨?_, ?_⟩
  · rw [show tenArgs tol rtol = ⟨unitB 10, unitB 0, 1, tol, rtol⟩ from rfl, h.1]
    norm_num
  · intro ht hr
    by_contra hb
    have h2 := h.2 (by rw [Bool.not_eq_false] at hb; exact hb)
    have l1 : (4 : ℝ) ≤ Real.sqrt ((0 + (0 + 1 - -8 / 5) - (10 + -8 / 5 - (0 - -8 / 5))) ^ 2
        + (0 - (0 + 1 - -8 / 5)) ^ 2) := Real.le_sqrt_of_sq_le (by norm_num)
    have l2 : Real.sqrt (2 * (1 * (1 * 1))) ≤ 2 := Real.sqrt_le_iff.mpr ⟨by norm_num, by norm_num⟩
    have l3 : max (Real.sqrt ((0 + 1 - -8 / 5) ^ 2 + (0 + (0 + 1 - -8 / 5)) ^ 2))
        (Real.sqrt (0 ^ 2 + (10 + -8 / 5 - (0 - -8 / 5)) ^ 2)) ≤ (10 : ℝ) :=
      max_le (Real.sqrt_le_iff.mpr ⟨by norm_num, by norm_num⟩) (Real.sqrt_le_iff.mpr ⟨by norm_num, by norm_num⟩)
    have l4 := Real.sqrt_nonneg (2 * (1 * (1 * 1)))
    have l5 : 0 ≤ max (Real.sqrt ((0 + 1 - -8 / 5) ^ 2 + (0 + (0 + 1 - -8 / 5)) ^ 2))
        (Real.sqrt (0 ^ 2 + (10 + -8 / 5 - (0 - -8 / 5)) ^ 2)) := le_max_of_le_left (Real.sqrt_nonneg _)
    exact stop_bound h2 (le_trans (by norm_num) l1) l2 (le_trans l3 (by norm_num)) l4 l5 ht hr

theorem ten_one (tol rtol : ℝ) (it : ℕ) :
    (nodeBody (tenArgs tol rtol) it (some (unitState 0 (13 / 5) (42 / 5) (8 / 5) (-16 / 5) (-8 / 5)))).1 =
      some (tenState (14 / 75)) ∧
    (tol ≤ 1 / 100 → rtol ≤ 1 / 100 →
      (nodeBody (tenArgs tol rtol) it
        (some (unitState 0 (13 / 5) (42 / 5) (8 / 5) (-16 / 5) (-8 / 5)))).2.2 = false) := by
  have h := nodeBody_one (a := 10) (b := 0) (lam := 1) (tol := tol) (rtol := rtol) (v := 0) (w := 13 / 5)
    (y1 := 42 / 5) (y2 := 8 / 5) (u1 := -16 / 5) (u2 := -8 / 5) (x := 29 / 5) (v' := 24 / 5) (g := -26 / 5) it
    (by norm_num) (by norm_num) (by norm_num)
    (by rw [abs_of_pos (by norm_num)]; norm_num) (by norm_num)
    (sqrt_le_ten (by positivity) (by norm_num)) (sqrt_le_ten (by positivity) (by norm_num))
  refine ⟨?_, ?_⟩
  · rw [show tenArgs tol rtol = ⟨unitB 10, unitB 0, 1, tol, rtol⟩ from rfl, h.1]
    unfold tenState
    norm_num
  · intro ht hr
    by_contra hb
    have h2 := h.2 (by rw [Bool.not_eq_false] at hb; exact hb)
    have l1 : (1 : ℝ) ≤ Real.sqrt ((24 / 5 + (24 / 5 + -8 / 5 - -26 / 5 / 5) - (10 + -26 / 5 / 5 - (0 - -26 / 5 / 5))) ^ 2
        + (24 / 5 - (24 / 5 + -8 / 5 - -26 / 5 / 5)) ^ 2) := Real.le_sqrt_of_sq_le (by norm_num)
    have l2 : Real.sqrt (2 * (1 * (1 * 1))) ≤ 2 := Real.sqrt_le_iff.mpr ⟨by norm_num, by norm_num⟩
    have l3 : max (Real.sqrt ((24 / 5 + -8 / 5 - -26 / 5 / 5) ^ 2 + (24 / 5 + (24 / 5 + -8 / 5 - -26 / 5 / 5)) ^ 2))
        (Real.sqrt ((24 / 5) ^ 2 + (10 + -26 / 5 / 5 - (0 - -26 / 5 / 5)) ^ 2)) ≤ (11 : ℝ) :=
      max_le (Real.sqrt_le_iff.mpr ⟨by norm_num, by norm_num⟩) (Real.sqrt_le_iff.mpr ⟨by norm_num, by norm_num⟩)
    have l4 := Real.sqrt_nonneg (2 * (1 * (1 * 1)))
    have l5 : 0 ≤ max (Real.sqrt ((24 / 5 + -8 / 5 - -26 / 5 / 5) ^ 2 + (24 / 5 + (24 / 5 + -8 / 5 - -26 / 5 / 5)) ^ 2))
        (Real.sqrt ((24 / 5) ^ 2 + (10 + -26 / 5 / 5 - (0 - -26 / 5 / 5)) ^ 2)) :=
      le_max_of_le_left (Real.sqrt_nonneg _)
    exact stop_bound h2 l1 l2 l3 l4 l5 ht hr

theorem ten_step (tol rtol : ℝ) (it : ℕ) {e : ℝ} (he : 0 < e) :
    (nodeBody (tenArgs tol rtol) it (some (tenState e))).1 = some (tenState (2 / 5 * e)) := by
  have hx : 1 < 16 / 3 + e := by linarith
  have h := nodeBody_one (a := 10) (b := 0) (lam := 1) (tol := tol) (rtol := rtol) (v := 13 / 3 + 5 / 2 * e)
    (w := 13 / 3 - e / 2) (y1 := 28 / 3 - 2 * e) (y2 := 2 / 3 + 2 * e) (u1 := -4 / 3 - 4 * e)
    (u2 := -2 / 3 - 2 * e) (x := 16 / 3 + e) (v' := 13 / 3 + e) (g := -10 / 3 - 4 * e) it
    (by norm_num) (by ring) (by linarith)
    (by
      rw [abs_of_pos (by linarith), if_neg (not_le.mpr hx)]
      field_simp
      ring)
    (by ring)
    (sqrt_le_ten (by positivity) (by nlinarith [sq_nonneg e])) (sqrt_le_ten (by positivity) (by nlinarith [sq_nonneg e]))
  rw [show tenArgs tol rtol = ⟨unitB 10, unitB 0, 1, tol, rtol⟩ from rfl, show tenState e = unitState _ _ _ _ _ _ from rfl,
    h.1]
  unfold tenState
  refine congrArg some ?_
  congr 1 <;> ring

theorem ten_run (tol rtol : ℝ) (m : ℕ) :
    stateAt (nodeBody (tenArgs tol rtol)) (some (nodeInit 1 1 1)) (m + 2)
      = some (tenState (14 / 75 * (2 / 5) ^ m)) := by
  induction m with
  | zero =>
    show (nodeBody _ 1 (nodeBody _ 0 (some (nodeInit 1 1 1))).1).1 = _
    rw [(ten_zero tol rtol 0).1, (ten_one tol rtol 1).1, pow_zero, mul_one]
  | succ m ih =>
    show (nodeBody _ (m + 2) (stateAt (nodeBody (tenArgs tol rtol)) (some (nodeInit 1 1 1)) (m + 2))).1 = _
    rw [ih, ten_step tol rtol (m + 2) (by positivity), pow_succ]
    refine congrArg (fun e => some (tenState e)) ?_
    ring

/-- C191, counterexample: two 1×1 networks, `A_1 = 10`, `A_2 = 0`, `beta = 2`, `rho = 1`. The exact
pair update of the node penalty is `(9, 1)`. The code returns a first network of at least `9.18`
for every budget of three passes or more and all tolerances up to unitB hundredth. -/
theorem C191_exact_false {tol rtol : ℝ} (ht : tol ≤ 1 / 100) (hr : rtol ≤ 1 / 100) {maxIter : ℕ} (hm : 3 ≤ maxIter) :
    (∃ Y1 Y2, nodeCall (unitB 10) (unitB 0) 2 1 tol rtol maxIter = some (Y1, Y2) ∧
      9 + 18 / 100 ≤ Y1 0 0 0 ∧ Y2 0 0 0 ≤ 1 - 18 / 100) ∧
    ∀ Z1 Z2, IsNodePair 2 1 (unitB 10 0) (unitB 0 0) Z1 Z2 → Z1 0 0 = 9 ∧ Z2 0 0 = 1 := by
  constructor
  · have ha : nodeCall (unitB 10) (unitB 0) 2 1 tol rtol maxIter
        = (runLoop (nodeBody (tenArgs tol rtol)) maxIter (some (nodeInit 1 1 1))).state.map fun s => (s.Y1, s.Y2) := by
      unfold nodeCall proxNodePenalty tenArgs
      norm_num
    have key : ∀ m, 3 ≤ m → ∃ e : ℝ, 0 < e ∧ e ≤ 14 / 75 * (2 / 5) ∧
        stateAt (nodeBody (tenArgs tol rtol)) (some (nodeInit 1 1 1)) m = some (tenState e) := by
      intro m hm
      obtain ⟨q, rfl⟩ : ∃ q, m = q + 1 + 2 := ⟨m - 3, by omega⟩
      refine ⟨_, by positivity, ?_, ten_run tol rtol (q + 1)⟩
      have : ((2 : ℝ) / 5) ^ q ≤ 1 := pow_le_one₀ (by norm_num) (by norm_num)
      rw [pow_succ]
      linarith
    have hst0 : stopAt (nodeBody (tenArgs tol rtol)) (some (nodeInit 1 1 1)) 0 = false :=
      (ten_zero tol rtol 0).2 ht hr
    have hst1 : stopAt (nodeBody (tenArgs tol rtol)) (some (nodeInit 1 1 1)) 1 = false := by
      show (nodeBody _ 1 (nodeBody _ 0 (some (nodeInit 1 1 1))).1).2.2 = _
      rw [(ten_zero tol rtol 0).1]
      exact (ten_one tol rtol 1).2 ht hr
    have hfin : ∃ e : ℝ, 0 < e ∧ e ≤ 14 / 75 * (2 / 5) ∧
        (runLoop (nodeBody (tenArgs tol rtol)) maxIter (some (nodeInit 1 1 1))).state = some (tenState e) := by
      rcases runLoop_spec (nodeBody (tenArgs tol rtol)) maxIter (some (nodeInit 1 1 1)) with
        ⟨j, _, _, hs, h⟩ | ⟨_, h⟩
      · rw [h]
        refine key (j + 1) ?_
        rcases j with _ | _ | j
        · rw [hst0] at hs; cases hs
        · rw [hst1] at hs; cases hs
        · omega
      · rw [h]
        exact key maxIter hm
    obtain ⟨e, he0, he1, hst⟩ := hfin
    refine ⟨unitB (28 / 3 - 2 * e), unitB (2 / 3 + 2 * e), ?_, ?_, ?_⟩
    · rw [ha, hst]
      rfl
    · show 9 + 18 / 100 ≤ 28 / 3 - 2 * e
      linarith
    · show 2 / 3 + 2 * e ≤ 1 - 18 / 100
      linarith
  · rintro Z1 Z2 ⟨V, hV, hmin⟩
    replace hV : V + Vᵀ = Z1 - Z2 := hV
    have h := hmin (fun _ _ => 4, fun _ _ => 9, fun _ _ => 1) (by
      show (_ : Matrix (Fin 1) (Fin 1) ℝ) + _ = _ - _
      ext i j
      show (4 : ℝ) + 4 = 9 - 1
      norm_num)
    have hv := congrFun (congrFun hV 0) 0
    simp only [Matrix.add_apply, Matrix.sub_apply, transpose_apply] at hv
    simp only [nodePairCost, colNormSum, frobSq, Finset.univ_unique, Finset.sum_singleton, Fin.default_eq_zero,
      Real.sqrt_sq_eq_abs, Matrix.sub_apply, unitB] at h
    have h4 : |(4 : ℝ)| = 4 := abs_of_pos (by norm_num)
    rw [h4] at h
    replace h : 2 * |V 0 0| + 1 / 2 * ((Z1 0 0 - 10) ^ 2 + (Z2 0 0 - 0) ^ 2)
        ≤ 2 * 4 + 1 / 2 * (((9 : ℝ) - 10) ^ 2 + ((1 : ℝ) - 0) ^ 2) := h
    have h5 := le_abs_self (V 0 0)
    constructor
    · nlinarith [sq_nonneg (Z1 0 0 - 9), sq_nonneg (Z2 0 0 - 1)]
    · nlinarith [sq_nonneg (Z1 0 0 - 9), sq_nonneg (Z2 0 0 - 1)]

/-- The hypotheses of `C191_converges` are met by that run: no NaN, and the penalty never changes. -/
example : ∃ s : ℕ → NodeState 1 1, NodeRun ⟨unitB 10, unitB 0, 1 / 2 * 2 / 1, 1 / 10000, 1 / 100⟩ 1 s ∧
    (∀ m, 2 ≤ m → (s (m + 1)).rho = (s m).rho) ∧ (unitB 10 0 - unitB 0 0 : Matrix (Fin 1) (Fin 1) ℝ).IsSymm := by
  refine ⟨fun m => match m with
    | 0 => nodeInit 1 1 1
    | 1 => unitState 0 (13 / 5) (42 / 5) (8 / 5) (-16 / 5) (-8 / 5)
    | m + 2 => tenState (14 / 75 * (2 / 5) ^ m), ?_, ?_, ?_⟩
  · have e : (⟨unitB 10, unitB 0, 1 / 2 * 2 / 1, 1 / 10000, 1 / 100⟩ : NodeArgs 1 1) = tenArgs (1 / 10000) (1 / 100) := by
      unfold tenArgs; norm_num
    rw [e]
    intro m
    rcases m with _ | _ | m
    · rfl
    · exact (ten_zero _ _ 0).1
    · exact ten_run _ _ m
  · intro m hm
    obtain ⟨q, rfl⟩ : ∃ q, m = q + 2 := ⟨m - 2, by omega⟩
    rfl
  · ext i j
    rfl

/-- Both sides of `C191_fuses_iff` and `C191_exact_fuses` occur: a difference of `1/2` with `beta = rho = 1`
is joined by both, a difference of `5/6` only by the exact update. -/
example : (∀ _j : Fin 1, Real.sqrt (∑ _i : Fin 1, ((1 / 2 : ℝ)) ^ 2) ≤ 2 / 3 * ((1 : ℝ) / 1)) ∧
    Real.sqrt (∑ _i : Fin 1, ((5 / 6 : ℝ)) ^ 2) ≤ (1 : ℝ) / 1 ∧
    ¬ Real.sqrt (∑ _i : Fin 1, ((5 / 6 : ℝ)) ^ 2) ≤ 2 / 3 * ((1 : ℝ) / 1) := by
  simp only [Finset.univ_unique, Finset.sum_singleton, Real.sqrt_sq_eq_abs]
  rw [abs_of_pos (by norm_num), abs_of_pos (by norm_num)]
  norm_num

/-! ### NaN -/

/-- C191, counterexample: if some pair of networks differs by `1 / (3 n)` in every entry (a constant
change) and `beta / (2 rho) ≥ 1`, `rho = 1`, then the pair update contains NaN for every budget of
two passes or more. -/
theorem C191_nan_false {n : ℕ} (hn : 1 ≤ n) (A2 : Batch 1 (Fin n)) {beta tol rtol : ℝ} (hb : 2 ≤ beta) (ht : 0 ≤ tol)
    (hrt : 0 ≤ rtol) (htol : 2 * n * tol + rtol ≤ 7 / 10) {maxIter : ℕ} (hm : 2 ≤ maxIter) :
    nodeCall (fun p => A2 p + Matrix.of fun _ _ => 1 / (3 * (n : ℝ))) A2 beta 1 tol rtol maxIter = none := by
  have hn0 : (0 : ℝ) < n := by exact_mod_cast hn
  set a : NodeArgs 1 n := ⟨fun p => A2 p + Matrix.of fun _ _ => 1 / (3 * (n : ℝ)), A2, 1 / 2 * beta / 1, tol, rtol⟩
    with ha
  have hl1 : 1 ≤ a.lam := by simp only [ha]; linarith
  have hA : ∀ p i j, nodeA (nodeInit 1 n 1) p i j = -1 / (n : ℝ) := by
    intro p i j
    rw [nodeA_eq]
    show 1 / 2 * (1 / (n : ℝ) - 1 / n - 1 / n - 1 / n) = _
    ring
  have hV : nodeV a.lam (nodeInit 1 n 1) = some (0 : Batch 1 (Fin n)) := by
    rw [nodeV_of_ne (by linarith) fun p j => ⟨j, by
      rw [hA]; exact div_ne_zero (by norm_num) hn0.ne'⟩]
    refine congrArg some ?_
    funext p
    refine (grp_eq_zero_iff (by linarith) _).mpr fun j => le_trans ?_ hl1
    have e : (fun i => nodeA (nodeInit 1 n 1) p i j) = fun _ => -1 / (n : ℝ) := funext fun i => hA p i j
    rw [e]
    unfold npNorm
    refine Real.sqrt_le_iff.mpr ⟨by norm_num, ?_⟩
    rw [Finset.sum_const, Finset.card_univ, Fintype.card_fin, nsmul_eq_mul]
    have : (n : ℝ) * (-1 / (n : ℝ)) ^ 2 = 1 / n := by field_simp
    rw [this, div_le_iff₀ hn0]
    have : (1 : ℝ) ≤ n := by exact_mod_cast hn
    linarith
  set s1 := nodeNext a (nodeInit 1 n 1) 0 with hs1
  have hgap : ∀ p, nodeGap (0 : Matrix (Fin n) (Fin n) ℝ) ((nodeInit 1 n 1).U1 p) ((nodeInit 1 n 1).U2 p) (a.A1 p)
      (a.A2 p) = Matrix.of fun _ _ => 5 / (3 * (n : ℝ)) := by
    intro p
    ext i j
    show (0 : ℝ) + 1 / n + (0 + 1 / n) - (A2 p i j + 1 / (3 * (n : ℝ)) - A2 p i j) = 5 / (3 * (n : ℝ))
    field_simp
    ring
  have hW : s1.W = fun _ => Matrix.of fun _ _ => 2 / (3 * (n : ℝ)) := by
    funext p
    rw [hs1, nodeNext_W]
    have := hgap p
    simp only [Pi.zero_apply] at this ⊢
    rw [this]
    ext i j
    show (0 : ℝ) + 1 / n - 1 / 5 * (5 / (3 * (n : ℝ))) = 2 / (3 * (n : ℝ))
    field_simp
    ring
  have hY : ∀ p, s1.Y1 p - s1.Y2 p = Matrix.of fun _ _ => 1 / (n : ℝ) := by
    intro p
    rw [hs1, nodeNext_Y1, nodeNext_Y2]
    have := hgap p
    simp only [Pi.zero_apply] at this ⊢
    rw [this]
    ext i j
    simp only [ha, Matrix.add_apply, Matrix.sub_apply, Matrix.smul_apply, Matrix.of_apply, smul_eq_mul]
    field_simp
    ring
  have hU1 : ∀ p, s1.U1 p = Matrix.of fun _ _ => 2 / (3 * (n : ℝ)) := by
    intro p
    rw [hs1, nodeNext_U1]
    have := hgap p
    simp only [Pi.zero_apply] at this ⊢
    rw [this]
    ext i j
    simp only [Matrix.smul_apply, Matrix.of_apply, smul_eq_mul]
    field_simp
  have hU2 : ∀ p, s1.U2 p = Matrix.of fun _ _ => 1 / (3 * (n : ℝ)) := by
    intro p
    rw [hs1, nodeNext_U2]
    have := hgap p
    simp only [Pi.zero_apply] at this ⊢
    rw [this]
    ext i j
    simp only [Matrix.smul_apply, Matrix.of_apply, transpose_apply, smul_eq_mul]
    field_simp
  have hsq : ∀ c : ℝ, batchSq (fun _ : Fin 1 => (Matrix.of fun _ _ => c / (3 * (n : ℝ)) : Matrix (Fin n) (Fin n) ℝ))
      = c ^ 2 / 9 := by
    intro c
    simp only [batchSq, Matrix.of_apply, Finset.sum_const, Finset.card_univ, Fintype.card_fin, nsmul_eq_mul,
      Nat.cast_one, one_mul]
    field_simp
    ring
  have hV1 : s1.V = 0 := rfl
  have hd : (nodeDiagnose a (nodeInit 1 n 1) s1).rnorm = Real.sqrt (1 / 9 + 4 / 9) ∧
      (nodeDiagnose a (nodeInit 1 n 1) s1).snorm = Real.sqrt (4 / 9 + 4 / 9) ∧
      (nodeDiagnose a (nodeInit 1 n 1) s1).ePri
        = Real.sqrt (2 * (1 * (n * n))) * tol + rtol * max (Real.sqrt (4 / 9 + 4 / 9)) (Real.sqrt (0 + 1)) := by
    have f1 : (fun p => s1.V p + s1.W p - (s1.Y1 p - s1.Y2 p))
        = fun _ : Fin 1 => (Matrix.of fun _ _ => (-1) / (3 * (n : ℝ)) : Matrix (Fin n) (Fin n) ℝ) := by
      funext p
      rw [hY, hW, hV1]
      ext i j
      simp only [Pi.zero_apply, Matrix.add_apply, Matrix.sub_apply, Matrix.zero_apply, Matrix.of_apply]
      field_simp
      ring
    have f2 : (fun p => s1.V p - (s1.W p)ᵀ)
        = fun _ : Fin 1 => (Matrix.of fun _ _ => (-2) / (3 * (n : ℝ)) : Matrix (Fin n) (Fin n) ℝ) := by
      funext p
      rw [hW, hV1]
      ext i j
      simp only [Pi.zero_apply, Matrix.sub_apply, Matrix.zero_apply, Matrix.of_apply, transpose_apply]
      ring
    have f3 : (fun p => s1.W p - (nodeInit 1 n 1).W p)
        = fun _ : Fin 1 => (Matrix.of fun _ _ => 2 / (3 * (n : ℝ)) : Matrix (Fin n) (Fin n) ℝ) := by
      funext p
      rw [hW]
      simp [nodeInit]
    have f4 : (fun p => s1.V p + s1.W p - (nodeInit 1 n 1).V p - (nodeInit 1 n 1).W p)
        = fun _ : Fin 1 => (Matrix.of fun _ _ => 2 / (3 * (n : ℝ)) : Matrix (Fin n) (Fin n) ℝ) := by
      funext p
      rw [hW, hV1]
      simp [nodeInit]
    have f5 : (fun p => s1.V p + s1.W p)
        = fun _ : Fin 1 => (Matrix.of fun _ _ => 2 / (3 * (n : ℝ)) : Matrix (Fin n) (Fin n) ℝ) := by
      funext p
      rw [hW, hV1]
      simp
    have f6 : (fun p => s1.Y1 p - s1.Y2 p)
        = fun _ : Fin 1 => (Matrix.of fun _ _ => 3 / (3 * (n : ℝ)) : Matrix (Fin n) (Fin n) ℝ) := by
      funext p
      rw [hY]
      ext i j
      simp only [Matrix.of_apply]
      field_simp
    have f7 : batchSq s1.V = 0 := by rw [hV1]; simp [batchSq]
    unfold nodeDiagnose
    simp only [f1, f2, f3, f4, f5, f6, f7]
    rw [hW]
    simp only [hsq]
    refine ⟨?_, ?_, ?_⟩
    · norm_num
    · show 1 * Real.sqrt _ = _
      rw [one_mul]
      norm_num
    · simp only [ha, Nat.cast_one]
      norm_num
  have h1 : nodeBody a 0 (some (nodeInit 1 n 1))
      = (some s1, some (nodeDiagnose a (nodeInit 1 n 1) s1), false) := by
    unfold nodeBody
    simp only [hV]
    rw [← hs1, if_neg]
    · rw [hd.1, hd.2.1]
      have hrho : updateRho {} (nodeInit 1 n 1).rho (Real.sqrt (1 / 9 + 4 / 9)) (Real.sqrt (4 / 9 + 4 / 9)) = 1 := by
        unfold updateRho
        simp only
        rw [if_neg (not_lt.mpr (sqrt_le_ten (by norm_num) (by norm_num))),
          if_neg (not_lt.mpr (sqrt_le_ten (by norm_num) (by norm_num)))]
        rfl
      rw [hrho]
      have : nodeRescale 1 s1 = s1 := by
        have hr1 : s1.rho = 1 := rfl
        unfold nodeRescale
        rw [hr1]
        simp only [div_one, one_smul]
        rw [← hr1]
      rw [this]
    · rintro ⟨h, -⟩
      rw [hd.1, hd.2.2] at h
      have l1 : (74 / 100 : ℝ) ≤ Real.sqrt (1 / 9 + 4 / 9) := Real.le_sqrt_of_sq_le (by norm_num)
      have l2 : Real.sqrt (2 * (1 * ((n : ℝ) * n))) ≤ 2 * n :=
        Real.sqrt_le_iff.mpr ⟨by positivity, by nlinarith⟩
      have l3 : max (Real.sqrt (4 / 9 + 4 / 9)) (Real.sqrt (0 + 1)) ≤ (1 : ℝ) :=
        max_le (Real.sqrt_le_iff.mpr ⟨by norm_num, by norm_num⟩) (Real.sqrt_le_iff.mpr ⟨by norm_num, by norm_num⟩)
      nlinarith [mul_le_mul_of_nonneg_right l2 ht, mul_le_mul_of_nonneg_left l3 hrt]
  have h2 : nodeV a.lam s1 = none := by
    refine nodeV_none (by linarith) 0 ⟨0, hn⟩ fun q => ?_
    rw [nodeA_eq, hY, hU1, hU2]
    simp only [Matrix.smul_apply, Matrix.sub_apply, Matrix.of_apply, transpose_apply, smul_eq_mul]
    field_simp
    ring
  have hnone : ∀ m, stateAt (nodeBody a) (some (nodeInit 1 n 1)) (m + 2) = none := by
    intro m
    induction m with
    | zero =>
      show (nodeBody a 1 (nodeBody a 0 (some (nodeInit 1 n 1))).1).1 = none
      rw [h1]
      unfold nodeBody
      simp only [h2]
    | succ m ih =>
      show (nodeBody a (m + 2) (stateAt (nodeBody a) (some (nodeInit 1 n 1)) (m + 2))).1 = none
      rw [ih]
      rfl
  show (runLoop (nodeBody a) maxIter (some (nodeInit 1 n 1))).state.map _ = none
  rcases runLoop_spec (nodeBody a) maxIter (some (nodeInit 1 n 1)) with ⟨j, _, _, hs, h⟩ | ⟨_, h⟩
  · rw [h]
    rcases j with _ | j
    · have : stopAt (nodeBody a) (some (nodeInit 1 n 1)) 0 = false := by
        show (nodeBody a 0 (some (nodeInit 1 n 1))).2.2 = false
        rw [h1]
      rw [this] at hs
      cases hs
    · simp only [hnone j, Option.map_none]
  · rw [h]
    obtain ⟨q, rfl⟩ : ∃ q, maxIter = q + 2 := ⟨maxIter - 2, by omega⟩
    simp only [hnone q, Option.map_none]

/-- Its hypotheses hold for five variables and the default tolerances of the solver. -/
example : (2 : ℝ) * (5 : ℕ) * (1 / 10000) + 1 / 10000 ≤ 7 / 10 := by norm_num

/-! ### The recorded penalty -/

/-- Cauchy–Schwarz for one column. -/
theorem colSum_le (f : Fin n → ℝ) : |∑ i, f i| ≤ Real.sqrt n * Real.sqrt (∑ i, f i ^ 2) := by
  rw [← Real.sqrt_mul (Nat.cast_nonneg n)]
  refine Real.abs_le_sqrt ?_
  have := sq_sum_le_card_mul_sum_sq (s := Finset.univ) (f := f)
  rwa [Finset.card_univ, Fintype.card_fin] at this

theorem nodeConstraint_sum {X V : Matrix (Fin n) (Fin n) ℝ} :
    NodeConstraint X V ↔ 2 * ∑ j, ∑ i, V i j = ∑ i, ∑ j, X i j := by
  unfold NodeConstraint
  simp only [Matrix.sub_apply, Matrix.add_apply, transpose_apply, Finset.sum_sub_distrib, Finset.sum_add_distrib]
  rw [Finset.sum_comm (f := fun i j => V i j)]
  constructor <;> intro h <;> linarith

/-- C192. What the function `node_penalty` minimises, over what it constrains, has the minimum
`|∑ X| / (2 √n)`: a bound for every admissible point, reached by a constant matrix. -/
theorem C192_value (hn : 1 ≤ n) (X : Matrix (Fin n) (Fin n) ℝ) :
    (∀ V, NodeConstraint X V → |∑ i, ∑ j, X i j| / (2 * Real.sqrt n) ≤ nodeCost V) ∧
    ∃ V, NodeConstraint X V ∧ nodeCost V = |∑ i, ∑ j, X i j| / (2 * Real.sqrt n) := by
  have hn0 : (0 : ℝ) < n := by exact_mod_cast hn
  have hs : 0 < Real.sqrt n := Real.sqrt_pos.mpr hn0
  have hss : Real.sqrt n * Real.sqrt n = n := Real.mul_self_sqrt hn0.le
  constructor
  · intro V hV
    rw [nodeConstraint_sum] at hV
    rw [div_le_iff₀ (by positivity), ← hV, abs_mul, abs_of_pos (by norm_num : (0 : ℝ) < 2)]
    have : |∑ j, ∑ i, V i j| ≤ nodeCost V * Real.sqrt n := by
      unfold nodeCost
      rw [Finset.sum_mul]
      refine (Finset.abs_sum_le_sum_abs _ _).trans (Finset.sum_le_sum fun j _ => ?_)
      rw [mul_comm]
      exact colSum_le _
    linarith
  · refine ⟨Matrix.of fun _ _ => (∑ i, ∑ j, X i j) / (2 * n ^ 2), ?_, ?_⟩
    · rw [nodeConstraint_sum]
      simp only [Matrix.of_apply, Finset.sum_const, Finset.card_univ, Fintype.card_fin, nsmul_eq_mul]
      field_simp
    · unfold nodeCost
      simp only [Matrix.of_apply, Finset.sum_const, Finset.card_univ, Fintype.card_fin, nsmul_eq_mul]
      rw [Real.sqrt_mul hn0.le, Real.sqrt_sq_eq_abs, abs_div, abs_of_pos (by positivity : (0 : ℝ) < 2 * (n : ℝ) ^ 2)]
      rw [eq_div_iff (by positivity)]
      have : (n : ℝ) * (Real.sqrt n * (|∑ i, ∑ j, X i j| / (2 * (n : ℝ) ^ 2))) * (2 * Real.sqrt n)
          = (Real.sqrt n * Real.sqrt n) * (n * (|∑ i, ∑ j, X i j| / (2 * (n : ℝ) ^ 2)) * 2) := by ring
      rw [this, hss]
      field_simp

/-- C192. The recorded value never exceeds the node penalty: every exact splitting of a symmetric `X`
costs at least as much. -/
theorem C192_le_true_partial (hn : 1 ≤ n) {X : Matrix (Fin n) (Fin n) ℝ} (hX : X.IsSymm) :
    |∑ i, ∑ j, X i j| / (2 * Real.sqrt n) ≤ nodeNorm X := by
  refine le_csInf ⟨colNormSum ((1 / 2 : ℝ) • X), (1 / 2 : ℝ) • X, ?_, rfl⟩ ?_
  · rw [transpose_smul, hX.eq, ← add_smul]
    norm_num
  · rintro c ⟨V, hV, rfl⟩
    refine (C192_value hn X).1 V ?_
    unfold NodeConstraint
    rw [hV]
    simp

/-- C192, lower bound of the true penalty: it is positive unless `X` is zero. -/
theorem nodeNorm_pos {X : Matrix (Fin n) (Fin n) ℝ} (hX : X.IsSymm) (h0 : X ≠ 0) : 0 < nodeNorm X := by
  obtain ⟨i, j, hij⟩ : ∃ i j, X i j ≠ 0 := by
    by_contra h
    push Not at h
    exact h0 (by ext i j; exact h i j)
  refine lt_of_lt_of_le (b := |X i j| / 2) (by positivity)
    (le_csInf ⟨colNormSum ((1 / 2 : ℝ) • X), (1 / 2 : ℝ) • X, ?_, rfl⟩ ?_)
  · rw [transpose_smul, hX.eq, ← add_smul]
    norm_num
  · rintro c ⟨V, hV, rfl⟩
    have hc : ∀ a b, |V a b| ≤ colNormSum V := by
      intro a b
      unfold colNormSum
      refine le_trans (Real.abs_le_sqrt ?_)
        (Finset.single_le_sum (f := fun b => Real.sqrt (∑ a, V a b ^ 2)) (fun _ _ => Real.sqrt_nonneg _)
          (Finset.mem_univ b))
      exact Finset.single_le_sum (f := fun a => V a b ^ 2) (fun _ _ => sq_nonneg _) (Finset.mem_univ a)
    have e : X i j = V i j + V j i := by rw [← hV]; rfl
    have := abs_add_le (V i j) (V j i)
    rw [← e] at this
    have h1 := hc i j
    have h2 := hc j i
    linarith

/-- C192, counterexample: for every nonzero symmetric `X` whose entries sum to zero the recorded
penalty is zero, while the node penalty is positive. -/
theorem C192_zero_false (hn : 1 ≤ n) {X : Matrix (Fin n) (Fin n) ℝ} (hX : X.IsSymm) (h0 : X ≠ 0)
    (hs : ∑ i, ∑ j, X i j = 0) :
    (∃ V, NodeConstraint X V ∧ nodeCost V = 0 ∧ ∀ V', NodeConstraint X V' → nodeCost V ≤ nodeCost V') ∧
    0 < nodeNorm X := by
  obtain ⟨h1, V, hV, hc⟩ := C192_value hn X
  rw [hs, abs_zero, zero_div] at hc h1
  exact ⟨⟨V, hV, hc, fun V' hV' => by rw [hc]; exact h1 V' hV'⟩, nodeNorm_pos hX h0⟩

/-- Such a change of network: an edge appears (`2`) and two diagonal entries drop by `2`. -/
example : (!![(-2 : ℝ), 2; 2, -2]).IsSymm ∧ !![(-2 : ℝ), 2; 2, -2] ≠ 0 ∧
    ∑ i, ∑ j, !![(-2 : ℝ), 2; 2, -2] i j = 0 := by
  refine ⟨?_, ?_, ?_⟩
  · ext i j
    fin_cases i <;> fin_cases j <;> rfl
  · intro h
    have := congrFun (congrFun h 0) 0
    norm_num at this
  · simp [Fin.sum_univ_two]

end Verif.Props
