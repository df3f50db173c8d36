import Verif.Model.InvCov
import Mathlib.Data.Finset.Card
import Mathlib.Algebra.Order.Floor.Semifield
import Mathlib.LinearAlgebra.Matrix.Symmetric
import Mathlib.Tactic.Linarith
import Mathlib.Tactic.NormNum
import Mathlib.Tactic.Positivity
import Mathlib.Tactic.Ring

/-! Property theorem C233: the random blocks of the TICC generators and what their sparsity parameter means. -/

namespace Verif.Props

open Verif.Model Matrix

set_option autoImplicit false

variable {n : ℕ}

/-- What networkx documents for `gnm_random_graph(n, m)`: `m` different edges, or all of them if there are fewer. -/
def IsGnmGraph (m : ℕ) (edges : List (Fin n × Fin n)) : Prop :=
  edges.Nodup ∧ (∀ e ∈ edges, e.1 < e.2) ∧ edges.length = min m (n * (n - 1) / 2)

/-- The size of a coupling lies in the asked range. -/
theorem coupling_abs {low upper : ℝ} (hl : 0 ≤ low) (hu : low ≤ upper) (b : Bool) {u : ℝ} (h0 : 0 ≤ u) (h1 : u < 1) :
    low ≤ |coupling low upper b u| ∧ |coupling low upper b u| ≤ upper := by
  have h2 : 0 ≤ (upper - low) * u := mul_nonneg (by linarith) h0
  have h3 : (upper - low) * u ≤ upper - low := mul_le_of_le_one_right (by linarith) h1.le
  have h4 : |coupling low upper b u| = low + (upper - low) * u := by
    unfold coupling
    cases b
    · rw [show ((if false = true then 1 else 0 : ℝ) - 0.5) * 2 * (low + (upper - low) * u) = -(low + (upper - low) * u) by
        norm_num, abs_neg, abs_of_nonneg (by linarith)]
    · rw [show ((if true = true then 1 else 0 : ℝ) - 0.5) * 2 * (low + (upper - low) * u) = low + (upper - low) * u by
        norm_num, abs_of_nonneg (by linarith)]
  rw [h4]
  constructor <;> linarith

theorem fillEdges_spec {low upper : ℝ} (P : ℝ → Prop) : ∀ (es : List (Fin n × Fin n)) (ds : List (Bool × ℝ))
    (S : Matrix (Fin n) (Fin n) ℝ), es.length = ds.length → (∀ d ∈ ds, P (coupling low upper d.1 d.2)) → ∀ i j,
    ((i, j) ∈ es → P (fillEdges low upper es ds S i j)) ∧ ((i, j) ∉ es → fillEdges low upper es ds S i j = S i j)
  | [], _, S, _, _, i, j => by simp [fillEdges]
  | e :: es, [], S, h, _, i, j => by simp at h
  | e :: es, d :: ds, S, h, hP, i, j => by
    have ih := fillEdges_spec P es ds (setEntry S e.1 e.2 (coupling low upper d.1 d.2)) (by simpa using h)
      (fun d' hd' => hP d' (List.mem_cons_of_mem _ hd')) i j
    unfold fillEdges
    refine ⟨fun hmem => ?_, fun hmem => ?_⟩
    · by_cases h1 : (i, j) ∈ es
      · exact ih.1 h1
      · rw [ih.2 h1]
        rcases List.mem_cons.1 hmem with h2 | h2
        · subst h2
          simp only [setEntry, and_self, if_true]
          exact hP d List.mem_cons_self
        · exact absurd h2 h1
    · rw [ih.2 fun h1 => hmem (List.mem_cons_of_mem _ h1)]
      unfold setEntry
      rw [if_neg]
      rintro ⟨rfl, rfl⟩
      exact hmem List.mem_cons_self

/-- C233 (first block): for every random graph and all draws the first block is symmetric with zero diagonal; its non-zero
entries are the edges of the graph, of size between `low` and `upper`; there are `min(int(n (n - 1) portion / 2), n (n - 1) / 2)`
of them above the diagonal. -/
theorem C233_first_block {low upper portion : ℝ} (hl : 0 < low) (hu : low ≤ upper) {edges : List (Fin n × Fin n)}
    (hg : IsGnmGraph (invCovEdges n portion) edges) {draws : List (Bool × ℝ)} (hlen : edges.length = draws.length)
    (hd : ∀ d ∈ draws, 0 ≤ d.2 ∧ d.2 < 1) :
    (invCovBlock low upper edges draws).IsSymm ∧ (∀ i, invCovBlock low upper edges draws i i = 0) ∧
      (∀ i j, invCovBlock low upper edges draws i j ≠ 0 →
        low ≤ |invCovBlock low upper edges draws i j| ∧ |invCovBlock low upper edges draws i j| ≤ upper) ∧
      (Finset.univ.filter fun e : Fin n × Fin n => e.1 < e.2 ∧ invCovBlock low upper edges draws e.1 e.2 ≠ 0).card =
        min (invCovEdges n portion) (n * (n - 1) / 2) := by
  obtain ⟨hnd, hlt, hcard⟩ := hg
  have spec := fillEdges_spec (low := low) (upper := upper) (fun v => low ≤ |v| ∧ |v| ≤ upper) edges draws 0 hlen
    fun d hm => coupling_abs hl.le hu d.1 (hd d hm).1 (hd d hm).2
  have hsym : (invCovBlock low upper edges draws).IsSymm := by
    unfold invCovBlock genInvCov
    rw [if_pos rfl, IsSymm, transpose_add, transpose_transpose, add_comm]
  have hnot : ∀ i j : Fin n, ¬ i < j → fillEdges low upper edges draws 0 i j = 0 := fun i j h =>
    (spec i j).2 fun hm => h (hlt _ hm)
  have hup : ∀ i j : Fin n, i < j → invCovBlock low upper edges draws i j = fillEdges low upper edges draws 0 i j := by
    intro i j h
    change fillEdges low upper edges draws 0 i j + fillEdges low upper edges draws 0 j i = _
    rw [hnot j i h.asymm, add_zero]
  have hne : ∀ i j : Fin n, (i, j) ∈ edges → fillEdges low upper edges draws 0 i j ≠ 0 := by
    intro i j hm h0
    have := ((spec i j).1 hm).1
    rw [h0, abs_zero] at this
    linarith
  have hval : ∀ i j : Fin n, i < j → invCovBlock low upper edges draws i j ≠ 0 →
      low ≤ |invCovBlock low upper edges draws i j| ∧ |invCovBlock low upper edges draws i j| ≤ upper := by
    intro i j hij h0
    rw [hup i j hij] at h0 ⊢
    by_cases hm : (i, j) ∈ edges
    · exact (spec i j).1 hm
    · exact absurd ((spec i j).2 hm) h0
  have hdiag : ∀ i, invCovBlock low upper edges draws i i = 0 := by
    intro i
    change fillEdges low upper edges draws 0 i i + fillEdges low upper edges draws 0 i i = 0
    rw [hnot i i (lt_irrefl i), add_zero]
  refine ⟨hsym, hdiag, fun i j h0 => ?_, ?_⟩
  · rcases lt_trichotomy i j with h | h | h
    · exact hval i j h h0
    · subst h
      exact absurd (hdiag i) h0
    · rw [← hsym.apply i j] at h0 ⊢
      exact hval j i h h0
  · rw [← hcard, ← List.toFinset_card_of_nodup hnd]
    congr 1
    ext ⟨i, j⟩
    simp only [Finset.mem_filter, Finset.mem_univ, true_and, List.mem_toFinset]
    constructor
    · rintro ⟨h1, h2⟩
      rw [hup i j h1] at h2
      by_contra hm
      exact h2 ((spec i j).2 hm)
    · intro hm
      exact ⟨hlt _ hm, by rw [hup i j (hlt _ hm)]; exact hne i j hm⟩

/-- C233 (other blocks): an entry is present exactly if its draw is below `portion`, with a size between `low` and `upper`. -/
theorem C233_other_blocks {low upper : ℝ} (portion : ℝ) (hl : 0 < low) (hu : low ≤ upper) (p : Fin n → Fin n → ℝ)
    {d : Fin n → Fin n → Bool × ℝ} (hd : ∀ i j, 0 ≤ (d i j).2 ∧ (d i j).2 < 1) (i j : Fin n) :
    (genRandInv low upper portion p d i j ≠ 0 ↔ p i j < portion) ∧
      (p i j < portion → low ≤ |genRandInv low upper portion p d i j| ∧ |genRandInv low upper portion p d i j| ≤ upper) := by
  have hc := coupling_abs hl.le hu (d i j).1 (hd i j).1 (hd i j).2
  unfold genRandInv
  by_cases h : p i j < portion
  · rw [if_pos h]
    refine ⟨⟨fun _ => h, fun _ h0 => ?_⟩, fun _ => hc⟩
    rw [h0, abs_zero] at hc
    linarith [hc.1]
  · rw [if_neg h]
    exact ⟨⟨fun h0 => absurd rfl h0, fun h0 => absurd h0 h⟩, fun h0 => absurd h0 h⟩

/-- C233: a parameter called sparsity should leave more zeros when it grows. It is a density: at 1 no off-diagonal entry of any
block is zero, at 0 all entries are, for every size and all draws. -/
theorem C233_sparsity_false {low upper : ℝ} (hl : 0 < low) (hu : low ≤ upper) (p : Fin n → Fin n → ℝ)
    (hp : ∀ i j, 0 ≤ p i j ∧ p i j < 1) {d : Fin n → Fin n → Bool × ℝ} (hd : ∀ i j, 0 ≤ (d i j).2 ∧ (d i j).2 < 1) :
    (∀ i j, genRandInv low upper 1 p d i j ≠ 0) ∧ (∀ i j, genRandInv low upper 0 p d i j = 0) ∧
      invCovEdges n 1 = n * (n - 1) / 2 ∧ invCovEdges n 0 = 0 := by
  refine ⟨fun i j => (C233_other_blocks 1 hl hu p hd i j).1.2 (hp i j).2, fun i j => ?_, ?_, ?_⟩
  · by_contra h
    exact absurd ((C233_other_blocks 0 hl hu p hd i j).1.1 h) (not_lt.2 (hp i j).1)
  · unfold invCovEdges
    have h1 : ((n : ℝ) * (n - 1)) * (1 / 2) = ((n * (n - 1) : ℕ) : ℝ) / (2 : ℕ) := by
      rcases Nat.eq_zero_or_pos n with h0 | h0
      · subst h0; simp
      · rw [Nat.cast_mul, Nat.cast_sub h0]
        push_cast
        ring
    rw [h1, Nat.floor_div_natCast, Nat.floor_natCast]
  · simp [invCovEdges]

/-- Hypotheses met: a path of two edges on three nodes with draws. -/
example : IsGnmGraph (n := 3) (invCovEdges 3 (2 / 3)) [(0, 1), (1, 2)] ∧
    ∀ d ∈ [(true, (0 : ℝ)), (false, 1 / 2)], 0 ≤ d.2 ∧ d.2 < 1 := by
  have h : invCovEdges 3 (2 / 3) = 2 := by
    unfold invCovEdges
    norm_num
  refine ⟨⟨by decide, by decide, by rw [h]; decide⟩, ?_⟩
  intro d hd
  simp at hd
  rcases hd with rfl | rfl <;> norm_num

end Verif.Props
