import Verif.Model.GWishart
import Mathlib.Data.Nat.Bitwise
import Mathlib.Data.Fintype.Prod
import Mathlib.Data.List.Nodup
import Mathlib.Order.Interval.Finset.Fin
import Mathlib.Algebra.BigOperators.Intervals
import Mathlib.Algebra.BigOperators.Fin
import Mathlib.Algebra.BigOperators.Field
import Mathlib.Tactic.Linarith
import Mathlib.Tactic.Positivity
import Mathlib.Tactic.FieldSimp

/-! Property theorems C145 (all undirected graphs) and C146 (Markov blankets, resampled graphs). -/

set_option autoImplicit false
set_option linter.unusedSectionVars false

namespace Verif.Props

open Verif.Model

/-! ### C145 -/

/-- An undirected graph without loops on `n` nodes. -/
def IsUndirected {n : ℕ} (G : Fin n → Fin n → Bool) : Prop :=
  (∀ i j, G i j = G j i) ∧ ∀ i, G i i = false

/-- The number of edges of an undirected graph. -/
def edgeCount {n : ℕ} (G : Fin n → Fin n → Bool) : ℕ :=
  (Finset.univ.filter fun ij : Fin n × Fin n => ij.1 < ij.2 ∧ G ij.1 ij.2 = true).card

theorem mem_upperPairs {n : ℕ} (ij : Fin n × Fin n) : ij ∈ upperPairs n ↔ ij.1 < ij.2 := by
  rcases ij with ⟨i, j⟩
  simp [upperPairs]

theorem nodup_upperPairs (n : ℕ) : (upperPairs n).Nodup := by
  unfold upperPairs
  rw [List.nodup_flatMap]
  refine ⟨fun i _ => ?_, ?_⟩
  · exact ((List.nodup_finRange n).filter _).map fun a b h => by simpa using h
  · refine (List.nodup_finRange n).pairwise_of_forall_ne ?_
    intro a _ b _ hab
    simp only [Function.onFun, List.disjoint_left, List.mem_map, not_exists, not_and]
    rintro x ⟨c, _, rfl⟩ d _ h
    simp only [Prod.mk.injEq] at h
    exact hab h.1.symm

theorem length_upperPairs (n : ℕ) : (upperPairs n).length = n.choose 2 := by
  unfold upperPairs
  rw [List.length_flatMap]
  have h1 : ∀ i : Fin n, (((List.finRange n).filter fun j => decide (i < j)).map fun j => (i, j)).length
      = n - 1 - i := by
    intro i
    rw [List.length_map, ← Fin.card_Ioi, ← List.toFinset_card_of_nodup ((List.nodup_finRange n).filter _)]
    congr 1
    ext j
    simp
  simp only [h1]
  rw [← Fin.sum_univ_def (fun i : Fin n => n - 1 - (i : ℕ)), Fin.sum_univ_eq_sum_range (fun i => n - 1 - i) n,
    Finset.sum_range_reflect (fun i => i) n, Finset.sum_range_id, Nat.choose_two_right]

theorem ugGraph_apply {n : ℕ} (x : ℕ) (i j : Fin n) (h : i < j) :
    ugGraph n x i j = binaryDigit (n.choose 2) x ((upperPairs n).idxOf (i, j)) := by
  simp only [ugGraph, h, if_true, not_lt_of_gt h, if_false, Bool.or_false, length_upperPairs]

theorem ugGraph_undirected (n x : ℕ) : IsUndirected (ugGraph n x) := by
  refine ⟨fun i j => ?_, fun i => ?_⟩
  · simp only [ugGraph]; rw [Bool.or_comm]
  · simp [ugGraph]

/-- Every position of the digit string is the index of a pair. -/
theorem digit_eq {n x k : ℕ} (hk : k < (upperPairs n).length) :
    binaryDigit (n.choose 2) x k
      = ugGraph n x ((upperPairs n)[k]).1 ((upperPairs n)[k]).2 := by
  have hlt := (mem_upperPairs _).mp (List.getElem_mem hk)
  rw [ugGraph_apply x _ _ hlt]
  congr 1
  exact ((nodup_upperPairs n).idxOf_getElem k hk).symm

theorem ugGraph_inj {n x y : ℕ} (hx : x < 2 ^ n.choose 2) (hy : y < 2 ^ n.choose 2)
    (h : ugGraph n x = ugGraph n y) : x = y := by
  refine Nat.eq_of_testBit_eq fun b => ?_
  by_cases hb : b < n.choose 2
  · have hk : n.choose 2 - 1 - b < (upperPairs n).length := by rw [length_upperPairs]; omega
    have h1 := digit_eq (x := x) hk
    have h2 := digit_eq (x := y) hk
    rw [h, ← h2] at h1
    have e : n.choose 2 - 1 - (n.choose 2 - 1 - b) = b := by omega
    simpa only [binaryDigit, e] using h1
  · have hp : 2 ^ n.choose 2 ≤ 2 ^ b := Nat.pow_le_pow_right (by norm_num) (by omega)
    rw [Nat.testBit_lt_two_pow (lt_of_lt_of_le hx hp), Nat.testBit_lt_two_pow (lt_of_lt_of_le hy hp)]

theorem ugGraph_surj {n : ℕ} {G : Fin n → Fin n → Bool} (hG : IsUndirected G) :
    ∃ x < 2 ^ n.choose 2, ugGraph n x = G := by
  let f : Fin (n.choose 2) → Bool := fun b =>
    let ij := (upperPairs n)[n.choose 2 - 1 - b.1]'(by rw [length_upperPairs]; omega)
    G ij.1 ij.2
  refine ⟨Nat.ofBits f, Nat.ofBits_lt_two_pow f, ?_⟩
  have up : ∀ i j : Fin n, i < j → ugGraph n (Nat.ofBits f) i j = G i j := by
    intro i j hij
    rw [ugGraph_apply _ i j hij]
    have hm : (i, j) ∈ upperPairs n := (mem_upperPairs _).mpr hij
    have hk := List.idxOf_lt_length_of_mem hm
    have hk' := hk
    rw [length_upperPairs] at hk'
    set k := (upperPairs n).idxOf (i, j) with hkd
    have hb : n.choose 2 - 1 - k < n.choose 2 := by omega
    rw [binaryDigit, Nat.testBit_ofBits_lt f _ hb]
    have e : n.choose 2 - 1 - (n.choose 2 - 1 - k) = k := by omega
    have e2 : (upperPairs n)[k] = (i, j) := List.getElem_idxOf hk
    simp only [f, e, e2]
  funext i j
  rcases lt_trichotomy i j with h | h | h
  · exact up i j h
  · subst h; rw [(ugGraph_undirected n _).2, hG.2]
  · rw [(ugGraph_undirected n _).1, up j i h, hG.1]

theorem digitSum_eq (n x : ℕ) : digitSum (n.choose 2) x = edgeCount (ugGraph n x) := by
  have h1 : edgeCount (ugGraph n x)
      = ((upperPairs n).filter fun ij => ugGraph n x ij.1 ij.2).length := by
    rw [← List.toFinset_card_of_nodup ((nodup_upperPairs n).filter _), edgeCount]
    congr 1
    ext ij
    simp [mem_upperPairs]
  rw [h1, digitSum, ← List.countP_eq_length_filter, ← List.countP_eq_length_filter]
  conv_rhs => rw [← List.map_get_finRange (upperPairs n)]
  rw [List.countP_map, ← length_upperPairs n, ← List.map_coe_finRange_eq_range, List.countP_map]
  refine List.countP_congr fun k _ => ?_
  simp only [Function.comp_apply, List.get_eq_getElem]
  rw [← digit_eq k.2, ← length_upperPairs n]

/-- C145: for every number of nodes and every order of ties in the sort, `mk_all_ugs` lists undirected
graphs only, all of them, none twice. -/
theorem C145_all (n : ℕ) {ord : List ℕ} (hord : ord.Perm (List.range (2 ^ n.choose 2))) :
    (∀ G ∈ mkAllUgs n ord, IsUndirected G) ∧ (∀ G, IsUndirected G → G ∈ mkAllUgs n ord) ∧
      (mkAllUgs n ord).Nodup ∧ (mkAllUgs n ord).length = 2 ^ n.choose 2 := by
  have hmem : ∀ x, x ∈ ord ↔ x < 2 ^ n.choose 2 := fun x => by rw [hord.mem_iff, List.mem_range]
  refine ⟨fun G hG => ?_, fun G hG => ?_, ?_, ?_⟩
  · obtain ⟨x, _, rfl⟩ := List.mem_map.mp hG
    exact ugGraph_undirected n x
  · obtain ⟨x, hx, rfl⟩ := ugGraph_surj hG
    exact List.mem_map.mpr ⟨x, (hmem x).mpr hx, rfl⟩
  · refine List.Nodup.map_on (fun x hx y hy h => ?_) (hord.nodup_iff.mpr List.nodup_range)
    exact ugGraph_inj ((hmem x).mp hx) ((hmem y).mp hy) h
  · rw [mkAllUgs, List.length_map, hord.length_eq, List.length_range]

/-- C145: if `ord` sorts the digit strings by their sums, as `argsort` does, the graphs come in
non-decreasing order of their number of edges. -/
theorem C145_sorted (n : ℕ) {ord : List ℕ}
    (hs : ord.Pairwise fun x y => digitSum (n.choose 2) x ≤ digitSum (n.choose 2) y) :
    (mkAllUgs n ord).Pairwise fun G H => edgeCount G ≤ edgeCount H := by
  rw [mkAllUgs, List.pairwise_map]
  exact hs.imp fun h => by simpa only [digitSum_eq] using h

/-- Non-vacuity for C145: a sorting permutation exists, and for three nodes the last graph is complete. -/
example : ∃ ord : List ℕ, ord.Perm (List.range (2 ^ (3 : ℕ).choose 2)) ∧
    ord.Pairwise (fun x y => digitSum ((3 : ℕ).choose 2) x ≤ digitSum ((3 : ℕ).choose 2) y) ∧
    (mkAllUgs 3 ord).getLast? = some fun i j => decide (i ≠ j) := by
  refine ⟨[0, 4, 2, 1, 6, 5, 3, 7], by decide, by decide, ?_⟩
  have : ugGraph 3 7 = fun i j => decide (i ≠ j) := by decide
  rw [← this]
  rfl

/-! ### C146 -/

variable {p : ℕ}

/-- C146: a node is in the blanket exactly when it is another node whose entry is at least `tol` in
absolute value and not zero. -/
theorem C146_blanket (tol : ℝ) (G : Matrix (Fin p) (Fin p) ℝ) (i j : Fin p) :
    inBlanket tol G i j = true ↔ j ≠ i ∧ tol ≤ |G i j| ∧ G i j ≠ 0 := by
  by_cases h : j = i
  · simp [inBlanket, h]
  · by_cases h2 : |G i j| < tol
    · simp [inBlanket, h, h2]
    · simp [inBlanket, h, h2, not_lt.mp h2]

/-- C146: whatever indices are drawn, a resampled graph is undirected and has no loops; two nodes are joined
exactly when each is in the blanket drawn for the other; an edge missing from all input graphs never
appears and an edge present in all of them always does. `bl` lists the blankets in any order, duplicates
removed or not. -/
theorem C146_resampled {m m' : ℕ} (tol : ℝ) (Gs : Fin m → Matrix (Fin p) (Fin p) ℝ)
    (bl : Fin p → Fin m' → Fin p → Bool)
    (hbl : ∀ k', ∃ k, ∀ i j, bl i k' j = inBlanket tol (Gs k) i j) (idx : Fin p → Fin m') :
    IsUndirected (resampledGraph bl idx) ∧
      (∀ i j, resampledGraph bl idx i j = true ↔ bl i (idx i) j = true ∧ bl j (idx j) i = true) ∧
      (∀ i j, (∀ k, |Gs k i j| < tol ∨ Gs k i j = 0) → resampledGraph bl idx i j = false) ∧
      (∀ i j, i ≠ j → 0 < tol → (∀ k, tol ≤ |Gs k i j| ∧ tol ≤ |Gs k j i|) →
        resampledGraph bl idx i j = true) := by
  have hf : ∀ i j, bl i (idx i) j = true → ∃ k, j ≠ i ∧ tol ≤ |Gs k i j| ∧ Gs k i j ≠ 0 := by
    intro i j h
    obtain ⟨k, hk⟩ := hbl (idx i)
    exact ⟨k, (C146_blanket tol (Gs k) i j).mp (hk i j ▸ h)⟩
  refine ⟨⟨fun i j => ?_, fun i => ?_⟩, fun i j => ?_, fun i j h => ?_, fun i j hij ht h => ?_⟩
  · simp only [resampledGraph]; rw [Bool.and_comm]
  · by_contra hc
    simp only [resampledGraph, Bool.not_eq_false, Bool.and_eq_true] at hc
    obtain ⟨_, h, _⟩ := hf i i hc.1
    exact h rfl
  · simp [resampledGraph]
  · by_contra hc
    simp only [resampledGraph, Bool.not_eq_false, Bool.and_eq_true] at hc
    obtain ⟨k, _, h1, h2⟩ := hf i j hc.1
    rcases h k with h3 | h3
    · linarith
    · exact h2 h3
  · simp only [resampledGraph, Bool.and_eq_true]
    have ne0 : ∀ x : ℝ, tol ≤ |x| → x ≠ 0 := by
      rintro x hx rfl
      rw [abs_zero] at hx
      linarith
    constructor
    · obtain ⟨k, hk⟩ := hbl (idx i)
      rw [hk]
      exact (C146_blanket tol (Gs k) i j).mpr ⟨hij.symm, (h k).1, ne0 _ (h k).1⟩
    · obtain ⟨k, hk⟩ := hbl (idx j)
      rw [hk]
      exact (C146_blanket tol (Gs k) j i).mpr ⟨hij, (h k).2, ne0 _ (h k).2⟩

/-- C146: the scores of one node become sampling probabilities: positive, summing to one, in the order of
the scores. -/
theorem C146_scores {m : ℕ} [NeZero m] (s : Fin m → ℝ) :
    (∀ k, 0 < normalizedScores s k) ∧ ∑ k, normalizedScores s k = 1 ∧
      ∀ k l, normalizedScores s k ≤ normalizedScores s l ↔ s k ≤ s l := by
  have hpos : 0 < ∑ l, Real.exp (s l) :=
    Finset.sum_pos (fun l _ => Real.exp_pos _) ⟨0, Finset.mem_univ _⟩
  refine ⟨fun k => div_pos (Real.exp_pos _) hpos, ?_, fun k l => ?_⟩
  · simp only [normalizedScores]
    rw [← Finset.sum_div, div_self hpos.ne']
  · rw [normalizedScores, normalizedScores, div_le_div_iff_of_pos_right hpos, Real.exp_le_exp]

/-- Non-vacuity for C146: two nodes joined in both inputs. -/
example : resampledGraph (fun (i : Fin 2) (_ : Fin 1) j => inBlanket (1 / 2) (fun _ _ => (1 : ℝ)) i j)
    (fun _ => 0) 0 1 = true :=
  (C146_resampled (1 / 2) (fun _ : Fin 2 => fun _ _ => (1 : ℝ)) _ (fun _ => ⟨0, fun _ _ => rfl⟩) _).2.2.2 0 1
    (by decide) (by norm_num) (fun _ => by norm_num)

end Verif.Props
