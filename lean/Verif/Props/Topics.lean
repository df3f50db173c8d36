import Verif.Model.Topics
import Mathlib.Data.List.Nodup
import Mathlib.Tactic.Linarith
import Mathlib.Tactic.Ring
import Mathlib.Tactic.NormNum

/-! Property theorem C231: the words and documents shown for a topic. -/

namespace Verif.Props

open Verif.Model

set_option autoImplicit false

theorem downTo_eq (fuel : ℕ) : ∀ (m : ℕ) (c : ℤ), -1 ≤ c → (fuel : ℤ) = (m : ℤ) → c ≤ m - 1 →
    downTo fuel (m - 1) c = (List.range (m - (c + 1).toNat)).map fun t : ℕ => (m : ℤ) - 1 - (t : ℤ) := by
  induction fuel with
  | zero =>
    intro m c _ hm _
    obtain rfl : m = 0 := by omega
    simp [downTo]
  | succ f ih =>
    intro m c hc hm hcm
    obtain ⟨m', rfl⟩ : ∃ m', m = m' + 1 := ⟨m - 1, by omega⟩
    unfold downTo
    split
    · rename_i h
      have h1 := ih m' c hc (by omega) (by omega)
      have e : ((m' + 1 : ℕ) : ℤ) - 1 - 1 = (m' : ℤ) - 1 := by omega
      rw [e, h1]
      have e2 : m' + 1 - (c + 1).toNat = (m' - (c + 1).toNat) + 1 := by omega
      rw [e2, List.range_succ_eq_map, List.map_cons, List.map_map]
      congr 1
      · simp
      · apply List.map_congr_left
        intro t _
        simp only [Function.comp]
        push_cast
        omega
    · rename_i h
      have e2 : m' + 1 - (c + 1).toNat = 0 := by omega
      rw [e2]
      rfl

/-- The slice is the first `n` of the reversed list. -/
theorem topWords_eq (order : List ℕ) (n : ℕ) : topWords order n = order.reverse.take n := by
  unfold topWords sliceDown
  simp only
  rw [if_pos (by omega)]
  set c : ℤ := max (-(n : ℤ) - 1 + order.length) (-1) with hc
  have hc1 : -1 ≤ c := le_max_right _ _
  have hc2 : c ≤ order.length - 1 := by
    rw [hc]
    exact max_le (by omega) (by omega)
  rw [downTo_eq order.length order.length c hc1 rfl hc2]
  have hk : order.length - (c + 1).toNat = min n order.length := by omega
  rw [hk]
  apply List.ext_getElem?
  intro t
  have hall : ∀ s ∈ List.range (min n order.length), order[((order.length : ℤ) - 1 - s).toNat]? = some
      (order.getD (order.length - 1 - s) 0) := by
    intro s hs
    rw [List.mem_range] at hs
    have h1 : ((order.length : ℤ) - 1 - s).toNat = order.length - 1 - s := by omega
    have h2 : order.length - 1 - s < order.length := by omega
    rw [h1, List.getD_eq_getElem?_getD, List.getElem?_eq_getElem h2, Option.getD_some]
  have hfm : ((List.range (min n order.length)).map fun t : ℕ => (order.length : ℤ) - 1 - t).filterMap
      (fun k => order[k.toNat]?) = (List.range (min n order.length)).map fun s => order.getD (order.length - 1 - s) 0 := by
    rw [List.filterMap_map, ← List.filterMap_eq_map]
    apply List.filterMap_congr
    intro s hs
    simpa using hall s hs
  rw [hfm]
  by_cases ht : t < min n order.length
  · rw [List.getElem?_map, List.getElem?_range ht, List.getElem?_take, if_pos (by omega), List.getElem?_reverse (by omega)]
    have h2 : order.length - 1 - t < order.length := by omega
    rw [Option.map_some, List.getD_eq_getElem?_getD, List.getElem?_eq_getElem h2, Option.getD_some]
  · rw [List.getElem?_eq_none (by simp; omega), List.getElem?_eq_none (by simp; omega)]

/-- What it means to be the top `n` of the positions below `d`: distinct, as many as asked for or all, in descending order
of weight, and none of the others is heavier. -/
def IsTop (d n : ℕ) (w : ℕ → ℝ) (l : List ℕ) : Prop :=
  l.Nodup ∧ (∀ i ∈ l, i < d) ∧ l.length = min n d ∧ l.Pairwise (fun i j => w j ≤ w i) ∧
    ∀ i ∈ l, ∀ j < d, j ∉ l → w j ≤ w i

theorem take_reverse_top (d n : ℕ) (w : ℕ → ℝ) (order : List ℕ) (hp : order.Perm (List.range d))
    (hs : order.Pairwise fun i j => w i ≤ w j) : IsTop d n w (order.reverse.take n) := by
  have hrev : order.reverse.Pairwise fun i j => w j ≤ w i := List.pairwise_reverse.2 hs
  have hmem : ∀ i, i ∈ order ↔ i < d := fun i => by rw [hp.mem_iff, List.mem_range]
  refine ⟨?_, ?_, ?_, hrev.sublist (List.take_sublist _ _), ?_⟩
  · exact ((List.nodup_reverse.2 (hp.nodup_iff.2 List.nodup_range)).sublist (List.take_sublist _ _))
  · intro i hi
    exact (hmem i).1 (List.mem_reverse.1 (List.mem_of_mem_take hi))
  · rw [List.length_take, List.length_reverse, hp.length_eq, List.length_range]
  · intro i hi j hj hnot
    have hj' : j ∈ order.reverse.take n ++ order.reverse.drop n := by
      rw [List.take_append_drop, List.mem_reverse]
      exact (hmem j).2 hj
    rcases List.mem_append.1 hj' with h | h
    · exact absurd h hnot
    · rw [← List.take_append_drop n order.reverse] at hrev
      exact (List.pairwise_append.1 hrev).2.2 i hi j h

/-- C231: the words listed for a topic are its `n_top_words` heaviest (all, if there are fewer), heaviest first, for every
order `argsort` may choose among equal weights. -/
theorem C231_words (d n : ℕ) (topic : ℕ → ℝ) (order : List ℕ) (hp : order.Perm (List.range d))
    (hs : order.Pairwise fun i j => topic i ≤ topic j) : IsTop d n topic (topWords order n) := by
  rw [topWords_eq]
  exact take_reverse_top d n topic order hp hs

/-- C231: and so are the documents. -/
theorem C231_documents (d n : ℕ) (column : ℕ → ℝ) (order : List ℕ) (hp : order.Perm (List.range d))
    (hs : order.Pairwise fun i j => column i ≤ column j) : IsTop d n column (topDocuments order n) :=
  take_reverse_top d n column order hp hs

/-- An order meeting the hypotheses, with more words asked for than there are, two, and none. -/
example : ([1, 2, 0] : List ℕ).Perm (List.range 3) ∧
    ([1, 2, 0] : List ℕ).Pairwise (fun i j => (if i = 0 then 5 else (i : ℝ)) ≤ if j = 0 then 5 else (j : ℝ)) ∧
    topWords [1, 2, 0] 7 = [0, 2, 1] ∧ topWords [1, 2, 0] 2 = [0, 2] ∧ topWords [1, 2, 0] 0 = [] := by
  refine ⟨by decide, ?_, by decide, by decide, by decide⟩
  simp
  norm_num

end Verif.Props
