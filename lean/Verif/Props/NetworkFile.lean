import Verif.Model.NetworkFile
import Verif.Props.UtilsMore
import Mathlib.Data.List.FinRange
import Mathlib.Tactic.Linarith

/-! Property theorem C230: writing a network and reading it back. -/

set_option autoImplicit false
set_option linter.unusedSectionVars false

namespace Verif.Props

open Verif.Spec Verif.Model Verif.Lemmas Matrix

variable {p : ℕ}

/-- All entries of a network as lines. -/
def allRows (M : Matrix (Fin p) (Fin p) ℝ) : List (NetRow p) :=
  (List.finRange p).flatMap fun i => (List.finRange p).map fun j => ⟨i, j, M i j⟩

theorem parse_some (l : List (NetRow p)) :
    parseNetwork (l.map fun r => (⟨some r.src, some r.dst, r.w⟩ : FileRow p)) = .ok l := by
  induction l with
  | nil => rfl
  | cons r l ih => simp [parseNetwork, ih]

theorem parse_write (M : Matrix (Fin p) (Fin p) ℝ) : parseNetwork (writeNetwork false M) = .ok (allRows M) := by
  have : writeNetwork false M = (allRows M).map fun r => (⟨some r.src, some r.dst, r.w⟩ : FileRow p) := by
    unfold writeNetwork allRows
    rw [List.map_flatMap]
    simp
    rfl
  rw [this, parse_some]

theorem mem_allRows (M : Matrix (Fin p) (Fin p) ℝ) (r : NetRow p) : r ∈ allRows M ↔ r.w = M r.src r.dst := by
  unfold allRows
  simp only [List.mem_flatMap, List.mem_map, List.mem_finRange, true_and]
  constructor
  · rintro ⟨i, j, rfl⟩
    rfl
  · intro h
    refine ⟨r.src, r.dst, ?_⟩
    rw [← h]

theorem length_allRows (M : Matrix (Fin p) (Fin p) ℝ) : (allRows M).length = p * p := by
  unfold allRows
  simp [List.length_flatMap]

theorem nTop_one (k : ℕ) : k ≤ nTopRows k 1 true + 1 := by
  unfold nTopRows
  simp only [if_true, mul_one]
  have h : (k : ℝ) / 2 < ⌊(k : ℝ) / 2⌋₊ + 1 := Nat.lt_floor_add_one _
  have h2 : (k : ℝ) < 2 * ⌊(k : ℝ) / 2⌋₊ + 2 := by linarith
  have h3 : k < 2 * ⌊(k : ℝ) / 2⌋₊ + 2 := by exact_mod_cast h2
  omega

/-- At most one line is dropped at `threshold=1`. -/
theorem dropped_le_one (sorted : List (NetRow p)) : (sorted.drop (nTopRows sorted.length 1 true)).length ≤ 1 := by
  rw [List.length_drop]
  have := nTop_one sorted.length
  omega

/-- C230: a symmetric network with non-negative entries that is written without a header comes back as it was off the
diagonal, for every number of nodes, every order of ties and both values of `fill_diagonal`. -/
theorem C230_edges_partial (M : Matrix (Fin p) (Fin p) ℝ) (hM : M.IsSymm) (h0 : ∀ i j, 0 ≤ M i j) :
    ∃ rows, parseNetwork (writeNetwork false M) = .ok rows ∧ ∀ sorted : List (NetRow p), sorted.Perm rows →
      sorted.Pairwise (fun a b => b.w ≤ a.w) → ∀ (fd : Bool) (i j : Fin p), i ≠ j →
        readNetwork sorted 1 true fd i j = M i j := by
  refine ⟨allRows M, parse_write M, fun sorted hp hs fd i j hij => ?_⟩
  have hmem : ∀ r ∈ sorted, r.w = M r.src r.dst := fun r hr => (mem_allRows M r).1 (hp.mem_iff.1 hr)
  have hw : ∀ r ∈ keptRows sorted 1 true, Joins r i j → r.w = M i j := by
    intro r hr hj
    have := hmem r (List.mem_of_mem_take hr)
    rcases hj with ⟨h1, h2⟩ | ⟨h1, h2⟩
    · rw [this, h1, h2]
    · rw [this, h1, h2]
      exact hM.apply i j
  rcases C136_entries hs 1 true fd i j (Or.inr hij) with ⟨hno, hz⟩ | hl
  · rw [hz]
    by_contra hne
    have hpos : 0 < M i j := lt_of_le_of_ne (h0 i j) hne
    have hsplit : ∀ r : NetRow p, r ∈ sorted → Joins r i j → r ∈ sorted.drop (nTopRows sorted.length 1 true) := by
      intro r hr hj
      rw [← List.take_append_drop (nTopRows sorted.length 1 true) sorted, List.mem_append] at hr
      rcases hr with hr | hr
      · have hrw := hw r hr hj
        exact absurd hj (hno r hr (by rw [hrw]; exact hpos))
      · exact hr
    have hij' : (⟨i, j, M i j⟩ : NetRow p) ∈ sorted := hp.mem_iff.2 ((mem_allRows M _).2 rfl)
    have hji' : (⟨j, i, M j i⟩ : NetRow p) ∈ sorted := hp.mem_iff.2 ((mem_allRows M _).2 rfl)
    have h1 := hsplit _ hij' (Or.inl ⟨rfl, rfl⟩)
    have h2 := hsplit _ hji' (Or.inr ⟨rfl, rfl⟩)
    have hlen := dropped_le_one sorted
    match sorted.drop (nTopRows sorted.length 1 true), h1, h2, hlen with
    | [], h1, _, _ => simp at h1
    | [r], h1, h2, _ =>
      simp only [List.mem_singleton] at h1 h2
      rw [← h1] at h2
      exact hij (congrArg NetRow.src h2).symm
    | _ :: _ :: _, _, _, hlen => simp at hlen
  · obtain ⟨-, r, hr, hrw, hj⟩ := hl.1
    rw [← hrw]
    exact hw r hr hj

/-- C230 fails with pandas 0.24 and later: the header that `write_network` leaves in its file makes `read_network` raise
TypeError, for every network. -/
theorem C230_header_false (M : Matrix (Fin p) (Fin p) ℝ) : parseNetwork (writeNetwork true M) = .error .type := rfl

/-- C230 fails for negative entries: they come back as 0. -/
theorem C230_negative_false (M : Matrix (Fin p) (Fin p) ℝ) (hM : M.IsSymm) (i j : Fin p) (hij : i ≠ j) (hneg : M i j < 0) :
    ∃ rows, parseNetwork (writeNetwork false M) = .ok rows ∧ ∀ sorted : List (NetRow p), sorted.Perm rows →
      sorted.Pairwise (fun a b => b.w ≤ a.w) → ∀ fd : Bool, readNetwork sorted 1 true fd i j = 0 := by
  refine ⟨allRows M, parse_write M, fun sorted hp hs fd => ?_⟩
  rcases C136_entries hs 1 true fd i j (Or.inr hij) with ⟨-, hz⟩ | hl
  · exact hz
  · obtain ⟨hpos, r, hr, hrw, hj⟩ := hl.1
    have h1 : r.w = M r.src r.dst := (mem_allRows M r).1 (hp.mem_iff.1 (List.mem_of_mem_take hr))
    have h2 : r.w = M i j := by
      rcases hj with ⟨h3, h4⟩ | ⟨h3, h4⟩
      · rw [h1, h3, h4]
      · rw [h1, h3, h4]
        exact hM.apply i j
    rw [← hrw, h2] at hpos
    exact absurd hpos (not_lt.2 hneg.le)

/-- C230: with an even number of nodes and `fill_diagonal=False` the diagonal comes back as well; with the default it is
replaced by the sums of the rows, diagonal included. -/
theorem C230_diagonal_partial (M : Matrix (Fin p) (Fin p) ℝ) (hM : M.IsSymm) (h0 : ∀ i j, 0 ≤ M i j) (he : Even p) :
    ∃ rows, parseNetwork (writeNetwork false M) = .ok rows ∧ ∀ sorted : List (NetRow p), sorted.Perm rows →
      sorted.Pairwise (fun a b => b.w ≤ a.w) → readNetwork sorted 1 true false = M ∧
        ∀ i, readNetwork sorted 1 true true i i = ∑ j, M i j := by
  obtain ⟨rows, hrows, hoff⟩ := C230_edges_partial M hM h0
  refine ⟨rows, hrows, fun sorted hp hs => ?_⟩
  obtain rfl : rows = allRows M := by
    rw [parse_write] at hrows
    exact (Except.ok.inj hrows).symm
  have hkeep : keptRows sorted 1 true = sorted := by
    refine C136_all_rows sorted true (Or.inr ?_)
    rw [hp.length_eq, length_allRows]
    exact he.mul_right p
  have hdiag : ∀ i, readNetwork sorted 1 true false i i = M i i := by
    intro i
    rcases C136_entries hs 1 true false i i (Or.inl rfl) with ⟨hno, hz⟩ | hl
    · rw [hz]
      by_contra hne
      have hpos : 0 < M i i := lt_of_le_of_ne (h0 i i) hne
      rw [hkeep] at hno
      exact hno ⟨i, i, M i i⟩ (hp.mem_iff.2 ((mem_allRows M _).2 rfl)) hpos (Or.inl ⟨rfl, rfl⟩)
    · obtain ⟨-, r, hr, hrw, hj⟩ := hl.1
      have h1 : r.w = M r.src r.dst := (mem_allRows M r).1 (hp.mem_iff.1 (List.mem_of_mem_take hr))
      rw [← hrw, h1]
      rcases hj with ⟨h3, h4⟩ | ⟨h3, h4⟩ <;> rw [h3, h4]
  have hall : readNetwork sorted 1 true false = M := by
    ext i j
    by_cases hij : i = j
    · rw [hij]; exact hdiag j
    · exact hoff sorted hp hs false i j hij
  refine ⟨hall, fun i => ?_⟩
  have e : readNetwork sorted 1 true true i i = ∑ j, readNetwork sorted 1 true false i j := by
    simp [readNetwork, fillRowSums]
  rw [e, hall]

/-- A network meeting the hypotheses, with its lines in order. -/
example : (!![2, 1; 1, 3] : Matrix (Fin 2) (Fin 2) ℝ).IsSymm ∧
    (∀ i j, 0 ≤ (!![2, 1; 1, 3] : Matrix (Fin 2) (Fin 2) ℝ) i j) ∧ Even 2 ∧
    ([⟨1, 1, 3⟩, ⟨0, 0, 2⟩, ⟨0, 1, 1⟩, ⟨1, 0, 1⟩] : List (NetRow 2)).Pairwise (fun a b => b.w ≤ a.w) := by
  refine ⟨?_, ?_, ⟨1, rfl⟩, ?_⟩
  · ext i j
    fin_cases i <;> fin_cases j <;> rfl
  · intro i j
    fin_cases i <;> fin_cases j <;> norm_num
  · simp
    norm_num

/-- A symmetric network with a negative entry. -/
example : (!![2, -1; -1, 3] : Matrix (Fin 2) (Fin 2) ℝ).IsSymm ∧ (!![2, -1; -1, 3] : Matrix (Fin 2) (Fin 2) ℝ) 0 1 < 0 := by
  refine ⟨?_, by norm_num⟩
  ext i j
  fin_cases i <;> fin_cases j <;> rfl

end Verif.Props
