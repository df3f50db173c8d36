import Verif.Model.Input3d
import Mathlib.Data.List.Dedup
import Mathlib.Tactic.NormNum

/-! Property theorem C232: which three-dimensional data are accepted. -/

namespace Verif.Props

open Verif.Model

set_option autoImplicit false

/-- Specification: at least one block, each with at least two samples, all with the same `d ≥ 2` variables. -/
def ValidBlocks (ss : List (ℕ × ℕ)) (d : ℕ) : Prop := ss ≠ [] ∧ 2 ≤ d ∧ ∀ s ∈ ss, 2 ≤ s.1 ∧ s.2 = d

theorem checkArrays_spec : ∀ ss : List (ℕ × ℕ),
    checkArrays ss = if ∀ s ∈ ss, 2 ≤ s.1 ∧ 2 ≤ s.2 then .ok ss else .error .value
  | [] => by simp [checkArrays]
  | s :: ss => by
    unfold checkArrays
    rw [checkArrays_spec ss]
    unfold checkArrayShape
    by_cases h : 2 ≤ s.1 ∧ 2 ≤ s.2
    · rw [if_pos h]
      by_cases h' : ∀ s ∈ ss, 2 ≤ s.1 ∧ 2 ≤ s.2
      · rw [if_pos h', if_pos (by simpa using ⟨h, by simpa using h'⟩)]
      · rw [if_neg h', if_neg fun h2 => h' fun t ht => h2 t (List.mem_cons_of_mem _ ht)]
    · have h3 : ¬ ∀ t ∈ s :: ss, 2 ≤ t.1 ∧ 2 ≤ t.2 := fun h2 => h (h2 s List.mem_cons_self)
      rw [if_neg h, if_neg h3]

/-- One different value: the list is not empty and constant. -/
theorem dedup_length_one (l : List ℕ) (a : ℕ) : (a :: l).dedup.length = 1 ↔ ∀ b ∈ l, b = a := by
  constructor
  · intro h b hb
    obtain ⟨c, hc⟩ := List.length_eq_one_iff.1 h
    have ha : a ∈ (a :: l).dedup := List.mem_dedup.2 List.mem_cons_self
    have hb' : b ∈ (a :: l).dedup := List.mem_dedup.2 (List.mem_cons_of_mem _ hb)
    rw [hc, List.mem_singleton] at ha hb'
    rw [ha, hb']
  · intro h
    have hsub : ∀ x ∈ (a :: l).dedup, x = a := by
      intro x hx
      rcases List.mem_cons.1 (List.mem_dedup.1 hx) with h1 | h1
      · exact h1
      · exact h x h1
    have ha : a ∈ (a :: l).dedup := List.mem_dedup.2 List.mem_cons_self
    have hnd := List.nodup_dedup (a :: l)
    generalize (a :: l).dedup = m at *
    match m, ha, hsub, hnd with
    | [x], _, _, _ => rfl
    | x :: y :: r, _, hs, hn =>
      have h1 := hs x (by simp)
      have h2 := hs y (by simp)
      simp [h1, h2] at hn

/-- What the check of a list returns when the stacking step returns its argument. -/
theorem checkInputList_of_stack {np : NumpyRelease} {ss : List (ℕ × ℕ)} (hc : ∀ s ∈ ss, 2 ≤ s.1 ∧ 2 ≤ s.2)
    (hst : npStack np ss = .ok ss) {d : ℕ} (hv : ValidBlocks ss d) :
    checkInputList np ss = .ok ⟨ss.map Prod.fst, d, ss.length⟩ := by
  obtain ⟨hne, _, hall⟩ := hv
  unfold checkInputList
  rw [checkArrays_spec, if_pos hc]
  simp only [hst]
  match ss, hne, hall with
  | s :: r, _, hall =>
    have h1 : (List.map Prod.snd (s :: r)).dedup.length = 1 := by
      rw [List.map_cons, dedup_length_one]
      intro b hb
      obtain ⟨t, ht, rfl⟩ := List.mem_map.1 hb
      rw [(hall t (List.mem_cons_of_mem _ ht)).2, (hall s List.mem_cons_self).2]
    rw [if_neg (not_not.2 h1)]
    simp only [(hall s List.mem_cons_self).2]

/-- Invalid lists are rejected with ValueError whatever the release. -/
theorem checkInputList_invalid (np : NumpyRelease) (ss : List (ℕ × ℕ)) (h : ∀ d, ¬ ValidBlocks ss d) :
    checkInputList np ss = .error .value := by
  unfold checkInputList
  rw [checkArrays_spec]
  by_cases hc : ∀ s ∈ ss, 2 ≤ s.1 ∧ 2 ≤ s.2
  · rw [if_pos hc]
    have hd : (ss.map Prod.snd).dedup.length ≠ 1 := by
      intro h1
      match ss, hc, h1, h with
      | s :: r, hc, h1, h =>
        rw [List.map_cons, dedup_length_one] at h1
        refine h s.2 ⟨by simp, (hc s List.mem_cons_self).2, fun t ht => ⟨(hc t ht).1, ?_⟩⟩
        rcases List.mem_cons.1 ht with rfl | ht'
        · rfl
        · exact h1 _ (List.mem_map_of_mem ht')
    simp only
    unfold npStack
    by_cases h1 : ∀ s ∈ ss, ∀ t ∈ ss, s = t
    · rw [if_pos h1]
      simp only [if_pos hd]
    · rw [if_neg h1]
      cases np
      · simp only
        by_cases h2 : ∀ s ∈ ss, ∀ t ∈ ss, s.1 = t.1
        · rw [if_pos h2]
        · rw [if_neg h2]
          simp only [if_pos hd]
      · rfl
  · rw [if_neg hc]

/-- C232 (lists, numpy before 1.24): a list is accepted exactly if it has a block, and all blocks have at least two samples and
the same number, at least two, of variables; the numbers returned are those of the data. Everything else is a ValueError. -/
theorem C232_list_partial (ss : List (ℕ × ℕ)) :
    (∀ d, ValidBlocks ss d → checkInputList .before124 ss = .ok ⟨ss.map Prod.fst, d, ss.length⟩) ∧
      ((∀ d, ¬ ValidBlocks ss d) → checkInputList .before124 ss = .error .value) := by
  refine ⟨fun d hv => ?_, checkInputList_invalid _ ss⟩
  have hc : ∀ s ∈ ss, 2 ≤ s.1 ∧ 2 ≤ s.2 := fun s hs => ⟨(hv.2.2 s hs).1, by rw [(hv.2.2 s hs).2]; exact hv.2.1⟩
  refine checkInputList_of_stack hc ?_ hv
  unfold npStack
  by_cases h1 : ∀ s ∈ ss, ∀ t ∈ ss, s = t
  · rw [if_pos h1]
  · rw [if_neg h1]
    simp only
    rw [if_neg]
    intro h2
    exact h1 fun s hs t ht => Prod.ext (h2 s hs t ht) (by rw [(hv.2.2 s hs).2, (hv.2.2 t ht).2])

/-- C232 (lists, numpy 1.24 and later): a valid list is accepted if all its blocks have the same number of samples, and
rejected with ValueError otherwise. -/
theorem C232_list_current (ss : List (ℕ × ℕ)) (d : ℕ) (hv : ValidBlocks ss d) :
    ((∀ s ∈ ss, ∀ t ∈ ss, s.1 = t.1) → checkInputList .since124 ss = .ok ⟨ss.map Prod.fst, d, ss.length⟩) ∧
      ((∃ s ∈ ss, ∃ t ∈ ss, s.1 ≠ t.1) → checkInputList .since124 ss = .error .value) := by
  have hc : ∀ s ∈ ss, 2 ≤ s.1 ∧ 2 ≤ s.2 := fun s hs => ⟨(hv.2.2 s hs).1, by rw [(hv.2.2 s hs).2]; exact hv.2.1⟩
  constructor
  · intro h
    refine checkInputList_of_stack hc ?_ hv
    unfold npStack
    rw [if_pos fun s hs t ht => Prod.ext (h s hs t ht) (by rw [(hv.2.2 s hs).2, (hv.2.2 t ht).2])]
  · rintro ⟨s, hs, t, ht, hne⟩
    unfold checkInputList
    rw [checkArrays_spec, if_pos hc]
    simp only
    unfold npStack
    rw [if_neg fun h => hne (by rw [h s hs t ht])]

/-- C232 is false with numpy 1.24 and later: two time points with three and four samples of two variables are valid data and
are rejected. -/
theorem C232_unequal_false :
    ¬ ∀ ss d, ValidBlocks ss d → checkInputList .since124 ss = .ok ⟨ss.map Prod.fst, d, ss.length⟩ := by
  intro h
  have hv : ValidBlocks [(3, 2), (4, 2)] 2 := by simp [ValidBlocks]
  have h1 := h _ _ hv
  rw [(C232_list_current _ _ hv).2 ⟨(3, 2), by simp, (4, 2), by simp, by simp⟩] at h1
  cases h1

/-- C232 (arrays): an array of shape `(T, n, d)` is accepted exactly if `T ≥ 1`, `n ≥ 2` and `d ≥ 2`, with every release; too
few samples or variables are a ValueError, no time point at all an IndexError. -/
theorem C232_array (np : NumpyRelease) (T n d : ℕ) :
    (0 < T → 2 ≤ n → 2 ≤ d → checkInputArray np T n d = .ok ⟨List.replicate T n, d, T⟩) ∧
      (0 < T → ¬ (2 ≤ n ∧ 2 ≤ d) → checkInputArray np T n d = .error .value) ∧
      (T = 0 → checkInputArray np T n d = .error .index) := by
  refine ⟨fun hT hn hd => ?_, fun hT h => ?_, ?_⟩
  · obtain ⟨T', rfl⟩ : ∃ T', T = T' + 1 := ⟨T - 1, by omega⟩
    unfold checkInputArray
    rw [checkArrays_spec, if_pos (by intro s hs; rw [List.eq_of_mem_replicate hs]; exact ⟨hn, hd⟩)]
    simp only
    unfold npStack
    rw [if_pos (by intro s hs t ht; rw [List.eq_of_mem_replicate hs, List.eq_of_mem_replicate ht])]
    simp [List.replicate_succ]
  · unfold checkInputArray
    rw [checkArrays_spec, if_neg]
    intro h2
    exact h (h2 (n, d) (List.mem_replicate.2 ⟨by omega, rfl⟩))
  · rintro rfl
    rfl

/-- Valid data with unequal numbers of samples, accepted by old releases. -/
example : ValidBlocks [(3, 2), (4, 2)] 2 ∧
    checkInputList .before124 [(3, 2), (4, 2)] = .ok ⟨[3, 4], 2, 2⟩ :=
  ⟨by simp [ValidBlocks], (C232_list_partial _).1 2 (by simp [ValidBlocks])⟩

/-- Data which are not valid: different numbers of variables. -/
example : ∀ d, ¬ ValidBlocks [(3, 2), (3, 4)] d := by
  intro d h
  have h1 := (h.2.2 (3, 2) (by simp)).2
  have h2 := (h.2.2 (3, 4) (by simp)).2
  simp at h1 h2
  omega

end Verif.Props
