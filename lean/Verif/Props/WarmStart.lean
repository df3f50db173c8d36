import Verif.Model.WarmStart
import Mathlib.Tactic.NormNum

/-! Property theorem C229: fitting again with `warm_start`. -/

namespace Verif.Props

open Verif.Model

set_option autoImplicit false

theorem assignRow_ok (done rest : List (List ℝ)) (row v : List ℝ) (h : v.length = row.length) :
    assignRow (done ++ row :: rest) done.length v = .ok (done ++ v :: rest) := by
  unfold assignRow
  simp [h]

/-- The loop writes the solutions over the first rows and leaves the others. -/
theorem assignRows_over (d : ℕ) (sols : List (List ℝ)) (hs : ∀ v ∈ sols, v.length = d) :
    ∀ (done c : List (List ℝ)), (∀ r ∈ c, r.length = d) → sols.length ≤ c.length →
      assignRows (done ++ c) done.length sols = .ok (done ++ sols ++ c.drop sols.length) := by
  induction sols with
  | nil => intro done c _ _; simp [assignRows]
  | cons v sols ih =>
    intro done c hc hlen
    cases c with
    | nil => simp at hlen
    | cons row c =>
      unfold assignRows
      rw [assignRow_ok done c row v (by rw [hs v (by simp), hc row (by simp)])]
      simp only
      have h := ih (fun u hu => hs u (by simp [hu])) (done ++ [v]) c (fun r hr => hc r (by simp [hr])) (by simpa using hlen)
      simp only [List.append_assoc, List.singleton_append, List.length_append, List.length_singleton] at h
      rw [h]
      simp

/-- C229: without warm start, or in the first fit, the coefficients are the solutions of the targets. -/
theorem C229_cold (warm : Bool) (prev : Option (List (List ℝ))) (h : warm = false ∨ prev = none) (d : ℕ)
    (sols : List (List ℝ)) (hs : ∀ v ∈ sols, v.length = d) : warmCoef warm prev d sols = .ok sols := by
  have hst : startCoef warm prev sols.length d = List.replicate sols.length (List.replicate d 0) := by
    unfold startCoef
    rcases h with rfl | rfl
    · rfl
    · cases warm <;> rfl
  unfold warmCoef
  rw [hst]
  have := assignRows_over d sols hs [] (List.replicate sols.length (List.replicate d 0))
    (fun r hr => by rw [List.eq_of_mem_replicate hr, List.length_replicate]) (by simp)
  simpa using this

/-- C229: with warm start and as many targets and features as before, fitting again gives what fitting afresh gives:
nothing of the previous coefficients is left. -/
theorem C229_same_shape_partial (prev : List (List ℝ)) (d : ℕ) (hp : ∀ r ∈ prev, r.length = d) (sols : List (List ℝ))
    (hs : ∀ v ∈ sols, v.length = d) (hk : prev.length = sols.length) :
    warmCoef true (some prev) d sols = warmCoef false (some prev) d sols := by
  rw [C229_cold false _ (Or.inl rfl) d sols hs]
  have := assignRows_over d sols hs [] prev hp hk.ge
  simp only [List.nil_append, List.length_nil] at this
  unfold warmCoef
  change assignRows prev 0 sols = _
  rw [this, ← hk, List.drop_length, List.append_nil]

/-- C229 fails for fewer targets: the rows of the previous fit that have no target any more stay in `coef_`. -/
theorem C229_fewer_targets_false (prev : List (List ℝ)) (d : ℕ) (hp : ∀ r ∈ prev, r.length = d) (sols : List (List ℝ))
    (hs : ∀ v ∈ sols, v.length = d) (hk : sols.length < prev.length) :
    warmCoef true (some prev) d sols = .ok (sols ++ prev.drop sols.length) ∧
      warmCoef true (some prev) d sols ≠ warmCoef false (some prev) d sols := by
  have := assignRows_over d sols hs [] prev hp hk.le
  simp only [List.nil_append, List.length_nil] at this
  have h1 : warmCoef true (some prev) d sols = .ok (sols ++ prev.drop sols.length) := this
  refine ⟨h1, ?_⟩
  rw [h1, C229_cold false _ (Or.inl rfl) d sols hs]
  intro e
  have e' := congrArg List.length (Except.ok.inj e)
  simp at e'
  omega

/-- C229 fails for more targets: `fit` raises IndexError. -/
theorem C229_more_targets_false (prev : List (List ℝ)) (d : ℕ) (hp : ∀ r ∈ prev, r.length = d) (sols : List (List ℝ))
    (hs : ∀ v ∈ sols, v.length = d) (hk : prev.length < sols.length) :
    warmCoef true (some prev) d sols = .error .index := by
  have key : ∀ (sols : List (List ℝ)), (∀ v ∈ sols, v.length = d) → ∀ (done c : List (List ℝ)), (∀ r ∈ c, r.length = d) →
      c.length < sols.length → assignRows (done ++ c) done.length sols = .error .index := by
    intro sols
    induction sols with
    | nil => intro _ done c _ h; simp at h
    | cons v sols ih =>
      intro hs done c hc hlen
      cases c with
      | nil => simp [assignRows, assignRow]
      | cons row c =>
        unfold assignRows
        rw [assignRow_ok done c row v (by rw [hs v (by simp), hc row (by simp)])]
        simp only
        have h := ih (fun u hu => hs u (by simp [hu])) (done ++ [v]) c (fun r hr => hc r (by simp [hr])) (by simpa using hlen)
        simpa using h
  exact key sols hs [] prev hp hk

/-- C229 fails for another number of features (two or more): `fit` raises ValueError. -/
theorem C229_features_false (prev : List (List ℝ)) (d d' : ℕ) (hd : 2 ≤ d) (hne : d ≠ d') (hp : ∀ r ∈ prev, r.length = d')
    (hp0 : prev ≠ []) (sols : List (List ℝ)) (hs : ∀ v ∈ sols, v.length = d) (hk : sols ≠ []) :
    warmCoef true (some prev) d sols = .error .value := by
  obtain ⟨row, c, rfl⟩ := List.exists_cons_of_ne_nil hp0
  obtain ⟨v, vs, rfl⟩ := List.exists_cons_of_ne_nil hk
  have hv : v.length = d := hs v (by simp)
  have hrow : row.length = d' := hp row (by simp)
  have h1 : assignRow (row :: c) 0 v = .error .value := by
    unfold assignRow
    simp only [List.getElem?_cons_zero]
    rw [if_neg (by omega)]
    split
    · rename_i a
      simp at hv
      omega
    · rfl
  unfold warmCoef
  change assignRows (row :: c) 0 (v :: vs) = _
  unfold assignRows
  rw [h1]

/-- Data meeting the hypotheses: two targets first, then one. -/
example : warmCoef true (some [[1, 2], [3, 4]]) 2 [[5, 6]] = .ok [[5, 6], [3, 4]] :=
  (C229_fewer_targets_false [[1, 2], [3, 4]] 2 (by simp) [[5, 6]] (by simp) (by simp)).1

/-- And as many as before. -/
example : warmCoef true (some [[1, 2], [3, 4]]) 2 [[5, 6], [7, 8]] = .ok [[5, 6], [7, 8]] := by
  rw [C229_same_shape_partial [[1, 2], [3, 4]] 2 (by simp) [[5, 6], [7, 8]] (by simp) (by simp),
    C229_cold false _ (Or.inl rfl) 2 _ (by simp)]

/-- More targets, and other features. -/
example : warmCoef true (some [[1, 2]]) 2 [[5, 6], [7, 8]] = .error .index ∧
    warmCoef true (some [[1, 2]]) 3 [[5, 6, 7]] = .error .value :=
  ⟨C229_more_targets_false [[1, 2]] 2 (by simp) _ (by simp) (by simp),
    C229_features_false [[1, 2]] 3 2 (by norm_num) (by norm_num) (by simp) (by simp) _ (by simp) (by simp)⟩

end Verif.Props
