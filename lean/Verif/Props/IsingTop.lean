import Verif.Model.IsingTop
import Verif.Props.IsingSampler
import Mathlib.Data.List.Nodup
import Mathlib.Data.List.Perm.Subperm
import Mathlib.Data.List.NodupEquivFin

/-! Property theorems C182: the front of the Ising sampler (regain/datasets/ising.py). -/

namespace Verif.Props

open Verif.Model

set_option autoImplicit false

variable {p : ℕ}

/-- **C182** the call succeeds exactly for a symmetric graph, two responses, a known method and: at least one
sample for MH, `CFTP_retry` at least two for CFTP, at most ten variables and 1024 samples for the direct
method. -/
theorem C182_returns_iff (theta : Matrix (Fin p) (Fin p) ℝ) (responses : List ℝ) (method : String)
    (n retry : ℕ) (d : SamplerDraws p) :
    (∃ r, isingSampler theta responses method n retry d = .ok r) ↔
      theta = theta.transpose ∧ responses.length = 2 ∧
        ((method = "MH" ∧ 1 ≤ n) ∨ (method = "CFTP" ∧ 2 ≤ retry) ∨ (method = "DIRECT" ∧ p ≤ 10 ∧ n ≤ 1024)) := by
  unfold isingSampler
  by_cases h1 : theta = theta.transpose
  · rw [if_neg (not_not.mpr h1)]
    by_cases h2 : responses.length = 2
    · rw [if_neg (not_not.mpr h2)]
      simp only [h1.symm, h2, true_and]
      by_cases hc : method = "CFTP"
      · subst hc
        rcases retry with - | - | k
        · simp [cftpLoop]
        · simp [cftpLoop]
        · simp [cftpLoop]
      · rw [if_neg hc]
        by_cases hm : method = "MH"
        · subst hm
          by_cases hn : n = 0
          · simp [hn]
          · simp [hn, Nat.one_le_iff_ne_zero]
        · rw [if_neg hm]
          by_cases hd : method = "DIRECT"
          · subst hd
            simp only [if_true]
            by_cases hp : 10 < p
            · simp [directSampling, hp, not_le.mpr hp]
            · rw [directSampling, if_neg hp]
              simp only
              by_cases hn : 2 ^ 10 < n
              · rw [if_pos hn]
                have : ¬ n ≤ 1024 := by norm_num at hn; omega
                simp [this]
              · rw [if_neg hn]
                have : n ≤ 1024 := by norm_num at hn; omega
                simp [this, not_lt.mp hp]
          · simp [hd, hc, hm]
    · simp [h2]
  · simp [h1]

/-- **C182 is false for the argument**: the graph given by the caller loses its diagonal, whatever the method. -/
theorem C182_theta_false (theta : Matrix (Fin p) (Fin p) ℝ) (responses : List ℝ) (method : String) (n retry : ℕ)
    (d : SamplerDraws p) {r : NArr} {theta' : Matrix (Fin p) (Fin p) ℝ}
    (h : isingSampler theta responses method n retry d = .ok (r, theta')) :
    (∀ i, theta' i i = 0) ∧ (∀ i j, i ≠ j → theta' i j = theta i j) ∧
      ((∃ i, theta i i ≠ 0) → theta' ≠ theta) := by
  have e : theta' = fillDiagZero theta := by
    unfold isingSampler at h
    simp only at h
    split at h
    · cases h
    split at h
    · cases h
    split at h
    · split at h
      · cases h
      · cases h; rfl
    split at h
    · split at h
      · cases h
      · cases h; rfl
    split at h
    · split at h
      · cases h
      · split at h
        · cases h
        · cases h; rfl
    · cases h
  subst e
  refine ⟨fun i => by simp [fillDiagZero], fun i j hij => by simp [fillDiagZero, hij], fun ⟨i, hi⟩ he => hi ?_⟩
  rw [← he]
  simp [fillDiagZero]

/-- **C182** CFTP returns one row per sample; from two on `CFTP_retry` has no effect. -/
theorem C182_cftp (theta : Matrix (Fin p) (Fin p) ℝ) (hs : theta = theta.transpose) (r0 r1 : ℝ) (n : ℕ)
    {retry : ℕ} (hr : 2 ≤ retry) (d : SamplerDraws p) :
    isingSampler theta [r0, r1] "CFTP" n retry d
      = .ok (.mat ((List.range n).map fun s => List.ofFn (d.exact 0 s)), fillDiagZero theta) := by
  obtain ⟨k, rfl⟩ := Nat.exists_eq_add_of_le' hr
  unfold isingSampler
  rw [if_neg (not_not.mpr hs), if_neg (by simp)]
  simp [cftpLoop, cftpRows]

/-- **C182 is false for `CFTP_retry=1`** (and 0): UnboundLocalError. -/
theorem C182_retry_false (theta : Matrix (Fin p) (Fin p) ℝ) (hs : theta = theta.transpose) (r0 r1 : ℝ) (n : ℕ)
    {retry : ℕ} (hr : retry ≤ 1) (d : SamplerDraws p) :
    isingSampler theta [r0, r1] "CFTP" n retry d = .error .name := by
  have : retry - 1 = 0 := by omega
  unfold isingSampler
  rw [if_neg (not_not.mpr hs), if_neg (by simp)]
  simp [cftpLoop, this]

/-- **C182 is false for CFTP with `max_iter=0`**: no finite number of passes determines a state. -/
theorem C182_cftp_max_iter_false [NeZero p] (a : IsingArgs p) (cs : Fin p → Option ℝ) (k : ℕ) :
    isingExact a cs (List.replicate k []) [] = none := by
  have hp : ∀ m : ℕ, exactPass a (List.replicate m []) = fun _ => none := by
    intro m
    unfold exactPass
    induction m with
    | zero => rfl
    | succ m ih => rw [List.replicate_succ, List.foldl_cons, List.foldl_nil, ih]
  have : ∀ k m : ℕ, isingExact a cs (List.replicate k []) (List.replicate m []) = none := by
    intro k
    induction k with
    | zero => intro m; rfl
    | succ k ih =>
      intro m
      rw [List.replicate_succ, isingExact]
      rw [show ([] : List (Fin p → ℝ)) :: List.replicate m [] = List.replicate (m + 1) [] from rfl, hp, dif_neg]
      · exact ih (m + 1)
      · intro h
        simpa using h 0
  exact this k 0

/-- The indices that `np.random.choice(np.arange(0, N), n, replace=False)` may return. -/
def ChoiceWithout (N n : ℕ) (ixs : List ℕ) : Prop := ixs.Nodup ∧ ixs.length = n ∧ ∀ i ∈ ixs, i < N

theorem productStates_nodup {r0 r1 : ℝ} (h : r0 ≠ r1) : ∀ k, (productStates r0 r1 k).Nodup
  | 0 => by simp [productStates]
  | k + 1 => by
    have ih := productStates_nodup h k
    simp only [productStates, List.flatMap_cons, List.flatMap_nil, List.append_nil]
    refine List.nodup_append.mpr ⟨ih.map (List.cons_injective), ih.map (List.cons_injective), ?_⟩
    intro a ha b hb hab
    obtain ⟨s, -, rfl⟩ := List.mem_map.mp ha
    obtain ⟨t, -, rfl⟩ := List.mem_map.mp hb
    exact h (List.cons.inj hab).1

theorem nodup_getD {α : Type*} {L : List α} (hL : L.Nodup) (dflt : α) {ixs : List ℕ} (hi : ixs.Nodup)
    (hlt : ∀ i ∈ ixs, i < L.length) : (ixs.map fun i => L.getD i dflt).Nodup := by
  refine List.Nodup.map_on (fun a ha b hb hab => ?_) hi
  have h1 := hlt a ha
  have h2 := hlt b hb
  simp only [List.getD_eq_getElem?_getD, List.getElem?_eq_getElem h1, List.getElem?_eq_getElem h2,
    Option.getD_some] at hab
  exact (hL.getElem_inj_iff).mp hab

/-- **C182 is false for the direct method**: the states are drawn without replacement, so no two of the
samples are equal, and 1024 samples are all the states in some order, whatever the graph. -/
theorem C182_direct_false (theta : Matrix (Fin p) (Fin p) ℝ) (hs : theta = theta.transpose) (hp : p ≤ 10)
    {r0 r1 : ℝ} (hr : r0 ≠ r1) {n : ℕ} (hn : n ≤ 1024) (retry : ℕ) (d : SamplerDraws p)
    (hc : ChoiceWithout (2 ^ 10) n d.ixs) :
    ∃ rows, isingSampler theta [r0, r1] "DIRECT" n retry d = .ok (.mat rows, fillDiagZero theta) ∧
      rows.length = n ∧ rows.Nodup ∧ (n = 1024 → rows.Perm (productStates r0 r1 10)) := by
  obtain ⟨h1, h2, h3⟩ := hc
  have hcount := productStates_count r0 r1 10
  have hnodup := productStates_nodup hr 10
  refine ⟨d.ixs.map fun i => (productStates r0 r1 10).getD i [], ?_, by simpa using h2, ?_, fun hN => ?_⟩
  · unfold isingSampler
    rw [if_neg (not_not.mpr hs), if_neg (by simp)]
    rw [if_neg (by decide), if_neg (by decide), if_pos rfl, directSampling, if_neg (not_lt.mpr hp)]
    simp only
    rw [if_neg (by norm_num; exact hn)]
    rfl
  · exact nodup_getD hnodup [] h1 fun i hi => by rw [hcount]; exact h3 i hi
  · generalize productStates r0 r1 10 = L at hcount hnodup
    have hnd := nodup_getD hnodup [] h1 fun i hi => by rw [hcount]; exact h3 i hi
    refine (List.subperm_of_subset hnd fun a ha => ?_).perm_of_length_le ?_
    · obtain ⟨i, hi, rfl⟩ := List.mem_map.mp ha
      have hlt : i < L.length := by rw [hcount]; exact h3 i hi
      rw [List.getD_eq_getElem?_getD, List.getElem?_eq_getElem hlt]
      exact List.getElem_mem hlt
    · rw [hcount, List.length_map, h2, hN]; norm_num

/-- Three draws. -/
example : ChoiceWithout (2 ^ 10) 3 [5, 0, 1023] ∧ (0 : Matrix (Fin 2) (Fin 2) ℝ) = (0 : Matrix (Fin 2) (Fin 2) ℝ).transpose :=
  ⟨⟨by decide, rfl, by decide⟩, by simp⟩

end Verif.Props
