import Verif.Model.Stability
import Mathlib.Data.Nat.Choose.Cast
import Mathlib.Tactic.FieldSimp
import Mathlib.Tactic.IntervalCases
import Mathlib.Tactic.NormNum

/-! Property theorems C49, C50, C75-C77: stability selection. -/

namespace Verif.Props

open Verif.Model

set_option autoImplicit false

variable {T p : ℕ}

/-- All estimators have the same edges (at every time point). -/
def SameGraph (est : List (Prec T p)) : Prop :=
  ∀ A ∈ est, ∀ B ∈ est, ∀ t i j, i < j → (A t i j ≠ 0 ↔ B t i j ≠ 0)

open Classical in
theorem fold_count (est : List (Prec T p)) (t : Fin T) (i j : Fin p) (s : ℝ) :
    est.foldl (fun s c => s + if c t i j ≠ 0 then (1 : ℝ) else 0) s =
      s + (est.countP fun c => c t i j ≠ 0 : ℕ) := by
  induction est generalizing s with
  | nil => simp
  | cons c l ih =>
    rw [List.foldl_cons, ih, List.countP_cons]
    by_cases h : c t i j ≠ 0
    · simp [h]; ring
    · simp [h]

open Classical in
theorem meanConnectivity_eq (est : List (Prec T p)) (t : Fin T) (i j : Fin p) :
    meanConnectivity est t i j = (est.countP fun c => c t i j ≠ 0 : ℕ) / est.length := by
  unfold meanConnectivity
  rw [fold_count, zero_add]

theorem meanConnectivity_range {est : List (Prec T p)} (h : est ≠ []) (t : Fin T) (i j : Fin p) :
    0 ≤ meanConnectivity est t i j ∧ meanConnectivity est t i j ≤ 1 := by
  classical
  rw [meanConnectivity_eq]
  have hl : (0 : ℝ) < est.length := by exact_mod_cast List.length_pos_iff.mpr h
  refine ⟨by positivity, ?_⟩
  rw [div_le_one hl]
  exact_mod_cast List.countP_le_length

theorem choose_two_real (p : ℕ) : ((p.choose 2 : ℕ) : ℝ) = p * (p - 1) / 2 := by
  rw [Nat.cast_choose_two]

theorem xf_div_of_ne (a : ℝ) {b : ℝ} (hb : b ≠ 0) : XF.div (.fin a) (.fin b) = .fin (a / b) := by
  unfold XF.div
  simp only
  rw [if_pos hb]

/-- The number of pairs above the diagonal. -/
theorem sum_upper (p : ℕ) : (∑ i : Fin p, ∑ j : Fin p, if i < j then (1 : ℝ) else 0) = p.choose 2 := by
  induction p with
  | zero => simp
  | succ n ih =>
    rw [Fin.sum_univ_castSucc]
    have h1 : (∑ j : Fin (n + 1), if Fin.last n < j then (1 : ℝ) else 0) = 0 :=
      Finset.sum_eq_zero fun j _ => if_neg (not_lt.mpr (Fin.le_last j))
    have h2 : ∀ i : Fin n, (∑ j : Fin (n + 1), if i.castSucc < j then (1 : ℝ) else 0) =
        (∑ j : Fin n, if i < j then (1 : ℝ) else 0) + 1 := by
      intro i
      rw [Fin.sum_univ_castSucc, if_pos (Fin.castSucc_lt_last i)]
      rfl
    rw [h1, add_zero, Finset.sum_congr rfl fun i _ => h2 i, Finset.sum_add_distrib, ih]
    rw [choose_two_real, choose_two_real]
    simp
    ring

theorem xi_term {x : ℝ} (h0 : 0 ≤ x) (h1 : x ≤ 1) :
    0 ≤ 2 * x * (1 - x) ∧ 2 * x * (1 - x) ≤ 1 / 2 := by
  constructor
  · have : 0 ≤ 1 - x := by linarith
    positivity
  · nlinarith [sq_nonneg (2 * x - 1)]

theorem xiSum_range {est : List (Prec T p)} (h : est ≠ []) :
    0 ≤ xiSum est ∧ xiSum est ≤ 1 / 2 * ((p.choose 2 : ℝ) * T) := by
  unfold xiSum
  constructor
  · refine Finset.sum_nonneg fun t _ => Finset.sum_nonneg fun i _ => Finset.sum_nonneg fun j _ => ?_
    split
    · have := meanConnectivity_range h t i j
      exact (xi_term this.1 this.2).1
    · exact le_rfl
  · have h1 : ∀ t : Fin T, (∑ i, ∑ j, if i < j then
        2 * meanConnectivity est t i j * (1 - meanConnectivity est t i j) else 0) ≤
        1 / 2 * (p.choose 2 : ℝ) := by
      intro t
      rw [← sum_upper, Finset.mul_sum]
      refine Finset.sum_le_sum fun i _ => ?_
      rw [Finset.mul_sum]
      refine Finset.sum_le_sum fun j _ => ?_
      split
      · have := meanConnectivity_range h t i j
        rw [mul_one]
        exact (xi_term this.1 this.2).2
      · simp
    refine (Finset.sum_le_sum fun t _ => h1 t).trans (le_of_eq ?_)
    rw [Finset.sum_const, Finset.card_univ, Fintype.card_fin, nsmul_eq_mul]
    ring

theorem xiSum_eq_zero_iff {est : List (Prec T p)} (h : est ≠ []) : xiSum est = 0 ↔ SameGraph est := by
  classical
  have hl : (0 : ℝ) < est.length := by exact_mod_cast List.length_pos_iff.mpr h
  have hnn : ∀ t i j, 0 ≤ if i < j then
      2 * meanConnectivity est t i j * (1 - meanConnectivity est t i j) else 0 := by
    intro t i j
    split
    · have := meanConnectivity_range h t i j
      exact (xi_term this.1 this.2).1
    · exact le_rfl
  have hterm : ∀ t i j, 2 * meanConnectivity est t i j * (1 - meanConnectivity est t i j) = 0 ↔
      ∀ A ∈ est, ∀ B ∈ est, (A t i j ≠ 0 ↔ B t i j ≠ 0) := by
    intro t i j
    rw [meanConnectivity_eq]
    constructor
    · intro h0
      rcases mul_eq_zero.mp h0 with h1 | h1
      · have h2 : ((est.countP fun c => c t i j ≠ 0 : ℕ) : ℝ) = 0 := by
          rcases mul_eq_zero.mp h1 with h3 | h3
          · norm_num at h3
          · rcases div_eq_zero_iff.mp h3 with h4 | h4
            · exact h4
            · exact absurd h4 hl.ne'
        have h3 := List.countP_eq_zero.mp (by exact_mod_cast h2)
        intro A hA B hB
        have a := h3 A hA
        have b := h3 B hB
        simp only [decide_eq_true_eq, not_not] at a b
        simp [a, b]
      · have h2 : ((est.countP fun c => c t i j ≠ 0 : ℕ) : ℝ) = est.length := by
          have : ((est.countP fun c => c t i j ≠ 0 : ℕ) : ℝ) / est.length = 1 := by linarith
          field_simp at this
          exact this
        have h3 := List.countP_eq_length.mp (by exact_mod_cast h2)
        intro A hA B hB
        have a := h3 A hA
        have b := h3 B hB
        simp only [decide_eq_true_eq] at a b
        exact iff_of_true a b
    · intro hall
      obtain ⟨A, hA⟩ := List.exists_mem_of_ne_nil est h
      by_cases ha : A t i j ≠ 0
      · have : est.countP (fun c => c t i j ≠ 0) = est.length :=
          List.countP_eq_length.mpr fun B hB => by
            simpa using (hall A hA B hB).mp ha
        rw [this, div_self hl.ne']
        ring
      · have : est.countP (fun c => c t i j ≠ 0) = 0 :=
          List.countP_eq_zero.mpr fun B hB => by
            have := mt (hall A hA B hB).mpr ha
            simpa using this
        rw [this]
        simp
  unfold xiSum SameGraph
  constructor
  · intro h0 A hA B hB t i j hij
    have h1 := (Finset.sum_eq_zero_iff_of_nonneg fun t _ => Finset.sum_nonneg fun i _ =>
      Finset.sum_nonneg fun j _ => hnn t i j).mp h0 t (Finset.mem_univ _)
    have h2 := (Finset.sum_eq_zero_iff_of_nonneg fun i _ =>
      Finset.sum_nonneg fun j _ => hnn t i j).mp h1 i (Finset.mem_univ _)
    have h3 := (Finset.sum_eq_zero_iff_of_nonneg fun j _ => hnn t i j).mp h2 j (Finset.mem_univ _)
    rw [if_pos hij] at h3
    exact (hterm t i j).mp h3 A hA B hB
  · intro hs
    refine Finset.sum_eq_zero fun t _ => Finset.sum_eq_zero fun i _ => Finset.sum_eq_zero fun j _ => ?_
    by_cases hij : i < j
    · rw [if_pos hij]
      exact (hterm t i j).mpr fun A hA B hB => hs A hA B hB t i j hij
    · rw [if_neg hij]

/-- C49: for a non-empty list of estimators on at least two variables and one time point, the global
instability is a number in `[0, 1/2]`, and it is 0 exactly when all graphs agree. -/
theorem C49_global_instability (est : List (Prec T p)) (h : est ≠ []) (hp : 2 ≤ p) (hT : 0 < T) :
    ∃ v, globalInstability est = .ok (.fin v) ∧ 0 ≤ v ∧ v ≤ 1 / 2 ∧ (v = 0 ↔ SameGraph est) := by
  have hc : (0 : ℝ) < (p.choose 2 : ℝ) * T := by
    have h1 : 0 < p.choose 2 := Nat.choose_pos hp
    have h2 : (0 : ℝ) < p.choose 2 := by exact_mod_cast h1
    have h3 : (0 : ℝ) < T := by exact_mod_cast hT
    exact mul_pos h2 h3
  obtain ⟨h0, h1⟩ := xiSum_range h
  refine ⟨xiSum est / ((p.choose 2 : ℝ) * T), ?_, div_nonneg h0 hc.le, ?_, ?_⟩
  · unfold globalInstability
    rw [if_neg h, xf_div_of_ne _ hc.ne']
  · rw [div_le_iff₀ hc]; exact h1
  · rw [div_eq_zero_iff, or_iff_left hc.ne', xiSum_eq_zero_iff h]

/-- C49: the order of the estimators is irrelevant. -/
theorem C49_order (est est' : List (Prec T p)) (h : est.Perm est') :
    globalInstability est = globalInstability est' := by
  classical
  have hm : ∀ t i j, meanConnectivity est t i j = meanConnectivity est' t i j := by
    intro t i j
    rw [meanConnectivity_eq, meanConnectivity_eq, h.countP_eq, h.length_eq]
  have hx : xiSum est = xiSum est' := by
    unfold xiSum
    simp only [hm]
  unfold globalInstability
  rw [hx]
  by_cases he : est = []
  · have he' : est' = [] := by rw [he] at h; exact h.symm.eq_nil
    rw [if_pos he, if_pos he']
  · have he' : est' ≠ [] := fun h' => he (by subst h'; exact h.eq_nil)
    rw [if_neg he, if_neg he']

/-- Without two variables the value is not a number, and without estimators the call fails, so the
hypotheses of C49 cannot be dropped. -/
theorem C49_degenerate (est : List (Prec T p)) :
    globalInstability ([] : List (Prec T p)) = .error .index ∧
    (est ≠ [] → p < 2 → globalInstability est = .ok .nan) := by
  refine ⟨by unfold globalInstability; rw [if_pos rfl], fun h hp => ?_⟩
  have hc : p.choose 2 = 0 := Nat.choose_eq_zero_of_lt hp
  have h0 : xiSum est = 0 := by
    have := xiSum_range h
    rw [hc] at this
    simp at this
    linarith
  unfold globalInstability
  rw [if_neg h, h0, hc]
  simp [XF.div]

/-- Two disagreeing estimators: the hypotheses of C49 hold and the value is positive. -/
example : ∃ est : List (Prec 1 2), est ≠ [] ∧ ¬ SameGraph est := by
  refine ⟨[(fun _ => 1 : Prec 1 2), (fun _ => Matrix.of fun _ _ => 1 : Prec 1 2)], by simp, fun h => ?_⟩
  have := h (fun _ => 1 : Prec 1 2) List.mem_cons_self (fun _ => Matrix.of fun _ _ => 1 : Prec 1 2)
    (List.mem_cons_of_mem _ List.mem_cons_self) 0 0 1 (by decide)
  simp at this

/-- C75: the upper bound used by G-StARS lies in `[0, 1]`, is at least the global instability of the same
estimators, and vanishes exactly when that does. -/
theorem C75_upper_bound (est : List (Prec T p)) (h : est ≠ []) (hp : 2 ≤ p) (hT : 0 < T) :
    ∃ v u, globalInstability est = .ok (.fin v) ∧ upperBound est = .ok (.fin u) ∧
      v ≤ u ∧ 0 ≤ u ∧ u ≤ 1 ∧ (u = 0 ↔ SameGraph est) := by
  have hc : (0 : ℝ) < (p.choose 2 : ℝ) * T := by
    have h1 : 0 < p.choose 2 := Nat.choose_pos hp
    have h2 : (0 : ℝ) < p.choose 2 := by exact_mod_cast h1
    have h3 : (0 : ℝ) < T := by exact_mod_cast hT
    exact mul_pos h2 h3
  obtain ⟨v, hv, h0, h1, hz⟩ := C49_global_instability est h hp hT
  have hv' : v = xiSum est / ((p.choose 2 : ℝ) * T) := by
    unfold globalInstability at hv
    rw [if_neg h, xf_div_of_ne _ hc.ne'] at hv
    injection hv with hv
    injection hv with hv
    exact hv.symm
  have hden : (T : ℝ) * p * (p - 1) / 2 = (p.choose 2 : ℝ) * T := by
    rw [choose_two_real]; ring
  refine ⟨v, 4 * v * (1 - v), hv, ?_, by nlinarith, by nlinarith, by nlinarith [sq_nonneg (2 * v - 1)], ?_⟩
  · unfold upperBound
    rw [if_neg h, hden, xf_div_of_ne _ hc.ne', ← hv']
    rfl
  · rw [← hz]
    constructor
    · intro hu
      rcases mul_eq_zero.mp hu with h2 | h2
      · linarith
      · linarith
    · rintro rfl; ring

/-! ### Selection -/

theorem argminNat_spec (n : ℕ) (hn : 0 < n) (v : ℕ → ℕ) :
    argminNat n v < n ∧ (∀ i < n, v (argminNat n v) ≤ v i) ∧
      ∀ i < argminNat n v, v (argminNat n v) < v i := by
  induction n with
  | zero => omega
  | succ n ih =>
    rcases Nat.eq_zero_or_pos n with h0 | hpos
    · subst h0
      have e : argminNat 1 v = 0 := by simp [argminNat]
      rw [e]
      exact ⟨by omega, fun i hi => by rw [Nat.lt_one_iff.mp hi], fun i hi => by omega⟩
    · obtain ⟨h1, h2, h3⟩ := ih hpos
      have e : argminNat (n + 1) v = if v n < v (argminNat n v) then n else argminNat n v := by
        unfold argminNat
        rw [List.range_succ, List.foldl_append]
        rfl
      rw [e]
      split
      · rename_i hlt
        refine ⟨by omega, fun i hi => ?_, fun i hi => lt_of_lt_of_le hlt (h2 i hi)⟩
        rcases Nat.lt_succ_iff_lt_or_eq.mp hi with h | h
        · exact hlt.le.trans (h2 i h)
        · rw [h]
      · rename_i hge
        refine ⟨by omega, fun i hi => ?_, h3⟩
        rcases Nat.lt_succ_iff_lt_or_eq.mp hi with h | h
        · exact h2 i h
        · rw [h]; exact not_lt.mp hge

section rank

variable {α : Type*} (lt : α → α → Prop) [DecidableRel lt]

theorem rankMin_card (n : ℕ) (v : ℕ → α) (i : ℕ) :
    rankMin lt n v i = 1 + ((Finset.range n).filter fun j => lt (v j) (v i)).card := by
  rfl

theorem rankMin_le (htr : ∀ a b c, lt a b → ¬ lt c b → lt a c) (n : ℕ) (v : ℕ → α) {i j : ℕ}
    (h : ¬ lt (v j) (v i)) : rankMin lt n v i ≤ rankMin lt n v j := by
  rw [rankMin_card, rankMin_card]
  refine Nat.add_le_add_left (Finset.card_le_card fun k hk => ?_) 1
  rw [Finset.mem_filter] at hk ⊢
  exact ⟨hk.1, htr _ _ _ hk.2 h⟩

theorem rankMin_lt (htr : ∀ a b c, lt a b → ¬ lt c b → lt a c) (has : ∀ a b, lt a b → ¬ lt b a)
    (n : ℕ) (v : ℕ → α) {i j : ℕ} (hi : i < n) (h : lt (v i) (v j)) :
    rankMin lt n v i < rankMin lt n v j := by
  rw [rankMin_card, rankMin_card]
  refine Nat.add_lt_add_left (Finset.card_lt_card ⟨fun k hk => ?_, fun hsub => ?_⟩) 1
  · rw [Finset.mem_filter] at hk ⊢
    exact ⟨hk.1, htr _ _ _ hk.2 (has _ _ h)⟩
  · have hm : i ∈ (Finset.range n).filter fun k => lt (v k) (v j) :=
      Finset.mem_filter.mpr ⟨Finset.mem_range.mpr hi, h⟩
    have := (Finset.mem_filter.mp (hsub hm)).2
    exact has _ _ this this

/-- The candidate with the smallest rank has the best value, and is the first such candidate. -/
theorem argmin_rank (htr : ∀ a b c, lt a b → ¬ lt c b → lt a c) (has : ∀ a b, lt a b → ¬ lt b a)
    (n : ℕ) (hn : 0 < n) (v : ℕ → α) :
    argminNat n (rankMin lt n v) < n ∧
    (∀ i < n, ¬ lt (v i) (v (argminNat n (rankMin lt n v)))) ∧
    ∀ i < argminNat n (rankMin lt n v), lt (v (argminNat n (rankMin lt n v))) (v i) := by
  obtain ⟨h1, h2, h3⟩ := argminNat_spec n hn (rankMin lt n v)
  refine ⟨h1, fun i hi hlt => ?_, fun i hi => ?_⟩
  · exact absurd (rankMin_lt lt htr has n v hi hlt) (not_lt.mpr (h2 i hi))
  · by_contra hno
    exact absurd (rankMin_le lt htr n v hno) (not_le.mpr (h3 i hi))

end rank

theorem stars_spec (n : ℕ) (hn : 0 < n) (m : ℕ → ℝ) :
    starsBest n m < n ∧ (∀ i < n, starsValues m i ≤ starsValues m (starsBest n m)) ∧
    ∀ i < starsBest n m, starsValues m i < starsValues m (starsBest n m) := by
  classical
  obtain ⟨h1, h2, h3⟩ := argmin_rank (fun a b : WithBot ℝ => b < a)
    (fun a b c h h' => lt_of_le_of_lt (not_lt.mp h') h) (fun a b h => not_lt.mpr h.le) n hn (starsValues m)
  exact ⟨h1, fun i hi => not_lt.mp (h2 i hi), h3⟩

theorem sliceMax_mono (m : ℕ → ℝ) {i j : ℕ} (h : i ≤ j) : sliceMax m i ≤ sliceMax m j := by
  induction j, h using Nat.le_induction with
  | base => exact le_rfl
  | succ j _ ih => exact ih.trans (le_max_left _ _)

theorem le_sliceMax (m : ℕ → ℝ) {i j : ℕ} (h : j < i) : m j ≤ sliceMax m i :=
  (le_max_right _ _ : m j ≤ sliceMax m (j + 1)).trans (sliceMax_mono m h)

theorem sliceMax_one (m : ℕ → ℝ) : sliceMax m 1 = m 0 := by simp [sliceMax]

theorem monotonized_eq (m : ℕ → ℝ) (i : ℕ) : monotonized m i = sliceMax m i := by
  unfold monotonized
  split
  · rename_i h; subst h; rfl
  · rfl

/-- C50: the monotonised curve is non-decreasing and dominates the instabilities of all earlier
candidates (but not of the candidate itself, see `C50_stars_false`). -/
theorem C50_monotonized_partial (m : ℕ → ℝ) :
    Monotone (monotonized m) ∧ ∀ i j, j < i → m j ≤ monotonized m i := by
  refine ⟨fun i j h => ?_, fun i j h => ?_⟩
  · rw [monotonized_eq, monotonized_eq]; exact sliceMax_mono m h
  · rw [monotonized_eq]; exact le_sliceMax m h

/-- C50: if some candidate has a monotonised instability of at most 0.05, so has the selected one, every
candidate before it really has instability at most 0.05, and no admissible candidate has a larger
monotonised instability. -/
theorem C50_selected_partial (n : ℕ) (m : ℕ → ℝ) (h : ∃ i < n, monotonized m i ≤ 5 / 100) :
    starsBest n m < n ∧ monotonized m (starsBest n m) ≤ 5 / 100 ∧
    (∀ j < starsBest n m, m j ≤ 5 / 100) ∧
    ∀ i < n, monotonized m i ≤ 5 / 100 → monotonized m i ≤ monotonized m (starsBest n m) := by
  obtain ⟨i0, hi0, hle0⟩ := h
  obtain ⟨h1, h2, -⟩ := stars_spec n (by omega) m
  have hval : ∀ i, monotonized m i ≤ 5 / 100 → starsValues m i = (monotonized m i : ℝ) := fun i hi => by
    unfold starsValues; rw [if_neg (not_lt.mpr hi)]
  have hb : monotonized m (starsBest n m) ≤ 5 / 100 := by
    by_contra hgt
    have h3 := h2 i0 hi0
    rw [hval i0 hle0] at h3
    unfold starsValues at h3
    rw [if_pos (not_le.mp hgt)] at h3
    exact absurd h3 (not_le.mpr (WithBot.bot_lt_coe _))
  refine ⟨h1, hb, fun j hj => ((C50_monotonized_partial m).2 _ j hj).trans hb, fun i hi hle => ?_⟩
  have h3 := h2 i hi
  rw [hval i hle, hval _ hb] at h3
  exact WithBot.coe_le_coe.mp h3

/-- C50: the second candidate is never selected, whatever the instabilities; in particular with two
candidates the first one always wins. -/
theorem C50_second_never_selected (n : ℕ) (hn : 0 < n) (m : ℕ → ℝ) : starsBest n m ≠ 1 := by
  intro h
  obtain ⟨-, -, h3⟩ := stars_spec n hn m
  have h4 := h3 0 (by omega)
  rw [h] at h4
  have e : starsValues m 1 = starsValues m 0 := by
    unfold starsValues
    rw [monotonized_eq, monotonized_eq, sliceMax_one]
    rfl
  rw [e] at h4
  exact lt_irrefl _ h4

/-- C50: any later selection is one position past the candidate whose instability realises the selected
value. -/
theorem C50_one_past (n : ℕ) (hn : 0 < n) (m : ℕ → ℝ) (h : starsBest n m ≠ 0) :
    m (starsBest n m - 1) = monotonized m (starsBest n m) := by
  have h1 := C50_second_never_selected n hn m
  obtain ⟨k, hk⟩ : ∃ k, starsBest n m = k + 2 := ⟨starsBest n m - 2, by omega⟩
  obtain ⟨-, -, h3⟩ := stars_spec n hn m
  have h4 := h3 (k + 1) (by omega)
  rw [hk] at h4 ⊢
  have hlt : monotonized m (k + 1) < monotonized m (k + 2) := by
    rcases lt_or_eq_of_le ((C50_monotonized_partial m).1 (by omega : k + 1 ≤ k + 2)) with h5 | h5
    · exact h5
    · exfalso
      have : starsValues m (k + 1) = starsValues m (k + 2) := by unfold starsValues; rw [h5]
      rw [this] at h4
      exact lt_irrefl _ h4
  rw [monotonized_eq, monotonized_eq] at hlt
  rw [monotonized_eq]
  change sliceMax m (k + 1) < max (sliceMax m (k + 1)) (m (k + 1)) at hlt
  change m (k + 1) = max (sliceMax m (k + 1)) (m (k + 1))
  rcases lt_max_iff.mp hlt with h5 | h5
  · exact absurd h5 (lt_irrefl _)
  · rw [max_eq_right h5.le]

/-- C50 is false: with instabilities 0, 0.01, 0.5 the third candidate is selected although its own
instability is 0.5, and the monotonised curve does not dominate the raw one. -/
theorem C50_stars_false : ∃ m : ℕ → ℝ, (∃ i < 3, m i ≤ 5 / 100 ∧ monotonized m i ≤ 5 / 100) ∧
    starsBest 3 m = 2 ∧ 5 / 100 < m (starsBest 3 m) ∧ monotonized m 2 < m 2 := by
  refine ⟨fun i => if i = 0 then 0 else if i = 1 then 1 / 100 else 1 / 2, ?_⟩
  set m : ℕ → ℝ := fun i => if i = 0 then 0 else if i = 1 then 1 / 100 else 1 / 2 with hm
  have m0 : m 0 = 0 := by simp [hm]
  have m1 : m 1 = 1 / 100 := by simp [hm]
  have m2 : m 2 = 1 / 2 := by simp [hm]
  have e0 : monotonized m 0 = 0 := by rw [monotonized_eq]; exact m0
  have e1 : monotonized m 1 = 0 := by rw [monotonized_eq, sliceMax_one]; exact m0
  have e2 : monotonized m 2 = 1 / 100 := by
    rw [monotonized_eq]
    change max (sliceMax m 1) (m 1) = _
    rw [sliceMax_one, m0, m1]; norm_num
  have hb : starsBest 3 m = 2 := by
    obtain ⟨h1, -, -, h4⟩ := C50_selected_partial 3 m ⟨0, by norm_num, by rw [e0]; norm_num⟩
    have h5 := h4 2 (by norm_num) (by rw [e2]; norm_num)
    rw [e2] at h5
    have hne := C50_second_never_selected 3 (by norm_num) m
    have hne0 : starsBest 3 m ≠ 0 := by
      intro h; rw [h, e0] at h5; norm_num at h5
    omega
  refine ⟨⟨0, by norm_num, by rw [m0]; norm_num, by rw [e0]; norm_num⟩, hb, ?_, ?_⟩
  · rw [hb, m2]; norm_num
  · rw [e2, m2]; norm_num

/-! ### gstars -/

theorem lastWhere_spec (n : ℕ) (P : ℕ → Prop) :
    (∀ i, lastWhere n P = some i → i < n ∧ P i ∧ ∀ j < n, P j → j ≤ i) ∧
    (lastWhere n P = none → ∀ j < n, ¬ P j) := by
  classical
  unfold lastWhere
  induction n with
  | zero => simp
  | succ n ih =>
    rw [List.range_succ, List.filter_append]
    by_cases hP : P n
    · have e : ([n].filter fun i => decide (P i)) = [n] := by simp [hP]
      rw [e]
      simp only [List.getLast?_append, List.getLast?_singleton, Option.some_or]
      refine ⟨fun i hi => ?_, fun h => by simp at h⟩
      injection hi with hi
      subst hi
      exact ⟨by omega, hP, fun j hj _ => by omega⟩
    · have e : ([n].filter fun i => decide (P i)) = [] := by simp [hP]
      rw [e, List.append_nil]
      refine ⟨fun i hi => ?_, fun h j hj hPj => ?_⟩
      · obtain ⟨h1, h2, h3⟩ := ih.1 i hi
        refine ⟨by omega, h2, fun j hj hPj => ?_⟩
        rcases Nat.lt_succ_iff_lt_or_eq.mp hj with h | h
        · exact h3 j h hPj
        · subst h; exact absurd hPj hP
      · rcases Nat.lt_succ_iff_lt_or_eq.mp hj with h' | h'
        · exact ih.2 h j h' hPj
        · subst h'; exact hP hPj

theorem sliceMax_le {m u : ℕ → ℝ} {n : ℕ} (h : ∀ i < n, m i ≤ u i) {i : ℕ} (hi : i ≤ n) (hn : 0 < n) :
    sliceMax m i ≤ sliceMax u i := by
  induction i with
  | zero => exact h 0 hn
  | succ i ih => exact max_le_max (ih (by omega)) (h i (by omega))

/-- C76: in 'gstars' mode, when the upper bounds dominate the instabilities (C75), the selected candidate
lies between the two StARS bounds and has the smallest graphlet instability among the candidates between
them. -/
theorem C76_gstars (n : ℕ) (hn : 0 < n) (m u g : ℕ → ℝ) (hmu : ∀ i < n, m i ≤ u i) :
    gstarsUb n u ≤ gstarsBest n m u g ∧ gstarsBest n m u g ≤ gstarsLb n m ∧ gstarsBest n m u g < n ∧
    (∀ i < n, gstarsUb n u ≤ i → i ≤ gstarsLb n m → g (gstarsBest n m u g) ≤ g i) ∧
    ∀ i < gstarsBest n m u g, gstarsUb n u ≤ i → i ≤ gstarsLb n m → g (gstarsBest n m u g) < g i := by
  classical
  obtain ⟨h1, h2, h3⟩ := argmin_rank (fun a b : WithTop ℝ => a < b)
    (fun a b c h h' => lt_of_lt_of_le h (not_lt.mp h')) (fun a b h => not_lt.mpr h.le) n hn
    (gstarsValues n m u g)
  change gstarsBest n m u g < n at h1
  change ∀ i < n, ¬ gstarsValues n m u g i < gstarsValues n m u g (gstarsBest n m u g) at h2
  change ∀ i < gstarsBest n m u g, gstarsValues n m u g (gstarsBest n m u g) < gstarsValues n m u g i at h3
  have hin : ∀ i, gstarsUb n u ≤ i → i ≤ gstarsLb n m → gstarsValues n m u g i = (g i : ℝ) := by
    intro i ha hb
    unfold gstarsValues
    rw [if_neg (by omega), if_neg (by omega)]
  have hub : gstarsUb n u < n := by
    unfold gstarsUb
    rcases ho : lastWhere n fun i => monotonized u i ≤ 5 / 100 with _ | i
    · exact hn
    · exact ((lastWhere_spec n _).1 i ho).1
  have hle : gstarsUb n u ≤ gstarsLb n m := by
    unfold gstarsLb
    rcases hm : lastWhere n fun i => monotonized m i ≤ 5 / 100 with _ | k
    · exact hub.le
    · unfold gstarsUb
      rcases ho : lastWhere n fun i => monotonized u i ≤ 5 / 100 with _ | i
      · exact Nat.zero_le _
      · obtain ⟨a1, a2, -⟩ := (lastWhere_spec n _).1 i ho
        refine ((lastWhere_spec n _).1 k hm).2.2 i a1 (le_trans ?_ a2)
        rw [monotonized_eq, monotonized_eq]
        exact sliceMax_le hmu a1.le hn
  have hfin := not_lt.mp (h2 _ hub)
  rw [hin _ le_rfl hle] at hfin
  have hb : gstarsUb n u ≤ gstarsBest n m u g ∧ gstarsBest n m u g ≤ gstarsLb n m := by
    by_contra hno
    have : gstarsValues n m u g (gstarsBest n m u g) = ⊤ := by
      unfold gstarsValues
      split
      · rfl
      · rw [if_pos]; omega
    rw [this] at hfin
    exact absurd hfin (not_le.mpr (WithTop.coe_lt_top _))
  refine ⟨hb.1, hb.2, h1, fun i hi ha hb' => ?_, fun i hi ha hb' => ?_⟩
  · have := not_lt.mp (h2 i hi)
    rw [hin i ha hb', hin _ hb.1 hb.2] at this
    exact WithTop.coe_le_coe.mp this
  · have := h3 i hi
    rw [hin i ha hb', hin _ hb.1 hb.2] at this
    exact WithTop.coe_lt_coe.mp this

example : ∀ i < 3, ((fun i => (i : ℝ) / 100) : ℕ → ℝ) i ≤ (fun i => (i : ℝ) / 50) i := by
  intro i _
  have : (0 : ℝ) ≤ i := by positivity
  simp only
  linarith

/-! ### Parameter grid -/

theorem sortDesc_perm (v : List ℚ) : (sortDesc v).Perm v :=
  (List.reverse_perm _).trans (List.mergeSort_perm _ _)

theorem sortDesc_sorted (v : List ℚ) : (sortDesc v).Pairwise (· ≥ ·) := by
  unfold sortDesc
  rw [List.pairwise_reverse]
  have := List.pairwise_mergeSort (le := fun a b : ℚ => decide (a ≤ b))
    (fun a b c h h' => by simp only [decide_eq_true_eq] at *; exact h.trans h')
    (fun a b => by simp only [Bool.or_eq_true, decide_eq_true_eq]; exact le_total a b) v
  exact this.imp fun h => by simpa using h

theorem dictOf_nodup {α : Type*} (l acc : List (String × α)) (h : ((acc ++ l).map Prod.fst).Nodup) :
    l.foldl (fun d kv => if d.any (fun e => e.1 == kv.1) then
      d.map (fun e => if e.1 == kv.1 then (e.1, kv.2) else e) else d ++ [kv]) acc = acc ++ l := by
  induction l generalizing acc with
  | nil => simp
  | cons kv l ih =>
    rw [List.foldl_cons]
    have hno : (acc.any fun e => e.1 == kv.1) = false := by
      rw [← Bool.not_eq_true, List.any_eq_true]
      rintro ⟨e, he, heq⟩
      rw [beq_iff_eq] at heq
      rw [List.map_append, List.nodup_append] at h
      exact h.2.2 e.1 (List.mem_map_of_mem he) kv.1 (by simp) heq
    rw [hno]
    simp only [Bool.false_eq_true, if_false]
    rw [ih (acc ++ [kv]) (by simpa using h)]
    simp

/-- C77: a single grid keeps its parameters, each with its values in descending order. -/
theorem C77_single_grid (g : Grid) (h : (g.map Prod.fst).Nodup) :
    checkParamOrder [g] = g.map (fun nv => (nv.1, sortDesc nv.2)) ∧
    ∀ nv ∈ g, (sortDesc nv.2).Perm nv.2 ∧ (sortDesc nv.2).Pairwise (· ≥ ·) := by
  refine ⟨?_, fun nv _ => ⟨sortDesc_perm _, sortDesc_sorted _⟩⟩
  unfold checkParamOrder dictOf
  rw [List.flatMap_singleton]
  have := dictOf_nodup (g.map fun nv => (nv.1, sortDesc nv.2)) [] (by
    simpa [List.map_map, Function.comp_def] using h)
  simpa using this

/-- C77 is false for lists of grids: two grids over the same parameter lose the values of the first, and
grids over different parameters are merged, so neither explored candidate was asked for. -/
theorem C77_grids_false :
    candidates (checkParamOrder [[("alpha", [1])], [("alpha", [2])]]) = [[("alpha", 2)]] ∧
    [("alpha", 1)] ∈ [[("alpha", [1])], [("alpha", [2])]].flatMap candidates ∧
    candidates (checkParamOrder [[("alpha", [1])], [("beta", [2])]]) = [[("alpha", 1), ("beta", 2)]] ∧
    [("alpha", 1), ("beta", 2)] ∉ [[("alpha", [1])], [("beta", [2])]].flatMap candidates := by
  have hs : ∀ q : ℚ, sortDesc [q] = [q] := fun q => by simp [sortDesc]
  refine ⟨?_, ?_, ?_, ?_⟩
  · simp [checkParamOrder, dictOf, hs, candidates]
  · simp [candidates]
  · simp [checkParamOrder, dictOf, hs, candidates]
  · simp [candidates]

end Verif.Props
