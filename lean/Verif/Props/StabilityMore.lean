import Verif.Model.StabilityMore
import Mathlib.Algebra.BigOperators.Group.List.Basic
import Mathlib.Algebra.Order.BigOperators.Group.List
import Mathlib.Tactic.Linarith
import Mathlib.Tactic.Positivity
import Mathlib.Tactic.FieldSimp
import Mathlib.Tactic.Ring

/-! Property theorems C177-C178: graphlet instability and the size of the subsamples
(regain/model_selection/stability_optimization.py). -/

namespace Verif.Props

open Verif.Model

set_option autoImplicit false

variable {T p : ℕ} {G : Type*}

/-! ### C177 -/

/-- The sum over ordered pairs of different positions. -/
def offSum {α : Type*} (d : α → α → ℝ) (l : List α) : ℝ := (l.map fun x => (l.map (d x)).sum).sum

theorem sum_map_add {α : Type*} (f g : α → ℝ) (l : List α) :
    (l.map fun x => f x + g x).sum = (l.map f).sum + (l.map g).sum := by
  induction l with
  | nil => simp
  | cons a l ih => simp only [List.map_cons, List.sum_cons, ih]; ring

theorem two_pairDists {α : Type*} {d : α → α → ℝ} (hs : ∀ x y, d x y = d y x) (h0 : ∀ x, d x x = 0)
    (l : List α) : 2 * (pairDists d l).sum = offSum d l := by
  induction l with
  | nil => simp [pairDists, offSum]
  | cons a l ih =>
    unfold offSum at ih ⊢
    simp only [pairDists, List.sum_append, List.map_cons, List.sum_cons, h0, zero_add, sum_map_add]
    have e : (l.map fun x => d x a).sum = (l.map (d a)).sum :=
      congrArg List.sum (List.map_congr_left fun x _ => hs x a)
    rw [e, ← ih]
    ring

theorem pairDists_map {α β : Type*} (d : β → β → ℝ) (f : α → β) (l : List α) :
    pairDists d (l.map f) = pairDists (fun x y => d (f x) (f y)) l := by
  induction l with
  | nil => rfl
  | cons a l ih => simp only [List.map_cons, pairDists, ih, List.map_map]; rfl

theorem pairDists_length {α : Type*} (d : α → α → ℝ) (l : List α) :
    2 * (pairDists d l).length = l.length * (l.length - 1) := by
  induction l with
  | nil => rfl
  | cons a l ih =>
    simp only [pairDists, List.length_append, List.length_map, List.length_cons]
    rw [mul_add, ih]
    cases l.length with
    | zero => rfl
    | succ k => simp only [Nat.add_sub_cancel]; ring

theorem mem_pairDists {α : Type*} {d : α → α → ℝ} {l : List α} {v : ℝ} (h : v ∈ pairDists d l) :
    ∃ x ∈ l, ∃ y ∈ l, v = d x y := by
  induction l with
  | nil => simp [pairDists] at h
  | cons a l ih =>
    simp only [pairDists, List.mem_append, List.mem_map] at h
    rcases h with ⟨y, hy, rfl⟩ | h
    · exact ⟨a, by simp, y, by simp [hy], rfl⟩
    · obtain ⟨x, hx, y, hy, e⟩ := ih h
      exact ⟨x, by simp [hx], y, by simp [hy], e⟩

/-- The distance of two graphs. -/
def graphDist (gdv : (Fin p → Fin p → Prop) → G) (gcd : G → G → ℝ) (M N : Matrix (Fin p) (Fin p) ℝ) : ℝ :=
  gcd (gdv (edgeSet M)) (gdv (edgeSet N))

/-- The mean over time of the distances of two sequences of graphs. -/
noncomputable def graphDistT (gdv : (Fin p → Fin p → Prop) → G) (gcd : G → G → ℝ) (M N : Prec T p) : ℝ :=
  (∑ t, graphDist gdv gcd (M t) (N t)) / T

theorem graphlet2_eq (gdv : (Fin p → Fin p → Prop) → G) (gcd : G → G → ℝ)
    {est : List (Matrix (Fin p) (Fin p) ℝ)} (h : 2 ≤ est.length) :
    graphletInstability2 gdv gcd est =
      .ok (2 / ((est.length : ℝ) * (est.length - 1)) * (pairDists (graphDist gdv gcd) est).sum) := by
  unfold graphletInstability2
  rw [if_neg (by rintro rfl; simp at h)]
  simp only
  rw [if_neg (Nat.mul_ne_zero (by omega) (by omega)), pairDists_map]
  rfl

theorem graphlet3_eq (gdv : (Fin p → Fin p → Prop) → G) (gcd : G → G → ℝ) (hT : T ≠ 0)
    {est : List (Prec T p)} (h : 2 ≤ est.length) :
    graphletInstability3 gdv gcd est =
      .ok (2 / ((est.length : ℝ) * (est.length - 1)) * (pairDists (graphDistT gdv gcd) est).sum) := by
  unfold graphletInstability3
  rw [if_neg (by rintro rfl; simp at h)]
  simp only
  rw [if_neg (by tauto), if_neg (Nat.mul_ne_zero (by omega) (by omega)), pairDists_map]
  rfl

theorem mean_props {α : Type*} {d : α → α → ℝ} (hs : ∀ x y, d x y = d y x) (h0 : ∀ x, d x x = 0)
    (l : List α) :
    2 / ((l.length : ℝ) * (l.length - 1)) * (pairDists d l).sum =
      offSum d l / ((l.length : ℝ) * (l.length - 1)) := by
  rw [← two_pairDists hs h0]
  ring

theorem mean_range {α : Type*} {d : α → α → ℝ} {M : ℝ} {l : List α} (hl : 2 ≤ l.length)
    (hM : ∀ x ∈ l, ∀ y ∈ l, 0 ≤ d x y ∧ d x y ≤ M) :
    0 ≤ 2 / ((l.length : ℝ) * (l.length - 1)) * (pairDists d l).sum ∧
      2 / ((l.length : ℝ) * (l.length - 1)) * (pairDists d l).sum ≤ M := by
  have hn : (2 : ℝ) ≤ l.length := by exact_mod_cast hl
  have hpos : 0 < (l.length : ℝ) * (l.length - 1) := mul_pos (by linarith) (by linarith)
  have hmem : ∀ v ∈ pairDists d l, 0 ≤ v ∧ v ≤ M := by
    intro v hv
    obtain ⟨x, hx, y, hy, rfl⟩ := mem_pairDists hv
    exact hM x hx y hy
  have h1 : 0 ≤ (pairDists d l).sum := List.sum_nonneg fun v hv => (hmem v hv).1
  have h2 : (pairDists d l).sum ≤ (pairDists d l).length * M := by
    have := List.sum_le_card_nsmul (pairDists d l) M fun v hv => (hmem v hv).2
    rwa [nsmul_eq_mul] at this
  have hlen : 2 * ((pairDists d l).length : ℝ) = (l.length : ℝ) * (l.length - 1) := by
    have := pairDists_length d l
    have h3 : ((2 * (pairDists d l).length : ℕ) : ℝ) = ((l.length * (l.length - 1) : ℕ) : ℝ) := by rw [this]
    rw [Nat.cast_mul, Nat.cast_mul, Nat.cast_sub (by omega)] at h3
    exact_mod_cast h3
  refine ⟨mul_nonneg (by positivity) h1, ?_⟩
  rw [div_mul_eq_mul_div, div_le_iff₀ hpos, ← hlen]
  linarith

/-- **C177** for at least two estimators the graphlet instability is the mean over all ordered pairs of
different estimators of the graphlet distance of their graphs, whenever that distance is symmetric and zero
from a graph to itself; for three dimensional precisions the distance is averaged over time. -/
theorem C177_mean (gdv : (Fin p → Fin p → Prop) → G) (gcd : G → G → ℝ) (hs : ∀ x y, gcd x y = gcd y x)
    (h0 : ∀ x, gcd x x = 0) :
    (∀ est : List (Matrix (Fin p) (Fin p) ℝ), 2 ≤ est.length → graphletInstability2 gdv gcd est =
      .ok (offSum (graphDist gdv gcd) est / ((est.length : ℝ) * (est.length - 1)))) ∧
    (∀ est : List (Prec T p), 2 ≤ est.length → T ≠ 0 → graphletInstability3 gdv gcd est =
      .ok (offSum (graphDistT gdv gcd) est / ((est.length : ℝ) * (est.length - 1)))) := by
  refine ⟨fun est h => ?_, fun est h hT => ?_⟩
  · rw [graphlet2_eq gdv gcd h, mean_props (d := graphDist gdv gcd) (fun _ _ => hs _ _) (fun _ => h0 _)]
  · rw [graphlet3_eq gdv gcd hT h, mean_props (fun _ _ => ?_) (fun _ => ?_)]
    · unfold graphDistT graphDist; simp only [hs]
    · unfold graphDistT graphDist; simp [h0]

theorem offSum_perm {α : Type*} (d : α → α → ℝ) {l l' : List α} (h : l.Perm l') : offSum d l = offSum d l' := by
  unfold offSum
  have h1 : ∀ x, (l.map (d x)).sum = (l'.map (d x)).sum := fun x => (h.map _).sum_eq
  rw [(h.map fun x => (l.map (d x)).sum).sum_eq]
  simp only [h1]

/-- **C177** the order of the estimators is irrelevant, the value lies between the least and the greatest
possible distance, and only the edges count: changing the diagonal or the non-zero values of a precision
changes nothing. -/
theorem C177_invariance (gdv : (Fin p → Fin p → Prop) → G) (gcd : G → G → ℝ) (hs : ∀ x y, gcd x y = gcd y x)
    (h0 : ∀ x, gcd x x = 0) (est est' : List (Matrix (Fin p) (Fin p) ℝ)) :
    (est.Perm est' → graphletInstability2 gdv gcd est = graphletInstability2 gdv gcd est') ∧
    (List.Forall₂ (fun M N => ∀ i j, i ≠ j → (M i j = 0 ↔ N i j = 0)) est est' →
      graphletInstability2 gdv gcd est = graphletInstability2 gdv gcd est') ∧
    (∀ M, (∀ x y, 0 ≤ gcd x y ∧ gcd x y ≤ M) → 2 ≤ est.length →
      ∃ v, graphletInstability2 gdv gcd est = .ok v ∧ 0 ≤ v ∧ v ≤ M) := by
  refine ⟨fun h => ?_, fun h => ?_, fun M hM hl => ?_⟩
  · rcases Nat.lt_or_ge est.length 2 with hl | hl
    · have hl' := hl
      rw [h.length_eq] at hl'
      rcases est with - | ⟨a, - | ⟨b, l⟩⟩
      · rw [h.symm.eq_nil]
      · rw [List.singleton_perm.mp h]
      · simp at hl
    · have hl' := hl
      rw [h.length_eq] at hl'
      rw [(C177_mean (T := 0) gdv gcd hs h0).1 est hl, (C177_mean (T := 0) gdv gcd hs h0).1 est' hl', offSum_perm _ h,
        h.length_eq]
  · have hlen := h.length_eq
    have hm : est.map (fun M => gdv (edgeSet M)) = est'.map fun M => gdv (edgeSet M) := by
      induction h with
      | nil => rfl
      | cons hab _ ih =>
        rename_i a b l l' hll
        simp only [List.map_cons]
        rw [ih (by simpa using hlen)]
        congr 2
        funext i j
        unfold edgeSet
        by_cases hij : i = j
        · simp [hij]
        · have h1 := hab i j hij
          have h2 := hab j i (Ne.symm hij)
          exact propext (and_congr_right fun _ => or_congr (not_congr h1) (not_congr h2))
    unfold graphletInstability2
    simp only [hm, hlen]
    have : est = [] ↔ est' = [] := by rw [← List.length_eq_zero_iff, ← List.length_eq_zero_iff, hlen]
    simp only [this]
  · rw [graphlet2_eq gdv gcd hl]
    exact ⟨_, rfl, mean_range hl fun x _ y _ => hM _ _⟩

/-- **C177** one time point gives the two dimensional value. -/
theorem C177_one_time (gdv : (Fin p → Fin p → Prop) → G) (gcd : G → G → ℝ) (est : List (Prec 1 p)) :
    graphletInstability3 gdv gcd est = graphletInstability2 gdv gcd (est.map fun M => M 0) := by
  rcases est with - | ⟨a, - | ⟨b, l⟩⟩
  · rfl
  · rfl
  · rw [graphlet3_eq gdv gcd one_ne_zero (by simp), graphlet2_eq gdv gcd (by simp), pairDists_map]
    have : (graphDistT gdv gcd : Prec 1 p → Prec 1 p → ℝ) = fun M N => graphDist gdv gcd (M 0) (N 0) := by
      funext M N
      unfold graphDistT
      simp
    rw [this, List.length_map]

/-- **C177 is false for one estimator**: the call raises ZeroDivisionError whatever the estimator, so a
stability selection with `n_repetitions=1` in mode `gstars` fails after all its fits. -/
theorem C177_single_false (gdv : (Fin p → Fin p → Prop) → G) (gcd : G → G → ℝ) :
    (∀ M, graphletInstability2 gdv gcd [M] = .error .zeroDivision) ∧
    (∀ M : Prec T p, graphletInstability3 gdv gcd [M] = .error .zeroDivision) := by
  constructor
  · intro M
    rfl
  · intro M
    unfold graphletInstability3
    rw [if_neg (by simp)]
    simp

/-- Three graphs on two variables with the discrete distance: the hypotheses hold and the value is 2/3. -/
example : ∃ gcd : Bool → Bool → ℝ, (∀ x y, gcd x y = gcd y x) ∧ (∀ x, gcd x x = 0) ∧
    ∃ gdv : (Fin 2 → Fin 2 → Prop) → Bool, graphletInstability2 gdv gcd
      [!![1, 0; 0, 1], !![1, 3; 3, 1], !![5, 0; 0, 2]] = .ok (2 / 3) := by
  classical
  refine ⟨fun x y => if x = y then 0 else 1, fun x y => by simp [eq_comm], fun x => by simp,
    fun g => decide (g 0 1), ?_⟩
  rw [graphlet2_eq _ _ (by simp)]
  simp [pairDists, graphDist, edgeSet]
  norm_num

/-! ### C178 -/

theorem pyIntOf_nonneg {x : ℝ} (h : 0 ≤ x) : pyIntOf x = ⌊x⌋ := if_pos h

/-- **C178, what is true**: with more than ten samples the default size is the greatest integer that is at
most `10 * sqrt n` and leaves at least ten samples out; it lies between 1 and `n - 10`. -/
theorem C178_default_partial {n : ℕ} (hn : 11 ≤ n) :
    1 ≤ defaultSize n ∧ defaultSize n ≤ (n : ℤ) - 10 ∧ (defaultSize n : ℝ) ≤ 10 * Real.sqrt n ∧
      ∀ k : ℤ, k ≤ (n : ℤ) - 10 → (k : ℝ) ≤ 10 * Real.sqrt n → k ≤ defaultSize n := by
  have hn' : (11 : ℝ) ≤ n := by exact_mod_cast hn
  have hs : 1 ≤ Real.sqrt n := by
    rw [Real.one_le_sqrt]; linarith
  have hmin : (1 : ℝ) ≤ min (10 * Real.sqrt n) ((n : ℝ) - 10) := le_min (by linarith) (by linarith)
  have e : defaultSize n = ⌊min (10 * Real.sqrt n) ((n : ℝ) - 10)⌋ := pyIntOf_nonneg (by linarith)
  rw [e]
  refine ⟨Int.le_floor.mpr (by exact_mod_cast hmin), ?_, ?_, fun k h1 h2 => Int.le_floor.mpr (le_min h2 ?_)⟩
  · have h1 := (Int.floor_le (min (10 * Real.sqrt n) ((n : ℝ) - 10))).trans (min_le_right _ _)
    have : ((⌊min (10 * Real.sqrt n) ((n : ℝ) - 10)⌋ : ℤ) : ℝ) ≤ (((n : ℤ) - 10 : ℤ) : ℝ) := by
      push_cast; exact h1
    exact_mod_cast this
  · exact (Int.floor_le _).trans (min_le_left _ _)
  · have : ((k : ℤ) : ℝ) ≤ (((n : ℤ) - 10 : ℤ) : ℝ) := by exact_mod_cast h1
    push_cast at this
    exact this

/-- **C178 is false for up to ten samples**: the default size is not positive, which no splitter accepts. -/
theorem C178_few_samples_false {n : ℕ} (hn : n ≤ 10) : defaultSize n = (n : ℤ) - 10 ∧ defaultSize n ≤ 0 := by
  have hn' : (n : ℝ) ≤ 10 := by exact_mod_cast hn
  have hmin : min (10 * Real.sqrt n) ((n : ℝ) - 10) = ((n : ℤ) - 10 : ℤ) := by
    rw [min_eq_right (by linarith [Real.sqrt_nonneg (n : ℝ)])]
    push_cast
    ring
  have e : defaultSize n = (n : ℤ) - 10 := by
    unfold defaultSize pyIntOf
    rw [hmin]
    split_ifs
    · exact Int.floor_intCast _
    · exact Int.ceil_intCast _
  exact ⟨e, by rw [e]; omega⟩

/-- **C178, what is true** with labels of `k` classes the size becomes the greatest multiple of `k` not above
it, so it stays below the number of samples. -/
theorem C178_classes_partial (arg : Option ℤ) (n : ℕ) {k : ℕ} (hk : 0 < k) :
    (k : ℤ) ∣ samplingSize arg n (some k) ∧ samplingSize arg n (some k) ≤ samplingSize arg n none ∧
      samplingSize arg n none < samplingSize arg n (some k) + k := by
  unfold samplingSize
  simp only
  set s := arg.getD (defaultSize n) with hs
  have hk' : (0 : ℤ) < k := by exact_mod_cast hk
  have h1 := Int.emod_nonneg s hk'.ne'
  have h2 := Int.emod_lt_of_pos s hk'
  have h3 : s.ediv k * k + s.emod k = s := Int.ediv_mul_add_emod s k
  have h4 : s.emod k = s % k := rfl
  split_ifs with h
  · rw [h4] at h3
    exact ⟨Dvd.intro_left _ rfl, by omega, by omega⟩
  · push Not at h
    exact ⟨Int.dvd_of_emod_eq_zero h, le_rfl, by omega⟩

/-- **C178 is false for many classes**: fewer drawn samples than classes give the size zero. -/
theorem C178_many_classes_false {s : ℤ} {k : ℕ} (h0 : 0 < s) (hk : s < k) (n : ℕ) :
    samplingSize (some s) n (some k) = 0 := by
  unfold samplingSize
  simp only [Option.getD_some]
  have h1 : s.emod k = s := Int.emod_eq_of_lt h0.le hk
  have h2 : s.ediv k = 0 := Int.ediv_eq_zero_of_lt h0.le hk
  rw [h1, h2, if_pos h0.ne', zero_mul]

/-- A hundred samples of four classes: 90, then 88. -/
example : defaultSize 100 = 90 ∧ samplingSize none 100 (some 4) = 88 := by
  have h : defaultSize 100 = 90 := by
    unfold defaultSize
    have e : Real.sqrt ((100 : ℕ) : ℝ) = 10 := by
      rw [show ((100 : ℕ) : ℝ) = 10 ^ 2 by norm_num, Real.sqrt_sq (by norm_num)]
    rw [e]
    norm_num [pyIntOf]
  refine ⟨h, ?_⟩
  unfold samplingSize
  simp only [Option.getD_none, h]
  decide

end Verif.Props
