import Verif.Props.Ising

/-! Properties of coupling from the past and of the shape of the samples (C78, C80, C81, C82). -/

namespace Verif.Props

open Verif.Model Verif.Spec Verif.Lemmas Matrix

set_option autoImplicit false
set_option linter.unusedSectionVars false

variable {p : ℕ}

/-- A complete state that agrees with a partly determined one, the rest being responses. -/
def Completes (r0 r1 : ℝ) (s : Fin p → ℝ) (st : Fin p → Option ℝ) : Prop :=
  ∀ j, (∀ v, st j = some v → s j = v) ∧ (st j = none → s j = r0 ∨ s j = r1)

open Classical in
/-- The completion implicitly used for index 0 (`hi = false`) or index 1 (`hi = true`). -/
noncomputable def extreme (a : IsingArgs p) (hi : Bool) (i : Fin p) (st : Fin p → Option ℝ) : Fin p → ℝ :=
  fun j => match st j with
    | some v => v
    | none => if a.theta i j * a.r1 * a.r1 > a.theta i j * a.r1 * a.r0 then
        (if hi then a.r1 else a.r0) else (if hi then a.r0 else a.r1)

theorem minmaxTerm_eq (a : IsingArgs p) (i j : Fin p) (st : Fin p → Option ℝ) (r : ℝ) :
    minmaxTerm a i j (st j) r =
      (a.theta i j * r * extreme a false i st j, a.theta i j * r * extreme a true i st j) := by
  unfold minmaxTerm extreme
  cases st j with
  | some v => simp
  | none => simp only; split <;> simp

theorem pair_foldl (i : Fin p) (f g : Fin p → ℝ) : ∀ (l : List (Fin p)) (c d : ℝ),
    l.foldl (fun (h : ℝ × ℝ) j => if i = j then h else (h.1 + f j, h.2 + g j)) (c, d) =
      (l.foldl (fun h j => if i = j then h else h + f j) c,
       l.foldl (fun h j => if i = j then h else h + g j) d)
  | [], _, _ => rfl
  | j :: l, c, d => by
      rw [List.foldl_cons, List.foldl_cons, List.foldl_cons]
      by_cases hj : i = j
      · simp only [hj, if_true]
        have := pair_foldl i f g l c d
        rw [hj] at this
        exact this
      · simp only [hj, if_false]
        exact pair_foldl i f g l _ _

theorem minmaxField_eq (a : IsingArgs p) (i : Fin p) (st : Fin p → Option ℝ) (r : ℝ) :
    minmaxField a i st r =
      (localField a i (extreme a false i st) r, localField a i (extreme a true i st) r) := by
  unfold minmaxField localField
  simp only [minmaxTerm_eq]
  exact pair_foldl i _ _ _ _ _

theorem pPlusMinmax_eq (a : IsingArgs p) (i : Fin p) (st : Fin p → Option ℝ) :
    pPlusMinmax a i st = (pPlus a i (extreme a false i st), pPlus a i (extreme a true i st)) := by
  unfold pPlusMinmax pPlus
  simp only [minmaxField_eq]

theorem pPlus_mono (a : IsingArgs p) (hb : 0 ≤ a.beta) (hr : a.r0 ≤ a.r1) (i : Fin p) (s t : Fin p → ℝ)
    (h : ∀ j, j ≠ i → a.theta i j * s j ≤ a.theta i j * t j) : pPlus a i s ≤ pPlus a i t := by
  unfold pPlus
  apply two_point_mono
  rw [← mul_sub, ← mul_sub]
  apply mul_le_mul_of_nonneg_left _ hb
  simp only [localField_eq]
  rw [← sub_mul, ← sub_mul]
  apply mul_le_mul_of_nonneg_left _ (by linarith)
  have : (∑ j, if j = i then 0 else a.theta i j * s j) ≤ ∑ j, if j = i then 0 else a.theta i j * t j := by
    apply Finset.sum_le_sum
    intro j _
    by_cases hj : j = i
    · simp [hj]
    · simp only [hj, if_false]; exact h j hj
  linarith

theorem extreme_le (a : IsingArgs p) (h01 : a.r0 < a.r1) (h1 : 0 < a.r1) (i : Fin p) (s : Fin p → ℝ)
    (st : Fin p → Option ℝ) (hc : Completes a.r0 a.r1 s st) (j : Fin p) :
    a.theta i j * extreme a false i st j ≤ a.theta i j * s j ∧
      a.theta i j * s j ≤ a.theta i j * extreme a true i st j := by
  unfold extreme
  cases hst : st j with
  | some v => rw [(hc j).1 v hst]; simp
  | none =>
      have hs := (hc j).2 hst
      simp only
      split
      · rename_i hgt
        have ht : 0 < a.theta i j := by
          by_contra hle
          have hle := not_lt.mp hle
          have : a.theta i j * a.r1 * (a.r1 - a.r0) ≤ 0 :=
            mul_nonpos_of_nonpos_of_nonneg (mul_nonpos_of_nonpos_of_nonneg hle h1.le) (by linarith)
          nlinarith
        simp only [Bool.false_eq_true, if_false, if_true]
        constructor <;> apply mul_le_mul_of_nonneg_left _ ht.le <;> rcases hs with h | h <;> linarith
      · rename_i hgt
        have ht : a.theta i j ≤ 0 := by
          by_contra hlt
          have hlt := not_le.mp hlt
          have : 0 < a.theta i j * a.r1 * (a.r1 - a.r0) :=
            mul_pos (mul_pos hlt h1) (by linarith)
          apply hgt; nlinarith
        simp only [Bool.false_eq_true, if_false, if_true]
        constructor <;> apply mul_le_mul_of_nonpos_left _ ht <;> rcases hs with h | h <;> linarith

/-! ### C80: bounds on the conditional probability -/

/-- For increasing responses whose second one is positive (both documented choices) and a nonnegative
inverse temperature, the two numbers bracket the conditional probability of every completion of the state. -/
theorem C80_bracket (a : IsingArgs p) (hb : 0 ≤ a.beta) (h01 : a.r0 < a.r1) (h1 : 0 < a.r1) (i : Fin p)
    (s : Fin p → ℝ) (st : Fin p → Option ℝ) (hc : Completes a.r0 a.r1 s st) :
    (pPlusMinmax a i st).1 ≤ pPlus a i s ∧ pPlus a i s ≤ (pPlusMinmax a i st).2 := by
  rw [pPlusMinmax_eq]
  exact ⟨pPlus_mono a hb h01.le i _ _ fun j _ => (extreme_le a h01 h1 i s st hc j).1,
    pPlus_mono a hb h01.le i _ _ fun j _ => (extreme_le a h01 h1 i s st hc j).2⟩

/-- The bounds are attained by completions of the state, so they cannot be improved. -/
theorem C80_tight (a : IsingArgs p) (i : Fin p) (st : Fin p → Option ℝ) :
    ∃ s t, Completes a.r0 a.r1 s st ∧ Completes a.r0 a.r1 t st ∧
      (pPlusMinmax a i st).1 = pPlus a i s ∧ (pPlusMinmax a i st).2 = pPlus a i t := by
  refine ⟨extreme a false i st, extreme a true i st, ?_, ?_, ?_, ?_⟩
  · intro j
    unfold extreme
    cases hst : st j with
    | some v => simp
    | none => simp only; refine ⟨by simp, fun _ => ?_⟩; split <;> simp
  · intro j
    unfold extreme
    cases hst : st j with
    | some v => simp
    | none => simp only; refine ⟨by simp, fun _ => ?_⟩; split <;> simp
  · rw [pPlusMinmax_eq]
  · rw [pPlusMinmax_eq]

/-- On a fully determined state both numbers are the conditional probability. -/
theorem C80_determined (a : IsingArgs p) (i : Fin p) (s : Fin p → ℝ) :
    pPlusMinmax a i (fun j => some (s j)) = (pPlus a i s, pPlus a i s) := by
  rw [pPlusMinmax_eq]; rfl

/-- The condition on the responses is needed: with responses -1 and 0 the numbers come out in the wrong
order. -/
theorem C80_nonpositive_response_false :
    ∃ (a : IsingArgs 2) (st : Fin 2 → Option ℝ), 0 ≤ a.beta ∧ a.r0 < a.r1 ∧ a.theta.IsSymm ∧
      (pPlusMinmax a 0 st).2 < (pPlusMinmax a 0 st).1 := by
  refine ⟨⟨!![0, 1; 1, 0], 0, 1, -1, 0⟩, fun _ => none, by norm_num, by norm_num, ?_, ?_⟩
  · ext i j; fin_cases i <;> fin_cases j <;> rfl
  · rw [pPlusMinmax_eq]
    unfold pPlus
    simp only [localField_eq, Fin.sum_univ_two, extreme]
    simp
    have : (1 : ℝ) < Real.exp 1 := by
      have := Real.add_one_lt_exp (one_ne_zero : (1 : ℝ) ≠ 0); linarith
    rw [inv_lt_inv₀ (by positivity) (by norm_num)]
    linarith

/-- Responses 0 and 1, one undetermined neighbour. -/
example : ∃ (a : IsingArgs 2) (s : Fin 2 → ℝ) (st : Fin 2 → Option ℝ), 0 ≤ a.beta ∧ a.r0 < a.r1 ∧
    0 < a.r1 ∧ Completes a.r0 a.r1 s st ∧ st 1 = none :=
  ⟨⟨!![0, 1; 1, 0], 0, 1, 0, 1⟩, fun _ => 1, fun _ => none, by norm_num, by norm_num, by norm_num,
    fun _ => ⟨by simp, fun _ => Or.inr rfl⟩, rfl⟩

/-! ### C81: coalescence of coupling from the past -/

theorem exactVisit_completes (a : IsingArgs p) (hb : 0 ≤ a.beta) (h01 : a.r0 < a.r1) (h1 : 0 < a.r1)
    (u : Fin p → ℝ) (s : Fin p → ℝ) (st : Fin p → Option ℝ) (hc : Completes a.r0 a.r1 s st) (i : Fin p) :
    Completes a.r0 a.r1 (mhVisit a (fun _ => none) u s i) (exactVisit a u st i) := by
  intro j
  have hbr := C80_bracket a hb h01 h1 i s st hc
  unfold mhVisit exactVisit
  simp only
  by_cases hj : j = i
  · subst hj
    rw [Function.update_self, Function.update_self]
    by_cases hl : u j < (pPlusMinmax a j st).1
    · have : u j < pPlus a j s := lt_of_lt_of_le hl hbr.1
      simp [hl, this]
    · by_cases hg : u j ≥ (pPlusMinmax a j st).2
      · have : ¬ u j < pPlus a j s := not_lt.mpr (hbr.2.trans hg)
        simp only [hl, hg, this, if_false, if_true]
        simp
      · simp only [hl, hg, if_false]
        refine ⟨by simp, fun _ => ?_⟩
        split <;> simp
  · rw [Function.update_of_ne hj, Function.update_of_ne hj]
    exact hc j

theorem exactSweep_completes (a : IsingArgs p) (hb : 0 ≤ a.beta) (h01 : a.r0 < a.r1) (h1 : 0 < a.r1)
    (u : Fin p → ℝ) (is : List (Fin p)) : ∀ (s : Fin p → ℝ) (st : Fin p → Option ℝ),
    Completes a.r0 a.r1 s st →
    Completes a.r0 a.r1 (is.foldl (mhVisit a (fun _ => none) u) s) (is.foldl (exactVisit a u) st) := by
  induction is with
  | nil => intro s st h; exact h
  | cons i is ih => intro s st h; exact ih _ _ (exactVisit_completes a hb h01 h1 u s st h i)

/-- The chain of the Metropolis-Hastings sampler driven by blocks of uniform numbers. -/
noncomputable def mhBlocks (a : IsingArgs p) (blocks : List (List (Fin p → ℝ))) (s : Fin p → ℝ) :
    Fin p → ℝ :=
  blocks.foldl (fun s b => b.foldl (fun s u => mhSweep a (fun _ => none) u s) s) s

theorem exactBlock_completes (a : IsingArgs p) (hb : 0 ≤ a.beta) (h01 : a.r0 < a.r1) (h1 : 0 < a.r1)
    (b : List (Fin p → ℝ)) : ∀ (s : Fin p → ℝ) (st : Fin p → Option ℝ),
    Completes a.r0 a.r1 s st →
    Completes a.r0 a.r1 (b.foldl (fun s u => mhSweep a (fun _ => none) u s) s)
      (b.foldl (fun s u => exactSweep a u s) st) := by
  induction b with
  | nil => intro s st h; exact h
  | cons u b ih => intro s st h; exact ih _ _ (exactSweep_completes a hb h01 h1 u _ s st h)

theorem exactBlocks_completes (a : IsingArgs p) (hb : 0 ≤ a.beta) (h01 : a.r0 < a.r1) (h1 : 0 < a.r1)
    (bs : List (List (Fin p → ℝ))) : ∀ (s : Fin p → ℝ) (st : Fin p → Option ℝ),
    Completes a.r0 a.r1 s st →
    Completes a.r0 a.r1 (mhBlocks a bs s)
      (bs.foldl (fun s b => b.foldl (fun s u => exactSweep a u s) s) st) := by
  induction bs with
  | nil => intro s st h; exact h
  | cons b bs ih => intro s st h; exact ih _ _ (exactBlock_completes a hb h01 h1 b s st h)

theorem exactPass_coalesces (a : IsingArgs p) (hb : 0 ≤ a.beta) (h01 : a.r0 < a.r1) (h1 : 0 < a.r1)
    (bs : List (List (Fin p → ℝ))) (h : ∀ i, (exactPass a bs i).isSome) (s : Fin p → ℝ)
    (hs : ∀ j, s j = a.r0 ∨ s j = a.r1) : mhBlocks a bs s = fun i => (exactPass a bs i).get (h i) := by
  have hc := exactBlocks_completes a hb h01 h1 bs s (fun _ => none) (fun j => ⟨by simp, fun _ => hs j⟩)
  funext i
  exact (hc i).1 _ (Option.some_get (h i)).symm

/-- When coupling from the past returns, every initial state made of responses is driven to the returned
state by the random numbers that were drawn, oldest pass last: the result does not depend on a starting
state. -/
theorem C81_coalescence (a : IsingArgs p) (hb : 0 ≤ a.beta) (h01 : a.r0 < a.r1) (h1 : 0 < a.r1)
    (cs : Fin p → Option ℝ) (fuel : List (List (Fin p → ℝ))) :
    ∀ (drawn : List (List (Fin p → ℝ))) (x : Fin p → ℝ), isingExact a cs fuel drawn = some x →
    ∃ k, k < fuel.length ∧ ∀ s, (∀ j, s j = a.r0 ∨ s j = a.r1) →
      mhBlocks a ((fuel.take (k + 1)).reverse ++ drawn) s = x := by
  induction fuel with
  | nil => intro drawn x h; simp [isingExact] at h
  | cons b rest ih =>
      intro drawn x h
      unfold isingExact at h
      simp only at h
      split at h
      · rename_i hsome
        refine ⟨0, by simp, fun s hs => ?_⟩
        have := exactPass_coalesces a hb h01 h1 (b :: drawn) hsome s hs
        simp only [zero_add, List.take_succ_cons, List.take_zero, List.reverse_singleton,
          List.singleton_append]
        rw [this]
        exact Option.some.inj h
      · obtain ⟨k, hk, hx⟩ := ih _ _ h
        refine ⟨k + 1, by simpa using hk, fun s hs => ?_⟩
        have := hx s hs
        simpa using this

theorem exactVisit_values (a : IsingArgs p) (u : Fin p → ℝ) (st : Fin p → Option ℝ)
    (h : ∀ j, st j = none ∨ st j = some a.r0 ∨ st j = some a.r1) (i : Fin p) :
    ∀ j, exactVisit a u st i j = none ∨ exactVisit a u st i j = some a.r0 ∨
      exactVisit a u st i j = some a.r1 := by
  intro j
  unfold exactVisit
  by_cases hj : j = i
  · subst hj
    simp only [Function.update_self]
    split
    · simp
    · split <;> simp
  · simp only [Function.update_of_ne hj]; exact h j

theorem exactPass_values (a : IsingArgs p) (bs : List (List (Fin p → ℝ))) :
    ∀ j, exactPass a bs j = none ∨ exactPass a bs j = some a.r0 ∨ exactPass a bs j = some a.r1 := by
  have h1 : ∀ (u : Fin p → ℝ) (is : List (Fin p)) (st : Fin p → Option ℝ),
      (∀ j, st j = none ∨ st j = some a.r0 ∨ st j = some a.r1) →
      ∀ j, is.foldl (exactVisit a u) st j = none ∨ is.foldl (exactVisit a u) st j = some a.r0 ∨
        is.foldl (exactVisit a u) st j = some a.r1 := by
    intro u is
    induction is with
    | nil => intro st h; exact h
    | cons i is ih => intro st h; exact ih _ (exactVisit_values a u st h i)
  have h2 : ∀ (b : List (Fin p → ℝ)) (st : Fin p → Option ℝ),
      (∀ j, st j = none ∨ st j = some a.r0 ∨ st j = some a.r1) →
      ∀ j, b.foldl (fun s u => exactSweep a u s) st j = none ∨
        b.foldl (fun s u => exactSweep a u s) st j = some a.r0 ∨
        b.foldl (fun s u => exactSweep a u s) st j = some a.r1 := by
    intro b
    induction b with
    | nil => intro st h; exact h
    | cons u b ih => intro st h; exact ih _ (h1 u _ st h)
  have h3 : ∀ (bs : List (List (Fin p → ℝ))) (st : Fin p → Option ℝ),
      (∀ j, st j = none ∨ st j = some a.r0 ∨ st j = some a.r1) →
      ∀ j, bs.foldl (fun s b => b.foldl (fun s u => exactSweep a u s) s) st j = none ∨
        bs.foldl (fun s b => b.foldl (fun s u => exactSweep a u s) s) st j = some a.r0 ∨
        bs.foldl (fun s b => b.foldl (fun s u => exactSweep a u s) s) st j = some a.r1 := by
    intro bs
    induction bs with
    | nil => intro st h; exact h
    | cons b bs ih => intro st h; exact ih _ (h2 b st h)
  exact h3 bs _ fun _ => Or.inl rfl

/-- The returned state consists of responses, for every stream and every choice of parameters. -/
theorem C81_values (a : IsingArgs p) (cs : Fin p → Option ℝ) (fuel : List (List (Fin p → ℝ))) :
    ∀ (drawn : List (List (Fin p → ℝ))) (x : Fin p → ℝ), isingExact a cs fuel drawn = some x →
    ∀ j, x j = a.r0 ∨ x j = a.r1 := by
  induction fuel with
  | nil => intro drawn x h; simp [isingExact] at h
  | cons b rest ih =>
      intro drawn x h
      unfold isingExact at h
      simp only at h
      split at h
      · rename_i hsome
        intro j
        have hv := exactPass_values a (b :: drawn) j
        have hx : x j = (exactPass a (b :: drawn) j).get (hsome j) := by
          rw [← Option.some.inj h]
        rcases hv with hv | hv | hv
        · have := hsome j; rw [hv] at this; simp at this
        · left; rw [hx]; simp [hv]
        · right; rw [hx]; simp [hv]
      · exact ih _ _ h

/-! A run that returns: one variable, no interaction, one block of one sweep. -/

theorem exact_one (u : ℝ) (hu : u < 1 / 2) (cs : Fin 1 → Option ℝ) :
    isingExact (⟨0, 0, 1, 0, 1⟩ : IsingArgs 1) cs [[fun _ => u]] [] = some fun _ => 1 := by
  have hp : exactPass (⟨0, 0, 1, 0, 1⟩ : IsingArgs 1) [[fun _ => u]] = fun _ => some 1 := by
    funext i
    have hi : i = 0 := Subsingleton.elim _ _
    subst hi
    simp only [exactPass, List.foldl_cons, List.foldl_nil, exactSweep]
    have hP : pPlus (⟨0, 0, 1, 0, 1⟩ : IsingArgs 1) 0
        (extreme (⟨0, 0, 1, 0, 1⟩ : IsingArgs 1) false 0 fun _ => none) = 1 / 2 := by
      unfold pPlus
      simp only [localField_eq]
      simp
      norm_num
    have hl : List.finRange 1 = [0] := rfl
    rw [hl]
    rw [List.foldl_cons, List.foldl_nil]
    unfold exactVisit
    simp only [pPlusMinmax_eq, Function.update_self]
    rw [hP, if_pos hu]
  unfold isingExact
  simp only [hp]
  simp

example : isingExact (⟨0, 0, 1, 0, 1⟩ : IsingArgs 1) (fun _ => none) [[fun _ => 0]] [] =
    some fun _ => 1 := exact_one 0 (by norm_num) _

/-! ### C82: constraints with coupling from the past -/

/-- Coupling from the past ignores the constraints: the returned value of a constrained variable differs
from its constraint. -/
theorem C82_cftp_constraints_false :
    ∃ (a : IsingArgs 1) (cs : Fin 1 → Option ℝ) (fuel : List (List (Fin 1 → ℝ))) (x : Fin 1 → ℝ),
      cs 0 = some a.r0 ∧ isingExact a cs fuel [] = some x ∧ x 0 ≠ a.r0 :=
  ⟨⟨0, 0, 1, 0, 1⟩, fun _ => some 0, [[fun _ => 0]], fun _ => 1, rfl, exact_one 0 (by norm_num) _,
    by norm_num⟩

/-! ### C78: shape of the samples -/

theorem samplerMH_rows (sample : ℕ → Fin p → ℝ) : ∀ k, samplerMH (k + 2) sample =
    .mat ((List.range (k + 2)).map fun s => List.ofFn (sample s)) := by
  intro k
  unfold samplerMH
  induction k with
  | zero => rfl
  | succ k ih =>
      have e : k + 1 + 2 - 1 = (k + 2 - 1) + 1 := by omega
      rw [e, List.range_succ, List.foldl_append, ih]
      rw [show k + 1 + 2 = (k + 2) + 1 from rfl, List.range_succ (n := k + 2), List.map_append]
      rfl

/-- With two or more samples the Metropolis-Hastings method returns one row per sample and one column per
variable; row `s` is sample `s`. Missing: one sample (`C78_single_false`) and the direct method
(`C78_direct_false`). -/
theorem C78_mh_shape_partial (n : ℕ) (hn : 2 ≤ n) (sample : ℕ → Fin p → ℝ) :
    samplerMH n sample = .mat ((List.range n).map fun s => List.ofFn (sample s)) ∧
      (samplerMH n sample).shape = [n, p] := by
  obtain ⟨k, rfl⟩ := Nat.exists_eq_add_of_le' hn
  rw [samplerMH_rows]
  refine ⟨rfl, ?_⟩
  simp [NArr.shape, List.range_succ_eq_map]

example : (2 : ℕ) ≤ 5 := by norm_num

/-- A single sample comes back as a one-dimensional array. -/
theorem C78_single_false (sample : ℕ → Fin p → ℝ) :
    (samplerMH 1 sample).shape = [p] ∧ (samplerMH 1 sample).shape ≠ [1, p] := by
  constructor
  · simp [samplerMH, NArr.shape]
  · simp [samplerMH, NArr.shape]

theorem productStates_length (r0 r1 : ℝ) : ∀ k, ∀ s ∈ productStates r0 r1 k, s.length = k
  | 0, s, h => by simp [productStates] at h; simp [h]
  | k + 1, s, h => by
      simp only [productStates, List.mem_flatMap, List.mem_map] at h
      obtain ⟨r, _, t, ht, rfl⟩ := h
      simp [productStates_length r0 r1 k t ht]

theorem productStates_count (r0 r1 : ℝ) : ∀ k, (productStates r0 r1 k).length = 2 ^ k
  | 0 => by simp [productStates]
  | k + 1 => by
      simp only [productStates, List.flatMap_cons, List.flatMap_nil, List.append_nil, List.length_append,
        List.length_map, productStates_count r0 r1 k]
      ring

/-- The direct method returns rows of length ten whatever the graph, and fails for graphs with more than ten
variables. -/
theorem C78_direct_false (q : ℕ) (hq : q ≠ 10) (r0 r1 : ℝ) (ix : ℕ) (ixs : List ℕ) (hix : ix < 2 ^ 10) :
    (10 < q → directSampling q r0 r1 (ix :: ixs) = .error .index) ∧
    (q < 10 → ∃ out, directSampling q r0 r1 (ix :: ixs) = .ok out ∧ out.shape = [ixs.length + 1, 10]) ∧
    ¬ ∃ out, directSampling q r0 r1 (ix :: ixs) = .ok out ∧ out.shape = [ixs.length + 1, q] := by
  have hlen := productStates_length r0 r1 10
  have hcount := productStates_count r0 r1 10
  unfold directSampling
  generalize productStates r0 r1 10 = L at hlen hcount ⊢
  have hshape : (NArr.mat ((ix :: ixs).map fun i => L.getD i [])).shape = [ixs.length + 1, 10] := by
    have hl : ix < L.length := by rw [hcount]; exact hix
    have h1 : (L.getD ix []).length = 10 := by
      rw [List.getD_eq_getElem?_getD, List.getElem?_eq_getElem hl]
      exact hlen _ (List.getElem_mem hl)
    simp only [NArr.shape, List.map_cons, List.length_cons, List.length_map, List.headD_cons, h1]
  refine ⟨fun h => if_pos h, fun h => ⟨_, if_neg (not_lt.mpr h.le), hshape⟩, ?_⟩
  rintro ⟨out, ho, hs⟩
  split at ho
  · cases ho
  · rw [← Except.ok.inj ho, hshape] at hs
    have h2 := (List.cons.inj (List.cons.inj hs).2).1
    exact hq h2.symm

example : (5 : ℕ) ≠ 10 ∧ (3 : ℕ) < 2 ^ 10 := by norm_num

end Verif.Props
