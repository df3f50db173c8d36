import Verif.Model.Plotting
import Mathlib.Analysis.Convex.Combination
import Mathlib.Tactic.Linarith
import Mathlib.Tactic.Positivity
import Mathlib.Tactic.FieldSimp
import Mathlib.Tactic.Ring
import Mathlib.Tactic.Module

/-! Property theorems C179: the curves of circular network plots (regain/plotting/plotly.py). -/

namespace Verif.Props

open Verif.Model

set_option autoImplicit false

variable {E : Type*} [AddCommGroup E] [Module ℝ E]

/-- The Bernstein form of a Bezier curve. -/
noncomputable def bernstein (n : ℕ) (b : ℕ → E) (t : ℝ) : E :=
  ∑ k ∈ Finset.range (n + 1), ((n.choose k : ℝ) * t ^ k * (1 - t) ^ (n - k)) • b k

theorem bernstein_succ (n : ℕ) (b : ℕ → E) (t : ℝ) :
    bernstein (n + 1) b t = (1 - t) • bernstein n b t + t • bernstein n (fun i => b (i + 1)) t := by
  unfold bernstein
  rw [Finset.smul_sum, Finset.smul_sum, Finset.sum_range_succ' _ (n + 1), Finset.sum_range_succ' (fun k =>
    (1 - t) • (((n.choose k : ℝ) * t ^ k * (1 - t) ^ (n - k)) • b k)) n]
  rw [Finset.sum_range_succ (fun k => (((n + 1).choose (k + 1) : ℝ) * t ^ (k + 1) *
    (1 - t) ^ (n + 1 - (k + 1))) • b (k + 1)) n]
  rw [Finset.sum_range_succ (fun k => t • (((n.choose k : ℝ) * t ^ k * (1 - t) ^ (n - k)) • b (k + 1))) n]
  have h1 : ∀ k ∈ Finset.range n, (((n + 1).choose (k + 1) : ℝ) * t ^ (k + 1) * (1 - t) ^ (n + 1 - (k + 1))) • b (k + 1) =
      (1 - t) • (((n.choose (k + 1) : ℝ) * t ^ (k + 1) * (1 - t) ^ (n - (k + 1))) • b (k + 1)) +
      t • (((n.choose k : ℝ) * t ^ k * (1 - t) ^ (n - k)) • b (k + 1)) := by
    intro k hk
    rw [Finset.mem_range] at hk
    rw [smul_smul, smul_smul, ← add_smul]
    congr 1
    rw [Nat.choose_succ_succ, Nat.cast_add]
    have e1 : n + 1 - (k + 1) = n - k := by omega
    have e2 : n - k = n - (k + 1) + 1 := by omega
    rw [e1, e2]
    ring
  rw [Finset.sum_congr rfl h1, Finset.sum_add_distrib]
  simp only [Nat.choose_self, Nat.choose_zero_right, Nat.cast_one, Nat.sub_self, pow_zero, Nat.sub_zero,
    mul_one, one_mul, smul_smul]
  rw [show (1 - t) * (1 - t) ^ n = (1 - t) ^ (n + 1) by ring, show t * t ^ n = t ^ (n + 1) by ring]
  abel

theorem casteljauRounds_eq (N : ℕ) (t : ℝ) (b : ℕ → E) (r i : ℕ) (h : i + r < N) :
    casteljauRounds N t b r i = bernstein r (fun j => b (i + j)) t := by
  induction r generalizing i with
  | zero => simp [casteljauRounds, bernstein]
  | succ r ih =>
    rw [bernstein_succ]
    show casteljauRound N t (casteljauRounds N t b r) (r + 1) i = _
    unfold casteljauRound
    rw [if_pos (by omega), ih i (by omega), ih (i + 1) (by omega)]
    congr 2
    refine congrArg (fun f => bernstein r f t) (funext fun j => ?_)
    rw [show i + 1 + j = i + (j + 1) by omega]

/-- **C179** for at least two control points the in-place scheme computes the Bezier curve
`Σ C(n,k) t^k (1-t)^(n-k) b_k`; fewer points raise ValueError. -/
theorem C179_bezier (N : ℕ) (b : ℕ → E) (t : ℝ) :
    (2 ≤ N → deCasteljau N b t = .ok (bernstein (N - 1) b t)) ∧
      (N < 2 → deCasteljau N b t = .error .value) := by
  constructor
  · intro h
    unfold deCasteljau
    rw [if_neg (by omega), casteljauRounds_eq N t b (N - 1) 0 (by omega)]
    simp
  · intro h
    unfold deCasteljau
    rw [if_pos h]

theorem bernstein_zero (n : ℕ) (b : ℕ → E) : bernstein n b 0 = b 0 := by
  unfold bernstein
  rw [Finset.sum_eq_single 0]
  · simp
  · intro k _ hk
    simp [zero_pow hk]
  · simp

theorem bernstein_one (n : ℕ) (b : ℕ → E) : bernstein n b 1 = b n := by
  unfold bernstein
  rw [Finset.sum_eq_single n]
  · simp
  · intro k hk hne
    rw [Finset.mem_range] at hk
    rw [sub_self, zero_pow (by omega), mul_zero, zero_smul]
  · simp

theorem bernstein_mem (n : ℕ) {b : ℕ → E} {S : Set E} (hS : Convex ℝ S) (hb : ∀ k ≤ n, b k ∈ S) {t : ℝ}
    (h0 : 0 ≤ t) (h1 : t ≤ 1) : bernstein n b t ∈ S := by
  unfold bernstein
  refine hS.sum_mem (fun k _ => ?_) ?_ fun k hk => hb k (by rw [Finset.mem_range] at hk; omega)
  · have : 0 ≤ 1 - t := by linarith
    positivity
  · have h := add_pow t (1 - t) n
    rw [add_sub_cancel, one_pow] at h
    refine Eq.trans (Finset.sum_congr rfl fun k _ => ?_) h.symm
    ring

/-- **C179** the drawn curve starts in the first and ends in the last control point and stays in every convex
region that contains the control points. -/
theorem C179_curve (N nr : ℕ) (hN : 2 ≤ N) (hnr : 2 ≤ nr) (b : ℕ → E) :
    bezierCv N b nr 0 = .ok (b 0) ∧ bezierCv N b nr (nr - 1) = .ok (b (N - 1)) ∧
      ∀ S : Set E, Convex ℝ S → (∀ k < N, b k ∈ S) → ∀ k < nr, ∃ q ∈ S, bezierCv N b nr k = .ok q := by
  have hnr' : (2 : ℝ) ≤ nr := by exact_mod_cast hnr
  unfold bezierCv
  refine ⟨?_, ?_, fun S hS hb k hk => ?_⟩
  · rw [(C179_bezier N b _).1 hN, show linspace01 nr 0 = 0 by simp [linspace01], bernstein_zero]
  · have : linspace01 nr (nr - 1) = 1 := by
      unfold linspace01
      rw [Nat.cast_sub (by omega), Nat.cast_one, div_self (by linarith)]
    rw [(C179_bezier N b _).1 hN, this, bernstein_one]
  · refine ⟨_, bernstein_mem (N - 1) hS (fun j hj => hb j (by omega)) ?_ ?_, (C179_bezier N b _).1 hN⟩
    · unfold linspace01
      exact div_nonneg (Nat.cast_nonneg _) (by linarith)
    · unfold linspace01
      rw [div_le_one (by linarith)]
      have : (k : ℝ) + 1 ≤ nr := by exact_mod_cast hk
      linarith

/-! ### The interval of a distance -/

theorem idxLoop_le (D : ℕ → ℝ) (d : ℝ) (fuel k : ℕ) :
    k ≤ idxLoop D d fuel k ∧ idxLoop D d fuel k ≤ k + fuel ∧
      (∀ j, k ≤ j → j < idxLoop D d fuel k → D j < d) ∧
      (idxLoop D d fuel k < k + fuel → d ≤ D (idxLoop D d fuel k)) := by
  induction fuel generalizing k with
  | zero => exact ⟨le_rfl, le_rfl, fun j h1 h2 => absurd h2 (by simp [idxLoop]; omega), fun h => absurd h (by simp [idxLoop])⟩
  | succ f ih =>
    unfold idxLoop
    split_ifs with h
    · obtain ⟨h1, h2, h3, h4⟩ := ih (k + 1)
      refine ⟨by omega, by omega, fun j hj1 hj2 => ?_, fun hlt => h4 (by omega)⟩
      rcases hj1.eq_or_lt with e | e
      · rw [← e]; exact h
      · exact h3 j e hj2
    · exact ⟨le_rfl, by omega, fun j h1 h2 => absurd h2 (by omega), fun _ => not_lt.mp h⟩

/-- **C179** for a sorted list `D` and `D[0] < d ≤ D[-2]` the index is that of the interval containing `d`;
above the last but one entry it is that of the last interval; it is -1 for `d ≤ D[0]`. -/
theorem C179_interval (d : ℝ) (D : ℕ → ℝ) {len : ℕ} (hlen : 2 ≤ len) :
    (d ≤ D 0 → idxInterv d D len = -1) ∧
    (D 0 < d → 0 ≤ idxInterv d D len ∧ idxInterv d D len ≤ (len : ℤ) - 2 ∧
      D (idxInterv d D len).toNat < d ∧
      (idxInterv d D len < (len : ℤ) - 2 → d ≤ D ((idxInterv d D len).toNat + 1))) := by
  obtain ⟨h1, h2, h3, h4⟩ := idxLoop_le D d (len - 1) 0
  constructor
  · intro h
    have : idxLoop D d (len - 1) 0 = 0 := by
      by_contra hne
      exact absurd (h3 0 le_rfl (by omega)) (not_lt.mpr h)
    unfold idxInterv
    rw [this]
    rfl
  · intro h
    have hpos : 1 ≤ idxLoop D d (len - 1) 0 := by
      by_contra hne
      have e : idxLoop D d (len - 1) 0 = 0 := by omega
      have := h4 (by omega)
      rw [e] at this
      exact absurd h (not_lt.mpr this)
    have e : (idxInterv d D len).toNat = idxLoop D d (len - 1) 0 - 1 := by
      unfold idxInterv; omega
    refine ⟨by unfold idxInterv; omega, by unfold idxInterv; omega, ?_, fun hlt => ?_⟩
    · rw [e]
      exact h3 _ (by omega) (by omega)
    · rw [e, Nat.sub_add_cancel hpos]
      refine h4 ?_
      unfold idxInterv at hlt
      omega

theorem chordParam_ge (K : ℤ) : 1 ≤ chordParam K := by
  unfold chordParam
  split_ifs <;> norm_num

/-- The closed unit disc. -/
def unitDisc : Set (Fin 2 → ℝ) := {v | v 0 ^ 2 + v 1 ^ 2 ≤ 1}

theorem convex_unitDisc : Convex ℝ unitDisc := by
  intro u hu v hv a b ha hb hab
  have hu' : u 0 ^ 2 + u 1 ^ 2 ≤ 1 := hu
  have hv' : v 0 ^ 2 + v 1 ^ 2 ≤ 1 := hv
  show (a * u 0 + b * v 0) ^ 2 + (a * u 1 + b * v 1) ^ 2 ≤ 1
  have e : b = 1 - a := by linarith
  subst e
  have h1 : (a * u 0 + (1 - a) * v 0) ^ 2 + (a * u 1 + (1 - a) * v 1) ^ 2 =
      a * (u 0 ^ 2 + u 1 ^ 2) + (1 - a) * (v 0 ^ 2 + v 1 ^ 2) -
        a * (1 - a) * ((u 0 - v 0) ^ 2 + (u 1 - v 1) ^ 2) := by ring
  have h2 : 0 ≤ a * (1 - a) * ((u 0 - v 0) ^ 2 + (u 1 - v 1) ^ 2) := by positivity
  rw [h1]
  nlinarith

theorem unitDisc_shrink {v : Fin 2 → ℝ} (hv : v ∈ unitDisc) {c : ℝ} (hc : 1 ≤ c) : (1 / c) • v ∈ unitDisc := by
  have hv' : v 0 ^ 2 + v 1 ^ 2 ≤ 1 := hv
  show (1 / c * v 0) ^ 2 + (1 / c * v 1) ^ 2 ≤ 1
  have e : (1 / c * v 0) ^ 2 + (1 / c * v 1) ^ 2 = (1 / c) ^ 2 * (v 0 ^ 2 + v 1 ^ 2) := by ring
  have h1 : 1 / c ≤ 1 := by rw [div_le_one (by linarith)]; exact hc
  have h0 : 0 ≤ 1 / c := by positivity
  have h2 : (1 / c) ^ 2 ≤ 1 := pow_le_one₀ h0 h1
  rw [e]
  have h3 : 0 ≤ v 0 ^ 2 + v 1 ^ 2 := by positivity
  nlinarith

/-- **C179** the curve of an edge joins its two nodes, and with the nodes on the unit circle (as
`plot_circular` places them) all its points lie in the unit disc. -/
theorem C179_chord (A B : Fin 2 → ℝ) :
    chordPoint A B 0 = .ok A ∧ chordPoint A B 4 = .ok B ∧
      (A ∈ unitDisc → B ∈ unitDisc → ∀ k < 5, ∃ q ∈ unitDisc, chordPoint A B k = .ok q) := by
  obtain ⟨h1, h2, h3⟩ := C179_curve 4 5 (by norm_num) (by norm_num) (chordControl A B)
  refine ⟨h1, h2, fun hA hB k hk => h3 _ convex_unitDisc (fun j hj => ?_) k hk⟩
  interval_cases j
  · exact hA
  · exact unitDisc_shrink hA (chordParam_ge _)
  · exact unitDisc_shrink hB (chordParam_ge _)
  · exact hB

/-- **C179 is false for self-loops**: two nodes at distance zero have the index -1, so the curve and the
colour are those of the longest class of chords. -/
theorem C179_self_loop_false (A : Fin 2 → ℝ) : idxInterv (planeDist A A) chordDist 5 = -1 ∧
    chordParam (idxInterv (planeDist A A) chordDist 5) = chordParam 3 := by
  have h : idxInterv (planeDist A A) chordDist 5 = -1 := by
    refine (C179_interval _ chordDist (by norm_num)).1 ?_
    simp [planeDist, chordDist]
  exact ⟨h, by rw [h]; norm_num [chordParam]⟩

/-- Opposite nodes of the circle: the midpoint of the curve is the centre. -/
example : chordPoint ![1, 0] ![-1, 0] 2 = .ok ![0, 0] ∧ ![(1 : ℝ), 0] ∈ unitDisc ∧ ![(-1 : ℝ), 0] ∈ unitDisc := by
  refine ⟨?_, by simp [unitDisc], by simp [unitDisc]⟩
  unfold chordPoint bezierCv
  rw [(C179_bezier 4 _ _).1 (by norm_num)]
  congr 1
  unfold bernstein
  simp only [Finset.sum_range_succ, Finset.sum_range_zero, chordControl, linspace01]
  funext i
  fin_cases i
  · simp; ring
  · simp

end Verif.Props
