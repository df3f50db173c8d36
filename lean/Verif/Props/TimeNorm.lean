import Verif.Props.FL
import Verif.Model.FB
import Verif.Spec.Seq
import Mathlib.Analysis.SpecialFunctions.Log.Basic
import Mathlib.Analysis.Matrix.PosDef
import Mathlib.Topology.MetricSpace.ProperSpace
import Mathlib.LinearAlgebra.Matrix.NonsingularInverse

/-! C199: the option `time_norm` of the forward-backward solver. -/

namespace Verif.Props

open Verif.Model Verif.Spec Verif.Lemmas Matrix

set_option autoImplicit false
set_option linter.unusedSectionVars false

variable {n : Type*} [Fintype n] [LinearOrder n] {T : ℕ}

/-- Specification: the changes of a series. -/
def changes (x : Fin (T + 1) → ℝ) : Fin T → ℝ := fun p => x p.succ - x p.castSucc

/-- Specification: `beta N(changes of x) + lam ∑|x_t| + ½ ∑ (x_t - a_t)²`, `N` the norm chosen by `time_norm`. -/
noncomputable def normFused (N : (Fin T → ℝ) → ℝ) (beta lam : ℝ) (a x : Fin (T + 1) → ℝ) : ℝ :=
  beta * N (changes x) + lam * absSum x + 1 / 2 * sqDist x a

/-- Specification: `solve` is an exact denoiser for the norm `N`. -/
def IsNormTVSolver (N : (Fin T → ℝ) → ℝ) (solve : (Fin (T + 1) → ℝ) → ℝ → Fin (T + 1) → ℝ) : Prop :=
  ∀ a beta, 0 ≤ beta → IsMin Set.univ (normFused N beta 0 a) (solve a beta)

/-- Specification: the Euclidean norm, `time_norm=2`. -/
noncomputable def twoNorm (v : Fin T → ℝ) : ℝ := Real.sqrt (∑ p, v p ^ 2)

/-- C199 (no l1 penalty): for every `time_norm` the step with `lamda = 0` is exact, given an exact denoiser. -/
theorem C199_no_l1 {N : (Fin T → ℝ) → ℝ} {tv : (Fin (T + 1) → ℝ) → ℝ → Fin (T + 1) → ℝ} (htv : IsNormTVSolver N tv)
    (a : Fin (T + 1) → Matrix n n ℝ) {beta : ℝ} (hb : 0 ≤ beta) (symmetric optimize : Bool)
    (hsym : symmetric = true → ∀ t, (a t).IsSymm) (i j : n) :
    IsMin Set.univ (normFused N beta 0 fun t => a t i j) (fun t => proxFL tv a beta 0 symmetric optimize t i j) := by
  rw [proxFL_entry tv a beta 0 symmetric optimize hsym i j]
  have h0 : softThresholding (tv (fun t => a t i j) beta) 0 = tv (fun t => a t i j) beta := by
    funext t
    simp only [softThresholding]
    exact softScalar_zero_right _
  rw [h0, ite_self]
  exact htv _ _ hb

/-- C199 (two times): with two times every `time_norm` gives the same problem, and the step is exact. -/
theorem C199_two_times {N : (Fin 1 → ℝ) → ℝ} (hN : ∀ v, N v = |v 0|)
    {tv : (Fin 2 → ℝ) → ℝ → Fin 2 → ℝ} (htv : IsNormTVSolver N tv)
    (a : Fin 2 → Matrix n n ℝ) {beta lam : ℝ} (hb : 0 ≤ beta) (hl : 0 ≤ lam)
    (symmetric optimize : Bool) (hsym : symmetric = true → ∀ t, (a t).IsSymm) {i j : n} (hij : i ≠ j) :
    UniqueMin Set.univ (normFused N beta lam fun t => a t i j)
      (fun t => proxFL tv a beta lam symmetric optimize t i j) := by
  have he : ∀ beta lam (b : Fin 2 → ℝ), normFused N beta lam b = fusedObjective (T := 1) beta lam b := by
    intro beta lam b
    funext x
    unfold normFused fusedObjective totalVariation changes
    rw [hN]
    simp
  have htv' : IsTVSolver (T := 1) tv := fun b be hbe => by
    rw [← he]; exact htv b be hbe
  rw [he]
  exact (C10_prox_FL_exact htv' a hb hl symmetric optimize hsym i j).1 hij

theorem cs_two (p q : ℝ) : 3 / 5 * p + 4 / 5 * q ≤ Real.sqrt (p ^ 2 + q ^ 2) := by
  refine (le_abs_self _).trans (Real.abs_le_sqrt ?_)
  nlinarith [sq_nonneg (4 * p - 3 * q)]

/-- The denoised series of the example. -/
theorem tv_series {tv : (Fin 3 → ℝ) → ℝ → Fin 3 → ℝ} (htv : IsNormTVSolver twoNorm tv) :
    tv ![-3 / 10, 1 / 5, 11 / 10] (1 / 2) = ![0, 3 / 10, 7 / 10] := by
  obtain ⟨-, h⟩ := htv ![-3 / 10, 1 / 5, 11 / 10] (1 / 2) (by norm_num)
  have h1 := h ![0, 3 / 10, 7 / 10] (Set.mem_univ _)
  set x := tv ![-3 / 10, 1 / 5, 11 / 10] (1 / 2) with hx
  have e : ∀ y : Fin 3 → ℝ, normFused twoNorm (1 / 2) 0 ![-3 / 10, 1 / 5, 11 / 10] y =
      1 / 2 * Real.sqrt ((y 1 - y 0) ^ 2 + (y 2 - y 1) ^ 2) +
        1 / 2 * ((y 0 + 3 / 10) ^ 2 + (y 1 - 1 / 5) ^ 2 + (y 2 - 11 / 10) ^ 2) := by
    intro y
    unfold normFused twoNorm changes sqDist
    simp [Fin.sum_univ_two, Fin.sum_univ_three]
    ring
  rw [e, e] at h1
  have hs : Real.sqrt ((3 / 10 - 0) ^ 2 + (7 / 10 - 3 / 10) ^ 2) = (1 / 2 : ℝ) := by
    rw [show ((3 / 10 - 0) ^ 2 + (7 / 10 - 3 / 10) ^ 2 : ℝ) = (1 / 2) ^ 2 by norm_num]
    exact Real.sqrt_sq (by norm_num)
  simp only [Matrix.cons_val_zero, Matrix.cons_val_one, Matrix.cons_val] at h1
  rw [hs] at h1
  have hc := cs_two (x 1 - x 0) (x 2 - x 1)
  have hq : (x 0) ^ 2 + (x 1 - 3 / 10) ^ 2 + (x 2 - 7 / 10) ^ 2 ≤ 0 := by nlinarith
  have h0 : x 0 = 0 := by nlinarith [sq_nonneg (x 0), sq_nonneg (x 1 - 3 / 10), sq_nonneg (x 2 - 7 / 10)]
  have h2 : x 1 = 3 / 10 := by
    have : (x 1 - 3 / 10) ^ 2 = 0 := by
      nlinarith [sq_nonneg (x 0), sq_nonneg (x 1 - 3 / 10), sq_nonneg (x 2 - 7 / 10)]
    linarith [pow_eq_zero_iff (two_ne_zero) |>.mp this]
  have h3 : x 2 = 7 / 10 := by
    have : (x 2 - 7 / 10) ^ 2 = 0 := by
      nlinarith [sq_nonneg (x 0), sq_nonneg (x 1 - 3 / 10), sq_nonneg (x 2 - 7 / 10)]
    linarith [pow_eq_zero_iff (two_ne_zero) |>.mp this]
  funext t
  fin_cases t <;> simp [h0, h2, h3]

/-- A constant series is left alone. -/
theorem tv_const {tv : (Fin 3 → ℝ) → ℝ → Fin 3 → ℝ} (htv : IsNormTVSolver twoNorm tv) (c : ℝ) {beta : ℝ}
    (hb : 0 ≤ beta) : tv (fun _ => c) beta = fun _ => c := by
  obtain ⟨-, h⟩ := htv (fun _ => c) beta hb
  have h1 := h (fun _ => c) (Set.mem_univ _)
  unfold normFused twoNorm changes sqDist at h1
  simp only [sub_self, ne_eq, OfNat.ofNat_ne_zero, not_false_eq_true, zero_pow, Finset.sum_const_zero,
    Real.sqrt_zero, mul_zero, zero_mul, add_zero] at h1
  have h2 : 0 ≤ beta * Real.sqrt (∑ p : Fin 2, (tv (fun _ => c) beta p.succ - tv (fun _ => c) beta p.castSucc) ^ 2) :=
    mul_nonneg hb (Real.sqrt_nonneg _)
  have h3 : ∑ t, (tv (fun _ => c) beta t - c) ^ 2 ≤ 0 := by linarith
  funext t
  have h4 := Finset.single_le_sum (f := fun t => (tv (fun _ => c) beta t - c) ^ 2) (fun t _ => sq_nonneg _)
    (Finset.mem_univ t)
  have h5 : (tv (fun _ => c) beta t - c) ^ 2 = 0 := le_antisymm (h4.trans h3) (sq_nonneg _)
  linarith [pow_eq_zero_iff (two_ne_zero) |>.mp h5]

theorem sqrt_bounds : Real.sqrt (1921 / 10000) ≤ 4383 / 10000 ∧ 4472 / 10000 ≤ Real.sqrt (1 / 5) := by
  constructor
  · rw [Real.sqrt_le_left (by norm_num)]; norm_num
  · apply Real.le_sqrt_of_sq_le; norm_num

/-- The matrices of the example: unit diagonal and the given off-diagonal series. -/
def tnPair (x : ℝ) : Matrix (Fin 2) (Fin 2) ℝ := !![1, x; x, 1]

theorem tnPair_symm (x : ℝ) : (tnPair x).IsSymm := by
  ext i j; fin_cases i <;> fin_cases j <;> rfl

/-- What the step computes on the example. -/
theorem proxFL_example {tv : (Fin 3 → ℝ) → ℝ → Fin 3 → ℝ} (htv : IsNormTVSolver twoNorm tv) (symmetric optimize : Bool) :
    proxFL tv (fun t => tnPair ((![-3 / 10, 1 / 5, 11 / 10] : Fin 3 → ℝ) t)) (1 / 2) (1 / 10) symmetric optimize =
      fun t => tnPair ((![0, 1 / 5, 3 / 5] : Fin 3 → ℝ) t) := by
  have hoff : ∀ i j : Fin 2, i ≠ j →
      (fun t => proxFL tv (fun t => tnPair ((![-3 / 10, 1 / 5, 11 / 10] : Fin 3 → ℝ) t)) (1 / 2) (1 / 10) symmetric
        optimize t i j) = ![0, 1 / 5, 3 / 5] := by
    intro i j hij
    rw [proxFL_entry tv _ _ _ symmetric optimize (fun _ t => tnPair_symm _) i j, if_neg hij]
    have : (fun t => tnPair ((![-3 / 10, 1 / 5, 11 / 10] : Fin 3 → ℝ) t) i j) = ![-3 / 10, 1 / 5, 11 / 10] := by
      funext t
      fin_cases i <;> fin_cases j <;> first | exact absurd rfl hij | rfl
    rw [this, tv_series htv]
    funext t
    fin_cases t <;> simp [softThresholding, softScalar, npSign] <;> norm_num
  have hdiag : ∀ i : Fin 2,
      (fun t => proxFL tv (fun t => tnPair ((![-3 / 10, 1 / 5, 11 / 10] : Fin 3 → ℝ) t)) (1 / 2) (1 / 10) symmetric
        optimize t i i) = fun _ => 1 := by
    intro i
    rw [proxFL_entry tv _ _ _ symmetric optimize (fun _ t => tnPair_symm _) i i, if_pos rfl]
    have : (fun t => tnPair ((![-3 / 10, 1 / 5, 11 / 10] : Fin 3 → ℝ) t) i i) = fun _ => 1 := by
      funext t
      fin_cases i <;> rfl
    rw [this, tv_const htv 1 (by norm_num)]
  funext t
  ext i j
  by_cases h : i = j
  · subst h
    rw [congrFun (hdiag i) t]
    fin_cases i <;> rfl
  · rw [congrFun (hoff i j h) t]
    fin_cases i <;> fin_cases j <;> first | exact absurd rfl h | rfl

/-- C199 is false for the proximal step: with `time_norm=2` and three times, thresholding the denoised series is not the
proximal map, whatever exact denoiser is used. -/
theorem C199_prox_false {tv : (Fin 3 → ℝ) → ℝ → Fin 3 → ℝ} (htv : IsNormTVSolver twoNorm tv)
    (symmetric optimize : Bool) :
    ∃ a : Fin 3 → Matrix (Fin 2) (Fin 2) ℝ, (∀ t, (a t).IsSymm) ∧
      ¬ IsMin Set.univ (normFused twoNorm (1 / 2) (1 / 10) fun t => a t 0 1)
        (fun t => proxFL tv a (1 / 2) (1 / 10) symmetric optimize t 0 1) := by
  refine ⟨fun t => tnPair ((![-3 / 10, 1 / 5, 11 / 10] : Fin 3 → ℝ) t), fun t => tnPair_symm _, ?_⟩
  rw [proxFL_example htv]
  rintro ⟨-, h⟩
  have h1 := h ![0, 1 / 5, 59 / 100] (Set.mem_univ _)
  unfold normFused twoNorm changes sqDist absSum tnPair at h1
  simp [Fin.sum_univ_two, Fin.sum_univ_three] at h1
  have e1 : ((5 ^ 2)⁻¹ + (3 / 5 - 5⁻¹) ^ 2 : ℝ) = 1 / 5 := by norm_num
  have e2 : ((5 ^ 2)⁻¹ + (59 / 100 - 5⁻¹) ^ 2 : ℝ) = 1921 / 10000 := by norm_num
  rw [e1, e2, abs_of_pos (by norm_num : (0 : ℝ) < 3 / 5), abs_of_pos (by norm_num : (0 : ℝ) < 59 / 100)] at h1
  have := sqrt_bounds
  linarith [this.1, this.2]

/-- Specification: the documented problem with `time_norm=2` (and no jitter). -/
noncomputable def twoNormObjective {T : ℕ} (S : Fin (T + 1) → Matrix n n ℝ) (nS : Fin (T + 1) → ℝ) (alpha beta : ℝ)
    (K : Fin (T + 1) → Matrix n n ℝ) : ℝ :=
  ∑ t, nS t * (frobInner (S t) (K t) - Real.log (K t).det) + alpha * ∑ t, absSumOff (K t)
    + beta * ∑ i, ∑ j, twoNorm (changes fun t => K t i j)

theorem posDef_two {p q r : ℝ} (hp : 0 < p) (hd : q ^ 2 < p * r) : (!![p, q; q, r] : Matrix (Fin 2) (Fin 2) ℝ).PosDef := by
  refine Matrix.PosDef.of_dotProduct_mulVec_pos ?_ fun v hv => ?_
  · ext i j; fin_cases i <;> fin_cases j <;> rfl
  · have e : star v ⬝ᵥ ((!![p, q; q, r] : Matrix (Fin 2) (Fin 2) ℝ) *ᵥ v) =
        p * v 0 ^ 2 + 2 * q * v 0 * v 1 + r * v 1 ^ 2 := by
      simp [dotProduct, Matrix.mulVec, Fin.sum_univ_two]; ring
    rw [e]
    by_cases h : v 1 = 0
    · have h0 : v 0 ≠ 0 := fun h0 => hv (by funext i; fin_cases i <;> simp [h0, h])
      rw [h]
      have := mul_pos hp (sq_pos_of_ne_zero h0)
      nlinarith
    · have h1 : 0 < v 1 ^ 2 := by positivity
      have h2 : 0 < (p * r - q ^ 2) * v 1 ^ 2 := mul_pos (by linarith) h1
      have h3 : 0 < p * (p * v 0 ^ 2 + 2 * q * v 0 * v 1 + r * v 1 ^ 2) := by
        nlinarith [sq_nonneg (p * v 0 + q * v 1)]
      exact (mul_pos_iff_of_pos_left hp).mp h3

theorem tnPair_posDef {x : ℝ} (h : x ^ 2 < 1) : (tnPair x).PosDef := posDef_two one_pos (by simpa using h)

/-- The inverse of an example matrix. -/
theorem tnPair_inv {x : ℝ} (h : x ^ 2 < 1) : (tnPair x)⁻¹ = (1 - x ^ 2)⁻¹ • (!![1, -x; -x, 1] : Matrix (Fin 2) (Fin 2) ℝ) := by
  refine Matrix.inv_eq_right_inv ?_
  have h1 : (1 - x ^ 2) ≠ 0 := by linarith
  ext i j
  fin_cases i <;> fin_cases j <;> simp [tnPair, Matrix.mul_apply, Fin.sum_univ_two] <;> field_simp <;> ring

/-- The covariances of the example. -/
noncomputable def fbCov : Fin 3 → Matrix (Fin 2) (Fin 2) ℝ :=
  ![!![1, 3 / 10; 3 / 10, 1], !![25 / 24, -5 / 24; -5 / 24, 25 / 24], !![25 / 16, -23 / 16; -23 / 16, 25 / 16]]

/-- The call of the example. -/
noncomputable def fbExample : FBArgs 2 (Fin 2) where
  empCov := fbCov
  alpha := 1 / 10
  beta := 1 / 2
  maxIter := 100
  nSamples := some fun _ => 1
  tol := 1 / 10000
  delta := 1 / 10000
  gamma := 1
  lamda := 1
  eps := 1 / 2
  choose := "fixed"
  vareps := 0
  stopWhen := 1 / 10000

/-- The networks of the example. -/
noncomputable def fbStuck : Fin 3 → Matrix (Fin 2) (Fin 2) ℝ := fun t => tnPair ((![0, 1 / 5, 3 / 5] : Fin 3 → ℝ) t)

/-- Better networks. -/
noncomputable def fbBetter : Fin 3 → Matrix (Fin 2) (Fin 2) ℝ :=
  fun t => tnPair ((![0, 1 / 5, 59 / 100] : Fin 3 → ℝ) t)

/-- The objective of the example. -/
theorem twoNormObjective_example (v : Fin 3 → ℝ) :
    twoNormObjective fbExample.empCov (fun _ => 1) fbExample.alpha fbExample.beta (fun t => tnPair (v t)) =
      (2 + 3 / 5 * v 0 - Real.log (1 - v 0 ^ 2)) + (25 / 12 - 5 / 12 * v 1 - Real.log (1 - v 1 ^ 2)) +
        (25 / 8 - 23 / 8 * v 2 - Real.log (1 - v 2 ^ 2)) + 1 / 5 * (|v 0| + |v 1| + |v 2|) +
        Real.sqrt ((v 1 - v 0) ^ 2 + (v 2 - v 1) ^ 2) := by
  have hdet : ∀ x, (tnPair x).det = 1 - x ^ 2 := fun x => by
    rw [tnPair, Matrix.det_fin_two_of]; ring
  have hoff : ∀ x, absSumOff (tnPair x) = 2 * |x| := fun x => by
    simp [absSumOff, tnPair, Fin.sum_univ_two]; ring
  unfold twoNormObjective
  simp only [hdet, hoff]
  have h01 : ∀ i j : Fin 2, twoNorm (changes fun t => tnPair (v t) i j) =
      if i = j then 0 else Real.sqrt ((v 1 - v 0) ^ 2 + (v 2 - v 1) ^ 2) := by
    intro i j
    unfold twoNorm changes
    rw [Fin.sum_univ_two]
    fin_cases i <;> fin_cases j <;> simp [tnPair]
  simp only [h01]
  simp [Fin.sum_univ_three, Fin.sum_univ_two, frobInner, fbExample, fbCov, tnPair]
  ring

/-- C199 is false for the solver: with `time_norm=2` there are covariances and positive definite networks which every
step with `gamma = 1` leaves unchanged, whatever exact denoiser and relaxation are used, although other networks have a
smaller documented objective. -/
theorem C199_fixed_false :
    (∀ t, (fbExample.empCov t).PosDef) ∧ (∀ t, (fbStuck t).PosDef) ∧ (∀ t, (fbBetter t).PosDef) ∧
    (∃ g, fbGradient fbExample fbStuck (fun t => (fbStuck t)⁻¹) = .ok g ∧
      ∀ tv, IsNormTVSolver twoNorm tv → ∀ lamda, fbUpdate lamda fbStuck (fbProx tv fbExample fbStuck g 1) = fbStuck) ∧
    twoNormObjective fbExample.empCov (fun _ => 1) fbExample.alpha fbExample.beta fbBetter <
      twoNormObjective fbExample.empCov (fun _ => 1) fbExample.alpha fbExample.beta fbStuck := by
  have hsq : ∀ t : Fin 3, ((![0, 1 / 5, 3 / 5] : Fin 3 → ℝ) t) ^ 2 < 1 := by
    intro t; fin_cases t <;> norm_num
  refine ⟨fun t => ?_, fun t => tnPair_posDef (hsq t), fun t => tnPair_posDef ?_, ?_, ?_⟩
  · fin_cases t <;> refine posDef_two ?_ ?_ <;> norm_num
  · fin_cases t <;> norm_num
  · refine ⟨_, rfl, fun tv htv lamda => ?_⟩
    have h : fbProx tv fbExample fbStuck
        (gradLoss fbExample.empCov (fun _ => 1) fbExample.vareps fbStuck fun t => (fbStuck t)⁻¹) 1 = fbStuck := by
      unfold fbProx
      have e : (fbStuck - (1 : ℝ) • gradLoss fbExample.empCov (fun _ => 1) fbExample.vareps fbStuck
          fun t => (fbStuck t)⁻¹) = fun t => tnPair ((![-3 / 10, 1 / 5, 11 / 10] : Fin 3 → ℝ) t) := by
        funext t
        ext i j
        simp only [Pi.sub_apply, gradLoss, one_smul, fbStuck, tnPair_inv (hsq t)]
        fin_cases t <;> fin_cases i <;> fin_cases j <;> simp [fbExample, fbCov, tnPair] <;> norm_num
      simp only [e]
      rw [if_neg (by simp [fbExample])]
      have hb : fbExample.beta * 1 = 1 / 2 := by simp [fbExample]
      have ha : fbExample.alpha * 1 = 1 / 10 := by simp [fbExample]
      rw [hb, ha, proxFL_example htv]
      rfl
    change fbUpdate lamda fbStuck (fbProx tv fbExample fbStuck
        (gradLoss fbExample.empCov (fun _ => 1) fbExample.vareps fbStuck fun t => (fbStuck t)⁻¹) 1) = fbStuck
    rw [h]
    unfold fbUpdate
    rw [sub_self, smul_zero, add_zero]
  · have e1 : Real.sqrt ((1 / 5 - 0) ^ 2 + (3 / 5 - 1 / 5) ^ 2) = Real.sqrt (1 / 5) := by norm_num
    have e2 : Real.sqrt ((1 / 5 - 0) ^ 2 + (59 / 100 - 1 / 5) ^ 2) = Real.sqrt (1921 / 10000) := by norm_num
    have hl : 1 - 6400 / 6519 ≤ Real.log (1 - (59 / 100) ^ 2) - Real.log (1 - (3 / 5) ^ 2) := by
      rw [← Real.log_div (by norm_num) (by norm_num)]
      have := Real.one_sub_inv_le_log_of_pos (show (0 : ℝ) < (1 - (59 / 100) ^ 2) / (1 - (3 / 5) ^ 2) by norm_num)
      refine le_trans (le_of_eq ?_) this
      norm_num
    have hb := sqrt_bounds
    unfold fbBetter fbStuck
    rw [twoNormObjective_example, twoNormObjective_example]
    simp only [Matrix.cons_val_zero, Matrix.cons_val_one, Matrix.cons_val]
    rw [e1, e2, abs_of_pos (by norm_num : (0 : ℝ) < 3 / 5), abs_of_pos (by norm_num : (0 : ℝ) < 59 / 100)]
    linarith [hb.1, hb.2]

/-- Non-vacuity for C199: for every norm that is continuous and nonnegative there is an exact denoiser. -/
theorem exists_normTVSolver {N : (Fin T → ℝ) → ℝ} (hN : Continuous N) (h0 : ∀ v, 0 ≤ N v) :
    ∃ tv, IsNormTVSolver N tv := by
  have key : ∀ (a : Fin (T + 1) → ℝ) (beta : ℝ), ∃ x, 0 ≤ beta → IsMin Set.univ (normFused N beta 0 a) x := by
    intro a beta
    by_cases hb : 0 ≤ beta
    · have hcont : Continuous (normFused N beta 0 a) := by
        unfold normFused changes absSum sqDist
        fun_prop
      set R := normFused N beta 0 a a + 1 with hR
      have hlow : ∀ x, 1 / 2 * sqDist x a ≤ normFused N beta 0 a x := by
        intro x
        unfold normFused
        have := mul_nonneg hb (h0 (changes x))
        linarith
      have hcomp : IsCompact (Metric.closedBall a (2 * R + 1)) := isCompact_closedBall _ _
      have hRpos : 0 < R := by
        have := hlow a
        have : 0 ≤ sqDist a a := Finset.sum_nonneg fun i _ => sq_nonneg _
        linarith
      obtain ⟨x, hx, hmin⟩ := hcomp.exists_isMinOn ⟨a, Metric.mem_closedBall_self (by linarith)⟩ hcont.continuousOn
      refine ⟨x, fun _ => ⟨Set.mem_univ _, fun y _ => ?_⟩⟩
      by_cases hy : y ∈ Metric.closedBall a (2 * R + 1)
      · exact hmin hy
      · have h1 : normFused N beta 0 a x ≤ normFused N beta 0 a a := hmin (Metric.mem_closedBall_self (by linarith))
        have h2 : ∃ i, 2 * R + 1 < |y i - a i| := by
          by_contra h
          push Not at h
          refine hy ?_
          rw [Metric.mem_closedBall, dist_pi_le_iff (by linarith)]
          exact fun i => by rw [Real.dist_eq]; exact h i
        obtain ⟨i, hi⟩ := h2
        have h3 : (y i - a i) ^ 2 ≤ sqDist y a :=
          Finset.single_le_sum (f := fun i => (y i - a i) ^ 2) (fun i _ => sq_nonneg _) (Finset.mem_univ i)
        have h4 : (2 * R + 1) ^ 2 ≤ (y i - a i) ^ 2 := by
          rw [← sq_abs (y i - a i)]
          exact pow_le_pow_left₀ (by linarith) hi.le 2
        have h5 := hlow y
        nlinarith
    · exact ⟨a, fun h => absurd h hb⟩
  choose tv htv using key
  exact ⟨tv, fun a beta hb => htv a beta hb⟩

/-- Non-vacuity for C199: there is an exact denoiser for `time_norm=2`. -/
example : ∃ tv, IsNormTVSolver (T := 2) twoNorm tv :=
  exists_normTVSolver (by unfold twoNorm; fun_prop) fun v => Real.sqrt_nonneg _

end Verif.Props
