import Verif.Model.PoissonGibbs
import Mathlib.Analysis.SpecialFunctions.Exponential
import Mathlib.Analysis.SpecialFunctions.Pow.Asymptotics
import Mathlib.Analysis.Complex.ExponentialBounds
import Mathlib.Data.Nat.Factorial.Basic
import Mathlib.Topology.Algebra.InfiniteSum.Real

/-! Property theorems C181: the Gibbs sampler for Poisson graphical models (regain/datasets/poisson.py). -/

namespace Verif.Props

open Verif.Model Finset

set_option autoImplicit false

variable {n p : ℕ}

/-- The probability of `k` under the Poisson distribution with rate `lam`. -/
noncomputable def poissonMass (lam : ℝ) (k : ℕ) : ℝ := Real.exp (-lam) * lam ^ k / k.factorial

/-- The weights of the Poisson graphical model: pairs enter once. -/
noncomputable def poissonWeight (v : Fin p → ℝ) (theta : Matrix (Fin p) (Fin p) ℝ) (x : Fin p → ℕ) : ℝ :=
  Real.exp (∑ i, v i * x i + ∑ i, ∑ j ∈ univ.filter (fun j => i < j), theta i j * x i * x j)
    / ∏ i, ((x i).factorial : ℝ)

/-- The visits of the sampler are in balance with the weights `w`: given the other variables, the values of
variable `i` have the conditional distribution of `w`. -/
def Balanced (v : Fin p → ℝ) (theta : Matrix (Fin p) (Fin p) ℝ) (w : (Fin p → ℕ) → ℝ) : Prop :=
  ∀ x i y, w (Function.update x i y) * poissonMass (gibbsRate v theta x i) (x i)
    = w x * poissonMass (gibbsRate v theta x i) y

theorem gibbsRate_update (v : Fin p → ℝ) (theta : Matrix (Fin p) (Fin p) ℝ) (x : Fin p → ℕ) (i : Fin p) (y : ℕ) :
    gibbsRate v theta (Function.update x i y) i = gibbsRate v theta x i := by
  unfold gibbsRate
  congr 2
  refine Finset.sum_congr rfl fun j hj => ?_
  rw [Function.update_of_ne (Finset.mem_filter.mp hj).2]

theorem gibbsRate_pos (v : Fin p → ℝ) (theta : Matrix (Fin p) (Fin p) ℝ) (x : Fin p → ℕ) (i : Fin p) :
    0 < gibbsRate v theta x i := Real.exp_pos _

theorem poissonMass_pos {lam : ℝ} (h : 0 < lam) (k : ℕ) : 0 < poissonMass lam k := by
  unfold poissonMass
  positivity

theorem poissonMass_hasSum (lam : ℝ) : HasSum (poissonMass lam) 1 := by
  have h := (NormedSpace.expSeries_div_hasSum_exp (𝔸 := ℝ) lam).mul_left (Real.exp (-lam))
  rw [← Real.exp_eq_exp_ℝ, ← Real.exp_add, neg_add_cancel, Real.exp_zero] at h
  refine h.congr_fun ?_ |> fun h' => h'
  intro k
  unfold poissonMass
  ring

/-- The exponent of the weights. -/
noncomputable def poissonExp (v : Fin p → ℝ) (theta : Matrix (Fin p) (Fin p) ℝ) (x : Fin p → ℕ) : ℝ :=
  ∑ i, v i * x i + ∑ i, ∑ j ∈ univ.filter (fun j => i < j), theta i j * x i * x j

theorem cast_update (x : Fin p → ℕ) (i : Fin p) (y : ℕ) (a : Fin p) :
    ((Function.update x i y a : ℕ) : ℝ) = (Function.update x i 0 a : ℕ) + (y : ℝ) * (if a = i then 1 else 0) := by
  by_cases h : a = i
  · subst h; simp
  · simp [h]

theorem poissonExp_update (v : Fin p → ℝ) {theta : Matrix (Fin p) (Fin p) ℝ}
    (hs : ∀ i j, i ≠ j → theta i j = theta j i) (x : Fin p → ℕ) (i : Fin p) (y : ℕ) :
    poissonExp v theta (Function.update x i y) = poissonExp v theta (Function.update x i 0)
      + y * (v i + ∑ j ∈ univ.filter (fun j => j ≠ i), (x j : ℝ) * theta j i) := by
  set z : Fin p → ℝ := fun a => (Function.update x i 0 a : ℕ) with hz
  set d : Fin p → ℝ := fun a => if a = i then 1 else 0 with hd
  set M : Fin p → Fin p → ℝ := fun a b => if a < b then theta a b else 0 with hM
  have hx : ∀ a, ((Function.update x i y a : ℕ) : ℝ) = z a + y * d a := fun a => cast_update x i y a
  have hpair : ∀ u : Fin p → ℝ, (∑ a, ∑ b ∈ univ.filter (fun b => a < b), theta a b * u a * u b)
      = ∑ a, ∑ b, M a b * u a * u b := by
    intro u
    refine Finset.sum_congr rfl fun a _ => ?_
    rw [Finset.sum_filter]
    refine Finset.sum_congr rfl fun b _ => ?_
    simp only [hM]
    split_ifs <;> simp
  have e1 : poissonExp v theta (Function.update x i y)
      = ∑ a, v a * (z a + y * d a) + ∑ a, ∑ b, M a b * (z a + y * d a) * (z b + y * d b) := by
    unfold poissonExp
    simp only [hx]
    rw [hpair]
  have e2 : poissonExp v theta (Function.update x i 0) = ∑ a, v a * z a + ∑ a, ∑ b, M a b * z a * z b := by
    unfold poissonExp
    rw [← hpair]
  have e3 : ∀ a, ∑ b, M a b * (z a + y * d a) * (z b + y * d b)
      = (∑ b, M a b * z a * z b) + y * (d a * ∑ b, M a b * z b) + y * (z a * M a i) + y * y * (d a * M a i) := by
    intro a
    have h1 : ∀ g : Fin p → ℝ, ∑ b, g b * d b = g i := by intro g; simp [hd]
    have h2 : ∑ b, M a b * (z a + y * d a) * (z b + y * d b)
        = (∑ b, M a b * z a * z b) + y * d a * (∑ b, M a b * z b) + y * z a * (∑ b, M a b * d b)
          + y * y * d a * (∑ b, M a b * d b) := by
      simp only [Finset.mul_sum, ← Finset.sum_add_distrib]
      refine Finset.sum_congr rfl fun b _ => ?_
      ring
    rw [h2, h1]
    ring
  have h1 : ∀ g : Fin p → ℝ, ∑ b, d b * g b = g i := by intro g; simp [hd]
  have hii : M i i = 0 := by simp [hM]
  have e4 : ∑ a, v a * (z a + y * d a) = ∑ a, v a * z a + y * v i := by
    have : ∑ a, v a * (z a + y * d a) = ∑ a, v a * z a + y * ∑ a, d a * v a := by
      simp only [Finset.mul_sum, ← Finset.sum_add_distrib]
      refine Finset.sum_congr rfl fun b _ => ?_
      ring
    rw [this, h1]
  have e5 : (∑ b, M i b * z b) + ∑ a, z a * M a i
      = ∑ j ∈ univ.filter (fun j => j ≠ i), (x j : ℝ) * theta j i := by
    rw [← Finset.sum_add_distrib, Finset.sum_filter]
    refine Finset.sum_congr rfl fun b _ => ?_
    by_cases hb : b = i
    · subst hb; simp [hM]
    · have hzb : z b = x b := by simp [hz, hb]
      rw [if_pos hb, hzb]
      simp only [hM]
      rcases lt_or_gt_of_ne hb with h | h
      · rw [if_neg (not_lt.mpr h.le), if_pos h]; ring
      · rw [if_pos h, if_neg (not_lt.mpr h.le), hs i b (Ne.symm hb)]; ring
  rw [e1, e2, Finset.sum_congr rfl fun a _ => e3 a, e4]
  simp only [Finset.sum_add_distrib, ← Finset.mul_sum]
  rw [h1 (fun a => ∑ b, M a b * z b), h1 (fun a => M a i), hii, ← e5]
  ring

/-- The weights along one variable are a constant times the Poisson probabilities of the rate of the code. -/
theorem poissonWeight_update (v : Fin p → ℝ) {theta : Matrix (Fin p) (Fin p) ℝ}
    (hs : ∀ i j, i ≠ j → theta i j = theta j i) (x : Fin p → ℕ) (i : Fin p) (y : ℕ) :
    poissonWeight v theta (Function.update x i y)
      = poissonWeight v theta (Function.update x i 0) * Real.exp (gibbsRate v theta x i)
        * poissonMass (gibbsRate v theta x i) y := by
  have hprod : ∀ y : ℕ, ∏ a, ((Function.update x i y a).factorial : ℝ)
      = (y.factorial : ℝ) * ∏ a ∈ univ.erase i, ((x a).factorial : ℝ) := by
    intro y
    rw [← Finset.mul_prod_erase univ _ (Finset.mem_univ i)]
    congr 1
    · simp
    · refine Finset.prod_congr rfl fun a ha => ?_
      rw [Function.update_of_ne (Finset.ne_of_mem_erase ha)]
  have hP : (∏ a ∈ univ.erase i, ((x a).factorial : ℝ)) ≠ 0 :=
    Finset.prod_ne_zero_iff.mpr fun a _ => by positivity
  have hexp := poissonExp_update v hs x i y
  unfold poissonWeight
  rw [hprod y, hprod 0]
  change Real.exp (poissonExp v theta (Function.update x i y)) / _
    = Real.exp (poissonExp v theta (Function.update x i 0)) / _ * _ * _
  have hr : Real.exp ((y : ℝ) * (v i + ∑ j ∈ univ.filter (fun j => j ≠ i), (x j : ℝ) * theta j i))
      = gibbsRate v theta x i ^ y := by
    rw [gibbsRate, ← Real.exp_nat_mul]
  rw [hexp, Real.exp_add, hr, poissonMass, Real.exp_neg]
  have := Real.exp_pos (gibbsRate v theta x i)
  simp only [Nat.factorial_zero, Nat.cast_one, one_mul]
  field_simp

theorem poissonWeight_pos (v : Fin p → ℝ) (theta : Matrix (Fin p) (Fin p) ℝ) (x : Fin p → ℕ) :
    0 < poissonWeight v theta x :=
  div_pos (Real.exp_pos _) (Finset.prod_pos fun a _ => by positivity)

/-- **C181** a visit draws variable `i` from its conditional distribution under the Poisson graphical model:
for symmetric `theta` the weights of the values of variable `i`, divided by their sum, are the Poisson
probabilities of the rate that the code computes. -/
theorem C181_conditional (v : Fin p → ℝ) {theta : Matrix (Fin p) (Fin p) ℝ}
    (hs : ∀ i j, i ≠ j → theta i j = theta j i) (x : Fin p → ℕ) (i : Fin p) :
    ∃ c, 0 < c ∧ HasSum (fun y => poissonWeight v theta (Function.update x i y)) c ∧
      ∀ y, poissonWeight v theta (Function.update x i y) / c = poissonMass (gibbsRate v theta x i) y := by
  set c := poissonWeight v theta (Function.update x i 0) * Real.exp (gibbsRate v theta x i) with hc
  have hpos : 0 < c := mul_pos (poissonWeight_pos _ _ _) (Real.exp_pos _)
  refine ⟨c, hpos, ?_, fun y => ?_⟩
  · have h := (poissonMass_hasSum (gibbsRate v theta x i)).mul_left c
    rw [mul_one] at h
    refine h.congr_fun fun y => ?_
    rw [poissonWeight_update v hs]
  · rw [poissonWeight_update v hs, ← hc]
    field_simp

theorem poissonWeight_balanced (v : Fin p → ℝ) {theta : Matrix (Fin p) (Fin p) ℝ}
    (hs : ∀ i j, i ≠ j → theta i j = theta j i) : Balanced v theta (poissonWeight v theta) := by
  intro x i y
  have h1 := poissonWeight_update v hs x i y
  have h2 := poissonWeight_update v hs x i (x i)
  rw [Function.update_eq_self] at h2
  rw [h1, h2]
  ring

/-- **C181** the distribution of the model is invariant: if the state has weights `w`, then after a visit of
variable `i` it still has. Into the state `y` lead the states that differ from it in variable `i` only. -/
theorem C181_invariant (v : Fin p → ℝ) {theta : Matrix (Fin p) (Fin p) ℝ}
    (hs : ∀ i j, i ≠ j → theta i j = theta j i) (y : Fin p → ℕ) (i : Fin p) :
    HasSum (fun z => poissonWeight v theta (Function.update y i z)
      * poissonMass (gibbsRate v theta (Function.update y i z) i) (y i)) (poissonWeight v theta y) := by
  obtain ⟨c, hc, h1, h2⟩ := C181_conditional v hs y i
  have h := h1.mul_right (poissonMass (gibbsRate v theta y i) (y i))
  have e : c * poissonMass (gibbsRate v theta y i) (y i) = poissonWeight v theta y := by
    rw [← h2 (y i), Function.update_eq_self]
    field_simp
  rw [e] at h
  refine h.congr_fun fun z => ?_
  rw [gibbsRate_update]

/-- **C181** positive weights with the conditional distributions of the sampler exist if and only if `theta` is
symmetric off the diagonal; the diagonal plays no role. -/
theorem C181_balance_iff (v : Fin p → ℝ) (theta : Matrix (Fin p) (Fin p) ℝ) :
    (∃ w : (Fin p → ℕ) → ℝ, (∀ x, 0 < w x) ∧ Balanced v theta w) ↔ ∀ i j, i ≠ j → theta i j = theta j i := by
  constructor
  · rintro ⟨w, hw, hb⟩ i j hij
    -- weights of the four states with 0 or 1 at `i` and `j`
    let st : ℕ → ℕ → Fin p → ℕ := fun a b => Function.update (Function.update 0 i a) j b
    have hi : ∀ a b c, Function.update (st a b) i c = st c b := by
      intro a b c
      simp only [st]
      rw [Function.update_comm hij, Function.update_idem, Function.update_comm hij.symm]
    have hj : ∀ a b c, Function.update (st a b) j c = st a c := by
      intro a b c
      simp only [st]
      rw [Function.update_idem]
    have hst : ∀ a b k, (st a b k : ℝ) = if k = j then (b : ℝ) else if k = i then (a : ℝ) else 0 := by
      intro a b k
      simp only [st, Function.update_apply]
      split_ifs <;> simp
    have ri : ∀ a b, gibbsRate v theta (st a b) i = Real.exp (v i + b * theta j i) := by
      intro a b
      unfold gibbsRate
      congr 2
      rw [Finset.sum_filter, Finset.sum_eq_single j]
      · rw [if_pos hij.symm, hst, if_pos rfl]
      · intro k _ hk
        split_ifs with h
        · rw [hst, if_neg hk, if_neg h, zero_mul]
        · rfl
      · simp
    have rj : ∀ a b, gibbsRate v theta (st a b) j = Real.exp (v j + a * theta i j) := by
      intro a b
      unfold gibbsRate
      congr 2
      rw [Finset.sum_filter, Finset.sum_eq_single i]
      · rw [if_pos hij, hst, if_neg hij, if_pos rfl]
      · intro k _ hk
        split_ifs with h
        · rw [hst, if_neg h, if_neg hk, zero_mul]
        · rfl
      · simp
    have vi : ∀ a b, st a b i = a := by intro a b; simp [st, hij]
    have vj : ∀ a b, st a b j = b := by intro a b; simp [st]
    have m1 : ∀ r, poissonMass r 1 = r * poissonMass r 0 := by intro r; simp [poissonMass]; ring
    have bi : ∀ b, w (st 1 b) = Real.exp (v i + b * theta j i) * w (st 0 b) := by
      intro b
      have h := hb (st 0 b) i 1
      rw [hi, vi, ri, m1] at h
      have hp := (poissonMass_pos (Real.exp_pos (v i + b * theta j i)) 0).ne'
      refine mul_right_cancel₀ hp ?_
      rw [h]; ring
    have bj : ∀ a, w (st a 1) = Real.exp (v j + a * theta i j) * w (st a 0) := by
      intro a
      have h := hb (st a 0) j 1
      rw [hj, vj, rj, m1] at h
      have hp := (poissonMass_pos (Real.exp_pos (v j + a * theta i j)) 0).ne'
      refine mul_right_cancel₀ hp ?_
      rw [h]; ring
    have h11 := bi 1
    rw [bj 0] at h11
    have h11' := bj 1
    rw [bi 0] at h11'
    rw [h11] at h11'
    have hw0 := (hw (st 0 0)).ne'
    have e : Real.exp (v i + (1 : ℕ) * theta j i) * Real.exp (v j + (0 : ℕ) * theta i j)
        = Real.exp (v j + (1 : ℕ) * theta i j) * Real.exp (v i + (0 : ℕ) * theta j i) := by
      refine mul_right_cancel₀ hw0 ?_
      rw [mul_assoc, mul_assoc]
      exact h11'
    rw [← Real.exp_add, ← Real.exp_add] at e
    have := Real.exp_injective e
    push_cast at this
    linarith
  · intro hs
    exact ⟨poissonWeight v theta, poissonWeight_pos v theta, poissonWeight_balanced v hs⟩


theorem poissonWeight_step (v : Fin p → ℝ) {theta : Matrix (Fin p) (Fin p) ℝ}
    (hs : ∀ i j, i ≠ j → theta i j = theta j i) (x : Fin p → ℕ) (i : Fin p) (y : ℕ) :
    poissonWeight v theta (Function.update x i y)
      = poissonWeight v theta (Function.update x i 0) * (gibbsRate v theta x i ^ y / y.factorial) := by
  rw [poissonWeight_update v hs, poissonMass, Real.exp_neg]
  have := Real.exp_pos (gibbsRate v theta x i)
  field_simp

/-- **C181 is false for attracting variables**: as soon as one pair has a positive coefficient (for instance
the graphs of `poisson_theta_generator`), the weights are not summable: there is no distribution with the
conditional distributions of the sampler, and nothing for its samples to converge to. -/
theorem C181_no_distribution_false (v : Fin p → ℝ) {theta : Matrix (Fin p) (Fin p) ℝ}
    (hs : ∀ i j, i ≠ j → theta i j = theta j i) {i j : Fin p} (hij : i ≠ j) (hpos : 0 < theta i j) :
    ¬ Summable (poissonWeight v theta) := by
  intro hsum
  let st : ℕ → Fin p → ℕ := fun k => Function.update (Function.update 0 i k) j k
  have hinj : Function.Injective st := by
    intro a b h
    have := congrFun h j
    simpa [st] using this
  have hst : Summable (fun k => poissonWeight v theta (st k)) := hsum.comp_injective hinj
  have hlim := hst.tendsto_atTop_zero
  have hval : ∀ k, poissonWeight v theta (st k)
      = Real.exp ((v i + v j) * k + theta i j * k * k) / ((k.factorial : ℝ) * k.factorial) := by
    intro k
    have r0 : gibbsRate v theta 0 i = Real.exp (v i) := by simp [gibbsRate]
    have r1 : gibbsRate v theta (Function.update 0 i k) j = Real.exp (v j + k * theta i j) := by
      unfold gibbsRate
      congr 2
      rw [Finset.sum_filter, Finset.sum_eq_single i]
      · rw [if_pos hij]; simp
      · intro b _ hb
        split_ifs
        · simp [hb]
        · rfl
      · simp
    have h0 : poissonWeight v theta 0 = 1 := by simp [poissonWeight]
    simp only [st]
    rw [poissonWeight_step v hs, r1, Function.update_eq_self_iff.mpr (by simp [hij.symm] : (0 : ℕ) = _),
      poissonWeight_step v hs, r0, Function.update_eq_self_iff.mpr (by simp : (0 : ℕ) = _), h0,
      ← Real.exp_nat_mul, ← Real.exp_nat_mul, one_mul, div_mul_div_comm, ← Real.exp_add]
    congr 2
    ring
  have hge : ∀ᶠ k : ℕ in Filter.atTop, (1 : ℝ) ≤ poissonWeight v theta (st k) := by
    have hlog := Real.isLittleO_log_id_atTop.bound (show (0 : ℝ) < theta i j / 4 by linarith)
    have hlog' := (tendsto_natCast_atTop_atTop (R := ℝ)).eventually hlog
    have hbig : ∀ᶠ k : ℕ in Filter.atTop, -(v i + v j) * 2 / theta i j ≤ k := by
      obtain ⟨m, hm⟩ := exists_nat_ge (-(v i + v j) * 2 / theta i j)
      filter_upwards [Filter.eventually_ge_atTop m] with k hk
      exact hm.trans (by exact_mod_cast hk)
    filter_upwards [hlog', hbig, Filter.eventually_ge_atTop 1] with k h1 h2 h3
    have hk : (1 : ℝ) ≤ k := by exact_mod_cast h3
    have hk0 : (0 : ℝ) < k := by linarith
    rw [hval, le_div_iff₀ (by positivity), one_mul]
    have hf : (k.factorial : ℝ) ≤ Real.exp (k * Real.log k) := by
      have : (k.factorial : ℝ) ≤ (k : ℝ) ^ k := by exact_mod_cast Nat.factorial_le_pow k
      refine this.trans (le_of_eq ?_)
      rw [Real.exp_nat_mul, Real.exp_log hk0]
    have hlog2 : Real.log k ≤ theta i j / 4 * k := by
      simp only [id, Real.norm_eq_abs] at h1
      rw [abs_of_pos hk0] at h1
      exact (le_abs_self _).trans h1
    have h2' : -(v i + v j) * 2 ≤ k * theta i j := by
      rwa [div_le_iff₀ hpos] at h2
    calc (k.factorial : ℝ) * k.factorial ≤ Real.exp (k * Real.log k) * Real.exp (k * Real.log k) :=
          mul_le_mul hf hf (by positivity) (Real.exp_pos _).le
      _ = Real.exp (2 * (k * Real.log k)) := by rw [← Real.exp_add]; ring_nf
      _ ≤ _ := by
        apply Real.exp_le_exp.mpr
        nlinarith
  have hlt : ∀ᶠ k : ℕ in Filter.atTop, poissonWeight v theta (st k) < 1 := hlim.eventually_lt_const one_pos
  obtain ⟨k, h1, h2⟩ := (hge.and hlt).exists
  linarith

/-- The chain of a single sample: the variables are visited in order, each redrawn at the rate given by the
current values of the others. -/
noncomputable def rowVisits (v : Fin p → ℝ) (theta : Matrix (Fin p) (Fin p) ℝ) (draw : Fin p → ℝ → ℕ) :
    List (Fin p) → (Fin p → ℕ) → (Fin p → ℕ)
  | [], x => x
  | i :: l, x => rowVisits v theta draw l (Function.update x i (draw i (gibbsRate v theta x i)))

theorem gibbsVisits_rows (L : ℝ) (v : Fin p → ℝ) (theta : Matrix (Fin p) (Fin p) ℝ)
    (draw : Fin p → Fin n → ℝ → ℕ) (l : List (Fin p)) (X X' : Fin n → Fin p → ℕ)
    (h : gibbsVisits L v theta draw l X = .ok X') (s : Fin n) :
    X' s = rowVisits v theta (fun i => draw i s) l (X s) := by
  induction l generalizing X with
  | nil =>
    simp only [gibbsVisits] at h
    cases h
    rfl
  | cons i l ih =>
    simp only [gibbsVisits] at h
    cases hv : gibbsVisit L v theta (draw i) X i with
    | error e => rw [hv] at h; cases h
    | ok Y =>
      rw [hv] at h
      rw [ih Y h]
      unfold gibbsVisit at hv
      split_ifs at hv
      cases hv
      rfl

/-- **C181** the samples evolve independently of each other: if the call returns, row `s` of the result is the
result of `max_iter` rounds of the chain of a single sample started in row `s`, with the draws made for row `s`. -/
theorem C181_rows (L : ℝ) (theta : Matrix (Fin p) (Fin p) ℝ) (variances : Option (List ℝ))
    (draw : ℕ → Fin p → Fin n → ℝ → ℕ) (X0 : Fin n → Fin p → ℕ) (maxIter : ℕ) {X : Fin n → Fin p → ℕ}
    (h : poissonGibbs L theta variances draw X0 maxIter = .ok X) (s : Fin n) :
    X s = (List.range maxIter).foldl
      (fun x k => rowVisits (gibbsVariances variances) theta (fun i => draw k i s) (List.finRange p) x) (X0 s) := by
  unfold poissonGibbs at h
  split_ifs at h
  clear * - h
  induction maxIter generalizing X with
  | zero =>
    simp only [gibbsPasses] at h
    cases h
    rfl
  | succ k ih =>
    simp only [gibbsPasses] at h
    cases hk : gibbsPasses L (gibbsVariances variances) theta draw X0 k with
    | error e => rw [hk] at h; cases h
    | ok Y =>
      rw [hk] at h
      rw [List.range_succ, List.foldl_append, List.foldl_cons, List.foldl_nil, ← ih hk]
      exact gibbsVisits_rows _ _ _ _ _ _ _ h s

/-- **C181 is false for small or attracting graphs**: one variable raises IndexError, and for every limit of
`np.random.poisson` and every pair with a positive coefficient there is a starting state from which the call
raises ValueError in its first pass, whatever it draws later. All starting states have positive probability. -/
theorem C181_raises_false (L : ℝ) (variances : Option (List ℝ)) (hn : 0 < n) (maxIter : ℕ) (hm : maxIter ≠ 0) :
    (∀ (theta : Matrix (Fin 1) (Fin 1) ℝ) (draw : ℕ → Fin 1 → Fin n → ℝ → ℕ) (X0 : Fin n → Fin 1 → ℕ),
      poissonGibbs L theta variances draw X0 maxIter = .error .index) ∧
    (∀ theta : Matrix (Fin 2) (Fin 2) ℝ, 0 < theta 1 0 → ∃ X0 : Fin n → Fin 2 → ℕ,
      ∀ draw : ℕ → Fin 2 → Fin n → ℝ → ℕ, poissonGibbs L theta variances draw X0 maxIter = .error .value) := by
  refine ⟨fun theta draw X0 => by simp [poissonGibbs, hm], fun theta hpos => ?_⟩
  set v : Fin 2 → ℝ := gibbsVariances variances with hv
  obtain ⟨m, hm'⟩ := exists_nat_ge ((L - v 0) / theta 1 0)
  have hrate : L < gibbsRate v theta (fun _ => m) 0 := by
    have e : gibbsRate v theta (fun _ => m) 0 = Real.exp (v 0 + m * theta 1 0) := by
      unfold gibbsRate
      congr 2
      rw [Finset.sum_filter, Fin.sum_univ_two]
      simp
    rw [e]
    rw [div_le_iff₀ hpos] at hm'
    have := Real.add_one_le_exp (v 0 + m * theta 1 0)
    linarith
  refine ⟨fun _ _ => m, fun draw => ?_⟩
  have hfirst : gibbsPasses L v theta draw (fun _ _ => m) 1 = .error .value := by
    simp only [gibbsPasses]
    rw [show List.finRange 2 = [0, 1] from rfl]
    simp only [gibbsVisits]
    have : gibbsVisit L v theta (draw 0 0) (fun _ _ => m) 0 = .error .value := by
      unfold gibbsVisit
      rw [if_pos ⟨⟨0, hn⟩, hrate⟩]
    rw [this]
  have hall : ∀ k, gibbsPasses L v theta draw (fun _ _ => m) (k + 1) = .error .value := by
    intro k
    induction k with
    | zero => exact hfirst
    | succ k ih => rw [gibbsPasses, ih]
  unfold poissonGibbs
  rw [if_neg (by simp), ← hv]
  obtain ⟨k, rfl⟩ := Nat.exists_eq_succ_of_ne_zero hm
  exact hall k

/-- **C181 is false for given variances of another size**: they are replaced by zeros without a message. -/
theorem C181_variances_false (L : ℝ) (theta : Matrix (Fin p) (Fin p) ℝ) (l : List ℝ) (hl : l.length ≠ p)
    (draw : ℕ → Fin p → Fin n → ℝ → ℕ) (X0 : Fin n → Fin p → ℕ) (maxIter : ℕ) :
    poissonGibbs L theta (some l) draw X0 maxIter = poissonGibbs L theta none draw X0 maxIter := by
  simp [poissonGibbs, gibbsVariances, hl]

/-- Two variables with a negative coefficient: the hypotheses of the positive statements hold, and a call that
returns. -/
example : ∃ theta : Matrix (Fin 2) (Fin 2) ℝ, (∀ i j, i ≠ j → theta i j = theta j i) ∧ theta 1 0 < 0 ∧
    ∃ X : Fin 1 → Fin 2 → ℕ, poissonGibbs 2 theta none (fun _ _ _ _ => 3) (fun _ _ => 1) 1 = .ok X ∧
      X 0 = ![3, 3] := by
  refine ⟨!![0, -1; -1, 0], ?_, by norm_num, fun _ => ![3, 3], ?_, rfl⟩
  · intro i j _
    fin_cases i <;> fin_cases j <;> rfl
  · have hr : ∀ (x : Fin 2 → ℕ) i, gibbsRate (gibbsVariances none) !![0, -1; -1, 0] x i ≤ 1 := by
      intro x i
      unfold gibbsRate
      rw [Real.exp_le_one_iff]
      have : ∑ j ∈ univ.filter (fun j => j ≠ i), (x j : ℝ) * (!![0, -1; -1, 0] : Matrix (Fin 2) (Fin 2) ℝ) j i ≤ 0 := by
        refine Finset.sum_nonpos fun j _ => ?_
        have hx : (0 : ℝ) ≤ x j := Nat.cast_nonneg _
        fin_cases i <;> fin_cases j <;> simp
      simpa [gibbsVariances] using this
    have hv : ∀ (X : Fin 1 → Fin 2 → ℕ) i, gibbsVisit 2 (gibbsVariances none) !![0, -1; -1, 0] (fun _ _ => 3) X i
        = .ok fun s => Function.update (X s) i 3 := by
      intro X i
      unfold gibbsVisit
      rw [if_neg]
      rintro ⟨s, hs⟩
      have := hr (X s) i
      linarith
    unfold poissonGibbs
    rw [if_neg (by simp)]
    simp only [gibbsPasses, show List.finRange 2 = [0, 1] from rfl, gibbsVisits, hv]
    congr 1
    funext s k
    fin_cases k <;> simp

end Verif.Props
