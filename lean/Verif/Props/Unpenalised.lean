import Verif.Props.Adaptive

/-! Property theorem C201 (the graphical lasso without a sparsity penalty). -/

namespace Verif.Props

open Verif.Model Verif.Spec Verif.Lemmas Matrix Filter Topology

set_option autoImplicit false
set_option linter.unusedSectionVars false

variable {n : Type*} [Fintype n] [DecidableEq n]

theorem froNorm_zero' : froNorm (0 : Matrix n n ℝ) = 0 := by simp [froNorm]

theorem glZ_zero (r : ℝ) (K : Matrix n n ℝ) : glZ 0 r K 0 = K := by
  unfold glZ
  ext i j
  rw [softOff_apply, zero_div, ite_self, softScalar_zero_right, add_zero]

/-- One pass from a state without multipliers. -/
theorem free_body (eigh : Eigh n) {a : GLArgs n} (hal : a.alpha = 0) (hor : a.overRelax = 1) (it : ℕ) {s : GLState n}
    (hU : s.U = 0) :
    let K := glK eigh a.empCov s.rho s.Z 0
    (glBody eigh a it s).1.Z = K ∧ (glBody eigh a it s).1.U = 0 ∧ (glBody eigh a it s).1.Zold = K ∧
      (glBody eigh a it s).2.1.rnorm = 0 ∧ (glBody eigh a it s).2.1.snorm = s.rho * froNorm (K - s.Zold) ∧
      (glBody eigh a it s).1.rho = if (glBody eigh a it s).2.2 = true then s.rho
        else updateRho a.rhoOptions s.rho 0 (s.rho * froNorm (K - s.Zold)) := by
  intro K
  unfold glBody
  simp only [hal, hor, glKhat_one, hU, glZ_zero, sub_self, froNorm_zero', add_zero]
  refine ⟨?_, ?_, ?_, trivial, rfl, ?_⟩
  · split <;> rfl
  · split
    · rfl
    · simp
  · split <;> rfl
  · split <;> rfl

/-- The options of the theorems below: factors and threshold that make sense (the defaults do). -/
structure SaneRho (o : RhoOptions) : Prop where
  mu : 0 ≤ o.mu
  inc : 0 < o.tauInc
  dec : 1 < o.tauDec

theorem updateRho_free {o : RhoOptions} (ho : SaneRho o) {r s : ℝ} (hr : 0 < r) (hs : 0 ≤ s) :
    0 < updateRho o r 0 s ∧ updateRho o r 0 s ≤ r ∧ (0 < s → updateRho o r 0 s = r / o.tauDec) := by
  have h0 : ¬ ((0 : ℝ) > o.mu * s) := not_lt.mpr (mul_nonneg ho.mu hs)
  have hd : 0 < o.tauDec := lt_trans one_pos ho.dec
  have hdiv : r / o.tauDec ≤ r := div_le_self hr.le ho.dec.le
  unfold updateRho
  rw [if_neg h0, mul_zero]
  refine ⟨?_, ?_, fun h => ?_⟩
  · split
    · positivity
    · exact hr
  · split
    · exact hdiv
    · exact le_rfl
  · rw [if_pos h]

/-- The run as a sequence of states. -/
noncomputable abbrev fst_ (eigh : Eigh n) (a : GLArgs n) (Z0 : Matrix n n ℝ) (rho : ℝ) (k : ℕ) : GLState n :=
  stateAt (glBody eigh a) (glInit Z0 rho) k

section

variable {eigh : Eigh n} {a : GLArgs n} {Z0 : Matrix n n ℝ} {rho : ℝ}

theorem free_state (hal : a.alpha = 0) (hor : a.overRelax = 1) (ho : SaneRho a.rhoOptions) (hr : 0 < rho) (k : ℕ) :
    (fst_ eigh a Z0 rho k).U = 0 ∧ 0 < (fst_ eigh a Z0 rho k).rho ∧ (fst_ eigh a Z0 rho k).rho ≤ rho := by
  induction k with
  | zero => exact ⟨rfl, hr, le_rfl⟩
  | succ k ih =>
    obtain ⟨h1, h2, h3⟩ := ih
    obtain ⟨-, b2, -, -, -, b6⟩ := free_body eigh hal hor k h1
    have hu := updateRho_free ho h2 (s := (fst_ eigh a Z0 rho k).rho *
      froNorm (glK eigh a.empCov (fst_ eigh a Z0 rho k).rho (fst_ eigh a Z0 rho k).Z 0 - (fst_ eigh a Z0 rho k).Zold))
      (mul_nonneg h2.le (froNorm_nonneg _))
    refine ⟨b2, ?_, ?_⟩
    · change 0 < (glBody eigh a k (fst_ eigh a Z0 rho k)).1.rho
      rw [b6]
      split
      · exact h2
      · exact hu.1
    · change (glBody eigh a k (fst_ eigh a Z0 rho k)).1.rho ≤ rho
      rw [b6]
      split
      · exact h3
      · exact hu.2.1.trans h3

theorem free_next (hal : a.alpha = 0) (hor : a.overRelax = 1) (ho : SaneRho a.rhoOptions) (hr : 0 < rho) (k : ℕ) :
    (fst_ eigh a Z0 rho (k + 1)).Z = glK eigh a.empCov (fst_ eigh a Z0 rho k).rho (fst_ eigh a Z0 rho k).Z 0 ∧
      (fst_ eigh a Z0 rho (k + 1)).Zold = (fst_ eigh a Z0 rho (k + 1)).Z := by
  obtain ⟨h1, -, -⟩ := free_state (eigh := eigh) (Z0 := Z0) hal hor ho hr k
  obtain ⟨b1, -, b3, -⟩ := free_body eigh hal hor k h1
  exact ⟨b1, b3.trans b1.symm⟩

theorem inv_inv_pd {S : Matrix n n ℝ} (hS : S.PosDef) : (S⁻¹)⁻¹ = S :=
  nonsing_inv_nonsing_inv S (isUnit_iff_ne_zero.mpr hS.det_pos.ne')

/-- One pass is a proximal step: the distance to the inverse contracts. -/
theorem free_step (he : IsEighOracle eigh) {S : Matrix n n ℝ} (hS : S.PosDef) {r : ℝ} (hr : 0 < r) (Z : Matrix n n ℝ) :
    frobSq (glK eigh S r Z 0 - S⁻¹) + 2 / r * frobInner (S - (glK eigh S r Z 0)⁻¹) (glK eigh S r Z 0 - S⁻¹)
      ≤ frobSq (symmetrize Z - S⁻¹) ∧
    S - (glK eigh S r Z 0)⁻¹ = r • (symmetrize Z - glK eigh S r Z 0) := by
  have hinv := glK_inv he hS.isSymm' hr Z 0
  rw [sub_zero] at hinv
  set K := glK eigh S r Z 0 with hK
  have hd : S - K⁻¹ = r • (symmetrize Z - K) := by rw [hinv, smul_sub]; abel
  refine ⟨?_, hd⟩
  rw [hd, frobInner_smul_left]
  have e : symmetrize Z - S⁻¹ = (symmetrize Z - K) + (K - S⁻¹) := by abel
  rw [e, frobSq_add]
  have h1 := frobSq_nonneg (symmetrize Z - K)
  have h2 : 2 / r * (r * frobInner (symmetrize Z - K) (K - S⁻¹)) = 2 * frobInner (symmetrize Z - K) (K - S⁻¹) := by
    field_simp
  rw [h2]
  linarith

/-- The squared distance of the start to the inverse covariance. -/
noncomputable def freeDist (S Z0 : Matrix n n ℝ) : ℝ := frobSq (symmetrize Z0 - S⁻¹)

/-- The contraction factor: it depends on the covariance, the start and the first penalty parameter. -/
noncomputable def freeRate (S Z0 : Matrix n n ℝ) (rho : ℝ) : ℝ :=
  (1 + 2 / (rho * ((Fintype.card n + 2 * freeDist S Z0 + 2 * frobSq S⁻¹) * trace S⁻¹)))⁻¹

theorem freeRate_mem [Nonempty n] {S : Matrix n n ℝ} (hS : S.PosDef) (Z0 : Matrix n n ℝ) (hr : 0 < rho) :
    0 < freeRate S Z0 rho ∧ freeRate S Z0 rho < 1 := by
  have h1 : (0 : ℝ) < Fintype.card n := by exact_mod_cast Fintype.card_pos
  have h2 : 0 ≤ freeDist S Z0 := frobSq_nonneg _
  have h3 := frobSq_nonneg S⁻¹
  have h4 : 0 < trace S⁻¹ := hS.inv.trace_pos
  have h5 : 0 < 2 / (rho * ((Fintype.card n + 2 * freeDist S Z0 + 2 * frobSq S⁻¹) * trace S⁻¹)) := by positivity
  unfold freeRate
  exact ⟨by positivity, inv_lt_one_of_one_lt₀ (by linarith)⟩

theorem free_contract [Nonempty n] (he : IsEighOracle eigh) {S : Matrix n n ℝ} (hS : S.PosDef) {r : ℝ} (hr0 : 0 < r)
    (hr : r ≤ rho) {Z : Matrix n n ℝ} (hZ : frobSq (symmetrize Z - S⁻¹) ≤ freeDist S Z0) :
    frobSq (glK eigh S r Z 0 - S⁻¹) ≤ freeRate S Z0 rho * frobSq (symmetrize Z - S⁻¹) := by
  obtain ⟨h1, -⟩ := free_step he hS hr0 Z
  set K := glK eigh S r Z 0 with hKd
  have hK : K.PosDef := glK_posDef he hS.isSymm' hr0 Z 0
  have hX : (S⁻¹).PosDef := hS.inv
  have h2 := inv_strict_mono hK hX
  have h3 := inv_mono hK hX
  rw [inv_inv_pd hS] at h2 h3
  set g := frobInner (S - K⁻¹) (K - S⁻¹) with hg
  have hcard : (0 : ℝ) < Fintype.card n := by exact_mod_cast Fintype.card_pos
  have hD : 0 ≤ freeDist S Z0 := frobSq_nonneg _
  have hX2 := frobSq_nonneg S⁻¹
  have htX : 0 < trace S⁻¹ := hX.trace_pos
  have hgr : 0 ≤ 2 / r * g := by positivity
  have htK : trace K ≤ Fintype.card n + 2 * freeDist S Z0 + 2 * frobSq S⁻¹ := by
    have h4 := trace_le_frob K
    have h5 := frobSq_add_le (K - S⁻¹) S⁻¹
    rw [sub_add_cancel] at h5
    linarith
  set T : ℝ := Fintype.card n + 2 * freeDist S Z0 + 2 * frobSq S⁻¹ with hT
  have hT0 : 0 < T := by positivity
  have hrho : 0 < rho := hr0.trans_le hr
  have h6 : frobSq (K - S⁻¹) ≤ T * trace S⁻¹ * g :=
    h2.trans (mul_le_mul_of_nonneg_right (mul_le_mul_of_nonneg_right htK htX.le) h3)
  have h7 : 2 / (rho * (T * trace S⁻¹)) * frobSq (K - S⁻¹) ≤ 2 / r * g := by
    have h8 : 2 / (rho * (T * trace S⁻¹)) * frobSq (K - S⁻¹) ≤ 2 / (rho * (T * trace S⁻¹)) * (T * trace S⁻¹ * g) :=
      mul_le_mul_of_nonneg_left h6 (by positivity)
    have h9 : 2 / (rho * (T * trace S⁻¹)) * (T * trace S⁻¹ * g) = 2 / rho * g := by field_simp
    have h10 : 2 / rho * g ≤ 2 / r * g :=
      mul_le_mul_of_nonneg_right (div_le_div_of_nonneg_left (by norm_num) hr0 hr) h3
    linarith
  have hpos : 0 < 1 + 2 / (rho * (T * trace S⁻¹)) := by positivity
  have h11 : (1 + 2 / (rho * (T * trace S⁻¹))) * frobSq (K - S⁻¹) ≤ frobSq (symmetrize Z - S⁻¹) := by linarith
  unfold freeRate
  rw [inv_mul_eq_div, le_div_iff₀ hpos, mul_comm]
  exact h11

theorem free_rate [Nonempty n] (he : IsEighOracle eigh) (hS : a.empCov.PosDef) (hal : a.alpha = 0)
    (hor : a.overRelax = 1) (ho : SaneRho a.rhoOptions) (hr : 0 < rho) (k : ℕ) :
    frobSq (symmetrize (fst_ eigh a Z0 rho k).Z - a.empCov⁻¹)
      ≤ freeRate a.empCov Z0 rho ^ k * freeDist a.empCov Z0 := by
  obtain ⟨q0, q1⟩ := freeRate_mem hS Z0 hr
  have hD : 0 ≤ freeDist a.empCov Z0 := frobSq_nonneg _
  induction k with
  | zero => rw [pow_zero, one_mul]; exact le_rfl
  | succ k ih =>
    obtain ⟨-, s2, s3⟩ := free_state (eigh := eigh) (Z0 := Z0) hal hor ho hr k
    have hpd := glK_posDef he hS.isSymm' s2 (fst_ eigh a Z0 rho k).Z 0
    rw [(free_next hal hor ho hr k).1, symmetrize_of_isSymm hpd.isSymm']
    have hle : freeRate a.empCov Z0 rho ^ k * freeDist a.empCov Z0 ≤ freeDist a.empCov Z0 :=
      mul_le_of_le_one_left hD (pow_le_one₀ q0.le q1.le)
    refine (free_contract he hS s2 s3 (ih.trans hle)).trans ?_
    rw [pow_succ', mul_assoc]
    exact mul_le_mul_of_nonneg_left ih q0.le

theorem free_Z_pd (he : IsEighOracle eigh) (hS : a.empCov.PosDef) (hal : a.alpha = 0)
    (hor : a.overRelax = 1) (ho : SaneRho a.rhoOptions) (hr : 0 < rho) (k : ℕ) :
    (fst_ eigh a Z0 rho (k + 1)).Z.PosDef := by
  rw [(free_next hal hor ho hr k).1]
  exact glK_posDef he hS.isSymm' (free_state hal hor ho hr k).2.1 _ _

theorem free_rate' [Nonempty n] (he : IsEighOracle eigh) (hS : a.empCov.PosDef) (hal : a.alpha = 0)
    (hor : a.overRelax = 1) (ho : SaneRho a.rhoOptions) (hr : 0 < rho) (k : ℕ) :
    frobSq ((fst_ eigh a Z0 rho (k + 1)).Z - a.empCov⁻¹)
      ≤ freeRate a.empCov Z0 rho ^ (k + 1) * freeDist a.empCov Z0 := by
  have h := free_rate (Z0 := Z0) he hS hal hor ho hr (k + 1)
  rwa [symmetrize_of_isSymm (free_Z_pd he hS hal hor ho hr k).isSymm'] at h

theorem frobSq_zero_iff_eq {A B : Matrix n n ℝ} : frobSq (A - B) = 0 ↔ A = B := by
  rw [frobSq_eq_zero_iff, sub_eq_zero]

/-- A pass that does not move was at the inverse already, and so was every earlier one. -/
theorem free_fixed (he : IsEighOracle eigh) (hS : a.empCov.PosDef) (hal : a.alpha = 0)
    (hor : a.overRelax = 1) (ho : SaneRho a.rhoOptions) (hr : 0 < rho) (k : ℕ)
    (h : (fst_ eigh a Z0 rho (k + 1)).Z = a.empCov⁻¹) : symmetrize (fst_ eigh a Z0 rho k).Z = a.empCov⁻¹ := by
  have s2 := (free_state (eigh := eigh) (Z0 := Z0) hal hor ho hr k).2.1
  obtain ⟨-, h2⟩ := free_step he hS s2 (fst_ eigh a Z0 rho k).Z
  rw [← (free_next hal hor ho hr k).1, h, inv_inv_pd hS, sub_self] at h2
  have h3 := (smul_eq_zero.mp h2.symm).resolve_left s2.ne'
  exact sub_eq_zero.mp h3

theorem free_exact (he : IsEighOracle eigh) (hS : a.empCov.PosDef) (hal : a.alpha = 0)
    (hor : a.overRelax = 1) (ho : SaneRho a.rhoOptions) (hr : 0 < rho) (k : ℕ)
    (h : (fst_ eigh a Z0 rho (k + 1)).Z = symmetrize (fst_ eigh a Z0 rho k).Z) :
    (fst_ eigh a Z0 rho (k + 1)).Z = a.empCov⁻¹ := by
  have s2 := (free_state (eigh := eigh) (Z0 := Z0) hal hor ho hr k).2.1
  obtain ⟨-, h2⟩ := free_step he hS s2 (fst_ eigh a Z0 rho k).Z
  rw [← (free_next hal hor ho hr k).1, h, sub_self, smul_zero] at h2
  rw [h, sub_eq_zero.mp h2]
  rw [← h, inv_inv_pd (free_Z_pd he hS hal hor ho hr k)]

theorem free_all (he : IsEighOracle eigh) (hS : a.empCov.PosDef) (hal : a.alpha = 0)
    (hor : a.overRelax = 1) (ho : SaneRho a.rhoOptions) (hr : 0 < rho) (k : ℕ)
    (h : (fst_ eigh a Z0 rho (k + 1)).Z = a.empCov⁻¹) : symmetrize Z0 = a.empCov⁻¹ := by
  induction k with
  | zero => exact free_fixed he hS hal hor ho hr 0 h
  | succ k ih =>
    have h1 := free_fixed he hS hal hor ho hr (k + 1) h
    rw [symmetrize_of_isSymm (free_Z_pd he hS hal hor ho hr k).isSymm'] at h1
    exact ih h1

/-- No movement between two passes, only at the inverse. -/
theorem free_move [Nonempty n] (he : IsEighOracle eigh) (hS : a.empCov.PosDef) (hal : a.alpha = 0)
    (hor : a.overRelax = 1) (ho : SaneRho a.rhoOptions) (hr : 0 < rho) (k : ℕ)
    (h : (fst_ eigh a Z0 rho (k + 1)).Z = (fst_ eigh a Z0 rho k).Zold) :
    (fst_ eigh a Z0 rho (k + 1)).Z = a.empCov⁻¹ := by
  cases k with
  | zero =>
    exfalso
    have hpd := free_Z_pd (Z0 := Z0) he hS hal hor ho hr 0
    rw [h] at hpd
    have hz : (fst_ eigh a Z0 rho 0).Zold = 0 := rfl
    rw [hz] at hpd
    exact absurd hpd.det_pos (by simp)
  | succ k =>
    rw [(free_next hal hor ho hr k).2] at h
    refine free_exact he hS hal hor ho hr (k + 1) ?_
    rw [symmetrize_of_isSymm (free_Z_pd he hS hal hor ho hr k).isSymm']
    exact h

theorem free_stop (hal : a.alpha = 0) (hor : a.overRelax = 1) (ho : SaneRho a.rhoOptions) (hr : 0 < rho) (k : ℕ)
    (h0 : a.tol = 0) (h1 : a.rtol = 0) (h : Lemmas.stopAt (glBody eigh a) (glInit Z0 rho) k = true) :
    (fst_ eigh a Z0 rho (k + 1)).Z = (fst_ eigh a Z0 rho k).Zold := by
  obtain ⟨s1, s2, -⟩ := free_state (eigh := eigh) (Z0 := Z0) hal hor ho hr k
  change (glBody eigh a k (fst_ eigh a Z0 rho k)).2.2 = true at h
  unfold glBody at h
  simp only [decide_eq_true_eq, h0, h1, mul_zero, zero_mul, add_zero, hal, hor, glKhat_one, s1, glZ_zero] at h
  rw [(free_next hal hor ho hr k).1]
  exact sub_eq_zero.mp (froNorm_eq_zero' (le_antisymm (nonpos_of_mul_nonpos_right h.2 s2) (froNorm_nonneg _)))

/-- C201 (rate): without a sparsity penalty (`alpha = 0`), for a positive definite covariance, from every start and with
the adaptive rule, the result of every call with `tol = rtol = 0` and `max_iter = m ≥ 1` is positive definite and its
squared distance to the inverse covariance is at most `q ^ m` times that of the start, with a `q < 1` fixed in advance. -/
theorem C201_inverse_covariance [Nonempty n] (he : IsEighOracle eigh) (hS : a.empCov.PosDef) (hal : a.alpha = 0)
    (hor : a.overRelax = 1) (ho : SaneRho a.rhoOptions) (hr : 0 < rho) (h0 : a.tol = 0) (h1 : a.rtol = 0) :
    ∃ q : ℝ, 0 < q ∧ q < 1 ∧ ∀ m, 1 ≤ m → ∀ rh rn, ∃ Z C h it w,
      graphicalLasso eigh a Z0 rho m rh rn = .ok Z C h it w ∧ Z.PosDef ∧
        frobSq (Z - a.empCov⁻¹) ≤ q ^ m * frobSq (symmetrize Z0 - a.empCov⁻¹) := by
  obtain ⟨q0, q1⟩ := freeRate_mem hS Z0 hr
  refine ⟨_, q0, q1, fun m hm rh rn => ?_⟩
  obtain ⟨C, h, it, hcall⟩ := glCall_shape eigh a Z0 rho hm rh rn
  refine ⟨_, C, h, it, _, hcall, ?_⟩
  have hD : 0 ≤ frobSq (symmetrize Z0 - a.empCov⁻¹) := frobSq_nonneg _
  rcases runLoop_spec (glBody eigh a) m (glInit Z0 rho) with ⟨j, -, -, hs, e⟩ | ⟨-, e⟩
  · rw [e]
    refine ⟨free_Z_pd he hS hal hor ho hr j, ?_⟩
    have hx := free_move (Z0 := Z0) he hS hal hor ho hr j (free_stop hal hor ho hr j h0 h1 hs)
    change frobSq ((fst_ eigh a Z0 rho (j + 1)).Z - a.empCov⁻¹) ≤ _
    rw [hx, frobSq_zero_iff_eq.mpr rfl]
    exact mul_nonneg (pow_nonneg q0.le m) hD
  · rw [e]
    obtain ⟨k, rfl⟩ : ∃ k, m = k + 1 := ⟨m - 1, by omega⟩
    exact ⟨free_Z_pd he hS hal hor ho hr k, free_rate' he hS hal hor ho hr k⟩

/-- C201 (the penalty parameter never settles): in the same calls, unless the symmetrised start is the inverse covariance
itself, the residual `rnorm` is zero at every pass and the adaptive rule divides the penalty parameter by `tau_dec` at
every single pass. -/
theorem C201_penalty_vanishes [Nonempty n] (he : IsEighOracle eigh) (hS : a.empCov.PosDef) (hal : a.alpha = 0)
    (hor : a.overRelax = 1) (ho : SaneRho a.rhoOptions) (hr : 0 < rho) (h0 : a.tol = 0) (h1 : a.rtol = 0)
    (hne : symmetrize Z0 ≠ a.empCov⁻¹) :
    (∀ j, glPenalty eigh a Z0 rho j = rho / a.rhoOptions.tauDec ^ j) ∧ ChangesForever (glPenalty eigh a Z0 rho) ∧
      ∀ j, Lemmas.stopAt (glBody eigh a) (glInit Z0 rho) j = false := by
  have hns : ∀ j, Lemmas.stopAt (glBody eigh a) (glInit Z0 rho) j = false := by
    intro j
    by_contra hc
    rw [Bool.not_eq_false] at hc
    exact hne (free_all he hS hal hor ho hr j (free_move he hS hal hor ho hr j (free_stop hal hor ho hr j h0 h1 hc)))
  have hpen : ∀ j, glPenalty eigh a Z0 rho j = rho / a.rhoOptions.tauDec ^ j := by
    intro j
    induction j with
    | zero => rw [pow_zero, div_one]; rfl
    | succ j ih =>
      obtain ⟨s1, s2, -⟩ := free_state (eigh := eigh) (Z0 := Z0) hal hor ho hr j
      obtain ⟨-, -, -, -, -, b6⟩ := free_body eigh hal hor j s1
      have hst : (glBody eigh a j (fst_ eigh a Z0 rho j)).2.2 = false := hns j
      rw [hst, if_neg (by simp)] at b6
      have hmv : glK eigh a.empCov (fst_ eigh a Z0 rho j).rho (fst_ eigh a Z0 rho j).Z 0 - (fst_ eigh a Z0 rho j).Zold
          ≠ 0 := by
        intro hz
        rw [← (free_next hal hor ho hr j).1] at hz
        exact hne (free_all he hS hal hor ho hr j (free_move he hS hal hor ho hr j (sub_eq_zero.mp hz)))
      have hpos : 0 < froNorm (glK eigh a.empCov (fst_ eigh a Z0 rho j).rho (fst_ eigh a Z0 rho j).Z 0
          - (fst_ eigh a Z0 rho j).Zold) :=
        lt_of_le_of_ne (froNorm_nonneg _) fun hz => hmv (froNorm_eq_zero' hz.symm)
      have hu := (updateRho_free ho s2 (mul_pos s2 hpos).le).2.2 (mul_pos s2 hpos)
      have e : glPenalty eigh a Z0 rho (j + 1) = glPenalty eigh a Z0 rho j / a.rhoOptions.tauDec := b6.trans hu
      rw [e, ih, pow_succ, div_div]
  refine ⟨hpen, fun J => ⟨J, le_rfl, ?_⟩, hns⟩
  have hd : 0 < a.rhoOptions.tauDec := lt_trans one_pos ho.dec
  rw [hpen, hpen, pow_succ, ← div_div]
  have hp : 0 < rho / a.rhoOptions.tauDec ^ J := by positivity
  exact (div_lt_self hp ho.dec).ne

/-- C201 (stopping): with `tol > 0` and `rtol ≥ 0` every call with `max_iter` large enough ends without the warning, the
penalty parameter changing or not. -/
theorem C201_terminates [Nonempty n] (he : IsEighOracle eigh) (hS : a.empCov.PosDef) (hal : a.alpha = 0)
    (hor : a.overRelax = 1) (ho : SaneRho a.rhoOptions) (hr : 0 < rho) (h0 : 0 < a.tol) (h1 : 0 ≤ a.rtol) :
    ∃ M, ∀ m, M ≤ m → ∀ rh rn, ∃ Z C h it, graphicalLasso eigh a Z0 rho m rh rn = .ok Z C h it false := by
  obtain ⟨q0, q1⟩ := freeRate_mem hS Z0 hr
  have hcard : (0 : ℝ) < Fintype.card n := by exact_mod_cast Fintype.card_pos
  have hD : 0 ≤ freeDist a.empCov Z0 := frobSq_nonneg _
  set c : ℝ := Real.sqrt ((Fintype.card n : ℝ) * (Fintype.card n : ℝ)) * a.tol with hc
  have hc0 : 0 < c := by positivity
  have hlim : Tendsto (fun k : ℕ => 4 * rho ^ 2 * (freeRate a.empCov Z0 rho ^ k * freeDist a.empCov Z0)) atTop (𝓝 0) := by
    have h := ((tendsto_pow_atTop_nhds_zero_of_lt_one q0.le q1).mul_const (freeDist a.empCov Z0)).const_mul (4 * rho ^ 2)
    simpa using h
  obtain ⟨N, hN⟩ := eventually_atTop.mp (hlim.eventually_le_const (show (0 : ℝ) < c ^ 2 by positivity))
  have hstop : Lemmas.stopAt (glBody eigh a) (glInit Z0 rho) (N + 1) = true := by
    obtain ⟨s1, s2, s3⟩ := free_state (eigh := eigh) (Z0 := Z0) hal hor ho hr (N + 1)
    have hK : glK eigh a.empCov (fst_ eigh a Z0 rho (N + 1)).rho (fst_ eigh a Z0 rho (N + 1)).Z 0
        = (fst_ eigh a Z0 rho (N + 2)).Z := (free_next hal hor ho hr (N + 1)).1.symm
    have hold := (free_next (eigh := eigh) (Z0 := Z0) hal hor ho hr N).2
    have hmove : (fst_ eigh a Z0 rho (N + 1)).rho * froNorm ((fst_ eigh a Z0 rho (N + 2)).Z - (fst_ eigh a Z0 rho (N + 1)).Z) ≤ c := by
      have r1 := free_rate' (Z0 := Z0) he hS hal hor ho hr N
      have r2 := free_rate' (Z0 := Z0) he hS hal hor ho hr (N + 1)
      have r3 : freeRate a.empCov Z0 rho ^ (N + 2) * freeDist a.empCov Z0
          ≤ freeRate a.empCov Z0 rho ^ (N + 1) * freeDist a.empCov Z0 :=
        mul_le_mul_of_nonneg_right (pow_le_pow_of_le_one q0.le q1.le (by omega)) hD
      have r4 := frobSq_add_le ((fst_ eigh a Z0 rho (N + 2)).Z - a.empCov⁻¹)
        (-((fst_ eigh a Z0 rho (N + 1)).Z - a.empCov⁻¹))
      rw [frobSq_neg] at r4
      have e : (fst_ eigh a Z0 rho (N + 2)).Z - a.empCov⁻¹ + -((fst_ eigh a Z0 rho (N + 1)).Z - a.empCov⁻¹)
          = (fst_ eigh a Z0 rho (N + 2)).Z - (fst_ eigh a Z0 rho (N + 1)).Z := by abel
      rw [e] at r4
      have r5 := hN (N + 1) (by omega)
      refine abs_le_of_sq_le_sq' ?_ hc0.le |>.2
      rw [mul_pow, froNorm_sq]
      have r6 : (fst_ eigh a Z0 rho (N + 1)).rho ^ 2 ≤ rho ^ 2 := pow_le_pow_left₀ s2.le s3 2
      have r7 : frobSq ((fst_ eigh a Z0 rho (N + 2)).Z - (fst_ eigh a Z0 rho (N + 1)).Z)
          ≤ 4 * (freeRate a.empCov Z0 rho ^ (N + 1) * freeDist a.empCov Z0) := by
        have : freeRate a.empCov Z0 rho ^ (N + 1 + 1) * freeDist a.empCov Z0
          = freeRate a.empCov Z0 rho ^ (N + 2) * freeDist a.empCov Z0 := rfl
        linarith
      calc _ ≤ rho ^ 2 * (4 * (freeRate a.empCov Z0 rho ^ (N + 1) * freeDist a.empCov Z0)) :=
            mul_le_mul r6 r7 (frobSq_nonneg _) (by positivity)
        _ = 4 * rho ^ 2 * (freeRate a.empCov Z0 rho ^ (N + 1) * freeDist a.empCov Z0) := by ring
        _ ≤ c ^ 2 := r5
    change (glBody eigh a (N + 1) (fst_ eigh a Z0 rho (N + 1))).2.2 = true
    unfold glBody
    simp only [decide_eq_true_eq, hal, hor, glKhat_one, s1, glZ_zero, sub_self, froNorm_zero', hK, hold, add_zero,
      mul_zero]
    constructor
    · refine add_nonneg hc0.le (mul_nonneg h1 (le_max_of_le_left (froNorm_nonneg _)))
    · exact hmove
  refine ⟨N + 2, fun m hm rh rn => ?_⟩
  obtain ⟨C, h, it, hcall⟩ := glCall_shape eigh a Z0 rho (m := m) (by omega) rh rn
  rw [runLoop_broke _ _ hstop (by omega)] at hcall
  exact ⟨_, C, h, it, hcall⟩

end

/-- Non-vacuity: the default options, the identity as covariance, a start elsewhere. -/
example : ∃ (eigh : Eigh (Fin 2)) (a : GLArgs (Fin 2)), IsEighOracle eigh ∧ a.empCov.PosDef ∧ a.alpha = 0 ∧
    a.overRelax = 1 ∧ a.rhoOptions = {} ∧ SaneRho a.rhoOptions ∧ symmetrize (0 : Matrix (Fin 2) (Fin 2) ℝ) ≠ a.empCov⁻¹ := by
  obtain ⟨eigh, he⟩ := exists_eighOracle (n := Fin 2)
  refine ⟨eigh, { empCov := 1, alpha := 0, tol := 0, rtol := 0 }, he, PosDef.one, rfl, rfl, rfl,
    ⟨by norm_num, by norm_num, by norm_num⟩, ?_⟩
  intro h
  have := congrFun (congrFun h 0) 0
  simp [symmetrize] at this

end Verif.Props
