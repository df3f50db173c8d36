import Verif.Lemmas.GLConv
import Verif.Props.GLOpt

/-! Property theorem C18 (convergence of the graphical lasso solver at a constant penalty). -/

namespace Verif.Props

open Verif.Model Verif.Spec Verif.Lemmas Matrix Filter Topology

variable {n : Type*} [Fintype n] [DecidableEq n]

/-- Hypotheses of C18: a correct eigensolver, a symmetric covariance and start, `over_relax = 1`,
`update_rho_options = {'tau_inc': 1, 'tau_dec': 1}` (penalty kept constant), `alpha ≥ 0`, `rho > 0`. -/
structure ConstPenalty (eigh : Eigh n) (a : GLArgs n) (Z0 : Matrix n n ℝ) (rho : ℝ) : Prop where
  eighOk : IsEighOracle eigh
  symS : a.empCov.IsSymm
  alphaNonneg : 0 ≤ a.alpha
  relax : a.overRelax = 1
  inc : a.rhoOptions.tauInc = 1
  dec : a.rhoOptions.tauDec = 1
  symZ0 : Z0.IsSymm
  rhoPos : 0 < rho

section

variable {eigh : Eigh n} {a : GLArgs n} {Z0 : Matrix n n ℝ} {rho : ℝ}

/-- The run as a sequence of states. -/
noncomputable abbrev st (eigh : Eigh n) (a : GLArgs n) (Z0 : Matrix n n ℝ) (rho : ℝ) (k : ℕ) :
    GLState n := stateAt (glBody eigh a) (glInit Z0 rho) k

/-- The log-det iterate of iteration `k`. -/
noncomputable abbrev Kit (eigh : Eigh n) (a : GLArgs n) (Z0 : Matrix n n ℝ) (rho : ℝ) (k : ℕ) :
    Matrix n n ℝ :=
  glK eigh a.empCov (st eigh a Z0 rho k).rho (st eigh a Z0 rho k).Z (st eigh a Z0 rho k).U

theorem st_facts (h : ConstPenalty eigh a Z0 rho) (k : ℕ) :
    (st eigh a Z0 rho k).rho = rho ∧ (st eigh a Z0 rho k).Z.IsSymm ∧
      (st eigh a Z0 rho k).U.IsSymm := by
  induction k with
  | zero => exact ⟨rfl, h.symZ0, by simp [stateAt, glInit, IsSymm]⟩
  | succ k ih =>
    obtain ⟨h1, h2, h3⟩ := ih
    have hr : 0 < (st eigh a Z0 rho k).rho := by rw [h1]; exact h.rhoPos
    have e : st eigh a Z0 rho (k + 1) = (glBody eigh a k (st eigh a Z0 rho k)).1 := rfl
    rw [e, glBody_const eigh h.relax h.inc h.dec k _ hr.ne']
    have hs := sym_next h.eighOk h.symS hr h3
    exact ⟨h1, hs.1, hs.2⟩

theorem st_succ (h : ConstPenalty eigh a Z0 rho) (k : ℕ) :
    st eigh a Z0 rho (k + 1) = ⟨nextZ eigh a (st eigh a Z0 rho k), nextU eigh a (st eigh a Z0 rho k),
      nextZ eigh a (st eigh a Z0 rho k), rho⟩ := by
  have h1 := (st_facts h k).1
  have e : st eigh a Z0 rho (k + 1) = (glBody eigh a k (st eigh a Z0 rho k)).1 := rfl
  rw [e, glBody_const eigh h.relax h.inc h.dec k _ (by rw [h1]; exact h.rhoPos.ne'), h1]

/-- Squared distance of the state `k` to the optimum `X` and its dual. -/
noncomputable def lyap (eigh : Eigh n) (a : GLArgs n) (Z0 : Matrix n n ℝ) (rho : ℝ)
    (X : Matrix n n ℝ) (k : ℕ) : ℝ :=
  frobSq ((st eigh a Z0 rho k).Z - X) +
    frobSq ((st eigh a Z0 rho k).U - rho⁻¹ • (X⁻¹ - a.empCov))

theorem dual_subPair (h : ConstPenalty eigh a Z0 rho) {X : Matrix n n ℝ}
    (hX : IsMin (PD n) (glObjective a.empCov a.alpha) X) :
    SubPair (a.alpha / rho) X (rho⁻¹ • (X⁻¹ - a.empCov)) := by
  intro Y
  have hs := gl_subgrad_of_optimal h.alphaNonneg h.symS hX Y
  have h2 := mul_le_mul_of_nonneg_left hs (inv_pos.mpr h.rhoPos).le
  have e : ∀ c : ℝ, a.alpha / rho * c = rho⁻¹ * (a.alpha * c) := by intro c; field_simp
  rw [frobInner_smul_left, e, e]
  linarith

/-- One step: the distance to the optimum decreases by at least the stated amounts. -/
theorem lyap_step (h : ConstPenalty eigh a Z0 rho) {X : Matrix n n ℝ}
    (hX : IsMin (PD n) (glObjective a.empCov a.alpha) X) (k : ℕ) :
    lyap eigh a Z0 rho X (k + 1) + frobSq ((st eigh a Z0 rho k).Z - Kit eigh a Z0 rho k)
      + 2 * rho⁻¹ * frobInner (X⁻¹ - (Kit eigh a Z0 rho k)⁻¹) (Kit eigh a Z0 rho k - X)
      ≤ lyap eigh a Z0 rho X k := by
  obtain ⟨h1, h2, h3⟩ := st_facts h k
  set s := st eigh a Z0 rho k with hs
  have hr : 0 < s.rho := by rw [h1]; exact h.rhoPos
  have hid := admm_identity (Z := s.Z) (U := s.U) (Zp := nextZ eigh a s) (Up := nextU eigh a s)
    (K := glK eigh a.empCov s.rho s.Z s.U) (Zs := X) (Us := rho⁻¹ • (X⁻¹ - a.empCov)) rfl
  have hg : 0 ≤ frobInner (nextU eigh a s - rho⁻¹ • (X⁻¹ - a.empCov)) (nextZ eigh a s - X) := by
    have hp := subPair_next (eigh := eigh) h.alphaNonneg hr
    rw [h1] at hp
    exact SubPair.mono hp (dual_subPair h hX)
  have hf := gl_hf h.eighOk h.symS hr h2 h3 (X := X) (Us := rho⁻¹ • (X⁻¹ - a.empCov))
    (by rw [h1])
  have hf' : frobInner (s.Z - nextZ eigh a s - (nextU eigh a s - rho⁻¹ • (X⁻¹ - a.empCov)))
      (glK eigh a.empCov s.rho s.Z s.U - X) = rho⁻¹ *
      frobInner (X⁻¹ - (glK eigh a.empCov s.rho s.Z s.U)⁻¹) (glK eigh a.empCov s.rho s.Z s.U - X) := by
    rw [← hf, h1, ← mul_assoc, inv_mul_cancel₀ h.rhoPos.ne', one_mul]
  unfold lyap
  rw [st_succ h k]
  simp only [Kit, ← hs]
  rw [hf'] at hid
  linarith

/-- From the second iteration on the decrease also controls both residuals. -/
theorem lyap_step_strong (h : ConstPenalty eigh a Z0 rho) {X : Matrix n n ℝ}
    (hX : IsMin (PD n) (glObjective a.empCov a.alpha) X) (k : ℕ) :
    lyap eigh a Z0 rho X (k + 2)
      + frobSq ((st eigh a Z0 rho (k + 2)).Z - (st eigh a Z0 rho (k + 1)).Z)
      + frobSq (Kit eigh a Z0 rho (k + 1) - (st eigh a Z0 rho (k + 2)).Z)
      + 2 * rho⁻¹ * frobInner (X⁻¹ - (Kit eigh a Z0 rho (k + 1))⁻¹) (Kit eigh a Z0 rho (k + 1) - X)
      ≤ lyap eigh a Z0 rho X (k + 1) := by
  have hstep := lyap_step h hX (k + 1)
  obtain ⟨h1, _, _⟩ := st_facts h k
  obtain ⟨h1', _, _⟩ := st_facts h (k + 1)
  have hr : 0 < (st eigh a Z0 rho k).rho := by rw [h1]; exact h.rhoPos
  have hr' : 0 < (st eigh a Z0 rho (k + 1)).rho := by rw [h1']; exact h.rhoPos
  have hp : SubPair (a.alpha / rho) (st eigh a Z0 rho (k + 1)).Z (st eigh a Z0 rho (k + 1)).U := by
    have := subPair_next (eigh := eigh) (s := st eigh a Z0 rho k) h.alphaNonneg hr
    rw [h1] at this
    rw [st_succ h k]
    exact this
  have hp' : SubPair (a.alpha / rho) (st eigh a Z0 rho (k + 2)).Z (st eigh a Z0 rho (k + 2)).U := by
    have := subPair_next (eigh := eigh) (s := st eigh a Z0 rho (k + 1)) h.alphaNonneg hr'
    rw [h1'] at this
    rw [st_succ h (k + 1)]
    exact this
  have hm := SubPair.mono hp' hp
  have hU : (st eigh a Z0 rho (k + 2)).U - (st eigh a Z0 rho (k + 1)).U =
      Kit eigh a Z0 rho (k + 1) - (st eigh a Z0 rho (k + 2)).Z := by
    rw [st_succ h (k + 1)]
    simp only [nextU]
    abel
  rw [hU] at hm
  have e : (st eigh a Z0 rho (k + 1)).Z - Kit eigh a Z0 rho (k + 1) =
      -(((st eigh a Z0 rho (k + 2)).Z - (st eigh a Z0 rho (k + 1)).Z)
        + (Kit eigh a Z0 rho (k + 1) - (st eigh a Z0 rho (k + 2)).Z)) := by abel
  rw [e, frobSq_neg, frobSq_add] at hstep
  rw [frobInner_comm] at hm
  linarith

theorem Kit_posDef (h : ConstPenalty eigh a Z0 rho) (k : ℕ) : (Kit eigh a Z0 rho k).PosDef := by
  obtain ⟨h1, _, _⟩ := st_facts h k
  exact glK_posDef h.eighOk h.symS (by rw [h1]; exact h.rhoPos) _ _

theorem lyap_nonneg (X : Matrix n n ℝ) (k : ℕ) : 0 ≤ lyap eigh a Z0 rho X k :=
  add_nonneg (frobSq_nonneg _) (frobSq_nonneg _)

/-- C18 (monotone): at a constant penalty the distance of `(Z, U)` to the optimum (and its dual
`U* = (X⁻¹ - S)/rho`) never increases, from the very first iteration. -/
theorem C18_distance_never_increases (h : ConstPenalty eigh a Z0 rho) {X : Matrix n n ℝ}
    (hX : IsMin (PD n) (glObjective a.empCov a.alpha) X) :
    ∀ i j, i ≤ j → lyap eigh a Z0 rho X j ≤ lyap eigh a Z0 rho X i := by
  have hs : ∀ k, lyap eigh a Z0 rho X (k + 1) ≤ lyap eigh a Z0 rho X k := by
    intro k
    have h1 := lyap_step h hX k
    have h2 := inv_mono (Kit_posDef h k) hX.1
    have h3 := frobSq_nonneg ((st eigh a Z0 rho k).Z - Kit eigh a Z0 rho k)
    have h4 : 0 ≤ 2 * rho⁻¹ * frobInner (X⁻¹ - (Kit eigh a Z0 rho k)⁻¹) (Kit eigh a Z0 rho k - X) := by
      have := inv_pos.mpr h.rhoPos
      positivity
    linarith
  exact fun i j hij => antitone_nat_of_succ_le hs hij

theorem frobSq_add_le {m k : Type*} [Fintype m] [Fintype k] (A B : Matrix m k ℝ) :
    frobSq (A + B) ≤ 2 * frobSq A + 2 * frobSq B := by
  have h := frobSq_nonneg (A - B)
  rw [frobSq_sub] at h
  rw [frobSq_add]
  linarith

/-- C18 (convergence): both residuals vanish in the limit and the returned precision converges to
the optimum, from every symmetric start. -/
theorem C18_converges (h : ConstPenalty eigh a Z0 rho) {X : Matrix n n ℝ}
    (hX : IsMin (PD n) (glObjective a.empCov a.alpha) X) :
    Tendsto (fun k => froNorm (Kit eigh a Z0 rho k - (st eigh a Z0 rho (k + 1)).Z)) atTop (𝓝 0) ∧
    Tendsto (fun k => rho * froNorm ((st eigh a Z0 rho (k + 1)).Z - (st eigh a Z0 rho k).Z))
      atTop (𝓝 0) ∧
    Tendsto (fun k => Kit eigh a Z0 rho k) atTop (𝓝 X) ∧
    Tendsto (fun k => (st eigh a Z0 rho k).Z) atTop (𝓝 X) := by
  set V := lyap eigh a Z0 rho X with hV
  have hanti : Antitone V := fun i j hij => C18_distance_never_increases h hX i j hij
  have hbdd : BddBelow (Set.range V) := ⟨0, by rintro _ ⟨k, rfl⟩; exact lyap_nonneg X k⟩
  have hlim := tendsto_atTop_ciInf hanti hbdd
  have hdiff : Tendsto (fun k => V (k + 1) - V (k + 2)) atTop (𝓝 0) := by
    have h1 := hlim.comp (tendsto_add_atTop_nat 1)
    have h2 := hlim.comp (tendsto_add_atTop_nat 2)
    have := h1.sub h2
    simpa using this
  have hri : 0 < rho⁻¹ := inv_pos.mpr h.rhoPos
  have hmono : ∀ k, 0 ≤ frobInner (X⁻¹ - (Kit eigh a Z0 rho k)⁻¹) (Kit eigh a Z0 rho k - X) :=
    fun k => inv_mono (Kit_posDef h k) hX.1
  -- squeeze the three non-negative quantities
  have hsq : ∀ f : ℕ → ℝ, (∀ k, 0 ≤ f k) → (∀ k, f k ≤ V (k + 1) - V (k + 2)) →
      Tendsto f atTop (𝓝 0) := fun f h0 h1 =>
    tendsto_of_tendsto_of_tendsto_of_le_of_le tendsto_const_nhds hdiff h0 h1
  have hdz : Tendsto (fun k => frobSq ((st eigh a Z0 rho (k + 2)).Z - (st eigh a Z0 rho (k + 1)).Z))
      atTop (𝓝 0) := by
    refine hsq _ (fun k => frobSq_nonneg _) fun k => ?_
    have h1 := lyap_step_strong h hX k
    have h2 := frobSq_nonneg (Kit eigh a Z0 rho (k + 1) - (st eigh a Z0 rho (k + 2)).Z)
    have h3 := mul_nonneg (by positivity : 0 ≤ 2 * rho⁻¹) (hmono (k + 1))
    linarith
  have hdr : Tendsto (fun k => frobSq (Kit eigh a Z0 rho (k + 1) - (st eigh a Z0 rho (k + 2)).Z))
      atTop (𝓝 0) := by
    refine hsq _ (fun k => frobSq_nonneg _) fun k => ?_
    have h1 := lyap_step_strong h hX k
    have h2 := frobSq_nonneg ((st eigh a Z0 rho (k + 2)).Z - (st eigh a Z0 rho (k + 1)).Z)
    have h3 := mul_nonneg (by positivity : 0 ≤ 2 * rho⁻¹) (hmono (k + 1))
    linarith
  have hdm : Tendsto (fun k => 2 * rho⁻¹ *
      frobInner (X⁻¹ - (Kit eigh a Z0 rho (k + 1))⁻¹) (Kit eigh a Z0 rho (k + 1) - X)) atTop (𝓝 0) := by
    refine hsq _ (fun k => mul_nonneg (by positivity) (hmono (k + 1))) fun k => ?_
    have h1 := lyap_step_strong h hX k
    have h2 := frobSq_nonneg ((st eigh a Z0 rho (k + 2)).Z - (st eigh a Z0 rho (k + 1)).Z)
    have h3 := frobSq_nonneg (Kit eigh a Z0 rho (k + 1) - (st eigh a Z0 rho (k + 2)).Z)
    linarith
  have hr1 : Tendsto (fun k => froNorm (Kit eigh a Z0 rho k - (st eigh a Z0 rho (k + 1)).Z))
      atTop (𝓝 0) := by
    rw [← tendsto_add_atTop_iff_nat 1]
    have := hdr.sqrt
    simpa [froNorm, frobSq] using this
  have hs1 : Tendsto (fun k => rho * froNorm ((st eigh a Z0 rho (k + 1)).Z - (st eigh a Z0 rho k).Z))
      atTop (𝓝 0) := by
    rw [← tendsto_add_atTop_iff_nat 1]
    have := (hdz.sqrt).const_mul rho
    simpa [froNorm, frobSq] using this
  -- bound on the trace of K
  obtain ⟨C, hC0, hC⟩ : ∃ C : ℝ, 0 ≤ C ∧ ∀ k, trace (Kit eigh a Z0 rho k) ≤ C := by
    refine ⟨Fintype.card n + (2 * (2 * V 0 + 2 * V 0) + 2 * frobSq X), ?_, fun k => ?_⟩
    · have := lyap_nonneg (eigh := eigh) (a := a) (Z0 := Z0) (rho := rho) X 0
      have := frobSq_nonneg X
      positivity
    · have h1 := trace_le_frob (Kit eigh a Z0 rho k)
      have e : Kit eigh a Z0 rho k =
          ((Kit eigh a Z0 rho k - (st eigh a Z0 rho k).Z) + ((st eigh a Z0 rho k).Z - X)) + X := by
        abel
      have h2 := frobSq_add_le
        ((Kit eigh a Z0 rho k - (st eigh a Z0 rho k).Z) + ((st eigh a Z0 rho k).Z - X)) X
      have h3 := frobSq_add_le (Kit eigh a Z0 rho k - (st eigh a Z0 rho k).Z)
        ((st eigh a Z0 rho k).Z - X)
      rw [← e] at h2
      have h4 : V k ≤ V 0 := hanti (Nat.zero_le k)
      have h5 : frobSq ((st eigh a Z0 rho k).Z - X) ≤ V k :=
        le_add_of_nonneg_right (frobSq_nonneg _)
      have h6 : frobSq (Kit eigh a Z0 rho k - (st eigh a Z0 rho k).Z) ≤ V k := by
        have h7 := lyap_step h hX k
        have h8 := lyap_nonneg (eigh := eigh) (a := a) (Z0 := Z0) (rho := rho) X (k + 1)
        have h9 := mul_nonneg (by positivity : 0 ≤ 2 * rho⁻¹) (hmono k)
        rw [← neg_sub, frobSq_neg]
        linarith
      linarith
  have hXtr : 0 ≤ trace X := hX.1.posSemidef.trace_nonneg
  have hK2 : Tendsto (fun k => frobSq (Kit eigh a Z0 rho (k + 1) - X)) atTop (𝓝 0) := by
    have hup : Tendsto (fun k => C * trace X * (rho / 2) * (2 * rho⁻¹ *
        frobInner (X⁻¹ - (Kit eigh a Z0 rho (k + 1))⁻¹) (Kit eigh a Z0 rho (k + 1) - X)))
        atTop (𝓝 0) := by
      have := hdm.const_mul (C * trace X * (rho / 2))
      simpa using this
    refine tendsto_of_tendsto_of_tendsto_of_le_of_le tendsto_const_nhds hup
      (fun k => frobSq_nonneg _) fun k => ?_
    have h1 := inv_strict_mono (Kit_posDef h (k + 1)) hX.1
    have h2 := hmono (k + 1)
    have e : C * trace X * (rho / 2) * (2 * rho⁻¹ *
        frobInner (X⁻¹ - (Kit eigh a Z0 rho (k + 1))⁻¹) (Kit eigh a Z0 rho (k + 1) - X)) =
        C * trace X *
          frobInner (X⁻¹ - (Kit eigh a Z0 rho (k + 1))⁻¹) (Kit eigh a Z0 rho (k + 1) - X) := by
      have := h.rhoPos.ne'
      field_simp
    rw [e]
    refine le_trans h1 ?_
    exact mul_le_mul_of_nonneg_right (mul_le_mul_of_nonneg_right (hC (k + 1)) hXtr) h2
  have hZ2 : Tendsto (fun k => frobSq ((st eigh a Z0 rho (k + 2)).Z - X)) atTop (𝓝 0) := by
    have hup := (hK2.const_mul 2).add (hdr.const_mul 2)
    simp only [mul_zero, add_zero] at hup
    refine tendsto_of_tendsto_of_tendsto_of_le_of_le tendsto_const_nhds hup
      (fun k => frobSq_nonneg _) fun k => ?_
    have e : (st eigh a Z0 rho (k + 2)).Z - X = (Kit eigh a Z0 rho (k + 1) - X)
        + -(Kit eigh a Z0 rho (k + 1) - (st eigh a Z0 rho (k + 2)).Z) := by abel
    have := frobSq_add_le (Kit eigh a Z0 rho (k + 1) - X)
      (-(Kit eigh a Z0 rho (k + 1) - (st eigh a Z0 rho (k + 2)).Z))
    rw [← e, frobSq_neg] at this
    exact this
  have hentry : ∀ f : ℕ → Matrix n n ℝ, Tendsto (fun k => frobSq (f k - X)) atTop (𝓝 0) →
      Tendsto f atTop (𝓝 X) := by
    intro f hf
    refine tendsto_pi_nhds.mpr fun i => tendsto_pi_nhds.mpr fun j => ?_
    rw [tendsto_iff_norm_sub_tendsto_zero]
    refine tendsto_of_tendsto_of_tendsto_of_le_of_le tendsto_const_nhds
      (by simpa using hf.sqrt) (fun k => norm_nonneg _) fun k => ?_
    have h1 : (f k i j - X i j) ^ 2 ≤ frobSq (f k - X) := by
      have h2 : (f k i j - X i j) ^ 2 ≤ ∑ j, ((f k - X) i j) ^ 2 :=
        Finset.single_le_sum (f := fun j => ((f k - X) i j) ^ 2) (fun j _ => sq_nonneg _)
          (Finset.mem_univ j)
      exact le_trans h2 (Finset.single_le_sum (f := fun i => ∑ j, ((f k - X) i j) ^ 2)
        (fun i _ => Finset.sum_nonneg fun j _ => sq_nonneg _) (Finset.mem_univ i))
    rw [Real.norm_eq_abs, ← Real.sqrt_sq_eq_abs]
    exact Real.sqrt_le_sqrt h1
  refine ⟨hr1, hs1, ?_, ?_⟩
  · rw [← tendsto_add_atTop_iff_nat 1]
    exact hentry _ hK2
  · rw [← tendsto_add_atTop_iff_nat 2]
    exact hentry _ hZ2

/-- C18 (termination, with an explicit bound): once `max_iter - 1` exceeds
`‖(Z0,0) - (X,U*)‖² / min(ε², ε²/rho²)` with `ε = tol * sqrt(size) > 0`, the call stops by its own
test and does not warn, whatever is asked to be returned. -/
theorem C18_terminates [Nonempty n] (h : ConstPenalty eigh a Z0 rho) {X : Matrix n n ℝ}
    (hX : IsMin (PD n) (glObjective a.empCov a.alpha) X) (htol : 0 < a.tol) (hrtol : 0 ≤ a.rtol)
    (m : ℕ)
    (hm : frobSq (Z0 - X) + frobSq (rho⁻¹ • (X⁻¹ - a.empCov)) <
      (m - 1 : ℕ) * min ((Fintype.card n * a.tol) ^ 2) ((Fintype.card n * a.tol) ^ 2 / rho ^ 2))
    (rh rn : Bool) :
    ∃ Z S hist it, graphicalLasso eigh a Z0 rho m rh rn = .ok Z S hist it false := by
  set V := lyap eigh a Z0 rho X with hV
  set eps := (Fintype.card n : ℝ) * a.tol with heps
  have hcard : (0 : ℝ) < Fintype.card n := by exact_mod_cast Fintype.card_pos
  have heps0 : 0 < eps := mul_pos hcard htol
  have hr := h.rhoPos
  set d := min (eps ^ 2) (eps ^ 2 / rho ^ 2) with hd
  have hV0 : V 0 = frobSq (Z0 - X) + frobSq (rho⁻¹ • (X⁻¹ - a.empCov)) := by
    simp only [hV, lyap, stateAt, glInit, zero_sub, frobSq_neg]
  -- no stop at iteration k+1 costs at least d
  have hcost : ∀ k, stopAt (glBody eigh a) (glInit Z0 rho) (k + 1) = false →
      V (k + 2) + d ≤ V (k + 1) := by
    intro k hk
    have hstrong := lyap_step_strong h hX k
    have hmn := mul_nonneg (by positivity : 0 ≤ 2 * rho⁻¹)
      (inv_mono (Kit_posDef h (k + 1)) hX.1)
    obtain ⟨h1, _, _⟩ := st_facts h (k + 1)
    have hZold : (st eigh a Z0 rho (k + 1)).Zold = (st eigh a Z0 rho (k + 1)).Z := by
      rw [st_succ h k]
    have hnot : ¬ (glBody eigh a (k + 1) (st eigh a Z0 rho (k + 1))).2.2 = true := by
      have : (glBody eigh a (k + 1) (st eigh a Z0 rho (k + 1))).2.2 = false := hk
      rw [this]; simp
    rw [glBody_stop_iff] at hnot
    have hnz : nextZ eigh a (st eigh a Z0 rho (k + 1)) = (st eigh a Z0 rho (k + 2)).Z := by
      rw [st_succ h (k + 1)]
    unfold Converged glBody at hnot
    simp only [h.relax, glKhat_one] at hnot
    rw [← nextZ, hnz, hZold, h1] at hnot
    have hs2 : Real.sqrt ((Fintype.card n : ℝ) * Fintype.card n) = Fintype.card n :=
      Real.sqrt_mul_self hcard.le
    rw [hs2, ← heps] at hnot
    have hK : glK eigh a.empCov rho (st eigh a Z0 rho (k + 1)).Z (st eigh a Z0 rho (k + 1)).U
        = Kit eigh a Z0 rho (k + 1) := by simp only [Kit, h1]
    rw [hK] at hnot
    have hor : eps < froNorm (Kit eigh a Z0 rho (k + 1) - (st eigh a Z0 rho (k + 2)).Z) ∨
        eps < rho * froNorm ((st eigh a Z0 rho (k + 2)).Z - (st eigh a Z0 rho (k + 1)).Z) := by
      by_contra hc
      push Not at hc
      apply hnot
      constructor
      · refine le_trans hc.1 (le_add_of_nonneg_right (mul_nonneg hrtol ?_))
        exact le_max_of_le_left (froNorm_nonneg _)
      · refine le_trans hc.2 (le_add_of_nonneg_right (mul_nonneg (mul_nonneg hrtol hr.le) ?_))
        exact froNorm_nonneg _
    have hn1 := frobSq_nonneg ((st eigh a Z0 rho (k + 2)).Z - (st eigh a Z0 rho (k + 1)).Z)
    have hn2 := frobSq_nonneg (Kit eigh a Z0 rho (k + 1) - (st eigh a Z0 rho (k + 2)).Z)
    rcases hor with h2 | h2
    · have h3 : d ≤ frobSq (Kit eigh a Z0 rho (k + 1) - (st eigh a Z0 rho (k + 2)).Z) := by
        rw [← froNorm_sq]
        exact le_trans (min_le_left _ _) (pow_le_pow_left₀ heps0.le h2.le 2)
      linarith
    · have h3 : d ≤ frobSq ((st eigh a Z0 rho (k + 2)).Z - (st eigh a Z0 rho (k + 1)).Z) := by
        rw [← froNorm_sq]
        refine le_trans (min_le_right _ _) ?_
        rw [div_le_iff₀ (by positivity), ← mul_pow, mul_comm (froNorm _)]
        exact pow_le_pow_left₀ heps0.le h2.le 2
      linarith
  have hbroke : (runLoop (glBody eigh a) m (glInit Z0 rho)).broke = true ∧
      (runLoop (glBody eigh a) m (glInit Z0 rho)).lastIter ≠ none := by
    rcases runLoop_spec (glBody eigh a) m (glInit Z0 rho) with ⟨j, _, _, _, he⟩ | ⟨hno, _⟩
    · rw [he]; exact ⟨rfl, by simp⟩
    · exfalso
      have hsum : ∀ k, k + 1 ≤ m → V (k + 1) + k * d ≤ V 0 := by
        intro k
        induction k with
        | zero =>
          intro _
          simpa using C18_distance_never_increases h hX 0 1 (Nat.zero_le 1)
        | succ k ih =>
          intro hk
          have h1 := ih (by omega)
          have h2 := hcost k (hno (k + 1) (by omega))
          push_cast
          linarith
      rcases Nat.eq_zero_or_pos m with h0 | h0
      · rw [← hV0, h0] at hm
        have := lyap_nonneg (eigh := eigh) (a := a) (Z0 := Z0) (rho := rho) X 0
        simp only [Nat.zero_sub, Nat.cast_zero, zero_mul] at hm
        linarith
      · have h1 := hsum (m - 1) (by omega)
        have h2 := lyap_nonneg (eigh := eigh) (a := a) (Z0 := Z0) (rho := rho) X (m - 1 + 1)
        rw [← hV0] at hm
        linarith
  obtain ⟨hb, hl⟩ := hbroke
  obtain ⟨it, hit⟩ := Option.ne_none_iff_exists'.mp hl
  unfold graphicalLasso
  simp only [hb, hit, Bool.not_true]
  cases rn
  · exact ⟨_, _, _, _, rfl⟩
  · exact ⟨_, _, _, _, rfl⟩

end

/-- Non-vacuity for C18: the 1x1 problem `S = 1` with `alpha = 1`, started at `0`, satisfies the
hypotheses and has an optimum. -/
example : ∃ (eigh : Eigh (Fin 1)) (X : Matrix (Fin 1) (Fin 1) ℝ),
    ConstPenalty eigh ⟨1, 1, 1, 1, 0, ⟨10, 1, 1⟩⟩ 0 1 ∧
      IsMin (PD (Fin 1)) (glObjective 1 1) X := by
  obtain ⟨eigh, he⟩ := exists_eighOracle (n := Fin 1)
  refine ⟨eigh, 1, ⟨he, by simp [IsSymm], by norm_num, rfl, rfl, rfl, by simp [IsSymm], by norm_num⟩,
    ?_⟩
  have := gl_optimal_of_subgrad (n := Fin 1) (S := 1) (K := 1) (G := 0) (alpha := 1)
    (by simp [IsSymm]) PosDef.one (by simp [symmetrize]) (by
      intro X
      simp [absSumOff, frobInner])
  exact this.isMin

end Verif.Props
