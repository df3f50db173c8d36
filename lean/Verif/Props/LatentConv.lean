import Verif.Lemmas.LatentSquare
import Verif.Props.TimeConv
import Verif.Props.Infimal

/-! Property theorems C155 and C156 (convergence of the squared-loss latent solvers at a constant penalty). -/

namespace Verif.Props

open Verif.Model Verif.Spec Verif.Lemmas Matrix Filter Topology

set_option autoImplicit false
set_option linter.unusedSectionVars false

variable {n : Type*} [Fintype n] [DecidableEq n] {k : ℕ} {E : Type*} [Fintype E]

/-! ### Passes of the latent temporal solvers -/

/-- The state before iteration `j` at a constant penalty. -/
noncomputable def ltIter (eigh : Eigh n) (rUpd : ℝ → Batch k n → Batch k n) (g : TimePairs k E) (a : LTArgs k E n)
    (K0 : Batch k n) (rho : ℝ) (j : ℕ) : LTState k E n := (ltNext eigh rUpd g a)^[j] (ltInit g K0 rho)

theorem ltIter_succ (eigh : Eigh n) (rUpd : ℝ → Batch k n → Batch k n) (g : TimePairs k E) (a : LTArgs k E n)
    (K0 : Batch k n) (rho : ℝ) (j : ℕ) :
    ltIter eigh rUpd g a K0 rho (j + 1) = ltNext eigh rUpd g a (ltIter eigh rUpd g a K0 rho j) :=
  Function.iterate_succ_apply' _ _ _

theorem ltIter_rho (eigh : Eigh n) (rUpd : ℝ → Batch k n → Batch k n) (g : TimePairs k E) (a : LTArgs k E n)
    (K0 : Batch k n) (rho : ℝ) (j : ℕ) : (ltIter eigh rUpd g a K0 rho j).rho = rho := by
  induction j with
  | zero => rfl
  | succ j ih => rw [ltIter_succ]; exact ih

theorem ltRescale_self (s : LTState k E n) (hr : s.rho ≠ 0) : ltRescale s.rho s = s := by
  unfold ltRescale
  simp only [div_self hr, one_smul]

theorem ltBody_const (eigh : Eigh n) (rUpd : ℝ → Batch k n → Batch k n) (g : TimePairs k E) {a : LTArgs k E n}
    (hi : a.rhoOptions.tauInc = 1) (hd : a.rhoOptions.tauDec = 1) (it : ℕ) (s : LTState k E n) (hr : s.rho ≠ 0) :
    (ltBody eigh rUpd g a it s).1 = ltNext eigh rUpd g a s := by
  unfold ltBody
  simp only [updateRho_const hi hd]
  split
  · rfl
  · exact ltRescale_self (ltNext eigh rUpd g a s) hr

theorem stateAt_lt (eigh : Eigh n) (rUpd : ℝ → Batch k n → Batch k n) (g : TimePairs k E) {a : LTArgs k E n}
    (hi : a.rhoOptions.tauInc = 1) (hd : a.rhoOptions.tauDec = 1) (K0 : Batch k n) {rho : ℝ} (hr : rho ≠ 0) (j : ℕ) :
    stateAt (ltBody eigh rUpd g a) (ltInit g K0 rho) j = ltIter eigh rUpd g a K0 rho j := by
  induction j with
  | zero => rfl
  | succ j ih =>
    change (ltBody eigh rUpd g a j (stateAt (ltBody eigh rUpd g a) (ltInit g K0 rho) j)).1 = _
    rw [ih, ltBody_const eigh rUpd g hi hd _ _ (by rw [ltIter_rho]; exact hr), ltIter_succ]

/-- The numbers recorded by pass `j`. -/
noncomputable def ltCheck (eigh : Eigh n) (rUpd : ℝ → Batch k n → Batch k n) (g : TimePairs k E) (a : LTArgs k E n)
    (K0 : Batch k n) (rho : ℝ) (j : ℕ) : GLCheck :=
  ltDiagnose g a (ltIter eigh rUpd g a K0 rho j) (ltIter eigh rUpd g a K0 rho (j + 1))

theorem checkAt_lt (eigh : Eigh n) (rUpd : ℝ → Batch k n → Batch k n) (g : TimePairs k E) {a : LTArgs k E n}
    (hi : a.rhoOptions.tauInc = 1) (hd : a.rhoOptions.tauDec = 1) (K0 : Batch k n) {rho : ℝ} (hr : rho ≠ 0) (j : ℕ) :
    checkAt (ltBody eigh rUpd g a) (ltInit g K0 rho) j = ltCheck eigh rUpd g a K0 rho j := by
  unfold checkAt
  rw [stateAt_lt eigh rUpd g hi hd K0 hr]
  unfold ltBody ltCheck
  simp only
  rw [ltIter_succ]

theorem ltStop_iff (eigh : Eigh n) (rUpd : ℝ → Batch k n → Batch k n) (g : TimePairs k E) {a : LTArgs k E n}
    (hi : a.rhoOptions.tauInc = 1) (hd : a.rhoOptions.tauDec = 1) (K0 : Batch k n) {rho : ℝ} (hr : rho ≠ 0) (j : ℕ) :
    Lemmas.stopAt (ltBody eigh rUpd g a) (ltInit g K0 rho) j = true ↔
      (ltCheck eigh rUpd g a K0 rho j).rnorm ≤ (ltCheck eigh rUpd g a K0 rho j).ePri ∧
      (ltCheck eigh rUpd g a K0 rho j).snorm ≤ (ltCheck eigh rUpd g a K0 rho j).eDual := by
  unfold Lemmas.stopAt ltCheck
  rw [stateAt_lt eigh rUpd g hi hd K0 hr, ltIter_succ]
  unfold ltBody
  simp only [decide_eq_true_eq]

/-- The shape of a call with at least one pass. -/
theorem ltRun_shape (eigh : Eigh n) (rUpd : ℝ → Batch k n → Batch k n) (g : TimePairs k E) (a : LTArgs k E n)
    (K0 : Batch k n) (rho : ℝ) {m : ℕ} (hm : 1 ≤ m) (rh rn : Bool) : ∃ it,
    ltRun eigh rUpd g a K0 rho m rh rn =
      .ok (runLoop (ltBody eigh rUpd g a) m (ltInit g K0 rho)).state.Z0
        (runLoop (ltBody eigh rUpd g a) m (ltInit g K0 rho)).state.W0
        (if rh then some (runLoop (ltBody eigh rUpd g a) m (ltInit g K0 rho)).checks else none) it
        (!(runLoop (ltBody eigh rUpd g a) m (ltInit g K0 rho)).broke) := by
  obtain ⟨it, hit⟩ := runLoop_lastIter (ltBody eigh rUpd g a) (ltInit g K0 rho) hm
  unfold ltRun
  simp only
  rw [hit]
  cases rn
  · exact ⟨_, rfl⟩
  · exact ⟨_, rfl⟩

theorem famSq_sum (A : E ⊕ E → Matrix n n ℝ) :
    famSq A = ∑ e, frobSq (A (Sum.inl e)) + ∑ e, frobSq (A (Sum.inr e)) := Fintype.sum_sum_type _

/-- What the primal residual measures. -/
theorem ltCheck_rnorm (eigh : Eigh n) (rUpd : ℝ → Batch k n → Batch k n) (g : TimePairs k E) (a : LTArgs k E n)
    (K0 : Batch k n) (rho : ℝ) (j : ℕ) :
    (ltCheck eigh rUpd g a K0 rho j).rnorm =
      Real.sqrt (famSq ((ltLSt (ltIter eigh rUpd g a K0 rho (j + 1))).R - (ltLSt (ltIter eigh rUpd g a K0 rho (j + 1))).Z
        + (ltLSt (ltIter eigh rUpd g a K0 rho (j + 1))).W)
      + famSq (pull (pairEp g) (ltLSt (ltIter eigh rUpd g a K0 rho (j + 1))).Z
        - (ltLSt (ltIter eigh rUpd g a K0 rho (j + 1))).ZP)
      + famSq (pull (pairEp g) (ltLSt (ltIter eigh rUpd g a K0 rho (j + 1))).W
        - (ltLSt (ltIter eigh rUpd g a K0 rho (j + 1))).WP)) := by
  rw [famSq_sum, famSq_sum]
  unfold ltCheck ltDiagnose
  simp only
  rw [← add_assoc, ← add_assoc]
  rfl

/-- What the dual residual measures, from the second pass on. -/
theorem ltCheck_snorm (eigh : Eigh n) (rUpd : ℝ → Batch k n → Batch k n) (g : TimePairs k E) (a : LTArgs k E n)
    (K0 : Batch k n) (rho : ℝ) (j : ℕ) :
    (ltCheck eigh rUpd g a K0 rho (j + 1)).snorm = rho *
      Real.sqrt (famSq ((ltLSt (ltIter eigh rUpd g a K0 rho (j + 2))).R - (ltLSt (ltIter eigh rUpd g a K0 rho (j + 1))).R)
      + famSq ((ltLSt (ltIter eigh rUpd g a K0 rho (j + 2))).ZP - (ltLSt (ltIter eigh rUpd g a K0 rho (j + 1))).ZP)
      + famSq ((ltLSt (ltIter eigh rUpd g a K0 rho (j + 2))).WP - (ltLSt (ltIter eigh rUpd g a K0 rho (j + 1))).WP)) := by
  rw [famSq_sum, famSq_sum]
  unfold ltCheck ltDiagnose
  simp only [ltIter_rho]
  rw [← add_assoc, ← add_assoc]
  rw [show ltIter eigh rUpd g a K0 rho (j + 1 + 1) = ltIter eigh rUpd g a K0 rho (j + 2) from rfl,
    ltIter_succ eigh rUpd g a K0 rho j]
  rfl

theorem tendsto_famSq_zero {J : Type*} [Fintype J] {f : ℕ → J → Matrix n n ℝ} (hf : Tendsto f atTop (𝓝 0)) :
    Tendsto (fun j => famSq (f j)) atTop (𝓝 0) := by
  have := tendsto_famSq hf
  rwa [famSq_zero] at this

/-- What calls of a latent solver do, once the passes converge. -/
theorem lt_calls' [Nonempty n] (hk : 0 < k) {eigh : Eigh n} {rUpd : ℝ → Batch k n → Batch k n} {g : TimePairs k E}
    (a : LTArgs k E n) (hi : a.rhoOptions.tauInc = 1) (hd : a.rhoOptions.tauDec = 1) (K0 : Batch k n) {rho : ℝ}
    (hr : 0 < rho) {lim : LSt (Fin k) (E ⊕ E) n} (hfR : lim.R = lim.Z - lim.W)
    (hfZ : lim.ZP = pull (pairEp g) lim.Z) (hfW : lim.WP = pull (pairEp g) lim.W)
    (hR : Tendsto (fun j => (ltLSt (ltIter eigh rUpd g a K0 rho j)).R) atTop (𝓝 lim.R))
    (hZ : Tendsto (fun j => (ltLSt (ltIter eigh rUpd g a K0 rho j)).Z) atTop (𝓝 lim.Z))
    (hW : Tendsto (fun j => (ltLSt (ltIter eigh rUpd g a K0 rho j)).W) atTop (𝓝 lim.W))
    (hZP : Tendsto (fun j => (ltLSt (ltIter eigh rUpd g a K0 rho j)).ZP) atTop (𝓝 lim.ZP))
    (hWP : Tendsto (fun j => (ltLSt (ltIter eigh rUpd g a K0 rho j)).WP) atTop (𝓝 lim.WP)) :
    (0 < a.tol → 0 ≤ a.rtol → ∃ M, ∀ m, M ≤ m → ∀ rh rn, ∃ K L h it,
        ltRun eigh rUpd g a K0 rho m rh rn = .ok K L h it false) ∧
    (∀ ε, 0 < ε → ∃ M, ∀ tol rtol m rh K L h it w,
        ltRun eigh rUpd g { a with tol := tol, rtol := rtol } K0 rho m rh true = .ok K L h (some it) w → M ≤ it →
          CloseSeq ε K lim.Z ∧ CloseSeq ε L lim.W) ∧
    ∀ ε, 0 < ε → ∃ δ, 0 < δ ∧ ∃ M, ∀ tol rtol, 0 ≤ tol → tol ≤ δ → 0 ≤ rtol → rtol ≤ δ → ∀ m, M ≤ m → ∀ rn,
      ∃ K L hist it w,
        ltRun eigh rUpd g { a with tol := tol, rtol := rtol } K0 rho m true rn = .ok K L (some hist) it w ∧
        ((CloseSeq ε K lim.Z ∧ CloseSeq ε L lim.W) ∨ ∃ c ∈ hist, c.rnorm = 0 ∧ c.snorm = 0) := by
  set S := fun j => ltLSt (ltIter eigh rUpd g a K0 rho j) with hS
  have hZ : Tendsto (fun j => (S j).Z) atTop (𝓝 lim.Z) := hZ
  have hW : Tendsto (fun j => (S j).W) atTop (𝓝 lim.W) := hW
  have hZP : Tendsto (fun j => (S j).ZP) atTop (𝓝 lim.ZP) := hZP
  have hWP : Tendsto (fun j => (S j).WP) atTop (𝓝 lim.WP) := hWP
  have hRs : Tendsto (fun j => (S j).R) atTop (𝓝 lim.R) := hR
  have hpri : Tendsto (fun j => famSq ((S (j + 1)).R - (S (j + 1)).Z + (S (j + 1)).W)
      + famSq (pull (pairEp g) (S (j + 1)).Z - (S (j + 1)).ZP)
      + famSq (pull (pairEp g) (S (j + 1)).W - (S (j + 1)).WP)) atTop (𝓝 0) := by
    have e1 : Tendsto (fun j => (S j).R - (S j).Z + (S j).W) atTop (𝓝 0) := by
      have := (hRs.sub hZ).add hW
      rwa [hfR, sub_add, sub_self] at this
    have e2 : Tendsto (fun j => pull (pairEp g) (S j).Z - (S j).ZP) atTop (𝓝 0) := by
      have := (((continuous_pull (pairEp g)).tendsto lim.Z).comp hZ).sub hZP
      rwa [hfZ, sub_self] at this
    have e3 : Tendsto (fun j => pull (pairEp g) (S j).W - (S j).WP) atTop (𝓝 0) := by
      have := (((continuous_pull (pairEp g)).tendsto lim.W).comp hW).sub hWP
      rwa [hfW, sub_self] at this
    have := ((tendsto_famSq_zero e1).add (tendsto_famSq_zero e2)).add (tendsto_famSq_zero e3)
    rw [add_zero, add_zero] at this
    exact (tendsto_add_atTop_iff_nat (f := fun j => famSq ((S j).R - (S j).Z + (S j).W)
      + famSq (pull (pairEp g) (S j).Z - (S j).ZP) + famSq (pull (pairEp g) (S j).W - (S j).WP)) 1).mpr this
  have hdual : Tendsto (fun j => famSq ((S (j + 2)).R - (S (j + 1)).R)
      + famSq ((S (j + 2)).ZP - (S (j + 1)).ZP) + famSq ((S (j + 2)).WP - (S (j + 1)).WP)) atTop (𝓝 0) := by
    have sh : ∀ {J' : Type _} {f : ℕ → J' → Matrix n n ℝ} {A : J' → Matrix n n ℝ}, Tendsto f atTop (𝓝 A) →
        Tendsto (fun j => f (j + 2) - f (j + 1)) atTop (𝓝 0) := by
      intro J' f A hf
      have := ((tendsto_add_atTop_iff_nat 2).mpr hf).sub ((tendsto_add_atTop_iff_nat 1).mpr hf)
      rwa [sub_self] at this
    have e1 : Tendsto (fun j => (S (j + 2)).R - (S (j + 1)).R) atTop (𝓝 0) := by
      have := ((tendsto_add_atTop_iff_nat 2).mpr hRs).sub ((tendsto_add_atTop_iff_nat 1).mpr hRs)
      rwa [sub_self] at this
    have := ((tendsto_famSq_zero e1).add (tendsto_famSq_zero (sh hZP))).add (tendsto_famSq_zero (sh hWP))
    rwa [add_zero, add_zero] at this
  set d : ℝ := (Fintype.card n : ℝ) * (Fintype.card n : ℝ) with hdd
  set c : ℝ := Real.sqrt (k * d + 4 * (Fintype.card E * d)) with hc
  have hsize : 0 < c := by
    have h1 : (0 : ℝ) < Fintype.card n := by exact_mod_cast Fintype.card_pos
    have h2 : (0 : ℝ) < k := by exact_mod_cast hk
    rw [hc, hdd]
    positivity
  have hclose : ∀ ε, 0 < ε → ∀ᶠ j in atTop, CloseSeq ε (S j).Z lim.Z ∧ CloseSeq ε (S j).W lim.W := fun ε hε =>
    (closeSeq_eventually (fun t => ((continuous_apply t).tendsto lim.Z).comp hZ) hε).and
      (closeSeq_eventually (fun t => ((continuous_apply t).tendsto lim.W).comp hW) hε)
  refine ⟨fun htol hrtol => ?_, fun ε hε => ?_, fun ε hε => ?_⟩
  · have e1 := eventually_sqrt_le ((tendsto_add_atTop_iff_nat 1).mpr hpri) (b := c * a.tol) (by positivity)
    have e2 := eventually_sqrt_le hdual (b := c * a.tol / rho) (by positivity)
    obtain ⟨J, hJ⟩ := eventually_atTop.mp (e1.and e2)
    obtain ⟨h1, h2⟩ := hJ J le_rfl
    have hstop : Lemmas.stopAt (ltBody eigh rUpd g a) (ltInit g K0 rho) (J + 1) = true := by
      rw [ltStop_iff eigh rUpd g hi hd K0 hr.ne', ltCheck_rnorm, ltCheck_snorm]
      constructor
      · refine h1.trans ?_
        unfold ltCheck ltDiagnose
        simp only
        exact le_add_of_nonneg_right (mul_nonneg hrtol (le_max_of_le_left (Real.sqrt_nonneg _)))
      · rw [le_div_iff₀ hr, mul_comm] at h2
        refine h2.trans ?_
        unfold ltCheck ltDiagnose
        simp only [ltIter_rho]
        exact le_add_of_nonneg_right (mul_nonneg (mul_nonneg hrtol hr.le) (Real.sqrt_nonneg _))
    refine ⟨J + 2, fun m hm rh rn => ?_⟩
    obtain ⟨it, hc⟩ := ltRun_shape eigh rUpd g a K0 rho (m := m) (by omega) rh rn
    rw [runLoop_broke _ _ hstop (by omega)] at hc
    exact ⟨_, _, _, it, hc⟩
  · obtain ⟨M, hM⟩ := eventually_atTop.mp (hclose ε hε)
    refine ⟨M, fun tol rtol m rh K L h it w hcall hit => ?_⟩
    set b' : LTArgs k E n := { a with tol := tol, rtol := rtol } with hb'
    have hsame : ∀ j, ltIter eigh rUpd g b' K0 rho j = ltIter eigh rUpd g a K0 rho j := fun j => rfl
    have hst := stateAt_lt eigh rUpd g (a := b') hi hd K0 hr.ne'
    unfold ltRun at hcall
    simp only [if_true] at hcall
    rcases runLoop_spec (ltBody eigh rUpd g b') m (ltInit g K0 rho) with ⟨j, _, _, _, h2⟩ | ⟨_, h2⟩
    · rw [h2] at hcall
      simp only [LTReturn.ok.injEq, Option.some.injEq] at hcall
      obtain ⟨rfl, rfl, -, rfl, -⟩ := hcall
      rw [hst, hsame]
      exact hM _ (by omega)
    · rw [h2] at hcall
      by_cases hm : m = 0
      · simp only [if_pos hm] at hcall
        exact absurd hcall (by simp)
      · simp only [if_neg hm, LTReturn.ok.injEq, Option.some.injEq] at hcall
        obtain ⟨rfl, rfl, -, rfl, -⟩ := hcall
        rw [hst, hsame]
        exact hM _ (by omega)
  · set P : ℕ → Prop := fun j => (CloseSeq ε (S j).Z lim.Z ∧ CloseSeq ε (S j).W lim.W) ∨
      (1 ≤ j ∧ (ltCheck eigh rUpd g a K0 rho (j - 1)).rnorm = 0 ∧ (ltCheck eigh rUpd g a K0 rho (j - 1)).snorm = 0) with hP
    have hev := hclose ε hε
    obtain ⟨δ, hδ, hacc⟩ := accuracy_of_limit (P := P) (hev.mono fun j h => Or.inl h) (c := c)
      (r := fun j => (ltCheck eigh rUpd g a K0 rho j).rnorm)
      (s := fun j => (ltCheck eigh rUpd g a K0 rho j).snorm)
      (A := fun j => max
        (Real.sqrt (batchSq (ltIter eigh rUpd g a K0 rho (j + 1)).Rold + pairSq (ltIter eigh rUpd g a K0 rho (j + 1)).ZL
          + pairSq (ltIter eigh rUpd g a K0 rho (j + 1)).ZR + pairSq (ltIter eigh rUpd g a K0 rho (j + 1)).WL
          + pairSq (ltIter eigh rUpd g a K0 rho (j + 1)).WR))
        (Real.sqrt (batchSq ((ltIter eigh rUpd g a K0 rho (j + 1)).Z0 - (ltIter eigh rUpd g a K0 rho (j + 1)).W0)
          + pairSq (fun e => (ltIter eigh rUpd g a K0 rho (j + 1)).Z0 (g.src e))
          + pairSq (fun e => (ltIter eigh rUpd g a K0 rho (j + 1)).Z0 (g.dst e))
          + pairSq (fun e => (ltIter eigh rUpd g a K0 rho (j + 1)).W0 (g.src e))
          + pairSq (fun e => (ltIter eigh rUpd g a K0 rho (j + 1)).W0 (g.dst e)))))
      (B := fun j => rho * Real.sqrt (batchSq (ltIter eigh rUpd g a K0 rho (j + 1)).X0
          + pairSq (ltIter eigh rUpd g a K0 rho (j + 1)).XL + pairSq (ltIter eigh rUpd g a K0 rho (j + 1)).XR
          + pairSq (ltIter eigh rUpd g a K0 rho (j + 1)).UL + pairSq (ltIter eigh rUpd g a K0 rho (j + 1)).UR))
      (fun j => Real.sqrt_nonneg _)
      (fun j => mul_nonneg (by rw [ltIter_rho]; exact hr.le) (Real.sqrt_nonneg _))
      (fun j h1 h2 => Or.inr ⟨by omega, h1, h2⟩)
    obtain ⟨M, hM⟩ := eventually_atTop.mp hev
    refine ⟨δ, hδ, max M 1, fun tol rtol t0 t1 r0 r1 m hm rn => ?_⟩
    set b' : LTArgs k E n := { a with tol := tol, rtol := rtol } with hb'
    obtain ⟨it, hcall⟩ := ltRun_shape eigh rUpd g b' K0 rho (le_of_max_le_right hm) true rn
    refine ⟨_, _, _, it, _, hcall, ?_⟩
    have hsame : ∀ j, ltIter eigh rUpd g b' K0 rho j = ltIter eigh rUpd g a K0 rho j := fun j => rfl
    have hst := stateAt_lt eigh rUpd g (a := b') hi hd K0 hr.ne'
    rcases runLoop_spec (ltBody eigh rUpd g b') m (ltInit g K0 rho) with ⟨j, _, _, h1, h2⟩ | ⟨_, h2⟩
    · rw [h2]
      have h3 := (ltStop_iff eigh rUpd g (a := b') hi hd K0 hr.ne' j).mp h1
      have h4 := hacc tol rtol t0 t1 r0 r1 j h3.1 (by
        refine h3.2.trans (le_of_eq ?_)
        unfold ltCheck ltDiagnose
        simp only [ltIter_rho]
        rw [mul_assoc b'.rtol]
        rfl)
      rcases h4 with h4 | ⟨-, h5, h6⟩
      · left
        simp only
        rw [hst, hsame]
        exact h4
      · right
        refine ⟨checkAt (ltBody eigh rUpd g b') (ltInit g K0 rho) j,
          List.mem_map.mpr ⟨j, List.mem_range.mpr (by omega), rfl⟩, ?_⟩
        rw [checkAt_lt eigh rUpd g (a := b') hi hd K0 hr.ne']
        exact ⟨h5, h6⟩
    · left
      rw [h2]
      simp only
      rw [hst, hsame]
      exact hM m (le_of_max_le_left hm)

/-- The same from the convergence of all parts of the state. -/
theorem lt_calls [Nonempty n] (hk : 0 < k) {eigh : Eigh n} {rUpd : ℝ → Batch k n → Batch k n} {g : TimePairs k E}
    (a : LTArgs k E n) (hi : a.rhoOptions.tauInc = 1) (hd : a.rhoOptions.tauDec = 1) (K0 : Batch k n) {rho : ℝ}
    (hr : 0 < rho) {lim : LSt (Fin k) (E ⊕ E) n} (hfR : lim.R = lim.Z - lim.W)
    (hfZ : lim.ZP = pull (pairEp g) lim.Z) (hfW : lim.WP = pull (pairEp g) lim.W)
    (hR : Tendsto (fun j => (ltLSt (ltIter eigh rUpd g a K0 rho j)).R) atTop (𝓝 lim.R))
    (hT : LTends (fun j => ltLSt (ltIter eigh rUpd g a K0 rho j)) (fun j => j) lim) :
    (0 < a.tol → 0 ≤ a.rtol → ∃ M, ∀ m, M ≤ m → ∀ rh rn, ∃ K L h it,
        ltRun eigh rUpd g a K0 rho m rh rn = .ok K L h it false) ∧
    (∀ ε, 0 < ε → ∃ M, ∀ tol rtol m rh K L h it w,
        ltRun eigh rUpd g { a with tol := tol, rtol := rtol } K0 rho m rh true = .ok K L h (some it) w → M ≤ it →
          CloseSeq ε K lim.Z ∧ CloseSeq ε L lim.W) ∧
    ∀ ε, 0 < ε → ∃ δ, 0 < δ ∧ ∃ M, ∀ tol rtol, 0 ≤ tol → tol ≤ δ → 0 ≤ rtol → rtol ≤ δ → ∀ m, M ≤ m → ∀ rn,
      ∃ K L hist it w,
        ltRun eigh rUpd g { a with tol := tol, rtol := rtol } K0 rho m true rn = .ok K L (some hist) it w ∧
        ((CloseSeq ε K lim.Z ∧ CloseSeq ε L lim.W) ∨ ∃ c ∈ hist, c.rnorm = 0 ∧ c.snorm = 0) :=
  lt_calls' hk a hi hd K0 hr hfR hfZ hfW hR hT.z hT.w hT.zp hT.wp

/-! ### Coupling penalties -/

theorem pairFam_nonneg {w : E → ℝ} (hw : ∀ e, 0 ≤ w e) {psi : Matrix n n ℝ → ℝ} (h : ∀ X, 0 ≤ psi X)
    (Y : E ⊕ E → Matrix n n ℝ) : 0 ≤ pairPen w psi Y :=
  Finset.sum_nonneg fun e _ => mul_nonneg (hw e) (h _)

theorem pairFam_continuous (w : E → ℝ) {psi : Matrix n n ℝ → ℝ} (h : ConvexPen psi) :
    Continuous (pairPen w psi) := by
  have hproj : ∀ i : E ⊕ E, Continuous fun Y : E ⊕ E → Matrix n n ℝ => Y i := fun i => continuous_apply i
  unfold pairPen
  exact continuous_finsetSum _ fun e _ => continuous_const.mul ((ConvexPen.continuous h).comp ((hproj _).sub (hproj _)))

theorem pairFam_convex {w : E → ℝ} (hw : ∀ e, 0 ≤ w e) {psi : Matrix n n ℝ → ℝ} (h : ConvexPen psi) :
    ConvexFam (pairPen w psi) := by
  intro X Y t h0 h1
  unfold pairPen
  rw [Finset.mul_sum, Finset.mul_sum, ← Finset.sum_add_distrib]
  refine Finset.sum_le_sum fun e _ => ?_
  have h2 := h (X (Sum.inr e) - X (Sum.inl e)) (Y (Sum.inr e) - Y (Sum.inl e)) t h0 h1
  have e1 : (X + t • (Y - X)) (Sum.inr e) - (X + t • (Y - X)) (Sum.inl e) =
      X (Sum.inr e) - X (Sum.inl e) + t • (Y (Sum.inr e) - Y (Sum.inl e) - (X (Sum.inr e) - X (Sum.inl e))) := by
    simp only [Pi.add_apply, Pi.smul_apply, Pi.sub_apply]
    module
  rw [e1]
  have := mul_le_mul_of_nonneg_left h2 (hw e)
  linarith

/-! ### C156 -/

/-- The passes of the matrix decomposition as `LPass`. -/
theorem decomposition_pass [Nonempty n] {T : ℕ} {eigh : Eigh n} (he : IsEighOracle eigh)
    (o : LTOptions (T + 1) n) {beta eta : ℝ} (hal : 0 < o.alpha) (hbe : 0 ≤ beta) (het : 0 ≤ eta)
    {psi phi : Matrix n n ℝ → ℝ} (cpsi : ConvexPen psi) (cphi : ConvexPen phi)
    (ppsi : IsProxOf psi o.proxPsi) (pphi : IsProxOf phi o.proxPhi) {rho : ℝ} (hr : 0 < rho) :
    let a := chainArgs o beta eta
    let g := chainPairs T
    ∀ j, LPass (sqProb (pairEp g) o.empCov 1 o.alpha o.tau (pairPen a.wPsi psi) (pairPen a.wPhi phi)) rho
      (ltLSt (ltIter eigh (ltSquareR a) g a 0 rho j)) (ltLSt (ltIter eigh (ltSquareR a) g a 0 rho (j + 1))) := by
  intro a g
  have hw : ∀ e, 0 ≤ a.wPsi e := fun _ => hbe
  have hv : ∀ e, 0 ≤ a.wPhi e := fun _ => het
  intro j
  have hrho := ltIter_rho eigh (ltSquareR a) g a 0 rho j
  set s := ltIter eigh (ltSquareR a) g a 0 rho j with hs
  have h := ltNext_pass (rUpd := ltSquareR a) (g := g) (a := a) (DR := Set.univ)
    (grad := fun R => (2 * 1 : ℝ) • (R - o.empCov)) he covers_chain tglDivisor_pos hal.le hw hv cpsi cphi ppsi pphi
    (s := s) (by rw [hrho]; exact hr) trivial (fun Y _ => by
      have hz : (2 * 1 : ℝ) • ((ltSquareR a s.rho fun t => s.Z0 t - s.W0 t - s.X0 t) - o.empCov) +
          s.rho • ((ltSquareR a s.rho fun t => s.Z0 t - s.W0 t - s.X0 t) - fun t => s.Z0 t - s.W0 t - s.X0 t) = 0 := by
        funext t
        ext i l
        have : (2 + s.rho) ≠ 0 := by rw [hrho]; positivity
        have e : a.empCov = o.empCov := rfl
        simp only [ltSquareR, Pi.add_apply, Pi.smul_apply, Pi.sub_apply, Matrix.add_apply, Matrix.smul_apply,
          Matrix.sub_apply, smul_eq_mul, Pi.zero_apply, Matrix.zero_apply, e]
        field_simp
        ring
      rw [hz]
      unfold famIn
      simp)
  rw [hrho] at h
  rw [ltIter_succ]
  exact h

/-- C156: with a constant penalty below 4, `alpha > 0`, `tau, beta, eta ≥ 0` and convex penalties `≥ 0` with exact
prox, `latent_time_matrix_decomposition` solves its problem (the one of `C99_stationary_partial`, with the full l1
norm): there is a minimiser `p` (all minimisers have the same `K_t - L_t`) such that for positive `tol` every call
with `max_iter` large enough ends without the warning; every call that ran long enough returns a pair as close to `p`
as desired, whatever the tolerances; and for tolerances small enough a call runs that long, unless it recorded a pass
with both residuals exactly zero. -/
theorem C156_decomposition_converges [Nonempty n] {T : ℕ} {eigh : Eigh n} (he : IsEighOracle eigh)
    (o : LTOptions (T + 1) n) {beta eta : ℝ} (hal : 0 < o.alpha) (hta : 0 ≤ o.tau) (hbe : 0 ≤ beta) (het : 0 ≤ eta)
    {psi phi : Matrix n n ℝ → ℝ} (cpsi : ConvexPen psi) (cphi : ConvexPen phi)
    (ppsi : IsProxOf psi o.proxPsi) (pphi : IsProxOf phi o.proxPhi) (npsi : ∀ X, 0 ≤ psi X) (nphi : ∀ X, 0 ≤ phi X)
    (hi : o.rhoOptions.tauInc = 1) (hd : o.rhoOptions.tauDec = 1) {rho : ℝ} (hr : 0 < rho) (hr4 : rho < 4) :
    ∃ p, IsMin (PSDSecond (T + 1) n) (decompositionObjective o.empCov o.alpha o.tau beta eta absSumMat psi phi) p ∧
      (∀ q, IsMin (PSDSecond (T + 1) n) (decompositionObjective o.empCov o.alpha o.tau beta eta absSumMat psi phi) q →
        ∀ t, q.1 t - q.2 t = p.1 t - p.2 t) ∧
      (0 < o.tol → 0 ≤ o.rtol → ∃ M, ∀ m, M ≤ m → ∀ rh rn, ∃ K L h it,
        latentTimeMatrixDecomposition eigh o beta eta rho m rh rn = .ok K L h it false) ∧
      (∀ ε, 0 < ε → ∃ M, ∀ tol rtol m rh K L h it w,
        latentTimeMatrixDecomposition eigh { o with tol := tol, rtol := rtol } beta eta rho m rh true =
          .ok K L h (some it) w → M ≤ it → CloseSeq ε K p.1 ∧ CloseSeq ε L p.2) ∧
      ∀ ε, 0 < ε → ∃ δ, 0 < δ ∧ ∃ M, ∀ tol rtol, 0 ≤ tol → tol ≤ δ → 0 ≤ rtol → rtol ≤ δ → ∀ m, M ≤ m → ∀ rn,
        ∃ K L hist it w,
          latentTimeMatrixDecomposition eigh { o with tol := tol, rtol := rtol } beta eta rho m true rn =
            .ok K L (some hist) it w ∧
          ((CloseSeq ε K p.1 ∧ CloseSeq ε L p.2) ∨ ∃ c ∈ hist, c.rnorm = 0 ∧ c.snorm = 0) := by
  set a := chainArgs o beta eta with ha
  set g := chainPairs T with hg
  have hw : ∀ e, 0 ≤ a.wPsi e := fun _ => hbe
  have hv : ∀ e, 0 ≤ a.wPhi e := fun _ => het
  have hpass := decomposition_pass he o hal hbe het cpsi cphi ppsi pphi hr
  obtain ⟨lim, hlim, hR, hT⟩ := sq_main (c := 1) one_pos hal hta (pairFam_nonneg hw npsi) (pairFam_nonneg hv nphi)
    (pairFam_continuous _ cpsi) (pairFam_continuous _ cphi) (pairFam_convex hw cpsi) (pairFam_convex hv cphi)
    hr (by linarith) hpass
  obtain ⟨hmin, huniq⟩ := sq_min_of_pass one_pos hlim
  have hfR := hlim.penalties.1
  have hZP : lim.ZP = pull (pairEp g) lim.Z := by
    have := hlim.xp
    rw [left_eq_add, sub_eq_zero] at this
    exact this.symm
  have hWP : lim.WP = pull (pairEp g) lim.W := by
    have := hlim.up
    rw [left_eq_add, sub_eq_zero] at this
    exact this.symm
  have hobj : decompositionObjective o.empCov o.alpha o.tau beta eta absSumMat psi phi =
      sqObj (pairEp g) o.empCov 1 o.alpha o.tau (pairPen a.wPsi psi) (pairPen a.wPhi phi) := by
    funext p
    have e1 : famSq (o.empCov - (p.1 - p.2)) = ∑ t, frobSq (o.empCov t - (p.1 t - p.2 t)) := rfl
    have e2 : pairPen a.wPsi psi (pull (pairEp g) p.1) = beta * chainCoupling psi p.1 := by
      unfold pairPen chainCoupling
      rw [Finset.mul_sum]
      rfl
    have e3 : pairPen a.wPhi phi (pull (pairEp g) p.2) = eta * chainCoupling phi p.2 := by
      unfold pairPen chainCoupling
      rw [Finset.mul_sum]
      rfl
    unfold decompositionObjective sqObj latPen
    rw [e1, e2, e3]
    ring
  obtain ⟨c1, c2, c3⟩ := lt_calls (Nat.succ_pos T) a hi hd 0 hr hfR hZP hWP hR hT
  refine ⟨(lim.Z, lim.W), ?_, fun q hq t => ?_, c1, c2, c3⟩
  · rw [hobj]; exact hmin
  · rw [hobj] at hq
    exact congrFun (huniq q hq) t

/-! ### C155 -/

/-- One pass at a constant penalty. -/
noncomputable def infNext (eigh : Eigh n) (a : InfArgs n) (s : InfState n) : InfState n :=
  ⟨infK a.alpha s.rho s.L (infR a.S s.rho s.K s.L s.U) s.U,
    infL eigh a.tau s.rho (infK a.alpha s.rho s.L (infR a.S s.rho s.K s.L s.U) s.U) (infR a.S s.rho s.K s.L s.U) s.U,
    s.U + (infR a.S s.rho s.K s.L s.U - infK a.alpha s.rho s.L (infR a.S s.rho s.K s.L s.U) s.U
      + infL eigh a.tau s.rho (infK a.alpha s.rho s.L (infR a.S s.rho s.K s.L s.U) s.U)
        (infR a.S s.rho s.K s.L s.U) s.U),
    infR a.S s.rho s.K s.L s.U, s.rho⟩

/-- The state before iteration `j` at a constant penalty. -/
noncomputable def infIter (eigh : Eigh n) (a : InfArgs n) (rho : ℝ) (j : ℕ) : InfState n :=
  (infNext eigh a)^[j] ⟨0, 0, 0, 0, rho⟩

theorem infIter_succ (eigh : Eigh n) (a : InfArgs n) (rho : ℝ) (j : ℕ) :
    infIter eigh a rho (j + 1) = infNext eigh a (infIter eigh a rho j) := Function.iterate_succ_apply' _ _ _

theorem infIter_rho (eigh : Eigh n) (a : InfArgs n) (rho : ℝ) (j : ℕ) : (infIter eigh a rho j).rho = rho := by
  induction j with
  | zero => rfl
  | succ j ih => rw [infIter_succ]; exact ih

theorem infBody_const (eigh : Eigh n) {a : InfArgs n} (hi : a.rhoOptions.tauInc = 1)
    (hd : a.rhoOptions.tauDec = 1) (it : ℕ) (s : InfState n) (hr : s.rho ≠ 0) :
    (infBody eigh a it s).1 = infNext eigh a s := by
  unfold infBody infNext
  simp only [updateRho_const hi hd, div_self hr, one_smul]
  split <;> rfl

theorem stateAt_inf (eigh : Eigh n) {a : InfArgs n} (hi : a.rhoOptions.tauInc = 1)
    (hd : a.rhoOptions.tauDec = 1) {rho : ℝ} (hr : rho ≠ 0) (j : ℕ) :
    stateAt (infBody eigh a) ⟨0, 0, 0, 0, rho⟩ j = infIter eigh a rho j := by
  induction j with
  | zero => rfl
  | succ j ih =>
    change (infBody eigh a j (stateAt (infBody eigh a) ⟨0, 0, 0, 0, rho⟩ j)).1 = _
    rw [ih, infBody_const eigh hi hd _ _ (by rw [infIter_rho]; exact hr), infIter_succ]

/-- The numbers recorded by pass `j`. -/
noncomputable def infCheck (eigh : Eigh n) (a : InfArgs n) (rho : ℝ) (j : ℕ) : GLCheck :=
  (infBody eigh a j (infIter eigh a rho j)).2.1

theorem infCheck_rnorm (eigh : Eigh n) (a : InfArgs n) (rho : ℝ) (j : ℕ) :
    (infCheck eigh a rho j).rnorm = froNorm ((infIter eigh a rho (j + 1)).Rold - (infIter eigh a rho (j + 1)).K
      + (infIter eigh a rho (j + 1)).L) := by
  unfold infCheck
  rw [infIter_succ]
  unfold infBody infNext
  simp only
  split <;> rfl

theorem infCheck_snorm (eigh : Eigh n) (a : InfArgs n) (rho : ℝ) (j : ℕ) :
    (infCheck eigh a rho j).snorm =
      rho * froNorm ((infIter eigh a rho (j + 1)).Rold - (infIter eigh a rho j).Rold) := by
  have h := infIter_rho eigh a rho j
  unfold infCheck
  rw [infIter_succ]
  unfold infBody infNext
  simp only [h]
  split <;> rfl

theorem infCheck_ePri (eigh : Eigh n) (a : InfArgs n) (rho : ℝ) (j : ℕ) :
    (infCheck eigh a rho j).ePri = Real.sqrt ((Fintype.card n : ℝ) * (Fintype.card n : ℝ)) * a.tol
      + a.rtol * max (froNorm (infIter eigh a rho (j + 1)).Rold)
        (froNorm ((infIter eigh a rho (j + 1)).K - (infIter eigh a rho (j + 1)).L)) := by
  unfold infCheck
  rw [infIter_succ]
  unfold infBody infNext
  simp only
  split <;> rfl

theorem infCheck_eDual (eigh : Eigh n) (a : InfArgs n) (rho : ℝ) (j : ℕ) :
    (infCheck eigh a rho j).eDual = Real.sqrt ((Fintype.card n : ℝ) * (Fintype.card n : ℝ)) * a.tol
      + a.rtol * (rho * froNorm (infIter eigh a rho (j + 1)).U) := by
  have h := infIter_rho eigh a rho j
  rw [← mul_assoc]
  unfold infCheck
  rw [infIter_succ]
  unfold infBody infNext
  simp only [h]
  split <;> rfl

theorem infStop_iff (eigh : Eigh n) {a : InfArgs n} (hi : a.rhoOptions.tauInc = 1)
    (hd : a.rhoOptions.tauDec = 1) {rho : ℝ} (hr : rho ≠ 0) (j : ℕ) :
    Lemmas.stopAt (infBody eigh a) ⟨0, 0, 0, 0, rho⟩ j = true ↔ LTStops (infCheck eigh a rho j) := by
  unfold Lemmas.stopAt infCheck
  rw [stateAt_inf eigh hi hd hr]
  exact infBody_stop_iff eigh a j _

theorem infRun_shape (eigh : Eigh n) (a : InfArgs n) (rho : ℝ) {m : ℕ} (hm : 1 ≤ m) (rh rn : Bool) : ∃ it,
    infimalConvolution eigh a rho m rh rn =
      .ok (runLoop (infBody eigh a) m ⟨0, 0, 0, 0, rho⟩).state.K (runLoop (infBody eigh a) m ⟨0, 0, 0, 0, rho⟩).state.L
        (if rh then some (runLoop (infBody eigh a) m ⟨0, 0, 0, 0, rho⟩).checks else none) it
        (!(runLoop (infBody eigh a) m ⟨0, 0, 0, 0, rho⟩).broke) := by
  obtain ⟨it, hit⟩ := runLoop_lastIter (infBody eigh a) ⟨0, 0, 0, 0, rho⟩ hm
  unfold infimalConvolution
  simp only
  rw [hit]
  cases rn
  · exact ⟨_, rfl⟩
  · exact ⟨_, rfl⟩

/-- The state as a family with one member and no copies. -/
def infLSt (s : InfState n) : LSt Unit Empty n where
  R := fun _ => s.Rold
  Z := fun _ => s.K
  W := fun _ => s.L
  X := fun _ => s.U
  ZP := fun e => e.elim
  WP := fun e => e.elim
  XP := fun e => e.elim
  UP := fun e => e.elim

theorem famIn_unit (A B : Unit → Matrix n n ℝ) : famIn A B = frobInner (A ()) (B ()) := by
  unfold famIn
  rw [Fintype.sum_unique]

theorem famIn_empty (A B : Empty → Matrix n n ℝ) : famIn A B = 0 := by
  unfold famIn
  rw [Fintype.sum_empty]

theorem isSymm_add' {A B : Matrix n n ℝ} (hA : A.IsSymm) (hB : B.IsSymm) : (A + B).IsSymm := by
  rw [IsSymm, transpose_add, hA.eq, hB.eq]

theorem isSymm_sub' {A B : Matrix n n ℝ} (hA : A.IsSymm) (hB : B.IsSymm) : (A - B).IsSymm := by
  rw [IsSymm, transpose_sub, hA.eq, hB.eq]

theorem infR_isSymm {S : Matrix n n ℝ} (hS : S.IsSymm) (rho : ℝ) (K L U : Matrix n n ℝ) :
    (infR S rho K L U).IsSymm := by
  have h : (S + rho • symmetrize (K - L - U)).IsSymm := by
    rw [IsSymm, transpose_add, transpose_smul, (symmetrize_isSymm _).eq, hS.eq]
  ext i j
  rw [transpose_apply]
  unfold infR proxLaplacianMat
  rw [h.apply i j]

theorem infIter_symm (eigh : Eigh n) {a : InfArgs n} (hS : a.S.IsSymm) (rho : ℝ) (j : ℕ) :
    (infIter eigh a rho j).K.IsSymm ∧ (infIter eigh a rho j).L.IsSymm ∧ (infIter eigh a rho j).U.IsSymm := by
  have h0 : (0 : Matrix n n ℝ).IsSymm := by rw [IsSymm, transpose_zero]
  induction j with
  | zero => exact ⟨h0, h0, h0⟩
  | succ j ih =>
    obtain ⟨h1, h2, h3⟩ := ih
    rw [infIter_succ]
    have hR := infR_isSymm hS (infIter eigh a rho j).rho (infIter eigh a rho j).K (infIter eigh a rho j).L
      (infIter eigh a rho j).U
    have hK : (infNext eigh a (infIter eigh a rho j)).K.IsSymm :=
      softMat_isSymm (isSymm_add' (isSymm_add' h2 hR) h3) _
    have hL : (infNext eigh a (infIter eigh a rho j)).L.IsSymm :=
      (recompose_posSemidef _ fun _ => le_max_right _ _ : Matrix.PosSemidef _).isSymm'
    exact ⟨hK, hL, isSymm_add' h3 (isSymm_add' (isSymm_sub' hR hK) hL)⟩

theorem infNext_pass {eigh : Eigh n} (he : IsEighOracle eigh) {a : InfArgs n} (hal : 0 ≤ a.alpha) (s : InfState n)
    (hr : 0 < s.rho) (hK : s.K.IsSymm) (hL : s.L.IsSymm) (hU : s.U.IsSymm) :
    LPass (sqProb (fun e : Empty => e.elim) (fun _ => a.S) (1 / 2) a.alpha a.tau (fun _ => 0) fun _ => 0) s.rho
      (infLSt s) (infLSt (infNext eigh a s)) := by
  set R := infR a.S s.rho s.K s.L s.U with hR
  set K := infK a.alpha s.rho s.L R s.U with hKd
  set L := infL eigh a.tau s.rho K R s.U with hLd
  have hpsd : L.PosSemidef := recompose_posSemidef _ fun _ => le_max_right _ _
  have e0 : (R - a.S) + s.rho • (R - (s.K - s.L - s.U)) = 0 := by
    have hs : symmetrize (s.K - s.L - s.U) = s.K - s.L - s.U :=
      symmetrize_of_isSymm (isSymm_sub' (isSymm_sub' hK hL) hU)
    rw [hR]
    unfold infR
    rw [hs]
    ext i j
    simp only [proxLaplacianMat, Matrix.add_apply, Matrix.sub_apply, Matrix.smul_apply, smul_eq_mul, Matrix.zero_apply]
    have : 1 + 2 * (s.rho / 2) ≠ 0 := by positivity
    field_simp
    ring
  refine ⟨trivial, fun Y _ => ?_, fun Y => ?_, fun Y => ?_, fun _ => hpsd, fun Y hY => ?_, fun Y => ?_, ?_, ?_, ?_⟩
  · rw [famIn_unit]
    change frobInner ((2 * (1 / 2) : ℝ) • (R - a.S) + s.rho • (s.U + (R - K + L) + (K - s.K) - (L - s.L))) (Y () - R) = 0
    have e : s.U + (R - K + L) + (K - s.K) - (L - s.L) = R - (s.K - s.L - s.U) := by abel
    rw [e, show (2 * (1 / 2) : ℝ) = 1 by norm_num, one_smul, e0, frobInner_zero_left]
  · rw [famIn_unit, famIn_empty, sub_zero]
    change a.alpha * (∑ _t : Unit, absSumMat K) + s.rho * frobInner (s.U + (R - K + L) - (L - s.L)) (Y () - K) ≤
      a.alpha * ∑ t, absSumMat (Y t)
    rw [Fintype.sum_unique, Fintype.sum_unique]
    have h4 := softMat_subgrad (lam := a.alpha / s.rho) (by positivity) (s.L + R + s.U) (Y ())
    have h5 : softThresholdingMat (s.L + R + s.U) (a.alpha / s.rho) = K := rfl
    rw [h5] at h4
    have h6 := mul_le_mul_of_nonneg_left h4 hr.le
    have e : ∀ c : ℝ, s.rho * (a.alpha / s.rho * c) = a.alpha * c := by intro c; field_simp
    rw [mul_add, e, e] at h6
    have e2 : s.U + (R - K + L) - (L - s.L) = s.L + R + s.U - K := by abel
    rw [e2]
    exact h6
  · rw [famIn_empty]; simp [sqProb]
  · rw [famIn_unit, famIn_empty, add_zero]
    change a.tau * (∑ _t : Unit, trace L) - s.rho * frobInner (s.U + (R - K + L)) (Y () - L) ≤
      a.tau * ∑ t, trace (Y t)
    rw [Fintype.sum_unique, Fintype.sum_unique]
    have hYp : (Y ()).PosSemidef := hY ()
    have hsY : (Y () - L).IsSymm := isSymm_sub' hYp.isSymm' hpsd.isSymm'
    have h4 := proxTrace_vi (he _ (symmetrize_isSymm (K - R - s.U))) (a.tau / s.rho) hYp
    have h5 : proxTraceIndicator (eigh (symmetrize (K - R - s.U))).1 (eigh (symmetrize (K - R - s.U))).2
        (a.tau / s.rho) = L := rfl
    rw [h5, frobInner_sub_left, frobInner_symmetrize hsY, ← frobInner_sub_left] at h4
    have h6 := mul_le_mul_of_nonneg_left h4 hr.le
    have e : ∀ c : ℝ, s.rho * (a.tau / s.rho * c) = a.tau * c := by intro c; field_simp
    rw [mul_add, e, e] at h6
    have e2 : s.U + (R - K + L) = -(K - R - s.U - L) := by abel
    rw [e2, frobInner_neg_left]
    have h7 : a.tau * trace (Y default) = a.tau * trace (Y ()) := rfl
    rw [h7]
    linarith
  · rw [famIn_empty]; simp [sqProb]
  · rfl
  · funext e; exact e.elim
  · funext e; exact e.elim

/-- The passes of the infimal convolution as `LPass`. -/
theorem inf_pass [Nonempty n] {eigh : Eigh n} (he : IsEighOracle eigh) (a : InfArgs n) (hS : a.S.IsSymm)
    (hal : 0 < a.alpha) {rho : ℝ} (hr : 0 < rho) (j : ℕ) :
    LPass (sqProb (fun e : Empty => e.elim) (fun _ => a.S) (1 / 2) a.alpha a.tau (fun _ => 0) fun _ => 0)
      rho (infLSt (infIter eigh a rho j)) (infLSt (infIter eigh a rho (j + 1))) := by
  obtain ⟨h1, h2, h3⟩ := infIter_symm eigh hS rho j
  have hrho := infIter_rho eigh a rho j
  have h := infNext_pass he hal.le (infIter eigh a rho j) (by rw [hrho]; exact hr) h1 h2 h3
  rw [hrho] at h
  rw [infIter_succ]
  exact h

/-- C155: with a constant penalty below 2, a symmetric input, `alpha > 0` and `tau ≥ 0`, `infimal_convolution` solves
its problem `1/2 ‖S - (K - L)‖² + alpha ‖K‖_1 + tau tr(L)`, `L` PSD: there is a minimiser `p` (all minimisers have the
same `K - L`) such that for positive `tol` every call with `max_iter` large enough ends without the warning; every call
that ran long enough returns a pair as close to `p` as desired, whatever the tolerances; and for tolerances small
enough a call runs that long, unless it recorded a pass with both residuals exactly zero. -/
theorem C155_infimal_converges [Nonempty n] {eigh : Eigh n} (he : IsEighOracle eigh) (a : InfArgs n) (hS : a.S.IsSymm)
    (hal : 0 < a.alpha) (hta : 0 ≤ a.tau) (hi : a.rhoOptions.tauInc = 1) (hd : a.rhoOptions.tauDec = 1) {rho : ℝ}
    (hr : 0 < rho) (hr2 : rho < 2) :
    ∃ p, IsMin {p | p.2.PosSemidef} (squareLatentObjective a.S a.alpha a.tau absSumMat) p ∧
      (∀ q, IsMin {p | p.2.PosSemidef} (squareLatentObjective a.S a.alpha a.tau absSumMat) q →
        q.1 - q.2 = p.1 - p.2) ∧
      (0 < a.tol → 0 ≤ a.rtol → ∃ M, ∀ m, M ≤ m → ∀ rh rn, ∃ K L h it,
        infimalConvolution eigh a rho m rh rn = .ok K L h it false) ∧
      (∀ ε, 0 < ε → ∃ M, ∀ tol rtol m rh K L h it w,
        infimalConvolution eigh { a with tol := tol, rtol := rtol } rho m rh true = .ok K L h (some it) w →
          M ≤ it → (∀ i j, |K i j - p.1 i j| ≤ ε) ∧ ∀ i j, |L i j - p.2 i j| ≤ ε) ∧
      ∀ ε, 0 < ε → ∃ δ, 0 < δ ∧ ∃ M, ∀ tol rtol, 0 ≤ tol → tol ≤ δ → 0 ≤ rtol → rtol ≤ δ → ∀ m, M ≤ m → ∀ rn,
        ∃ K L hist it w,
          infimalConvolution eigh { a with tol := tol, rtol := rtol } rho m true rn = .ok K L (some hist) it w ∧
          (((∀ i j, |K i j - p.1 i j| ≤ ε) ∧ ∀ i j, |L i j - p.2 i j| ≤ ε) ∨
            ∃ c ∈ hist, c.rnorm = 0 ∧ c.snorm = 0) := by
  have hpass := inf_pass he a hS hal hr
  have c0 : ConvexFam fun _ : Empty → Matrix n n ℝ => (0 : ℝ) := fun X Y t _ _ => by simp
  obtain ⟨lim, hlim, hR, hT⟩ := sq_main (c := 1 / 2) (by norm_num) hal hta (fun _ => le_rfl) (fun _ => le_rfl)
    continuous_const continuous_const c0 c0 hr (by linarith) hpass
  obtain ⟨hmin, huniq⟩ := sq_min_of_pass (by norm_num : (0 : ℝ) < 1 / 2) hlim
  have hfR := hlim.penalties.1
  have hobj : ∀ p : (Unit → Matrix n n ℝ) × (Unit → Matrix n n ℝ),
      sqObj (fun e : Empty => e.elim) (fun _ => a.S) (1 / 2) a.alpha a.tau (fun _ => 0) (fun _ => 0) p =
      squareLatentObjective a.S a.alpha a.tau absSumMat (p.1 (), p.2 ()) := by
    intro p
    unfold sqObj latPen squareLatentObjective famSq
    simp only [Fintype.sum_unique, add_zero]
    rw [← add_assoc]
    rfl
  have hR1 : Tendsto (fun j => (infIter eigh a rho j).Rold) atTop (𝓝 (lim.R ())) :=
    ((continuous_apply ()).tendsto lim.R).comp hR
  have hK1 : Tendsto (fun j => (infIter eigh a rho j).K) atTop (𝓝 (lim.Z ())) :=
    ((continuous_apply ()).tendsto lim.Z).comp hT.z
  have hL1 : Tendsto (fun j => (infIter eigh a rho j).L) atTop (𝓝 (lim.W ())) :=
    ((continuous_apply ()).tendsto lim.W).comp hT.w
  have hfro : ∀ {f : ℕ → Matrix n n ℝ}, Tendsto f atTop (𝓝 0) → Tendsto (fun j => frobSq (f j)) atTop (𝓝 0) := by
    intro f hf
    have h1 : Tendsto (fun j => fun _ : Unit => f j) atTop (𝓝 (0 : Unit → Matrix n n ℝ)) :=
      tendsto_pi_nhds.mpr fun _ => hf
    have h2 := tendsto_famSq_zero h1
    have h3 : (fun j => famSq fun _ : Unit => f j) = fun j => frobSq (f j) := by
      funext j
      unfold famSq
      rw [Fintype.sum_unique]
    rw [h3] at h2
    exact h2
  have hpri : Tendsto (fun j => frobSq ((infIter eigh a rho (j + 1)).Rold - (infIter eigh a rho (j + 1)).K
      + (infIter eigh a rho (j + 1)).L)) atTop (𝓝 0) := by
    have h1 := (hR1.sub hK1).add hL1
    have h2 : lim.R () = lim.Z () - lim.W () := congrFun hfR ()
    rw [h2, sub_add, sub_self] at h1
    exact hfro ((tendsto_add_atTop_iff_nat (f := fun j => (infIter eigh a rho j).Rold - (infIter eigh a rho j).K
      + (infIter eigh a rho j).L) 1).mpr h1)
  have hdual : Tendsto (fun j => frobSq ((infIter eigh a rho (j + 1)).Rold - (infIter eigh a rho j).Rold)) atTop (𝓝 0) := by
    have h1 := ((tendsto_add_atTop_iff_nat 1).mpr hR1).sub hR1
    rw [sub_self] at h1
    exact hfro h1
  set c : ℝ := Real.sqrt ((Fintype.card n : ℝ) * (Fintype.card n : ℝ)) with hc
  have hsize : 0 < c := by
    have h1 : (0 : ℝ) < Fintype.card n := by exact_mod_cast Fintype.card_pos
    rw [hc]
    positivity
  have hclose : ∀ ε, 0 < ε → ∀ᶠ j in atTop, (∀ i l, |(infIter eigh a rho j).K i l - lim.Z () i l| ≤ ε) ∧
      ∀ i l, |(infIter eigh a rho j).L i l - lim.W () i l| ≤ ε := by
    intro ε hε
    have h1 := closeSeq_eventually (k := 1) (X := fun _ => lim.Z ()) (f := fun j _ => (infIter eigh a rho j).K)
      (fun _ => hK1) hε
    have h2 := closeSeq_eventually (k := 1) (X := fun _ => lim.W ()) (f := fun j _ => (infIter eigh a rho j).L)
      (fun _ => hL1) hε
    exact (h1.and h2).mono fun j h => ⟨fun i l => h.1 0 i l, fun i l => h.2 0 i l⟩
  refine ⟨(lim.Z (), lim.W ()), ⟨hmin.1 (), fun q hq => ?_⟩, fun q hq => ?_, fun htol hrtol => ?_, fun ε hε => ?_,
    fun ε hε => ?_⟩
  · have h := hmin.2 (fun _ => q.1, fun _ => q.2) (fun _ => hq)
    rw [hobj, hobj] at h
    exact h
  · have h : IsMin {p : (Unit → Matrix n n ℝ) × (Unit → Matrix n n ℝ) | p.2 ∈ PsdFam Unit n}
        (sqObj (fun e : Empty => e.elim) (fun _ => a.S) (1 / 2) a.alpha a.tau (fun _ => 0) fun _ => 0)
        (fun _ => q.1, fun _ => q.2) := by
      refine ⟨fun _ => hq.1, fun y hy => ?_⟩
      rw [hobj, hobj]
      exact hq.2 (y.1 (), y.2 ()) (hy ())
    exact congrFun (huniq _ h) ()
  · have e1 := eventually_sqrt_le hpri (b := c * a.tol) (by positivity)
    have e2 := eventually_sqrt_le hdual (b := c * a.tol / rho) (by positivity)
    obtain ⟨J, hJ⟩ := eventually_atTop.mp (e1.and e2)
    obtain ⟨h1, h2⟩ := hJ J le_rfl
    have hstop : Lemmas.stopAt (infBody eigh a) ⟨0, 0, 0, 0, rho⟩ J = true := by
      rw [infStop_iff eigh hi hd hr.ne']
      unfold LTStops
      rw [infCheck_rnorm, infCheck_snorm, infCheck_ePri, infCheck_eDual]
      constructor
      · refine LE.le.trans (b := c * a.tol) h1 ?_
        exact le_add_of_nonneg_right (mul_nonneg hrtol (le_max_of_le_left (Real.sqrt_nonneg _)))
      · rw [le_div_iff₀ hr, mul_comm] at h2
        refine LE.le.trans (b := c * a.tol) h2 ?_
        exact le_add_of_nonneg_right (mul_nonneg hrtol (mul_nonneg hr.le (Real.sqrt_nonneg _)))
    refine ⟨J + 1, fun m hm rh rn => ?_⟩
    obtain ⟨it, hcall⟩ := infRun_shape eigh a rho (m := m) (by omega) rh rn
    rw [runLoop_broke _ _ hstop (by omega)] at hcall
    exact ⟨_, _, _, it, hcall⟩
  · obtain ⟨M, hM⟩ := eventually_atTop.mp (hclose ε hε)
    refine ⟨M, fun tol rtol m rh K L h it w hcall hit => ?_⟩
    set b' : InfArgs n := { a with tol := tol, rtol := rtol } with hb'
    have hsame : ∀ j, infIter eigh b' rho j = infIter eigh a rho j := fun j => rfl
    have hst := stateAt_inf eigh (a := b') hi hd hr.ne'
    unfold infimalConvolution at hcall
    simp only [if_true] at hcall
    rcases runLoop_spec (infBody eigh b') m ⟨0, 0, 0, 0, rho⟩ with ⟨j, _, _, _, h2⟩ | ⟨_, h2⟩
    · rw [h2] at hcall
      simp only [InfReturn.ok.injEq, Option.some.injEq] at hcall
      obtain ⟨rfl, rfl, -, rfl, -⟩ := hcall
      rw [hst, hsame]
      exact hM _ (by omega)
    · rw [h2] at hcall
      by_cases hm : m = 0
      · simp only [if_pos hm] at hcall
        exact absurd hcall (by simp)
      · simp only [if_neg hm, InfReturn.ok.injEq, Option.some.injEq] at hcall
        obtain ⟨rfl, rfl, -, rfl, -⟩ := hcall
        rw [hst, hsame]
        exact hM _ (by omega)
  · set P : ℕ → Prop := fun j => ((∀ i l, |(infIter eigh a rho j).K i l - lim.Z () i l| ≤ ε) ∧
      ∀ i l, |(infIter eigh a rho j).L i l - lim.W () i l| ≤ ε) ∨
      (1 ≤ j ∧ (infCheck eigh a rho (j - 1)).rnorm = 0 ∧ (infCheck eigh a rho (j - 1)).snorm = 0) with hP
    have hev := hclose ε hε
    obtain ⟨δ, hδ, hacc⟩ := accuracy_of_limit (P := P) (hev.mono fun j h => Or.inl h) (c := c)
      (r := fun j => (infCheck eigh a rho j).rnorm) (s := fun j => (infCheck eigh a rho j).snorm)
      (A := fun j => max (froNorm (infIter eigh a rho (j + 1)).Rold)
        (froNorm ((infIter eigh a rho (j + 1)).K - (infIter eigh a rho (j + 1)).L)))
      (B := fun j => rho * froNorm (infIter eigh a rho (j + 1)).U)
      (fun j => by rw [infCheck_rnorm]; exact Real.sqrt_nonneg _)
      (fun j => by rw [infCheck_snorm]; exact mul_nonneg hr.le (Real.sqrt_nonneg _))
      (fun j h1 h2 => Or.inr ⟨by omega, h1, h2⟩)
    obtain ⟨M, hM⟩ := eventually_atTop.mp hev
    refine ⟨δ, hδ, max M 1, fun tol rtol t0 t1 r0 r1 m hm rn => ?_⟩
    set b' : InfArgs n := { a with tol := tol, rtol := rtol } with hb'
    obtain ⟨it, hcall⟩ := infRun_shape eigh b' rho (le_of_max_le_right hm) true rn
    refine ⟨_, _, _, it, _, hcall, ?_⟩
    have hsame : ∀ j, infIter eigh b' rho j = infIter eigh a rho j := fun j => rfl
    have hst := stateAt_inf eigh (a := b') hi hd hr.ne'
    rcases runLoop_spec (infBody eigh b') m ⟨0, 0, 0, 0, rho⟩ with ⟨j, _, _, h1, h2⟩ | ⟨_, h2⟩
    · rw [h2]
      have h3 := (infStop_iff eigh (a := b') hi hd hr.ne' j).mp h1
      unfold LTStops at h3
      rw [infCheck_rnorm, infCheck_snorm, infCheck_ePri, infCheck_eDual] at h3
      have h4 := hacc tol rtol t0 t1 r0 r1 j (by rw [infCheck_rnorm]; exact h3.1) (by rw [infCheck_snorm]; exact h3.2)
      rcases h4 with h4 | ⟨-, h5, h6⟩
      · left
        simp only
        rw [hst, hsame]
        exact h4
      · right
        refine ⟨checkAt (infBody eigh b') ⟨0, 0, 0, 0, rho⟩ j,
          List.mem_map.mpr ⟨j, List.mem_range.mpr (by omega), rfl⟩, ?_⟩
        have e : checkAt (infBody eigh b') ⟨0, 0, 0, 0, rho⟩ j = infCheck eigh b' rho j := by
          unfold checkAt infCheck
          rw [hst]
        rw [Nat.add_sub_cancel, infCheck_rnorm] at h5
        rw [Nat.add_sub_cancel, infCheck_snorm] at h6
        rw [e, infCheck_rnorm, infCheck_snorm]
        exact ⟨h5, h6⟩
    · left
      rw [h2]
      simp only
      rw [hst, hsame]
      exact hM m (le_of_max_le_left hm)

/-- Non-vacuity: arguments meeting the hypotheses of `C155_infimal_converges`, for the penalty 1 the code uses by
default. -/
example : ∃ (eigh : Eigh (Fin 2)) (a : InfArgs (Fin 2)), IsEighOracle eigh ∧ a.S.IsSymm ∧ 0 < a.alpha ∧ 0 ≤ a.tau ∧
    a.rhoOptions.tauInc = 1 ∧ a.rhoOptions.tauDec = 1 ∧ 0 < a.tol ∧ 0 ≤ a.rtol := by
  obtain ⟨eigh, he⟩ := exists_eighOracle (n := Fin 2)
  exact ⟨eigh, ⟨1, 1, 1, 1, 1, { tauInc := 1, tauDec := 1 }⟩, he, by rw [IsSymm, transpose_one], one_pos, zero_le_one,
    rfl, rfl, one_pos, zero_le_one⟩

/-- Non-vacuity: arguments meeting the hypotheses of `C156_decomposition_converges` (l1 couplings). -/
example (T : ℕ) : ∃ (eigh : Eigh (Fin 2)) (o : LTOptions (T + 1) (Fin 2)), IsEighOracle eigh ∧ 0 < o.alpha ∧ 0 ≤ o.tau ∧
    ConvexPen (absSumMat (m := Fin 2) (n := Fin 2)) ∧ IsProxOf absSumMat o.proxPsi ∧ IsProxOf absSumMat o.proxPhi ∧
    (∀ X : Matrix (Fin 2) (Fin 2) ℝ, 0 ≤ absSumMat X) ∧ o.rhoOptions.tauInc = 1 ∧ o.rhoOptions.tauDec = 1 := by
  obtain ⟨eigh, he⟩ := exists_eighOracle (n := Fin 2)
  exact ⟨eigh, ⟨fun _ => 1, fun _ => 1, 1, 1, softThresholdingMat, softThresholdingMat, 1, 1,
    { tauInc := 1, tauDec := 1 }⟩, he, one_pos, zero_le_one, absSumMat_convexPen, soft_isProxOf, soft_isProxOf,
    absSumMat_nonneg', rfl, rfl⟩

end Verif.Props
