import Verif.Props.LatentConv
import Verif.Props.Adaptive

/-! Property theorems C155 and C156 for penalties that change (the default adaptive rule). -/

namespace Verif.Props

open Verif.Model Verif.Spec Verif.Lemmas Matrix Filter Topology

set_option autoImplicit false
set_option linter.unusedSectionVars false

variable {n : Type*} [Fintype n] [DecidableEq n] {k : ℕ} {E : Type*} [Fintype E]

/-! ### Infimal convolution -/

/-- The value of the local variable `rho` at the start of pass `j` of a call of `infimal_convolution` that is not
stopped. -/
noncomputable def infPenalty (eigh : Eigh n) (a : InfArgs n) (rho : ℝ) (j : ℕ) : ℝ :=
  (stateAt (infBody eigh a) ⟨0, 0, 0, 0, rho⟩ j).rho

theorem infBody_keep (eigh : Eigh n) (a : InfArgs n) (it : ℕ) (s : InfState n) (hr : s.rho ≠ 0)
    (h : (infBody eigh a it s).1.rho = s.rho) : (infBody eigh a it s).1 = infNext eigh a s := by
  unfold infBody at h ⊢
  simp only at h ⊢
  split at h
  · rw [if_pos (by assumption)]
    rfl
  · rw [if_neg (by assumption)]
    have h' : updateRho a.rhoOptions s.rho _ _ = s.rho := h
    rw [h']
    simp only [div_self hr, one_smul]
    rfl

theorem inf_facts (eigh : Eigh n) {a : InfArgs n} (hS : a.S.IsSymm) (hi : 0 < a.rhoOptions.tauInc)
    (hd : 0 < a.rhoOptions.tauDec) {rho : ℝ} (hr : 0 < rho) (j : ℕ) :
    0 < (stateAt (infBody eigh a) ⟨0, 0, 0, 0, rho⟩ j).rho ∧
      (stateAt (infBody eigh a) ⟨0, 0, 0, 0, rho⟩ j).K.IsSymm ∧
      (stateAt (infBody eigh a) ⟨0, 0, 0, 0, rho⟩ j).L.IsSymm ∧
      (stateAt (infBody eigh a) ⟨0, 0, 0, 0, rho⟩ j).U.IsSymm := by
  have h0 : (0 : Matrix n n ℝ).IsSymm := by rw [IsSymm, transpose_zero]
  induction j with
  | zero => exact ⟨hr, h0, h0, h0⟩
  | succ j ih =>
    change 0 < (infBody eigh a j (stateAt (infBody eigh a) ⟨0, 0, 0, 0, rho⟩ j)).1.rho ∧
      (infBody eigh a j (stateAt (infBody eigh a) ⟨0, 0, 0, 0, rho⟩ j)).1.K.IsSymm ∧
      (infBody eigh a j (stateAt (infBody eigh a) ⟨0, 0, 0, 0, rho⟩ j)).1.L.IsSymm ∧
      (infBody eigh a j (stateAt (infBody eigh a) ⟨0, 0, 0, 0, rho⟩ j)).1.U.IsSymm
    generalize stateAt (infBody eigh a) ⟨0, 0, 0, 0, rho⟩ j = s at *
    obtain ⟨h1, h2, h3, h4⟩ := ih
    have hR := infR_isSymm hS s.rho s.K s.L s.U
    have hK : (infK a.alpha s.rho s.L (infR a.S s.rho s.K s.L s.U) s.U).IsSymm :=
      softMat_isSymm (isSymm_add' (isSymm_add' h3 hR) h4) _
    have hL : (infL eigh a.tau s.rho (infK a.alpha s.rho s.L (infR a.S s.rho s.K s.L s.U) s.U)
        (infR a.S s.rho s.K s.L s.U) s.U).IsSymm :=
      (recompose_posSemidef _ fun _ => le_max_right _ _ : Matrix.PosSemidef _).isSymm'
    have hU := isSymm_add' h4 (isSymm_add' (isSymm_sub' hR hK) hL)
    unfold infBody
    simp only
    split
    · exact ⟨h1, hK, hL, hU⟩
    · exact ⟨updateRho_pos hi hd h1 _ _, hK, hL, isSymm_smul _ hU⟩

theorem infNext_symm (eigh : Eigh n) {a : InfArgs n} (hS : a.S.IsSymm) (s : InfState n) (hK : s.K.IsSymm)
    (hL : s.L.IsSymm) (hU : s.U.IsSymm) (j : ℕ) : ((infNext eigh a)^[j] s).rho = s.rho ∧
      ((infNext eigh a)^[j] s).K.IsSymm ∧ ((infNext eigh a)^[j] s).L.IsSymm ∧ ((infNext eigh a)^[j] s).U.IsSymm := by
  induction j with
  | zero => exact ⟨rfl, hK, hL, hU⟩
  | succ j ih =>
    rw [Function.iterate_succ_apply']
    generalize (infNext eigh a)^[j] s = s' at *
    obtain ⟨h1, h2, h3, h4⟩ := ih
    have hR := infR_isSymm hS s'.rho s'.K s'.L s'.U
    have hK : (infNext eigh a s').K.IsSymm := softMat_isSymm (isSymm_add' (isSymm_add' h3 hR) h4) _
    have hL : (infNext eigh a s').L.IsSymm :=
      (recompose_posSemidef _ fun _ => le_max_right _ _ : Matrix.PosSemidef _).isSymm'
    exact ⟨h1, hK, hL, isSymm_add' h4 (isSymm_add' (isSymm_sub' hR hK) hL)⟩

theorem infBody_check (eigh : Eigh n) (a : InfArgs n) (it : ℕ) (s : InfState n) :
    (infBody eigh a it s).2.1.rnorm = froNorm ((infNext eigh a s).Rold - (infNext eigh a s).K + (infNext eigh a s).L) ∧
    (infBody eigh a it s).2.1.snorm = s.rho * froNorm ((infNext eigh a s).Rold - s.Rold) ∧
    (infBody eigh a it s).2.1.ePri = Real.sqrt ((Fintype.card n : ℝ) * (Fintype.card n : ℝ)) * a.tol
      + a.rtol * max (froNorm (infNext eigh a s).Rold) (froNorm ((infNext eigh a s).K - (infNext eigh a s).L)) ∧
    (infBody eigh a it s).2.1.eDual = Real.sqrt ((Fintype.card n : ℝ) * (Fintype.card n : ℝ)) * a.tol
      + a.rtol * s.rho * froNorm (infNext eigh a s).U := by
  unfold infBody infNext
  simp only
  split <;> exact ⟨rfl, rfl, rfl, rfl⟩

/-- C155 (any penalty rule): from the default start, for a symmetric input, `alpha > 0`, `tau ≥ 0` and any rule with
positive factors (the default one included), unless the penalty changes infinitely often or settles at 2 or more,
`infimal_convolution` converges to a minimiser: for `tol > 0` every call with `max_iter` large enough ends without the
warning, and with both tolerances zero the returned pair approaches one minimiser as `max_iter` grows, unless a pass with
both residuals exactly zero was recorded. -/
theorem C155_infimal_adaptive [Nonempty n] {eigh : Eigh n} (he : IsEighOracle eigh) (a : InfArgs n) (hS : a.S.IsSymm)
    (hal : 0 < a.alpha) (hta : 0 ≤ a.tau) (hi : 0 < a.rhoOptions.tauInc) (hd : 0 < a.rhoOptions.tauDec) {rho : ℝ}
    (hr : 0 < rho) : ChangesForever (infPenalty eigh a rho) ∨ (∀ᶠ j in atTop, 2 ≤ infPenalty eigh a rho j) ∨
    ∃ p, IsMin {p | p.2.PosSemidef} (squareLatentObjective a.S a.alpha a.tau absSumMat) p ∧
      (0 < a.tol → 0 ≤ a.rtol → ∃ M, ∀ m, M ≤ m → ∀ rh rn, ∃ K L h it,
        infimalConvolution eigh a rho m rh rn = .ok K L h it false) ∧
      (a.tol = 0 → a.rtol = 0 → ∀ ε, 0 < ε → ∃ M, ∀ m, M ≤ m → ∀ rn, ∃ K L hist it w,
        infimalConvolution eigh a rho m true rn = .ok K L (some hist) it w ∧
          (((∀ i j, |K i j - p.1 i j| ≤ ε) ∧ ∀ i j, |L i j - p.2 i j| ≤ ε) ∨
            ∃ c ∈ hist, c.rnorm = 0 ∧ c.snorm = 0)) := by
  refine or_iff_not_imp_left.mpr fun hch => ?_
  obtain ⟨J, hJ⟩ := settles_of_not hch
  obtain ⟨st, hstd⟩ : ∃ st, st = stateAt (infBody eigh a) ⟨0, 0, 0, 0, rho⟩ := ⟨_, rfl⟩
  have hf : ∀ j, 0 < (st j).rho := fun j => by rw [hstd]; exact (inf_facts eigh hS hi hd hr j).1
  have hconst : ∀ i, infPenalty eigh a rho (J + i) = (st J).rho := by
    intro i
    induction i with
    | zero => rw [hstd]; rfl
    | succ i ih => rw [← add_assoc, hJ _ (by omega), ih]
  by_cases h2 : 2 ≤ (st J).rho
  · refine Or.inl (eventually_atTop.mpr ⟨J, fun j hj => ?_⟩)
    obtain ⟨i, rfl⟩ : ∃ i, j = J + i := ⟨j - J, by omega⟩
    rw [hconst]
    exact h2
  refine Or.inr ?_
  have hrJ := hf J
  have hiter : ∀ i, st (J + i) = (infNext eigh a)^[i] (st J) := by
    rw [hstd]
    exact settled_iter _ _ _ fun j hj => infBody_keep eigh a j _ (by have := hf j; rw [hstd] at this; exact this.ne')
      (hJ j hj)
  obtain ⟨q, hqd⟩ : ∃ q : ℕ → InfState n, q = fun i => (infNext eigh a)^[i] (st J) := ⟨_, rfl⟩
  have hqs : ∀ i, q (i + 1) = infNext eigh a (q i) := fun i => by rw [hqd]; exact Function.iterate_succ_apply' _ _ _
  have hst : ∀ i, st (J + i) = q i := fun i => by rw [hiter, hqd]
  have hq : ∀ i, (q i).rho = (st J).rho ∧ (q i).K.IsSymm ∧ (q i).L.IsSymm ∧ (q i).U.IsSymm := fun i => by
    have h := inf_facts eigh hS hi hd hr J
    rw [← hstd] at h
    rw [hqd]
    exact infNext_symm eigh hS _ h.2.1 h.2.2.1 h.2.2.2 i
  have hpass : ∀ i, LPass (sqProb (fun e : Empty => e.elim) (fun _ => a.S) (1 / 2) a.alpha a.tau (fun _ => 0) fun _ => 0)
      (st J).rho (infLSt (q i)) (infLSt (q (i + 1))) := by
    intro i
    obtain ⟨h0, h1, h2, h3⟩ := hq i
    have h := infNext_pass he hal.le (q i) (by rw [h0]; exact hrJ) h1 h2 h3
    rw [h0] at h
    rw [hqs]
    exact h
  have c0 : ConvexFam fun _ : Empty → Matrix n n ℝ => (0 : ℝ) := fun X Y t _ _ => by simp
  obtain ⟨lim, hlim, hR, hT⟩ := sq_main (c := 1 / 2) (by norm_num) hal hta (fun _ => le_rfl) (fun _ => le_rfl)
    continuous_const continuous_const c0 c0 hrJ (by linarith) hpass
  obtain ⟨hmin, -⟩ := sq_min_of_pass (by norm_num : (0 : ℝ) < 1 / 2) hlim
  have hfR := hlim.penalties.1
  have hobj : ∀ p : (Unit → Matrix n n ℝ) × (Unit → Matrix n n ℝ),
      sqObj (fun e : Empty => e.elim) (fun _ => a.S) (1 / 2) a.alpha a.tau (fun _ => 0) (fun _ => 0) p =
      squareLatentObjective a.S a.alpha a.tau absSumMat (p.1 (), p.2 ()) := by
    intro p
    unfold sqObj latPen squareLatentObjective famSq
    simp only [Fintype.sum_unique, add_zero]
    rw [← add_assoc]
    rfl
  have hR1 : Tendsto (fun j => (q j).Rold) atTop (𝓝 (lim.R ())) := ((continuous_apply ()).tendsto lim.R).comp hR
  have hK1 : Tendsto (fun j => (q j).K) atTop (𝓝 (lim.Z ())) := ((continuous_apply ()).tendsto lim.Z).comp hT.z
  have hL1 : Tendsto (fun j => (q j).L) atTop (𝓝 (lim.W ())) := ((continuous_apply ()).tendsto lim.W).comp hT.w
  have hfro : ∀ {f : ℕ → Matrix n n ℝ}, Tendsto f atTop (𝓝 0) → Tendsto (fun j => frobSq (f j)) atTop (𝓝 0) := by
    intro f hf
    have h1 : Tendsto (fun j => fun _ : Unit => f j) atTop (𝓝 (0 : Unit → Matrix n n ℝ)) :=
      tendsto_pi_nhds.mpr fun _ => hf
    have h2 := tendsto_famSq_zero h1
    have h3 : (fun j => famSq fun _ : Unit => f j) = fun j => frobSq (f j) := by
      funext j
      unfold famSq
      rw [Fintype.sum_unique]
    rw [h3] at h2
    exact h2
  have hpri : Tendsto (fun j => frobSq ((q (j + 1)).Rold - (q (j + 1)).K + (q (j + 1)).L)) atTop (𝓝 0) := by
    have h1 := (hR1.sub hK1).add hL1
    have h2 : lim.R () = lim.Z () - lim.W () := congrFun hfR ()
    rw [h2, sub_add, sub_self] at h1
    exact hfro ((tendsto_add_atTop_iff_nat (f := fun j => (q j).Rold - (q j).K + (q j).L) 1).mpr h1)
  have hdual : Tendsto (fun j => frobSq ((q (j + 1)).Rold - (q j).Rold)) atTop (𝓝 0) := by
    have h1 := ((tendsto_add_atTop_iff_nat 1).mpr hR1).sub hR1
    rw [sub_self] at h1
    exact hfro h1
  obtain ⟨c, hc⟩ : ∃ c : ℝ, c = Real.sqrt ((Fintype.card n : ℝ) * (Fintype.card n : ℝ)) := ⟨_, rfl⟩
  have hsize : 0 < c := by
    have h1 : (0 : ℝ) < Fintype.card n := by exact_mod_cast Fintype.card_pos
    rw [hc]
    positivity
  refine ⟨(lim.Z (), lim.W ()), ⟨hmin.1 (), fun y hy => ?_⟩, fun htol hrtol => ?_, fun htol hrtol ε hε => ?_⟩
  · have h := hmin.2 (fun _ => y.1, fun _ => y.2) (fun _ => hy)
    rw [hobj, hobj] at h
    exact h
  · have e1 := eventually_sqrt_le hpri (b := c * a.tol) (by positivity)
    have e2 := eventually_sqrt_le hdual (b := c * a.tol / (st J).rho) (by positivity)
    obtain ⟨i, hi'⟩ := eventually_atTop.mp (e1.and e2)
    obtain ⟨h1, h2⟩ := hi' i le_rfl
    have hstop : Lemmas.stopAt (infBody eigh a) ⟨0, 0, 0, 0, rho⟩ (J + i) = true := by
      unfold Lemmas.stopAt
      rw [infBody_stop_iff, ← hstd, hst]
      obtain ⟨k1, k2, k3, k4⟩ := infBody_check eigh a (J + i) (q i)
      unfold LTStops
      rw [k1, k2, k3, k4, ← hqs, ← hc, (hq i).1]
      constructor
      · exact LE.le.trans (b := c * a.tol) h1
          (le_add_of_nonneg_right (mul_nonneg hrtol (le_max_of_le_left (Real.sqrt_nonneg _))))
      · rw [le_div_iff₀ hrJ, mul_comm] at h2
        exact LE.le.trans (b := c * a.tol) h2
          (le_add_of_nonneg_right (mul_nonneg (mul_nonneg hrtol hrJ.le) (Real.sqrt_nonneg _)))
    refine ⟨J + i + 1, fun m hm rh rn => ?_⟩
    obtain ⟨it, hcall⟩ := infRun_shape eigh a rho (m := m) (by omega) rh rn
    rw [runLoop_broke _ _ hstop (by omega)] at hcall
    exact ⟨_, _, _, it, hcall⟩
  · have g1 := closeSeq_eventually (k := 1) (X := fun _ => lim.Z ()) (f := fun j _ => (q j).K) (fun _ => hK1) hε
    have g2 := closeSeq_eventually (k := 1) (X := fun _ => lim.W ()) (f := fun j _ => (q j).L) (fun _ => hL1) hε
    obtain ⟨N, hN⟩ := eventually_atTop.mp (g1.and g2)
    refine ⟨J + N + 1, fun m hm rn => ?_⟩
    obtain ⟨it, hcall⟩ := infRun_shape eigh a rho (m := m) (by omega) true rn
    refine ⟨_, _, _, it, _, hcall, ?_⟩
    rcases runLoop_spec (infBody eigh a) m ⟨0, 0, 0, 0, rho⟩ with ⟨j, _, _, h1, h2⟩ | ⟨_, h2⟩
    · right
      rw [h2]
      refine ⟨checkAt (infBody eigh a) ⟨0, 0, 0, 0, rho⟩ j, List.mem_map.mpr ⟨j, List.mem_range.mpr (by omega), rfl⟩, ?_⟩
      unfold Lemmas.stopAt at h1
      rw [infBody_stop_iff] at h1
      unfold checkAt
      obtain ⟨k1, k2, k3, k4⟩ := infBody_check eigh a j (stateAt (infBody eigh a) ⟨0, 0, 0, 0, rho⟩ j)
      unfold LTStops at h1
      rw [k1, k2, k3, k4, htol, hrtol] at h1
      simp only [mul_zero, zero_mul, add_zero] at h1
      rw [k1, k2]
      refine ⟨le_antisymm h1.1 (froNorm_nonneg _), le_antisymm h1.2 (mul_nonneg ?_ (froNorm_nonneg _))⟩
      exact (inf_facts eigh hS hi hd hr j).1.le
    · left
      rw [h2]
      simp only
      rw [← hstd]
      obtain ⟨i, rfl⟩ : ∃ i, m = J + i := ⟨m - J, by omega⟩
      rw [hst]
      have h := hN i (by omega)
      exact ⟨fun x y => h.1 0 x y, fun x y => h.2 0 x y⟩

/-- Non-vacuity for `C155_infimal_adaptive`: the default rule. -/
example : ∃ (eigh : Eigh (Fin 2)) (a : InfArgs (Fin 2)), IsEighOracle eigh ∧ a.S.IsSymm ∧ 0 < a.alpha ∧ 0 ≤ a.tau ∧
    a.rhoOptions = {} ∧ 0 < a.rhoOptions.tauInc ∧ 0 < a.rhoOptions.tauDec ∧ 0 < a.tol ∧ 0 ≤ a.rtol := by
  obtain ⟨eigh, he⟩ := exists_eighOracle (n := Fin 2)
  exact ⟨eigh, ⟨1, 1, 1, 1, 1, {}⟩, he, by rw [IsSymm, transpose_one], one_pos, zero_le_one, rfl, by norm_num,
    by norm_num, one_pos, zero_le_one⟩

/-! ### Latent temporal matrix decomposition -/

/-- The value of the local variable `rho` at the start of pass `j` of a call that is not stopped. -/
noncomputable def ltPenalty (eigh : Eigh n) (rUpd : ℝ → Batch k n → Batch k n) (g : TimePairs k E) (a : LTArgs k E n)
    (K0 : Batch k n) (rho : ℝ) (j : ℕ) : ℝ := (stateAt (ltBody eigh rUpd g a) (ltInit g K0 rho) j).rho

theorem ltBody_keep (eigh : Eigh n) (rUpd : ℝ → Batch k n → Batch k n) (g : TimePairs k E) (a : LTArgs k E n) (it : ℕ)
    (s : LTState k E n) (hr : s.rho ≠ 0) (h : (ltBody eigh rUpd g a it s).1.rho = s.rho) :
    (ltBody eigh rUpd g a it s).1 = ltNext eigh rUpd g a s := by
  unfold ltBody at h ⊢
  simp only at h ⊢
  split at h
  · rw [if_pos (by assumption)]
  · rw [if_neg (by assumption)]
    have h' : updateRho a.rhoOptions s.rho _ _ = s.rho := h
    rw [h']
    exact ltRescale_self (ltNext eigh rUpd g a s) hr

theorem ltState_rho_pos (eigh : Eigh n) (rUpd : ℝ → Batch k n → Batch k n) (g : TimePairs k E) {a : LTArgs k E n}
    (hi : 0 < a.rhoOptions.tauInc) (hd : 0 < a.rhoOptions.tauDec) (K0 : Batch k n) {rho : ℝ} (hr : 0 < rho) (j : ℕ) :
    0 < (stateAt (ltBody eigh rUpd g a) (ltInit g K0 rho) j).rho := by
  induction j with
  | zero => exact hr
  | succ j ih =>
    change 0 < (ltBody eigh rUpd g a j (stateAt (ltBody eigh rUpd g a) (ltInit g K0 rho) j)).1.rho
    generalize stateAt (ltBody eigh rUpd g a) (ltInit g K0 rho) j = s at *
    unfold ltBody
    simp only
    split
    · exact ih
    · exact updateRho_pos hi hd ih _ _

theorem ltNext_iter_rho (eigh : Eigh n) (rUpd : ℝ → Batch k n → Batch k n) (g : TimePairs k E) (a : LTArgs k E n)
    (s : LTState k E n) (j : ℕ) : ((ltNext eigh rUpd g a)^[j] s).rho = s.rho := by
  induction j with
  | zero => rfl
  | succ j ih => rw [Function.iterate_succ_apply']; exact ih

/-- What calls do once the penalty has settled and the passes from then on converge. -/
theorem lt_settled_calls [Nonempty n] (hk : 0 < k) {eigh : Eigh n} {rUpd : ℝ → Batch k n → Batch k n} {g : TimePairs k E}
    (a : LTArgs k E n) (hi : 0 < a.rhoOptions.tauInc) (hd : 0 < a.rhoOptions.tauDec) (K0 : Batch k n) {rho : ℝ}
    (hr : 0 < rho) {J : ℕ} {q : ℕ → LTState k E n} (hqs : ∀ i, q (i + 1) = ltNext eigh rUpd g a (q i))
    (hst : ∀ i, stateAt (ltBody eigh rUpd g a) (ltInit g K0 rho) (J + i) = q i)
    {r : ℝ} (hrJ : 0 < r) (hqr : ∀ i, (q i).rho = r)
    {lim : LSt (Fin k) (E ⊕ E) n} (hfR : lim.R = lim.Z - lim.W)
    (hfZ : lim.ZP = pull (pairEp g) lim.Z) (hfW : lim.WP = pull (pairEp g) lim.W)
    (hR : Tendsto (fun j => (ltLSt (q j)).R) atTop (𝓝 lim.R)) (hT : LTends (fun j => ltLSt (q j)) (fun j => j) lim) :
    (0 < a.tol → 0 ≤ a.rtol → ∃ M, ∀ m, M ≤ m → ∀ rh rn, ∃ K L h it,
        ltRun eigh rUpd g a K0 rho m rh rn = .ok K L h it false) ∧
    (a.tol = 0 → a.rtol = 0 → ∀ ε, 0 < ε → ∃ M, ∀ m, M ≤ m → ∀ rn, ∃ K L hist it w,
        ltRun eigh rUpd g a K0 rho m true rn = .ok K L (some hist) it w ∧
        ((CloseSeq ε K lim.Z ∧ CloseSeq ε L lim.W) ∨ ∃ c ∈ hist, c.rnorm = 0 ∧ c.snorm = 0)) := by
  obtain ⟨S, hS⟩ : ∃ S, S = fun j => ltLSt (q j) := ⟨_, rfl⟩
  have hZ : Tendsto (fun j => (S j).Z) atTop (𝓝 lim.Z) := by rw [hS]; exact hT.z
  have hW : Tendsto (fun j => (S j).W) atTop (𝓝 lim.W) := by rw [hS]; exact hT.w
  have hZP : Tendsto (fun j => (S j).ZP) atTop (𝓝 lim.ZP) := by rw [hS]; exact hT.zp
  have hWP : Tendsto (fun j => (S j).WP) atTop (𝓝 lim.WP) := by rw [hS]; exact hT.wp
  have hRs : Tendsto (fun j => (S j).R) atTop (𝓝 lim.R) := by rw [hS]; exact hR
  have hpri : Tendsto (fun j => famSq ((S (j + 2)).R - (S (j + 2)).Z + (S (j + 2)).W)
      + famSq (pull (pairEp g) (S (j + 2)).Z - (S (j + 2)).ZP)
      + famSq (pull (pairEp g) (S (j + 2)).W - (S (j + 2)).WP)) atTop (𝓝 0) := by
    have e1 : Tendsto (fun j => (S j).R - (S j).Z + (S j).W) atTop (𝓝 0) := by
      have := (hRs.sub hZ).add hW
      rwa [hfR, sub_add, sub_self] at this
    have e2 : Tendsto (fun j => pull (pairEp g) (S j).Z - (S j).ZP) atTop (𝓝 0) := by
      have := (((continuous_pull (pairEp g)).tendsto lim.Z).comp hZ).sub hZP
      rwa [hfZ, sub_self] at this
    have e3 : Tendsto (fun j => pull (pairEp g) (S j).W - (S j).WP) atTop (𝓝 0) := by
      have := (((continuous_pull (pairEp g)).tendsto lim.W).comp hW).sub hWP
      rwa [hfW, sub_self] at this
    have := ((tendsto_famSq_zero e1).add (tendsto_famSq_zero e2)).add (tendsto_famSq_zero e3)
    rw [add_zero, add_zero] at this
    exact (tendsto_add_atTop_iff_nat (f := fun j => famSq ((S j).R - (S j).Z + (S j).W)
      + famSq (pull (pairEp g) (S j).Z - (S j).ZP) + famSq (pull (pairEp g) (S j).W - (S j).WP)) 2).mpr this
  have hdual : Tendsto (fun j => famSq ((S (j + 2)).R - (S (j + 1)).R)
      + famSq ((S (j + 2)).ZP - (S (j + 1)).ZP) + famSq ((S (j + 2)).WP - (S (j + 1)).WP)) atTop (𝓝 0) := by
    have sh : ∀ {J' : Type _} {f : ℕ → J' → Matrix n n ℝ} {A : J' → Matrix n n ℝ}, Tendsto f atTop (𝓝 A) →
        Tendsto (fun j => f (j + 2) - f (j + 1)) atTop (𝓝 0) := by
      intro J' f A hf
      have := ((tendsto_add_atTop_iff_nat 2).mpr hf).sub ((tendsto_add_atTop_iff_nat 1).mpr hf)
      rwa [sub_self] at this
    have e1 : Tendsto (fun j => (S (j + 2)).R - (S (j + 1)).R) atTop (𝓝 0) := by
      have := ((tendsto_add_atTop_iff_nat 2).mpr hRs).sub ((tendsto_add_atTop_iff_nat 1).mpr hRs)
      rwa [sub_self] at this
    have := ((tendsto_famSq_zero e1).add (tendsto_famSq_zero (sh hZP))).add (tendsto_famSq_zero (sh hWP))
    rwa [add_zero, add_zero] at this
  have hrn : ∀ i, (ltDiagnose g a (q i) (q (i + 1))).rnorm =
      Real.sqrt (famSq ((S (i + 1)).R - (S (i + 1)).Z + (S (i + 1)).W)
        + famSq (pull (pairEp g) (S (i + 1)).Z - (S (i + 1)).ZP)
        + famSq (pull (pairEp g) (S (i + 1)).W - (S (i + 1)).WP)) := by
    intro i
    rw [famSq_sum, famSq_sum, hS]
    unfold ltDiagnose
    simp only
    rw [← add_assoc, ← add_assoc]
    rfl
  have hsn : ∀ i, (ltDiagnose g a (q (i + 1)) (q (i + 2))).snorm = r *
      Real.sqrt (famSq ((S (i + 2)).R - (S (i + 1)).R) + famSq ((S (i + 2)).ZP - (S (i + 1)).ZP)
        + famSq ((S (i + 2)).WP - (S (i + 1)).WP)) := by
    intro i
    rw [famSq_sum, famSq_sum, hS]
    unfold ltDiagnose
    simp only [hqr]
    rw [← add_assoc, ← add_assoc, hqs i]
    rfl
  obtain ⟨d, hdd⟩ : ∃ d : ℝ, d = (Fintype.card n : ℝ) * (Fintype.card n : ℝ) := ⟨_, rfl⟩
  obtain ⟨c, hc⟩ : ∃ c : ℝ, c = Real.sqrt (k * d + 4 * (Fintype.card E * d)) := ⟨_, rfl⟩
  have hsize : 0 < c := by
    have h1 : (0 : ℝ) < Fintype.card n := by exact_mod_cast Fintype.card_pos
    have h2 : (0 : ℝ) < k := by exact_mod_cast hk
    rw [hc, hdd]
    positivity
  refine ⟨fun htol hrtol => ?_, fun htol hrtol ε hε => ?_⟩
  · have e1 := eventually_sqrt_le hpri (b := c * a.tol) (by positivity)
    have e2 := eventually_sqrt_le hdual (b := c * a.tol / r) (by positivity)
    obtain ⟨i, hi'⟩ := eventually_atTop.mp (e1.and e2)
    obtain ⟨h1, h2⟩ := hi' i le_rfl
    have hstop : Lemmas.stopAt (ltBody eigh rUpd g a) (ltInit g K0 rho) (J + (i + 1)) = true := by
      unfold Lemmas.stopAt
      rw [hst]
      unfold ltBody
      simp only [decide_eq_true_eq]
      rw [← hqs, hrn, hsn]
      constructor
      · refine h1.trans ?_
        unfold ltDiagnose
        simp only
        rw [← hdd, ← hc]
        exact le_add_of_nonneg_right (mul_nonneg hrtol (le_max_of_le_left (Real.sqrt_nonneg _)))
      · rw [le_div_iff₀ hrJ, mul_comm] at h2
        refine h2.trans ?_
        unfold ltDiagnose
        simp only [hqr]
        rw [← hdd, ← hc]
        exact le_add_of_nonneg_right (mul_nonneg (mul_nonneg hrtol hrJ.le) (Real.sqrt_nonneg _))
    refine ⟨J + i + 2, fun m hm rh rn => ?_⟩
    obtain ⟨it, hcall⟩ := ltRun_shape eigh rUpd g a K0 rho (m := m) (by omega) rh rn
    rw [runLoop_broke _ _ hstop (by omega)] at hcall
    exact ⟨_, _, _, it, hcall⟩
  · have hclose := (closeSeq_eventually (fun t => ((continuous_apply t).tendsto lim.Z).comp hZ) hε).and
      (closeSeq_eventually (fun t => ((continuous_apply t).tendsto lim.W).comp hW) hε)
    obtain ⟨N, hN⟩ := eventually_atTop.mp hclose
    refine ⟨J + N + 1, fun m hm rn => ?_⟩
    obtain ⟨it, hcall⟩ := ltRun_shape eigh rUpd g a K0 rho (m := m) (by omega) true rn
    refine ⟨_, _, _, it, _, hcall, ?_⟩
    rcases runLoop_spec (ltBody eigh rUpd g a) m (ltInit g K0 rho) with ⟨j, _, _, h1, h2⟩ | ⟨_, h2⟩
    · right
      rw [h2]
      refine ⟨checkAt (ltBody eigh rUpd g a) (ltInit g K0 rho) j, List.mem_map.mpr ⟨j, List.mem_range.mpr (by omega), rfl⟩,
        ?_⟩
      have hp := ltState_rho_pos eigh rUpd g hi hd K0 hr j
      unfold Lemmas.stopAt at h1
      unfold checkAt
      generalize stateAt (ltBody eigh rUpd g a) (ltInit g K0 rho) j = s at *
      unfold ltBody at h1 ⊢
      simp only [decide_eq_true_eq] at h1 ⊢
      have p1 : (ltDiagnose g a s (ltNext eigh rUpd g a s)).ePri = 0 := by
        unfold ltDiagnose; simp only [htol, hrtol, mul_zero, zero_mul, add_zero]
      have p2 : (ltDiagnose g a s (ltNext eigh rUpd g a s)).eDual = 0 := by
        unfold ltDiagnose; simp only [htol, hrtol, mul_zero, zero_mul, add_zero]
      rw [p1, p2] at h1
      refine ⟨le_antisymm h1.1 (Real.sqrt_nonneg _), le_antisymm h1.2 ?_⟩
      exact mul_nonneg hp.le (Real.sqrt_nonneg _)
    · left
      rw [h2]
      simp only
      obtain ⟨i, rfl⟩ : ∃ i, m = J + i := ⟨m - J, by omega⟩
      rw [hst]
      have h := hN i (by omega)
      rw [hS] at h
      exact h

/-- C156 (any penalty rule): for convex penalties `≥ 0` with exact prox, `alpha > 0`, `tau, beta, eta ≥ 0` and any rule with
positive factors (the default one included), unless the penalty changes infinitely often or settles at 4 or more,
`latent_time_matrix_decomposition` converges to a minimiser: for `tol > 0` every call with `max_iter` large enough ends
without the warning, and with both tolerances zero the returned pair approaches one minimiser as `max_iter` grows, unless
a pass with both residuals exactly zero was recorded. -/
theorem C156_decomposition_adaptive [Nonempty n] {T : ℕ} {eigh : Eigh n} (he : IsEighOracle eigh)
    (o : LTOptions (T + 1) n) {beta eta : ℝ} (hal : 0 < o.alpha) (hta : 0 ≤ o.tau) (hbe : 0 ≤ beta) (het : 0 ≤ eta)
    {psi phi : Matrix n n ℝ → ℝ} (cpsi : ConvexPen psi) (cphi : ConvexPen phi)
    (ppsi : IsProxOf psi o.proxPsi) (pphi : IsProxOf phi o.proxPhi) (npsi : ∀ X, 0 ≤ psi X) (nphi : ∀ X, 0 ≤ phi X)
    (hi : 0 < o.rhoOptions.tauInc) (hd : 0 < o.rhoOptions.tauDec) {rho : ℝ} (hr : 0 < rho) :
    let r := ltPenalty eigh (ltSquareR (chainArgs o beta eta)) (chainPairs T) (chainArgs o beta eta) 0 rho
    ChangesForever r ∨ (∀ᶠ j in atTop, 4 ≤ r j) ∨
    ∃ p, IsMin (PSDSecond (T + 1) n) (decompositionObjective o.empCov o.alpha o.tau beta eta absSumMat psi phi) p ∧
      (0 < o.tol → 0 ≤ o.rtol → ∃ M, ∀ m, M ≤ m → ∀ rh rn, ∃ K L h it,
        latentTimeMatrixDecomposition eigh o beta eta rho m rh rn = .ok K L h it false) ∧
      (o.tol = 0 → o.rtol = 0 → ∀ ε, 0 < ε → ∃ M, ∀ m, M ≤ m → ∀ rn, ∃ K L hist it w,
        latentTimeMatrixDecomposition eigh o beta eta rho m true rn = .ok K L (some hist) it w ∧
        ((CloseSeq ε K p.1 ∧ CloseSeq ε L p.2) ∨ ∃ c ∈ hist, c.rnorm = 0 ∧ c.snorm = 0)) := by
  intro r
  set a := chainArgs o beta eta with ha
  set g := chainPairs T with hg
  have hw : ∀ e, 0 ≤ a.wPsi e := fun _ => hbe
  have hv : ∀ e, 0 ≤ a.wPhi e := fun _ => het
  refine or_iff_not_imp_left.mpr fun hch => ?_
  obtain ⟨J, hJ⟩ := settles_of_not hch
  obtain ⟨st, hstd⟩ : ∃ st, st = stateAt (ltBody eigh (ltSquareR a) g a) (ltInit g 0 rho) := ⟨_, rfl⟩
  have hf : ∀ j, 0 < (st j).rho := fun j => by
    rw [hstd]; exact ltState_rho_pos eigh (ltSquareR a) g (a := a) hi hd 0 hr j
  have hconst : ∀ i, r (J + i) = (st J).rho := by
    intro i
    induction i with
    | zero => rw [hstd]; rfl
    | succ i ih => rw [← add_assoc, hJ _ (by omega), ih]
  by_cases h4 : 4 ≤ (st J).rho
  · refine Or.inl (eventually_atTop.mpr ⟨J, fun j hj => ?_⟩)
    obtain ⟨i, rfl⟩ : ∃ i, j = J + i := ⟨j - J, by omega⟩
    rw [hconst]
    exact h4
  refine Or.inr ?_
  have hrJ := hf J
  have hiter : ∀ i, st (J + i) = (ltNext eigh (ltSquareR a) g a)^[i] (st J) := by
    rw [hstd]
    exact settled_iter _ _ _ fun j hj => ltBody_keep eigh (ltSquareR a) g a j _
      (by have := hf j; rw [hstd] at this; exact this.ne') (hJ j hj)
  obtain ⟨q, hqd⟩ : ∃ q : ℕ → LTState (T + 1) (Fin T) n, q = fun i => (ltNext eigh (ltSquareR a) g a)^[i] (st J) := ⟨_, rfl⟩
  have hqs : ∀ i, q (i + 1) = ltNext eigh (ltSquareR a) g a (q i) := fun i => by
    rw [hqd]; exact Function.iterate_succ_apply' _ _ _
  have hst : ∀ i, stateAt (ltBody eigh (ltSquareR a) g a) (ltInit g 0 rho) (J + i) = q i := fun i => by
    rw [← hstd, hiter, hqd]
  have hqr : ∀ i, (q i).rho = (st J).rho := fun i => by rw [hqd]; exact ltNext_iter_rho _ _ _ _ _ _
  have hpass : ∀ i, LPass (sqProb (pairEp g) o.empCov 1 o.alpha o.tau (pairPen a.wPsi psi) (pairPen a.wPhi phi))
      (st J).rho (ltLSt (q i)) (ltLSt (q (i + 1))) := by
    intro i
    have hrho := hqr i
    rw [hqs]
    generalize q i = s at *
    have h := ltNext_pass (rUpd := ltSquareR a) (g := g) (a := a) (DR := Set.univ)
      (grad := fun R => (2 * 1 : ℝ) • (R - o.empCov)) he covers_chain tglDivisor_pos hal.le hw hv cpsi cphi ppsi pphi
      (s := s) (by rw [hrho]; exact hrJ) trivial (fun Y _ => by
        have hz : (2 * 1 : ℝ) • ((ltSquareR a s.rho fun t => s.Z0 t - s.W0 t - s.X0 t) - o.empCov) +
            s.rho • ((ltSquareR a s.rho fun t => s.Z0 t - s.W0 t - s.X0 t) - fun t => s.Z0 t - s.W0 t - s.X0 t) = 0 := by
          funext t
          ext i l
          have : (2 + s.rho) ≠ 0 := by rw [hrho]; positivity
          have e : a.empCov = o.empCov := rfl
          simp only [ltSquareR, Pi.add_apply, Pi.smul_apply, Pi.sub_apply, Matrix.add_apply, Matrix.smul_apply,
            Matrix.sub_apply, smul_eq_mul, Pi.zero_apply, Matrix.zero_apply, e]
          field_simp
          ring
        rw [hz]
        unfold famIn
        simp)
    rw [hrho] at h
    exact h
  obtain ⟨lim, hlim, hR, hT⟩ := sq_main (c := 1) one_pos hal hta (pairFam_nonneg hw npsi) (pairFam_nonneg hv nphi)
    (pairFam_continuous _ cpsi) (pairFam_continuous _ cphi) (pairFam_convex hw cpsi) (pairFam_convex hv cphi)
    hrJ (by linarith) hpass
  obtain ⟨hmin, -⟩ := sq_min_of_pass one_pos hlim
  have hfR := hlim.penalties.1
  have hZP : lim.ZP = pull (pairEp g) lim.Z := by
    have := hlim.xp
    rw [left_eq_add, sub_eq_zero] at this
    exact this.symm
  have hWP : lim.WP = pull (pairEp g) lim.W := by
    have := hlim.up
    rw [left_eq_add, sub_eq_zero] at this
    exact this.symm
  have hobj : decompositionObjective o.empCov o.alpha o.tau beta eta absSumMat psi phi =
      sqObj (pairEp g) o.empCov 1 o.alpha o.tau (pairPen a.wPsi psi) (pairPen a.wPhi phi) := by
    funext p
    have e1 : famSq (o.empCov - (p.1 - p.2)) = ∑ t, frobSq (o.empCov t - (p.1 t - p.2 t)) := rfl
    have e2 : pairPen a.wPsi psi (pull (pairEp g) p.1) = beta * chainCoupling psi p.1 := by
      unfold pairPen chainCoupling
      rw [Finset.mul_sum]
      rfl
    have e3 : pairPen a.wPhi phi (pull (pairEp g) p.2) = eta * chainCoupling phi p.2 := by
      unfold pairPen chainCoupling
      rw [Finset.mul_sum]
      rfl
    unfold decompositionObjective sqObj latPen
    rw [e1, e2, e3]
    ring
  obtain ⟨c1, c2⟩ := lt_settled_calls (Nat.succ_pos T) a hi hd 0 hr hqs hst hrJ hqr hfR hZP hWP hR hT
  exact ⟨(lim.Z, lim.W), by rw [hobj]; exact hmin, c1, c2⟩

/-- Non-vacuity for `C156_decomposition_adaptive`: the default rule with l1 couplings. -/
example (T : ℕ) : ∃ (eigh : Eigh (Fin 2)) (o : LTOptions (T + 1) (Fin 2)), IsEighOracle eigh ∧ 0 < o.alpha ∧ 0 ≤ o.tau ∧
    ConvexPen (absSumMat (m := Fin 2) (n := Fin 2)) ∧ IsProxOf absSumMat o.proxPsi ∧ IsProxOf absSumMat o.proxPhi ∧
    (∀ X : Matrix (Fin 2) (Fin 2) ℝ, 0 ≤ absSumMat X) ∧ o.rhoOptions = {} ∧ 0 < o.rhoOptions.tauInc ∧
    0 < o.rhoOptions.tauDec := by
  obtain ⟨eigh, he⟩ := exists_eighOracle (n := Fin 2)
  exact ⟨eigh, ⟨fun _ => 1, fun _ => 1, 1, 1, softThresholdingMat, softThresholdingMat, 1, 1, {}⟩, he, one_pos,
    zero_le_one, absSumMat_convexPen, soft_isProxOf, soft_isProxOf,
    fun X => Finset.sum_nonneg fun _ _ => Finset.sum_nonneg fun _ _ => abs_nonneg _, rfl, by norm_num, by norm_num⟩

end Verif.Props
