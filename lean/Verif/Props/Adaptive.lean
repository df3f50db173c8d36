import Verif.Props.Certificate

/-! Property theorem C134 (convergence under any penalty rule that changes the penalty finitely often). -/

namespace Verif.Props

open Verif.Model Verif.Spec Verif.Lemmas Matrix Filter Topology

set_option autoImplicit false
set_option linter.unusedSectionVars false

variable {n : Type*} [Fintype n] [DecidableEq n] {k : ℕ} {E : Type*} [Fintype E]

/-- A sequence that changes from one index to the next infinitely often. -/
def ChangesForever (r : ℕ → ℝ) : Prop := ∀ J, ∃ j, J ≤ j ∧ r (j + 1) ≠ r j

theorem settles_of_not {r : ℕ → ℝ} (h : ¬ ChangesForever r) : ∃ J, ∀ j, J ≤ j → r (j + 1) = r j := by
  unfold ChangesForever at h
  push Not at h
  exact h

theorem settled_iter {σ κ : Type*} (body : ℕ → σ → σ × κ × Bool) (s : σ) (next : σ → σ) {J : ℕ}
    (h : ∀ j, J ≤ j → stateAt body s (j + 1) = next (stateAt body s j)) (i : ℕ) :
    stateAt body s (J + i) = next^[i] (stateAt body s J) := by
  induction i with
  | zero => rfl
  | succ i ih => rw [← add_assoc, h _ (by omega), ih, Function.iterate_succ_apply']

theorem _root_.Verif.Spec.UniqueMin.unique {α : Type*} {s : Set α} {f : α → ℝ} {x y : α} (hx : UniqueMin s f x)
    (hy : UniqueMin s f y) : x = y := by
  by_contra h
  exact absurd (hx.2 y hy.1 (Ne.symm h)) (not_lt.mpr (hy.2 x hx.1 h).le)

/-! ### Time-varying solver -/

variable {T : ℕ}

/-- The value of the local variable `rho` at the start of pass `j` of a call that is not stopped. -/
noncomputable def tglPenalty (eigh : Eigh n) (a : TGLArgs T n) (K0 : Batch (T + 1) n) (rho : ℝ) (j : ℕ) : ℝ :=
  (stateAt (tglBody eigh a) (tglInit K0 rho) j).rho

theorem tglBody_keep (eigh : Eigh n) (a : TGLArgs T n) (it : ℕ) (s : TGLState T n) (hr : s.rho ≠ 0)
    (h : (tglBody eigh a it s).1.rho = s.rho) : (tglBody eigh a it s).1 = tglNext eigh a s := by
  unfold tglBody at h ⊢
  simp only at h ⊢
  split at h
  · rw [if_pos (by assumption)]
  · rw [if_neg (by assumption)]
    have h' : updateRho a.rhoOptions s.rho _ _ = s.rho := h
    rw [h']
    exact tglRescale_self (tglNext eigh a s) hr

theorem tglIter_rho (eigh : Eigh n) (a : TGLArgs T n) (s : TGLState T n) (j : ℕ) :
    ((tglNext eigh a)^[j] s).rho = s.rho := by
  induction j with
  | zero => rfl
  | succ j ih => rw [Function.iterate_succ_apply']; exact ih

theorem tglRunFrom {eigh : Eigh n} (he : IsEighOracle eigh) (a : TGLArgs T n)
    (hS : ∀ t, (a.empCov t).IsSymm) (hn : ∀ t, 0 < a.nSamples t) (s : TGLState T n) (hr : 0 < s.rho) :
    PassRun (chainPairs T) tglDivisor a.empCov a.nSamples a.alpha (fun _ => a.beta) a.prox s.rho
      (fun j => tglK eigh a ((tglNext eigh a)^[j] s))
      (fun j => ((tglNext eigh a)^[j] s).Z0) (fun j => ((tglNext eigh a)^[j] s).U0)
      (fun j => ((tglNext eigh a)^[j] s).Z1) (fun j => ((tglNext eigh a)^[j] s).Z2)
      (fun j => ((tglNext eigh a)^[j] s).U1) (fun j => ((tglNext eigh a)^[j] s).U2) := by
  have hrho := tglIter_rho eigh a s
  refine ⟨fun j t => (tglK_spec he a _ t (hS t) (hn t) (by rw [hrho]; exact hr)).1, fun j t => ?_, ?_, ?_, ?_,
    ?_, ?_, ?_⟩
  · have := (tglK_spec he a ((tglNext eigh a)^[j] s) t (hS t) (hn t) (by rw [hrho]; exact hr)).2
    rw [hrho] at this
    have e1 : scatter (chainPairs T).src (fun e => ((tglNext eigh a)^[j] s).Z1 e
        - ((tglNext eigh a)^[j] s).U1 e) t = _ := scatter_castSucc _ t
    have e2 : scatter (chainPairs T).dst (fun e => ((tglNext eigh a)^[j] s).Z2 e
        - ((tglNext eigh a)^[j] s).U2 e) t = _ := scatter_succ _ t
    rw [e1, e2]
    exact this
  all_goals intro j i; simp only [Function.iterate_succ_apply']; unfold tglNext; simp only [← hrho j] <;> rfl

theorem tglCall_shape (eigh : Eigh n) (a : TGLArgs T n) (K0 : Batch (T + 1) n) (rho : ℝ) {m : ℕ} (hm : 1 ≤ m)
    (rh rn : Bool) : ∃ h it, timeGraphicalLasso eigh a K0 rho m rh rn =
        .ok (runLoop (tglBody eigh a) m (tglInit K0 rho)).state.Z0 h it
          (!(runLoop (tglBody eigh a) m (tglInit K0 rho)).broke) := by
  obtain ⟨it, hit⟩ := runLoop_lastIter (tglBody eigh a) (tglInit K0 rho) hm
  unfold timeGraphicalLasso
  simp only
  rw [hit]
  cases rn
  · exact ⟨_, _, rfl⟩
  · exact ⟨_, _, rfl⟩

/-- C134 (time-varying graphical lasso): the problem has exactly one optimum `X`. With any rule for the penalty
parameter (default or not), unless the penalty changes infinitely often, for `tol > 0` every call with `max_iter`
large enough ends without the warning, and for `tol = rtol = 0` the returned precision converges to `X` as
`max_iter` grows. -/
theorem C134_time [Nonempty n] {eigh : Eigh n} (he : IsEighOracle eigh) (a : TGLArgs T n)
    (hS : ∀ t, (a.empCov t).PosSemidef) (hn : ∀ t, 0 < a.nSamples t) (hal : 0 < a.alpha) (hbe : 0 ≤ a.beta)
    (hconv : ConvexPen a.psi) (hpos : ∀ X, 0 ≤ a.psi X) (hprox : IsProxOf a.psi a.prox)
    (hi : 0 < a.rhoOptions.tauInc) (hd : 0 < a.rhoOptions.tauDec) (hst : a.stopAt = none)
    (K0 : Batch (T + 1) n) {rho : ℝ} (hr : 0 < rho) :
    ∃ X, UniqueMin (PDSeq (T + 1) n)
        (timeObjective a.empCov a.nSamples a.alpha a.beta absSumMat a.psi) X ∧
      (0 < a.tol → 0 ≤ a.rtol → ChangesForever (tglPenalty eigh a K0 rho) ∨
        ∃ M, ∀ m, M ≤ m → ∀ rh rn, ∃ Z h it, timeGraphicalLasso eigh a K0 rho m rh rn = .ok Z h it false) ∧
      (a.tol = 0 → a.rtol = 0 → ChangesForever (tglPenalty eigh a K0 rho) ∨
        ∀ ε, 0 < ε → ∃ M, ∀ m, M ≤ m → ∀ rh rn, ∃ Z h it w,
          timeGraphicalLasso eigh a K0 rho m rh rn = .ok Z h it w ∧ CloseSeq ε Z X) := by
  have hSs : ∀ t, (a.empCov t).IsSymm := fun t => by
    have := (hS t).isHermitian
    rwa [IsHermitian, conjTranspose_eq_transpose_of_trivial] at this
  have hobj : timeObjective a.empCov a.nSamples a.alpha a.beta absSumMat a.psi =
      pairTimeObjective (chainPairs T) a.empCov a.nSamples a.alpha (fun _ => a.beta) a.psi := by
    funext Y
    unfold timeObjective pairTimeObjective
    rw [Finset.mul_sum Finset.univ _ a.beta, add_assoc]
    rfl
  rw [hobj]
  set st := stateAt (tglBody eigh a) (tglInit K0 rho) with hstd
  have hf : ∀ j, 0 < (st j).rho := fun j => (tgl_run_facts he a hSs hn hi hd K0 hr j).1.1
  have hold := fun j => (tgl_run_facts he a hSs hn hi hd K0 hr j).2
  have hmain := fun s (hs : 0 < TGLState.rho s) =>
    (tglRunFrom he a hSs hn s hs).main (psi := a.psi) covers_chain hS hn hal hs (fun _ => hbe) hconv hpos hprox
  obtain ⟨X, hX, -⟩ := hmain (st 0) (hf 0)
  -- from the pass at which the penalty settles
  have hset : ¬ ChangesForever (tglPenalty eigh a K0 rho) → ∃ J, ∀ i, st (J + i) = (tglNext eigh a)^[i] (st J) := by
    intro h
    obtain ⟨J, hJ⟩ := settles_of_not h
    exact ⟨J, settled_iter _ _ _ fun j hj => tglBody_keep eigh a j _ (hf j).ne' (hJ j hj)⟩
  refine ⟨X, hX, fun htol hrtol => or_iff_not_imp_left.mpr fun hch => ?_,
    fun htol hrtol => or_iff_not_imp_left.mpr fun hch ε hε => ?_⟩
  · obtain ⟨J, hJ⟩ := hset hch
    obtain ⟨-, -, hpri, hdual, -⟩ := hmain (st J) (hf J)
    set c : ℝ := Real.sqrt ((T + 1) * ((Fintype.card n : ℝ) * (Fintype.card n : ℝ))
      + 2 * (T * ((Fintype.card n : ℝ) * (Fintype.card n : ℝ)))) with hc
    have hsize : 0 < c := by
      have h1 : (0 : ℝ) < Fintype.card n := by exact_mod_cast Fintype.card_pos
      rw [hc]
      positivity
    have hrJ := hf J
    have e1 := eventually_sqrt_le hpri (b := c * a.tol) (by positivity)
    have e2 := eventually_sqrt_le hdual (b := c * a.tol / (st J).rho) (by positivity)
    obtain ⟨i, hi'⟩ := eventually_atTop.mp (e1.and e2)
    obtain ⟨h1, h2⟩ := hi' (i + 1) (by omega)
    have hstop : Lemmas.stopAt (tglBody eigh a) (tglInit K0 rho) (J + i + 1) = true := by
      change (tglBody eigh a (J + i + 1) (st (J + i + 1))).2.2 = true
      obtain ⟨o0, o1, o2⟩ := hold (J + i)
      rw [← hstd] at o0 o1 o2
      have es : st (J + i + 1) = (tglNext eigh a)^[i + 1] (st J) := hJ (i + 1)
      have en : tglNext eigh a (st (J + i + 1)) = (tglNext eigh a)^[i + 1 + 1] (st J) := by
        rw [es, ← Function.iterate_succ_apply' (tglNext eigh a)]
      have er : (st (J + i + 1)).rho = (st J).rho := by rw [es, tglIter_rho]
      unfold tglBody
      simp only [hst, stopAtTest, Bool.false_or, decide_eq_true_eq]
      unfold tglDiagnose
      simp only [o0, o1, o2]
      rw [en, er, es]
      constructor
      · refine le_trans (le_of_eq ?_) (h1.trans (le_add_of_nonneg_right
          (mul_nonneg hrtol (le_max_of_le_left (Real.sqrt_nonneg _)))))
        unfold passPri
        rw [add_assoc]
        rfl
      · have h3 : (st J).rho * Real.sqrt (passDual (fun j => ((tglNext eigh a)^[j] (st J)).Z0)
            (fun j => ((tglNext eigh a)^[j] (st J)).Z1) (fun j => ((tglNext eigh a)^[j] (st J)).Z2) (i + 1))
            ≤ c * a.tol := by
          rw [le_div_iff₀ hrJ] at h2
          linarith
        refine le_trans (le_of_eq ?_) (h3.trans (le_add_of_nonneg_right
          (mul_nonneg (mul_nonneg hrtol hrJ.le) (Real.sqrt_nonneg _))))
        unfold passDual
        rw [add_assoc]
        rfl
    refine ⟨J + i + 2, fun m hm rh rn => ?_⟩
    obtain ⟨h, it, hcall⟩ := tglCall_shape eigh a K0 rho (m := m) (by omega) rh rn
    rw [runLoop_broke _ _ hstop (by omega)] at hcall
    exact ⟨_, h, it, hcall⟩
  · obtain ⟨J, hJ⟩ := hset hch
    obtain ⟨X', hX', -, -, -, hZ, -⟩ := hmain (st J) (hf J)
    have hXX : X' = X := hX'.unique hX
    rw [hXX] at hZ
    obtain ⟨N, hN⟩ := eventually_atTop.mp (closeSeq_eventually hZ hε)
    refine ⟨J + N + 1, fun m hm rh rn => ?_⟩
    obtain ⟨h, it, hcall⟩ := tglCall_shape eigh a K0 rho (m := m) (by omega) rh rn
    refine ⟨_, h, it, _, hcall, ?_⟩
    refine runLoop_property (tglBody eigh a) (tglInit K0 rho) (Q := fun s => CloseSeq ε s.Z0 X) (M := J + N)
      (fun j hj => ?_) (fun j hj => ?_) (by omega)
    · obtain ⟨i, rfl⟩ : ∃ i, j = J + i := ⟨j - J, by omega⟩
      change CloseSeq ε (st (J + i)).Z0 X
      rw [hJ i]
      exact hN i (by omega)
    · -- a stop with tolerance zero happens at the optimum only
      change (tglBody eigh a j (st j)).2.2 = true at hj
      have hnx : (stateAt (tglBody eigh a) (tglInit K0 rho) (j + 1)).Z0 = (tglNext eigh a (st j)).Z0 := by
        change (tglBody eigh a j (st j)).1.Z0 = _
        unfold tglBody; simp only; split <;> rfl
      rw [hnx]
      unfold tglBody at hj
      simp only [hst, stopAtTest, Bool.false_or, decide_eq_true_eq] at hj
      obtain ⟨h1, h2⟩ := hj
      unfold tglDiagnose at h1 h2
      simp only [htol, hrtol, mul_zero, zero_mul, add_zero] at h1 h2
      have h2' := nonpos_of_mul_nonpos_right h2 (hf j)
      obtain ⟨X'', hX'', -, -, -, -, hexact⟩ := hmain (st j) (hf j)
      have q1 := Real.sqrt_eq_zero'.mp (le_antisymm h1 (Real.sqrt_nonneg _))
      have q2 := Real.sqrt_eq_zero'.mp (le_antisymm h2' (Real.sqrt_nonneg _))
      cases j with
      | zero =>
        exfalso
        have z1 := zero_of_batchSq (batch_eq_zero_of_sqrt (by unfold batchSq; positivity)
          (by unfold batchSq; positivity) (by unfold batchSq; positivity) h1) 0
        have z2 := zero_of_batchSq (batch_eq_zero_of_sqrt (by unfold batchSq; positivity)
          (by unfold batchSq; positivity) (by unfold batchSq; positivity) h2') 0
        have hK : tglK eigh a (st 0) 0 = 0 := by
          have e1 := sub_eq_zero.mp z1
          have e2 := sub_eq_zero.mp z2
          rw [e1, e2]; rfl
        have hpd := (tglK_spec he a (st 0) 0 (hSs 0) (hn 0) (hf 0)).1
        rw [hK] at hpd
        exact absurd hpd.det_pos (by simp)
      | succ j =>
        obtain ⟨o0, o1, o2⟩ := hold j
        rw [← hstd] at o0 o1 o2
        rw [o0, o1, o2] at q2
        have hz := hexact 0 (le_antisymm (by unfold passPri; rw [← add_assoc]; exact q1)
            (add_nonneg (sum_frobSq_nonneg _) (add_nonneg (sum_frobSq_nonneg _) (sum_frobSq_nonneg _))))
          (le_antisymm (by unfold passDual; rw [← add_assoc]; exact q2)
            (add_nonneg (sum_frobSq_nonneg _) (add_nonneg (sum_frobSq_nonneg _) (sum_frobSq_nonneg _))))
        have hz' : (tglNext eigh a (st (j + 1))).Z0 = X'' := hz
        rw [hz', hX''.unique hX]
        intro t i l
        rw [sub_self, abs_zero]
        exact hε.le

/-! ### Kernel solver -/

/-- The value of the local variable `rho` at the start of pass `j` of a call that is not stopped. -/
noncomputable def ktPenalty (eigh : Eigh n) (g : TimePairs k E) (a : KTArgs k E n) (K0 : Batch k n) (rho : ℝ) (j : ℕ) : ℝ :=
  (stateAt (ktBody eigh g a) (ktInit g K0 rho) j).rho

theorem ktBody_keep (eigh : Eigh n) (g : TimePairs k E) (a : KTArgs k E n) (it : ℕ) (s : KTState k E n) (hr : s.rho ≠ 0)
    (h : (ktBody eigh g a it s).1.rho = s.rho) : (ktBody eigh g a it s).1 = ktNext eigh g a s := by
  unfold ktBody at h ⊢
  simp only at h ⊢
  split at h
  · rw [if_pos (by assumption)]
  · rw [if_neg (by assumption)]
    have h' : updateRho a.rhoOptions s.rho _ _ = s.rho := h
    rw [h']
    exact ktRescale_self (ktNext eigh g a s) hr

theorem ktIter_rho (eigh : Eigh n) (g : TimePairs k E) (a : KTArgs k E n) (s : KTState k E n) (j : ℕ) :
    ((ktNext eigh g a)^[j] s).rho = s.rho := by
  induction j with
  | zero => rfl
  | succ j ih => rw [Function.iterate_succ_apply']; exact ih

theorem ktRunFrom {eigh : Eigh n} (he : IsEighOracle eigh) (g : TimePairs k E) (a : KTArgs k E n)
    (hS : ∀ t, (a.empCov t).IsSymm) (hn : ∀ t, 0 < a.nSamples t) (s : KTState k E n) (hr : 0 < s.rho) :
    PassRun g (fun _ => (k : ℝ)) a.empCov a.nSamples a.alpha a.weight a.prox s.rho
      (fun j => ktK eigh g a ((ktNext eigh g a)^[j] s))
      (fun j => ((ktNext eigh g a)^[j] s).Z0) (fun j => ((ktNext eigh g a)^[j] s).U0)
      (fun j => ((ktNext eigh g a)^[j] s).ZL) (fun j => ((ktNext eigh g a)^[j] s).ZR)
      (fun j => ((ktNext eigh g a)^[j] s).UL) (fun j => ((ktNext eigh g a)^[j] s).UR) := by
  have hrho := ktIter_rho eigh g a s
  refine ⟨fun j t => (ktK_spec he g a _ t (hS t) (hn t) (by rw [hrho]; exact hr)).1, fun j t => ?_, ?_, ?_, ?_,
    ?_, ?_, ?_⟩
  · have := (ktK_spec he g a ((ktNext eigh g a)^[j] s) t (hS t) (hn t) (by rw [hrho]; exact hr)).2
    rw [hrho] at this
    exact this
  all_goals intro j i; simp only [Function.iterate_succ_apply']; unfold ktNext; simp only [← hrho j] <;> rfl

/-- The two conclusions for a list of pairs. -/
theorem kt_adaptive [Nonempty n] (hk : 0 < k) {eigh : Eigh n} (he : IsEighOracle eigh) {g : TimePairs k E}
    (hg : Covers g (fun _ => (k : ℝ)) n) (a : KTArgs k E n)
    (hS : ∀ t, (a.empCov t).PosSemidef) (hn : ∀ t, 0 < a.nSamples t) (hal : 0 < a.alpha)
    (hw : ∀ e, 0 ≤ a.weight e)
    (hconv : ConvexPen a.psi) (hpos : ∀ X, 0 ≤ a.psi X) (hprox : IsProxOf a.psi a.prox)
    (hi : 0 < a.rhoOptions.tauInc) (hd : 0 < a.rhoOptions.tauDec) (hst : a.stopAt = none)
    (K0 : Batch k n) {rho : ℝ} (hr : 0 < rho) :
    ∃ X, UniqueMin (PDSeq k n) (pairTimeObjective g a.empCov a.nSamples a.alpha a.weight a.psi) X ∧
      (0 < a.tol → 0 ≤ a.rtol → ChangesForever (ktPenalty eigh g a K0 rho) ∨
        ∃ M, ∀ m, M ≤ m → (runLoop (ktBody eigh g a) m (ktInit g K0 rho)).broke = true) ∧
      (a.tol = 0 → a.rtol = 0 → ChangesForever (ktPenalty eigh g a K0 rho) ∨
        ∀ ε, 0 < ε → ∃ M, ∀ m, M ≤ m →
          CloseSeq ε (runLoop (ktBody eigh g a) m (ktInit g K0 rho)).state.Z0 X) := by
  have hSs : ∀ t, (a.empCov t).IsSymm := fun t => by
    have := (hS t).isHermitian
    rwa [IsHermitian, conjTranspose_eq_transpose_of_trivial] at this
  set st := stateAt (ktBody eigh g a) (ktInit g K0 rho) with hstd
  have hf : ∀ j, 0 < (st j).rho := fun j => (kt_run_facts he g a hSs hn hi hd K0 hr j).1.1
  have hold := fun j => (kt_run_facts he g a hSs hn hi hd K0 hr j).2
  have hmain := fun s (hs : 0 < KTState.rho s) =>
    (ktRunFrom he g a hSs hn s hs).main (psi := a.psi) hg hS hn hal hs (fun e => hw e) hconv hpos hprox
  obtain ⟨X, hX, -⟩ := hmain (st 0) (hf 0)
  -- from the pass at which the penalty settles
  have hset : ¬ ChangesForever (ktPenalty eigh g a K0 rho) → ∃ J, ∀ i, st (J + i) = (ktNext eigh g a)^[i] (st J) := by
    intro h
    obtain ⟨J, hJ⟩ := settles_of_not h
    exact ⟨J, settled_iter _ _ _ fun j hj => ktBody_keep eigh g a j _ (hf j).ne' (hJ j hj)⟩
  refine ⟨X, hX, fun htol hrtol => or_iff_not_imp_left.mpr fun hch => ?_,
    fun htol hrtol => or_iff_not_imp_left.mpr fun hch ε hε => ?_⟩
  · obtain ⟨J, hJ⟩ := hset hch
    obtain ⟨-, -, hpri, hdual, -⟩ := hmain (st J) (hf J)
    set c : ℝ := Fintype.card n * k with hc
    have hsize : 0 < c := by
      have h1 : (0 : ℝ) < Fintype.card n := by exact_mod_cast Fintype.card_pos
      have h2 : (0 : ℝ) < k := by exact_mod_cast hk
      rw [hc]
      positivity
    have hrJ := hf J
    have e1 := eventually_sqrt_le hpri (b := c * a.tol) (by positivity)
    have e2 := eventually_sqrt_le hdual (b := c * a.tol / (st J).rho) (by positivity)
    obtain ⟨i, hi'⟩ := eventually_atTop.mp (e1.and e2)
    obtain ⟨h1, h2⟩ := hi' (i + 1) (by omega)
    have hstop : Lemmas.stopAt (ktBody eigh g a) (ktInit g K0 rho) (J + i + 1) = true := by
      change (ktBody eigh g a (J + i + 1) (st (J + i + 1))).2.2 = true
      obtain ⟨o0, o1, o2⟩ := hold (J + i)
      rw [← hstd] at o0 o1 o2
      have es : st (J + i + 1) = (ktNext eigh g a)^[i + 1] (st J) := hJ (i + 1)
      have en : ktNext eigh g a (st (J + i + 1)) = (ktNext eigh g a)^[i + 1 + 1] (st J) := by
        rw [es, ← Function.iterate_succ_apply' (ktNext eigh g a)]
      have er : (st (J + i + 1)).rho = (st J).rho := by rw [es, ktIter_rho]
      unfold ktBody
      simp only [hst, stopAtTest, Bool.false_or, decide_eq_true_eq]
      unfold ktDiagnose
      simp only [o0, o1, o2]
      rw [en, er, es]
      constructor
      · refine le_trans (le_of_eq ?_) (h1.trans (le_add_of_nonneg_right
          (mul_nonneg hrtol (le_max_of_le_left (Real.sqrt_nonneg _)))))
        rfl
      · have h3 : (st J).rho * Real.sqrt (passDual (fun j => ((ktNext eigh g a)^[j] (st J)).Z0)
            (fun j => ((ktNext eigh g a)^[j] (st J)).ZL) (fun j => ((ktNext eigh g a)^[j] (st J)).ZR) (i + 1))
            ≤ c * a.tol := by
          rw [le_div_iff₀ hrJ] at h2
          linarith
        refine le_trans (le_of_eq ?_) (h3.trans (le_add_of_nonneg_right
          (mul_nonneg (mul_nonneg hrtol hrJ.le) (Real.sqrt_nonneg _))))
        rfl
    exact ⟨J + i + 2, fun m hm => runLoop_broke _ _ hstop (by omega)⟩
  · obtain ⟨J, hJ⟩ := hset hch
    obtain ⟨X', hX', -, -, -, hZ, -⟩ := hmain (st J) (hf J)
    have hXX : X' = X := hX'.unique hX
    rw [hXX] at hZ
    obtain ⟨N, hN⟩ := eventually_atTop.mp (closeSeq_eventually hZ hε)
    refine ⟨J + N + 1, fun m hm => ?_⟩
    refine runLoop_property (ktBody eigh g a) (ktInit g K0 rho) (Q := fun s => CloseSeq ε s.Z0 X) (M := J + N)
      (fun j hj => ?_) (fun j hj => ?_) (by omega)
    · obtain ⟨i, rfl⟩ : ∃ i, j = J + i := ⟨j - J, by omega⟩
      change CloseSeq ε (st (J + i)).Z0 X
      rw [hJ i]
      exact hN i (by omega)
    · -- a stop with tolerance zero happens at the optimum only
      change (ktBody eigh g a j (st j)).2.2 = true at hj
      have hnx : (stateAt (ktBody eigh g a) (ktInit g K0 rho) (j + 1)).Z0 = (ktNext eigh g a (st j)).Z0 := by
        change (ktBody eigh g a j (st j)).1.Z0 = _
        unfold ktBody; simp only; split <;> rfl
      rw [hnx]
      unfold ktBody at hj
      simp only [hst, stopAtTest, Bool.false_or, decide_eq_true_eq] at hj
      obtain ⟨h1, h2⟩ := hj
      unfold ktDiagnose at h1 h2
      simp only [htol, hrtol, mul_zero, zero_mul, add_zero] at h1 h2
      have h2' := nonpos_of_mul_nonpos_right h2 (hf j)
      obtain ⟨X'', hX'', -, -, -, -, hexact⟩ := hmain (st j) (hf j)
      have q1 := Real.sqrt_eq_zero'.mp (le_antisymm h1 (Real.sqrt_nonneg _))
      have q2 := Real.sqrt_eq_zero'.mp (le_antisymm h2' (Real.sqrt_nonneg _))
      cases j with
      | zero =>
        exfalso
        rw [← add_assoc] at h1 h2'
        have z1 := zero_of_batchSq (batch_eq_zero_of_sqrt (by unfold batchSq; positivity)
          (by unfold pairSq; positivity) (by unfold pairSq; positivity) h1) ⟨0, hk⟩
        have z2 := zero_of_batchSq (batch_eq_zero_of_sqrt (by unfold batchSq; positivity)
          (by unfold pairSq; positivity) (by unfold pairSq; positivity) h2') ⟨0, hk⟩
        have hK : ktK eigh g a (st 0) ⟨0, hk⟩ = 0 := by
          have e1 := sub_eq_zero.mp z1
          have e2 := sub_eq_zero.mp z2
          rw [e1, e2]; rfl
        have hpd := (ktK_spec he g a (st 0) ⟨0, hk⟩ (hSs _) (hn _) (hf 0)).1
        rw [hK] at hpd
        exact absurd hpd.det_pos (by simp)
      | succ j =>
        obtain ⟨o0, o1, o2⟩ := hold j
        rw [← hstd] at o0 o1 o2
        rw [o0, o1, o2] at q2
        have hz := hexact 0 (le_antisymm (by exact q1)
            (add_nonneg (sum_frobSq_nonneg _) (add_nonneg (sum_frobSq_nonneg _) (sum_frobSq_nonneg _))))
          (le_antisymm (by exact q2)
            (add_nonneg (sum_frobSq_nonneg _) (add_nonneg (sum_frobSq_nonneg _) (sum_frobSq_nonneg _))))
        have hz' : (ktNext eigh g a (st (j + 1))).Z0 = X'' := hz
        rw [hz', hX''.unique hX]
        intro t i l
        rw [sub_self, abs_zero]
        exact hε.le


theorem kernelWeight_nonneg {kernel : Option (Fin k → Fin k → ℝ)} (hker : ∀ s t, s < t → 0 ≤ kernelOf kernel s t)
    (e : PairIdx k) : 0 ≤ kernelWeight kernel e := by
  have := hker e.1.1 e.1.2 e.2
  cases kernel <;> exact this

theorem ktCall_shape (eigh : Eigh n) (a : KTArgs k Empty n) (kernel : Option (Fin k → Fin k → ℝ)) (K0 : Batch k n)
    (rho : ℝ) {m : ℕ} (hm : 1 ≤ m) (rh rn : Bool) : ∃ h it, kernelTimeGraphicalLasso eigh a kernel K0 rho m rh rn =
      .ok (runLoop (ktBody eigh (allPairs k) (ktArgsOf a kernel)) m (ktInit (allPairs k) K0 rho)).state.Z0 h it
        (!(runLoop (ktBody eigh (allPairs k) (ktArgsOf a kernel)) m (ktInit (allPairs k) K0 rho)).broke) := by
  obtain ⟨it, hit⟩ := runLoop_lastIter (ktBody eigh (allPairs k) (ktArgsOf a kernel)) (ktInit (allPairs k) K0 rho) hm
  unfold kernelTimeGraphicalLasso
  simp only
  rw [hit]
  cases rn
  · exact ⟨_, _, rfl⟩
  · exact ⟨_, _, rfl⟩

/-- C134 (kernel solver): as `C134_time`. -/
theorem C134_kernel [Nonempty n] (hk : 0 < k) {eigh : Eigh n} (he : IsEighOracle eigh) (a : KTArgs k Empty n)
    (kernel : Option (Fin k → Fin k → ℝ)) (hker : ∀ s t, s < t → 0 ≤ kernelOf kernel s t)
    (hS : ∀ t, (a.empCov t).PosSemidef) (hn : ∀ t, 0 < a.nSamples t) (hal : 0 < a.alpha)
    (hconv : ConvexPen a.psi) (hpos : ∀ X, 0 ≤ a.psi X) (hprox : IsProxOf a.psi a.prox)
    (hi : 0 < a.rhoOptions.tauInc) (hd : 0 < a.rhoOptions.tauDec) (hst : a.stopAt = none)
    (K0 : Batch k n) {rho : ℝ} (hr : 0 < rho) :
    ∃ X, UniqueMin (PDSeq k n)
        (kernelObjective a.empCov a.nSamples a.alpha (kernelOf kernel) absSumMat a.psi) X ∧
      (0 < a.tol → 0 ≤ a.rtol → ChangesForever (ktPenalty eigh (allPairs k) (ktArgsOf a kernel) K0 rho) ∨
        ∃ M, ∀ m, M ≤ m → ∀ rh rn, ∃ Z h it,
          kernelTimeGraphicalLasso eigh a kernel K0 rho m rh rn = .ok Z h it false) ∧
      (a.tol = 0 → a.rtol = 0 → ChangesForever (ktPenalty eigh (allPairs k) (ktArgsOf a kernel) K0 rho) ∨
        ∀ ε, 0 < ε → ∃ M, ∀ m, M ≤ m → ∀ rh rn, ∃ Z h it w,
          kernelTimeGraphicalLasso eigh a kernel K0 rho m rh rn = .ok Z h it w ∧ CloseSeq ε Z X) := by
  have hobj : kernelObjective a.empCov a.nSamples a.alpha (kernelOf kernel) absSumMat a.psi =
      pairTimeObjective (allPairs k) a.empCov a.nSamples a.alpha (kernelWeight kernel) a.psi := by
    funext Y
    unfold kernelObjective pairTimeObjective
    rw [kernelCoupling_eq, add_assoc]
  obtain ⟨X, hX, h1, h2⟩ := kt_adaptive hk he covers_all (ktArgsOf a kernel) hS hn hal (kernelWeight_nonneg hker)
    hconv hpos hprox hi hd hst K0 hr
  rw [hobj]
  refine ⟨X, hX, fun t r => ?_, fun t r => ?_⟩
  · rcases h1 t r with hc | ⟨M, hM⟩
    · exact Or.inl hc
    refine Or.inr ⟨M + 1, fun m hm rh rn => ?_⟩
    obtain ⟨h, it, hcall⟩ := ktCall_shape eigh a kernel K0 rho (m := m) (by omega) rh rn
    rw [hM m (by omega)] at hcall
    exact ⟨_, h, it, hcall⟩
  · rcases h2 t r with hc | hc
    · exact Or.inl hc
    refine Or.inr fun ε hε => ?_
    obtain ⟨M, hM⟩ := hc ε hε
    refine ⟨M + 1, fun m hm rh rn => ?_⟩
    obtain ⟨h, it, hcall⟩ := ktCall_shape eigh a kernel K0 rho (m := m) (by omega) rh rn
    exact ⟨_, h, it, _, hcall, hM m (by omega)⟩

/-! ### Graphical lasso -/

/-- The value of the local variable `rho` at the start of pass `j` of a call that is not stopped. -/
noncomputable def glPenalty (eigh : Eigh n) (a : GLArgs n) (Z0 : Matrix n n ℝ) (rho : ℝ) (j : ℕ) : ℝ :=
  (stateAt (glBody eigh a) (glInit Z0 rho) j).rho

/-- The pass without a penalty change. -/
noncomputable def glNext (eigh : Eigh n) (a : GLArgs n) (s : GLState n) : GLState n :=
  ⟨nextZ eigh a s, nextU eigh a s, nextZ eigh a s, s.rho⟩

theorem glBody_keep (eigh : Eigh n) (a : GLArgs n) (hor : a.overRelax = 1) (it : ℕ) (s : GLState n) (hr : s.rho ≠ 0)
    (h : (glBody eigh a it s).1.rho = s.rho) : (glBody eigh a it s).1 = glNext eigh a s := by
  unfold glBody at h ⊢
  simp only [hor, glKhat_one] at h ⊢
  split at h
  · rw [if_pos (by assumption)]; rfl
  · rw [if_neg (by assumption)]
    have h' : updateRho a.rhoOptions s.rho _ _ = s.rho := h
    rw [h', div_self hr, one_smul]
    rfl

theorem glIter_rho (eigh : Eigh n) (a : GLArgs n) (s : GLState n) (j : ℕ) :
    ((glNext eigh a)^[j] s).rho = s.rho := by
  induction j with
  | zero => rfl
  | succ j ih => rw [Function.iterate_succ_apply']; exact ih

theorem glRunFrom {eigh : Eigh n} (he : IsEighOracle eigh) (a : GLArgs n) (hS : a.empCov.IsSymm) (hal : 0 ≤ a.alpha)
    {X : Matrix n n ℝ} (hX : IsMin (PD n) (glObjective a.empCov a.alpha) X) (s : GLState n) (hr : 0 < s.rho) :
    AdmmRun (id : Fin 1 → Fin 1) (fun _ => a.empCov) (fun _ => 1) s.rho
      (fun j _ => glK eigh a.empCov s.rho ((glNext eigh a)^[j] s).Z ((glNext eigh a)^[j] s).U)
      (fun j _ => ((glNext eigh a)^[j] s).Z) (fun j _ => ((glNext eigh a)^[j] s).U) (fun _ => X)
      (fun _ => s.rho⁻¹ • (X⁻¹ - a.empCov)) := by
  have hrho := glIter_rho eigh a s
  have hsub : ∀ j, SubPair (a.alpha / s.rho) ((glNext eigh a)^[j + 1] s).Z ((glNext eigh a)^[j + 1] s).U := by
    intro j
    rw [Function.iterate_succ_apply']
    have := subPair_next (eigh := eigh) (a := a) (s := (glNext eigh a)^[j] s) hal (by rw [hrho]; exact hr)
    rw [hrho] at this
    exact this
  have hXs : SubPair (a.alpha / s.rho) X (s.rho⁻¹ • (X⁻¹ - a.empCov)) := by
    intro Y
    have hs := gl_subgrad_of_optimal hal hS hX Y
    have h2 := mul_le_mul_of_nonneg_left hs (inv_pos.mpr hr).le
    have e : ∀ c : ℝ, a.alpha / s.rho * c = s.rho⁻¹ * (a.alpha * c) := by intro c; field_simp
    rw [frobInner_smul_left, e, e]
    linarith
  have hXsymm : (X⁻¹ - a.empCov).IsSymm := by
    have hXp : X.PosDef := hX.1
    rw [IsSymm, transpose_sub, hXp.inv.isSymm'.eq, hS.eq]
  refine ⟨fun t => ⟨t, rfl⟩, fun _ => one_pos, hr, fun j t => glK_posDef he hS hr _ _, fun j t => ?_, fun j i => ?_,
    fun j => ?_, fun _ => hX.1, fun t => ?_, fun j => ?_⟩
  · have hK := (glK_posDef he hS hr ((glNext eigh a)^[j] s).Z ((glNext eigh a)^[j] s).U).isSymm'
    have h := glK_inv he hS hr ((glNext eigh a)^[j] s).Z ((glNext eigh a)^[j] s).U
    rw [Fin.sum_univ_one, if_pos (Subsingleton.elim _ _), h]
    have e : ∀ K Z U : Matrix n n ℝ, K.IsSymm → symmetrize (K - Z + U) = K - symmetrize (Z - U) := by
      intro K Z U hK
      have : K - Z + U = K - (Z - U) := by abel
      rw [this, symmetrize_sub, symmetrize_of_isSymm hK]
    rw [e _ _ _ hK, one_smul, smul_sub]
    abel
  · simp only [Function.iterate_succ_apply']
    change nextU eigh a _ = _
    unfold nextU
    rw [hrho]
    rfl
  · rw [Fin.sum_univ_one]
    exact SubPair.mono (hsub (j + 1)) (hsub j)
  · rw [Fin.sum_univ_one, if_pos (Subsingleton.elim _ _), one_smul, symmetrize_of_isSymm (isSymm_smul _ hXsymm),
      smul_smul, mul_inv_cancel₀ hr.ne', one_smul]
    abel
  · rw [Fin.sum_univ_one]
    exact SubPair.mono (hsub j) hXs

theorem glCall_shape (eigh : Eigh n) (a : GLArgs n) (Z0 : Matrix n n ℝ) (rho : ℝ) {m : ℕ} (hm : 1 ≤ m)
    (rh rn : Bool) : ∃ C h it, graphicalLasso eigh a Z0 rho m rh rn =
        .ok (runLoop (glBody eigh a) m (glInit Z0 rho)).state.Z C h it
          (!(runLoop (glBody eigh a) m (glInit Z0 rho)).broke) := by
  obtain ⟨it, hit⟩ := runLoop_lastIter (glBody eigh a) (glInit Z0 rho) hm
  unfold graphicalLasso
  simp only
  rw [hit]
  cases rn
  · exact ⟨_, _, _, rfl⟩
  · exact ⟨_, _, _, rfl⟩

/-- C134 (graphical lasso without over-relaxation): for a positive semidefinite covariance with positive variances
and `alpha > 0` the problem has exactly one optimum `X`. With any rule for the penalty parameter, from every start,
unless the penalty changes infinitely often, for `tol > 0` every call with `max_iter` large enough ends without the
warning, and for `tol = rtol = 0` the returned precision converges to `X` as `max_iter` grows. -/
theorem C134_graphical_lasso [Nonempty n] {eigh : Eigh n} (he : IsEighOracle eigh) (a : GLArgs n)
    (hS : a.empCov.PosSemidef) (hdiag : ∀ i, 0 < a.empCov i i) (hal : 0 < a.alpha) (hor : a.overRelax = 1)
    (hi : 0 < a.rhoOptions.tauInc) (hd : 0 < a.rhoOptions.tauDec) (Z0 : Matrix n n ℝ) {rho : ℝ} (hr : 0 < rho) :
    ∃ X, UniqueMin (PD n) (glObjective a.empCov a.alpha) X ∧
      (0 < a.tol → 0 ≤ a.rtol → ChangesForever (glPenalty eigh a Z0 rho) ∨
        ∃ M, ∀ m, M ≤ m → ∀ rh rn, ∃ Z C h it, graphicalLasso eigh a Z0 rho m rh rn = .ok Z C h it false) ∧
      (a.tol = 0 → a.rtol = 0 → ChangesForever (glPenalty eigh a Z0 rho) ∨
        ∀ ε, 0 < ε → ∃ M, ∀ m, M ≤ m → ∀ rh rn, ∃ Z C h it w,
          graphicalLasso eigh a Z0 rho m rh rn = .ok Z C h it w ∧ CloseMat ε Z X) := by
  have hSs : a.empCov.IsSymm := by
    have := hS.isHermitian
    rwa [IsHermitian, conjTranspose_eq_transpose_of_trivial] at this
  obtain ⟨X, hX⟩ := gl_exists_min hS hdiag hal
  set st := stateAt (glBody eigh a) (glInit Z0 rho) with hstd
  have hf : ∀ j, 0 < (st j).rho := fun j => (gl_run_facts (eigh := eigh) a hi hd Z0 hr j).1
  have hold : ∀ j, (st (j + 1)).Zold = (st (j + 1)).Z := fun j =>
    (gl_run_facts (eigh := eigh) a hi hd Z0 hr j).2
  have hset : ¬ ChangesForever (glPenalty eigh a Z0 rho) → ∃ J, ∀ i, st (J + i) = (glNext eigh a)^[i] (st J) := by
    intro h
    obtain ⟨J, hJ⟩ := settles_of_not h
    exact ⟨J, settled_iter _ _ _ fun j hj => glBody_keep eigh a hor j _ (hf j).ne' (hJ j hj)⟩
  refine ⟨X, gl_uniqueMin hSs hal.le hX, fun htol hrtol => or_iff_not_imp_left.mpr fun hch => ?_,
    fun htol hrtol => or_iff_not_imp_left.mpr fun hch ε hε => ?_⟩
  · obtain ⟨J, hJ⟩ := hset hch
    obtain ⟨hpri, hdual, -, -⟩ := (glRunFrom he a hSs hal.le hX (st J) (hf J)).converges
    simp only [Fin.sum_univ_one] at hpri hdual
    set c : ℝ := Real.sqrt ((Fintype.card n : ℝ) * (Fintype.card n : ℝ)) with hc
    have hsize : 0 < c := by
      have h1 : (0 : ℝ) < Fintype.card n := by exact_mod_cast Fintype.card_pos
      rw [hc]
      positivity
    have hrJ := hf J
    have e1 := eventually_sqrt_le hpri (b := c * a.tol) (by positivity)
    have e2 := eventually_sqrt_le hdual (b := c * a.tol / (st J).rho) (by positivity)
    obtain ⟨i, hi'⟩ := eventually_atTop.mp (e1.and e2)
    obtain ⟨h1, h2⟩ := hi' (i + 1) (by omega)
    have hstop : Lemmas.stopAt (glBody eigh a) (glInit Z0 rho) (J + i + 1) = true := by
      change (glBody eigh a (J + i + 1) (st (J + i + 1))).2.2 = true
      have o0 := hold (J + i)
      have es : st (J + i + 1) = (glNext eigh a)^[i + 1] (st J) := hJ (i + 1)
      have er : (st (J + i + 1)).rho = (st J).rho := by rw [es, glIter_rho]
      have en : glZ a.alpha (st J).rho (glK eigh a.empCov (st J).rho ((glNext eigh a)^[i + 1] (st J)).Z
          ((glNext eigh a)^[i + 1] (st J)).U) ((glNext eigh a)^[i + 1] (st J)).U =
          ((glNext eigh a)^[i + 1 + 1] (st J)).Z := by
        rw [Function.iterate_succ_apply' (glNext eigh a) (i + 1)]
        change _ = nextZ eigh a _
        unfold nextZ
        rw [glIter_rho]
      unfold glBody
      simp only [decide_eq_true_eq, hor, glKhat_one, o0, er]
      rw [es, en]
      constructor
      · rw [froNorm_eq_sqrt]
        refine h1.trans (le_add_of_nonneg_right ?_)
        exact mul_nonneg hrtol (le_max_of_le_left (froNorm_nonneg
          (glK eigh a.empCov (st J).rho ((glNext eigh a)^[i + 1] (st J)).Z ((glNext eigh a)^[i + 1] (st J)).U)))
      · rw [le_div_iff₀ hrJ] at h2
        rw [froNorm_eq_sqrt]
        have h3 : (st J).rho * Real.sqrt (frobSq (((glNext eigh a)^[i + 1 + 1] (st J)).Z
            - ((glNext eigh a)^[i + 1] (st J)).Z)) ≤ c * a.tol := by linarith
        refine h3.trans (le_add_of_nonneg_right ?_)
        exact mul_nonneg (mul_nonneg hrtol hrJ.le) (froNorm_nonneg _)
    refine ⟨J + i + 2, fun m hm rh rn => ?_⟩
    obtain ⟨C, h, it, hcall⟩ := glCall_shape eigh a Z0 rho (m := m) (by omega) rh rn
    rw [runLoop_broke _ _ hstop (by omega)] at hcall
    exact ⟨_, C, h, it, hcall⟩
  · obtain ⟨J, hJ⟩ := hset hch
    obtain ⟨-, -, -, hZ⟩ := (glRunFrom he a hSs hal.le hX (st J) (hf J)).converges
    obtain ⟨N, hN⟩ := eventually_atTop.mp (closeMat_eventually (hZ 0) hε)
    refine ⟨J + N + 1, fun m hm rh rn => ?_⟩
    obtain ⟨C, h, it, hcall⟩ := glCall_shape eigh a Z0 rho (m := m) (by omega) rh rn
    refine ⟨_, C, h, it, _, hcall, ?_⟩
    refine runLoop_property (glBody eigh a) (glInit Z0 rho) (Q := fun s => CloseMat ε s.Z X) (M := J + N)
      (fun j hj => ?_) (fun j hj => ?_) (by omega)
    · obtain ⟨i, rfl⟩ : ∃ i, j = J + i := ⟨j - J, by omega⟩
      change CloseMat ε (st (J + i)).Z X
      rw [hJ i]
      exact hN i (by omega)
    · -- a stop with tolerance zero happens at the optimum only
      change (glBody eigh a j (st j)).2.2 = true at hj
      have hnx : (stateAt (glBody eigh a) (glInit Z0 rho) (j + 1)).Z = nextZ eigh a (st j) := by
        change (glBody eigh a j (st j)).1.Z = _
        unfold glBody; simp only [hor, glKhat_one]; split <;> rfl
      rw [hnx]
      unfold glBody at hj
      simp only [decide_eq_true_eq, hor, glKhat_one, htol, hrtol, mul_zero, zero_mul, add_zero] at hj
      obtain ⟨h1, h2⟩ := hj
      have z1 := sub_eq_zero.mp (froNorm_eq_zero' (le_antisymm h1 (froNorm_nonneg _)))
      have z2 := sub_eq_zero.mp (froNorm_eq_zero'
        (le_antisymm (nonpos_of_mul_nonpos_right h2 (hf j)) (froNorm_nonneg _)))
      cases j with
      | zero =>
        exfalso
        have hpd := glK_posDef he hSs (hf 0) (st 0).Z (st 0).U
        rw [z1, z2] at hpd
        have hz : (st 0).Zold = 0 := rfl
        rw [hz] at hpd
        exact absurd hpd.det_pos (by simp)
      | succ j =>
        rw [hold j] at z2
        have hK := (glRunFrom he a hSs hal.le hX (st (j + 1)) (hf (j + 1))).exact (j := 0) (fun i => z1) fun i => z2
        have hK0 : glK eigh a.empCov (st (j + 1)).rho (st (j + 1)).Z (st (j + 1)).U = X := congrFun hK 0
        have hZX : nextZ eigh a (st (j + 1)) = X := z1.symm.trans hK0
        rw [hZX]
        intro i l
        rw [sub_self, abs_zero]
        exact hε.le

/-! ### The hypotheses are met, with the default rule -/

theorem glK_one {eigh : Eigh (Fin 1)} (he : IsEighOracle eigh) {r : ℝ} (hr : 0 < r) : glK eigh 1 r 1 0 = 1 := by
  have hpd := glK_posDef he (S := (1 : Matrix (Fin 1) (Fin 1) ℝ)) isSymm_one hr 1 0
  have h := glK_inv he (S := (1 : Matrix (Fin 1) (Fin 1) ℝ)) isSymm_one hr 1 0
  set K := glK eigh 1 r 1 0 with hK
  have hk : 0 < K 0 0 := hpd.diag_pos
  have hu : IsUnit K.det := hpd.det_pos.ne'.isUnit
  have h1 : K * K⁻¹ = 1 := mul_nonsing_inv K hu
  rw [h, sub_zero, symmetrize_of_isSymm isSymm_one] at h1
  have h2 := congrFun (congrFun h1 0) 0
  simp only [Matrix.mul_apply, Fin.sum_univ_one, Matrix.add_apply, Matrix.sub_apply, Matrix.smul_apply,
    Matrix.one_apply_eq, smul_eq_mul, mul_one] at h2
  have h3 : (K 0 0 - 1) * (r * K 0 0 + 1) = 0 := by linarith
  have h4 : K 0 0 = 1 := by
    rcases mul_eq_zero.mp h3 with h | h
    · linarith
    · have : 0 < r * K 0 0 + 1 := by positivity
      linarith
  ext i j
  rw [Subsingleton.elim i 0, Subsingleton.elim j 0, h4]
  rfl

/-- With the default options the penalty does change in this run, and not forever. -/
example : ∃ (eigh : Eigh (Fin 1)) (a : GLArgs (Fin 1)) (Z0 : Matrix (Fin 1) (Fin 1) ℝ), IsEighOracle eigh ∧
    a.empCov.PosSemidef ∧ (∀ i, 0 < a.empCov i i) ∧ 0 < a.alpha ∧ a.overRelax = 1 ∧ a.rhoOptions = {} ∧
    a.tol = 0 ∧ a.rtol = 0 ∧ glPenalty eigh a Z0 1 1 ≠ glPenalty eigh a Z0 1 0 ∧
    ¬ ChangesForever (glPenalty eigh a Z0 1) := by
  obtain ⟨eigh, he⟩ := exists_eighOracle (n := Fin 1)
  let a : GLArgs (Fin 1) := { empCov := 1, alpha := 1, overRelax := 1, tol := 0, rtol := 0 }
  have hsoft : ∀ r : ℝ, glZ 1 r (1 : Matrix (Fin 1) (Fin 1) ℝ) 0 = 1 := by
    intro r
    unfold glZ
    ext i j
    rw [softOff_apply, if_pos (Subsingleton.elim _ _), add_zero, softScalar_zero_right]
  have hbody : ∀ it (Zold : Matrix (Fin 1) (Fin 1) ℝ) (r : ℝ), 0 < r →
      (glBody eigh a it ⟨1, 0, Zold, r⟩).1 =
        ⟨1, 0, 1, if r * froNorm (1 - Zold) ≤ 0 then r else updateRho {} r 0 (r * froNorm (1 - Zold))⟩ := by
    intro it Zold r hr
    have e0 : froNorm (0 : Matrix (Fin 1) (Fin 1) ℝ) = 0 := by simp [froNorm]
    unfold glBody
    have f1 : a.empCov = 1 := rfl
    have f2 : a.overRelax = 1 := rfl
    have f3 : a.alpha = 1 := rfl
    have f4 : a.tol = 0 := rfl
    have f5 : a.rtol = 0 := rfl
    have f6 : a.rhoOptions = {} := rfl
    simp only [f1, f2, f3, f4, f5, f6, glK_one he hr, glKhat_one, hsoft, sub_self, add_zero, smul_zero, mul_zero,
      zero_mul, e0, le_refl, true_and, decide_eq_true_eq]
    split <;> rfl
  have hst1 : stateAt (glBody eigh a) (glInit 1 1) 1 = ⟨1, 0, 1, updateRho {} 1 0 (1 * froNorm ((1 : Matrix (Fin 1) (Fin 1) ℝ) - 0))⟩ := by
    change (glBody eigh a 0 ⟨1, 0, 0, 1⟩).1 = _
    rw [hbody 0 0 1 one_pos, if_neg]
    simp [froNorm]
  have hr1 : updateRho {} 1 0 (1 * froNorm ((1 : Matrix (Fin 1) (Fin 1) ℝ) - 0)) = 1 / 2 := by
    simp [updateRho, froNorm]
  rw [hr1] at hst1
  have hst : ∀ j, stateAt (glBody eigh a) (glInit 1 1) (j + 1) = ⟨1, 0, 1, 1 / 2⟩ := by
    intro j
    induction j with
    | zero => exact hst1
    | succ j ih =>
      change (glBody eigh a (j + 1) (stateAt (glBody eigh a) (glInit 1 1) (j + 1))).1 = _
      rw [ih, hbody _ 1 (1 / 2) (by norm_num), if_pos (by simp [froNorm])]
  refine ⟨eigh, a, 1, he, PosSemidef.one, fun i => by simp [a], one_pos, rfl, rfl, rfl, rfl, ?_, fun h => ?_⟩
  · unfold glPenalty
    rw [hst 0]
    change (1 / 2 : ℝ) ≠ 1
    norm_num
  · obtain ⟨j, hj, hne⟩ := h 1
    obtain ⟨i, rfl⟩ : ∃ i, j = i + 1 := ⟨j - 1, by omega⟩
    refine hne ?_
    unfold glPenalty
    rw [hst, hst]

/-- The hypotheses of the temporal theorems, with the default rule. -/
example (T : ℕ) : ∃ (eigh : Eigh (Fin 2)) (a : TGLArgs T (Fin 2)), IsEighOracle eigh ∧
      (∀ t, (a.empCov t).PosSemidef) ∧ (∀ t, 0 < a.nSamples t) ∧ 0 < a.alpha ∧ 0 ≤ a.beta ∧ ConvexPen a.psi ∧
      (∀ X, 0 ≤ a.psi X) ∧ IsProxOf a.psi a.prox ∧ a.rhoOptions = {} ∧ 0 < a.rhoOptions.tauInc ∧
      0 < a.rhoOptions.tauDec ∧ a.stopAt = none ∧ 0 < a.tol ∧ 0 ≤ a.rtol := by
  obtain ⟨eigh, he⟩ := exists_eighOracle (n := Fin 2)
  exact ⟨eigh, ⟨fun _ => 1, fun _ => 3, 1, 2, absSumMat, softThresholdingMat, 1, 1, none, 1 / 10000, true, {}⟩,
    he, fun _ => PosSemidef.one, fun _ => by norm_num, one_pos, by norm_num, absSumMat_convexPen,
    absSumMat_nonneg', soft_isProxOf, rfl, by norm_num, by norm_num, rfl, by norm_num, by norm_num⟩

end Verif.Props
