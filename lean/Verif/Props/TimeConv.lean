import Verif.Lemmas.TimeRun
import Verif.Lemmas.Loop
import Verif.Props.KTGL

/-! Property theorems C102 and C103 (convergence of the kernel and time-varying graphical lasso solvers at a
constant penalty). -/

namespace Verif.Props

open Verif.Model Verif.Spec Verif.Lemmas Matrix Filter Topology

set_option autoImplicit false
set_option linter.unusedSectionVars false

variable {n : Type*} [Fintype n] [DecidableEq n] {k : ℕ} {E : Type*} [Fintype E]

/-- Every entry of the two sequences agrees up to `ε`. -/
def CloseSeq (ε : ℝ) (X Y : Fin k → Matrix n n ℝ) : Prop := ∀ t i j, |X t i j - Y t i j| ≤ ε

theorem runLoop_property {σ κ : Type*} (body : ℕ → σ → σ × κ × Bool) (s : σ) {Q : σ → Prop} {M : ℕ}
    (hM : ∀ j, M ≤ j → Q (stateAt body s j))
    (hst : ∀ j, Lemmas.stopAt body s j = true → Q (stateAt body s (j + 1))) {m : ℕ} (hm : M ≤ m) :
    Q (runLoop body m s).state := by
  rcases runLoop_spec body m s with ⟨j, _, _, h1, h2⟩ | ⟨_, h2⟩
  · rw [h2]; exact hst j h1
  · rw [h2]; exact hM m hm

theorem runLoop_broke {σ κ : Type*} (body : ℕ → σ → σ × κ × Bool) (s : σ) {J : ℕ}
    (hJ : Lemmas.stopAt body s J = true) {m : ℕ} (hm : J < m) : (runLoop body m s).broke = true := by
  rcases runLoop_spec body m s with ⟨j, _, _, h1, h2⟩ | ⟨h1, h2⟩
  · rw [h2]
  · rw [h1 J hm] at hJ; exact absurd hJ (by decide)

theorem runLoop_lastIter {σ κ : Type*} (body : ℕ → σ → σ × κ × Bool) (s : σ) {m : ℕ} (hm : 1 ≤ m) :
    ∃ it, (runLoop body m s).lastIter = some it := by
  rcases runLoop_spec body m s with ⟨j, _, _, h1, h2⟩ | ⟨h1, h2⟩
  · exact ⟨j, by rw [h2]⟩
  · exact ⟨m - 1, by rw [h2]; simp only [if_neg (by omega : m ≠ 0)]⟩

theorem batchSq_eq {k : ℕ} (X : Batch k n) : batchSq X = ∑ t, frobSq (X t) := rfl

theorem pairSq_eq (X : E → Matrix n n ℝ) : pairSq X = ∑ e, frobSq (X e) := rfl

theorem closeSeq_eventually {X : Batch k n} {f : ℕ → Batch k n}
    (h : ∀ t, Tendsto (fun j => f j t) atTop (𝓝 (X t))) {ε : ℝ} (hε : 0 < ε) :
    ∀ᶠ j in atTop, CloseSeq ε (f j) X := by
  unfold CloseSeq
  rw [eventually_all]
  intro t
  rw [eventually_all]
  intro i
  rw [eventually_all]
  intro b
  have h1 : Tendsto (fun j => f j t i b) atTop (𝓝 (X t i b)) :=
    tendsto_pi_nhds.mp (tendsto_pi_nhds.mp (h t) i) b
  have h2 := (tendsto_order.mp (tendsto_iff_norm_sub_tendsto_zero.mp h1)).2 ε hε
  exact h2.mono fun j hj => le_of_lt (by rwa [Real.norm_eq_abs] at hj)

theorem sum_frobSq_nonneg {ι : Type*} [Fintype ι] (f : ι → Matrix n n ℝ) : 0 ≤ ∑ i, frobSq (f i) :=
  Finset.sum_nonneg fun _ _ => frobSq_nonneg _

theorem eventually_sqrt_le {f : ℕ → ℝ} (hf : Tendsto f atTop (𝓝 0)) {b : ℝ} (hb : 0 < b) :
    ∀ᶠ j in atTop, Real.sqrt (f j) ≤ b := by
  have h1 : Tendsto (fun j => Real.sqrt (f j)) atTop (𝓝 0) := by simpa using hf.sqrt
  exact ((tendsto_order.mp h1).2 b hb).mono fun j hj => hj.le

theorem isEmpty_closeSeq [IsEmpty n] {ε : ℝ} (X Y : Batch k n) : CloseSeq ε X Y :=
  fun _ i _ => isEmptyElim i

/-! ### Kernel solver -/

/-- The state before iteration `j`. -/
noncomputable def ktSt (eigh : Eigh n) (g : TimePairs k E) (a : KTArgs k E n) (K0 : Batch k n) (rho : ℝ)
    (j : ℕ) : KTState k E n := (ktNext eigh g a)^[j] (ktInit g K0 rho)

theorem ktSt_succ (eigh : Eigh n) (g : TimePairs k E) (a : KTArgs k E n) (K0 : Batch k n) (rho : ℝ) (j : ℕ) :
    ktSt eigh g a K0 rho (j + 1) = ktNext eigh g a (ktSt eigh g a K0 rho j) :=
  Function.iterate_succ_apply' _ _ _

theorem ktSt_rho (eigh : Eigh n) (g : TimePairs k E) (a : KTArgs k E n) (K0 : Batch k n) (rho : ℝ) (j : ℕ) :
    (ktSt eigh g a K0 rho j).rho = rho := by
  induction j with
  | zero => rfl
  | succ j ih => rw [ktSt_succ]; exact ih

theorem ktRescale_self (s : KTState k E n) (hr : s.rho ≠ 0) : ktRescale s.rho s = s := by
  unfold ktRescale
  simp only [div_self hr, one_smul]

theorem ktBody_const (eigh : Eigh n) (g : TimePairs k E) {a : KTArgs k E n} (hi : a.rhoOptions.tauInc = 1)
    (hd : a.rhoOptions.tauDec = 1) (it : ℕ) (s : KTState k E n) (hr : s.rho ≠ 0) :
    (ktBody eigh g a it s).1 = ktNext eigh g a s := by
  unfold ktBody
  simp only [updateRho_const hi hd]
  split
  · rfl
  · exact ktRescale_self (ktNext eigh g a s) hr

theorem stateAt_kt (eigh : Eigh n) (g : TimePairs k E) {a : KTArgs k E n} (hi : a.rhoOptions.tauInc = 1)
    (hd : a.rhoOptions.tauDec = 1) (K0 : Batch k n) {rho : ℝ} (hr : rho ≠ 0) (j : ℕ) :
    stateAt (ktBody eigh g a) (ktInit g K0 rho) j = ktSt eigh g a K0 rho j := by
  induction j with
  | zero => rfl
  | succ j ih =>
    change (ktBody eigh g a j (stateAt (ktBody eigh g a) (ktInit g K0 rho) j)).1 = _
    rw [ih, ktBody_const eigh g hi hd _ _ (by rw [ktSt_rho]; exact hr), ktSt_succ]

theorem ktSt_old (eigh : Eigh n) (g : TimePairs k E) (a : KTArgs k E n) (K0 : Batch k n) (rho : ℝ) (j : ℕ) :
    (ktSt eigh g a K0 rho (j + 1)).Z0old = (ktSt eigh g a K0 rho (j + 1)).Z0 ∧
    (ktSt eigh g a K0 rho (j + 1)).ZLold = (ktSt eigh g a K0 rho (j + 1)).ZL ∧
    (ktSt eigh g a K0 rho (j + 1)).ZRold = (ktSt eigh g a K0 rho (j + 1)).ZR := by
  rw [ktSt_succ]; exact ⟨rfl, rfl, rfl⟩

theorem ktK_spec {eigh : Eigh n} (he : IsEighOracle eigh) (g : TimePairs k E) (a : KTArgs k E n)
    (s : KTState k E n) (t : Fin k) (hS : (a.empCov t).IsSymm) (hn : 0 < a.nSamples t) (hr : 0 < s.rho) :
    (ktK eigh g a s t).PosDef ∧ a.nSamples t • (a.empCov t - (ktK eigh g a s t)⁻¹)
      + (s.rho * k) • ktK eigh g a s t - s.rho • symmetrize (s.Z0 t - s.U0 t
      + scatter g.src (fun e => s.ZL e - s.UL e) t + scatter g.dst (fun e => s.ZR e - s.UR e) t) = 0 := by
  have hk : (0 : ℝ) < k := by
    have : 0 < k := t.pos
    exact_mod_cast this
  obtain ⟨p1, p2⟩ := logdetStep_spec he hS hn (c := s.rho * k) (by positivity)
    ((k : ℝ)⁻¹ • (s.Z0 t - s.U0 t + scatter g.src (fun e => s.ZL e - s.UL e) t
      + scatter g.dst (fun e => s.ZR e - s.UR e) t))
  rw [← neg_mul] at p1 p2
  refine ⟨p1, ?_⟩
  have e : ∀ B : Matrix n n ℝ, (s.rho * k) • symmetrize ((k : ℝ)⁻¹ • B) = s.rho • symmetrize B := by
    intro B
    rw [symmetrize_smul, smul_smul, mul_assoc, mul_inv_cancel₀ hk.ne', mul_one]
  rw [e] at p2
  exact p2

theorem ktRun {eigh : Eigh n} (he : IsEighOracle eigh) (g : TimePairs k E) (a : KTArgs k E n)
    (hS : ∀ t, (a.empCov t).IsSymm) (hn : ∀ t, 0 < a.nSamples t) (K0 : Batch k n) {rho : ℝ} (hr : 0 < rho) :
    PassRun g (fun _ => (k : ℝ)) a.empCov a.nSamples a.alpha a.weight a.prox rho
      (fun j => ktK eigh g a (ktSt eigh g a K0 rho j))
      (fun j => (ktSt eigh g a K0 rho j).Z0) (fun j => (ktSt eigh g a K0 rho j).U0)
      (fun j => (ktSt eigh g a K0 rho j).ZL) (fun j => (ktSt eigh g a K0 rho j).ZR)
      (fun j => (ktSt eigh g a K0 rho j).UL) (fun j => (ktSt eigh g a K0 rho j).UR) := by
  have hrho := ktSt_rho eigh g a K0 rho
  refine ⟨fun j t => (ktK_spec he g a _ t (hS t) (hn t) (by rw [hrho]; exact hr)).1, fun j t => ?_, ?_, ?_, ?_,
    ?_, ?_, ?_⟩
  · have := (ktK_spec he g a (ktSt eigh g a K0 rho j) t (hS t) (hn t) (by rw [hrho]; exact hr)).2
    rwa [hrho] at this
  all_goals intro j i; simp only [ktSt_succ]; unfold ktNext; simp only [hrho]

/-- The stopping test of iteration `j`, without `stop_at`. -/
theorem ktStop_iff (eigh : Eigh n) (g : TimePairs k E) {a : KTArgs k E n} (hi : a.rhoOptions.tauInc = 1)
    (hd : a.rhoOptions.tauDec = 1) (hst : a.stopAt = none) (K0 : Batch k n) {rho : ℝ} (hr : rho ≠ 0) (j : ℕ) :
    Lemmas.stopAt (ktBody eigh g a) (ktInit g K0 rho) j = true ↔
      (ktDiagnose g a (ktK eigh g a (ktSt eigh g a K0 rho j)) (ktSt eigh g a K0 rho j)
        (ktSt eigh g a K0 rho (j + 1))).rnorm ≤
      (ktDiagnose g a (ktK eigh g a (ktSt eigh g a K0 rho j)) (ktSt eigh g a K0 rho j)
        (ktSt eigh g a K0 rho (j + 1))).ePri ∧
      (ktDiagnose g a (ktK eigh g a (ktSt eigh g a K0 rho j)) (ktSt eigh g a K0 rho j)
        (ktSt eigh g a K0 rho (j + 1))).snorm ≤
      (ktDiagnose g a (ktK eigh g a (ktSt eigh g a K0 rho j)) (ktSt eigh g a K0 rho j)
        (ktSt eigh g a K0 rho (j + 1))).eDual := by
  unfold Lemmas.stopAt
  rw [stateAt_kt eigh g hi hd K0 hr, ktSt_succ]
  unfold ktBody
  simp only [hst, stopAtTest, Bool.false_or, decide_eq_true_eq]

/-- C102: with a constant penalty (`update_rho_options={'tau_inc': 1, 'tau_dec': 1}`), positive semidefinite
covariances, `alpha > 0`, a kernel with entries `≥ 0` above the diagonal and a convex penalty `≥ 0` with exact
prox, `kernel_time_graphical_lasso` solves its problem (the one of `C94_stationary_partial`, with the full l1
norm) for every start and every `rho > 0`: the problem has exactly one optimum; for positive `tol` every call
with `max_iter` large enough ends without the warning; and for tolerances small enough the returned precision
is as close to the optimum as desired. -/
theorem C102_kernel_converges [Nonempty n] (hk : 0 < k) {eigh : Eigh n} (he : IsEighOracle eigh)
    (a : KTArgs k Empty n) (kernel : Option (Fin k → Fin k → ℝ))
    (hker : ∀ s t, s < t → 0 ≤ kernelOf kernel s t) (hS : ∀ t, (a.empCov t).PosSemidef)
    (hn : ∀ t, 0 < a.nSamples t) (hal : 0 < a.alpha) (hconv : ConvexPen a.psi) (hpos : ∀ X, 0 ≤ a.psi X)
    (hprox : IsProxOf a.psi a.prox) (hi : a.rhoOptions.tauInc = 1) (hd : a.rhoOptions.tauDec = 1)
    (hst : a.stopAt = none) (K0 : Batch k n) {rho : ℝ} (hr : 0 < rho) :
    ∃ X, UniqueMin (PDSeq k n)
        (kernelObjective a.empCov a.nSamples a.alpha (kernelOf kernel) absSumMat a.psi) X ∧
      (0 < a.tol → 0 ≤ a.rtol → ∃ M, ∀ m, M ≤ m → ∀ rh rn, ∃ Z h it,
        kernelTimeGraphicalLasso eigh a kernel K0 rho m rh rn = .ok Z h it false) ∧
      ∀ ε, 0 < ε → ∃ δ, 0 < δ ∧ ∃ M, ∀ tol rtol, 0 ≤ tol → tol ≤ δ → 0 ≤ rtol → rtol ≤ δ → ∀ m, M ≤ m →
        ∀ rh rn, ∃ Z h it w,
          kernelTimeGraphicalLasso eigh { a with tol := tol, rtol := rtol } kernel K0 rho m rh rn = .ok Z h it w
            ∧ CloseSeq ε Z X := by
  set b := ktArgsOf a kernel with hb
  set g := allPairs k with hg
  have hw : ∀ e : PairIdx k, 0 ≤ kernelWeight kernel e := by
    intro e
    have := hker e.1.1 e.1.2 e.2
    cases kernel <;> exact this
  have hSs : ∀ t, (a.empCov t).IsSymm := fun t => by
    have := (hS t).isHermitian
    rwa [IsHermitian, conjTranspose_eq_transpose_of_trivial] at this
  have hrun := ktRun he g b hSs hn K0 hr
  obtain ⟨X, hX, hpri, hdual, -, hZ, hexact⟩ := hrun.main (psi := a.psi) covers_all hS hn hal hr hw hconv hpos hprox
  have hsize : (0 : ℝ) < Fintype.card n * k := by
    have h1 : (0 : ℝ) < Fintype.card n := by exact_mod_cast Fintype.card_pos
    have h2 : (0 : ℝ) < k := by exact_mod_cast hk
    positivity
  -- shape of the result of a call
  have hcall : ∀ (b' : KTArgs k Empty n) (m : ℕ) (rh rn : Bool), 1 ≤ m → ∃ h it,
      kernelTimeGraphicalLasso eigh b' kernel K0 rho m rh rn =
        .ok (runLoop (ktBody eigh g (ktArgsOf b' kernel)) m (ktInit g K0 rho)).state.Z0 h it
          (!(runLoop (ktBody eigh g (ktArgsOf b' kernel)) m (ktInit g K0 rho)).broke) := by
    intro b' m rh rn hm
    obtain ⟨it, hit⟩ := runLoop_lastIter (ktBody eigh g (ktArgsOf b' kernel)) (ktInit g K0 rho) hm
    unfold kernelTimeGraphicalLasso
    simp only [← hg]
    rw [hit]
    cases rn
    · exact ⟨_, _, rfl⟩
    · exact ⟨_, _, rfl⟩
  refine ⟨X, ?_, fun htol hrtol => ?_, fun ε hε => ?_⟩
  · have e : kernelObjective a.empCov a.nSamples a.alpha (kernelOf kernel) absSumMat a.psi =
        pairTimeObjective g a.empCov a.nSamples a.alpha (kernelWeight kernel) a.psi := by
      funext K
      unfold kernelObjective pairTimeObjective
      rw [kernelCoupling_eq, add_assoc]
    rw [e]
    exact hX
  · -- eventually the test passes
    have e1 := eventually_sqrt_le hpri (b := Fintype.card n * k * a.tol) (by positivity)
    have e2 := eventually_sqrt_le hdual (b := Fintype.card n * k * a.tol / rho) (by positivity)
    obtain ⟨J, hJ⟩ := eventually_atTop.mp (e1.and e2)
    obtain ⟨h1, h2⟩ := hJ (J + 1) (by omega)
    have hstop : Lemmas.stopAt (ktBody eigh g b) (ktInit g K0 rho) (J + 1) = true := by
      rw [ktStop_iff eigh g (a := b) hi hd hst K0 hr.ne']
      constructor
      · refine h1.trans ?_
        unfold ktDiagnose
        simp only
        refine le_add_of_nonneg_right (mul_nonneg hrtol (le_max_of_le_left (Real.sqrt_nonneg _)))
      · have hold := ktSt_old eigh g b K0 rho J
        unfold ktDiagnose
        simp only [hold.1, hold.2.1, hold.2.2, ktSt_rho]
        have h3 : rho * Real.sqrt (passDual (fun j => (ktSt eigh g b K0 rho j).Z0)
            (fun j => (ktSt eigh g b K0 rho j).ZL) (fun j => (ktSt eigh g b K0 rho j).ZR) (J + 1))
            ≤ Fintype.card n * k * a.tol := by
          rw [le_div_iff₀ hr] at h2
          linarith
        refine h3.trans ?_
        refine le_add_of_nonneg_right (mul_nonneg (mul_nonneg hrtol hr.le) (Real.sqrt_nonneg _))
    refine ⟨J + 2, fun m hm rh rn => ?_⟩
    obtain ⟨h, it, hc⟩ := hcall a m rh rn (by omega)
    rw [runLoop_broke _ _ hstop (by omega)] at hc
    exact ⟨_, h, it, hc⟩
  · have hev := closeSeq_eventually hZ hε
    -- thresholds of the stopping test
    obtain ⟨δ, hδ, hacc⟩ := accuracy_of_limit hev (c := Fintype.card n * k)
      (r := fun j => (ktDiagnose g b (ktK eigh g b (ktSt eigh g b K0 rho j)) (ktSt eigh g b K0 rho j)
        (ktSt eigh g b K0 rho (j + 1))).rnorm)
      (s := fun j => (ktDiagnose g b (ktK eigh g b (ktSt eigh g b K0 rho j)) (ktSt eigh g b K0 rho j)
        (ktSt eigh g b K0 rho (j + 1))).snorm)
      (A := fun j => max (Real.sqrt (batchSq (ktSt eigh g b K0 rho (j + 1)).Z0
          + (pairSq (ktSt eigh g b K0 rho (j + 1)).ZL + pairSq (ktSt eigh g b K0 rho (j + 1)).ZR)))
        (Real.sqrt (batchSq (ktK eigh g b (ktSt eigh g b K0 rho j))
          + (pairSq (fun e => ktK eigh g b (ktSt eigh g b K0 rho j) (g.src e))
            + pairSq (fun e => ktK eigh g b (ktSt eigh g b K0 rho j) (g.dst e))))))
      (B := fun j => rho * Real.sqrt (batchSq (ktSt eigh g b K0 rho (j + 1)).U0
          + (pairSq (ktSt eigh g b K0 rho (j + 1)).UL + pairSq (ktSt eigh g b K0 rho (j + 1)).UR)))
      (fun j => Real.sqrt_nonneg _)
      (fun j => mul_nonneg (by rw [ktSt_rho]; exact hr.le) (Real.sqrt_nonneg _))
      (fun j h1 h2 => by
        have p1 : passPri g (fun j => ktK eigh g b (ktSt eigh g b K0 rho j))
            (fun j => (ktSt eigh g b K0 rho j).Z0) (fun j => (ktSt eigh g b K0 rho j).ZL)
            (fun j => (ktSt eigh g b K0 rho j).ZR) j = 0 :=
          (Real.sqrt_eq_zero (add_nonneg (sum_frobSq_nonneg _)
            (add_nonneg (sum_frobSq_nonneg _) (sum_frobSq_nonneg _)))).mp h1
        have h2' := (mul_eq_zero.mp h2).resolve_left (by rw [ktSt_rho]; exact hr.ne')
        have h3 := (Real.sqrt_eq_zero (add_nonneg (sum_frobSq_nonneg _)
            (add_nonneg (sum_frobSq_nonneg _) (sum_frobSq_nonneg _)))).mp h2'
        cases j with
        | zero =>
          -- the first test compares with zero arrays: it fails, the iterate is positive definite
          exfalso
          have hz : (ktSt eigh g b K0 rho 1).Z0 ⟨0, hk⟩ = 0 := by
            have h4 : ∑ t, frobSq ((ktSt eigh g b K0 rho 1).Z0 t - (0 : Batch k n) t) = 0 := by
              refine le_antisymm ?_ (sum_frobSq_nonneg _)
              rw [← h3]
              exact le_add_of_nonneg_right (add_nonneg (sum_frobSq_nonneg _) (sum_frobSq_nonneg _))
            have h5 := (Finset.sum_eq_zero_iff_of_nonneg fun t _ => frobSq_nonneg _).mp h4 ⟨0, hk⟩
              (Finset.mem_univ _)
            simpa using (frobSq_eq_zero_iff _).mp h5
          have hkk : ktK eigh g b (ktSt eigh g b K0 rho 0) ⟨0, hk⟩ = (ktSt eigh g b K0 rho 1).Z0 ⟨0, hk⟩ := by
            have h4 : ∑ t, frobSq (ktK eigh g b (ktSt eigh g b K0 rho 0) t - (ktSt eigh g b K0 rho 1).Z0 t)
                = 0 := by
              refine le_antisymm ?_ (sum_frobSq_nonneg _)
              rw [← p1]
              exact le_add_of_nonneg_right (add_nonneg (sum_frobSq_nonneg _) (sum_frobSq_nonneg _))
            have h5 := (Finset.sum_eq_zero_iff_of_nonneg fun t _ => frobSq_nonneg _).mp h4 ⟨0, hk⟩
              (Finset.mem_univ _)
            exact sub_eq_zero.mp ((frobSq_eq_zero_iff _).mp h5)
          have hpd := hrun.Kpd 0 ⟨0, hk⟩
          change (ktK eigh g b (ktSt eigh g b K0 rho 0) ⟨0, hk⟩).PosDef at hpd
          rw [hkk, hz] at hpd
          have := hpd.det_pos
          simp at this
        | succ j =>
          have hold := ktSt_old eigh g b K0 rho j
          rw [hold.1, hold.2.1, hold.2.2] at h3
          have h6 : (ktSt eigh g b K0 rho (j + 1 + 1)).Z0 = X := hexact (j + 1) p1 h3
          rw [h6]
          intro t i l
          rw [sub_self, abs_zero]
          exact hε.le)
    obtain ⟨M, hM⟩ := eventually_atTop.mp hev
    refine ⟨δ, hδ, max M 1, fun tol rtol t0 t1 r0 r1 m hm rh rn => ?_⟩
    obtain ⟨h, it, hc⟩ := hcall { a with tol := tol, rtol := rtol } m rh rn (le_of_max_le_right hm)
    refine ⟨_, h, it, _, hc, ?_⟩
    set b' := ktArgsOf { a with tol := tol, rtol := rtol } kernel with hb'
    have hsame : ∀ j, ktSt eigh g b' K0 rho j = ktSt eigh g b K0 rho j := fun j => rfl
    refine runLoop_property (ktBody eigh g b') (ktInit g K0 rho) (Q := fun s => CloseSeq ε s.Z0 X) (M := M)
      (fun j hj => ?_) (fun j hj => ?_) (le_of_max_le_left hm)
    · rw [stateAt_kt eigh g (a := b') hi hd K0 hr.ne', hsame]
      exact hM j hj
    · rw [ktStop_iff eigh g (a := b') hi hd hst K0 hr.ne', hsame, hsame] at hj
      rw [stateAt_kt eigh g (a := b') hi hd K0 hr.ne', hsame]
      refine hacc tol rtol t0 t1 r0 r1 j hj.1 ?_
      refine hj.2.trans (le_of_eq ?_)
      unfold ktDiagnose
      simp only [ktSt_rho]
      rw [mul_assoc b'.rtol]
      rfl

/-! ### Time-varying solver -/

variable {T : ℕ}

/-- The state before iteration `j`. -/
noncomputable def tglSt (eigh : Eigh n) (a : TGLArgs T n) (K0 : Batch (T + 1) n) (rho : ℝ) (j : ℕ) :
    TGLState T n := (tglNext eigh a)^[j] (tglInit K0 rho)

theorem tglSt_succ (eigh : Eigh n) (a : TGLArgs T n) (K0 : Batch (T + 1) n) (rho : ℝ) (j : ℕ) :
    tglSt eigh a K0 rho (j + 1) = tglNext eigh a (tglSt eigh a K0 rho j) :=
  Function.iterate_succ_apply' _ _ _

theorem tglSt_rho (eigh : Eigh n) (a : TGLArgs T n) (K0 : Batch (T + 1) n) (rho : ℝ) (j : ℕ) :
    (tglSt eigh a K0 rho j).rho = rho := by
  induction j with
  | zero => rfl
  | succ j ih => rw [tglSt_succ]; exact ih

theorem tglRescale_self (s : TGLState T n) (hr : s.rho ≠ 0) : tglRescale s.rho s = s := by
  unfold tglRescale
  simp only [div_self hr, one_smul]

theorem tglBody_const (eigh : Eigh n) {a : TGLArgs T n} (hi : a.rhoOptions.tauInc = 1)
    (hd : a.rhoOptions.tauDec = 1) (it : ℕ) (s : TGLState T n) (hr : s.rho ≠ 0) :
    (tglBody eigh a it s).1 = tglNext eigh a s := by
  unfold tglBody
  simp only [updateRho_const hi hd]
  split
  · rfl
  · exact tglRescale_self (tglNext eigh a s) hr

theorem stateAt_tgl (eigh : Eigh n) {a : TGLArgs T n} (hi : a.rhoOptions.tauInc = 1)
    (hd : a.rhoOptions.tauDec = 1) (K0 : Batch (T + 1) n) {rho : ℝ} (hr : rho ≠ 0) (j : ℕ) :
    stateAt (tglBody eigh a) (tglInit K0 rho) j = tglSt eigh a K0 rho j := by
  induction j with
  | zero => rfl
  | succ j ih =>
    change (tglBody eigh a j (stateAt (tglBody eigh a) (tglInit K0 rho) j)).1 = _
    rw [ih, tglBody_const eigh hi hd _ _ (by rw [tglSt_rho]; exact hr), tglSt_succ]

theorem tglSt_old (eigh : Eigh n) (a : TGLArgs T n) (K0 : Batch (T + 1) n) (rho : ℝ) (j : ℕ) :
    (tglSt eigh a K0 rho (j + 1)).Z0old = (tglSt eigh a K0 rho (j + 1)).Z0 ∧
    (tglSt eigh a K0 rho (j + 1)).Z1old = (tglSt eigh a K0 rho (j + 1)).Z1 ∧
    (tglSt eigh a K0 rho (j + 1)).Z2old = (tglSt eigh a K0 rho (j + 1)).Z2 := by
  rw [tglSt_succ]; exact ⟨rfl, rfl, rfl⟩

theorem tglRun {eigh : Eigh n} (he : IsEighOracle eigh) (a : TGLArgs T n)
    (hS : ∀ t, (a.empCov t).IsSymm) (hn : ∀ t, 0 < a.nSamples t) (K0 : Batch (T + 1) n) {rho : ℝ}
    (hr : 0 < rho) :
    PassRun (chainPairs T) tglDivisor a.empCov a.nSamples a.alpha (fun _ => a.beta) a.prox rho
      (fun j => tglK eigh a (tglSt eigh a K0 rho j))
      (fun j => (tglSt eigh a K0 rho j).Z0) (fun j => (tglSt eigh a K0 rho j).U0)
      (fun j => (tglSt eigh a K0 rho j).Z1) (fun j => (tglSt eigh a K0 rho j).Z2)
      (fun j => (tglSt eigh a K0 rho j).U1) (fun j => (tglSt eigh a K0 rho j).U2) := by
  have hrho := tglSt_rho eigh a K0 rho
  refine ⟨fun j t => (tglK_spec he a _ t (hS t) (hn t) (by rw [hrho]; exact hr)).1, fun j t => ?_, ?_, ?_, ?_,
    ?_, ?_, ?_⟩
  · have := (tglK_spec he a (tglSt eigh a K0 rho j) t (hS t) (hn t) (by rw [hrho]; exact hr)).2
    rw [hrho] at this
    have e1 : scatter (chainPairs T).src (fun e => (tglSt eigh a K0 rho j).Z1 e
        - (tglSt eigh a K0 rho j).U1 e) t = _ := scatter_castSucc _ t
    have e2 : scatter (chainPairs T).dst (fun e => (tglSt eigh a K0 rho j).Z2 e
        - (tglSt eigh a K0 rho j).U2 e) t = _ := scatter_succ _ t
    rw [e1, e2]
    exact this
  all_goals intro j i; simp only [tglSt_succ]; unfold tglNext; simp only [hrho] <;> rfl

/-- The stopping test of iteration `j`, without `stop_at`. -/
theorem tglStop_iff (eigh : Eigh n) {a : TGLArgs T n} (hi : a.rhoOptions.tauInc = 1)
    (hd : a.rhoOptions.tauDec = 1) (hst : a.stopAt = none) (K0 : Batch (T + 1) n) {rho : ℝ} (hr : rho ≠ 0)
    (j : ℕ) :
    Lemmas.stopAt (tglBody eigh a) (tglInit K0 rho) j = true ↔
      (tglDiagnose a (tglK eigh a (tglSt eigh a K0 rho j)) (tglSt eigh a K0 rho j)
        (tglSt eigh a K0 rho (j + 1))).rnorm ≤
      (tglDiagnose a (tglK eigh a (tglSt eigh a K0 rho j)) (tglSt eigh a K0 rho j)
        (tglSt eigh a K0 rho (j + 1))).ePri ∧
      (tglDiagnose a (tglK eigh a (tglSt eigh a K0 rho j)) (tglSt eigh a K0 rho j)
        (tglSt eigh a K0 rho (j + 1))).snorm ≤
      (tglDiagnose a (tglK eigh a (tglSt eigh a K0 rho j)) (tglSt eigh a K0 rho j)
        (tglSt eigh a K0 rho (j + 1))).eDual := by
  unfold Lemmas.stopAt
  rw [stateAt_tgl eigh hi hd K0 hr, tglSt_succ]
  unfold tglBody
  simp only [hst, stopAtTest, Bool.false_or, decide_eq_true_eq]

/-- C103: with a constant penalty, positive semidefinite covariances, `alpha > 0`, `beta ≥ 0` and a convex
penalty `≥ 0` with exact prox, `time_graphical_lasso` solves its problem (the one of
`C21_stationary_partial`, with the full l1 norm) for every start and every `rho > 0`: the problem has exactly
one optimum; for positive `tol` every call with `max_iter` large enough ends without the warning; and for
tolerances small enough the returned precision is as close to the optimum as desired. -/
theorem C103_time_converges [Nonempty n] {eigh : Eigh n} (he : IsEighOracle eigh)
    (a : TGLArgs T n) (hS : ∀ t, (a.empCov t).PosSemidef)
    (hn : ∀ t, 0 < a.nSamples t) (hal : 0 < a.alpha) (hbe : 0 ≤ a.beta) (hconv : ConvexPen a.psi)
    (hpos : ∀ X, 0 ≤ a.psi X)
    (hprox : IsProxOf a.psi a.prox) (hi : a.rhoOptions.tauInc = 1) (hd : a.rhoOptions.tauDec = 1)
    (hst : a.stopAt = none) (K0 : Batch (T + 1) n) {rho : ℝ} (hr : 0 < rho) :
    ∃ X, UniqueMin (PDSeq (T + 1) n)
        (timeObjective a.empCov a.nSamples a.alpha a.beta absSumMat a.psi) X ∧
      (0 < a.tol → 0 ≤ a.rtol → ∃ M, ∀ m, M ≤ m → ∀ rh rn, ∃ Z h it,
        timeGraphicalLasso eigh a K0 rho m rh rn = .ok Z h it false) ∧
      ∀ ε, 0 < ε → ∃ δ, 0 < δ ∧ ∃ M, ∀ tol rtol, 0 ≤ tol → tol ≤ δ → 0 ≤ rtol → rtol ≤ δ → ∀ m, M ≤ m →
        ∀ rh rn, ∃ Z h it w,
          timeGraphicalLasso eigh { a with tol := tol, rtol := rtol } K0 rho m rh rn = .ok Z h it w
            ∧ CloseSeq ε Z X := by
  have hSs : ∀ t, (a.empCov t).IsSymm := fun t => by
    have := (hS t).isHermitian
    rwa [IsHermitian, conjTranspose_eq_transpose_of_trivial] at this
  have hrun := tglRun he a hSs hn K0 hr
  obtain ⟨X, hX, hpri, hdual, -, hZ, hexact⟩ :=
    hrun.main (psi := a.psi) covers_chain hS hn hal hr (fun _ => hbe) hconv hpos hprox
  set d : ℝ := (Fintype.card n : ℝ) * (Fintype.card n : ℝ) with hdd
  set c : ℝ := Real.sqrt ((T + 1) * d + 2 * (T * d)) with hc
  have hsize : 0 < c := by
    have h1 : (0 : ℝ) < Fintype.card n := by exact_mod_cast Fintype.card_pos
    rw [hc, hdd]
    positivity
  have hcall : ∀ (b' : TGLArgs T n) (m : ℕ) (rh rn : Bool), 1 ≤ m → ∃ h it,
      timeGraphicalLasso eigh b' K0 rho m rh rn =
        .ok (runLoop (tglBody eigh b') m (tglInit K0 rho)).state.Z0 h it
          (!(runLoop (tglBody eigh b') m (tglInit K0 rho)).broke) := by
    intro b' m rh rn hm
    obtain ⟨it, hit⟩ := runLoop_lastIter (tglBody eigh b') (tglInit K0 rho) hm
    unfold timeGraphicalLasso
    simp only
    rw [hit]
    cases rn
    · exact ⟨_, _, rfl⟩
    · exact ⟨_, _, rfl⟩
  refine ⟨X, ?_, fun htol hrtol => ?_, fun ε hε => ?_⟩
  · have e : timeObjective a.empCov a.nSamples a.alpha a.beta absSumMat a.psi =
        pairTimeObjective (chainPairs T) a.empCov a.nSamples a.alpha (fun _ => a.beta) a.psi := by
      funext K
      unfold timeObjective pairTimeObjective negLogLik
      rw [add_assoc, ← Finset.mul_sum]
      rfl
    rw [e]
    exact hX
  · have e1 := eventually_sqrt_le hpri (b := c * a.tol) (by positivity)
    have e2 := eventually_sqrt_le hdual (b := c * a.tol / rho) (by positivity)
    obtain ⟨J, hJ⟩ := eventually_atTop.mp (e1.and e2)
    obtain ⟨h1, h2⟩ := hJ (J + 1) (by omega)
    unfold passPri at h1
    unfold passDual at h2
    rw [← add_assoc] at h1 h2
    have hstop : Lemmas.stopAt (tglBody eigh a) (tglInit K0 rho) (J + 1) = true := by
      rw [tglStop_iff eigh hi hd hst K0 hr.ne']
      constructor
      · refine h1.trans ?_
        unfold tglDiagnose
        simp only
        refine le_add_of_nonneg_right (mul_nonneg hrtol (le_max_of_le_left (Real.sqrt_nonneg _)))
      · have hold := tglSt_old eigh a K0 rho J
        unfold tglDiagnose
        simp only [hold.1, hold.2.1, hold.2.2, tglSt_rho]
        rw [le_div_iff₀ hr, mul_comm] at h2
        refine h2.trans ?_
        refine le_add_of_nonneg_right (mul_nonneg (mul_nonneg hrtol hr.le) (Real.sqrt_nonneg _))
    refine ⟨J + 2, fun m hm rh rn => ?_⟩
    obtain ⟨h, it, hc⟩ := hcall a m rh rn (by omega)
    rw [runLoop_broke _ _ hstop (by omega)] at hc
    exact ⟨_, h, it, hc⟩
  · have hev := closeSeq_eventually hZ hε
    have hnn : ∀ {l : ℕ} (A : Batch (T + 1) n) (B C : Batch l n), 0 ≤ batchSq A + batchSq B + batchSq C :=
      fun A B C => add_nonneg (add_nonneg (sum_frobSq_nonneg A) (sum_frobSq_nonneg B)) (sum_frobSq_nonneg C)
    obtain ⟨δ, hδ, hacc⟩ := accuracy_of_limit hev (c := c)
      (r := fun j => (tglDiagnose a (tglK eigh a (tglSt eigh a K0 rho j)) (tglSt eigh a K0 rho j)
        (tglSt eigh a K0 rho (j + 1))).rnorm)
      (s := fun j => (tglDiagnose a (tglK eigh a (tglSt eigh a K0 rho j)) (tglSt eigh a K0 rho j)
        (tglSt eigh a K0 rho (j + 1))).snorm)
      (A := fun j => max (Real.sqrt (batchSq (tglSt eigh a K0 rho (j + 1)).Z0
          + batchSq (tglSt eigh a K0 rho (j + 1)).Z1 + batchSq (tglSt eigh a K0 rho (j + 1)).Z2))
        (Real.sqrt (batchSq (tglK eigh a (tglSt eigh a K0 rho j))
          + batchSq (init (tglK eigh a (tglSt eigh a K0 rho j)))
          + batchSq (tail (tglK eigh a (tglSt eigh a K0 rho j))))))
      (B := fun j => rho * Real.sqrt (batchSq (tglSt eigh a K0 rho (j + 1)).U0
          + batchSq (tglSt eigh a K0 rho (j + 1)).U1 + batchSq (tglSt eigh a K0 rho (j + 1)).U2))
      (fun j => Real.sqrt_nonneg _)
      (fun j => mul_nonneg (by rw [tglSt_rho]; exact hr.le) (Real.sqrt_nonneg _))
      (fun j h1 h2 => by
        have p0 := (Real.sqrt_eq_zero (hnn _ _ _)).mp h1
        have p1 : passPri (chainPairs T) (fun j => tglK eigh a (tglSt eigh a K0 rho j))
            (fun j => (tglSt eigh a K0 rho j).Z0) (fun j => (tglSt eigh a K0 rho j).Z1)
            (fun j => (tglSt eigh a K0 rho j).Z2) j = 0 := by
          unfold passPri
          rw [← add_assoc]
          exact p0
        have h2' := (mul_eq_zero.mp h2).resolve_left (by rw [tglSt_rho]; exact hr.ne')
        have h3 := (Real.sqrt_eq_zero (hnn _ _ _)).mp h2'
        cases j with
        | zero =>
          exfalso
          have hz : (tglSt eigh a K0 rho 1).Z0 0 = 0 := by
            have h4 : ∑ t, frobSq ((tglSt eigh a K0 rho 1).Z0 t - (0 : Batch (T + 1) n) t) = 0 := by
              refine le_antisymm ?_ (sum_frobSq_nonneg _)
              rw [← h3, add_assoc]
              exact le_add_of_nonneg_right (add_nonneg (sum_frobSq_nonneg _) (sum_frobSq_nonneg _))
            have h5 := (Finset.sum_eq_zero_iff_of_nonneg fun t _ => frobSq_nonneg _).mp h4 0
              (Finset.mem_univ _)
            simpa using (frobSq_eq_zero_iff _).mp h5
          have hkk : tglK eigh a (tglSt eigh a K0 rho 0) 0 = (tglSt eigh a K0 rho 1).Z0 0 := by
            have h4 : ∑ t, frobSq (tglK eigh a (tglSt eigh a K0 rho 0) t - (tglSt eigh a K0 rho 1).Z0 t)
                = 0 := by
              refine le_antisymm ?_ (sum_frobSq_nonneg _)
              rw [← p1]
              exact le_add_of_nonneg_right (add_nonneg (sum_frobSq_nonneg _) (sum_frobSq_nonneg _))
            have h5 := (Finset.sum_eq_zero_iff_of_nonneg fun t _ => frobSq_nonneg _).mp h4 0
              (Finset.mem_univ _)
            exact sub_eq_zero.mp ((frobSq_eq_zero_iff _).mp h5)
          have hpd := hrun.Kpd 0 0
          change (tglK eigh a (tglSt eigh a K0 rho 0) 0).PosDef at hpd
          rw [hkk, hz] at hpd
          have := hpd.det_pos
          simp at this
        | succ j =>
          have hold := tglSt_old eigh a K0 rho j
          rw [hold.1, hold.2.1, hold.2.2] at h3
          have h6 : (tglSt eigh a K0 rho (j + 1 + 1)).Z0 = X := hexact (j + 1) p1 (by
            unfold passDual
            rw [← add_assoc]
            exact h3)
          rw [h6]
          intro t i l
          rw [sub_self, abs_zero]
          exact hε.le)
    obtain ⟨M, hM⟩ := eventually_atTop.mp hev
    refine ⟨δ, hδ, max M 1, fun tol rtol t0 t1 r0 r1 m hm rh rn => ?_⟩
    obtain ⟨h, it, hc⟩ := hcall { a with tol := tol, rtol := rtol } m rh rn (le_of_max_le_right hm)
    refine ⟨_, h, it, _, hc, ?_⟩
    set b' : TGLArgs T n := { a with tol := tol, rtol := rtol } with hb'
    have hsame : ∀ j, tglSt eigh b' K0 rho j = tglSt eigh a K0 rho j := fun j => rfl
    refine runLoop_property (tglBody eigh b') (tglInit K0 rho) (Q := fun s => CloseSeq ε s.Z0 X) (M := M)
      (fun j hj => ?_) (fun j hj => ?_) (le_of_max_le_left hm)
    · rw [stateAt_tgl eigh (a := b') hi hd K0 hr.ne', hsame]
      exact hM j hj
    · rw [tglStop_iff eigh (a := b') hi hd hst K0 hr.ne', hsame, hsame] at hj
      rw [stateAt_tgl eigh (a := b') hi hd K0 hr.ne', hsame]
      refine hacc tol rtol t0 t1 r0 r1 j hj.1 ?_
      refine hj.2.trans (le_of_eq ?_)
      unfold tglDiagnose
      simp only [tglSt_rho]
      rw [mul_assoc b'.rtol]

/-! ### The hypotheses hold for a non-trivial case: two features, `k` times, the l1 coupling -/

theorem absSumMat_nonneg' (X : Matrix n n ℝ) : 0 ≤ absSumMat X :=
  Finset.sum_nonneg fun _ _ => Finset.sum_nonneg fun _ _ => abs_nonneg _

example (k : ℕ) (hk : 0 < k) : ∃ (eigh : Eigh (Fin 2)) (a : KTArgs k Empty (Fin 2))
    (kernel : Option (Fin k → Fin k → ℝ)), IsEighOracle eigh ∧ (∀ s t, s < t → 0 ≤ kernelOf kernel s t) ∧
      (∀ t, (a.empCov t).PosSemidef) ∧ (∀ t, 0 < a.nSamples t) ∧ 0 < a.alpha ∧ ConvexPen a.psi ∧
      (∀ X, 0 ≤ a.psi X) ∧ IsProxOf a.psi a.prox ∧ a.rhoOptions.tauInc = 1 ∧ a.rhoOptions.tauDec = 1 ∧
      a.stopAt = none := by
  obtain ⟨eigh, he⟩ := exists_eighOracle (n := Fin 2)
  exact ⟨eigh, ⟨fun _ => 1, fun _ => 3, 1, fun e => e.elim, absSumMat, softThresholdingMat, 1, 1, none,
      1 / 10000, true, ⟨10, 1, 1⟩⟩,
    some fun s t => Real.exp (-((s : ℝ) - t) ^ 2), he, fun s t _ => (Real.exp_pos _).le,
    fun _ => PosSemidef.one, fun _ => by norm_num, one_pos, absSumMat_convexPen, absSumMat_nonneg',
    soft_isProxOf, rfl, rfl, rfl⟩

example (T : ℕ) : ∃ (eigh : Eigh (Fin 2)) (a : TGLArgs T (Fin 2)), IsEighOracle eigh ∧
      (∀ t, (a.empCov t).PosSemidef) ∧ (∀ t, 0 < a.nSamples t) ∧ 0 < a.alpha ∧ 0 ≤ a.beta ∧ ConvexPen a.psi ∧
      (∀ X, 0 ≤ a.psi X) ∧ IsProxOf a.psi a.prox ∧ a.rhoOptions.tauInc = 1 ∧ a.rhoOptions.tauDec = 1 ∧
      a.stopAt = none := by
  obtain ⟨eigh, he⟩ := exists_eighOracle (n := Fin 2)
  exact ⟨eigh, ⟨fun _ => 1, fun _ => 3, 1, 2, absSumMat, softThresholdingMat, 1, 1, none, 1 / 10000, true,
      ⟨10, 1, 1⟩⟩,
    he, fun _ => PosSemidef.one, fun _ => by norm_num, one_pos, by norm_num, absSumMat_convexPen,
    absSumMat_nonneg', soft_isProxOf, rfl, rfl, rfl⟩

end Verif.Props
