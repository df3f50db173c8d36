import Verif.Lemmas.Certificate
import Verif.Props.Objective

/-! Property theorem C133 (the residuals in the returned history bound the distance to the optimal value, for
every rule for the penalty parameter). -/

namespace Verif.Props

open Verif.Model Verif.Spec Verif.Lemmas Matrix

set_option autoImplicit false
set_option linter.unusedSectionVars false

variable {n : Type*} [Fintype n] [DecidableEq n] {k : ℕ} {E : Type*} [Fintype E]

theorem runLoop_last {σ κ : Type*} (body : ℕ → σ → σ × κ × Bool) (m : ℕ) (s : σ) {j : ℕ}
    (h : (runLoop body m s).lastIter = some j) :
    (runLoop body m s).state = stateAt body s (j + 1) ∧
      (runLoop body m s).checks.getLast? = some (checkAt body s j) ∧
      ((runLoop body m s).broke = true → Lemmas.stopAt body s j = true) := by
  rcases runLoop_spec body m s with ⟨i, _, _, h1, h2⟩ | ⟨_, h2⟩
  · rw [h2] at h ⊢
    obtain rfl : i = j := by simpa using h
    refine ⟨rfl, ?_, fun _ => h1⟩
    simp [List.range_succ]
  · rw [h2] at h ⊢
    by_cases hm : m = 0
    · simp [hm] at h
    · simp only [hm, if_false] at h ⊢
      obtain ⟨m', rfl⟩ := Nat.exists_eq_succ_of_ne_zero hm
      obtain rfl : m' = j := by simpa using h
      refine ⟨rfl, ?_, fun hb => absurd hb (by decide)⟩
      simp [List.range_succ]

/-! ### Graphical lasso -/

theorem soft_dist_le {lam : ℝ} (hl : 0 ≤ lam) (x : ℝ) : |x - softScalar x lam| ≤ lam := by
  unfold softScalar npSign
  rcases lt_trichotomy x 0 with hx | hx | hx
  · rw [if_neg (by linarith : ¬ x > 0), if_pos hx, abs_of_neg hx]
    rcases max_cases (-x - lam) 0 with ⟨h1, h2⟩ | ⟨h1, h2⟩ <;> rw [h1, abs_le] <;> constructor <;> linarith
  · subst hx; simpa using hl
  · rw [if_pos hx, abs_of_pos hx]
    rcases max_cases (x - lam) 0 with ⟨h1, h2⟩ | ⟨h1, h2⟩ <;> rw [h1, abs_le] <;> constructor <;> linarith

theorem froNorm_le_of_entries {A : Matrix n n ℝ} {c : ℝ} (hc : 0 ≤ c) (h : ∀ i j, |A i j| ≤ c) :
    froNorm A ≤ Fintype.card n * c := by
  unfold froNorm
  refine Real.sqrt_le_iff.mpr ⟨by positivity, ?_⟩
  calc ∑ i, ∑ j, A i j ^ 2 ≤ ∑ _i : n, ∑ _j : n, c ^ 2 :=
        Finset.sum_le_sum fun i _ => Finset.sum_le_sum fun j _ => by
          rw [← sq_abs]; exact pow_le_pow_left₀ (abs_nonneg _) (h i j) 2
    _ = (Fintype.card n * c) ^ 2 := by
        simp only [Finset.sum_const, Finset.card_univ, nsmul_eq_mul]; ring

theorem gl_dual_bound (eigh : Eigh n) {a : GLArgs n} (hal : 0 ≤ a.alpha) {s : GLState n} (hr : 0 < s.rho) :
    s.rho * froNorm (nextU eigh a s) ≤ a.alpha * Fintype.card n := by
  have h : froNorm (nextU eigh a s) ≤ Fintype.card n * (a.alpha / s.rho) := by
    refine froNorm_le_of_entries (by positivity) fun i j => ?_
    have e : nextU eigh a s i j = (glK eigh a.empCov s.rho s.Z s.U + s.U) i j
        - softScalar ((glK eigh a.empCov s.rho s.Z s.U + s.U) i j) (if i = j then 0 else a.alpha / s.rho) := by
      unfold nextU nextZ glZ
      rw [← softOff_apply, Matrix.add_apply, Matrix.sub_apply, Matrix.add_apply]
      ring
    rw [e]
    refine (soft_dist_le ?_ _).trans ?_
    · split
      · exact le_rfl
      · positivity
    · split
      · positivity
      · exact le_rfl
  calc s.rho * froNorm (nextU eigh a s) ≤ s.rho * (Fintype.card n * (a.alpha / s.rho)) :=
        mul_le_mul_of_nonneg_left h hr.le
    _ = a.alpha * Fintype.card n := by field_simp

/-- One pass of `graphical_lasso` from any state. -/
theorem gl_pass_bound {eigh : Eigh n} (he : IsEighOracle eigh) (a : GLArgs n) (hS : a.empCov.IsSymm)
    (hal : 0 ≤ a.alpha) {s : GLState n} (hr : 0 < s.rho) {X : Matrix n n ℝ} (hX : X.PosDef) :
    glObjective a.empCov a.alpha (glK eigh a.empCov s.rho s.Z s.U) ≤ glObjective a.empCov a.alpha X
      + 2 * (a.alpha * Fintype.card n) * froNorm (glK eigh a.empCov s.rho s.Z s.U - nextZ eigh a s)
      + s.rho * froNorm (nextZ eigh a s - s.Z) * froNorm (glK eigh a.empCov s.rho s.Z s.U - X) := by
  set K := glK eigh a.empCov s.rho s.Z s.U with hKd
  set Z' := nextZ eigh a s with hZ'
  set U' := nextU eigh a s with hU'
  have hK : K.PosDef := glK_posDef he hS hr s.Z s.U
  have hsym : (X - K).IsSymm := by rw [IsSymm, transpose_sub, hX.isSymm'.eq, hK.isSymm'.eq]
  have h1 := loglik_tangent hS hK hX
  have h2 : frobInner (a.empCov - K⁻¹) (X - K) = -(s.rho * frobInner (K - s.Z + s.U) (X - K)) := by
    have hinv := glK_inv he hS hr s.Z s.U
    rw [← hKd] at hinv
    have e : a.empCov - K⁻¹ = s.rho • symmetrize (s.Z - s.U) - s.rho • K := by
      rw [hinv]; abel
    rw [e, frobInner_sub_left, frobInner_smul_left, frobInner_smul_left, frobInner_symmetrize hsym]
    have e2 : K - s.Z + s.U = K - (s.Z - s.U) := by abel
    rw [e2]
    simp only [frobInner_sub_left]
    ring
  have h3 : K - s.Z + s.U = U' + (Z' - s.Z) := by rw [hU']; unfold nextU; rw [← hKd, ← hZ']; abel
  have h4 := subPair_next (eigh := eigh) (a := a) hal hr X
  rw [← hZ', ← hU'] at h4
  have h5 : a.alpha * absSumOff Z' + s.rho * frobInner U' (X - Z') ≤ a.alpha * absSumOff X := by
    have := mul_le_mul_of_nonneg_left h4 hr.le
    have e : ∀ c : ℝ, s.rho * (a.alpha / s.rho * c) = a.alpha * c := fun c => by field_simp
    rwa [mul_add, e, e] at this
  have h6 : frobInner U' (X - Z') = frobInner U' (X - K) + frobInner U' (K - Z') := by
    rw [← frobInner_add_right]; congr 1; abel
  have b1 := (abs_le.mp (abs_frobInner_le U' (K - Z'))).1
  have b2 := (abs_le.mp (abs_frobInner_le (Z' - s.Z) (X - K))).2
  have e7 : froNorm (X - K) = froNorm (K - X) := by
    rw [froNorm_eq_sqrt, froNorm_eq_sqrt, ← frobSq_neg, neg_sub]
  rw [e7] at b2
  have m1 := mul_le_mul_of_nonneg_left b1 hr.le
  have m2 := mul_le_mul_of_nonneg_left b2 hr.le
  have m3 := mul_le_mul_of_nonneg_right (gl_dual_bound eigh hal hr) (froNorm_nonneg (K - Z'))
  rw [← hU'] at m3
  have h8 := (abs_le.mp (absSumOff_sub_le K Z')).2
  have e8 : froNorm (Z' - K) = froNorm (K - Z') := by
    rw [froNorm_eq_sqrt, froNorm_eq_sqrt, ← frobSq_neg, neg_sub]
  rw [e8] at h8
  have m4 := mul_le_mul_of_nonneg_left h8 hal
  rw [h3, frobInner_add_left] at h2
  unfold glObjective
  nlinarith

theorem gl_run_facts {eigh : Eigh n} (a : GLArgs n) (hi : 0 < a.rhoOptions.tauInc) (hd : 0 < a.rhoOptions.tauDec)
    (Z0 : Matrix n n ℝ) {rho : ℝ} (hr : 0 < rho) (j : ℕ) :
    0 < (stateAt (glBody eigh a) (glInit Z0 rho) j).rho ∧
      (stateAt (glBody eigh a) (glInit Z0 rho) (j + 1)).Zold =
        (stateAt (glBody eigh a) (glInit Z0 rho) (j + 1)).Z := by
  refine ⟨stateAt_invariant _ (fun s : GLState n => 0 < s.rho) (fun it s hs => ?_) hr j, ?_⟩
  · unfold glBody
    simp only
    split
    · exact hs
    · exact updateRho_pos hi hd hs _ _
  · change (glBody eigh a j _).1.Zold = (glBody eigh a j _).1.Z
    unfold glBody
    simp only
    split <;> rfl

/-- C133 (graphical lasso): whatever the rule for the penalty parameter does, after at least two passes the
last entry `c` of the history certifies the result: there is a positive definite `K` at distance `c.rnorm` of the
returned precision whose objective exceeds that of any competitor `X` by at most
`2 alpha p c.rnorm + c.snorm ‖K - X‖` (`p` variables). Without warning the residuals are at most the tolerances. -/
theorem C133_graphical_lasso {eigh : Eigh n} (he : IsEighOracle eigh) (a : GLArgs n) (hS : a.empCov.IsSymm)
    (hal : 0 ≤ a.alpha) (hor : a.overRelax = 1) (hi : 0 < a.rhoOptions.tauInc) (hd : 0 < a.rhoOptions.tauDec)
    (hrt : 0 ≤ a.rtol) (Z0 : Matrix n n ℝ) {rho : ℝ} (hr : 0 < rho) (m : ℕ) {Z C : Matrix n n ℝ}
    {hist : List GLCheck} {it : ℕ} {warned : Bool}
    (hcall : graphicalLasso eigh a Z0 rho m true true = .ok Z C (some hist) (some it) warned) (hit : 1 ≤ it) :
    ∃ (K : Matrix n n ℝ) (c : GLCheck), hist.getLast? = some c ∧ K.PosDef ∧ froNorm (K - Z) = c.rnorm ∧
      (∀ X : Matrix n n ℝ, X.PosDef → glObjective a.empCov a.alpha K ≤ glObjective a.empCov a.alpha X
        + 2 * (a.alpha * Fintype.card n) * c.rnorm + c.snorm * froNorm (K - X)) ∧
      (warned = false → c.rnorm ≤ Fintype.card n * a.tol + a.rtol * max (froNorm K) (froNorm Z) ∧
        c.snorm ≤ Fintype.card n * (a.tol + a.rtol * a.alpha)) := by
  have hcall' := hcall
  unfold graphicalLasso at hcall'
  simp only [if_true] at hcall'
  cases hl : (runLoop (glBody eigh a) m (glInit Z0 rho)).lastIter with
  | none => rw [hl] at hcall'; simp at hcall'
  | some j =>
    rw [hl] at hcall'
    simp only [GLReturn.ok.injEq, Option.some.injEq] at hcall'
    obtain ⟨h1, -, h3, h4, h5⟩ := hcall'
    obtain ⟨l1, l2, l3⟩ := runLoop_last (glBody eigh a) m (glInit Z0 rho) hl
    obtain ⟨i, rfl⟩ : ∃ i, j = i + 1 := ⟨j - 1, by omega⟩
    set s := stateAt (glBody eigh a) (glInit Z0 rho) (i + 1) with hs
    have hrs : 0 < s.rho := (gl_run_facts (eigh := eigh) a hi hd Z0 hr (i + 1)).1
    have hold : s.Zold = s.Z := (gl_run_facts (eigh := eigh) a hi hd Z0 hr i).2
    have hst : stateAt (glBody eigh a) (glInit Z0 rho) (i + 1 + 1) = (glBody eigh a (i + 1) s).1 := rfl
    have hZ : Z = nextZ eigh a s := by
      rw [← h1, l1, hst, glBody_Z, hor, glKhat_one]
      rfl
    have hc : checkAt (glBody eigh a) (glInit Z0 rho) (i + 1) = (glBody eigh a (i + 1) s).2.1 := rfl
    have hrn : (glBody eigh a (i + 1) s).2.1.rnorm = froNorm (glK eigh a.empCov s.rho s.Z s.U - nextZ eigh a s) := by
      unfold glBody nextZ; simp only [hor, glKhat_one]
    have hsn : (glBody eigh a (i + 1) s).2.1.snorm = s.rho * froNorm (nextZ eigh a s - s.Z) := by
      unfold glBody nextZ; simp only [hor, glKhat_one, hold]
    have hp : (glBody eigh a (i + 1) s).2.1.ePri = Fintype.card n * a.tol
        + a.rtol * max (froNorm (glK eigh a.empCov s.rho s.Z s.U)) (froNorm (nextZ eigh a s)) := by
      unfold glBody nextZ
      simp only [hor, glKhat_one]
      rw [Real.sqrt_mul_self (Nat.cast_nonneg _)]
    have hdl : (glBody eigh a (i + 1) s).2.1.eDual = Fintype.card n * a.tol
        + a.rtol * s.rho * froNorm (nextU eigh a s) := by
      unfold glBody nextU nextZ
      simp only [hor, glKhat_one]
      rw [Real.sqrt_mul_self (Nat.cast_nonneg _)]
    refine ⟨glK eigh a.empCov s.rho s.Z s.U, _, by rw [← h3]; exact l2, glK_posDef he hS hrs _ _, ?_,
      fun X hX => ?_, fun hw => ?_⟩
    · rw [hc, hrn, hZ]
    · rw [hc, hrn, hsn]
      exact gl_pass_bound he a hS hal hrs hX
    · have hb : (runLoop (glBody eigh a) m (glInit Z0 rho)).broke = true := by
        rw [hw] at h5
        simpa using h5
      have hstop := l3 hb
      have hstop' : (glBody eigh a (i + 1) s).2.1.rnorm ≤ (glBody eigh a (i + 1) s).2.1.ePri ∧
          (glBody eigh a (i + 1) s).2.1.snorm ≤ (glBody eigh a (i + 1) s).2.1.eDual := by
        change (glBody eigh a (i + 1) s).2.2 = true at hstop
        unfold glBody at hstop ⊢
        simpa only [decide_eq_true_eq] using hstop
      rw [hc, hZ, ← hp]
      refine ⟨hstop'.1, hstop'.2.trans ?_⟩
      rw [hdl]
      have := mul_le_mul_of_nonneg_left (gl_dual_bound eigh hal hrs) hrt
      linarith

/-! ### Time-varying solvers -/

theorem symm_next_dual {alpha rho : ℝ} {K U : Matrix n n ℝ} (hK : K.IsSymm) (hU : U.IsSymm) :
    (U + (K - tglZ0 alpha rho K U)).IsSymm := by
  have hZ : (tglZ0 alpha rho K U).IsSymm := softMat_isSymm (symmetrize_isSymm _) _
  rw [IsSymm, transpose_add, transpose_sub, hU.eq, hK.eq, hZ.eq]

theorem tgl_pass_bound {T : ℕ} {eigh : Eigh n} (he : IsEighOracle eigh) (a : TGLArgs T n)
    (hS : ∀ t, (a.empCov t).IsSymm) (hn : ∀ t, 0 < a.nSamples t) (hal : 0 ≤ a.alpha) (hbe : 0 ≤ a.beta)
    (hconv : ConvexPen a.psi) (hprox : IsProxOf a.psi a.prox) {L : ℝ} (hL0 : 0 ≤ L) (hL : LipschitzPen L a.psi)
    {s : TGLState T n} (hr : 0 < s.rho) (hU : ∀ t, (s.U0 t).IsSymm) :
    let s' := tglNext eigh a s
    let K := tglK eigh a s
    let C := copyConst n (T + 1) a.alpha L fun _ : Fin T => a.beta
    (∀ t, (K t).PosDef) ∧ (∀ t, (s'.U0 t).IsSymm) ∧
    s.rho * Real.sqrt (batchSq s'.U0 + batchSq s'.U1 + batchSq s'.U2) ≤ C ∧
    ∀ X ∈ PDSeq (T + 1) n, timeObjective a.empCov a.nSamples a.alpha a.beta absSumMat a.psi K ≤
      timeObjective a.empCov a.nSamples a.alpha a.beta absSumMat a.psi X
        + 2 * C * Real.sqrt (batchSq (K - s'.Z0) + batchSq (init K - s'.Z1) + batchSq (tail K - s'.Z2))
        + s.rho * Real.sqrt (batchSq (s'.Z0 - s.Z0) + batchSq (s'.Z1 - s.Z1) + batchSq (s'.Z2 - s.Z2))
          * (Real.sqrt 3 * famNorm fun t => K t - X t) := by
  intro s' K C
  have hpd : ∀ t, (K t).PosDef := fun t => (tglK_spec he a s t (hS t) (hn t) hr).1
  have hUs : ∀ t, (s'.U0 t).IsSymm := fun t => symm_next_dual (hpd t).isSymm' (hU t)
  have hsub : CopySub a.alpha (fun _ : Fin T => a.beta) a.psi s.rho (copies s'.Z0 s'.Z1 s'.Z2)
      (copies s'.U0 s'.U1 s'.U2) :=
    copySub_next (chainPairs T) hal hr (fun _ => hbe) hconv hprox (fun t => (hpd t).isSymm') (fun _ => rfl)
      (fun _ => rfl) fun _ => rfl
  have hst : ∀ t, a.nSamples t • (a.empCov t - (K t)⁻¹) + s.rho • symmetrize (∑ i : Copy (T + 1) (Fin T),
      if copyEp (chainPairs T) i = t then
        K (copyEp (chainPairs T) i) - copies s.Z0 s.Z1 s.Z2 i + copies s.U0 s.U1 s.U2 i else 0) = 0 := by
    intro t
    refine kst_of_divisor (chainPairs T) covers_chain t (hpd t) ?_
    have := (tglK_spec he a s t (hS t) (hn t) hr).2
    have e1 : scatter (chainPairs T).src (fun e => s.Z1 e - s.U1 e) t = _ := scatter_castSucc _ t
    have e2 : scatter (chainPairs T).dst (fun e => s.Z2 e - s.U2 e) t = _ := scatter_succ _ t
    rw [e1, e2]
    exact this
  have hUn : ∀ i, copies s'.U0 s'.U1 s'.U2 i = copies s.U0 s.U1 s.U2 i
      + (K (copyEp (chainPairs T) i) - copies s'.Z0 s'.Z1 s'.Z2 i) := by
    rintro (t | e | e) <;> rfl
  have hfam : ∀ (A : Batch (T + 1) n) (B D : Batch T n),
      famNorm (copies A B D) = Real.sqrt (batchSq A + batchSq B + batchSq D) := by
    intro A B D
    unfold famNorm
    rw [sum_copy, add_assoc]
    rfl
  have hobj : ∀ Y, timeObjective a.empCov a.nSamples a.alpha a.beta absSumMat a.psi Y =
      pairTimeObjective (chainPairs T) a.empCov a.nSamples a.alpha (fun _ => a.beta) a.psi Y := by
    intro Y
    unfold timeObjective pairTimeObjective
    rw [Finset.mul_sum Finset.univ _ a.beta, add_assoc]
    rfl
  refine ⟨hpd, hUs, ?_, fun X hX => ?_⟩
  · have := copySub_dual_bound hal (fun _ => hbe) hL hL0 hsub hUs
    rwa [hfam] at this
  · have hXpd : ∀ t, (X t).PosDef := hX
    have h1 := pass_bound (X := X) hal (fun _ => hbe) hL hL0 hS (fun t => (hn t).le) hr.le hpd hXpd hst hUn hsub hUs
    have f1 : (fun i => K (copyEp (chainPairs T) i) - copies s'.Z0 s'.Z1 s'.Z2 i) =
        copies (K - s'.Z0) (init K - s'.Z1) (tail K - s'.Z2) := by
      funext i; rcases i with t | e | e <;> rfl
    have f2 : (fun i => copies s'.Z0 s'.Z1 s'.Z2 i - copies s.Z0 s.Z1 s.Z2 i) =
        copies (s'.Z0 - s.Z0) (s'.Z1 - s.Z1) (s'.Z2 - s.Z2) := by
      funext i; rcases i with t | e | e <;> rfl
    rw [f1, f2, hfam, hfam] at h1
    have h2 := famNorm_copies (g := chainPairs T) (n := n) covers_chain (d := 3) (fun t => by
      unfold tglDivisor
      split <;> split <;> norm_num) (by norm_num) fun t => K t - X t
    rw [hobj, hobj]
    refine h1.trans (add_le_add le_rfl (mul_le_mul_of_nonneg_left h2 (by positivity)))

theorem tgl_run_facts {T : ℕ} {eigh : Eigh n} (he : IsEighOracle eigh) (a : TGLArgs T n)
    (hS : ∀ t, (a.empCov t).IsSymm) (hn : ∀ t, 0 < a.nSamples t) (hi : 0 < a.rhoOptions.tauInc)
    (hd : 0 < a.rhoOptions.tauDec) (K0 : Batch (T + 1) n) {rho : ℝ} (hr : 0 < rho) (j : ℕ) :
    (0 < (stateAt (tglBody eigh a) (tglInit K0 rho) j).rho ∧
      ∀ t, ((stateAt (tglBody eigh a) (tglInit K0 rho) j).U0 t).IsSymm) ∧
      (stateAt (tglBody eigh a) (tglInit K0 rho) (j + 1)).Z0old =
        (stateAt (tglBody eigh a) (tglInit K0 rho) (j + 1)).Z0 ∧
      (stateAt (tglBody eigh a) (tglInit K0 rho) (j + 1)).Z1old =
        (stateAt (tglBody eigh a) (tglInit K0 rho) (j + 1)).Z1 ∧
      (stateAt (tglBody eigh a) (tglInit K0 rho) (j + 1)).Z2old =
        (stateAt (tglBody eigh a) (tglInit K0 rho) (j + 1)).Z2 := by
  refine ⟨stateAt_invariant _ (fun s : TGLState T n => 0 < s.rho ∧ ∀ t, (s.U0 t).IsSymm) (fun it s hs => ?_)
    ⟨hr, fun t => isSymm_zero⟩ j, ?_⟩
  · have hU : ∀ t, ((tglNext eigh a s).U0 t).IsSymm := fun t =>
      symm_next_dual (tglK_spec he a s t (hS t) (hn t) hs.1).1.isSymm' (hs.2 t)
    unfold tglBody
    simp only
    split
    · exact ⟨hs.1, hU⟩
    · exact ⟨updateRho_pos hi hd hs.1 _ _, fun t => isSymm_smul _ (hU t)⟩
  · change (tglBody eigh a j _).1.Z0old = (tglBody eigh a j _).1.Z0 ∧
      (tglBody eigh a j _).1.Z1old = (tglBody eigh a j _).1.Z1 ∧
      (tglBody eigh a j _).1.Z2old = (tglBody eigh a j _).1.Z2
    unfold tglBody
    simp only
    split <;> exact ⟨rfl, rfl, rfl⟩

/-- C133 (time-varying graphical lasso, with the full l1 norm as in `C21_stationary_partial`): for a penalty with
Lipschitz constant `L` the last entry `c` of the history certifies the result of every call with at least two
passes, with `C = alpha p (T+1) + 2 L beta T`. -/
theorem C133_time {T : ℕ} {eigh : Eigh n} (he : IsEighOracle eigh) (a : TGLArgs T n)
    (hS : ∀ t, (a.empCov t).IsSymm) (hn : ∀ t, 0 < a.nSamples t) (hal : 0 ≤ a.alpha) (hbe : 0 ≤ a.beta)
    (hconv : ConvexPen a.psi) (hprox : IsProxOf a.psi a.prox) {L : ℝ} (hL0 : 0 ≤ L) (hL : LipschitzPen L a.psi)
    (hi : 0 < a.rhoOptions.tauInc) (hd : 0 < a.rhoOptions.tauDec) (hrt : 0 ≤ a.rtol) (K0 : Batch (T + 1) n)
    {rho : ℝ} (hr : 0 < rho) (m : ℕ) {Z : Batch (T + 1) n} {hist : List TGLCheck} {it : ℕ} {warned : Bool}
    (hcall : timeGraphicalLasso eigh a K0 rho m true true = .ok Z (some hist) (some it) warned) (hit : 2 ≤ it) :
    ∃ (K : Batch (T + 1) n) (c : TGLCheck), hist.getLast? = some c ∧ K ∈ PDSeq (T + 1) n ∧
      (∀ t, froNorm (K t - Z t) ≤ c.rnorm) ∧
      (∀ X ∈ PDSeq (T + 1) n, timeObjective a.empCov a.nSamples a.alpha a.beta absSumMat a.psi K ≤
        timeObjective a.empCov a.nSamples a.alpha a.beta absSumMat a.psi X
          + 2 * (a.alpha * Fintype.card n * (T + 1) + 2 * L * (T * a.beta)) * c.rnorm
          + c.snorm * (Real.sqrt 3 * Real.sqrt (∑ t, frobSq (K t - X t)))) ∧
      (warned = false → a.stopAt = none → c.rnorm ≤ c.ePri ∧
        c.snorm ≤ Real.sqrt (3 * T + 1) * Fintype.card n * a.tol
          + a.rtol * (a.alpha * Fintype.card n * (T + 1) + 2 * L * (T * a.beta))) := by
  have hcall' := hcall
  unfold timeGraphicalLasso at hcall'
  simp only [if_true] at hcall'
  cases hl : (runLoop (tglBody eigh a) m (tglInit K0 rho)).lastIter with
  | none => rw [hl] at hcall'; simp at hcall'
  | some j =>
    rw [hl] at hcall'
    simp only [TGLReturn.ok.injEq, Option.some.injEq] at hcall'
    obtain ⟨h1, h3, h4, h5⟩ := hcall'
    obtain ⟨l1, l2, l3⟩ := runLoop_last (tglBody eigh a) m (tglInit K0 rho) hl
    obtain ⟨i, rfl⟩ : ∃ i, j = i + 1 := ⟨j - 1, by omega⟩
    set s := stateAt (tglBody eigh a) (tglInit K0 rho) (i + 1) with hs
    obtain ⟨⟨hrs, hUs⟩, -⟩ := tgl_run_facts he a hS hn hi hd K0 hr (i + 1)
    obtain ⟨-, o0, o1, o2⟩ := tgl_run_facts he a hS hn hi hd K0 hr i
    rw [← hs] at hrs hUs o0 o1 o2
    have hst : stateAt (tglBody eigh a) (tglInit K0 rho) (i + 1 + 1) = (tglBody eigh a (i + 1) s).1 := rfl
    have hZ : Z = (tglNext eigh a s).Z0 := by
      rw [← h1, l1, hst]
      unfold tglBody; simp only; split <;> rfl
    have hc : checkAt (tglBody eigh a) (tglInit K0 rho) (i + 1) =
        tglDiagnose a (tglK eigh a s) s (tglNext eigh a s) := rfl
    obtain ⟨b1, b2, b3, b4⟩ := tgl_pass_bound he a hS hn hal hbe hconv hprox hL0 hL hrs hUs
    have hC : copyConst n (T + 1) a.alpha L (fun _ : Fin T => a.beta) =
        a.alpha * Fintype.card n * (T + 1) + 2 * L * (T * a.beta) := by
      unfold copyConst
      simp
    rw [hC] at b3 b4
    refine ⟨tglK eigh a s, checkAt (tglBody eigh a) (tglInit K0 rho) (i + 1), ?_, b1, fun t => ?_, fun X hX => ?_, fun hw hsa => ?_⟩
    · rw [← h3, List.getLast?_cons, l2]; rfl
    · rw [hc, hZ]
      change froNorm ((tglK eigh a s - (tglNext eigh a s).Z0) t) ≤ Real.sqrt _
      refine (froNorm_le_famNorm (tglK eigh a s - (tglNext eigh a s).Z0) t).trans (Real.sqrt_le_sqrt ?_)
      have p1 := sum_frobSq_nonneg (init (tglK eigh a s) - (tglNext eigh a s).Z1)
      have p2 := sum_frobSq_nonneg (tail (tglK eigh a s) - (tglNext eigh a s).Z2)
      rw [batchSq_eq, batchSq_eq, batchSq_eq]
      linarith
    · have := b4 X hX
      rw [hc]
      unfold tglDiagnose
      simp only [o0, o1, o2]
      exact this
    · have hb : (runLoop (tglBody eigh a) m (tglInit K0 rho)).broke = true := by
        rw [hw] at h5
        simpa using h5
      have hstop := l3 hb
      change (tglBody eigh a (i + 1) s).2.2 = true at hstop
      unfold tglBody at hstop
      simp only [hsa, stopAtTest, Bool.false_or, decide_eq_true_eq] at hstop
      rw [hc]
      refine ⟨hstop.1, hstop.2.trans ?_⟩
      have e : (tglDiagnose a (tglK eigh a s) s (tglNext eigh a s)).eDual =
          Real.sqrt (3 * T + 1) * Fintype.card n * a.tol + a.rtol * (s.rho * Real.sqrt
            (batchSq (tglNext eigh a s).U0 + batchSq (tglNext eigh a s).U1 + batchSq (tglNext eigh a s).U2)) := by
        unfold tglDiagnose
        simp only
        have e1 : ((T : ℝ) + 1) * ((Fintype.card n : ℝ) * (Fintype.card n : ℝ))
            + 2 * (T * ((Fintype.card n : ℝ) * (Fintype.card n : ℝ))) =
            (3 * T + 1) * ((Fintype.card n : ℝ) * (Fintype.card n : ℝ)) := by ring
        rw [e1, Real.sqrt_mul (by positivity), Real.sqrt_mul_self (Nat.cast_nonneg _), mul_assoc a.rtol]
      rw [e]
      exact add_le_add le_rfl (mul_le_mul_of_nonneg_left b3 hrt)

/-! ### Kernel solver -/

theorem kt_pass_bound {eigh : Eigh n} (he : IsEighOracle eigh) {g : TimePairs k E} (hg : Covers g (fun _ => (k : ℝ)) n)
    (a : KTArgs k E n) (hS : ∀ t, (a.empCov t).IsSymm) (hn : ∀ t, 0 < a.nSamples t) (hal : 0 ≤ a.alpha)
    (hw : ∀ e, 0 ≤ a.weight e) (hconv : ConvexPen a.psi) (hprox : IsProxOf a.psi a.prox) {L : ℝ} (hL0 : 0 ≤ L)
    (hL : LipschitzPen L a.psi) {s : KTState k E n} (hr : 0 < s.rho) (hU : ∀ t, (s.U0 t).IsSymm) :
    let s' := ktNext eigh g a s
    let K := ktK eigh g a s
    let C := copyConst n k a.alpha L a.weight
    (∀ t, (K t).PosDef) ∧ (∀ t, (s'.U0 t).IsSymm) ∧
    s.rho * Real.sqrt (batchSq s'.U0 + (pairSq s'.UL + pairSq s'.UR)) ≤ C ∧
    ∀ X ∈ PDSeq k n, pairTimeObjective g a.empCov a.nSamples a.alpha a.weight a.psi K ≤
      pairTimeObjective g a.empCov a.nSamples a.alpha a.weight a.psi X
        + 2 * C * Real.sqrt (batchSq (K - s'.Z0) + (pairSq ((fun e => K (g.src e)) - s'.ZL)
            + pairSq ((fun e => K (g.dst e)) - s'.ZR)))
        + s.rho * Real.sqrt (batchSq (s'.Z0 - s.Z0) + (pairSq (s'.ZL - s.ZL) + pairSq (s'.ZR - s.ZR)))
          * (Real.sqrt k * famNorm fun t => K t - X t) := by
  intro s' K C
  have hpd : ∀ t, (K t).PosDef := fun t => (ktK_spec he g a s t (hS t) (hn t) hr).1
  have hUs : ∀ t, (s'.U0 t).IsSymm := fun t => symm_next_dual (hpd t).isSymm' (hU t)
  have hsub : CopySub a.alpha a.weight a.psi s.rho (copies s'.Z0 s'.ZL s'.ZR)
      (copies s'.U0 s'.UL s'.UR) :=
    copySub_next g hal hr hw hconv hprox (fun t => (hpd t).isSymm') (fun _ => rfl)
      (fun _ => rfl) fun _ => rfl
  have hst : ∀ t, a.nSamples t • (a.empCov t - (K t)⁻¹) + s.rho • symmetrize (∑ i : Copy k E,
      if copyEp g i = t then
        K (copyEp g i) - copies s.Z0 s.ZL s.ZR i + copies s.U0 s.UL s.UR i else 0) = 0 := by
    intro t
    exact kst_of_divisor g hg t (hpd t) (ktK_spec he g a s t (hS t) (hn t) hr).2
  have hUn : ∀ i, copies s'.U0 s'.UL s'.UR i = copies s.U0 s.UL s.UR i
      + (K (copyEp g i) - copies s'.Z0 s'.ZL s'.ZR i) := by
    rintro (t | e | e) <;> rfl
  have hfam : ∀ (A : Batch k n) (B D : E → Matrix n n ℝ),
      famNorm (copies A B D) = Real.sqrt (batchSq A + (pairSq B + pairSq D)) := by
    intro A B D
    unfold famNorm
    rw [sum_copy]
    rfl
  refine ⟨hpd, hUs, ?_, fun X hX => ?_⟩
  · have := copySub_dual_bound hal hw hL hL0 hsub hUs
    rwa [hfam] at this
  · have hXpd : ∀ t, (X t).PosDef := hX
    have h1 := pass_bound (X := X) hal hw hL hL0 hS (fun t => (hn t).le) hr.le hpd hXpd hst hUn hsub hUs
    have f1 : (fun i => K (copyEp g i) - copies s'.Z0 s'.ZL s'.ZR i) =
        copies (K - s'.Z0) ((fun e => K (g.src e)) - s'.ZL) ((fun e => K (g.dst e)) - s'.ZR) := by
      funext i; rcases i with t | e | e <;> rfl
    have f2 : (fun i => copies s'.Z0 s'.ZL s'.ZR i - copies s.Z0 s.ZL s.ZR i) =
        copies (s'.Z0 - s.Z0) (s'.ZL - s.ZL) (s'.ZR - s.ZR) := by
      funext i; rcases i with t | e | e <;> rfl
    rw [f1, f2, hfam, hfam] at h1
    have h2 := famNorm_copies (g := g) (n := n) hg (d := k) (fun t => le_rfl) (by positivity) fun t => K t - X t
    refine h1.trans (add_le_add le_rfl (mul_le_mul_of_nonneg_left h2 (by positivity)))

theorem kt_run_facts {eigh : Eigh n} (he : IsEighOracle eigh) (g : TimePairs k E) (a : KTArgs k E n)
    (hS : ∀ t, (a.empCov t).IsSymm) (hn : ∀ t, 0 < a.nSamples t) (hi : 0 < a.rhoOptions.tauInc)
    (hd : 0 < a.rhoOptions.tauDec) (K0 : Batch k n) {rho : ℝ} (hr : 0 < rho) (j : ℕ) :
    (0 < (stateAt (ktBody eigh g a) (ktInit g K0 rho) j).rho ∧
      ∀ t, ((stateAt (ktBody eigh g a) (ktInit g K0 rho) j).U0 t).IsSymm) ∧
      (stateAt (ktBody eigh g a) (ktInit g K0 rho) (j + 1)).Z0old =
        (stateAt (ktBody eigh g a) (ktInit g K0 rho) (j + 1)).Z0 ∧
      (stateAt (ktBody eigh g a) (ktInit g K0 rho) (j + 1)).ZLold =
        (stateAt (ktBody eigh g a) (ktInit g K0 rho) (j + 1)).ZL ∧
      (stateAt (ktBody eigh g a) (ktInit g K0 rho) (j + 1)).ZRold =
        (stateAt (ktBody eigh g a) (ktInit g K0 rho) (j + 1)).ZR := by
  refine ⟨stateAt_invariant _ (fun s : KTState k E n => 0 < s.rho ∧ ∀ t, (s.U0 t).IsSymm) (fun it s hs => ?_)
    ⟨hr, fun t => isSymm_zero⟩ j, ?_⟩
  · have hU : ∀ t, ((ktNext eigh g a s).U0 t).IsSymm := fun t =>
      symm_next_dual (ktK_spec he g a s t (hS t) (hn t) hs.1).1.isSymm' (hs.2 t)
    unfold ktBody
    simp only
    split
    · exact ⟨hs.1, hU⟩
    · exact ⟨updateRho_pos hi hd hs.1 _ _, fun t => isSymm_smul _ (hU t)⟩
  · change (ktBody eigh g a j _).1.Z0old = (ktBody eigh g a j _).1.Z0 ∧
      (ktBody eigh g a j _).1.ZLold = (ktBody eigh g a j _).1.ZL ∧
      (ktBody eigh g a j _).1.ZRold = (ktBody eigh g a j _).1.ZR
    unfold ktBody
    simp only
    split <;> exact ⟨rfl, rfl, rfl⟩

/-- C133 (kernel solver, with the full l1 norm as in `C94_stationary_partial`): for a penalty with Lipschitz
constant `L` the last entry `c` of the history certifies the result of every call with at least two passes, with
`C = alpha p k + 2 L (sum of the kernel above the diagonal)` for `k` times. -/
theorem C133_kernel {eigh : Eigh n} (he : IsEighOracle eigh) (a : KTArgs k Empty n)
    (kernel : Option (Fin k → Fin k → ℝ)) (hker : ∀ s t, s < t → 0 ≤ kernelOf kernel s t)
    (hS : ∀ t, (a.empCov t).IsSymm) (hn : ∀ t, 0 < a.nSamples t) (hal : 0 ≤ a.alpha)
    (hconv : ConvexPen a.psi) (hprox : IsProxOf a.psi a.prox) {L : ℝ} (hL0 : 0 ≤ L) (hL : LipschitzPen L a.psi)
    (hi : 0 < a.rhoOptions.tauInc) (hd : 0 < a.rhoOptions.tauDec) (hrt : 0 ≤ a.rtol) (K0 : Batch k n)
    {rho : ℝ} (hr : 0 < rho) (m : ℕ) {Z : Batch k n} {hist : List TGLCheck} {it : ℕ} {warned : Bool}
    (hcall : kernelTimeGraphicalLasso eigh a kernel K0 rho m true true = .ok Z (some hist) (some it) warned)
    (hit : 2 ≤ it) {C : ℝ} (hC : C = a.alpha * Fintype.card n * k
      + 2 * L * ∑ s, ∑ t, if s < t then kernelOf kernel s t else 0) :
    ∃ (K : Batch k n) (c : TGLCheck), hist.getLast? = some c ∧ K ∈ PDSeq k n ∧
      (∀ t, froNorm (K t - Z t) ≤ c.rnorm) ∧
      (∀ X ∈ PDSeq k n, kernelObjective a.empCov a.nSamples a.alpha (kernelOf kernel) absSumMat a.psi K ≤
        kernelObjective a.empCov a.nSamples a.alpha (kernelOf kernel) absSumMat a.psi X
          + 2 * C * c.rnorm + c.snorm * (Real.sqrt k * Real.sqrt (∑ t, frobSq (K t - X t)))) ∧
      (warned = false → a.stopAt = none → c.rnorm ≤ c.ePri ∧
        c.snorm ≤ Fintype.card n * k * a.tol + a.rtol * C) := by
  have hcall' := hcall
  unfold kernelTimeGraphicalLasso at hcall'
  simp only [if_true] at hcall'
  set b := ktArgsOf a kernel with hb
  have hw : ∀ e : PairIdx k, 0 ≤ b.weight e := by
    intro e
    have := hker e.1.1 e.1.2 e.2
    rw [hb]
    cases kernel <;> exact this
  cases hl : (runLoop (ktBody eigh (allPairs k) b) m (ktInit (allPairs k) K0 rho)).lastIter with
  | none => rw [hl] at hcall'; simp at hcall'
  | some j =>
    rw [hl] at hcall'
    simp only [KTReturn.ok.injEq, Option.some.injEq] at hcall'
    obtain ⟨h1, h3, h4, h5⟩ := hcall'
    obtain ⟨l1, l2, l3⟩ := runLoop_last (ktBody eigh (allPairs k) b) m (ktInit (allPairs k) K0 rho) hl
    obtain ⟨i, rfl⟩ : ∃ i, j = i + 1 := ⟨j - 1, by omega⟩
    set s := stateAt (ktBody eigh (allPairs k) b) (ktInit (allPairs k) K0 rho) (i + 1) with hs
    obtain ⟨⟨hrs, hUs⟩, -⟩ := kt_run_facts he (allPairs k) b hS hn hi hd K0 hr (i + 1)
    obtain ⟨-, o0, o1, o2⟩ := kt_run_facts he (allPairs k) b hS hn hi hd K0 hr i
    rw [← hs] at hrs hUs o0 o1 o2
    have hst : stateAt (ktBody eigh (allPairs k) b) (ktInit (allPairs k) K0 rho) (i + 1 + 1) =
        (ktBody eigh (allPairs k) b (i + 1) s).1 := rfl
    have hZ : Z = (ktNext eigh (allPairs k) b s).Z0 := by
      rw [← h1, l1, hst]
      unfold ktBody; simp only; split <;> rfl
    have hc : checkAt (ktBody eigh (allPairs k) b) (ktInit (allPairs k) K0 rho) (i + 1) =
        ktDiagnose (allPairs k) b (ktK eigh (allPairs k) b s) s (ktNext eigh (allPairs k) b s) := rfl
    obtain ⟨b1, b2, b3, b4⟩ := kt_pass_bound he covers_all b hS hn hal hw hconv hprox hL0 hL hrs hUs
    have hCe : copyConst n k b.alpha L b.weight = C := by
      rw [hC]
      unfold copyConst
      congr 2
      rw [← sum_pairIdx (k := k) fun s t => kernelOf kernel s t]
      refine Finset.sum_congr rfl fun e _ => ?_
      cases kernel <;> rfl
    have hobj : ∀ Y, kernelObjective a.empCov a.nSamples a.alpha (kernelOf kernel) absSumMat a.psi Y =
        pairTimeObjective (allPairs k) b.empCov b.nSamples b.alpha b.weight b.psi Y := by
      intro Y
      unfold kernelObjective pairTimeObjective
      rw [kernelCoupling_eq, add_assoc]
      rfl
    rw [hCe] at b3 b4
    refine ⟨ktK eigh (allPairs k) b s, checkAt (ktBody eigh (allPairs k) b) (ktInit (allPairs k) K0 rho) (i + 1),
      ?_, b1, fun t => ?_, fun X hX => ?_, fun hwn hsa => ?_⟩
    · rw [← h3, List.getLast?_cons, l2]; rfl
    · rw [hc, hZ]
      change froNorm ((ktK eigh (allPairs k) b s - (ktNext eigh (allPairs k) b s).Z0) t) ≤ Real.sqrt _
      refine (froNorm_le_famNorm (ktK eigh (allPairs k) b s - (ktNext eigh (allPairs k) b s).Z0) t).trans
        (Real.sqrt_le_sqrt ?_)
      have p1 : 0 ≤ pairSq ((fun e => ktK eigh (allPairs k) b s ((allPairs k).src e))
        - (ktNext eigh (allPairs k) b s).ZL) := by unfold pairSq; positivity
      have p2 : 0 ≤ pairSq ((fun e => ktK eigh (allPairs k) b s ((allPairs k).dst e))
        - (ktNext eigh (allPairs k) b s).ZR) := by unfold pairSq; positivity
      rw [batchSq_eq]
      linarith
    · have := b4 X hX
      rw [hc, hobj, hobj]
      unfold ktDiagnose
      simp only [o0, o1, o2]
      exact this
    · have hbk : (runLoop (ktBody eigh (allPairs k) b) m (ktInit (allPairs k) K0 rho)).broke = true := by
        rw [hwn] at h5
        simpa using h5
      have hstop := l3 hbk
      change (ktBody eigh (allPairs k) b (i + 1) s).2.2 = true at hstop
      have hsb : b.stopAt = none := hsa
      unfold ktBody at hstop
      simp only [hsb, stopAtTest, Bool.false_or, decide_eq_true_eq] at hstop
      rw [hc]
      refine ⟨hstop.1, hstop.2.trans ?_⟩
      unfold ktDiagnose
      simp only
      rw [mul_assoc b.rtol]
      exact add_le_add le_rfl (mul_le_mul_of_nonneg_left b3 hrt)

/-! ### The hypotheses are met -/

theorem runLoop_two {σ κ : Type*} (body : ℕ → σ → σ × κ × Bool) (s : σ) {m : ℕ} (hm : 2 ≤ m)
    (h0 : Lemmas.stopAt body s 0 = false) : ∃ j, 1 ≤ j ∧ (runLoop body m s).lastIter = some j := by
  rcases runLoop_spec body m s with ⟨j, _, _, h1, h2⟩ | ⟨h1, h2⟩
  · refine ⟨j, ?_, by rw [h2]⟩
    rcases Nat.eq_zero_or_pos j with rfl | h
    · rw [h0] at h1; exact absurd h1 (by simp)
    · exact h
  · exact ⟨m - 1, by omega, by rw [h2]; simp only [if_neg (by omega : m ≠ 0)]⟩

theorem batch_eq_zero_of_sqrt {p q r : ℝ} (hp : 0 ≤ p) (hq : 0 ≤ q) (hr : 0 ≤ r) (h : Real.sqrt (p + q + r) ≤ 0) :
    p = 0 := by
  have := Real.sqrt_eq_zero'.mp (le_antisymm h (Real.sqrt_nonneg _))
  linarith

theorem zero_of_batchSq {k : ℕ} {X : Batch k n} (h : batchSq X = 0) (t : Fin k) : X t = 0 := by
  rw [batchSq_eq, Finset.sum_eq_zero_iff_of_nonneg fun t _ => frobSq_nonneg _] at h
  exact (frobSq_eq_zero_iff _).mp (h t (Finset.mem_univ t))

/-- Calls with two passes and more exist, for every number of times and every start. -/
example (T : ℕ) (K0 : Batch (T + 1) (Fin 2)) {rho : ℝ} (hr : 0 < rho) (m : ℕ) (hm : 2 ≤ m) :
    ∃ (eigh : Eigh (Fin 2)) (a : TGLArgs T (Fin 2)) (L : ℝ), IsEighOracle eigh ∧ (∀ t, (a.empCov t).IsSymm) ∧
      (∀ t, 0 < a.nSamples t) ∧ 0 < a.alpha ∧ 0 < a.beta ∧ ConvexPen a.psi ∧ IsProxOf a.psi a.prox ∧ 0 ≤ L ∧
      LipschitzPen L a.psi ∧ 0 < a.rhoOptions.tauInc ∧ 0 < a.rhoOptions.tauDec ∧ 0 ≤ a.rtol ∧
      ∃ Z hist it warned, timeGraphicalLasso eigh a K0 rho m true true = .ok Z (some hist) (some it) warned ∧
        2 ≤ it := by
  obtain ⟨eigh, he⟩ := exists_eighOracle (n := Fin 2)
  let a : TGLArgs T (Fin 2) := ⟨fun _ => 1, fun _ => 3, 1, 2, absSumMat, softThresholdingMat, 0, 0, none, 1 / 10000,
    true, {}⟩
  have h0 : Lemmas.stopAt (tglBody eigh a) (tglInit K0 rho) 0 = false := by
    by_contra hne
    rw [Bool.not_eq_false] at hne
    change (tglBody eigh a 0 (tglInit K0 rho)).2.2 = true at hne
    unfold tglBody at hne
    have hsa : a.stopAt = none := rfl
    simp only [hsa, stopAtTest, Bool.false_or, decide_eq_true_eq] at hne
    obtain ⟨h1, h2⟩ := hne
    unfold tglDiagnose at h1 h2
    have ht : a.tol = 0 := rfl
    have hrt : a.rtol = 0 := rfl
    simp only [ht, hrt, mul_zero, zero_mul, add_zero] at h1 h2
    have h2' := nonpos_of_mul_nonpos_right h2 hr
    have z1 := zero_of_batchSq (batch_eq_zero_of_sqrt (by unfold batchSq; positivity)
      (by unfold batchSq; positivity) (by unfold batchSq; positivity) h1) 0
    have z2 := zero_of_batchSq (batch_eq_zero_of_sqrt (by unfold batchSq; positivity)
      (by unfold batchSq; positivity) (by unfold batchSq; positivity) h2') 0
    have hK : tglK eigh a (tglInit K0 rho) 0 = 0 := by
      have e1 := sub_eq_zero.mp z1
      have e2 := sub_eq_zero.mp z2
      rw [e1, e2]; rfl
    have hpd := (tglK_spec he a (tglInit K0 rho) 0 isSymm_one (by norm_num [a]) hr).1
    rw [hK] at hpd
    exact absurd hpd.det_pos (by simp)
  obtain ⟨j, hj, hl⟩ := runLoop_two _ _ hm h0
  refine ⟨eigh, a, Fintype.card (Fin 2), he, fun _ => isSymm_one, fun _ => by norm_num [a], one_pos, by norm_num [a],
    absSumMat_convexPen, soft_isProxOf, by positivity, absSumMat_lipschitz, by norm_num [a], by norm_num [a], le_rfl,
    ?_⟩
  unfold timeGraphicalLasso
  simp only [hl, if_true]
  exact ⟨_, _, _, _, rfl, by omega⟩

example (K0 : Batch k (Fin 2)) (hk : 0 < k) {rho : ℝ} (hr : 0 < rho) (m : ℕ) (hm : 2 ≤ m) :
    ∃ (eigh : Eigh (Fin 2)) (a : KTArgs k Empty (Fin 2)) (kernel : Option (Fin k → Fin k → ℝ)) (L : ℝ),
      IsEighOracle eigh ∧ (∀ s t, s < t → 0 < kernelOf kernel s t) ∧ (∀ t, (a.empCov t).IsSymm) ∧
      (∀ t, 0 < a.nSamples t) ∧ 0 < a.alpha ∧ ConvexPen a.psi ∧ IsProxOf a.psi a.prox ∧ 0 ≤ L ∧
      LipschitzPen L a.psi ∧ 0 < a.rhoOptions.tauInc ∧ 0 < a.rhoOptions.tauDec ∧ 0 ≤ a.rtol ∧
      ∃ Z hist it warned,
        kernelTimeGraphicalLasso eigh a kernel K0 rho m true true = .ok Z (some hist) (some it) warned ∧ 2 ≤ it := by
  obtain ⟨eigh, he⟩ := exists_eighOracle (n := Fin 2)
  let a : KTArgs k Empty (Fin 2) := ⟨fun _ => 1, fun _ => 3, 1, fun e => e.elim, absSumMat, softThresholdingMat, 0, 0,
    none, 1 / 10000, true, {}⟩
  let kernel : Option (Fin k → Fin k → ℝ) := some fun s t => Real.exp (-((s : ℝ) - t) ^ 2)
  set b := ktArgsOf a kernel with hb
  have h0 : Lemmas.stopAt (ktBody eigh (allPairs k) b) (ktInit (allPairs k) K0 rho) 0 = false := by
    by_contra hne
    rw [Bool.not_eq_false] at hne
    change (ktBody eigh (allPairs k) b 0 (ktInit (allPairs k) K0 rho)).2.2 = true at hne
    unfold ktBody at hne
    have hsa : b.stopAt = none := rfl
    simp only [hsa, stopAtTest, Bool.false_or, decide_eq_true_eq] at hne
    obtain ⟨h1, h2⟩ := hne
    unfold ktDiagnose at h1 h2
    have ht : b.tol = 0 := rfl
    have hrt : b.rtol = 0 := rfl
    simp only [ht, hrt, mul_zero, zero_mul, add_zero, ← add_assoc] at h1 h2
    have h2' := nonpos_of_mul_nonpos_right h2 hr
    have z1 := zero_of_batchSq (batch_eq_zero_of_sqrt (by unfold batchSq; positivity)
      (by unfold pairSq; positivity) (by unfold pairSq; positivity) h1) ⟨0, hk⟩
    have z2 := zero_of_batchSq (batch_eq_zero_of_sqrt (by unfold batchSq; positivity)
      (by unfold pairSq; positivity) (by unfold pairSq; positivity) h2') ⟨0, hk⟩
    have hK : ktK eigh (allPairs k) b (ktInit (allPairs k) K0 rho) ⟨0, hk⟩ = 0 := by
      have e1 := sub_eq_zero.mp z1
      have e2 := sub_eq_zero.mp z2
      rw [e1, e2]; rfl
    have hpd := (ktK_spec he (allPairs k) b (ktInit (allPairs k) K0 rho) ⟨0, hk⟩ isSymm_one
      (by norm_num [hb, ktArgsOf, a]) hr).1
    rw [hK] at hpd
    exact absurd hpd.det_pos (by simp)
  obtain ⟨j, hj, hl⟩ := runLoop_two _ _ hm h0
  refine ⟨eigh, a, kernel, Fintype.card (Fin 2), he, fun s t _ => Real.exp_pos _, fun _ => isSymm_one,
    fun _ => by norm_num [a], one_pos,
    absSumMat_convexPen, soft_isProxOf, by positivity, absSumMat_lipschitz, by norm_num [a], by norm_num [a], le_rfl,
    ?_⟩
  unfold kernelTimeGraphicalLasso
  simp only [← hb, hl, if_true]
  exact ⟨_, _, _, _, rfl, by omega⟩

example (Z0 : Matrix (Fin 2) (Fin 2) ℝ) {rho : ℝ} (hr : 0 < rho) (m : ℕ) (hm : 2 ≤ m) :
    ∃ (eigh : Eigh (Fin 2)) (a : GLArgs (Fin 2)), IsEighOracle eigh ∧ a.empCov.IsSymm ∧ 0 < a.alpha ∧
      a.overRelax = 1 ∧ 0 < a.rhoOptions.tauInc ∧ 0 < a.rhoOptions.tauDec ∧ 0 ≤ a.rtol ∧
      ∃ Z C hist it warned, graphicalLasso eigh a Z0 rho m true true = .ok Z C (some hist) (some it) warned ∧
        1 ≤ it := by
  obtain ⟨eigh, he⟩ := exists_eighOracle (n := Fin 2)
  let a : GLArgs (Fin 2) := { empCov := 1, alpha := 1, overRelax := 1, tol := 0, rtol := 0 }
  have h0 : Lemmas.stopAt (glBody eigh a) (glInit Z0 rho) 0 = false := by
    by_contra hne
    rw [Bool.not_eq_false] at hne
    change (glBody eigh a 0 (glInit Z0 rho)).2.2 = true at hne
    unfold glBody at hne
    have ht : a.tol = 0 := rfl
    have hrt : a.rtol = 0 := rfl
    simp only [ht, hrt, mul_zero, zero_mul, add_zero, decide_eq_true_eq] at hne
    obtain ⟨h1, h2⟩ := hne
    have z1 := froNorm_eq_zero' (le_antisymm h1 (froNorm_nonneg _))
    have z2 := froNorm_eq_zero' (le_antisymm (nonpos_of_mul_nonpos_right h2 hr) (froNorm_nonneg _))
    have hpd := glK_posDef he (S := a.empCov) isSymm_one (rho := (glInit Z0 rho).rho) hr (glInit Z0 rho).Z
      (glInit Z0 rho).U
    rw [sub_eq_zero.mp z1, sub_eq_zero.mp z2] at hpd
    exact absurd hpd.det_pos (by simp [glInit])
  obtain ⟨j, hj, hl⟩ := runLoop_two _ _ hm h0
  refine ⟨eigh, a, he, isSymm_one, one_pos, rfl, by norm_num [a], by norm_num [a], le_rfl, ?_⟩
  unfold graphicalLasso
  simp only [hl, if_true]
  exact ⟨_, _, _, _, _, rfl, by omega⟩

end Verif.Props
