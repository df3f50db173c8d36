import Verif.Props.LatentLogdet

/-! Property theorem C159 (one time point: the temporal latent solvers are the static one). -/

namespace Verif.Props

open Verif.Model Verif.Spec Verif.Lemmas Matrix Filter Topology

set_option autoImplicit false
set_option linter.unusedSectionVars false

variable {n : Type*} [Fintype n] [DecidableEq n] {E : Type*} [Fintype E]

/-- A loop that simulates another one step by step. -/
theorem forElse_map {σ τ κ μ : Type*} {body : ℕ → σ → σ × κ × Bool} {body' : ℕ → τ → τ × μ × Bool} (F : σ → τ)
    (G : κ → μ) (P : σ → Prop) (hP : ∀ it s, P s → P (body it s).1)
    (h : ∀ it s, P s → body' it (F s) = (F (body it s).1, G (body it s).2.1, (body it s).2.2)) (fuel : ℕ) :
    ∀ (it : ℕ) (s : σ) (cs : List κ) (last : Option ℕ), P s →
      forElse body' fuel it (F s) (cs.map G) last =
        ⟨F (forElse body fuel it s cs last).state, (forElse body fuel it s cs last).checks.map G,
          (forElse body fuel it s cs last).broke, (forElse body fuel it s cs last).lastIter⟩ := by
  induction fuel with
  | zero => intro it s cs last _; rfl
  | succ fuel ih =>
    intro it s cs last hs
    unfold forElse
    simp only [h it s hs]
    split
    · simp
    · have := ih (it + 1) (body it s).1 (cs ++ [(body it s).2.1]) (some it) (hP it s hs)
      rw [List.map_append] at this
      exact this

theorem runLoop_map {σ τ κ μ : Type*} {body : ℕ → σ → σ × κ × Bool} {body' : ℕ → τ → τ × μ × Bool} (F : σ → τ)
    (G : κ → μ) (P : σ → Prop) (hP : ∀ it s, P s → P (body it s).1)
    (h : ∀ it s, P s → body' it (F s) = (F (body it s).1, G (body it s).2.1, (body it s).2.2)) (m : ℕ) {s : σ}
    (hs : P s) :
    runLoop body' m (F s) = ⟨F (runLoop body m s).state, (runLoop body m s).checks.map G,
      (runLoop body m s).broke, (runLoop body m s).lastIter⟩ :=
  forElse_map F G P hP h m 0 s [] none hs

/-- The static state as a state with one time point and no pairs. -/
def oneState [IsEmpty E] (s : LGLState n) : LTState 1 E n :=
  ⟨fun _ => s.K, isEmptyElim, isEmptyElim, fun _ => s.L, isEmptyElim, isEmptyElim, fun _ => s.U, isEmptyElim,
    isEmptyElim, isEmptyElim, isEmptyElim, fun _ => s.Rold, isEmptyElim, isEmptyElim, isEmptyElim, isEmptyElim, s.rho⟩

/-- The residuals and tolerances of a record. -/
def oneCheck (c : LGLCheck) : GLCheck :=
  { rnorm := c.rnorm, snorm := c.snorm, ePri := c.ePri, eDual := c.eDual }

theorem scatter_empty [IsEmpty E] {k : ℕ} (f : E → Fin k) (X : E → Matrix n n ℝ) (t : Fin k) :
    scatter f X t = 0 := by
  unfold scatter
  rw [Finset.univ_eq_empty]
  simp

theorem lglR_posDef {eigh : Eigh n} (he : IsEighOracle eigh) {S : Matrix n n ℝ} (hS : S.IsSymm) {rho : ℝ}
    (hr : 0 < rho) (K L U : Matrix n n ℝ) : (lglR eigh S rho K L U).PosDef := by
  have h := logdetStep_spec he hS one_pos hr (K - L - U)
  have e : (-rho / 1) • symmetrize (K - L - U) + S = S - rho • symmetrize (K - L - U) := by
    rw [div_one, neg_smul]; abel
  have h1 := h.1
  rw [e] at h1
  exact h1

/-- The arguments of the static solver seen as arguments with one time point. -/
structure OneArgs (a : LTArgs 1 E n) (b : LGLArgs n) : Prop where
  S : a.empCov = fun _ => b.empCov
  nS : a.nSamples = fun _ => 1
  al : a.alpha = b.alpha
  ta : a.tau = b.tau
  dv : a.divisor = fun _ => 1
  tol : a.tol = b.tol
  rtol : a.rtol = b.rtol
  ro : a.rhoOptions = b.rhoOptions

theorem LTState.ext' [IsEmpty E] {s t : LTState 1 E n} (h1 : s.Z0 0 = t.Z0 0) (h2 : s.W0 0 = t.W0 0)
    (h3 : s.X0 0 = t.X0 0) (h4 : s.Rold 0 = t.Rold 0) (h5 : s.rho = t.rho) : s = t := by
  have he : ∀ f g : E → Matrix n n ℝ, f = g := fun f g => Subsingleton.elim _ _
  have hf : ∀ {f g : Batch 1 n}, f 0 = g 0 → f = g := fun {f g} h => funext fun t => by
    rw [Subsingleton.elim t 0]; exact h
  cases s
  cases t
  simp only [LTState.mk.injEq]
  exact ⟨hf h1, he _ _, he _ _, hf h2, he _ _, he _ _, hf h3, he _ _, he _ _, he _ _, he _ _, hf h4, he _ _, he _ _,
    he _ _, he _ _, h5⟩

theorem pairSq_empty [IsEmpty E] (X : E → Matrix n n ℝ) : pairSq X = 0 := by
  unfold pairSq
  rw [Finset.univ_eq_empty, Finset.sum_empty]

theorem sqrt_batchSq_one (X : Batch 1 n) : Real.sqrt (batchSq X) = froNorm (X 0) := by
  unfold batchSq froNorm
  rw [Fintype.sum_unique]
  rfl

/-- One pass of the temporal solver on one time point is one pass of the static one. -/
theorem oneBody [IsEmpty E] {eigh : Eigh n} (he : IsEighOracle eigh) {g : TimePairs 1 E} {a : LTArgs 1 E n}
    {b : LGLArgs n} (h : OneArgs a b) (hS : b.empCov.IsSymm) (it : ℕ) (s : LGLState n) (hr : 0 < s.rho) :
    ltBody eigh (ltLogdetR eigh a) g a it (oneState s) =
      (oneState (lglBody eigh b it s).1, oneCheck (lglBody eigh b it s).2.1, (lglBody eigh b it s).2.2) := by
  obtain ⟨S, nS, al, ta, wP, wH, pP, pH, dv, tol, rtol, ro⟩ := a
  obtain ⟨rfl, rfl, rfl, rfl, rfl, rfl, rfl, rfl⟩ := h
  set R := lglR eigh b.empCov s.rho s.K s.L s.U with hR
  set K := lglK b.alpha s.rho s.L R s.U with hK
  set L := lglL eigh b.tau s.rho K R s.U with hL
  have hdet : ¬ R.det ≤ 0 := not_le.mpr (lglR_posDef he hS hr _ _ _).det_pos
  set A : LTArgs 1 E n := ⟨fun _ => b.empCov, fun _ => 1, b.alpha, b.tau, wP, wH, pP, pH, fun _ => 1, b.tol, b.rtol,
    b.rhoOptions⟩ with hA
  have e1 : ltNext eigh (ltLogdetR eigh A) g A (oneState s) = oneState ⟨K, L, s.U + (R - K + L), R, s.rho⟩ := by
    have r1 : ltLogdetR eigh A s.rho (fun t => s.K - s.L - s.U) = fun _ => R := by
      funext t
      unfold ltLogdetR
      simp only [hA, div_one, neg_smul]
      rw [hR]
      unfold lglR
      simp only [show -(s.rho • symmetrize (s.K - s.L - s.U)) + b.empCov =
        b.empCov - s.rho • symmetrize (s.K - s.L - s.U) by abel]
    have r2 : ltZ0 g A (oneState s) (fun _ => R) = fun _ => K := by
      funext t
      unfold ltZ0
      simp only [scatter_empty, add_zero, hA, inv_one, one_smul, mul_one]
      rw [hK]
      unfold lglK
      congr 1
      change R + s.L + s.U = s.L + R + s.U
      abel
    have r3 : ltW0 eigh g A (oneState s) (fun _ => R) (fun _ => K) = fun _ => L := by
      funext t
      unfold ltW0
      simp only [scatter_empty, add_zero, hA, inv_one, one_smul, mul_one]
      rfl
    have r1' : ltLogdetR eigh A (oneState (E := E) s).rho (fun t => (oneState (E := E) s).Z0 t
      - (oneState (E := E) s).W0 t - (oneState (E := E) s).X0 t) = fun _ => R := r1
    apply LTState.ext' <;> unfold ltNext <;> simp only [r1', r2, r3] <;> rfl
  unfold ltBody
  simp only [e1]
  have e2 : ltDiagnose g A (oneState s) (oneState ⟨K, L, s.U + (R - K + L), R, s.rho⟩) =
      oneCheck (lglBody eigh b it s).2.1 := by
    unfold ltDiagnose lglBody oneCheck
    simp only [pairSq_empty, add_zero, sqrt_batchSq_one, Fintype.card_eq_zero (α := E), ← hR, ← hK, ← hL]
    simp [hA, oneState]
  rw [e2]
  have e3 : (lglBody eigh b it s).2.2 = decide ((lglBody eigh b it s).2.1.rnorm ≤ (lglBody eigh b it s).2.1.ePri ∧
      (lglBody eigh b it s).2.1.snorm ≤ (lglBody eigh b it s).2.1.eDual) := by
    unfold lglBody
    simp only [← hR, hdet, decide_false, Bool.and_false, Bool.or_false]
  refine Prod.ext ?_ (Prod.ext rfl ?_)
  · simp only
    have e4 : (lglBody eigh b it s).1 = if (lglBody eigh b it s).2.2 then ⟨K, L, s.U + (R - K + L), R, s.rho⟩ else
        ⟨K, L, (s.rho / updateRho b.rhoOptions s.rho (lglBody eigh b it s).2.1.rnorm (lglBody eigh b it s).2.1.snorm) •
          (s.U + (R - K + L)), R, updateRho b.rhoOptions s.rho (lglBody eigh b it s).2.1.rnorm
          (lglBody eigh b it s).2.1.snorm⟩ := by
      unfold lglBody
      rfl
    rw [e4, e3]
    simp only [oneCheck, decide_eq_true_eq]
    by_cases hp : (lglBody eigh b it s).2.1.rnorm ≤ (lglBody eigh b it s).2.1.ePri ∧
      (lglBody eigh b it s).2.1.snorm ≤ (lglBody eigh b it s).2.1.eDual
    · rw [if_pos hp]
      exact if_pos (decide_eq_true hp)
    · rw [if_neg hp]
      refine (if_neg fun hc => hp (of_decide_eq_true hc)).trans ?_
      apply LTState.ext' <;> rfl
  · rw [e3]
    rfl

/-- The result of a static call in the form the temporal solvers return it. -/
def asOne : LGLReturn n → LTReturn 1 n
  | .unbound => .unbound
  | .ok K L hist it w => .ok (fun _ => K) (fun _ => L) (hist.map fun l => l.map oneCheck) it w

theorem oneRun [IsEmpty E] {eigh : Eigh n} (he : IsEighOracle eigh) {g : TimePairs 1 E} {a : LTArgs 1 E n}
    {b : LGLArgs n} (h : OneArgs a b) (hS : b.empCov.IsSymm) (hi : 0 < b.rhoOptions.tauInc)
    (hd : 0 < b.rhoOptions.tauDec) (K0 : Matrix n n ℝ) {rho : ℝ} (hr : 0 < rho) (m : ℕ) (rh rn : Bool) :
    ltRun eigh (ltLogdetR eigh a) g a (fun _ => K0) rho m rh rn =
      asOne (latentGraphicalLasso eigh b K0 rho m rh rn) := by
  have h0 : ltInit g (fun _ => K0) rho = oneState (lglInit K0 rho) := by apply LTState.ext' <;> rfl
  have hrun := runLoop_map (oneState (E := E)) oneCheck (fun s => 0 < s.rho) (fun it s hs => by
      unfold lglBody
      simp only
      split
      · exact hs
      · exact updateRho_pos hi hd hs _ _) (fun it s hs => oneBody (g := g) he h hS it s hs) m
    (show 0 < (lglInit K0 rho).rho from hr)
  unfold ltRun latentGraphicalLasso
  simp only
  rw [h0, hrun]
  cases rn
  · cases rh <;> rfl
  · simp only [if_true]
    cases (runLoop (lglBody eigh b) m (lglInit K0 rho)).lastIter
    · rfl
    · cases rh <;> rfl

/-- The options of a temporal call on the one matrix of a static call, with one sample. -/
def oneOptions (b : LGLArgs n) (proxPsi proxPhi : Matrix n n ℝ → ℝ → Matrix n n ℝ) : LTOptions 1 n :=
  ⟨fun _ => b.empCov, fun _ => 1, b.alpha, b.tau, proxPsi, proxPhi, b.tol, b.rtol, b.rhoOptions⟩

/-- C159: on one time point and with `n_samples = [1]`, `latent_time_graphical_lasso` does exactly what
`latent_graphical_lasso` does: the same matrices, iteration count, residuals and warning (or the same exception),
whatever `beta`, `eta`, `psi` and `phi`. -/
theorem C159_chain {eigh : Eigh n} (he : IsEighOracle eigh) (b : LGLArgs n) (hS : b.empCov.IsSymm)
    (hi : 0 < b.rhoOptions.tauInc) (hd : 0 < b.rhoOptions.tauDec)
    (proxPsi proxPhi : Matrix n n ℝ → ℝ → Matrix n n ℝ) (beta eta : ℝ) (K0 : Matrix n n ℝ) {rho : ℝ} (hr : 0 < rho)
    (m : ℕ) (rh rn : Bool) :
    latentTimeGraphicalLasso (T := 0) eigh (oneOptions b proxPsi proxPhi) beta eta (fun _ => K0) rho m rh rn =
      asOne (latentGraphicalLasso eigh b K0 rho m rh rn) :=
  oneRun he ⟨rfl, rfl, rfl, rfl, by
    funext t
    change tglDivisor (T := 0) t = 1
    rw [show t = 0 from Fin.ext (by omega)]
    unfold tglDivisor
    norm_num, rfl, rfl, rfl⟩ hS hi hd K0 hr m rh rn

/-- C159: the same for `kernel_latent_time_graphical_lasso`, whatever the kernels. -/
theorem C159_kernel {eigh : Eigh n} (he : IsEighOracle eigh) (b : LGLArgs n) (hS : b.empCov.IsSymm)
    (hi : 0 < b.rhoOptions.tauInc) (hd : 0 < b.rhoOptions.tauDec)
    (proxPsi proxPhi : Matrix n n ℝ → ℝ → Matrix n n ℝ) (kpsi kphi : Option (Fin 1 → Fin 1 → ℝ)) (K0 : Matrix n n ℝ)
    {rho : ℝ} (hr : 0 < rho) (m : ℕ) (rh rn : Bool) :
    kernelLatentTimeGraphicalLasso eigh (oneOptions b proxPsi proxPhi) kpsi kphi (fun _ => K0) rho m rh rn =
      asOne (latentGraphicalLasso eigh b K0 rho m rh rn) := by
  have : IsEmpty (PairIdx 1) := ⟨fun e => by
    have h1 : e.1.1 < e.1.2 := e.2
    have h2 := e.1.1.2
    have h3 := e.1.2.2
    have h4 : (e.1.1 : ℕ) < e.1.2 := h1
    omega⟩
  exact oneRun he ⟨rfl, rfl, rfl, rfl, by
    funext t
    change ((1 : ℕ) : ℝ) = 1
    norm_num, rfl, rfl, rfl⟩ hS hi hd K0 hr m rh rn

/-- Non-vacuity of C159: a call of the static solver that returns. -/
example : ∃ (eigh : Eigh (Fin 2)) (b : LGLArgs (Fin 2)), IsEighOracle eigh ∧ b.empCov.IsSymm ∧
    0 < b.rhoOptions.tauInc ∧ 0 < b.rhoOptions.tauDec ∧
    ∃ K L h it w, asOne (latentGraphicalLasso eigh b 1 1 5 true false) = .ok K L h it w := by
  obtain ⟨eigh, he⟩ := exists_eighOracle (n := Fin 2)
  exact ⟨eigh, ⟨1, 1, 1, 1, 1, { tauInc := 2, tauDec := 2 }, true⟩, he, by rw [IsSymm, transpose_one], two_pos, two_pos,
    _, _, _, _, _, rfl⟩

end Verif.Props
