import Verif.Model.TGL

/-! Model of the solvers that couple pairs of time points: `kernel_time_graphical_lasso`
(regain/covariance/kernel_time_graphical_lasso_.py), `latent_time_graphical_lasso`
(regain/covariance/latent_time_graphical_lasso_.py), `kernel_latent_time_graphical_lasso`
(regain/covariance/kernel_latent_time_graphical_lasso_.py) and `latent_time_matrix_decomposition`
(regain/covariance/latent_time_matrix_decomposition.py). Scalar `alpha`, `tau`, `beta`, `eta`; the node
penalty branches are not part of this file. The consensus variables of a pair of times `(s, t)` are
indexed by the pair: entry `s` of `Z_M[t - s]` (or of `Z_1`, `Z_2` when `t = s + 1`). -/

namespace Verif.Model

open Matrix

set_option autoImplicit false
set_option linter.unusedSectionVars false

variable {n : Type*} [Fintype n] [DecidableEq n]

/-- The coupled pairs of time points. -/
structure TimePairs (k : ℕ) (E : Type*) where
  src : E → Fin k
  dst : E → Fin k

/-- Consecutive times, `X[:-1]` against `X[1:]`, regain/covariance/latent_time_graphical_lasso_.py:
143-144. -/
def chainPairs (T : ℕ) : TimePairs (T + 1) (Fin T) := ⟨Fin.castSucc, Fin.succ⟩

/-- Pairs `s < t` of times. -/
abbrev PairIdx (k : ℕ) := {p : Fin k × Fin k // p.1 < p.2}

/-- All pairs of times, `X[:-m]` against `X[m:]` for `m = 1 .. n_times - 1`, regain/covariance/
kernel_time_graphical_lasso_.py:148-152. -/
def allPairs (k : ℕ) : TimePairs k (PairIdx k) := ⟨fun e => e.1.1, fun e => e.1.2⟩

variable {k : ℕ} {E : Type*} [Fintype E]

/-- What the statements `A[:-m] += X_m` (with the left ends) or `A[m:] += X_m` (with the right ends),
for all `m`, add at time `t`: the sum over the pairs with that end. -/
def scatter (endpoint : E → Fin k) (X : E → Matrix n n ℝ) (t : Fin k) : Matrix n n ℝ :=
  ∑ e, if endpoint e = t then X e else 0

/-- `squared_norm` summed over all pairs. -/
def pairSq (X : E → Matrix n n ℝ) : ℝ := ∑ e, ∑ i, ∑ j, X e i j ^ 2

/-! ### kernel_time_graphical_lasso -/

/-- Local variables at the top of the loop, regain/covariance/kernel_time_graphical_lasso_.py:142-160. -/
structure KTState (k : ℕ) (E n : Type*) where
  Z0 : Batch k n
  ZL : E → Matrix n n ℝ
  ZR : E → Matrix n n ℝ
  U0 : Batch k n
  UL : E → Matrix n n ℝ
  UR : E → Matrix n n ℝ
  Z0old : Batch k n
  ZLold : E → Matrix n n ℝ
  ZRold : E → Matrix n n ℝ
  rho : ℝ

/-- Arguments of `kernel_time_graphical_lasso`, regain/covariance/kernel_time_graphical_lasso_.py:77-96,
after `check_norm_prox` (line 136); `weight e` is the entry `np.diag(kernel, m)[s] = kernel[s, s + m]` of the
kernel for the pair. The proximal map acts matrix by matrix with its own parameter (numpy broadcasting of the
parameter array; exact for `'laplacian'`, `'l1'`, `'l2'`). -/
structure KTArgs (k : ℕ) (E n : Type*) where
  empCov : Batch k n
  nSamples : Fin k → ℝ
  alpha : ℝ
  weight : E → ℝ
  psi : Matrix n n ℝ → ℝ
  prox : Matrix n n ℝ → ℝ → Matrix n n ℝ
  tol : ℝ
  rtol : ℝ
  stopAt : Option ℝ := none
  stopWhen : ℝ := 1 / 10000
  computeObjective : Bool := true
  rhoOptions : RhoOptions := {}

/-- `objective(n_samples, S, K, Z_0, Z_M, alpha, kernel, psi)` for scalar `alpha`, regain/covariance/
kernel_time_graphical_lasso_.py:60-74. -/
noncomputable def ktObjectiveCode (a : KTArgs k E n) (K Z0 : Batch k n) (ZL ZR : E → Matrix n n ℝ) : XF :=
  XF.add (XF.add (tglLoss a.empCov K a.nSamples) (.fin (a.alpha * ∑ t, l1OdNorm (Z0 t))))
    (.fin (∑ e, a.psi (ZR e - ZL e) * a.weight e))

/-- K-update, regain/covariance/kernel_time_graphical_lasso_.py:172-187, one time point. -/
noncomputable def ktK (eigh : Eigh n) (g : TimePairs k E) (a : KTArgs k E n) (s : KTState k E n)
    (t : Fin k) : Matrix n n ℝ :=
  let A := ((k : ℝ))⁻¹ • (s.Z0 t - s.U0 t + scatter g.src (fun e => s.ZL e - s.UL e) t
    + scatter g.dst (fun e => s.ZR e - s.UR e) t)
  let M := (-s.rho * k / a.nSamples t) • symmetrize A + a.empCov t
  proxLogdet (eigh M).1 (eigh M).2 (a.nSamples t / (s.rho * k))

/-- The updates of one pass, regain/covariance/kernel_time_graphical_lasso_.py:171-222 and 281-283 (the
penalty is still the old one). The pair updates are those of `time_graphical_lasso` (lines 204-208) with the
weight of the pair in the place of `beta`. -/
noncomputable def ktNext (eigh : Eigh n) (g : TimePairs k E) (a : KTArgs k E n) (s : KTState k E n) :
    KTState k E n :=
  let K : Batch k n := ktK eigh g a s
  let Z0 : Batch k n := fun t => tglZ0 a.alpha s.rho (K t) (s.U0 t)
  let AL := fun e => K (g.src e) + s.UL e
  let AR := fun e => K (g.dst e) + s.UR e
  let ZL := fun e => tglZ1 a.prox (a.weight e) s.rho (AL e) (AR e)
  let ZR := fun e => tglZ2 a.prox (a.weight e) s.rho (AL e) (AR e)
  { Z0 := Z0, ZL := ZL, ZR := ZR
    U0 := fun t => s.U0 t + (K t - Z0 t)
    UL := fun e => s.UL e + (K (g.src e) - ZL e)
    UR := fun e => s.UR e + (K (g.dst e) - ZR e)
    Z0old := Z0, ZLold := ZL, ZRold := ZR, rho := s.rho }

/-- The diagnostics of one pass, regain/covariance/kernel_time_graphical_lasso_.py:225-280. -/
noncomputable def ktDiagnose (g : TimePairs k E) (a : KTArgs k E n) (K : Batch k n)
    (s s' : KTState k E n) : TGLCheck :=
  let size : ℝ := Fintype.card n * k
  let KL := fun e => K (g.src e)
  let KR := fun e => K (g.dst e)
  { obj := if a.computeObjective then ktObjectiveCode a s'.Z0 K s'.ZL s'.ZR else .nan
    rnorm := Real.sqrt (batchSq (K - s'.Z0) + (pairSq (KL - s'.ZL) + pairSq (KR - s'.ZR)))
    snorm := s.rho * Real.sqrt (batchSq (s'.Z0 - s.Z0old)
      + (pairSq (s'.ZL - s.ZLold) + pairSq (s'.ZR - s.ZRold)))
    ePri := size * a.tol
      + a.rtol * max (Real.sqrt (batchSq s'.Z0 + (pairSq s'.ZL + pairSq s'.ZR)))
        (Real.sqrt (batchSq K + (pairSq KL + pairSq KR)))
    eDual := size * a.tol
      + a.rtol * s.rho * Real.sqrt (batchSq s'.U0 + (pairSq s'.UL + pairSq s'.UR)) }

/-- Penalty change with the rescaling of the duals, regain/covariance/kernel_time_graphical_lasso_.py:
296-305. -/
noncomputable def ktRescale (rhoNew : ℝ) (s : KTState k E n) : KTState k E n :=
  { s with
    U0 := fun t => (s.rho / rhoNew) • s.U0 t
    UL := fun e => (s.rho / rhoNew) • s.UL e
    UR := fun e => (s.rho / rhoNew) • s.UR e
    rho := rhoNew }

open Classical in
/-- One pass through the loop body, regain/covariance/kernel_time_graphical_lasso_.py:171-305. -/
noncomputable def ktBody (eigh : Eigh n) (g : TimePairs k E) (a : KTArgs k E n) (_it : ℕ)
    (s : KTState k E n) : KTState k E n × TGLCheck × Bool :=
  let s' := ktNext eigh g a s
  let c := ktDiagnose g a (ktK eigh g a s) s s'
  let stop := stopAtTest a.stopAt a.stopWhen c.obj || decide (c.rnorm ≤ c.ePri ∧ c.snorm ≤ c.eDual)
  (if stop then s' else ktRescale (updateRho a.rhoOptions s.rho c.rnorm c.snorm) s', c, stop)

/-- State before the loop, regain/covariance/kernel_time_graphical_lasso_.py:142-160; `K0` is the value of
`init_precision`. -/
def ktInit (g : TimePairs k E) (K0 : Batch k n) (rho : ℝ) : KTState k E n :=
  ⟨K0, fun e => K0 (g.src e), fun e => K0 (g.dst e), 0, 0, 0, 0, 0, 0, rho⟩

/-- Result of a call: the exception Python raises, or the returned list (without `covariance_`, scipy's
pseudo-inverse of the result). -/
inductive KTReturn (k : ℕ) (n : Type*) where
  /-- `UnboundLocalError: iteration_`. -/
  | unbound
  | ok (Z0 : Batch k n) (history : Option (List TGLCheck)) (nIter : Option ℕ) (warned : Bool)

/-- The kernel used by the solver: `np.eye(n_times)` when `kernel is None`, regain/covariance/
kernel_time_graphical_lasso_.py:139-140, and its entry for a pair. -/
def kernelWeight (kernel : Option (Fin k → Fin k → ℝ)) (e : PairIdx k) : ℝ :=
  match kernel with
  | none => if e.1.1 = e.1.2 then 1 else 0
  | some K => K e.1.1 e.1.2

/-- The argument record of a call with a given kernel. -/
def ktArgsOf (a : KTArgs k Empty n) (kernel : Option (Fin k → Fin k → ℝ)) : KTArgs k (PairIdx k) n :=
  { empCov := a.empCov, nSamples := a.nSamples, alpha := a.alpha, weight := kernelWeight kernel,
    psi := a.psi, prox := a.prox, tol := a.tol, rtol := a.rtol, stopAt := a.stopAt,
    stopWhen := a.stopWhen, computeObjective := a.computeObjective, rhoOptions := a.rhoOptions }

/-- `kernel_time_graphical_lasso(emp_cov, …)`, regain/covariance/kernel_time_graphical_lasso_.py:136-315;
the remaining arguments are those of `a`. -/
noncomputable def kernelTimeGraphicalLasso (eigh : Eigh n) (a : KTArgs k Empty n)
    (kernel : Option (Fin k → Fin k → ℝ)) (K0 : Batch k n) (rho : ℝ) (maxIter : ℕ)
    (returnHistory returnNIter : Bool) : KTReturn k n :=
  let a' := ktArgsOf a kernel
  let s0 := ktInit (allPairs k) K0 rho
  let first : TGLCheck := { obj := ktObjectiveCode a' K0 K0 s0.ZL s0.ZR }
  let r := runLoop (ktBody eigh (allPairs k) a') maxIter s0
  let hist := if returnHistory then some (first :: r.checks) else none
  if returnNIter then
    match r.lastIter with
    | none => .unbound
    | some it => .ok r.state.Z0 hist (some (it + 1)) (!r.broke)
  else .ok r.state.Z0 hist none (!r.broke)

/-! ### The latent variable solvers -/

/-- Local variables at the top of the loop: regain/covariance/latent_time_graphical_lasso_.py:142-159
(`Z_1, Z_2, W_1, W_2, X_1, X_2, U_1, U_2`), regain/covariance/kernel_latent_time_graphical_lasso_.py:144-176
(`Z_M, W_M, Y_M, U_M`), regain/covariance/latent_time_matrix_decomposition.py:117-134. -/
structure LTState (k : ℕ) (E n : Type*) where
  Z0 : Batch k n
  ZL : E → Matrix n n ℝ
  ZR : E → Matrix n n ℝ
  W0 : Batch k n
  WL : E → Matrix n n ℝ
  WR : E → Matrix n n ℝ
  X0 : Batch k n
  XL : E → Matrix n n ℝ
  XR : E → Matrix n n ℝ
  UL : E → Matrix n n ℝ
  UR : E → Matrix n n ℝ
  Rold : Batch k n
  ZLold : E → Matrix n n ℝ
  ZRold : E → Matrix n n ℝ
  WLold : E → Matrix n n ℝ
  WRold : E → Matrix n n ℝ
  rho : ℝ

/-- Arguments of the latent solvers after `check_norm_prox`: regain/covariance/
latent_time_graphical_lasso_.py:66-86, regain/covariance/kernel_latent_time_graphical_lasso_.py:75-96,
regain/covariance/latent_time_matrix_decomposition.py:57-76. `wPsi`, `wPhi` are the weights of a pair (`beta`,
`eta`, or the kernel entries) and `divisor` the array of that name (or `n_times`). The objective is not read
by the control flow of these solvers and is left out. -/
structure LTArgs (k : ℕ) (E n : Type*) where
  empCov : Batch k n
  nSamples : Fin k → ℝ
  alpha : ℝ
  tau : ℝ
  wPsi : E → ℝ
  wPhi : E → ℝ
  proxPsi : Matrix n n ℝ → ℝ → Matrix n n ℝ
  proxPhi : Matrix n n ℝ → ℝ → Matrix n n ℝ
  divisor : Fin k → ℝ
  tol : ℝ
  rtol : ℝ
  rhoOptions : RhoOptions := {}

/-- R-update with the log-likelihood, regain/covariance/latent_time_graphical_lasso_.py:172-180 and
regain/covariance/kernel_latent_time_graphical_lasso_.py:184-192, one time point; `A` is `Z_0 - W_0 - X_0`. -/
noncomputable def ltLogdetR (eigh : Eigh n) (a : LTArgs k E n) (rho : ℝ) (A : Batch k n) (t : Fin k) :
    Matrix n n ℝ :=
  let M := (-rho / a.nSamples t) • symmetrize (A t) + a.empCov t
  proxLogdet (eigh M).1 (eigh M).2 (a.nSamples t / rho)

/-- R-update with the squared loss, regain/covariance/latent_time_matrix_decomposition.py:144-145, one time
point. -/
noncomputable def ltSquareR (a : LTArgs k E n) (rho : ℝ) (A : Batch k n) (t : Fin k) : Matrix n n ℝ :=
  (2 + rho)⁻¹ • (rho • A t + (2 : ℝ) • a.empCov t)

/-- Z_0-update, regain/covariance/latent_time_graphical_lasso_.py:183-187, regain/covariance/
kernel_latent_time_graphical_lasso_.py:195-201, regain/covariance/latent_time_matrix_decomposition.py:148-154,
one time point (every entry is thresholded, the diagonal included). -/
noncomputable def ltZ0 (g : TimePairs k E) (a : LTArgs k E n) (s : LTState k E n) (R : Batch k n)
    (t : Fin k) : Matrix n n ℝ :=
  softThresholdingMat ((a.divisor t)⁻¹ • (R t + s.W0 t + s.X0 t
    + scatter g.src (fun e => s.ZL e - s.XL e) t + scatter g.dst (fun e => s.ZR e - s.XR e) t))
    (a.alpha / (s.rho * a.divisor t))

/-- W_0-update, regain/covariance/latent_time_graphical_lasso_.py:207-215, regain/covariance/
kernel_latent_time_graphical_lasso_.py:204-215, regain/covariance/latent_time_matrix_decomposition.py:174-186,
one time point. -/
noncomputable def ltW0 (eigh : Eigh n) (g : TimePairs k E) (a : LTArgs k E n) (s : LTState k E n)
    (R Z0 : Batch k n) (t : Fin k) : Matrix n n ℝ :=
  let M := symmetrize ((a.divisor t)⁻¹ • (Z0 t - R t - s.X0 t
    + scatter g.src (fun e => s.WL e - s.UL e) t + scatter g.dst (fun e => s.WR e - s.UR e) t))
  proxTraceIndicator (eigh M).1 (eigh M).2 (a.tau / (s.rho * a.divisor t))

/-- The updates of one pass, given the R-update: regain/covariance/latent_time_graphical_lasso_.py:182-239 and
316-320, regain/covariance/kernel_latent_time_graphical_lasso_.py:194-269 and 357-360 (the same assignments;
the order differs, but `Z_M` is computed from `Z_0` and `W_M` from `W_0` only), regain/covariance/
latent_time_matrix_decomposition.py:147-210 and 286-290. -/
noncomputable def ltNext (eigh : Eigh n) (rUpd : ℝ → Batch k n → Batch k n) (g : TimePairs k E)
    (a : LTArgs k E n) (s : LTState k E n) : LTState k E n :=
  let R : Batch k n := rUpd s.rho fun t => s.Z0 t - s.W0 t - s.X0 t
  let Z0 : Batch k n := ltZ0 g a s R
  let ZL := fun e => tglZ1 a.proxPsi (a.wPsi e) s.rho (Z0 (g.src e) + s.XL e) (Z0 (g.dst e) + s.XR e)
  let ZR := fun e => tglZ2 a.proxPsi (a.wPsi e) s.rho (Z0 (g.src e) + s.XL e) (Z0 (g.dst e) + s.XR e)
  let W0 : Batch k n := ltW0 eigh g a s R Z0
  let WL := fun e => tglZ1 a.proxPhi (a.wPhi e) s.rho (W0 (g.src e) + s.UL e) (W0 (g.dst e) + s.UR e)
  let WR := fun e => tglZ2 a.proxPhi (a.wPhi e) s.rho (W0 (g.src e) + s.UL e) (W0 (g.dst e) + s.UR e)
  { Z0 := Z0, ZL := ZL, ZR := ZR, W0 := W0, WL := WL, WR := WR
    X0 := fun t => s.X0 t + (R t - Z0 t + W0 t)
    XL := fun e => s.XL e + (Z0 (g.src e) - ZL e)
    XR := fun e => s.XR e + (Z0 (g.dst e) - ZR e)
    UL := fun e => s.UL e + (W0 (g.src e) - WL e)
    UR := fun e => s.UR e + (W0 (g.dst e) - WR e)
    Rold := R, ZLold := ZL, ZRold := ZR, WLold := WL, WRold := WR, rho := s.rho }

/-- The diagnostics of one pass, regain/covariance/latent_time_graphical_lasso_.py:242-314, regain/covariance/
kernel_latent_time_graphical_lasso_.py:272-355 (where the dimension is written
`n_features * sqrt(n_times * (2 * n_times - 1))`; the two numbers agree, `C97_dimension`), regain/covariance/
latent_time_matrix_decomposition.py:213-284. -/
noncomputable def ltDiagnose (g : TimePairs k E) (a : LTArgs k E n) (s s' : LTState k E n) : GLCheck :=
  let d : ℝ := (Fintype.card n : ℝ) * (Fintype.card n : ℝ)
  let size : ℝ := Real.sqrt (k * d + 4 * (Fintype.card E * d))
  let R := s'.Rold
  let zl := fun e => s'.Z0 (g.src e)
  let zr := fun e => s'.Z0 (g.dst e)
  let wl := fun e => s'.W0 (g.src e)
  let wr := fun e => s'.W0 (g.dst e)
  { rnorm := Real.sqrt (batchSq (R - s'.Z0 + s'.W0) + pairSq (zl - s'.ZL) + pairSq (zr - s'.ZR)
      + pairSq (wl - s'.WL) + pairSq (wr - s'.WR))
    snorm := s.rho * Real.sqrt (batchSq (R - s.Rold) + pairSq (s'.ZL - s.ZLold)
      + pairSq (s'.ZR - s.ZRold) + pairSq (s'.WL - s.WLold) + pairSq (s'.WR - s.WRold))
    ePri := size * a.tol + a.rtol * max
      (Real.sqrt (batchSq R + pairSq s'.ZL + pairSq s'.ZR + pairSq s'.WL + pairSq s'.WR))
      (Real.sqrt (batchSq (s'.Z0 - s'.W0) + pairSq zl + pairSq zr + pairSq wl + pairSq wr))
    eDual := size * a.tol + a.rtol * s.rho * Real.sqrt (batchSq s'.X0 + pairSq s'.XL + pairSq s'.XR
      + pairSq s'.UL + pairSq s'.UR) }

/-- Penalty change with the rescaling of the duals, regain/covariance/latent_time_graphical_lasso_.py:329-338,
regain/covariance/kernel_latent_time_graphical_lasso_.py:369-382, regain/covariance/
latent_time_matrix_decomposition.py:299-308. -/
noncomputable def ltRescale (rhoNew : ℝ) (s : LTState k E n) : LTState k E n :=
  { s with
    X0 := fun t => (s.rho / rhoNew) • s.X0 t
    XL := fun e => (s.rho / rhoNew) • s.XL e
    XR := fun e => (s.rho / rhoNew) • s.XR e
    UL := fun e => (s.rho / rhoNew) • s.UL e
    UR := fun e => (s.rho / rhoNew) • s.UR e
    rho := rhoNew }

open Classical in
/-- One pass through the loop body, regain/covariance/latent_time_graphical_lasso_.py:171-338, regain/covariance/
kernel_latent_time_graphical_lasso_.py:183-382, regain/covariance/latent_time_matrix_decomposition.py:143-308. -/
noncomputable def ltBody (eigh : Eigh n) (rUpd : ℝ → Batch k n → Batch k n) (g : TimePairs k E)
    (a : LTArgs k E n) (_it : ℕ) (s : LTState k E n) : LTState k E n × GLCheck × Bool :=
  let s' := ltNext eigh rUpd g a s
  let c := ltDiagnose g a s s'
  let stop := decide (c.rnorm ≤ c.ePri ∧ c.snorm ≤ c.eDual)
  (if stop then s' else ltRescale (updateRho a.rhoOptions s.rho c.rnorm c.snorm) s', c, stop)

/-- State before the loop, regain/covariance/latent_time_graphical_lasso_.py:142-159, regain/covariance/
kernel_latent_time_graphical_lasso_.py:144-176; `latent_time_matrix_decomposition` starts from `K0 = 0`. -/
def ltInit (g : TimePairs k E) (K0 : Batch k n) (rho : ℝ) : LTState k E n :=
  ⟨K0, fun e => K0 (g.src e), fun e => K0 (g.dst e), 0, 0, 0, 0, 0, 0, 0, 0, 0, 0, 0, 0, 0, rho⟩

/-- Result of a call: the exception Python raises, or the returned list (without `covariance_`). -/
inductive LTReturn (k : ℕ) (n : Type*) where
  /-- `UnboundLocalError: iteration_`. -/
  | unbound
  | ok (K L : Batch k n) (history : Option (List GLCheck)) (nIter : Option ℕ) (warned : Bool)

/-- The common frame of the three solvers: the loop and what is returned, regain/covariance/
latent_time_graphical_lasso_.py:169-348, regain/covariance/kernel_latent_time_graphical_lasso_.py:181-392,
regain/covariance/latent_time_matrix_decomposition.py:141-317. -/
noncomputable def ltRun (eigh : Eigh n) (rUpd : ℝ → Batch k n → Batch k n) (g : TimePairs k E)
    (a : LTArgs k E n) (K0 : Batch k n) (rho : ℝ) (maxIter : ℕ) (returnHistory returnNIter : Bool) :
    LTReturn k n :=
  let r := runLoop (ltBody eigh rUpd g a) maxIter (ltInit g K0 rho)
  let hist := if returnHistory then some r.checks else none
  if returnNIter then
    match r.lastIter with
    | none => .unbound
    | some it => .ok r.state.Z0 r.state.W0 hist (some it) (!r.broke)
  else .ok r.state.Z0 r.state.W0 hist none (!r.broke)

/-- The user-visible arguments shared by the latent solvers. -/
structure LTOptions (k : ℕ) (n : Type*) where
  empCov : Batch k n
  nSamples : Fin k → ℝ
  alpha : ℝ
  tau : ℝ
  proxPsi : Matrix n n ℝ → ℝ → Matrix n n ℝ
  proxPhi : Matrix n n ℝ → ℝ → Matrix n n ℝ
  tol : ℝ
  rtol : ℝ
  rhoOptions : RhoOptions := {}

/-- Arguments in `latent_time_graphical_lasso` and `latent_time_matrix_decomposition`: weights `beta`, `eta`, and
the divisor of regain/covariance/latent_time_graphical_lasso_.py:162-164. -/
def chainArgs {T : ℕ} (o : LTOptions (T + 1) n) (beta eta : ℝ) : LTArgs (T + 1) (Fin T) n :=
  ⟨o.empCov, o.nSamples, o.alpha, o.tau, fun _ => beta, fun _ => eta, o.proxPsi, o.proxPhi, tglDivisor,
    o.tol, o.rtol, o.rhoOptions⟩

/-- Arguments in `kernel_latent_time_graphical_lasso`: the kernels (identity for `None`, regain/covariance/
kernel_latent_time_graphical_lasso_.py:139-142) and the divisor `n_times`. -/
def kernelArgs (o : LTOptions k n) (kpsi kphi : Option (Fin k → Fin k → ℝ)) : LTArgs k (PairIdx k) n :=
  ⟨o.empCov, o.nSamples, o.alpha, o.tau, kernelWeight kpsi, kernelWeight kphi, o.proxPsi, o.proxPhi,
    fun _ => k, o.tol, o.rtol, o.rhoOptions⟩

/-- `latent_time_graphical_lasso(emp_cov, …)`, regain/covariance/latent_time_graphical_lasso_.py:139-348. -/
noncomputable def latentTimeGraphicalLasso {T : ℕ} (eigh : Eigh n) (o : LTOptions (T + 1) n) (beta eta : ℝ)
    (K0 : Batch (T + 1) n) (rho : ℝ) (maxIter : ℕ) (returnHistory returnNIter : Bool) :
    LTReturn (T + 1) n :=
  ltRun eigh (ltLogdetR eigh (chainArgs o beta eta)) (chainPairs T) (chainArgs o beta eta) K0 rho maxIter
    returnHistory returnNIter

/-- `kernel_latent_time_graphical_lasso(emp_cov, …)`, regain/covariance/
kernel_latent_time_graphical_lasso_.py:135-392. -/
noncomputable def kernelLatentTimeGraphicalLasso (eigh : Eigh n) (o : LTOptions k n)
    (kpsi kphi : Option (Fin k → Fin k → ℝ)) (K0 : Batch k n) (rho : ℝ) (maxIter : ℕ)
    (returnHistory returnNIter : Bool) : LTReturn k n :=
  ltRun eigh (ltLogdetR eigh (kernelArgs o kpsi kphi)) (allPairs k) (kernelArgs o kpsi kphi) K0 rho maxIter
    returnHistory returnNIter

/-- `latent_time_matrix_decomposition(emp_cov, …)`, regain/covariance/latent_time_matrix_decomposition.py:114-317
(`nSamples` is not used). -/
noncomputable def latentTimeMatrixDecomposition {T : ℕ} (eigh : Eigh n) (o : LTOptions (T + 1) n)
    (beta eta : ℝ) (rho : ℝ) (maxIter : ℕ) (returnHistory returnNIter : Bool) : LTReturn (T + 1) n :=
  ltRun eigh (ltSquareR (chainArgs o beta eta)) (chainPairs T) (chainArgs o beta eta) 0 rho maxIter
    returnHistory returnNIter

end Verif.Model
