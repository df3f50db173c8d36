import Mathlib.Analysis.SpecialFunctions.Log.Basic
import Mathlib.Analysis.SpecialFunctions.Trigonometric.Basic
import Mathlib.Analysis.Real.Sqrt
import Mathlib.Data.Matrix.Mul
import Mathlib.LinearAlgebra.Matrix.NonsingularInverse

/-! Model of `regain/bayesian`: slice sampling, Metropolis-Hastings steps, the normal-inverse-Wishart
posterior, `lognstat`. Random numbers are arguments. -/

namespace Verif.Model

open Matrix

set_option autoImplicit false

/-! ### Elliptical slice sampling -/

/-- The fields of `current_state` used by `elliptical_slice`; `σ` is the type of `V`. The `Bunch` is
modified in place by the code and also returned; here the new value is returned. -/
structure SliceState (ι σ : Type) where
  xx : ι → ℝ
  V : σ
  loglik : Option ℝ

/-- The random numbers used by one call: the slice draw, the draws setting up the first angle, and the draws
of the loop. -/
structure SliceDraws where
  u : ℝ
  u1 : ℝ
  u2 : ℝ
  us : ℕ → ℝ

/-- Outcome of the function: a state, or the RuntimeError of line 140. -/
inductive SliceOut (α : Type) where
  | ret (s : α)
  | runtimeError

/-- `proposal`, regain/bayesian/sampling.py:126 (`np.real` is the identity on reals). -/
noncomputable def sliceProposal {ι : Type} (xx nu : ι → ℝ) (phi : ℝ) : ι → ℝ :=
  fun i => xx i * Real.cos phi + nu i * Real.sin phi

open Classical in
/-- Shrinking the bracket after a rejection and proposing the next angle,
regain/bayesian/sampling.py:134-143: `(phi, phi_min, phi_max)`, `none` for the RuntimeError. -/
noncomputable def sliceShrink (phi pmin pmax u : ℝ) : Option (ℝ × ℝ × ℝ) :=
  if phi > 0 then some (u * (phi - pmin) + pmin, pmin, phi)
  else if phi < 0 then some (u * (pmax - phi) + phi, phi, pmax)
  else none

open Classical in
/-- The slice sampling loop, regain/bayesian/sampling.py:122-145: `construct` is `GWP_construct(., L)`. The
arguments are the number of iterations left, the number of the next draw, the current angle and bracket.
`none`: the loop ran out (`update_state = False`). -/
noncomputable def sliceLoop {ι σ : Type} (xx nu : ι → ℝ) (construct : (ι → ℝ) → σ) (lik : σ → ℝ) (hh : ℝ)
    (us : ℕ → ℝ) : ℕ → ℕ → ℝ → ℝ → ℝ → SliceOut (Option (SliceState ι σ))
  | 0, _, _, _, _ => .ret none
  | fuel + 1, k, phi, pmin, pmax =>
      let proposal := sliceProposal xx nu phi
      let V := construct proposal
      let logp := lik V
      if logp > hh then .ret (some ⟨proposal, V, some logp⟩)
      else
        match sliceShrink phi pmin pmax (us k) with
        | some (phi', pmin', pmax') => sliceLoop xx nu construct lik hh us fuel (k + 1) phi' pmin' pmax'
        | none => .runtimeError

/-- `start_logp` and `hh`, regain/bayesian/sampling.py:90-107. -/
noncomputable def sliceThreshold {ι σ : Type} (st : SliceState ι σ) (lik : σ → ℝ) (u : ℝ) : ℝ :=
  (1 / 1000) * Real.log u + st.loglik.getD (lik st.V)

open Classical in
/-- First angle and bracket, regain/bayesian/sampling.py:111-120: `(phi, phi_min, phi_max)`. -/
noncomputable def sliceBracket (angleRange u1 u2 : ℝ) : ℝ × ℝ × ℝ :=
  if angleRange ≤ 0 then (u1 * 2 * Real.pi, u1 * 2 * Real.pi - 2 * Real.pi, u1 * 2 * Real.pi)
  else
    let pmin := -angleRange * u1
    let pmax := pmin + angleRange
    (u2 * (pmax - pmin) + pmin, pmin, pmax)

/-- `elliptical_slice(current_state, prior, likelihood, angle_range, max_iter)`,
regain/bayesian/sampling.py:45-155, for a prior given as a sample `nu` of the size of the state (the other
form draws such a sample first). -/
noncomputable def ellipticalSlice {ι σ : Type} (st : SliceState ι σ) (nu : ι → ℝ) (construct : (ι → ℝ) → σ)
    (lik : σ → ℝ) (angleRange : ℝ) (maxIter : ℕ) (d : SliceDraws) : SliceOut (SliceState ι σ) :=
  let b := sliceBracket angleRange d.u1 d.u2
  match sliceLoop st.xx nu construct lik (sliceThreshold st lik d.u) d.us maxIter 0 b.1 b.2.1 b.2.2 with
  | .runtimeError => .runtimeError
  | .ret none => .ret st
  | .ret (some s) => .ret s

/-- `GWP_construct(umat, L)` at one time, regain/bayesian/sampling.py:39-42: `L (U^T U) L^T`, transposed. -/
noncomputable def gwpConstruct {v p : ℕ} (U : Matrix (Fin v) (Fin p) ℝ) (L : Matrix (Fin p) (Fin p) ℝ) :
    Matrix (Fin p) (Fin p) ℝ :=
  (L * (Uᵀ * U) * Lᵀ)ᵀ

/-! ### Metropolis-Hastings acceptance -/

/-- Log acceptance probability of `sample_hyper_kernel` (regain/bayesian/sampling.py:182-194) and of
`_sample_ell_comp` (regain/bayesian/sampling.py:244-252): `lp` is the log posterior and `lq a b` the log
density of proposing `b` from `a`. -/
noncomputable def mhLogAccept {α : Type} (lp : α → ℝ) (lq : α → α → ℝ) (cur prop : α) : ℝ :=
  min 0 (lp prop - lp cur + lq prop cur - lq cur prop)

open Classical in
/-- The decision: `accept = np.log(u) < log_acceptance_proba`. -/
noncomputable def mhSelect {α : Type} (lp : α → ℝ) (lq : α → α → ℝ) (cur prop : α) (u : ℝ) : α × Bool :=
  if Real.log u < mhLogAccept lp lq cur prop then (prop, true) else (cur, false)

/-! ### The chain of the Wishart process -/

/-- State of the chain of `wishart_process_.fit`: the Gaussian process sample `umat` and the slice state. -/
structure WPState (ι σ : Type) where
  umat : ι → ℝ
  slice : SliceState ι σ

/-- What one iteration receives from outside: the construction for the current `L`, the random numbers of the
slice step, the new Gaussian process sample when the kernel parameter was accepted, and the construction for
the new `L`. -/
structure WPInput (ι σ : Type) where
  construct : (ι → ℝ) → σ
  draws : SliceDraws
  accepted : Option (ι → ℝ)
  construct' : (ι → ℝ) → σ

/-- One iteration of the loop of `fit`, regain/bayesian/wishart_process_.py:108-157: elliptical slice with
`umat` as the prior sample (`angle_range=0`, `max_iter=20`), then the kernel parameter (on acceptance a new
`umat` is drawn and becomes the state), then `L`. Without `learn_ell` the constructions coincide and the last
assignment is void. -/
noncomputable def wpStep {ι σ : Type} (lik : σ → ℝ) (s : WPState ι σ) (inp : WPInput ι σ) :
    SliceOut (WPState ι σ) :=
  match ellipticalSlice s.slice s.umat inp.construct lik 0 20 inp.draws with
  | .runtimeError => .runtimeError
  | .ret sl =>
      match inp.accepted with
      | some u => .ret ⟨u, ⟨u, sl.V, some (lik (inp.construct' u))⟩⟩
      | none => .ret ⟨s.umat, ⟨sl.xx, sl.V, some (lik (inp.construct' sl.xx))⟩⟩

/-- All iterations: the states after each of them. -/
noncomputable def wpChain {ι σ : Type} (lik : σ → ℝ) :
    WPState ι σ → List (WPInput ι σ) → SliceOut (List (WPState ι σ))
  | _, [] => .ret []
  | s, inp :: rest =>
      match wpStep lik s inp with
      | .runtimeError => .runtimeError
      | .ret s' =>
          match wpChain lik s' rest with
          | .runtimeError => .runtimeError
          | .ret l => .ret (s' :: l)

/-- The history `Ls` of `fit` (regain/bayesian/wishart_process_.py:102-106, 149, 158-159): a list of references to
the one array `L__`, which every iteration overwrites. `heap` is the content of that array; the returned
list is read after the last iteration. -/
def wpHistory {α : Type} (init : α) (updates : List α) : List α :=
  let heap := updates.foldl (fun _ l => l) init
  updates.map fun _ => heap

/-! ### Normal-inverse-Wishart -/

/-- Parameters of `NormalInverseWishartDistribution`. -/
structure NIW (d : ℕ) where
  mu : Fin d → ℝ
  kappa : ℝ
  nu : ℝ
  S : Matrix (Fin d) (Fin d) ℝ

/-- `np.mean(X, axis=0)`. -/
noncomputable def colMean {n d : ℕ} (X : Matrix (Fin n) (Fin d) ℝ) : Fin d → ℝ :=
  fun j => (∑ i, X i j) / n

/-- `posterior(X)`, regain/bayesian/wishart_distribution_.py:202-229, for at least one row (`np.mean` of no
rows is nan). The mean is stored as a row matrix by the code, a vector here. -/
noncomputable def NIW.posterior {n d : ℕ} (q : NIW d) (X : Matrix (Fin n) (Fin d) ℝ) : NIW d :=
  let kn := q.kappa + n
  let mn : Fin d → ℝ := fun j => (q.kappa * q.mu j + n * colMean X j) / kn
  { mu := mn
    kappa := kn
    nu := q.nu + n
    S := q.S + Xᵀ * X + q.kappa • vecMulVec q.mu q.mu - kn • vecMulVec mn mn }

/-! ### stats -/

/-- `lognstat(mean, variance)`, regain/bayesian/stats.py:58-63. -/
noncomputable def lognstat (mean variance : ℝ) : ℝ × ℝ :=
  let m2 := mean * mean
  (Real.log (m2 / Real.sqrt (variance + m2)), Real.sqrt (Real.log (variance / m2 + 1)))

/-- `lognormal_pdf(x, mu, sigma)`, regain/bayesian/stats.py:36-46. -/
noncomputable def lognormalPdf (x mu sigma : ℝ) : ℝ :=
  Real.exp (-(1 / 2) * ((Real.log x - mu) / sigma) ^ 2) / (x * sigma * Real.sqrt (2 * Real.pi))

/-- `t_mvn_logpdf(X, Cov)`, regain/bayesian/stats.py:72-87: `logpdf t i` is the log density of row `i` of
time `t`; every time is multiplied by its number of rows. -/
noncomputable def tMvnLogpdf {k : ℕ} (n : Fin k → ℕ) (logpdf : (t : Fin k) → Fin (n t) → ℝ) : ℝ :=
  (List.finRange k).foldl (fun acc t => acc + (n t : ℝ) * ∑ i, logpdf t i) 0

end Verif.Model
