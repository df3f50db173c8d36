import Verif.Model.Ising
import Verif.Model.Gaussian
import Verif.Model.GraphGen

/-! Model of the function `ising_sampler` (`regain/datasets/ising.py`) around its three methods. -/

namespace Verif.Model

set_option autoImplicit false

variable {p : ℕ}

/-- What the random generators produce for one call: `mh s` is the result of the `s`-th call of
`ising_metropolis_hastings`, `exact k s` that of `ising_exact` for row `s` of attempt `k` (calls that return),
`ixs` the indices drawn by `np.random.choice`. -/
structure SamplerDraws (p : ℕ) where
  mh : ℕ → Fin p → ℝ
  exact : ℕ → ℕ → Fin p → ℝ
  ixs : List ℕ

/-- The rows of one attempt of the CFTP branch (regain/datasets/ising.py:311-323). -/
def cftpRows (n : ℕ) (state : ℕ → Fin p → ℝ) : NArr := .mat ((List.range n).map fun s => List.ofFn (state s))

/-- The `for ... else` of the CFTP branch (regain/datasets/ising.py:310-331) with `k` of `tries` attempts made:
the test for nan never succeeds, because `ising_exact` returns entries of `responses`; without an attempt the
name `res` is unbound at the `return`. -/
def cftpLoop (n : ℕ) (exact : ℕ → ℕ → Fin p → ℝ) (tries : ℕ) : Except DataErr NArr :=
  match tries with
  | 0 => .error .name
  | _ + 1 => .ok (cftpRows n (exact 0))

/-- `ising_sampler(theta, thresholds, n, ..., responses, method, CFTP_retry, constraints=None)`
(regain/datasets/ising.py:274-350): the result and `theta` after the call. `method` is given in upper case.
`np.random.choice(..., replace=False)` in `direct_sampling` raises ValueError for more draws than states. -/
noncomputable def isingSampler (theta : Matrix (Fin p) (Fin p) ℝ) (responses : List ℝ) (method : String)
    (n retry : ℕ) (d : SamplerDraws p) : Except DataErr (NArr × Matrix (Fin p) (Fin p) ℝ) :=
  open Classical in
  if theta ≠ theta.transpose then .error .assertion
  else if responses.length ≠ 2 then .error .value
  else
    let theta' := fillDiagZero theta
    if method = "CFTP" then
      match cftpLoop n d.exact (retry - 1) with
      | .error e => .error e
      | .ok r => .ok (r, theta')
    else if method = "MH" then
      if n = 0 then .error .index else .ok (samplerMH n d.mh, theta')
    else if method = "DIRECT" then
      match directSampling p (responses.getD 0 0) (responses.getD 1 0) d.ixs with
      | .error _ => .error .index
      | .ok r => if 2 ^ 10 < n then .error .value else .ok (r, theta')
    else .error .value

end Verif.Model
