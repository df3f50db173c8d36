import Verif.Model.Gaussian
import Mathlib.Analysis.SpecialFunctions.Exp

/-! Model of the Gibbs branch of `poisson_sampler` (`regain/datasets/poisson.py`). -/

namespace Verif.Model

set_option autoImplicit false

variable {n p : ℕ}

/-- `variances` of the Gibbs branch (regain/datasets/poisson.py:191-193): missing values and arrays of another
size are replaced by zeros; the `reshape` in the last line has no effect. -/
def gibbsVariances (variances : Option (List ℝ)) : Fin p → ℝ :=
  match variances with
  | none => 0
  | some l => if h : l.length = p then fun i => l.get (i.cast h.symm) else 0

/-- `par` for one sample (regain/datasets/poisson.py:199-200): `selector` leaves out `i`, the coefficients are
column `i` of `theta`. -/
noncomputable def gibbsRate (v : Fin p → ℝ) (theta : Matrix (Fin p) (Fin p) ℝ) (x : Fin p → ℕ) (i : Fin p) : ℝ :=
  Real.exp (v i + ∑ j ∈ Finset.univ.filter (fun j => j ≠ i), (x j : ℝ) * theta j i)

/-- One visit of variable `i` (regain/datasets/poisson.py:198-201): all samples are updated at once from the
array as it was before. `np.random.poisson` raises ValueError for rates above a limit `L`; `draw s lam` is its
result for sample `s` otherwise. -/
noncomputable def gibbsVisit (L : ℝ) (v : Fin p → ℝ) (theta : Matrix (Fin p) (Fin p) ℝ) (draw : Fin n → ℝ → ℕ)
    (X : Fin n → Fin p → ℕ) (i : Fin p) : Except DataErr (Fin n → Fin p → ℕ) :=
  open Classical in
  if ∃ s, L < gibbsRate v theta (X s) i then .error .value
  else .ok fun s => Function.update (X s) i (draw s (gibbsRate v theta (X s) i))

/-- The visits of one list of variables, in order. -/
noncomputable def gibbsVisits (L : ℝ) (v : Fin p → ℝ) (theta : Matrix (Fin p) (Fin p) ℝ)
    (draw : Fin p → Fin n → ℝ → ℕ) : List (Fin p) → (Fin n → Fin p → ℕ) → Except DataErr (Fin n → Fin p → ℕ)
  | [], X => .ok X
  | i :: l, X =>
    match gibbsVisit L v theta (draw i) X i with
    | .error e => .error e
    | .ok X' => gibbsVisits L v theta draw l X'

/-- The passes (regain/datasets/poisson.py:197-201); `draw k i s` belongs to pass `k`. -/
noncomputable def gibbsPasses (L : ℝ) (v : Fin p → ℝ) (theta : Matrix (Fin p) (Fin p) ℝ)
    (draw : ℕ → Fin p → Fin n → ℝ → ℕ) (X : Fin n → Fin p → ℕ) : ℕ → Except DataErr (Fin n → Fin p → ℕ)
  | 0 => .ok X
  | k + 1 =>
    match gibbsPasses L v theta draw X k with
    | .error e => .error e
    | .ok X' => gibbsVisits L v theta (draw k) (List.finRange p) X'

/-- `poisson_sampler(theta, variances, n_samples, _type, max_iter=maxIter)` for any `_type` but `"LPGM"`
(regain/datasets/poisson.py:190-203); `X0` are the initial draws. With a single variable `selector` is an empty
array of floats, which numpy does not accept as an index. -/
noncomputable def poissonGibbs (L : ℝ) (theta : Matrix (Fin p) (Fin p) ℝ) (variances : Option (List ℝ))
    (draw : ℕ → Fin p → Fin n → ℝ → ℕ) (X0 : Fin n → Fin p → ℕ) (maxIter : ℕ) :
    Except DataErr (Fin n → Fin p → ℕ) :=
  if p = 1 ∧ maxIter ≠ 0 then .error .index
  else gibbsPasses L (gibbsVariances variances) theta draw X0 maxIter

end Verif.Model
