import Verif.Model.FB
import Mathlib.Analysis.SpecialFunctions.Exp

/-! Model of `regain/datasets/ising.py` and of the graph updates of `regain/datasets/poisson.py`. Random
generators are arbitrary streams given as arguments. -/

namespace Verif.Model

open Matrix

set_option autoImplicit false

variable {p : ℕ}

/-! ### Graph updates -/

/-- One pair drawn by the generator, with the outcome of the following `np.random.choice` of a list of two
elements (`false` first element, `true` second element). -/
structure Draw (p : ℕ) where
  r : Fin p
  c : Fin p
  pick : Bool

/-- `theta[r, c] = v; theta[c, r] = theta[r, c]`. -/
def setSym (theta : Matrix (Fin p) (Fin p) ℝ) (r c : Fin p) (v : ℝ) : Matrix (Fin p) (Fin p) ℝ :=
  Matrix.of fun i j => if (i = c ∧ j = r) ∨ (i = r ∧ j = c) then v else theta i j

open Classical in
/-- Body of the inner loop of `update_ising_l1` (regain/datasets/ising.py:47-49). -/
noncomputable def isingEdit (r0 r1 : ℝ) (theta : Matrix (Fin p) (Fin p) ℝ) (d : Draw p) :
    Matrix (Fin p) (Fin p) ℝ :=
  setSym theta d.r d.c
    (if theta d.r d.c = 0 then (if d.pick then r1 else r0) else (if d.pick then 0 else theta d.r d.c))

/-- Body of the inner loop of `update_l1` (regain/datasets/poisson.py:44-46). -/
noncomputable def poissonEdit (g : Matrix (Fin p) (Fin p) ℝ) (d : Draw p) : Matrix (Fin p) (Fin p) ℝ :=
  setSym g d.r d.c (if d.pick then g d.r d.c else 0)

/-- `np.any(rows == cols)`. -/
def hasLoop (ds : List (Draw p)) : Bool := ds.any fun d => decide (d.r = d.c)

/-- The while loop of both update functions (regain/datasets/ising.py:42-49,
regain/datasets/poisson.py:39-46) on a finite prefix of the random stream, cut into rounds of `no` pairs:
`some` result when the loop stops within the prefix. The first test compares two zero arrays, so it succeeds
unless `no = 0`. The edits of a round that contains an equal pair are kept. -/
def updateLoop (edit : Matrix (Fin p) (Fin p) ℝ → Draw p → Matrix (Fin p) (Fin p) ℝ) :
    List (List (Draw p)) → Matrix (Fin p) (Fin p) ℝ → Option (Matrix (Fin p) (Fin p) ℝ)
  | [], _ => none
  | ds :: rest, theta =>
      if hasLoop ds then updateLoop edit rest (ds.foldl edit theta) else some (ds.foldl edit theta)

/-- `update_ising_l1(theta_init, no, n_dim_obs, responses)`, regain/datasets/ising.py:39-51. The final
assertion is kept: `none` stands for a run that does not return (no stop within the prefix, or a failing
assertion). -/
noncomputable def updateIsingL1 (r0 r1 : ℝ) (no : ℕ) (rounds : List (List (Draw p)))
    (theta : Matrix (Fin p) (Fin p) ℝ) : Option (Matrix (Fin p) (Fin p) ℝ) :=
  open Classical in
  match (if no = 0 then some theta else updateLoop (isingEdit r0 r1) rounds theta) with
  | none => none
  | some t => if t = tᵀ then some t else none

/-- `update_l1(G, how_many, n_dim_obs)`, regain/datasets/poisson.py:35-48. -/
noncomputable def updateL1 (no : ℕ) (rounds : List (List (Draw p)))
    (g : Matrix (Fin p) (Fin p) ℝ) : Option (Matrix (Fin p) (Fin p) ℝ) :=
  open Classical in
  match (if no = 0 then some g else updateLoop poissonEdit rounds g) with
  | none => none
  | some t => if t = tᵀ then some t else none

/-! ### Probabilities -/

/-- Parameters shared by the samplers. -/
structure IsingArgs (p : ℕ) where
  theta : Matrix (Fin p) (Fin p) ℝ
  thresholds : Fin p → ℝ
  beta : ℝ
  r0 : ℝ
  r1 : ℝ

/-- `hamiltonian(theta, state, thresholds)`, regain/datasets/ising.py:136-143: the inner sum runs over all
`j != i`. -/
noncomputable def hamiltonian (a : IsingArgs p) (state : Fin p → ℝ) : ℝ :=
  (List.finRange p).foldl (fun res i => res - a.thresholds i * state i +
    ∑ j, if j ≠ i then -a.theta i j * state i * state j else 0) 0

/-- `H0`, `H1` of `p_plus` for the response `r` (regain/datasets/ising.py:236-245). -/
noncomputable def localField (a : IsingArgs p) (i : Fin p) (state : Fin p → ℝ) (r : ℝ) : ℝ :=
  (List.finRange p).foldl (fun h j => if i = j then h else h + a.theta i j * r * state j)
    (a.thresholds i * r)

/-- `p_plus(i, theta, state, thresholds, beta, responses)`, regain/datasets/ising.py:235-247. -/
noncomputable def pPlus (a : IsingArgs p) (i : Fin p) (state : Fin p → ℝ) : ℝ :=
  Real.exp (a.beta * localField a i state a.r1) /
    (Real.exp (a.beta * localField a i state a.r0) + Real.exp (a.beta * localField a i state a.r1))

/-! ### Metropolis-Hastings -/

open Classical in
/-- One visit of coordinate `i` (regain/datasets/ising.py:259-269); `none` is an absent constraint (the
sentinel `-sys.maxsize - 1` in the code). -/
noncomputable def mhVisit (a : IsingArgs p) (constraints : Fin p → Option ℝ) (u : Fin p → ℝ)
    (state : Fin p → ℝ) (i : Fin p) : Fin p → ℝ :=
  match constraints i with
  | some _ => state
  | none => Function.update state i (if u i < pPlus a i state then a.r1 else a.r0)

/-- One sweep over all coordinates. -/
noncomputable def mhSweep (a : IsingArgs p) (constraints : Fin p → Option ℝ) (u : Fin p → ℝ)
    (state : Fin p → ℝ) : Fin p → ℝ :=
  (List.finRange p).foldl (mhVisit a constraints u) state

open Classical in
/-- `ising_metropolis_hastings(...)`, regain/datasets/ising.py:250-271: `u0` are the draws for the initial
state, `us` the draws of the sweeps (`max_iter` of them). A constrained coordinate consumes no draw; the
stream gives it one that is not used. -/
noncomputable def isingMH (a : IsingArgs p) (constraints : Fin p → Option ℝ) (u0 : Fin p → ℝ)
    (us : List (Fin p → ℝ)) : Fin p → ℝ :=
  us.foldl (fun s u => mhSweep a constraints u s)
    (fun i => match constraints i with
      | some v => v
      | none => if u0 i < 1 / 2 then a.r1 else a.r0)

/-! ### Coupling from the past -/

/-- Contribution of coordinate `j` to `(H0[k], H1[k])` in `p_plus_minmax` (regain/datasets/ising.py:171-192);
`none` is an undetermined coordinate (the sentinel in the code). The pair lists the contribution for index
0 and for index 1 of the arrays, to the response `r`. -/
noncomputable def minmaxTerm (a : IsingArgs p) (i j : Fin p) (s : Option ℝ) (r : ℝ) : ℝ × ℝ :=
  open Classical in
  match s with
  | some v => (a.theta i j * r * v, a.theta i j * r * v)
  | none =>
      if a.theta i j * a.r1 * a.r1 > a.theta i j * a.r1 * a.r0 then
        (a.theta i j * r * a.r0, a.theta i j * r * a.r1)
      else (a.theta i j * r * a.r1, a.theta i j * r * a.r0)

/-- The arrays `H0` (for `r = responses[0]`) and `H1` (for `r = responses[1]`). -/
noncomputable def minmaxField (a : IsingArgs p) (i : Fin p) (state : Fin p → Option ℝ) (r : ℝ) : ℝ × ℝ :=
  (List.finRange p).foldl (fun h j => if i = j then h else
    (h.1 + (minmaxTerm a i j (state j) r).1, h.2 + (minmaxTerm a i j (state j) r).2))
    (a.thresholds i * r, a.thresholds i * r)

/-- `p_plus_minmax(i, theta, state, thresholds, beta, responses)`, regain/datasets/ising.py:162-198. -/
noncomputable def pPlusMinmax (a : IsingArgs p) (i : Fin p) (state : Fin p → Option ℝ) : ℝ × ℝ :=
  (Real.exp (a.beta * (minmaxField a i state a.r1).1) /
    (Real.exp (a.beta * (minmaxField a i state a.r0).1) +
      Real.exp (a.beta * (minmaxField a i state a.r1).1)),
   Real.exp (a.beta * (minmaxField a i state a.r1).2) /
    (Real.exp (a.beta * (minmaxField a i state a.r0).2) +
      Real.exp (a.beta * (minmaxField a i state a.r1).2)))

open Classical in
/-- One visit of coordinate `i` in `ising_exact` (regain/datasets/ising.py:222-229). -/
noncomputable def exactVisit (a : IsingArgs p) (u : Fin p → ℝ) (state : Fin p → Option ℝ) (i : Fin p) :
    Fin p → Option ℝ :=
  let P := pPlusMinmax a i state
  Function.update state i (if u i < P.1 then some a.r1 else if u i ≥ P.2 then some a.r0 else none)

/-- One sweep of `ising_exact`. -/
noncomputable def exactSweep (a : IsingArgs p) (u : Fin p → ℝ) (state : Fin p → Option ℝ) :
    Fin p → Option ℝ :=
  (List.finRange p).foldl (exactVisit a u) state

/-- One pass of the while loop of `ising_exact` with `exact=True` (regain/datasets/ising.py:211-229): all
coordinates become undetermined, then the sweeps of all stored blocks of random numbers are run, the most
recent block first. `blocks` lists the blocks in the order they are run. -/
noncomputable def exactPass (a : IsingArgs p) (blocks : List (List (Fin p → ℝ))) : Fin p → Option ℝ :=
  blocks.foldl (fun s b => b.foldl (fun s u => exactSweep a u s) s) (fun _ => none)

/-- `ising_exact(..., exact=True)`, regain/datasets/ising.py:201-232, on a finite prefix of the stream of
blocks: block `k` is drawn in pass `k`, and pass `k` runs blocks `k, k-1, ..., 0`. For at least one
variable (with none the loop is not entered). The argument `constraints` is accepted and never read. -/
noncomputable def isingExact (a : IsingArgs p) (constraints : Fin p → Option ℝ) :
    (fuel : List (List (Fin p → ℝ))) → (drawn : List (List (Fin p → ℝ))) → Option (Fin p → ℝ)
  | [], _ => none
  | b :: rest, drawn =>
      let st := exactPass a (b :: drawn)
      open Classical in
      if h : ∀ i, (st i).isSome then some (fun i => (st i).get (h i)) else isingExact a constraints rest (b :: drawn)

/-! ### ising_sampler -/

/-- A numpy array of reals, one or two dimensional. -/
inductive NArr where
  | vec (v : List ℝ)
  | mat (rows : List (List ℝ))

/-- Shape of the array. -/
def NArr.shape : NArr → List ℕ
  | .vec v => [v.length]
  | .mat rows => [rows.length, (rows.headD []).length]

/-- `np.vstack((res, state))` for a vector `state`. -/
def vstack (res : NArr) (row : List ℝ) : NArr :=
  match res with
  | .vec v => .mat [v, row]
  | .mat rows => .mat (rows ++ [row])

/-- The `MH` branch of `ising_sampler` (regain/datasets/ising.py:335-339) for `n ≥ 1`; `sample s` is the
state drawn for row `s`. -/
def samplerMH (n : ℕ) (sample : ℕ → Fin p → ℝ) : NArr :=
  (List.range (n - 1)).foldl (fun res s => vstack res (List.ofFn (sample (s + 1)))) (.vec (List.ofFn (sample 0)))

/-- `itertools.product(responses, repeat=10)` (regain/datasets/ising.py:155): the length 10 is fixed. -/
def productStates (r0 r1 : ℝ) : ℕ → List (List ℝ)
  | 0 => [[]]
  | k + 1 => [r0, r1].flatMap fun r => (productStates r0 r1 k).map fun s => r :: s

/-- `direct_sampling` (regain/datasets/ising.py:146-159): `ixs` are the drawn indices of states; the result
is a list of lists, represented as a matrix. The
Hamiltonian of a state is evaluated with the indices `0 .. p-1`, an IndexError when `p > 10`. -/
def directSampling (p : ℕ) (r0 r1 : ℝ) (ixs : List ℕ) : Except PyErr NArr :=
  if 10 < p then .error .index
  else .ok (.mat (ixs.map fun i => (productStates r0 r1 10).getD i []))

end Verif.Model
