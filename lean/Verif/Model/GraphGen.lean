import Verif.Model.Ising

/-! Model of the generators of graph sequences and of the local Poisson sampler
(`regain/datasets/ising.py`, `regain/datasets/poisson.py`). -/

namespace Verif.Model

open Matrix

set_option autoImplicit false

variable {p : ℕ}

/-- The loop of `ising_theta_generator` (regain/datasets/ising.py:120-133) for the modes that do not raise:
`steps t` is the random stream of step `t`; the argument `responses` is not passed on to the update, whose
default is `[-1, 1]`. The initial graph comes from networkx (or from the last branch) and is an argument. -/
noncomputable def isingThetas (_r0 _r1 : ℝ) (change : ℕ) (g : Matrix (Fin p) (Fin p) ℝ)
    (steps : List (List (List (Draw p)))) : Option (List (Matrix (Fin p) (Fin p) ℝ)) :=
  match steps with
  | [] => some [g]
  | rounds :: rest =>
      match updateIsingL1 (-1) 1 change rounds g with
      | none => none
      | some t => (isingThetas _r0 _r1 change t rest).map fun l => g :: l

/-- `np.fill_diagonal(g, 0)`. -/
def fillDiagZero (g : Matrix (Fin p) (Fin p) ℝ) : Matrix (Fin p) (Fin p) ℝ :=
  Matrix.of fun i j => if i = j then 0 else g i j

/-- The loop of `poisson_theta_generator` (regain/datasets/poisson.py:104-118) for the modes that do not
raise. -/
noncomputable def poissonThetas (change : ℕ) (g : Matrix (Fin p) (Fin p) ℝ)
    (steps : List (List (List (Draw p)))) : Option (List (Matrix (Fin p) (Fin p) ℝ)) :=
  match steps with
  | [] => some [g]
  | rounds :: rest =>
      match updateL1 change rounds g with
      | none => none
      | some t => (poissonThetas change (fillDiagZero t) rest).map fun l => g :: l

open Classical in
/-- Pairs visited by `_adjacency_to_A(graph, typ)` with `typ != "full"` (regain/datasets/poisson.py:121-129),
in order. The outer loop of the code stops one short of the last index, for which there is no `j`. -/
noncomputable def adjPairs (g : Matrix (Fin p) (Fin p) ℝ) : List (Fin p × Fin p) :=
  (List.finRange p).flatMap fun i => ((List.finRange p).filter fun j => i < j ∧ g i j = 1).map fun j => (i, j)

/-- Columns of the matrix returned by `_adjacency_to_A` (regain/datasets/poisson.py:121-129): the identity,
then one column per pair with ones in its two rows. -/
noncomputable def adjCols (g : Matrix (Fin p) (Fin p) ℝ) : List (Fin p → ℕ) :=
  (List.finRange p).map (fun k i => if i = k then 1 else 0) ++
    (adjPairs g).map fun e i => if i = e.1 ∨ i = e.2 then 1 else 0

open Classical in
/-- `Y_lambda` of `poisson_sampler` (regain/datasets/poisson.py:175-181): `_lambda` once per variable, then
the nonzero entries of `_lambda * theta` below the diagonal, row by row. -/
noncomputable def yLambda (lam : ℝ) (g : Matrix (Fin p) (Fin p) ℝ) : List ℝ :=
  List.replicate p lam ++
    (List.finRange p).flatMap fun i => ((List.finRange p).filter fun j => j < i ∧ lam * g i j ≠ 0).map
      fun j => lam * g i j

/-- One row of the `LPGM` branch of `poisson_sampler` (regain/datasets/poisson.py:173-188): `draw l` lists
the Poisson counts, one per rate in `Y_lambda`, and `noise` the noise counts. A dot product of mismatched
sizes raises ValueError. -/
noncomputable def lpgmRow (lam : ℝ) (g : Matrix (Fin p) (Fin p) ℝ) (draw : List ℝ → List ℕ) (noise : Fin p → ℕ) :
    Except PyErr (Fin p → ℕ) :=
  let y := draw (yLambda lam g)
  if y.length = (adjCols g).length then
    .ok fun i => (List.zipWith (fun v col => v * col i) y (adjCols g)).sum + noise i
  else .error .value

end Verif.Model
