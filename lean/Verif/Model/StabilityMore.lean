import Verif.Model.Stability
import Mathlib.Analysis.SpecialFunctions.Pow.Real

/-! Model of the rest of `regain/model_selection/stability_optimization.py`: the graphlet instability and the
subsample size. -/

namespace Verif.Model

set_option autoImplicit false

/-- The exceptions of `graphlet_instability`. -/
inductive GiErr where
  | index
  | zeroDivision
  deriving DecidableEq

variable {T p : ℕ}

/-- The graph of `nx.from_numpy_array(p - np.diag(np.diag(p)))`
(regain/model_selection/stability_optimization.py:122 and 136): an undirected graph with an edge wherever an
entry off the diagonal is non-zero. The order of `g.nodes` and `g.edges` follows the positions of the non-zero
entries only. -/
def edgeSet (M : Matrix (Fin p) (Fin p) ℝ) (i j : Fin p) : Prop := i ≠ j ∧ (M i j ≠ 0 ∨ M j i ≠ 0)

/-- The double loop `for i ...: for j in range(i + 1, ...)`
(regain/model_selection/stability_optimization.py:126-129 and 144-150). -/
def pairDists {α : Type*} (d : α → α → ℝ) : List α → List ℝ
  | [] => []
  | x :: xs => xs.map (d x) ++ pairDists d xs

/-- `graphlet_instability(estimators)` for two dimensional precisions
(regain/model_selection/stability_optimization.py:95-129 and 151). `gdv` is `graphlet_degree_vectors` and `gcd`
the second component of `GCD`, both of the package netanalytics, which is not part of the repository. The
prefactor `2 / (n * (n - 1))` is a division of Python ints. -/
noncomputable def graphletInstability2 {G : Type*} (gdv : (Fin p → Fin p → Prop) → G) (gcd : G → G → ℝ)
    (est : List (Matrix (Fin p) (Fin p) ℝ)) : Except GiErr ℝ :=
  if est = [] then .error .index
  else
    let gdvs := est.map fun M => gdv (edgeSet M)
    let distances := pairDists gcd gdvs
    if est.length * (est.length - 1) = 0 then .error .zeroDivision
    else .ok (2 / ((est.length : ℝ) * (est.length - 1)) * distances.sum)

/-- `graphlet_instability(estimators)` for three dimensional precisions
(regain/model_selection/stability_optimization.py:130-151); `distance / n_times` divides the int 0 by 0 when
there is no time point. -/
noncomputable def graphletInstability3 {G : Type*} (gdv : (Fin p → Fin p → Prop) → G) (gcd : G → G → ℝ)
    (est : List (Prec T p)) : Except GiErr ℝ :=
  if est = [] then .error .index
  else
    let gdvs := est.map fun M => fun t => gdv (edgeSet (M t))
    if T = 0 ∧ 2 ≤ est.length then .error .zeroDivision
    else
      let distances := pairDists (fun u v => (∑ t, gcd (u t) (v t)) / T) gdvs
      if est.length * (est.length - 1) = 0 then .error .zeroDivision
      else .ok (2 / ((est.length : ℝ) * (est.length - 1)) * distances.sum)

/-- `int(x)` of a float: rounding towards zero. -/
noncomputable def pyIntOf (x : ℝ) : ℤ := if 0 ≤ x then ⌊x⌋ else ⌈x⌉

/-- `int(min(10 * np.sqrt(X.shape[0]), X.shape[0] - 10))`
(regain/model_selection/stability_optimization.py:326). -/
noncomputable def defaultSize (n : ℕ) : ℤ := pyIntOf (min (10 * Real.sqrt n) ((n : ℝ) - 10))

/-- `sampling_size` after `fit` (regain/model_selection/stability_optimization.py:325-341): the argument or the
default, lowered to a multiple of the number of classes when labels are given (`//` rounds down). -/
noncomputable def samplingSize (arg : Option ℤ) (n : ℕ) (nClasses : Option ℕ) : ℤ :=
  let s := arg.getD (defaultSize n)
  match nClasses with
  | none => s
  | some k => if s.emod k ≠ 0 then s.ediv k * k else s

end Verif.Model
