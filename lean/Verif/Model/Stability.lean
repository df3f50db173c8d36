import Verif.Model.FB
import Mathlib.Data.Nat.Choose.Basic
import Mathlib.Order.WithBot
import Mathlib.Data.List.MinMax

/-! Model of `regain/model_selection/stability_optimization.py`: the instability measures, the ordering
of the parameter grid and the selection rules of `GraphicalModelStabilitySelection`. -/

namespace Verif.Model

set_option autoImplicit false

/-! ### Instability -/

/-- A fitted estimator is represented by `get_precision()`: one matrix per time point (`T = 1` stands
for the two dimensional case, whose formulas coincide, see lines 73-78 and 79-89). -/
abbrev Prec (T p : ℕ) := Fin T → Matrix (Fin p) (Fin p) ℝ

variable {T p : ℕ}

open Classical in
/-- The entry of `mean_connectivity` for the pair `i, j` at time `t`
(regain/model_selection/stability_optimization.py:76-78 and 83-91): how often the entry is non-zero. -/
noncomputable def meanConnectivity (est : List (Prec T p)) (t : Fin T) (i j : Fin p) : ℝ :=
  (est.foldl (fun s c => s + if c t i j ≠ 0 then (1 : ℝ) else 0) 0) / est.length

/-- `np.sum(xi_matrix)` over `np.triu_indices(., 1)`
(regain/model_selection/stability_optimization.py:91-92). -/
noncomputable def xiSum (est : List (Prec T p)) : ℝ :=
  ∑ t, ∑ i, ∑ j, if i < j then 2 * meanConnectivity est t i j * (1 - meanConnectivity est t i j) else 0

/-- `global_instability(estimators)`, regain/model_selection/stability_optimization.py:54-92. The empty
list fails on `precisions[0]`. The division is a numpy float division. -/
noncomputable def globalInstability (est : List (Prec T p)) : Except PyErr XF :=
  if est = [] then .error .index
  else .ok (XF.div (.fin (xiSum est)) (.fin ((p.choose 2 : ℝ) * T)))

/-- `upper_bound(estimators)`, regain/model_selection/stability_optimization.py:154-182. -/
noncomputable def upperBound (est : List (Prec T p)) : Except PyErr XF :=
  if est = [] then .error .index
  else
    let theta := XF.div (.fin (xiSum est)) (.fin ((T : ℝ) * p * (p - 1) / 2))
    .ok (XF.mul (XF.mul (.fin 4) theta) (XF.sub (.fin 1) theta))

/-! ### Selection -/

/-- `np.max(a[:k])` of a non-empty slice. -/
noncomputable def sliceMax (m : ℕ → ℝ) : ℕ → ℝ
  | 0 => m 0
  | k + 1 => max (sliceMax m k) (m k)

/-- `monotonized_instabilities` (regain/model_selection/stability_optimization.py:583-588): entry 0 is the
instability of candidate 0, entry `i ≥ 1` is `np.max(array_means[:i])`. The same formula is used for
`upper_bounds` (lines 597-600). -/
noncomputable def monotonized (m : ℕ → ℝ) (i : ℕ) : ℝ := if i = 0 then m 0 else sliceMax m i

/-- `rankdata(v, method='min')`: one plus the number of strictly smaller entries. -/
def rankMin {α : Type*} (lt : α → α → Prop) [DecidableRel lt] (n : ℕ) (v : ℕ → α) (i : ℕ) : ℕ :=
  1 + ((List.range n).filter fun j => lt (v j) (v i)).length

/-- `argmin()` of an integer array: the first position of the smallest entry. -/
def argminNat (n : ℕ) (v : ℕ → ℕ) : ℕ :=
  (List.range n).foldl (fun best i => if v i < v best then i else best) 0

open Classical in
/-- The values ranked in 'stars' mode: entries above 0.05 are replaced by minus infinity
(regain/model_selection/stability_optimization.py:619). -/
noncomputable def starsValues (m : ℕ → ℝ) (i : ℕ) : WithBot ℝ :=
  if monotonized m i > 5 / 100 then ⊥ else (monotonized m i : ℝ)

open Classical in
/-- `best_index_` in 'stars' mode for `n` candidates with instabilities `m`
(regain/model_selection/stability_optimization.py:619-626 and 466): the rank is taken of the negated
values, so a rank counts the strictly larger values. -/
noncomputable def starsBest (n : ℕ) (m : ℕ → ℝ) : ℕ :=
  argminNat n (rankMin (fun a b => b < a) n (starsValues m))

open Classical in
/-- Last index `i < n` with `P i` (`np.where(...)[0][-1]`), if any. -/
noncomputable def lastWhere (n : ℕ) (P : ℕ → Prop) : Option ℕ :=
  ((List.range n).filter fun i => P i).getLast?

/-- `lb` (regain/model_selection/stability_optimization.py:602,604). -/
noncomputable def gstarsLb (n : ℕ) (m : ℕ → ℝ) : ℕ :=
  (lastWhere n fun i => monotonized m i ≤ 5 / 100).getD n

/-- `ub` (regain/model_selection/stability_optimization.py:603,605). -/
noncomputable def gstarsUb (n : ℕ) (u : ℕ → ℝ) : ℕ :=
  (lastWhere n fun i => monotonized u i ≤ 5 / 100).getD 0

/-- `graphlets_stability` after positions before `ub` and after `lb` were set to infinity
(regain/model_selection/stability_optimization.py:608-609). -/
noncomputable def gstarsValues (n : ℕ) (m u g : ℕ → ℝ) (i : ℕ) : WithTop ℝ :=
  if i < gstarsUb n u then ⊤ else if gstarsLb n m + 1 ≤ i then ⊤ else (g i : ℝ)

open Classical in
/-- `best_index_` in 'gstars' mode; `g` are the graphlet instabilities, computed by an external library
(regain/model_selection/stability_optimization.py:590-616 and 466). -/
noncomputable def gstarsBest (n : ℕ) (m u g : ℕ → ℝ) : ℕ :=
  argminNat n (rankMin (fun a b => a < b) n (gstarsValues n m u g))

/-! ### Parameter grid -/

/-- A parameter grid: names with lists of values. -/
abbrev Grid := List (String × List ℚ)

/-- `np.sort(v)[::-1]`. -/
def sortDesc (v : List ℚ) : List ℚ := (v.mergeSort (· ≤ ·)).reverse

/-- `dict(pg)`: later entries replace earlier ones with the same key; the key keeps its first position. -/
def dictOf {α : Type*} (l : List (String × α)) : List (String × α) :=
  l.foldl (fun d kv => if d.any (fun e => e.1 == kv.1) then
    d.map (fun e => if e.1 == kv.1 then (e.1, kv.2) else e) else d ++ [kv]) []

/-- `_check_param_order(param_grid)` on a list of grids (a single dict is wrapped into a list),
regain/model_selection/stability_optimization.py:185-198. -/
def checkParamOrder (grids : List Grid) : Grid :=
  dictOf (grids.flatMap fun g => g.map fun nv => (nv.1, sortDesc nv.2))

/-- Candidates of one grid (sklearn's `ParameterGrid`: the product of the value lists), as assignments. -/
def candidates : Grid → List (List (String × ℚ))
  | [] => [[]]
  | (name, vs) :: rest => vs.flatMap fun v => (candidates rest).map fun c => (name, v) :: c

end Verif.Model
