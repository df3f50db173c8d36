import Mathlib.Data.Real.Basic
import Mathlib.Data.Fin.VecNotation
import Mathlib.Data.List.FinRange
import Mathlib.Data.Nat.Choose.Basic
import Mathlib.Data.List.Sort
import Mathlib.LinearAlgebra.Matrix.NonsingularInverse
import Mathlib.Analysis.SpecialFunctions.Log.Basic
import Mathlib.Analysis.SpecialFunctions.Trigonometric.Basic

/-!
Model of `regain/bayesian/gwishart_inference.py` and `regain/bayesian/_laplace_approximation.py`.

`fast_logdet` is the logarithm of the determinant and `linalg.pinvh` the inverse; both are used on positive
definite matrices only. `LassoLars` scores, `np.random.choice` and `scipy.optimize.minimize` are arguments.
-/

set_option autoImplicit false
set_option linter.unusedSectionVars false

namespace Verif.Model

open Matrix

variable {p : ℕ}

/-! ### mk_all_ugs -/

/-- The positions of `ut = np.triu(np.ones((n_dim, n_dim)), 1) > 0` in the row-major order in which
`G[ut] = …` fills them, regain/bayesian/gwishart_inference.py:60, 65. -/
def upperPairs (n : ℕ) : List (Fin n × Fin n) :=
  (List.finRange n).flatMap fun i => ((List.finRange n).filter fun j => decide (i < j)).map fun j => (i, j)

/-- `list(binary_repr(x, width=w))[k]`, regain/bayesian/gwishart_inference.py:55-57: most significant bit
first. -/
def binaryDigit (w x k : ℕ) : Bool := x.testBit (w - 1 - k)

/-- `G` of one row of `ind`, regain/bayesian/gwishart_inference.py:63-67. The width is the number of edges
(for a single node it is one and no position is written). -/
def ugGraph (n x : ℕ) : Fin n → Fin n → Bool :=
  let up := fun i j : Fin n =>
    if i < j then binaryDigit (upperPairs n).length x ((upperPairs n).idxOf (i, j)) else false
  fun i j => up i j || up j i

/-- `ind.sum(axis=1)` of one row: the number of ones among the `w` digits,
regain/bayesian/gwishart_inference.py:58. -/
def digitSum (w x : ℕ) : ℕ := ((List.range w).filter fun k => binaryDigit w x k).length

/-- `mk_all_ugs(n_dim)`, regain/bayesian/gwishart_inference.py:50-69; `ord` is what `np.argsort` returned (an
arbitrary sorting permutation of `0 … m-1`: the default sort is not stable). -/
def mkAllUgs (n : ℕ) (ord : List ℕ) : List (Fin n → Fin n → Bool) := ord.map (ugGraph n)

/-! ### Markov blankets and resampled graphs -/

open Classical in
/-- One entry of `markov_blankets(graphs, boolean=True, tol)` before `unique`: is `j` in the blanket of `i` in
the graph `G`, regain/bayesian/gwishart_inference.py:72-79. -/
noncomputable def inBlanket (tol : ℝ) (G : Matrix (Fin p) (Fin p) ℝ) (i j : Fin p) : Bool :=
  let v := if j = i then 0 else G i j
  let v := if |v| < tol then 0 else v
  decide (v ≠ 0)

/-- `_get_graphs(blankets, scores, n_dim, n_resampling)`, regain/bayesian/gwishart_inference.py:117-128, for one
resample: `bl i k` is the `k`-th blanket of node `i` and `idx i` the index drawn for node `i`. -/
def resampledGraph {m : ℕ} (bl : Fin p → Fin m → Fin p → Bool) (idx : Fin p → Fin m) :
    Fin p → Fin p → Bool :=
  fun i j => bl i (idx i) j && bl j (idx j) i

/-- One row of `normalized_scores`, regain/bayesian/gwishart_inference.py:112-114. -/
noncomputable def normalizedScores {m : ℕ} (s : Fin m → ℝ) (k : Fin m) : ℝ :=
  Real.exp (s k) / ∑ l, Real.exp (s l)

/-! ### covsel -/

/-- `X` inside `covsel`, regain/bayesian/gwishart_inference.py:137-139, and `XX` of `precision_selection`
(160-165): the parameters written at the positions `nz`, then the strict upper triangle added below. -/
def fillUpper (nz : Fin p → Fin p → Bool) (x : Matrix (Fin p) (Fin p) ℝ) : Matrix (Fin p) (Fin p) ℝ :=
  let X0 : Matrix (Fin p) (Fin p) ℝ := fun i j => if nz i j then x i j else 0
  fun i j => X0 i j + if j < i then X0 j i else 0

/-- `f` of `covsel`, regain/bayesian/gwishart_inference.py:141-143, where the determinant is positive. -/
noncomputable def covselObj (nz : Fin p → Fin p → Bool) (C x : Matrix (Fin p) (Fin p) ℝ) : ℝ :=
  -Real.log (fillUpper nz x).det + ∑ i, ∑ j, C i j * fillUpper nz x i j

/-- `g` of `covsel` at the position `i, j` of `nz`, regain/bayesian/gwishart_inference.py:145-148. -/
noncomputable def covselGrad (nz : Fin p → Fin p → Bool) (C x : Matrix (Fin p) (Fin p) ℝ)
    (i j : Fin p) : ℝ :=
  let g := C - (fillUpper nz x)⁻¹
  g i j + if i < j then g j i else 0

/-! ### scores -/

/-- `empirical_covariance(X)` of sklearn (not assumed centred), used at
regain/bayesian/gwishart_inference.py:183. -/
noncomputable def gwEmpCov {n : ℕ} (X : Matrix (Fin n) (Fin p) ℝ) : Matrix (Fin p) (Fin p) ℝ :=
  fun a b => (∑ i, (X i a - (∑ k, X k a) / n) * (X i b - (∑ k, X k b) / n)) / n

/-- `sklearn.covariance.log_likelihood(emp_cov, precision)`, used at
regain/bayesian/gwishart_inference.py:224. -/
noncomputable def skLogLik (S P : Matrix (Fin p) (Fin p) ℝ) : ℝ :=
  (-(∑ i, ∑ j, S i j * P i j) + Real.log P.det - p * Real.log (2 * Real.pi)) / 2

/-- `num_edges = np.triu(G, 1).sum()`, `dof`, regain/bayesian/gwishart_inference.py:226-227. -/
def gwDof (G : Fin p → Fin p → Bool) : ℕ :=
  (Finset.univ.filter fun ij : Fin p × Fin p => ij.1 < ij.2 ∧ G ij.1 ij.2 = true).card + p

/-- `score` for `score_method="bic"`, regain/bayesian/gwishart_inference.py:224-227, 254-255, with
`S = n * emp_cov` from `GWishartFit` (183-184). -/
noncomputable def bicScore {n : ℕ} (X : Matrix (Fin n) (Fin p) ℝ) (G : Fin p → Fin p → Bool)
    (P : Matrix (Fin p) (Fin p) ℝ) : ℝ :=
  let S : Matrix (Fin p) (Fin p) ℝ := (n : ℝ) • gwEmpCov X
  let loglik := (n : ℝ) * skLogLik ((1 / (n : ℝ)) • S) P
  if n > 0 then loglik - gwDof G * Real.log n / 2 else 0

/-- `C = (S + S0) / (dn - 2)` of `GWishartFit`, regain/bayesian/gwishart_inference.py:178-185. -/
noncomputable def gwFitCov {n : ℕ} (X : Matrix (Fin n) (Fin p) ℝ) (d0 : ℝ) (S0 : Matrix (Fin p) (Fin p) ℝ) :
    Matrix (Fin p) (Fin p) ℝ :=
  (1 / ((n : ℝ) + d0 - 2)) • ((n : ℝ) • gwEmpCov X + S0)

/-- `logh`, regain/bayesian/gwishart_inference.py:220-221, 233-234 (`logdetP` from the singular values is the
logarithm of the determinant of a positive definite `P`). -/
noncomputable def gwLogh (dn : ℝ) (P : Matrix (Fin p) (Fin p) ℝ) : ℝ :=
  (dn - 2) / 2 * (p + Real.log P.det)

/-- `tmp2 = (A * B.T).sum()` of the full Laplace approximation,
regain/bayesian/gwishart_inference.py:292-307 and regain/bayesian/_laplace_approximation.py:81-93. -/
def laplaceTerm (invP : Matrix (Fin p) (Fin p) ℝ) (e1 e2 : Fin p × Fin p) : ℝ :=
  let A : Fin 2 → Fin 2 → ℝ := fun a b => invP (![e2.1, e2.2] a) (![e1.2, e1.1] b)
  let B : Fin 2 → Fin 2 → ℝ := fun a b => invP (![e1.1, e1.2] a) (![e2.2, e2.1] b)
  ∑ a, ∑ b, A a b * B b a

/-- `H` of the full Laplace approximation, regain/bayesian/gwishart_inference.py:287-309: the entry computed
for `e1 ≤ e2` is written at both places. `V` lists the free parameters. -/
noncomputable def laplaceHess {k : ℕ} (dn : ℝ) (invP : Matrix (Fin p) (Fin p) ℝ)
    (V : Fin k → Fin p × Fin p) : Matrix (Fin k) (Fin k) ℝ :=
  fun a b => if a ≤ b then -(dn - 2) * laplaceTerm invP (V a) (V b) / 2
    else -(dn - 2) * laplaceTerm invP (V b) (V a) / 2

/-- `M1` of the diagonal Laplace approximation, regain/bayesian/gwishart_inference.py:262-268: two columns
are assigned, the second assignment wins when they coincide. -/
def diagM1 (invP : Matrix (Fin p) (Fin p) ℝ) (e : Fin p × Fin p) : Matrix (Fin p) (Fin p) ℝ :=
  fun r c => if c = e.2 then invP r e.1 else if c = e.1 then invP r e.2 else 0

/-- `diagH[e1]`, regain/bayesian/gwishart_inference.py:271-279. -/
noncomputable def laplaceDiag (dn : ℝ) (invP : Matrix (Fin p) (Fin p) ℝ) (e : Fin p × Fin p) : ℝ :=
  let nz : Fin 2 → Fin p := ![e.1, e.2]
  let A : Fin 2 → Fin 2 → ℝ := fun a b => diagM1 invP e (nz a) (nz b)
  let tmp2 := (∑ b, A 0 b * A b 0) + ∑ b, A 1 b * A b 1
  (-(dn - 2) * tmp2) / 2

/-- `h(D, K, delta)`, regain/bayesian/_laplace_approximation.py:35-36. -/
noncomputable def laplaceH (D K : Matrix (Fin p) (Fin p) ℝ) (delta : ℝ) : ℝ :=
  -0.5 * (trace (Kᵀ * D) - (delta - 2) * Real.log K.det)

/-- `first_derivative_h(D, K, delta)`, regain/bayesian/_laplace_approximation.py:39-40. -/
noncomputable def laplaceH1 (D K : Matrix (Fin p) (Fin p) ℝ) (delta : ℝ) : Matrix (Fin p) (Fin p) ℝ :=
  (-0.5 : ℝ) • (D - (delta - 2) • K⁻¹)

/-- `ones` of regain/bayesian/_laplace_approximation.py:52-53: one at `i, j` and at `j, i`. -/
def onesAt (i j : Fin p) : Matrix (Fin p) (Fin p) ℝ :=
  fun a b => if (a = i ∧ b = j) ∨ (a = j ∧ b = i) then 1 else 0

/-- `first_derivative_h_version2(D, K, delta)`, regain/bayesian/_laplace_approximation.py:48-55. -/
noncomputable def laplaceH1v2 (D K : Matrix (Fin p) (Fin p) ℝ) (delta : ℝ) : Matrix (Fin p) (Fin p) ℝ :=
  fun i j => -(trace ((D - (delta - 2) • K⁻¹) * onesAt i j)) / 2

/-- Outcome of a score computation. -/
inductive GWOutcome where
  | valueError
  | score (s : ℝ)

/-- `GWishartScore(X, G, d0, S0=None, score_method="bic")`, regain/bayesian/gwishart_inference.py:323-347: the
default scale is built from `np.cov(X, bias=True)`, whose rows are the variables, so it has one row per
sample; `GWishartFit` (177-178) raises unless it is `p x p`. `fit` is the precision found by the optimiser. -/
noncomputable def gwScoreDefault {n : ℕ} (X : Matrix (Fin n) (Fin p) ℝ) (G : Fin p → Fin p → Bool)
    (fit : Matrix (Fin p) (Fin p) ℝ) : GWOutcome :=
  if n ≠ p then .valueError else .score (bicScore X G fit)

/-- `sorted(res, key=score)[::-1][:top_n]` of `bayesian_graphical_lasso`,
regain/bayesian/gwishart_inference.py:394; a result is the pair of its score and its precision. -/
noncomputable def topResults (res : List (ℝ × Matrix (Fin p) (Fin p) ℝ)) (topN : ℕ) :
    List (ℝ × Matrix (Fin p) (Fin p) ℝ) :=
  open Classical in (res.mergeSort fun a b => decide (a.1 ≤ b.1)).reverse.take topN

/-- The returned value `np.mean(top_n, axis=0)`, regain/bayesian/gwishart_inference.py:394-395; `none` for the
mean of nothing, which is nan. -/
noncomputable def topMean (res : List (ℝ × Matrix (Fin p) (Fin p) ℝ)) (topN : ℕ) :
    Option (Matrix (Fin p) (Fin p) ℝ) :=
  let top := (topResults res topN).map Prod.snd
  if top.length = 0 then none else some ((1 / (top.length : ℝ)) • top.sum)

end Verif.Model
