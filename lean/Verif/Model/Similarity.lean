import Verif.Model.FB
import Verif.Model.Prox
import Verif.Model.XFloat
import Mathlib.Analysis.SpecialFunctions.Exp
import Mathlib.Analysis.Real.Sqrt
import Mathlib.Data.Finset.Max

/-! Model of the similarity estimators: `precision_similarity` of the Gaussian and of the Ising module, and the
external loops of `SimilarityTimeGraphicalLasso` and `SimilarityTemporalIsingModel`. -/

namespace Verif.Model

open Matrix

set_option autoImplicit false

variable {p T : ℕ}

/-- `np.fill_diagonal(kernel[m:], dist)`: writes `dist[c]` in row `m + c`, column `c`. -/
def fillBelow (m : ℕ) (dist : ℕ → ℝ) (kernel : Fin T → Fin T → ℝ) : Fin T → Fin T → ℝ :=
  fun r c => if r.val = m + c.val then dist c else kernel r c

/-- `np.fill_diagonal(kernel[:, m:], dist)`: writes `dist[r]` in row `r`, column `m + r`. -/
def fillAbove (m : ℕ) (dist : ℕ → ℝ) (kernel : Fin T → Fin T → ℝ) : Fin T → Fin T → ℝ :=
  fun r c => if c.val = m + r.val then dist r else kernel r c

/-- `dist = list(map(psi, K[m:] - K[:-m]))`, regain/covariance/kernel_time_graphical_lasso_.py:354: entry `i` compares
the networks `m + i` and `i` (0 outside the list, where nothing is read). -/
noncomputable def jumps (psi : Matrix (Fin p) (Fin p) ℝ → ℝ) (K : Fin T → Matrix (Fin p) (Fin p) ℝ) (m : ℕ) : ℕ → ℝ :=
  fun i => if h : m + i < T then psi (K ⟨m + i, h⟩ - K ⟨i, by omega⟩) else 0

/-- The loop of `precision_similarity`, regain/covariance/kernel_time_graphical_lasso_.py:351-356. -/
noncomputable def distanceTable (psi : Matrix (Fin p) (Fin p) ℝ → ℝ) (K : Fin T → Matrix (Fin p) (Fin p) ℝ) :
    Fin T → Fin T → ℝ :=
  (List.range' 1 (T - 1)).foldl
    (fun kernel m => fillAbove m (jumps psi K m) (fillBelow m (jumps psi K m) kernel)) fun _ _ => 0

/-- `np.max(a)` of a square table with at least one row. -/
noncomputable def tableMax [NeZero T] (a : Fin T → Fin T → ℝ) : ℝ :=
  Finset.univ.sup' Finset.univ_nonempty fun rc : Fin T × Fin T => a rc.1 rc.2

/-- `np.min(a)` of a square table with at least one row. -/
noncomputable def tableMin [NeZero T] (a : Fin T → Fin T → ℝ) : ℝ :=
  Finset.univ.inf' Finset.univ_nonempty fun rc : Fin T × Fin T => a rc.1 rc.2

/-- `precision_similarity(K, psi)`, regain/covariance/kernel_time_graphical_lasso_.py:349-362; the division follows
IEEE rules. -/
noncomputable def precisionSimilarity [NeZero T] (psi : Matrix (Fin p) (Fin p) ℝ → ℝ)
    (K : Fin T → Matrix (Fin p) (Fin p) ℝ) : Fin T → Fin T → XF :=
  let k1 := distanceTable psi K
  let k2 : Fin T → Fin T → ℝ := fun r c => k1 r c - tableMin k1
  fun r c => XF.sub (.fin 1) (XF.div (.fin (k2 r c)) (.fin (tableMax k2)))

/-- `precision_similarity(precision, psi=None)` of the Ising module, regain/generalized_linear_model/
glm_time_ising.py:567-576: `squareform` puts the value of the pair `i < j` in both triangles and 0 on the diagonal (a
single network gives the table `[[0]]`). The argument `psi` is not read. -/
noncomputable def precisionSimilarityIsing [NeZero T] (_psi : Matrix (Fin p) (Fin p) ℝ → ℝ)
    (K : Fin T → Matrix (Fin p) (Fin p) ℝ) : Fin T → Fin T → XF :=
  let d : Fin T → Fin T → ℝ := fun r c =>
    if r < c then l1OdNorm (K r - K c) else if c < r then l1OdNorm (K c - K r) else 0
  fun r c => XF.sub (.fin 1) (XF.div (.fin (d r c)) (.fin (tableMax d)))

open Classical in
/-- `AgglomerativeClustering(n_clusters, affinity="precomputed", linkage="complete").fit_predict(kernel)`,
regain/covariance/kernel_time_graphical_lasso_.py:722-726 and glm_time_ising.py:724-728. scikit-learn rejects a table
with a single row and a table with nan or infinite entries (ValueError); on the others the linkage `link` decides. -/
noncomputable def agglomerate (link : (Fin T → Fin T → ℝ) → Fin T → ℕ) (a : Fin T → Fin T → XF) :
    Except PyErr (Fin T → ℕ) :=
  if h : 2 ≤ T ∧ ∃ b : Fin T → Fin T → ℝ, ∀ r c, a r c = .fin (b r c) then .ok (link h.2.choose) else .error .value

/-- `kernels.RBF(length)(x[:, None])`: `exp(-d²/2)` with `d` the distance of the scaled points. -/
noncomputable def rbfKernel (length : ℝ) (x : Fin T → ℝ) : Fin T → Fin T → ℝ :=
  fun r c => Real.exp (-(1 / 2) * (x r / length - x c / length) ^ 2)

/-- `kernels.RBF(0.0001)(labels_pred[:, None]) + kernels.RBF(self.beta)(np.arange(n_times)[:, None])`,
regain/covariance/kernel_time_graphical_lasso_.py:733-735 and glm_time_ising.py:736-738. -/
noncomputable def clusterKernel (beta : ℝ) (labels : Fin T → ℕ) : Fin T → Fin T → ℝ :=
  fun r c => rbfKernel 0.0001 (fun t => (labels t : ℝ)) r c + rbfKernel beta (fun t => ((t : ℕ) : ℝ)) r c

/-- `np.linalg.norm(labels_pred - labels_pred_old) / labels_pred.size`. -/
noncomputable def labelChange (new old : Fin T → ℕ) : ℝ :=
  Real.sqrt (∑ t, ((new t : ℝ) - (old t : ℝ)) ^ 2) / T

/-- A finite table seen as floats. -/
def toXF (a : Fin T → Fin T → ℝ) : Fin T → Fin T → XF := fun r c => .fin (a r c)

/-- What the external loop leaves: the networks, the table bound to `kernel`, and whether it ended by `break`. -/
structure SimOut (p T : ℕ) where
  precision : Fin T → Matrix (Fin p) (Fin p) ℝ
  similarity : Fin T → Fin T → XF
  converged : Bool

open Classical in
/-- The external loop of `SimilarityTimeGraphicalLasso._fit`, regain/covariance/kernel_time_graphical_lasso_.py:703-776,
from round `i` with `fuel` rounds left. `solve kernel init` stands for the networks returned by
`kernel_time_graphical_lasso(emp_cov, kernel=kernel, init=init, ...)`; its other outputs and the warning of the `else`
branch are left out. `old` is `labels_pred_old` (`None` only in round 0, where it is not read). -/
noncomputable def simTGLLoop [NeZero T] (psi : Matrix (Fin p) (Fin p) ℝ → ℝ)
    (link : (Fin T → Fin T → ℝ) → Fin T → ℕ)
    (solve : (Fin T → Fin T → ℝ) → (Fin T → Matrix (Fin p) (Fin p) ℝ) → Fin T → Matrix (Fin p) (Fin p) ℝ)
    (beta eps : ℝ) : ℕ → ℕ → (Fin T → Matrix (Fin p) (Fin p) ℝ) → (Fin T → Fin T → XF) → Option (Fin T → ℕ) →
      Except PyErr (SimOut p T)
  | 0, _, K, kernel, _ => .ok ⟨K, kernel, false⟩
  | fuel + 1, i, K, _, old =>
      let theta := precisionSimilarity psi K
      match agglomerate link theta with
      | .error e => .error e
      | .ok labels =>
          if i > 0 ∧ ∃ o, old = some o ∧ labelChange labels o < eps then .ok ⟨K, theta, true⟩
          else
            let kernel := clusterKernel beta labels
            simTGLLoop psi link solve beta eps fuel (i + 1) (solve kernel K) (toXF kernel) (some labels)

open Classical in
/-- The external loop of `SimilarityTemporalIsingModel.fit`, regain/generalized_linear_model/glm_time_ising.py:705-744:
the fit comes first, with the kernel of the previous round (the networks of the previous round are not used). -/
noncomputable def simIsingLoop [NeZero T] (psi : Matrix (Fin p) (Fin p) ℝ → ℝ)
    (link : (Fin T → Fin T → ℝ) → Fin T → ℕ)
    (solve : (Fin T → Fin T → ℝ) → Fin T → Matrix (Fin p) (Fin p) ℝ)
    (beta eps : ℝ) : ℕ → ℕ → (Fin T → Matrix (Fin p) (Fin p) ℝ) → (Fin T → Fin T → ℝ) → Option (Fin T → ℕ) →
      Except PyErr (SimOut p T)
  | 0, _, K, kernel, _ => .ok ⟨K, toXF kernel, false⟩
  | fuel + 1, i, _, kernel, old =>
      let K := solve kernel
      let theta := precisionSimilarityIsing psi K
      match agglomerate link theta with
      | .error e => .error e
      | .ok labels =>
          if i > 0 ∧ ∃ o, old = some o ∧ labelChange labels o < eps then .ok ⟨K, theta, true⟩
          else simIsingLoop psi link solve beta eps fuel (i + 1) K (clusterKernel beta labels) (some labels)

/-- `np.eye(n_times)`. -/
def eyeTable (T : ℕ) : Fin T → Fin T → ℝ := fun r c => if r = c then 1 else 0

/-- The attributes of a fitted `SimilarityTimeGraphicalLasso` read here: `similarity_matrix_` may be missing. -/
structure SimFitted (p T : ℕ) where
  precision : Fin T → Matrix (Fin p) (Fin p) ℝ
  similarityMatrix : Option (Fin T → Fin T → XF)

/-- `SimilarityTimeGraphicalLasso._fit`, regain/covariance/kernel_time_graphical_lasso_.py:688-812. `init` is the value
of `init_precision(emp_cov, mode=self.init)`; `classes` the number of distinct time stamps; a given kernel is a table with
its number of rows. A failed size check raises ValueError. The branch with a kernel does not bind `similarity_matrix_`. -/
noncomputable def similarityTGLFit [NeZero T] (psi : Matrix (Fin p) (Fin p) ℝ → ℝ)
    (link : (Fin T → Fin T → ℝ) → Fin T → ℕ)
    (solve : (Fin T → Fin T → ℝ) → (Fin T → Matrix (Fin p) (Fin p) ℝ) → Fin T → Matrix (Fin p) (Fin p) ℝ)
    (beta eps : ℝ) (maxIterExt : ℕ) (init : Fin T → Matrix (Fin p) (Fin p) ℝ)
    (kernel : Option (Σ k : ℕ, Fin k → Fin k → ℝ)) : Except PyErr (SimFitted p T) :=
  match kernel with
  | none =>
      match simTGLLoop psi link solve beta eps maxIterExt 0 init (toXF (eyeTable T)) none with
      | .error e => .error e
      | .ok out => .ok ⟨out.precision, some out.similarity⟩
  | some ⟨k, a⟩ =>
      if h : k = T then .ok ⟨solve (fun r c => a (Fin.cast h.symm r) (Fin.cast h.symm c)) init, none⟩
      else .error .value

/-- `transform(X)`, regain/covariance/kernel_time_graphical_lasso_.py:816-820 (the same text in
glm_time_ising.py:782-786): `check_is_fitted` raises NotFittedError (`none`) when the attribute is missing. -/
def similarityTransform (f : SimFitted p T) : Option (Fin T → Fin T → XF) := f.similarityMatrix

end Verif.Model
