import Verif.Model.TGL
import Mathlib.Data.Matrix.ColumnRowPartitioned

/-! Model of the node penalty: `prox_node_penalty` (regain/prox.py:167-239), `node_penalty`
(regain/norm.py:58-78) and the branch of `time_graphical_lasso` that uses it
(regain/covariance/time_graphical_lasso_.py:213-221). -/

namespace Verif.Model

open Matrix

set_option autoImplicit false

/-- The finite part of a float. -/
def xfVal : XF → ℝ
  | .fin r => r
  | _ => 0

/-- The float is a finite number. -/
def XFFinite (x : XF) : Prop := ∃ r, x = .fin r

/-- Arguments of `prox_node_penalty`, regain/prox.py:167. `A1 p` and `A2 p` are the two halves of
`A_12[p]` (the caller concatenates them, regain/covariance/time_graphical_lasso_.py:215). -/
structure NodeArgs (k n : ℕ) where
  A1 : Batch k (Fin n)
  A2 : Batch k (Fin n)
  lam : ℝ
  tol : ℝ := 1 / 10000
  rtol : ℝ := 1 / 100

/-- Local variables at the top of the loop, regain/prox.py:174-185. `V_old` and `W_old` are the
values of `V` and `W` before the pass (both start at zero, lines 182-185, 225-226). -/
structure NodeState (k n : ℕ) where
  V : Batch k (Fin n)
  W : Batch k (Fin n)
  Y1 : Batch k (Fin n)
  Y2 : Batch k (Fin n)
  U1 : Batch k (Fin n)
  U2 : Batch k (Fin n)
  rho : ℝ

/-- State before the loop, regain/prox.py:174-185: `U_1`, `U_2`, `Y_1`, `Y_2` are filled with
`1 / n_dim`. -/
noncomputable def nodeInit (k n : ℕ) (rho : ℝ) : NodeState k n :=
  let full : Batch k (Fin n) := fun _ _ _ => 1 / (n : ℝ)
  ⟨0, 0, full, full, full, full, rho⟩

/-- `C = np.hstack((I, -I, I))`, regain/prox.py:179. -/
def nodeC (n : ℕ) : Matrix (Fin n) (Fin n ⊕ (Fin n ⊕ Fin n)) ℝ := fromCols 1 (fromCols (-1) 1)

/-- `inverse = np.linalg.inv(C.T.dot(C) + 2 * np.eye(3 * n_dim))`, regain/prox.py:180. -/
noncomputable def nodeInverse (n : ℕ) :
    Matrix (Fin n ⊕ (Fin n ⊕ Fin n)) (Fin n ⊕ (Fin n ⊕ Fin n)) ℝ :=
  ((nodeC n)ᵀ * nodeC n + (2 : ℝ) • 1)⁻¹

/-- The matrix handed to the thresholding, regain/prox.py:188-190:
`(Y_1 - Y_2 - W - U_1 + (W.T - U_2).T) / 2`. -/
noncomputable def nodeA {k n : ℕ} (s : NodeState k n) (p : Fin k) : Matrix (Fin n) (Fin n) ℝ :=
  (1 / 2 : ℝ) • (s.Y1 p - s.Y2 p - s.W p - s.U1 p + ((s.W p)ᵀ - s.U2 p)ᵀ)

open Classical in
/-- `V = blockwise_soft_thresholding_symmetric(A, lamda)`, regain/prox.py:191. `none`: one of the
entries is not a finite number. -/
noncomputable def nodeV {k n : ℕ} (lam : ℝ) (s : NodeState k n) : Option (Batch k (Fin n)) :=
  if ∀ p i j, XFFinite (blockwiseSoftThresholdingSymmetric (nodeA s p) lam i j) then
    some fun p i j => xfVal (blockwiseSoftThresholdingSymmetric (nodeA s p) lam i j)
  else none

/-- `Z[i]`, regain/prox.py:193-199. -/
noncomputable def nodeZ {n : ℕ} (V U1 U2 A1 A2 : Matrix (Fin n) (Fin n) ℝ) :
    Matrix (Fin n ⊕ (Fin n ⊕ Fin n)) (Fin n) ℝ :=
  nodeInverse n * ((2 : ℝ) • fromRows ((V + U2)ᵀ) (fromRows A1 A2) - (nodeC n)ᵀ * (V + U1))

/-- The updates of one pass, regain/prox.py:193-205, given `V`. -/
noncomputable def nodeNext {k n : ℕ} (a : NodeArgs k n) (s : NodeState k n) (V : Batch k (Fin n)) :
    NodeState k n :=
  let Z := fun p => nodeZ (V p) (s.U1 p) (s.U2 p) (a.A1 p) (a.A2 p)
  let W : Batch k (Fin n) := fun p => (Z p).toRows₁
  let Y1 : Batch k (Fin n) := fun p => (Z p).toRows₂.toRows₁
  let Y2 : Batch k (Fin n) := fun p => (Z p).toRows₂.toRows₂
  { V := V, W := W, Y1 := Y1, Y2 := Y2
    U1 := fun p => s.U1 p + (V p + W p - (Y1 p - Y2 p))
    U2 := fun p => s.U2 p + (V p - (W p)ᵀ)
    rho := s.rho }

/-- The `Convergence` record of a pass, regain/prox.py:208-224 (`obj` is NaN). -/
structure NodeCheck where
  rnorm : ℝ
  snorm : ℝ
  ePri : ℝ
  eDual : ℝ

/-- The diagnostics of a pass, regain/prox.py:208-224; `s` is the state before, `s'` the one after
the updates. -/
noncomputable def nodeDiagnose {k n : ℕ} (a : NodeArgs k n) (s s' : NodeState k n) : NodeCheck :=
  let size : ℝ := k * (n * n)
  { rnorm := Real.sqrt (batchSq (fun p => s'.V p + s'.W p - (s'.Y1 p - s'.Y2 p))
      + batchSq (fun p => s'.V p - (s'.W p)ᵀ))
    snorm := s.rho * Real.sqrt (batchSq (fun p => s'.W p - s.W p)
      + batchSq (fun p => s'.V p + s'.W p - s.V p - s.W p))
    ePri := Real.sqrt (2 * size) * a.tol
      + a.rtol * max (Real.sqrt (batchSq s'.W + batchSq (fun p => s'.V p + s'.W p)))
        (Real.sqrt (batchSq s'.V + batchSq (fun p => s'.Y1 p - s'.Y2 p)))
    eDual := Real.sqrt (2 * size) * a.tol
      + a.rtol * s.rho * Real.sqrt (batchSq s'.U1 + batchSq s'.U2) }

/-- Penalty change with the rescaling of the duals, regain/prox.py:232-236. The threshold `lamda` and
`inverse` stay as they are. -/
noncomputable def nodeRescale {k n : ℕ} (rhoNew : ℝ) (s : NodeState k n) : NodeState k n :=
  { s with
    U1 := fun p => (s.rho / rhoNew) • s.U1 p
    U2 := fun p => (s.rho / rhoNew) • s.U2 p
    rho := rhoNew }

open Classical in
/-- One pass through the loop, regain/prox.py:187-236. The state `none` stands for arrays that
contain NaN: then the residuals are NaN, every comparison with them is false, the loop goes on and
`update_rho` returns the penalty unchanged. -/
noncomputable def nodeBody {k n : ℕ} (a : NodeArgs k n) (_it : ℕ) (o : Option (NodeState k n)) :
    Option (NodeState k n) × Option NodeCheck × Bool :=
  match o with
  | none => (none, none, false)
  | some s =>
    match nodeV a.lam s with
    | none => (none, none, false)
    | some V =>
      let s' := nodeNext a s V
      let c := nodeDiagnose a s s'
      if c.rnorm ≤ c.ePri ∧ c.snorm ≤ c.eDual then (some s', some c, true)
      else (some (nodeRescale (updateRho {} s.rho c.rnorm c.snorm) s'), some c, false)

/-- `prox_node_penalty(A_12, lamda, rho, tol, rtol, max_iter)`, regain/prox.py:167-239: the pair
`(Y_1, Y_2)`, `none` when it contains NaN. The warning of the `else` clause is not part of the
value. -/
noncomputable def proxNodePenalty {k n : ℕ} (a : NodeArgs k n) (rho : ℝ) (maxIter : ℕ) :
    Option (Batch k (Fin n) × Batch k (Fin n)) :=
  (runLoop (nodeBody a) maxIter (some (nodeInit k n rho))).state.map fun s => (s.Y1, s.Y2)

/-- The call of the time-varying solver, regain/covariance/time_graphical_lasso_.py:213-221:
`lamda=0.5 * beta / rho, rho=rho, tol=tol, rtol=rtol, max_iter=max_iter`. -/
noncomputable def nodeCall {k n : ℕ} (A1 A2 : Batch k (Fin n)) (beta rho tol rtol : ℝ)
    (maxIter : ℕ) : Option (Batch k (Fin n) × Batch k (Fin n)) :=
  proxNodePenalty ⟨A1, A2, 1 / 2 * beta / rho, tol, rtol⟩ rho maxIter

/-- The constraint of `node_penalty`, regain/norm.py:60-69: the single number
`(x.reshape(X.shape) + x.reshape(X.shape).T - X).sum()` is zero. -/
def NodeConstraint {n : ℕ} (X V : Matrix (Fin n) (Fin n) ℝ) : Prop :=
  ∑ i, ∑ j, (V + Vᵀ - X) i j = 0

/-- The objective of `node_penalty`, regain/norm.py:72: `np.linalg.norm(x.reshape(X.shape), axis=0)`
summed. -/
noncomputable def nodeCost {n : ℕ} (V : Matrix (Fin n) (Fin n) ℝ) : ℝ :=
  ∑ j, Real.sqrt (∑ i, V i j ^ 2)

end Verif.Model
