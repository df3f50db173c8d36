import Verif.Model.FB
import Verif.Model.Loop

/-! Model of `regain/linear_model/lasso_.py`, `regain/linear_model/group_lasso_.py` and of the solver and
helpers of `regain/linear_model/group_lasso_overlap_.py`. Arrays are functions on `Fin`. -/

namespace Verif.Model

open Matrix

set_option autoImplicit false

/-! ### External linear algebra -/

/-- The numpy routines used by the solvers. -/
structure LinAlg where
  /-- `np.linalg.cholesky` on square matrices. -/
  chol : (k : ℕ) → Matrix (Fin k) (Fin k) ℝ → Matrix (Fin k) (Fin k) ℝ
  /-- `np.linalg.lstsq(M, q)[0]` for square `M`. -/
  lstsq : (k : ℕ) → Matrix (Fin k) (Fin k) ℝ → (Fin k → ℝ) → Fin k → ℝ

/-- Contract: a Cholesky factor of a positive definite matrix, and a solution of the least squares
normal equations. -/
structure LinAlg.Ok (la : LinAlg) : Prop where
  chol_spec : ∀ k M, M.PosDef → la.chol k M * (la.chol k M)ᵀ = M
  lstsq_spec : ∀ k M q, Mᵀ *ᵥ (M *ᵥ la.lstsq k M q) = Mᵀ *ᵥ q

/-! ### lasso -/

/-- Arguments of `lasso` (regain/linear_model/lasso_.py:41). -/
structure LassoArgs (m p : ℕ) where
  A : Matrix (Fin m) (Fin p) ℝ
  b : Fin m → ℝ
  lamda : ℝ
  rho : ℝ
  alpha : ℝ
  maxIter : ℕ
  tol : ℝ
  rtol : ℝ
  returnHistory : Bool

variable {m p : ℕ}

/-- First factor returned by `lu_factor(A, rho)` when there are at least as many samples as features
(regain/linear_model/lasso_.py:127-129); the second is its transpose (line 132-133). -/
noncomputable def luSkinny (la : LinAlg) (A : Matrix (Fin m) (Fin p) ℝ) (rho : ℝ) :
    Matrix (Fin p) (Fin p) ℝ :=
  la.chol p (Aᵀ * A + rho • (1 : Matrix (Fin p) (Fin p) ℝ))

/-- First factor returned by `lu_factor(A, rho)` otherwise (regain/linear_model/lasso_.py:130-131). -/
noncomputable def luFat (la : LinAlg) (A : Matrix (Fin m) (Fin p) ℝ) (rho : ℝ) :
    Matrix (Fin m) (Fin m) ℝ :=
  la.chol m (1 + (1 / rho) • (A * Aᵀ))

/-- The x-update for the right hand side `q` (regain/linear_model/lasso_.py:90-95,
regain/linear_model/group_lasso_.py:107-112). -/
noncomputable def xUpdate (la : LinAlg) (A : Matrix (Fin m) (Fin p) ℝ) (rho : ℝ) (q : Fin p → ℝ) :
    Fin p → ℝ :=
  if p ≤ m then
    la.lstsq p (luSkinny la A rho)ᵀ (la.lstsq p (luSkinny la A rho) q)
  else
    (1 / rho) • (q - (1 / rho) •
      (Aᵀ *ᵥ la.lstsq m (luFat la A rho)ᵀ (la.lstsq m (luFat la A rho) (A *ᵥ q))))

/-- Loop variables of `lasso` and `group_lasso`. -/
structure LassoState (p : ℕ) where
  x : Fin p → ℝ
  z : Fin p → ℝ
  u : Fin p → ℝ

/-- One entry `history` (regain/linear_model/lasso_.py:106-112). -/
structure LassoHist where
  obj : ℝ
  rnorm : ℝ
  snorm : ℝ
  ePri : ℝ
  eDual : ℝ

/-- `objective(A, b, alpha, x, z)`, regain/linear_model/lasso_.py:121-122. -/
noncomputable def lassoObjective (A : Matrix (Fin m) (Fin p) ℝ) (b : Fin m → ℝ) (alpha : ℝ)
    (x z : Fin p → ℝ) : ℝ :=
  1 / 2 * (∑ i, ((A *ᵥ x) i - b i) ^ 2) + alpha * ∑ j, |z j|

/-- The break test (regain/linear_model/lasso_.py:115, regain/linear_model/group_lasso_.py:131). -/
noncomputable def lassoStop (h : LassoHist) : Bool :=
  open Classical in decide (h.rnorm < h.ePri ∧ h.snorm < h.eDual)

/-- Loop body of `lasso` (regain/linear_model/lasso_.py:88-116). `zold = z` keeps the old array because
`z` is rebound, not overwritten. -/
noncomputable def lassoStep (la : LinAlg) (a : LassoArgs m p) (_ : ℕ) (s : LassoState p) :
    LassoState p × LassoHist × Bool :=
  let x := xUpdate la a.A a.rho (a.Aᵀ *ᵥ a.b + a.rho • (s.z - s.u))
  let zold := s.z
  let xHat := a.alpha • x + (1 - a.alpha) • zold
  let z := softThresholding (xHat + s.u) (a.lamda / a.rho)
  let u := s.u + (xHat - z)
  let h : LassoHist :=
    { obj := lassoObjective a.A a.b a.lamda x z
      rnorm := npNorm (x - z)
      snorm := npNorm ((-a.rho) • (z - zold))
      ePri := Real.sqrt p * a.tol + a.rtol * max (npNorm x) (npNorm (-z))
      eDual := Real.sqrt p * a.tol + a.rtol * npNorm (a.rho • u) }
  (⟨x, z, u⟩, h, lassoStop h)

/-- Python values returned by the linear model solvers. -/
inductive LassoOut (p : ℕ) where
  | arr (v : Fin p → ℝ)
  | hist (h : LassoHist)
  | histList (l : List LassoHist)
  | tuple (a b : LassoOut p)

/-- The initial state (regain/linear_model/lasso_.py:80-82). -/
def lassoInit (p : ℕ) : LassoState p := ⟨0, 0, 0⟩

/-- `lasso(A, b, ...)`, regain/linear_model/lasso_.py:41-118. The last line
`return z, history if return_history else z` parses as a pair; `history` is the last entry only, and
unbound (NameError) when the loop body never ran. -/
noncomputable def lasso (la : LinAlg) (a : LassoArgs m p) : Except PyErr (LassoOut p) :=
  let r := runLoop (lassoStep la a) a.maxIter (lassoInit p)
  if a.returnHistory then
    match r.checks.getLast? with
    | none => .error .name
    | some h => .ok (.tuple (.arr r.state.z) (.hist h))
  else .ok (.tuple (.arr r.state.z) (.arr r.state.z))

/-! ### group_lasso -/

/-- `flatten(groups)` on a list of lists of indices, regain/utils.py:252-258. -/
def flattenGroups (groups : List (List ℕ)) : List ℕ := groups.flatten

/-- `np.isclose(a, b)` on non-negative integers with the default tolerances,
`|a - b| <= 1e-8 + 1e-5 |b|`, scaled by `1e8`. -/
def isCloseNat (a b : ℕ) : Bool := decide (|(a : ℤ) - b| * 100000000 ≤ 1 + 1000 * (b : ℤ))

/-- `np.allclose(l, np.arange(n))` with numpy broadcasting: equal lengths are compared entry by entry,
length one is stretched, anything else raises ValueError. -/
def allCloseArange (l : List ℕ) (n : ℕ) : Except PyErr Bool :=
  if l.length = n then .ok ((l.zip (List.range n)).all fun q => isCloseNat q.1 q.2)
  else if l.length = 1 then .ok ((List.range n).all fun j => isCloseNat (l.headD 0) j)
  else if n = 1 then .ok (l.all fun j => isCloseNat j 0)
  else .error .value

/-- The guard of `group_lasso` (regain/linear_model/group_lasso_.py:86-90). With the default
`groups=None`, `flatten` gives `[None]` and numpy raises TypeError. -/
def groupGuard (groups : Option (List (List ℕ))) (n : ℕ) : Except PyErr (List (List ℕ)) :=
  match groups with
  | none => .error .type
  | some g =>
      match allCloseArange (flattenGroups g) n with
      | .error e => .error e
      | .ok true => .ok g
      | .ok false => .error .value

/-- `for group in groups: z[group] = soft_thresholding(x_hat[group] + u[group], lamda / rho)`
(regain/linear_model/group_lasso_.py:117-118). -/
noncomputable def groupAssign (groups : List (List ℕ)) (xHat u z : Fin p → ℝ) (thr : ℝ) : Fin p → ℝ :=
  groups.foldl (fun z g => fun i => if i.val ∈ g then softScalar (xHat i + u i) thr else z i) z

/-- `objective(A, b, alpha, groups, x, z)`, regain/linear_model/group_lasso_.py:138-141. -/
noncomputable def groupObjective (A : Matrix (Fin m) (Fin p) ℝ) (b : Fin m → ℝ) (alpha : ℝ)
    (groups : List (List ℕ)) (x z : Fin p → ℝ) : ℝ :=
  1 / 2 * (∑ i, ((A *ᵥ x) i - b i) ^ 2) +
    alpha * (groups.map fun g => Real.sqrt ((g.map fun i =>
      if h : i < p then z ⟨i, h⟩ ^ 2 else 0).sum)).sum

/-- Loop body of `group_lasso` (regain/linear_model/group_lasso_.py:104-132). `zold` is the same array
object as `z`, which is overwritten in place, so in the diagnostics `zold` is the new `z`. -/
noncomputable def groupLassoStep (la : LinAlg) (a : LassoArgs m p) (groups : List (List ℕ)) (_ : ℕ)
    (s : LassoState p) : LassoState p × LassoHist × Bool :=
  let x := xUpdate la a.A a.rho (a.Aᵀ *ᵥ a.b + a.rho • (s.z - s.u))
  let xHat := a.alpha • x + (1 - a.alpha) • s.z
  let z := groupAssign groups xHat s.u s.z (a.lamda / a.rho)
  let zold := z
  let u := s.u + (xHat - z)
  let h : LassoHist :=
    { obj := groupObjective a.A a.b a.lamda groups x z
      rnorm := npNorm (x - z)
      snorm := npNorm ((-a.rho) • (z - zold))
      ePri := Real.sqrt p * a.tol + a.rtol * max (npNorm x) (npNorm (-z))
      eDual := Real.sqrt p * a.tol + a.rtol * npNorm (a.rho • u) }
  (⟨x, z, u⟩, h, lassoStop h)

/-- `group_lasso(A, b, ...)`, regain/linear_model/group_lasso_.py:43-135. Out of range indices raise
IndexError at the first use of a group, so only if the loop body runs. -/
noncomputable def groupLasso (la : LinAlg) (a : LassoArgs m p) (groups : Option (List (List ℕ))) :
    Except PyErr (LassoOut p) :=
  match groupGuard groups p with
  | .error e => .error e
  | .ok g =>
      if 0 < a.maxIter ∧ ¬ (flattenGroups g).all (fun i => decide (i < p)) then .error .index
      else
        let r := runLoop (groupLassoStep la a g) a.maxIter (lassoInit p)
        if a.returnHistory then .ok (.tuple (.arr r.state.z) (.histList r.checks))
        else .ok (.tuple (.arr r.state.z) (.arr r.state.z))

/-! ### group_lasso_overlap -/

/-- `D_function(d, groups)`, regain/linear_model/group_lasso_overlap_.py:65-72. -/
def dFunction (groups : List (List ℕ)) (dim : ℕ) : ℕ :=
  groups.foldl (fun D g => if dim ∈ g then D + 1 else D) 0

/-- `P_star_x_bar_function(x, d, groups)`, regain/linear_model/group_lasso_overlap_.py:75-88. `x g j` is
entry `j` of the local array of group `g` (the arrays have the lengths of the groups, entries beyond are
never used); `np.argwhere(np.array(group) == dim)[0]` is the first position of `dim`. -/
noncomputable def pStar (groups : List (List ℕ)) (x : ℕ → ℕ → ℝ) (dim : ℕ) : ℝ :=
  let r := groups.zipIdx.foldl (fun acc gk =>
    if dim ∈ gk.1 then (acc.1 + x gk.2 (gk.1.idxOf dim), acc.2 + 1) else acc) ((0 : ℝ), (0 : ℕ))
  if 0 < r.2 then r.1 / r.2 else r.1

/-- Loop variables of `group_lasso_overlap`. -/
structure OverlapState (p : ℕ) where
  x : ℕ → ℕ → ℝ
  z : Fin p → ℝ
  y : ℕ → ℕ → ℝ

/-- `z[g][j]`, the entry of `z` selected by position `j` of group `g`. -/
def zGroup (groups : List (List ℕ)) (z : Fin p → ℝ) (g j : ℕ) : ℝ :=
  let i := (groups.getD g []).getD j 0
  if h : i < p then z ⟨i, h⟩ else 0

/-- The updates of one iteration of `group_lasso_overlap`
(regain/linear_model/group_lasso_overlap_.py:141-156); `inv` stands for the result of `np.linalg.inv` on
`A.T.dot(A) + rho * D` (line 137). The x-update uses the previous local copies and not `z`. Groups are
assumed to list indices below `n_features` (the code raises IndexError otherwise). -/
noncomputable def overlapUpdate (A : Matrix (Fin m) (Fin p) ℝ) (b : Fin m → ℝ) (lamda rho : ℝ)
    (groups : List (List ℕ)) (inv : Matrix (Fin p) (Fin p) ℝ) (s : OverlapState p) : OverlapState p :=
  let x := fun g j => softScalar (s.x g j - s.y g j / rho) (lamda / rho)
  let xCons : Fin p → ℝ := fun i => pStar groups x i
  let yCons : Fin p → ℝ := fun i => pStar groups s.y i
  let z := inv *ᵥ (Aᵀ *ᵥ b +
    Matrix.diagonal (fun i : Fin p => (dFunction groups i : ℝ)) *ᵥ (yCons + rho • xCons))
  let y := fun g j => s.y g j + rho * (x g j - zGroup groups z g j)
  ⟨x, z, y⟩

/-! The solver `group_lasso_overlap` -/

/-- Arguments of `group_lasso_overlap` (regain/linear_model/group_lasso_overlap_.py:91). -/
structure OverlapArgs (m p : ℕ) where
  A : Matrix (Fin m) (Fin p) ℝ
  b : Fin m → ℝ
  lamda : ℝ
  groups : List (List ℕ)
  rho : ℝ
  maxIter : ℕ
  tol : ℝ
  rtol : ℝ

/-- `np.linalg.norm(x)` for the list of the local copies: the root of the sum of all squares
(regain/linear_model/group_lasso_overlap_.py:564). -/
noncomputable def copiesNorm (groups : List (List ℕ)) (x : ℕ → ℕ → ℝ) : ℝ :=
  Real.sqrt (∑ g ∈ Finset.range groups.length, ∑ j ∈ Finset.range (groups.getD g []).length, x g j ^ 2)

/-- `objective(A, b, alpha, x, z)`, regain/linear_model/group_lasso_overlap_.py:562-564. -/
noncomputable def overlapObjective (A : Matrix (Fin m) (Fin p) ℝ) (b : Fin m → ℝ) (alpha : ℝ)
    (groups : List (List ℕ)) (x : ℕ → ℕ → ℝ) (z : Fin p → ℝ) : ℝ :=
  1 / 2 * (∑ i, ((A *ᵥ z) i - b i) ^ 2) + alpha * copiesNorm groups x

/-- One pass of the loop with its entry of `hist` and the counter of good passes
(regain/linear_model/group_lasso_overlap_.py:141-178). -/
noncomputable def overlapBody (a : OverlapArgs m p) (inv : Matrix (Fin p) (Fin p) ℝ) (_ : ℕ)
    (s : OverlapState p × ℕ) : (OverlapState p × ℕ) × LassoHist × Bool :=
  let s' := overlapUpdate a.A a.b a.lamda a.rho a.groups inv s.1
  let xCons : Fin p → ℝ := fun i => pStar a.groups s'.x i
  let yCons : Fin p → ℝ := fun i => pStar a.groups s.1.y i
  let h : LassoHist :=
    { obj := overlapObjective a.A a.b a.lamda a.groups s'.x s'.z
      rnorm := npNorm (xCons - s'.z)
      snorm := npNorm ((-a.rho) • (s'.z - s.1.z))
      ePri := Real.sqrt p * a.tol + a.rtol * max (npNorm xCons) (npNorm (-s'.z))
      eDual := Real.sqrt p * a.tol + a.rtol * npNorm (a.rho • yCons) }
  if lassoStop h then ((s', if 10 < s.2 then s.2 else s.2 + 1), h, decide (10 < s.2))
  else ((s', 0), h, false)

/-- The variables before the loop (regain/linear_model/group_lasso_overlap_.py:131-139). -/
def overlapInit (p : ℕ) : OverlapState p × ℕ := (⟨fun _ _ => 0, 0, fun _ _ => 0⟩, 0)

/-- `A.T.dot(A) + rho * D` (regain/linear_model/group_lasso_overlap_.py:135-137). -/
noncomputable def overlapGram (a : OverlapArgs m p) : Matrix (Fin p) (Fin p) ℝ :=
  a.Aᵀ * a.A + a.rho • Matrix.diagonal fun i : Fin p => (dFunction a.groups i : ℝ)

/-- `group_lasso_overlap(A, b, ...)`, regain/linear_model/group_lasso_overlap_.py:91-180, returning `z`, `hist`
and `k`. `npInv` is `np.linalg.inv` (line 137; LinAlgError on singular matrices is not modelled). `ragged` says whether this numpy release rejects
lists of arrays of different lengths (numpy 1.24 and later), which `np.linalg.norm(x)` in the first pass then
turns into ValueError; with an older release the recorded objective of such groups is not a number, while the
model records `copiesNorm`. Without a pass `k` is unbound. -/
noncomputable def groupLassoOverlap (ragged : Bool) (npInv : Matrix (Fin p) (Fin p) ℝ → Matrix (Fin p) (Fin p) ℝ)
    (a : OverlapArgs m p) : Except PyErr ((Fin p → ℝ) × List LassoHist × ℕ) :=
  let r := runLoop (overlapBody a (npInv (overlapGram a))) a.maxIter (overlapInit p)
  match r.lastIter with
  | none => .error .name
  | some k =>
    if ragged && !(a.groups.all fun g => g.length == (a.groups.headD []).length) then .error .value
    else .ok (r.state.1.z, r.checks, k)

end Verif.Model
