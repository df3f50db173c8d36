import Verif.Model.Metrics
import Verif.Model.GL
import Mathlib.LinearAlgebra.Matrix.Rank
import Mathlib.Analysis.SpecialFunctions.Trigonometric.Basic

/-! Model of `regain/datasets/gaussian.py`, the generators of Gaussian data sets. Every call of a random
generator is an argument (or a stream), so that the theorems hold for every draw; where the range of the
draws matters it is a hypothesis of the theorem. -/

namespace Verif.Model

open Matrix

set_option autoImplicit false

/-- Python exceptions raised by the generators of data sets. -/
inductive DataErr where
  | value
  | assertion
  | name
  | type
  | index
  | zeroDivision
  | linalg
  deriving DecidableEq

/-! ### Meinshausen and Yuan -/

section MY

variable {p : ℕ}

open Classical in
/-- `theta[i, ixs] = theta[ixs, i] = value`, regain/datasets/gaussian.py:83 (and 89 with `value = 0`). -/
noncomputable def setCross (theta : Matrix (Fin p) (Fin p) ℝ) (i : Fin p) (ixs : List (Fin p)) (value : ℝ) :
    Matrix (Fin p) (Fin p) ℝ :=
  Matrix.of fun a b => if (a = i ∧ b ∈ ixs) ∨ (b = i ∧ a ∈ ixs) then value else theta a b

open Classical in
/-- Number of nonzero entries of a row, regain/datasets/gaussian.py:72 and 84. -/
noncomputable def rowCount (theta : Matrix (Fin p) (Fin p) ℝ) (i : Fin p) : ℕ :=
  (Finset.univ.filter fun j => theta i j ≠ 0).card

/-- The `while` loop of `_theta_my`, regain/datasets/gaussian.py:71-82: along the ranking of the row, indices
below `i` are skipped, and at most `room` of the others are taken. -/
def mySelect (i : Fin p) : ℕ → List (Fin p) → List (Fin p)
  | 0, _ => []
  | _ + 1, [] => []
  | room + 1, k :: rest => if k < i then mySelect i (room + 1) rest else k :: mySelect i room rest

/-- One pass of the first loop of `_theta_my`, regain/datasets/gaussian.py:70-83; `order i` is
`np.argsort(probs[i, :])[::-1]`. -/
noncomputable def myRow (value : ℝ) (order : Fin p → List (Fin p)) (theta : Matrix (Fin p) (Fin p) ℝ)
    (i : Fin p) : Matrix (Fin p) (Fin p) ℝ :=
  setCross theta i (mySelect i (4 - rowCount theta i) (order i)) value

open Classical in
/-- `np.nonzero(theta[t, :])[0]`, regain/datasets/gaussian.py:86. -/
noncomputable def rowEdges (theta : Matrix (Fin p) (Fin p) ℝ) (t : Fin p) : List (Fin p) :=
  (List.finRange p).filter fun j => theta t j ≠ 0

/-- `edges[:-4]`, regain/datasets/gaussian.py:88. -/
def allButLast4 {α : Type*} (l : List α) : List α := l.take (l.length - 4)

/-- One pass of the second loop of `_theta_my`, regain/datasets/gaussian.py:85-89; `shuffle t` is the
random permutation applied to the list of neighbours. -/
noncomputable def myTrim (shuffle : Fin p → List (Fin p) → List (Fin p)) (theta : Matrix (Fin p) (Fin p) ℝ)
    (t : Fin p) : Matrix (Fin p) (Fin p) ℝ :=
  setCross theta t (allButLast4 (shuffle t (rowEdges theta t))) 0

open Classical in
/-- `_theta_my(probs, p, random_state, value)`, regain/datasets/gaussian.py:68-93: `none` when the assertion
fails. -/
noncomputable def thetaMy (value : ℝ) (order : Fin p → List (Fin p))
    (shuffle : Fin p → List (Fin p) → List (Fin p)) : Option (Matrix (Fin p) (Fin p) ℝ) :=
  let theta := (List.finRange p).foldl (myRow value order) 0
  let toRemove := (List.finRange p).filter fun t => 4 < rowCount theta t
  let theta := fillDiagonal (toRemove.foldl (myTrim shuffle) theta) fun _ => 1
  if isPosDef theta then some theta else none

/-- One time of `data_Meinshausen_Yuan`, regain/datasets/gaussian.py:97-111 and 121-135: the precision, the
observed precision `theta - latent.T latent` and its inverse; `none` when an assertion fails. Node locations
only enter through the rankings `order`, and the samples are left out. -/
noncomputable def myTime {h : ℕ} (latent : Matrix (Fin h) (Fin p) ℝ) (order : Fin p → List (Fin p))
    (shuffle : Fin p → List (Fin p) → List (Fin p)) :
    Option (Matrix (Fin p) (Fin p) ℝ × Matrix (Fin p) (Fin p) ℝ × Matrix (Fin p) (Fin p) ℝ) :=
  (thetaMy 0.245 order shuffle).bind fun theta =>
    let obs := theta - latentᵀ * latent
    if isPosDef obs then
      if isPosDef obs⁻¹ then some (theta, obs, obs⁻¹) else none
    else none

end MY

/-! ### make_covariance -/

section Cov

variable {p h : ℕ}

/-- `make_ell`, regain/datasets/gaussian.py:251-270, given `K_HO` after the normalisation of its rows: the
assertion on the rank (the other one always holds). The division by a zero row sum is not modelled. -/
noncomputable def makeEll (K : Matrix (Fin h) (Fin p) ℝ) : Option (Matrix (Fin p) (Fin p) ℝ) :=
  open Classical in if (Kᵀ * K).rank = h then some (Kᵀ * K) else none

/-- The random graph of `make_starting` with `normalize=False`, regain/datasets/gaussian.py:297-311: `draws i`
are the indices chosen for row `i` (empty when nothing is chosen). -/
noncomputable def startGraph (degree : ℝ) (draws : Fin p → List (Fin p)) : Matrix (Fin p) (Fin p) ℝ :=
  (List.finRange p).foldl (fun theta i => setCross theta i (draws i) (0.5 / degree)) 1

/-- `if not is_pos_def(M): theta += np.diag(d)`, regain/datasets/gaussian.py:313-316, 351-352 and 434-435. -/
noncomputable def repairDiag (M theta : Matrix (Fin p) (Fin p) ℝ) (d : Fin p → ℝ) : Matrix (Fin p) (Fin p) ℝ :=
  if isPosDef M then theta else theta + diagonal d

/-- The end of `make_starting`, regain/datasets/gaussian.py:313-318: `theta`, given `L`. -/
noncomputable def startRepair (eps : ℝ) (L theta : Matrix (Fin p) (Fin p) ℝ) :
    Option (Matrix (Fin p) (Fin p) ℝ) :=
  let theta := repairDiag theta theta fun i => (∑ j, theta i j) + eps
  let theta := repairDiag (theta - L) theta fun i => eps + L i i
  if isPosDef (theta - L) then some theta else none

/-- `make_starting(n_dim_obs, n_dim_lat, degree, normalize=False)`, regain/datasets/gaussian.py:273-318, with
the default `eps=1e-2`: `(theta, L)`. -/
noncomputable def makeStarting (degree : ℝ) (draws : Fin p → List (Fin p)) (K : Matrix (Fin h) (Fin p) ℝ) :
    Option (Matrix (Fin p) (Fin p) ℝ × Matrix (Fin p) (Fin p) ℝ) :=
  (makeEll K).bind fun L => (startRepair 0.01 L (startGraph degree draws)).map fun theta => (theta, L)

open Classical in
/-- `_update_theta_l1(theta_init, no, n_dim_obs)`, regain/datasets/gaussian.py:339-353, given the accepted rows,
columns and choices; default `eps=1e-2`. -/
noncomputable def updThetaL1 (draws : List (Fin p × Fin p × ℝ)) (theta : Matrix (Fin p) (Fin p) ℝ) :
    Matrix (Fin p) (Fin p) ℝ :=
  let theta := draws.foldl (fun theta d =>
    let v := if theta d.1 d.2.1 = 0 then d.2.2 else 0.06
    Matrix.of fun a b => if (a = d.1 ∧ b = d.2.1) ∨ (a = d.2.1 ∧ b = d.1) then v else theta a b) theta
  repairDiag theta theta fun i => (∑ j, theta i j) + 0.01

/-- `addition[triu[::-1]] = addition[triu]`, regain/datasets/gaussian.py:331: the upper triangle is copied
onto the lower one. -/
def mirrorUpper (A : Matrix (Fin p) (Fin p) ℝ) : Matrix (Fin p) (Fin p) ℝ :=
  Matrix.of fun i j => if i ≤ j then A i j else A j i

open Classical in
/-- `_update_theta_l2(theta_old, n_dim_obs, degree, epsilon, ...)`, regain/datasets/gaussian.py:321-336, given
the random matrix filled in lines 324-330 (whose norm is assumed not to vanish). -/
noncomputable def updThetaL2 (epsilon : ℝ) (A theta : Matrix (Fin p) (Fin p) ℝ) : Matrix (Fin p) (Fin p) ℝ :=
  let add := (epsilon / froNorm (mirrorUpper A)) • mirrorUpper A
  let theta := theta + fillDiagonal add fun _ => 0
  Matrix.of fun i j => if |theta i j| < 2 * epsilon / p then 0 else theta i j

/-- Random choices of one step of `make_covariance` for `theta`; `bad` stands for an unknown `update_theta`. -/
inductive ThetaDraw (p : ℕ) where
  | l1 (draws : List (Fin p × Fin p × ℝ))
  | l2 (A : Matrix (Fin p) (Fin p) ℝ)
  | bad

/-- Random choices of one step of `make_covariance` for the latent part; `bad` is an unknown `update_ell`. -/
inductive EllDraw (h p : ℕ) where
  | fixed
  | l1 (picks : List (Fin h × Fin p × ℝ))
  | l2 (addition : Matrix (Fin h) (Fin p) ℝ)
  | yuan (r : Fin h) (c : Fin p)
  | bad

open Classical in
/-- `K_HO` after one step (an unknown `update_ell` is only detected when there are latent variables), regain/datasets/gaussian.py:411-430 and 356-364 (`_update_ell_l2`). The division by a
zero row sum is not modelled. -/
noncomputable def updEll (epsilon : ℝ) (K : Matrix (Fin h) (Fin p) ℝ) :
    EllDraw h p → Option (Matrix (Fin h) (Fin p) ℝ)
  | .fixed => some K
  | .l1 picks => some (picks.foldl (fun K d =>
      Matrix.of fun a b => if a = d.1 ∧ b = d.2.1 then (if K a b = 0 then d.2.2 else 0) else K a b) K)
  | .l2 addition =>
      let K := K + (epsilon / froNorm addition) • addition
      let K : Matrix (Fin h) (Fin p) ℝ := Matrix.of fun a b => K a b / ((∑ j, K a j) / 2)
      some (Matrix.of fun a b => if |K a b| < epsilon / p then 0 else K a b)
  | .yuan r c => some (Matrix.of fun a b => if a = r ∧ b = c then (if K a b = 0 then 0.12 else 0) else K a b)
  | .bad => if h = 0 then some K else none

/-- `theta` after one step of the loop of `make_covariance`, regain/datasets/gaussian.py:393-409. -/
noncomputable def updTheta (epsilon : ℝ) (theta : Matrix (Fin p) (Fin p) ℝ) :
    ThetaDraw p → Option (Matrix (Fin p) (Fin p) ℝ)
  | .l1 draws => some (updThetaL1 draws theta)
  | .l2 A => some (updThetaL2 epsilon A theta)
  | .bad => none

open Classical in
/-- The loop of `make_covariance`, regain/datasets/gaussian.py:392-440: one element `(theta, theta - L, L)` per
step. `ValueError` for an unknown update, `AssertionError` for a wrong rank (`is_pos_semidef(L)` always holds).
Since every update makes a copy, the correction in line 435 does not reach earlier times. -/
noncomputable def covLoop (epsilon : ℝ) (theta : Matrix (Fin p) (Fin p) ℝ) (K : Matrix (Fin h) (Fin p) ℝ) :
    List (ThetaDraw p × EllDraw h p) →
      Except DataErr (List (Matrix (Fin p) (Fin p) ℝ × Matrix (Fin p) (Fin p) ℝ × Matrix (Fin p) (Fin p) ℝ))
  | [] => .ok []
  | d :: rest =>
      match updTheta epsilon theta d.1 with
      | none => .error .value
      | some theta =>
          match updEll epsilon K d.2 with
          | none => .error .value
          | some K =>
              let L := Kᵀ * K
              if L.rank = h then
                let theta := repairDiag (theta - L) theta fun i => epsilon + L i i
                (covLoop epsilon theta K rest).map fun l => (theta, theta - L, L) :: l
              else .error .assertion

/-- `make_covariance(..., normalize_starting_matrices=False)`, regain/datasets/gaussian.py:367-442: the lists
`thetas`, `thetas_obs`, `ells` as one list of triples; `steps` has one element per time after the first. -/
noncomputable def makeCovariance (degree epsilon : ℝ) (draws : Fin p → List (Fin p))
    (K : Matrix (Fin h) (Fin p) ℝ) (steps : List (ThetaDraw p × EllDraw h p)) :
    Except DataErr (List (Matrix (Fin p) (Fin p) ℝ × Matrix (Fin p) (Fin p) ℝ × Matrix (Fin p) (Fin p) ℝ)) :=
  match makeStarting degree draws K with
  | none => .error .assertion
  | some (theta, L) => (covLoop epsilon theta K steps).map fun l => (theta, theta - L, L) :: l

/-! ### make_fixed_sparsity -/

open Classical in
/-- One pass of the loop of `make_fixed_sparsity`, regain/datasets/gaussian.py:461-473: `noise` is the normal
sample laid out on the matrix, `sgn` is `1` or `-1`. `np.diag(theta)` is a vector, so the mask of lines 456 and
473 compares `theta[i, j]` with `theta[j, j]`. -/
noncomputable def sparsityStep (sgn epsilon : ℝ) (L noise theta : Matrix (Fin p) (Fin p) ℝ) :
    Matrix (Fin p) (Fin p) ℝ :=
  let theta : Matrix (Fin p) (Fin p) ℝ :=
    Matrix.of fun i j => |if theta i j - theta j j ≠ 0 then theta i j + sgn * (noise i j * 0.1) else theta i j|
  let theta : Matrix (Fin p) (Fin p) ℝ := Matrix.of fun i j => (theta i j + theta j i) / 2
  let theta : Matrix (Fin p) (Fin p) ℝ := Matrix.of fun i j => if theta i j < epsilon then 0 else theta i j
  fillDiagonal theta fun i => (∑ j, |theta i j|) + (∑ j, |L i j|) + 0.1

/-- The loop of `make_fixed_sparsity`, regain/datasets/gaussian.py:461-478, one noise matrix per step. -/
noncomputable def sparsityLoop (sgn epsilon : ℝ) (L : Matrix (Fin p) (Fin p) ℝ) :
    Matrix (Fin p) (Fin p) ℝ → List (Matrix (Fin p) (Fin p) ℝ) → Option (List (Matrix (Fin p) (Fin p) ℝ))
  | _, [] => some []
  | theta, noise :: rest =>
      let theta := sparsityStep sgn epsilon L noise theta
      if isPosDef (theta - L) then (sparsityLoop sgn epsilon L theta rest).map fun l => theta :: l else none

open Classical in
/-- `make_fixed_sparsity(n_dim_obs, n_dim_lat, T, ...)`, regain/datasets/gaussian.py:445-480: the precisions and
`L` (the observed precisions are the differences). `changing` is `t < T`. -/
noncomputable def makeFixedSparsity (degree epsilon : ℝ) (changing : Bool) (draws : Fin p → List (Fin p))
    (K : Matrix (Fin h) (Fin p) ℝ) (noises : List (Matrix (Fin p) (Fin p) ℝ)) :
    Option (List (Matrix (Fin p) (Fin p) ℝ) × Matrix (Fin p) (Fin p) ℝ) :=
  (makeStarting degree draws K).bind fun s =>
    let theta : Matrix (Fin p) (Fin p) ℝ := Matrix.of fun i j => |s.1 i j|
    (sparsityLoop (if changing then 1 else -1) epsilon s.2 theta noises).map fun l => (theta :: l, s.2)

end Cov

/-! ### make_sin, make_sin_cos -/

section Sin

variable {p : ℕ}

/-- `squareform(v)` for the entries `v i j`, `i < j`: symmetric with zero diagonal. -/
def squareForm (v : Fin p → Fin p → ℝ) : Matrix (Fin p) (Fin p) ℝ :=
  Matrix.of fun i j => if i < j then v i j else if j < i then v j i else 0

/-- `make_sin(n_dim_obs, n_dim_lat, T, shape, closeness, normalize)`, regain/datasets/gaussian.py:483-514, given
the curves `y t i j` before the threshold of line 500: the thetas (also returned as observed precisions) and
the zero latent matrices. `map(normalize_matrix, Y)` in line 510 is lazy and never evaluated, so `normalize`
is not used. -/
noncomputable def makeSin (_normalize : Bool) (y : List (Fin p → Fin p → ℝ)) :
    List (Matrix (Fin p) (Fin p) ℝ) × List (Matrix (Fin p) (Fin p) ℝ) × List (Matrix (Fin p) (Fin p) ℝ) :=
  let Y := y.map fun v =>
    let S := squareForm fun i j => max (v i j) 0
    ensurePosdef2d (S + diagonal fun i => ∑ j, S i j)
  (Y, Y, Y.map fun _ => 0)

open Classical in
/-- The matrix of time `x` in `make_sin_cos`, regain/datasets/gaussian.py:539-549: `phase` and `clip` are the
matrices of lines 523-535 (`T` as a real number). -/
noncomputable def sinCosTheta (T eps x : ℝ) (phase : Matrix (Fin p) (Fin p) ℝ) (clip : Fin p → Fin p → Bool) :
    Matrix (Fin p) (Fin p) ℝ :=
  Matrix.of fun r c =>
    let v := if r = c then 1 else if clip r c then Real.sin ((x + phase r c) / T ^ 2) else Real.sin (x + phase r c)
    let v := if clip r c then max 0 (min v 1) else v
    if |v| < eps then 0 else v

/-- The loop of `make_sin_cos`, regain/datasets/gaussian.py:539-554: `thetas_obs` is overwritten in every pass. -/
noncomputable def sinCosLoop (theta : ℝ → Matrix (Fin p) (Fin p) ℝ) (L : Matrix (Fin p) (Fin p) ℝ) :
    List ℝ → Option (List (Matrix (Fin p) (Fin p) ℝ)) → List (Matrix (Fin p) (Fin p) ℝ) →
      Except DataErr (List (Matrix (Fin p) (Fin p) ℝ) × List (Matrix (Fin p) (Fin p) ℝ))
  | [], obs, thetas =>
      match obs with
      | none => .error .name
      | some o => .ok (thetas, o)
  | x :: xs, _, thetas =>
      if isPosDef (theta x) then
        if isPosDef (theta x - L) then sinCosLoop theta L xs (some [theta x - L]) (thetas ++ [theta x])
        else .error .assertion
      else .error .assertion

/-- `make_sin_cos(n_dim_obs, n_dim_lat, T, ...)`, regain/datasets/gaussian.py:517-556: thetas, observed
precisions and `L` (repeated `T` times); `raw` is the phase before mirroring, `upper` tells which pairs above
the diagonal are clipped, `times` is `np.linspace(0, 2 pi, T)`. -/
noncomputable def makeSinCos (eps : ℝ) (raw : Matrix (Fin p) (Fin p) ℝ) (upper : Fin p → Fin p → Bool)
    (L : Matrix (Fin p) (Fin p) ℝ) (times : List ℝ) :
    Except DataErr (List (Matrix (Fin p) (Fin p) ℝ) × List (Matrix (Fin p) (Fin p) ℝ) ×
      List (Matrix (Fin p) (Fin p) ℝ)) :=
  let clip : Fin p → Fin p → Bool := fun i j => if i < j then upper i j else if j < i then upper j i else false
  (sinCosLoop (fun x => sinCosTheta times.length eps x (mirrorUpper raw) clip) L times none []).map
    fun r => (r.1, r.2, times.map fun _ => L)

end Sin

/-! ### make_fede -/

section Fede

variable {p : ℕ}

open Classical in
/-- One pass of the loop of `make_fede`, regain/datasets/gaussian.py:577-580: `(K, K - L, L)`. -/
noncomputable def fedeMats (epsilon : ℝ) (Q R : Matrix (Fin p) (Fin p) ℝ) (sigma lamda : Fin p → ℝ) :
    Matrix (Fin p) (Fin p) ℝ × Matrix (Fin p) (Fin p) ℝ × Matrix (Fin p) (Fin p) ℝ :=
  let K := recompose Q sigma
  let K : Matrix (Fin p) (Fin p) ℝ := Matrix.of fun i j => if |K i j| < epsilon then 0 else K i j
  (K, K - recompose R lamda, recompose R lamda)

/-- Update of the eigenvalues, regain/datasets/gaussian.py:585-587: `u` is the sample added to `start_sigma`; `w j`
is the sample written to entry `j` of `start_lamda`, or `none` when `j` does not occur in `idx` (a repeated
index keeps the last sample). -/
noncomputable def fedeNext (sigma lamda u : Fin p → ℝ) (w : Fin p → Option ℝ) : (Fin p → ℝ) × (Fin p → ℝ) :=
  (fun i => sigma i + (1 + u i),
   fun i => max (match w i with | none => lamda i | some v => lamda i + (v * 2 - 1)) 0)

/-- The loop of `make_fede`, regain/datasets/gaussian.py:576-591. -/
noncomputable def fedeLoop (epsilon : ℝ) (Q R : Matrix (Fin p) (Fin p) ℝ) (sigma lamda : Fin p → ℝ) :
    List ((Fin p → ℝ) × (Fin p → Option ℝ)) →
      List (Matrix (Fin p) (Fin p) ℝ × Matrix (Fin p) (Fin p) ℝ × Matrix (Fin p) (Fin p) ℝ)
  | [] => []
  | d :: rest =>
      let s := fedeNext sigma lamda d.1 d.2
      fedeMats epsilon Q R sigma lamda :: fedeLoop epsilon Q R s.1 s.2 rest

/-- `make_fede(n_dim_obs, n_dim_lat, T, epsilon)`, regain/datasets/gaussian.py:559-593: the triples `(K, K - L, L)`;
`Q`, `R` are the orthogonal factors of lines 561-565, `a` and `b` the samples of lines 567-570 (`b j = none` when
`j` does not occur in `idx`), one pair of samples per time. -/
noncomputable def makeFede (epsilon : ℝ) (Q R : Matrix (Fin p) (Fin p) ℝ) (a : Fin p → ℝ) (b : Fin p → Option ℝ)
    (steps : List ((Fin p → ℝ) × (Fin p → Option ℝ))) :
    List (Matrix (Fin p) (Fin p) ℝ × Matrix (Fin p) (Fin p) ℝ × Matrix (Fin p) (Fin p) ℝ) :=
  fedeLoop epsilon Q R (fun i => a i + 1) (fun i => (b i).getD 0) steps

end Fede

/-! ### Ma, Xue and Zou -/

section MXZ

/-- `C` of `make_ma_xue_zou`, regain/datasets/gaussian.py:636-640: rows and columns are the observed variables
followed by the latent ones. -/
noncomputable def mxzC {po ph : ℕ} (W : Matrix (Fin po ⊕ Fin ph) (Fin po ⊕ Fin ph) ℝ)
    (G : Matrix (Fin po) (Fin ph) ℝ) : Matrix (Fin po ⊕ Fin ph) (Fin po ⊕ Fin ph) ℝ :=
  let C := Wᵀ * W + fromBlocks 0 ((0.5 : ℝ) • G) 0 0
  let C := (1 / 2 : ℝ) • (C + Cᵀ)
  Matrix.of fun i j => max (-1) (min ((C - diagonal fun k => C k k) i j) 1)

/-- `K` of `make_ma_xue_zou`, regain/datasets/gaussian.py:641-642; `lmin` is `np.min(eig)`. -/
noncomputable def mxzK {m : Type*} [DecidableEq m] (lmin : ℝ) (C : Matrix m m ℝ) : Matrix m m ℝ :=
  C + (max (-1.2 * lmin) 0.001) • (1 : Matrix m m ℝ)

/-- The blocks and the marginal precision, regain/datasets/gaussian.py:643-651 and 682-687: `(K_O, K_O - L, L)`. -/
noncomputable def marginalOf {m l : Type*} [Fintype l] [DecidableEq l] (K : Matrix (m ⊕ l) (m ⊕ l) ℝ) :
    Matrix m m ℝ × Matrix m m ℝ × Matrix m m ℝ :=
  let L := K.toBlocks₁₂ * K.toBlocks₂₂⁻¹ * K.toBlocks₂₁
  (K.toBlocks₁₁, K.toBlocks₁₁ - L, L)

open Classical in
/-- `make_ma_xue_zou(n_dim_obs, n_latent, T)`, regain/datasets/gaussian.py:621-659: `ph = int(n_dim_obs * 0.05)`, so
`n_latent` is not used. `lmin C` is the smallest eigenvalue of `C`. `none` when an assertion fails. -/
noncomputable def makeMaXueZou (po _nLatent T : ℕ) (lmin : Matrix (Fin po ⊕ Fin (po / 20)) (Fin po ⊕ Fin (po / 20)) ℝ → ℝ)
    (W : Matrix (Fin po ⊕ Fin (po / 20)) (Fin po ⊕ Fin (po / 20)) ℝ) (G : Matrix (Fin po) (Fin (po / 20)) ℝ) :
    Option (List (Matrix (Fin po) (Fin po) ℝ × Matrix (Fin po) (Fin po) ℝ × Matrix (Fin po) (Fin po) ℝ)) :=
  let K := mxzK (lmin (mxzC W G)) (mxzC W G)
  let r := marginalOf K
  if K.toBlocks₁₂ = K.toBlocks₂₁ᵀ ∧ isPosDef r.2.1 = true ∧ K.toBlocks₂₂.PosSemidef ∧ r.2.2.rank = po / 20 then
    some (List.replicate T r)
  else none

open Classical in
/-- `A` of `make_ma_xue_zou_rand_k`, regain/datasets/gaussian.py:671-677: unit diagonal, the sign `s e` at the chosen
pair `e` (given as a position above the diagonal), mirrored. -/
noncomputable def randKA {po ph : ℕ} (sgn : Fin (po + ph) → Fin (po + ph) → ℝ)
    (chosen : List (Fin (po + ph) × Fin (po + ph))) : Matrix (Fin (po + ph)) (Fin (po + ph)) ℝ :=
  Matrix.of fun i j => if i = j then 1 else
    if i < j then (if (i, j) ∈ chosen then sgn i j else 0) else (if (j, i) ∈ chosen then sgn j i else 0)

/-- `make_ma_xue_zou_rand_k(n_dim_obs, n_latent, T)`, regain/datasets/gaussian.py:662-691: the positive definite
matrix of line 680 is overwritten by `A` in line 681. A singular `K_H` (LinAlgError) is not modelled. -/
noncomputable def makeMaXueZouRandK (po T : ℕ) (sgn : Fin (po + po / 20) → Fin (po + po / 20) → ℝ)
    (chosen : List (Fin (po + po / 20) × Fin (po + po / 20))) :
    List (Matrix (Fin po) (Fin po) ℝ × Matrix (Fin po) (Fin po) ℝ × Matrix (Fin po) (Fin po) ℝ) :=
  List.replicate T (marginalOf ((randKA (ph := po / 20) sgn chosen).submatrix finSumFinEquiv finSumFinEquiv))

end MXZ

end Verif.Model
