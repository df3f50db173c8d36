import Verif.Model.Gaussian
import Mathlib.Data.Matrix.Block
import Mathlib.Logic.Equiv.Fin.Basic

/-! Model of `regain/datasets/kernels.py`: generators based on temporal kernels and on the TICC scheme. Random
draws are arguments. -/

namespace Verif.Model

open Matrix

set_option autoImplicit false

/-! ### Gaussian process samples -/

section GP

variable {p : ℕ}

open Classical in
/-- `theta[np.abs(theta) < c] = 0`, regain/datasets/kernels.py:66 and 105-107. -/
noncomputable def cutSmall {m k : Type*} (c : ℝ) (A : Matrix m k ℝ) : Matrix m k ℝ :=
  Matrix.of fun i j => if |A i j| < c then 0 else A i j

/-- `theta += np.diag(np.sum(np.abs(theta), axis=1) + 0.01)`, regain/datasets/kernels.py:68 and 115. -/
noncomputable def addAbsDiag {m : Type*} [Fintype m] [DecidableEq m] (A : Matrix m m ℝ) : Matrix m m ℝ :=
  A + diagonal fun i => (∑ j, |A i j|) + 0.01

/-- The loop of `make_exp_sine_squared`, regain/datasets/kernels.py:61-74, one sample of the Gaussian process per
time: triples `(theta, theta - L, L)`. -/
noncomputable def expSineLoop (sparse : Bool) (epsilon : ℝ) (L : Matrix (Fin p) (Fin p) ℝ) :
    List (Fin p → Fin p → ℝ) →
      Except DataErr (List (Matrix (Fin p) (Fin p) ℝ × Matrix (Fin p) (Fin p) ℝ × Matrix (Fin p) (Fin p) ℝ))
  | [] => .ok []
  | u :: rest =>
      let theta := squareForm u
      let theta := if sparse then cutSmall epsilon theta else theta
      let theta := addAbsDiag theta
      if isPosDef theta then
        if isPosDef (theta - L) then
          match expSineLoop sparse epsilon L rest with
          | .error e => .error e
          | .ok l => .ok ((theta, theta - L, L) :: l)
        else .error .assertion
      else .error .assertion

/-- `make_exp_sine_squared(n_dim_obs, n_dim_lat, T, ...)`, regain/datasets/kernels.py:46-77, given `L` of `make_ell`
and the samples `u` of the Gaussian process (one function of the pair of variables per time). -/
noncomputable def makeExpSine (sparse : Bool) (epsilon : ℝ) (L : Matrix (Fin p) (Fin p) ℝ)
    (u : List (Fin p → Fin p → ℝ)) :
    Except DataErr (List (Matrix (Fin p) (Fin p) ℝ × Matrix (Fin p) (Fin p) ℝ × Matrix (Fin p) (Fin p) ℝ)) :=
  expSineLoop sparse epsilon L u

variable {l o : ℕ}

/-- One pass of the first loop of `make_RBF` before the diagonal is added, regain/datasets/kernels.py:97-114: latent
variables come first. `inter` holds `inter_links` (`none` in the first pass). -/
noncomputable def rbfTheta (sparse : Bool) (epsilon : ℝ) (inter : Option (Matrix (Fin o) (Fin l) ℝ))
    (u : Fin (l + o) → Fin (l + o) → ℝ) : Matrix (Fin l ⊕ Fin o) (Fin l ⊕ Fin o) ℝ :=
  let theta : Matrix (Fin l ⊕ Fin o) (Fin l ⊕ Fin o) ℝ := (squareForm u).submatrix finSumFinEquiv finSumFinEquiv
  let theta :=
    if sparse then
      let obs := cutSmall epsilon theta.toBlocks₂₂
      let lat := cutSmall (epsilon / 3) theta.toBlocks₁₁
      let oh := cutSmall (epsilon / 3) theta.toBlocks₂₁
      fromBlocks lat ohᵀ oh obs
    else theta
  let links := inter.getD theta.toBlocks₂₁
  fromBlocks theta.toBlocks₁₁ linksᵀ links theta.toBlocks₂₂

/-- The first loop of `make_RBF`, regain/datasets/kernels.py:96-118. -/
noncomputable def rbfLoop (sparse : Bool) (epsilon : ℝ) :
    Option (Matrix (Fin o) (Fin l) ℝ) → List (Fin (l + o) → Fin (l + o) → ℝ) →
      Except DataErr (List (Matrix (Fin l ⊕ Fin o) (Fin l ⊕ Fin o) ℝ))
  | _, [] => .ok []
  | inter, u :: rest =>
      let raw := rbfTheta sparse epsilon inter u
      let theta := addAbsDiag raw
      if isPosDef theta then
        match rbfLoop sparse epsilon (some (inter.getD raw.toBlocks₂₁)) rest with
        | .error e => .error e
        | .ok ts => .ok (theta :: ts)
      else .error .assertion

/-- The second loop of `make_RBF`, regain/datasets/kernels.py:122-131: the blocks that link observed and latent
variables are taken from `theta`, the matrix of the last time, not from `t`. `pinv` of the latent block is written
as the inverse: the block is positive definite (proved in C115). -/
noncomputable def rbfMarginal (last t : Matrix (Fin l ⊕ Fin o) (Fin l ⊕ Fin o) ℝ) :
    Matrix (Fin o) (Fin o) ℝ × Matrix (Fin o) (Fin o) ℝ :=
  let L := last.toBlocks₂₁ * t.toBlocks₁₁⁻¹ * last.toBlocks₁₂
  (t.toBlocks₂₂ - L, L)

/-- `make_RBF(n_dim_obs, n_dim_lat, T, ...)`, regain/datasets/kernels.py:80-132: the joint precisions with, for each
of them, the observed precision and the latent part. -/
noncomputable def makeRBF (sparse : Bool) (epsilon : ℝ) (us : List (Fin (l + o) → Fin (l + o) → ℝ)) :
    Except DataErr (List (Matrix (Fin l ⊕ Fin o) (Fin l ⊕ Fin o) ℝ × Matrix (Fin o) (Fin o) ℝ ×
      Matrix (Fin o) (Fin o) ℝ)) :=
  match rbfLoop sparse epsilon none us with
  | .error e => .error e
  | .ok ts =>
      match ts.getLast? with
      | none => .ok []
      | some last => .ok (ts.map fun t => (t, rbfMarginal last t))

end GP

/-! ### TICC -/

section Ticc

variable {w n : ℕ}

/-- `genInvCov(size, ..., symmetric)`, regain/datasets/kernels.py:135-149: `S` holds the value drawn for each edge of the
random graph at `[src, dest]`. -/
def genInvCov (S : Matrix (Fin n) (Fin n) ℝ) (symmetric : Bool) : Matrix (Fin n) (Fin n) ℝ :=
  if symmetric then S + Sᵀ else S

/-- The blocks of `make_ticc`, regain/datasets/kernels.py:171-180: block 0 from `genInvCov`, the others from
`genRandInv` (any matrix). -/
def ticcBlocks (S : Matrix (Fin n) (Fin n) ℝ) (rand : ℕ → Matrix (Fin n) (Fin n) ℝ) (k : ℕ) :
    Matrix (Fin n) (Fin n) ℝ :=
  if k = 0 then genInvCov S (k == 0) else rand k

/-- The block matrix assembled in regain/datasets/kernels.py:182-194; the index `(i, a)` is row `i * size_blocks + a`. -/
def ticcAssemble (B : ℕ → Matrix (Fin n) (Fin n) ℝ) : Matrix (Fin w × Fin n) (Fin w × Fin n) ℝ :=
  Matrix.of fun x y =>
    let k := ((x.1 : ℤ) - (y.1 : ℤ)).natAbs
    if y.1 < x.1 then B k x.2 y.2 else (B k)ᵀ x.2 y.2

/-- `make_ticc(num_blocks, n_dim_obs, n_dim_lat, ...)`, regain/datasets/kernels.py:163-207; `lmin` is
`min(np.linalg.eig(...))`, a real number since the matrix is symmetric. -/
noncomputable def makeTicc (nLat : ℕ) (lmin : Matrix (Fin w × Fin n) (Fin w × Fin n) ℝ → ℝ)
    (S : Matrix (Fin n) (Fin n) ℝ) (rand : ℕ → Matrix (Fin n) (Fin n) ℝ) :
    Except DataErr (Matrix (Fin w × Fin n) (Fin w × Fin n) ℝ) :=
  if nLat ≠ 0 then .error .value
  else
    let A := ticcAssemble (ticcBlocks S rand)
    .ok (A + (0.1 + |lmin A|) • (1 : Matrix (Fin w × Fin n) (Fin w × Fin n) ℝ))

/-- Conditional covariance of the last block given the previous ones, `_block_matrix` and
regain/datasets/kernels.py:210-215, 275-278 and 283-286: `S12` is the transpose of `S21`; `pinvh` of a positive definite
matrix is its inverse. -/
noncomputable def condCov {m k : Type*} [Fintype m] [DecidableEq m] (cov : Matrix (m ⊕ k) (m ⊕ k) ℝ) : Matrix k k ℝ :=
  cov.toBlocks₂₂ - cov.toBlocks₂₁ * cov.toBlocks₁₁⁻¹ * cov.toBlocks₂₁ᵀ

/-- Position in the window: `c` blocks of past samples, then the current one. -/
def windowIdx (c : ℕ) (hc : c < w) : (Fin c × Fin n) ⊕ Fin n → Fin w × Fin n
  | .inl x => (⟨x.1, x.1.2.trans hc⟩, x.2)
  | .inr a => (⟨c, hc⟩, a)

/-- `precs[i]` of `make_ticc_dataset`, regain/datasets/kernels.py:267-293, from the precision of the cluster of sample
`i`: the window covers `min(i, w_size - 1)` past samples. `hw` says that the window is not empty. Not modelled: the
failure of `pinvh` on an empty array when `w_size` is 1. -/
noncomputable def ticcPrec (hw : 0 < w) (P : Matrix (Fin w × Fin n) (Fin w × Fin n) ℝ) (i : ℕ) :
    Matrix (Fin n) (Fin n) ℝ :=
  let c := min i (w - 1)
  let cov := P⁻¹
  (condCov (cov.submatrix (windowIdx c (by omega)) (windowIdx c (by omega))))⁻¹

/-- `np.repeat(a, k)`. -/
def npRepeat {α : Type*} (a : List α) (k : ℕ) : List α := a.flatMap fun x => List.replicate k x

/-- The samples of time `c`: `id_cluster[np.where(y == c)[0]]`, regain/datasets/kernels.py:297-300. -/
def idsAt (ids y : List ℕ) (c : ℕ) : List ℕ := ((ids.zip y).filter fun q => q.2 = c).map fun q => q.1

/-- The last loop of `make_ticc_dataset`, regain/datasets/kernels.py:295-300, over the times in `np.unique(y)`. -/
def groupLoop (ids y : List ℕ) : List ℕ → Except DataErr (List ℕ)
  | [] => .ok []
  | c :: cs =>
      if (idsAt ids y c).dedup.length = 1 then
        match groupLoop ids y cs with
        | .error e => .error e
        | .ok l => .ok ((idsAt ids y c).headD 0 :: l)
      else .error .assertion

/-- The labels of `make_ticc_dataset(clusters, n_samples, T)`, regain/datasets/kernels.py:236-244 and 295-300:
`(y, id_cluster, id_cluster_group)`. -/
def ticcLabels (clusters : List ℕ) (nSamples T : ℕ) : Except DataErr (List ℕ × List ℕ × List ℕ) :=
  if T = 0 then .error .zeroDivision
  else if (clusters.length * nSamples) % T ≠ 0 then .error .value
  else
    let ids := npRepeat clusters nSamples
    let y := npRepeat (List.range T) (clusters.length * nSamples / T)
    match groupLoop ids y (y.dedup) with
    | .error e => .error e
    | .ok g => .ok (y, ids, g)

/-- The labels of `make_ticc_dataset_new(clusters, n_samples, T)`, regain/datasets/kernels.py:336-337 and 437-442: as
above, without the check of divisibility. -/
def ticcLabelsNew (clusters : List ℕ) (nSamples T : ℕ) : Except DataErr (List ℕ × List ℕ × List ℕ) :=
  if T = 0 then .error .zeroDivision
  else
    let ids := npRepeat clusters nSamples
    let y := npRepeat (List.range T) (clusters.length * nSamples / T)
    match groupLoop ids y (y.dedup) with
    | .error e => .error e
    | .ok g => .ok (y, ids, g)

end Ticc

/-! ### Cluster representatives -/

section Rep

variable {n : ℕ}

open Classical in
/-- The weighted representative of a cluster, regain/datasets/kernels.py:613-616: `adj` is the adjacency matrix of the
random regular graph, `r` the samples of `np.random.rand`, one per nonzero entry. -/
noncomputable def representative (adj r : Matrix (Fin n) (Fin n) ℝ) : Matrix (Fin n) (Fin n) ℝ :=
  fillDiagonal (Matrix.of fun i j => if adj i j ≠ 0 then r i j * 0.45 else adj i j) fun _ => 1

/-- `np.arange(0, T, step)` for a positive step: `ceil(T / step)` values. -/
def npArange (T step : ℕ) : List ℕ := (List.range ((T + step - 1) / step)).map fun k => k * step

/-- `pos`, regain/datasets/kernels.py:620-621; a zero step raises ZeroDivisionError. -/
def repPositions (T nClusters : ℕ) : Except DataErr (List ℕ) :=
  let step := T / (nClusters + 1)
  if step = 0 then .error .zeroDivision else .ok (npArange T step ++ [T - 1])

open Classical in
/-- One change of `new`, regain/datasets/kernels.py:645-665: `picks` are the chosen positions with the value drawn for
each; `diffs` is computed before the changes. -/
noncomputable def interpStep (target new : Matrix (Fin n) (Fin n) ℝ) (picks : List ((Fin n × Fin n) × ℝ)) :
    Matrix (Fin n) (Fin n) ℝ :=
  picks.foldl (fun A q =>
    if new q.1.1 q.1.2 = 0 ∧ target q.1.1 q.1.2 ≠ 0 then setCross A q.1.1 [q.1.2] (q.2 * 0.2)
    else setCross A q.1.1 [q.1.2] 0) new

/-- The inner loop, regain/datasets/kernels.py:641-666: one list of picks per step. -/
noncomputable def interpLoop (target : Matrix (Fin n) (Fin n) ℝ) :
    Matrix (Fin n) (Fin n) ℝ → List (List ((Fin n × Fin n) × ℝ)) → List (Matrix (Fin n) (Fin n) ℝ)
  | new, [] => [new]
  | new, picks :: rest => new :: interpLoop target (interpStep target new picks) rest

/-- The outer loop, regain/datasets/kernels.py:638-669, over the pairs of consecutive positions; `adj k` is the
representative used at position `k` of `cluster_series` and `draws k` supplies the picks of segment `k`. -/
noncomputable def repLoop (adj : ℕ → Matrix (Fin n) (Fin n) ℝ) (draws : ℕ → ℕ → List ((Fin n × Fin n) × ℝ)) :
    ℕ → List ℕ → List (Matrix (Fin n) (Fin n) ℝ)
  | k, a :: b :: rest =>
      interpLoop (adj (k + 1)) (adj k) ((List.range (b - a - 1)).map (draws k)) ++ repLoop adj draws (k + 1) (b :: rest)
  | k, [_] => [adj k]
  | _, [] => []

/-- `thetas` of `make_cluster_representative`, regain/datasets/kernels.py:620-669. The clustering of the result
and the sampling are not modelled. -/
noncomputable def clusterThetas (T nClusters : ℕ) (adj : ℕ → Matrix (Fin n) (Fin n) ℝ)
    (draws : ℕ → ℕ → List ((Fin n × Fin n) × ℝ)) : Except DataErr (List (Matrix (Fin n) (Fin n) ℝ)) :=
  match repPositions T nClusters with
  | .error e => .error e
  | .ok pos => .ok (repLoop adj draws 0 pos)

end Rep

end Verif.Model
