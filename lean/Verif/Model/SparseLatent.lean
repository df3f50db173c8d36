import Verif.Model.Gaussian

/-! Model of `data_Meinshausen_Yuan_sparse_latent`, regain/datasets/gaussian.py:141-248.

The columns of the array `latent` are indexed by `Fin (h + p)`: the first `h` (`Fin.castAdd p`) are what the code
later calls `theta_H`, the last `p` (`Fin.natAdd h`) are what it calls `connections`. Node locations and
probabilities only enter through the rankings `np.argsort(...)[::-1]` of their rows, which are arbitrary lists
here. The node numbers in those rankings are the positions in `nodes_locations`: the first `p` nodes are the
observed variables and the last `h` the latent ones. `h` is at least 1 and at most `p` (for `h = 0` the slices
`[:-h]` and `[-h:]` mean something else, for `h > p` the ranking may be shorter than the `2 h` entries read).
The samples are left out. -/

namespace Verif.Model

open Matrix

set_option autoImplicit false

section SparseLatent

variable {p h : ℕ}

/-- The `while` loops of regain/datasets/gaussian.py:159-165: along the ranking, node numbers below `i` are
skipped and at most `room` of the others are taken. -/
def latSelect {q : ℕ} (i : ℕ) : ℕ → List (Fin q) → List (Fin q)
  | 0, _ => []
  | _ + 1, [] => []
  | room + 1, k :: rest => if k.val < i then latSelect i (room + 1) rest else k :: latSelect i room rest

open Classical in
/-- Number of nonzero entries of row `i` of `latent`, regain/datasets/gaussian.py:155. -/
noncomputable def latCount (latent : Matrix (Fin h) (Fin (h + p)) ℝ) (i : Fin h) : ℕ :=
  (Finset.univ.filter fun j => latent i j ≠ 0).card

/-- The nodes taken for latent variable `i`, regain/datasets/gaussian.py:151-165: `order i` is the ranking of
`probs[p + i, :]` and `nnz i` its number of nonzero entries. `sel <= min(to_put - no_nonzero, nnz)` with
`to_put = (p + h) * 0.5` lets `⌊(p + h) / 2⌋ - no_nonzero` nodes in, and `j < h + h` only looks at the first
`2 h` places of the ranking. -/
noncomputable def latNodes (order : Fin h → List (Fin (h + p))) (nnz : Fin h → ℕ)
    (latent : Matrix (Fin h) (Fin (h + p)) ℝ) (i : Fin h) : List (Fin (h + p)) :=
  latSelect i.val (min ((h + p) / 2 - latCount latent i) (nnz i)) ((order i).take (h + h))

open Classical in
/-- One pass of the loop over the latent variables, regain/datasets/gaussian.py:151-169: the row is set at the
nodes taken, and for those with a number below `h` the mirrored entry of the first block as well. -/
noncomputable def latRow (value : ℝ) (order : Fin h → List (Fin (h + p))) (nnz : Fin h → ℕ)
    (latent : Matrix (Fin h) (Fin (h + p)) ℝ) (i : Fin h) : Matrix (Fin h) (Fin (h + p)) ℝ :=
  Matrix.of fun a b =>
    if (a = i ∧ b ∈ latNodes order nnz latent i) ∨
        (b = Fin.castAdd p i ∧ Fin.castAdd p a ∈ latNodes order nnz latent i) then value
    else latent a b

/-- The array `latent` before its diagonal is set, regain/datasets/gaussian.py:148-169. -/
noncomputable def latFirst (value : ℝ) (order : Fin h → List (Fin (h + p))) (nnz : Fin h → ℕ) :
    Matrix (Fin h) (Fin (h + p)) ℝ :=
  (List.finRange h).foldl (latRow value order nnz) 0

/-- `theta_H` of the first time, regain/datasets/gaussian.py:177-182. -/
noncomputable def latFirstH (value : ℝ) (order : Fin h → List (Fin (h + p))) (nnz : Fin h → ℕ) :
    Matrix (Fin h) (Fin h) ℝ :=
  fillDiagonal (Matrix.of fun a b => latFirst value order nnz a (Fin.castAdd p b)) fun _ => 1

/-- `connections`, regain/datasets/gaussian.py:180. -/
noncomputable def latConnections (value : ℝ) (order : Fin h → List (Fin (h + p))) (nnz : Fin h → ℕ) :
    Matrix (Fin h) (Fin p) ℝ :=
  Matrix.of fun a b => latFirst value order nnz a (Fin.natAdd h b)

/-- What is kept of one time: the precision among the observed variables, the one among the latent variables,
the observed precision and its inverse, regain/datasets/gaussian.py:190-193 and 211, 239-246. -/
structure LatTime (p h : ℕ) where
  /-- Precision among the observed variables. -/
  theta : Matrix (Fin p) (Fin p) ℝ
  /-- Precision among the latent variables. -/
  thetaH : Matrix (Fin h) (Fin h) ℝ
  /-- Observed precision. -/
  obs : Matrix (Fin p) (Fin p) ℝ
  /-- Covariance the samples are drawn with. -/
  sigma : Matrix (Fin p) (Fin p) ℝ

/-- The assertions and the marginalisation of one time, regain/datasets/gaussian.py:179-186 and 237-245. -/
noncomputable def latFinish (C : Matrix (Fin h) (Fin p) ℝ) (theta : Matrix (Fin p) (Fin p) ℝ)
    (thetaH : Matrix (Fin h) (Fin h) ℝ) : Except DataErr (LatTime p h) :=
  if isPosDef thetaH then
    let obs := theta - Cᵀ * thetaH⁻¹ * C
    if isPosDef obs then
      if isPosDef obs⁻¹ then .ok ⟨theta, thetaH, obs, obs⁻¹⟩ else .error .assertion
    else .error .assertion
  else .error .assertion

open Classical in
/-- The first time, regain/datasets/gaussian.py:144-186. A row of `theta` with more than `to_put` nonzero entries
leads to `edges[:-to_put]`, a slice with a float, which raises `TypeError` (lines 170-174). -/
noncomputable def latTime0 (value : ℝ) (order : Fin h → List (Fin (h + p))) (nnz : Fin h → ℕ)
    (orderO : Fin p → List (Fin p)) (shuffle : Fin p → List (Fin p) → List (Fin p)) :
    Except DataErr (LatTime p h) :=
  match thetaMy 0.245 orderO shuffle with
  | none => .error .assertion
  | some theta =>
      if ∃ t, h + p < 2 * rowCount theta t then .error .type
      else latFinish (latConnections value order nnz) theta (latFirstH value order nnz)

/-- One pass of the loop over the latent variables at a later time, regain/datasets/gaussian.py:216-229;
`toPut i` is the number of nonzero entries of the row at the previous time. -/
noncomputable def latPass (value : ℝ) (toPut : Fin h → ℕ) (order : Fin h → List (Fin h))
    (lat : Matrix (Fin h) (Fin h) ℝ) (i : Fin h) : Matrix (Fin h) (Fin h) ℝ :=
  setCross lat i (latSelect i.val (toPut i - rowCount lat i) (order i)) value

/-- The latent precision of a later time, regain/datasets/gaussian.py:213-236, from the previous one. -/
noncomputable def latNext (value : ℝ) (prev : Matrix (Fin h) (Fin h) ℝ) (order : Fin h → List (Fin h))
    (shuffle : Fin h → List (Fin h) → List (Fin h)) : Matrix (Fin h) (Fin h) ℝ :=
  let lat := (List.finRange h).foldl (latPass value (rowCount prev) order) 0
  let toRemove := (List.finRange h).filter fun t => rowCount prev t < rowCount lat t
  fillDiagonal (toRemove.foldl (myTrim shuffle) lat) fun _ => 1

/-- The random rankings and shuffles of a later time. -/
structure LatDraw (p h : ℕ) where
  /-- Ranking of the observed variables. -/
  orderO : Fin p → List (Fin p)
  /-- Shuffle of the neighbours of an observed variable. -/
  shuffleO : Fin p → List (Fin p) → List (Fin p)
  /-- Ranking of the latent variables. -/
  orderH : Fin h → List (Fin h)
  /-- Shuffle of the neighbours of a latent variable. -/
  shuffleH : Fin h → List (Fin h) → List (Fin h)

/-- A later time, regain/datasets/gaussian.py:200-245, from the latent precision of the previous one. -/
noncomputable def latTime (value : ℝ) (C : Matrix (Fin h) (Fin p) ℝ) (prev : Matrix (Fin h) (Fin h) ℝ)
    (d : LatDraw p h) : Except DataErr (LatTime p h) :=
  match thetaMy 0.245 d.orderO d.shuffleO with
  | none => .error .assertion
  | some theta => latFinish C theta (latNext value prev d.orderH d.shuffleH)

/-- The loop over the later times, regain/datasets/gaussian.py:199-246. -/
noncomputable def latLoop (value : ℝ) (C : Matrix (Fin h) (Fin p) ℝ) :
    Matrix (Fin h) (Fin h) ℝ → List (LatDraw p h) → Except DataErr (List (LatTime p h))
  | _, [] => .ok []
  | prev, d :: ds =>
      match latTime value C prev d with
      | .error e => .error e
      | .ok r =>
          match latLoop value C r.thetaH ds with
          | .error e => .error e
          | .ok rs => .ok (r :: rs)

/-- `value = 0.98 / to_put`, regain/datasets/gaussian.py:149-150. -/
noncomputable def latValue (p h : ℕ) : ℝ := 0.98 / (((p : ℝ) + h) * 0.5)

/-- `data_Meinshausen_Yuan_sparse_latent(p, h, n, T)`, regain/datasets/gaussian.py:141-248: the matrices of all
times and `connections`; `ds` holds the draws of the `T - 1` later times. -/
noncomputable def sparseLatent (order : Fin h → List (Fin (h + p))) (nnz : Fin h → ℕ)
    (orderO : Fin p → List (Fin p)) (shuffle : Fin p → List (Fin p) → List (Fin p)) (ds : List (LatDraw p h)) :
    Except DataErr (List (LatTime p h) × Matrix (Fin h) (Fin p) ℝ) :=
  match latTime0 (latValue p h) order nnz orderO shuffle with
  | .error e => .error e
  | .ok r =>
      match latLoop (latValue p h) (latConnections (latValue p h) order nnz) r.thetaH ds with
      | .error e => .error e
      | .ok rs => .ok (r :: rs, latConnections (latValue p h) order nnz)

end SparseLatent

end Verif.Model
