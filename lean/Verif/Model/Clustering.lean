import Verif.Model.FB
import Verif.Model.XFloat
import Mathlib.Data.Matrix.Basic
import Mathlib.Data.Fintype.Prod

/-! Model of `regain/clustering.py`. -/

namespace Verif.Model

open Matrix

set_option autoImplicit false

variable {p : ℕ}

open Classical in
/-- `(g != 0).astype(int)`. -/
noncomputable def binGraph (g : Matrix (Fin p) (Fin p) ℝ) : Matrix (Fin p) (Fin p) ℤ :=
  Matrix.of fun i j => if g i j ≠ 0 then 1 else 0

/-- `get_representative(graphs)`, regain/clustering.py:36-44. An empty list leaves `g_bin` unbound, a
NameError. -/
noncomputable def getRepresentative (graphs : List (Matrix (Fin p) (Fin p) ℝ)) :
    Except PyErr (Matrix (Fin p) (Fin p) ℝ) :=
  match graphs with
  | [] => .error .name
  | _ :: _ =>
      let s : Matrix (Fin p) (Fin p) ℤ := (graphs.map binGraph).foldl (fun acc g => acc + g) 0
      .ok (Matrix.of fun i j => if s i j = (graphs.length : ℤ) then 1 else 0)

/-- One entry of `compute_distances` (regain/clustering.py:50-56): half the number of entries where the
difference of the binarised graphs is -1, plus half the number where it is 1. -/
noncomputable def graphDist (g r : Matrix (Fin p) (Fin p) ℝ) : ℝ :=
  ((Finset.univ.filter fun ij : Fin p × Fin p => (binGraph r - binGraph g) ij.1 ij.2 = -1).card : ℝ) / 2 +
    ((Finset.univ.filter fun ij : Fin p × Fin p => (binGraph r - binGraph g) ij.1 ij.2 = 1).card : ℝ) / 2

/-- `compute_distances(graphs, reps)`, regain/clustering.py:47-57. -/
noncomputable def computeDistances (graphs reps : List (Matrix (Fin p) (Fin p) ℝ)) : List (List ℝ) :=
  graphs.map fun g => reps.map fun r => graphDist g r

/-- `np.argmin(row)` for a row without nan: the first position of the smallest value (0 for an empty row,
where numpy raises; the rows of `graph_k_means` are not empty when `k ≥ 1`). -/
noncomputable def argminList : List ℝ → ℕ
  | [] => 0
  | [_] => 0
  | x :: y :: l =>
      open Classical in
      let k := argminList (y :: l)
      if ((y :: l).getD k 0) < x then k + 1 else 0

/-- `np.max(row)` of a nonempty row. -/
noncomputable def maxList : List ℝ → ℝ
  | [] => 0
  | [x] => x
  | x :: y :: l => Max.max x (maxList (y :: l))

/-- `similarities` (regain/clustering.py:69-70): `1 - distances / max`, with IEEE division. -/
noncomputable def similarityRow (d : List ℝ) : List XF :=
  d.map fun x => XF.sub (.fin 1) (XF.div (.fin x) (.fin (maxList d)))

/-- Dot product of two rows of `similarities`. -/
noncomputable def xfDot (a b : List XF) : XF :=
  (List.zipWith XF.mul a b).foldl XF.add (.fin 0)

/-- `similarities.dot(similarities.T)` (regain/clustering.py:71). -/
noncomputable def kernelOf (dist : List (List ℝ)) : List (List XF) :=
  let sims := dist.map similarityRow
  sims.map fun a => sims.map fun b => xfDot a b

/-- The graphs with a given label. -/
def graphsWithLabel {α : Type} (xs : List α) (labels : List ℕ) (v : ℕ) : List α :=
  ((xs.zip labels).filter fun xl => xl.2 = v).map Prod.fst

/-- `np.unique(labels)`. -/
def uniqueLabels (labels : List ℕ) : List ℕ := (labels.mergeSort (· ≤ ·)).dedup

/-- Collects the representatives of all clusters. -/
noncomputable def representatives (graphs : List (Matrix (Fin p) (Fin p) ℝ)) (labels : List ℕ) :
    List ℕ → Except PyErr (List (Matrix (Fin p) (Fin p) ℝ))
  | [] => .ok []
  | v :: vs =>
      match getRepresentative (graphsWithLabel graphs labels v) with
      | .error e => .error e
      | .ok r =>
          match representatives graphs labels vs with
          | .error e => .error e
          | .ok rs => .ok (r :: rs)

/-- The loop of `graph_k_means` (regain/clustering.py:65-79) with `fuel` iterations left; `prev` is `none`
before the first iteration (the initial list of -1 differs from every labelling of a nonempty list). The
kernel of the last executed iteration is returned. -/
noncomputable def kMeansLoop (graphs : List (Matrix (Fin p) (Fin p) ℝ)) :
    ℕ → List (Matrix (Fin p) (Fin p) ℝ) → Option (List ℕ) → Option (List (List XF)) →
      Except PyErr (Option (List (List XF)))
  | 0, _, _, kern => .ok kern
  | fuel + 1, repres, prev, _ =>
      let dist := computeDistances graphs repres
      let kern := kernelOf dist
      let labels := dist.map argminList
      match representatives graphs labels (uniqueLabels labels) with
      | .error e => .error e
      | .ok repres' =>
          if prev = some labels then .ok (some kern)
          else kMeansLoop graphs fuel repres' (some labels) (some kern)

/-- `graph_k_means(graphs, k, max_iter)`, regain/clustering.py:60-79: `start` are the `k` graphs picked by
the shuffle. With `max_iter = 0` the name `kernel` is unbound. -/
noncomputable def graphKMeans (graphs start : List (Matrix (Fin p) (Fin p) ℝ)) (maxIter : ℕ) :
    Except PyErr (List (List XF)) :=
  match kMeansLoop graphs maxIter start none none with
  | .error e => .error e
  | .ok none => .error .name
  | .ok (some k) => .ok k

end Verif.Model
