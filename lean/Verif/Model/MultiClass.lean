import Verif.Model.Datasets
import Verif.Model.GraphGen

/-! Model of `sample` and `make_multiclass_dataset` of `regain/datasets/multi_class.py`. -/

namespace Verif.Model

set_option autoImplicit false

variable {n p : ℕ}

/-- The `Bunch` of one distribution (regain/datasets/multi_class.py:232, 239 and 246); `networks` is the state
of the caller's list after the call. -/
structure ClassBunch (n p : ℕ) where
  data : List (Fin n → Fin p → ℝ)
  thetas : List (Matrix (Fin p) (Fin p) ℝ)
  X : List (Fin p → ℝ)
  y : List ℕ
  networks : List (Matrix (Fin p) (Fin p) ℝ)

/-- `np.vstack(data)` of at least one array. -/
def vstackRows (data : List (Fin n → Fin p → ℝ)) : List (Fin p → ℝ) := data.flatMap fun d => List.ofFn d

/-- `np.repeat(range(n_classes), n_samples).astype(int)` (regain/datasets/multi_class.py:231). -/
def repeatLabels (nClasses n : ℕ) : List ℕ := (List.range nClasses).flatMap fun c => List.replicate n c

/-- The end of `_gaussian`, `_ising` and `_poisson` (regain/datasets/multi_class.py:230-232, 236-239 and
243-246): `np.vstack` of an empty list raises ValueError. -/
def classBunch (nClasses : ℕ) (data : List (Fin n → Fin p → ℝ)) (networks : List (Matrix (Fin p) (Fin p) ℝ)) :
    Except DataErr (ClassBunch n p) :=
  if data = [] then .error .value
  else .ok ⟨data, networks, vstackRows data, repeatLabels nClasses n, networks⟩

/-- `_gaussian` (regain/datasets/multi_class.py:225-232); `inv` is `np.linalg.inv`, `draw c sigma` the `c`-th
call of `np.random.multivariate_normal`. -/
def gaussianClasses (inv : Matrix (Fin p) (Fin p) ℝ → Option (Matrix (Fin p) (Fin p) ℝ))
    (draw : ℕ → Matrix (Fin p) (Fin p) ℝ → Fin n → Fin p → ℝ) (nClasses : ℕ)
    (networks : List (Matrix (Fin p) (Fin p) ℝ)) : Except DataErr (ClassBunch n p) :=
  match networks.mapM inv with
  | none => .error .linalg
  | some sigmas => classBunch nClasses (sigmas.mapIdx draw) networks

/-- `_ising` (regain/datasets/multi_class.py:234-239): `ising_sampler` (regain/datasets/ising.py:299-302 and
335-339) asserts symmetry, fills the diagonal of the caller's array with zeros in place and reads
`constraints[0, :]`, which fails without samples. `draw c theta` is its `c`-th result; for one sample the rows
come without their own axis, which `np.vstack` restores in `X`. -/
noncomputable def isingClasses (draw : ℕ → Matrix (Fin p) (Fin p) ℝ → Fin n → Fin p → ℝ) (nClasses : ℕ)
    (networks : List (Matrix (Fin p) (Fin p) ℝ)) : Except DataErr (ClassBunch n p) :=
  open Classical in
  if networks.any fun t => decide (t ≠ t.transpose) then .error .assertion
  else if networks ≠ [] ∧ n = 0 then .error .index
  else
    let filled := networks.map fillDiagZero
    classBunch nClasses (filled.mapIdx draw) filled

/-- `_poisson` (regain/datasets/multi_class.py:241-246). -/
def poissonClasses (draw : ℕ → Matrix (Fin p) (Fin p) ℝ → Fin n → Fin p → ℝ) (nClasses : ℕ)
    (networks : List (Matrix (Fin p) (Fin p) ℝ)) : Except DataErr (ClassBunch n p) :=
  classBunch nClasses (networks.mapIdx draw) networks

/-- The Ising network of a class (regain/datasets/multi_class.py:179-187): `A` is the matrix of
`np.random.rand`. -/
noncomputable def isingNet (A : Matrix (Fin p) (Fin p) ℝ) (b : Matrix (Fin p) (Fin p) ℕ) :
    Matrix (Fin p) (Fin p) ℝ :=
  Matrix.of fun i j => if i = j then 1 else if b i j ≠ 0 then npSign ((A i j - 0.5) + (A j i - 0.5)) else (b i j : ℝ)

/-- `make_multiclass_dataset(..., distribution='ising')` (regain/datasets/multi_class.py:39-100) after the
random graph `B` and the coins of the classes: `n_classes - 1` of them. -/
noncomputable def makeMulticlassIsing (draw : ℕ → Matrix (Fin p) (Fin p) ℝ → Fin n → Fin p → ℝ) (nClasses : ℕ)
    (B : Matrix (Fin p) (Fin p) ℕ) (coins : List (List ℕ × List ℕ)) (A : Matrix (Fin p) (Fin p) ℝ) :
    Except DataErr (ClassBunch n p × List (Matrix (Fin p) (Fin p) ℕ)) :=
  match binaries B (coins.take (nClasses - 1)) with
  | .error e => .error e
  | .ok bs =>
    match isingClasses draw nClasses (bs.map (isingNet A)) with
    | .error e => .error e
    | .ok r => .ok (r, bs)

end Verif.Model
