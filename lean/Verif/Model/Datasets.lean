import Verif.Model.Kernels

/-! Model of `regain/datasets/base.py` (`make_dataset`) and of `regain/datasets/multi_class.py`. The generators called
by `make_dataset` are arguments (they are modelled in `Model/Gaussian.lean`, `Model/Kernels.lean` and
`Model/GraphGen.lean`); so are the samples. -/

namespace Verif.Model

open Matrix

set_option autoImplicit false

/-! ### make_dataset -/

section Base

/-- The generators of the table `modes`, regain/datasets/base.py:72-84, and `make_covariance`. -/
inductive GenFn
  | my | mys | sin | fixedSparsity | sincos | gp | fede | sklearn | ma | mak | ticc | covariance
  deriving DecidableEq

/-- The table `modes`, regain/datasets/base.py:72-84. -/
def modeTable : String → Option GenFn
  | "my" => some .my
  | "mys" => some .mys
  | "sin" => some .sin
  | "fixed_sparsity" => some .fixedSparsity
  | "sincos" => some .sincos
  | "gp" => some .gp
  | "fede" => some .fede
  | "sklearn" => some .sklearn
  | "ma" => some .ma
  | "mak" => some .mak
  | "ticc" => some .ticc
  | _ => none

/-- Number of values obtained by iterating over the result of a generator, from the return statements
regain/datasets/gaussian.py:138, 248, 442, 480, 514, 556, 593, 618, 659, 691 and regain/datasets/kernels.py:77 and 207
(`make_ticc` returns one matrix with `num_blocks * n_dim_obs` rows). -/
def nReturned (numBlocks nObs : ℕ) : GenFn → ℕ
  | .my => 6
  | .mys => 7
  | .ticc => numBlocks * nObs
  | _ => 3

/-- A function given by the user as `mode`: the keywords it accepts (`none` if it has `**kwargs`) and its result. -/
structure UserFn (M : Type*) where
  accepts : Option (List String)
  result : List (List M)

/-- Keywords accepted by `make_covariance`, regain/datasets/gaussian.py:367-378; the other generators have `**kwargs`. -/
def covarianceKw : List String :=
  ["n_dim_obs", "n_dim_lat", "T", "update_ell", "update_theta", "normalize_starting_matrices", "degree", "epsilon",
    "keep_sparsity", "proportional"]

/-- A call with the keywords `kw` raises TypeError if one of them is not accepted. -/
def bindKw (accepts : Option (List String)) (kw : List String) : Bool :=
  match accepts with
  | none => true
  | some l => kw.all fun k => k ∈ l

/-- The result of `make_dataset`: `data` with the time on the first axis, or on the last one. -/
structure Bundle (M : Type*) (n p : ℕ) where
  data : (List (Fin n → Fin p → ℝ)) ⊕ (Fin n → Fin p → List ℝ)
  thetas : List M
  X : List (Fin p → ℝ)
  y : List ℕ
  thetasObs : List M
  ells : List M

variable {M : Type*} {n p : ℕ}

/-- `np.array(samples)`, `np.vstack`, `np.repeat` and the transposition, regain/datasets/base.py:113-122, 129-135 and
141-146. -/
def packData (last : Bool) (samples : List (Fin n → Fin p → ℝ)) (thetas obs ells : List M) : Bundle M n p where
  data := if last then .inr fun s j => samples.map fun d => d s j else .inl samples
  thetas := thetas
  X := samples.flatMap List.ofFn
  y := npRepeat (List.range samples.length) n
  thetasObs := obs
  ells := ells

/-- Sampling: one array per time; `inv` is `np.linalg.inv` (`none` if it raises LinAlgError), `draw t sigma` the
samples of time `t`. -/
def sampleAll (inv : M → Option M) (draw : ℕ → M → Fin n → Fin p → ℝ) :
    ℕ → List M → Except DataErr (List (Fin n → Fin p → ℝ))
  | _, [] => .ok []
  | t, A :: rest =>
      match inv A with
      | none => .error .linalg
      | some S =>
          match sampleAll inv draw (t + 1) rest with
          | .error e => .error e
          | .ok l => .ok (draw t S :: l)

/-- Unpacking `thetas, thetas_obs, ells = func(...)` and the rest of `_gaussian_case`, regain/datasets/base.py:109-122. -/
def unpackSample (inv : M → Option M) (draw : ℕ → M → Fin n → Fin p → ℝ) (last : Bool) :
    List (List M) → Except DataErr (Bundle M n p)
  | [thetas, obs, ells] =>
      match sampleAll inv draw 0 obs with
      | .error e => .error e
      | .ok s => .ok (packData last s thetas obs ells)
  | _ => .error .value

/-- `_gaussian_case`, regain/datasets/base.py:56-122. `extra` are the names in `**kwargs`; `run` gives the values
returned by a generator. If `make_ticc` returns exactly three rows they are vectors, on whose entries
`np.linalg.inv` raises LinAlgError. -/
def gaussianCase (inv : M → Option M) (draw : ℕ → M → Fin n → Fin p → ℝ) (last : Bool)
    (run : GenFn → Except DataErr (List (List M))) (mode : Option (String ⊕ UserFn M)) (extra : List String) :
    Except DataErr (Bundle M n p) :=
  let base := ["n_dim_obs", "n_dim_lat", "T"]
  let params := ["degree", "epsilon", "keep_sparsity", "proportional"]
  match mode with
  | some (.inr f) =>
      if bindKw f.accepts (base ++ params ++ extra) then unpackSample inv draw last f.result else .error .type
  | some (.inl s) =>
      match modeTable s with
      | none => .error .value
      | some f =>
          match run f with
          | .error e => .error e
          | .ok vs =>
              if f = .ticc then (if vs.length = 3 then .error .linalg else .error .value)
              else unpackSample inv draw last vs
  | none =>
      if bindKw (some covarianceKw) (base ++ params ++
          ["update_ell", "update_theta", "normalize_starting_matrices"] ++ extra) then
        match run .covariance with
        | .error e => .error e
        | .ok vs => unpackSample inv draw last vs
      else .error .type

/-- Keywords of `ising_theta_generator`, regain/datasets/ising.py:52-63. -/
def isingKw : List String :=
  ["n_dim_obs", "n", "T", "mode", "time_on_axis", "change", "responses", "random_graph", "probability", "degree"]

/-- The arguments of `make_dataset`, regain/datasets/base.py:149-166, that concern the choice of a generator.
`extra k` is the value of `kwargs[k]`; `distribution` holds `distribution.lower()`. -/
structure DArgs (V M : Type*) where
  mode : Option (String ⊕ UserFn M)
  last : Bool
  degree : V
  distribution : String
  names : List String
  extra : String → Option V

/-- The degree that reaches the generator of the first graph in `_ising_case` and `_poisson_case`,
regain/datasets/base.py:125-128, 138-139, 224-241: only `**kwargs` is handed on, `dflt` is the default of the generator
(2 in regain/datasets/ising.py:62, 3 in regain/datasets/poisson.py:57). -/
def graphDegree {V : Type*} (dflt : V) (a : DArgs V M) : V := (a.extra "degree").getD dflt

/-- The graph branches, regain/datasets/base.py:125-146: `gen` gives the graphs for a degree, `draw` the samples. -/
def graphCase (draw : ℕ → M → Fin n → Fin p → ℝ) (last : Bool) (thetas : List M) : Bundle M n p :=
  packData last (thetas.mapIdx draw) thetas [] []

/-- `make_dataset`, regain/datasets/base.py:149-243. `isingGen`, `poissonGen` give the graphs for a degree. A second
value for `responses`, or a keyword unknown to `ising_theta_generator`, raises TypeError; `_poisson_case` accepts any. -/
def makeDataset {V : Type*} (inv : M → Option M) (draw : ℕ → M → Fin n → Fin p → ℝ)
    (run : GenFn → Except DataErr (List (List M))) (isingGen poissonGen : V → List M) (two three : V) (a : DArgs V M) :
    Except DataErr (Bundle M n p) :=
  if a.distribution = "gaussian" then gaussianCase inv draw a.last run a.mode a.names
  else if a.distribution = "ising" then
    if "responses" ∈ a.names then .error .type
    else if bindKw (some isingKw) a.names then .ok (graphCase draw a.last (isingGen (graphDegree two a)))
    else .error .type
  else if a.distribution = "poisson" then .ok (graphCase draw a.last (poissonGen (graphDegree three a)))
  else .error .value

end Base

/-! ### Multi-class data -/

section Multi

variable {p : ℕ}

/-- `np.where(K == 0)` or `np.where(K != 0)`: positions in row-major order. -/
def wherePos (K : Matrix (Fin p) (Fin p) ℕ) (zero : Bool) : List (Fin p × Fin p) :=
  (List.finRange p).flatMap fun i =>
    ((List.finRange p).filter fun j => decide (K i j = 0) = zero).map fun j => (i, j)

/-- `K[r, c] = a; K[c, r] = a`. -/
def setPair (K : Matrix (Fin p) (Fin p) ℕ) (r c : Fin p) (a : ℕ) : Matrix (Fin p) (Fin p) ℕ :=
  Matrix.of fun x y => if (x = r ∧ y = c) ∨ (x = c ∧ y = r) then a else K x y

/-- One of the inner loops, regain/datasets/multi_class.py:157-164: the body uses the class index `i`, not the loop
variable `ta`; `coins` are the samples of `np.random.choice([0, 1], ...)`, one per selected position. -/
def classLoop (pos : List (Fin p × Fin p)) (i : ℕ) :
    List ℕ → Matrix (Fin p) (Fin p) ℕ → Except DataErr (Matrix (Fin p) (Fin p) ℕ)
  | [], K => .ok K
  | a :: rest, K =>
      match pos[i]? with
      | none => .error .index
      | some q => classLoop pos i rest (setPair K q.1 q.2 a)

/-- One class, regain/datasets/multi_class.py:154-165. -/
def newClass (B : Matrix (Fin p) (Fin p) ℕ) (i : ℕ) (add rem : List ℕ) : Except DataErr (Matrix (Fin p) (Fin p) ℕ) :=
  match classLoop (wherePos B true) i add B with
  | .error e => .error e
  | .ok K => classLoop (wherePos B false) i rem K

/-- The classes after the first, regain/datasets/multi_class.py:153-165, from class index `i` on; `coins` gives the
samples of each class. -/
def classesFrom (B : Matrix (Fin p) (Fin p) ℕ) :
    ℕ → List (List ℕ × List ℕ) → Except DataErr (List (Matrix (Fin p) (Fin p) ℕ))
  | _, [] => .ok []
  | i, c :: rest =>
      match newClass B i c.1 c.2 with
      | .error e => .error e
      | .ok K =>
          match classesFrom B (i + 1) rest with
          | .error e => .error e
          | .ok l => .ok (K :: l)

/-- `binaries`, regain/datasets/multi_class.py:143-165: `B` is the adjacency matrix of the random graph. -/
def binaries (B : Matrix (Fin p) (Fin p) ℕ) (coins : List (List ℕ × List ℕ)) :
    Except DataErr (List (Matrix (Fin p) (Fin p) ℕ)) :=
  match classesFrom B 0 coins with
  | .error e => .error e
  | .ok l => .ok (B :: l)

/-- Number of positions selected per class: `int(0.1 * size)`, regain/datasets/multi_class.py:151-152. -/
def toChange (B : Matrix (Fin p) (Fin p) ℕ) (zero : Bool) : ℕ := (wherePos B zero).length / 10

/-- The Gaussian network of a class, regain/datasets/multi_class.py:169-174: `A` is the matrix of `np.random.rand`. -/
noncomputable def gaussNet (A : Matrix (Fin p) (Fin p) ℝ) (b : Matrix (Fin p) (Fin p) ℕ) : Matrix (Fin p) (Fin p) ℝ :=
  Matrix.of fun i j => if i = j then 1 else if b i j ≠ 0 then ((A i j - 0.5) + (A j i - 0.5)) / 2 else (b i j : ℝ)

end Multi

end Verif.Model
