import Verif.Model.Lasso

/-! Model of `regain/wrapper/paspal/glopridu.py` (the solver behind `GroupLassoOverlap(mode="paspal")`).
Arrays are functions; a block is a set of features (index lists without repetitions). -/

namespace Verif.Model

open Matrix

set_option autoImplicit false

/-! ### The dual Newton method of `glo_prox` -/

/-- The local variables of `glo_prox` after the block filter (regain/wrapper/paspal/glopridu.py:15, 32,
48-50): `weights` are the squared radii. The oracle `pinv` is `scipy.linalg.pinv` on the system of the
chosen blocks. -/
structure GloArgs (ι κ : Type*) where
  w0 : κ → ℝ
  blocks : ι → Finset κ
  weights : ι → ℝ
  tol : ℝ
  beta : ℝ
  sigma : ℝ
  sBeta : ℝ
  epsilon : ℝ
  pinv : (J : Finset ι) → Matrix J J ℝ → Matrix J J ℝ

/-- The Moore-Penrose conditions, the contract of `linalg.pinv`
(regain/wrapper/paspal/glopridu.py:107). -/
structure IsPinv {J : Type*} [Fintype J] (M X : Matrix J J ℝ) : Prop where
  mxm : M * X * M = M
  xmx : X * M * X = X
  mx : (M * X)ᵀ = M * X
  xm : (X * M)ᵀ = X * M

variable {ι κ : Type*} [Fintype ι] [DecidableEq ι] [Fintype κ] [DecidableEq κ]

/-- `s = I.dot(lamda)`: the multipliers of the blocks containing a feature, added up
(regain/wrapper/paspal/glopridu.py:56-58, 67, 145). -/
def gloS (a : GloArgs ι κ) (lam : ι → ℝ) (i : κ) : ℝ := ∑ g, if i ∈ a.blocks g then lam g else 0

/-- `grad = weights - I.T.dot((w0 * denominator) ** 2)`
(regain/wrapper/paspal/glopridu.py:68-69). -/
noncomputable def gloGrad (a : GloArgs ι κ) (lam : ι → ℝ) (g : ι) : ℝ :=
  a.weights g - ∑ i ∈ a.blocks g, (a.w0 i * (1 / (1 + gloS a lam i))) ^ 2

/-- `epsk` (regain/wrapper/paspal/glopridu.py:70). -/
noncomputable def gloEpsk (a : GloArgs ι κ) (lam : ι → ℝ) : ℝ :=
  min a.epsilon (npNorm fun g => lam g - max 0 (lam g - gloGrad a lam g))

/-- `tmp = 2 * w0 ** 2 * denominator ** 3` (regain/wrapper/paspal/glopridu.py:71). -/
noncomputable def gloTmp (a : GloArgs ι κ) (lam : ι → ℝ) (i : κ) : ℝ :=
  2 * a.w0 i ^ 2 * (1 / (1 + gloS a lam i)) ^ 3

/-- `I_inactive` (regain/wrapper/paspal/glopridu.py:73); `I_active` (line 109) is its complement. -/
noncomputable def gloInactive (a : GloArgs ι κ) (lam : ι → ℝ) : Finset ι :=
  open Classical in
  Finset.univ.filter fun g => gloGrad a lam g ≤ 0 ∨ gloEpsk a lam < lam g

/-- `B_inactive` (regain/wrapper/paspal/glopridu.py:75, 86-91): sums of `tmp` over the intersections of
the chosen blocks. -/
noncomputable def gloHess (a : GloArgs ι κ) (lam : ι → ℝ) (J : Finset ι) : Matrix J J ℝ :=
  fun g k => ∑ i ∈ a.blocks g ∩ a.blocks k, gloTmp a lam i

/-- The search direction: `p_inactive` on the chosen blocks, `p_active` on the others
(regain/wrapper/paspal/glopridu.py:107, 120-122). With no chosen block `pinv` is called on an empty array,
taken here to return the empty array. -/
noncomputable def gloDir (a : GloArgs ι κ) (lam : ι → ℝ) (g : ι) : ℝ :=
  if h : g ∈ gloInactive a lam then
    (a.pinv (gloInactive a lam) (gloHess a lam (gloInactive a lam)) *ᵥ fun j => gloGrad a lam j) ⟨g, h⟩
  else gloGrad a lam g / ∑ i ∈ a.blocks g, gloTmp a lam i

/-- `step = beta ** m * s_beta` (regain/wrapper/paspal/glopridu.py:130). -/
noncomputable def gloStep (a : GloArgs ι κ) (m : ℕ) : ℝ := a.beta ^ m * a.sBeta

/-- `lamda_m` (regain/wrapper/paspal/glopridu.py:131-132). -/
noncomputable def gloTrial (a : GloArgs ι κ) (lam : ι → ℝ) (m : ℕ) (g : ι) : ℝ :=
  max 0 (lam g - gloStep a m * gloDir a lam g)

/-- `fdiff` (regain/wrapper/paspal/glopridu.py:133-136). -/
noncomputable def gloFdiff (a : GloArgs ι κ) (lam lamM : ι → ℝ) : ℝ :=
  (∑ i, a.w0 i ^ 2 * (gloS a (fun g => lamM g - lam g) i
    / ((1 + gloS a lamM i) * (1 + gloS a lam i)))) + ∑ g, a.weights g * (lam g - lamM g)

/-- `x_inactive` (regain/wrapper/paspal/glopridu.py:124). -/
noncomputable def gloXin (a : GloArgs ι κ) (lam : ι → ℝ) : ℝ :=
  ∑ g ∈ gloInactive a lam, gloGrad a lam g * gloDir a lam g

/-- `x_active` (regain/wrapper/paspal/glopridu.py:137). -/
noncomputable def gloXact (a : GloArgs ι κ) (lam lamM : ι → ℝ) : ℝ :=
  ∑ g ∈ (gloInactive a lam)ᶜ, gloGrad a lam g * (lam g - lamM g)

/-- The loop condition `test` after trial `m` (regain/wrapper/paspal/glopridu.py:138). -/
def gloTest (a : GloArgs ι κ) (lam : ι → ℝ) (m : ℕ) : Prop :=
  gloFdiff a lam (gloTrial a lam m)
    < a.sigma * (gloStep a m * gloXin a lam + gloXact a lam (gloTrial a lam m))

/-- The value of `m` when `while test` (regain/wrapper/paspal/glopridu.py:125-138) ends; `none` when it
runs forever. -/
noncomputable def gloSearch (a : GloArgs ι κ) (lam : ι → ℝ) : Option ℕ :=
  open Classical in
  if h : ∃ m, 1 ≤ m ∧ ¬gloTest a lam m then some (Nat.find h) else none

/-- Loop variables: the multipliers, `i_null`, and whether an inner `while` never returned. -/
structure GloState (ι : Type*) where
  lamda : ι → ℝ
  iNull : ℕ
  hung : Bool

/-- The exit test (regain/wrapper/paspal/glopridu.py:141): `grad` is the array computed from the previous
multipliers. -/
def gloExit (tol : ℝ) (grad lam : ι → ℝ) : Prop :=
  (∀ g, lam g = 0 → 0 ≤ grad g) ∧ ∀ g, 0 < lam g → |grad g| < tol

/-- Loop body of `glo_prox` (regain/wrapper/paspal/glopridu.py:63-142). -/
noncomputable def gloBody (a : GloArgs ι κ) (_ : ℕ) (s : GloState ι) : GloState ι × PUnit.{1} × Bool :=
  open Classical in
  let iNull := if (gloInactive a s.lamda).card = 0 then s.iNull + 1 else 0
  if 5 ≤ iNull then (⟨s.lamda, iNull, s.hung⟩, ⟨⟩, true)
  else
    match gloSearch a s.lamda with
    | none => (⟨s.lamda, iNull, true⟩, ⟨⟩, true)
    | some m =>
      let lam := gloTrial a s.lamda m
      (⟨lam, iNull, s.hung⟩, ⟨⟩, decide (gloExit a.tol (gloGrad a s.lamda) lam))

/-- The Newton loop (regain/wrapper/paspal/glopridu.py:61-142). -/
noncomputable def gloLoop (a : GloArgs ι κ) (maxIter : ℕ) (lam : ι → ℝ) : LoopResult (GloState ι) PUnit.{1} :=
  runLoop (gloBody a) maxIter ⟨lam, 0, false⟩

/-- `w = w0 * (1 - 1.0 / (1 + s))` (regain/wrapper/paspal/glopridu.py:145-146). -/
noncomputable def gloPrimal (a : GloArgs ι κ) (lam : ι → ℝ) (i : κ) : ℝ :=
  a.w0 i * (1 - 1 / (1 + gloS a lam i))

/-! ### `glo_prox` -/

/-- How a call can fail to return: an exception, or a loop that never ends. -/
inductive GloErr where
  | raised (e : PyErr)
  | hang
  deriving DecidableEq

/-- `not lamda0` for an array (regain/wrapper/paspal/glopridu.py:35): numpy has no truth value for more
than one element; an empty array is false (with a deprecation warning). -/
noncomputable def notArray {B : ℕ} (x : Fin B → ℝ) : Except GloErr Bool :=
  open Classical in
  if h : B = 1 then .ok (decide (x ⟨0, by omega⟩ = 0))
  else if B = 0 then .ok true
  else .error (.raised .value)

/-- What `glo_prox` returns (regain/wrapper/paspal/glopridu.py:147-149). -/
structure GloOut (B : ℕ) (κ : Type*) where
  w : κ → ℝ
  iteration : ℕ
  lamda : Fin B → ℝ

/-- Keyword arguments of `glo_prox` with their defaults (regain/wrapper/paspal/glopridu.py:15) and the
external `linalg.pinv`. -/
structure GloKw where
  beta : ℝ := 1 / 2
  sigma : ℝ := 1 / 10
  sBeta : ℝ := 1
  epsilon : ℝ := 1 / 1000
  pinv : (J : Type) → [Fintype J] → [DecidableEq J] → Matrix J J ℝ → Matrix J J ℝ

/-- `to_be_projected` (regain/wrapper/paspal/glopridu.py:32, 45-46): the norm of the block is compared
with the squared radius. -/
def gloKeep {B : ℕ} (w0 : κ → ℝ) (tau : ℝ) (blocks : Fin B → Finset κ) (weights : Fin B → ℝ) (g : Fin B) :
    Prop :=
  (weights g * tau) ^ 2 ≤ Real.sqrt (∑ i ∈ blocks g, w0 i ^ 2)

/-- The variables of the Newton method on the kept blocks (regain/wrapper/paspal/glopridu.py:32, 48-50). -/
noncomputable def gloArgs {B : ℕ} (kw : GloKw) (w0 : κ → ℝ) (tau : ℝ) (blocks : Fin B → Finset κ)
    (weights : Fin B → ℝ) (tol : ℝ) : GloArgs {g : Fin B // gloKeep w0 tau blocks weights g} κ where
  w0 := w0
  blocks g := blocks g
  weights g := (weights g * tau) ^ 2
  tol := tol
  beta := kw.beta
  sigma := kw.sigma
  sBeta := kw.sBeta
  epsilon := kw.epsilon
  pinv _ := kw.pinv _

/-- The starting multipliers (regain/wrapper/paspal/glopridu.py:34-36). -/
noncomputable def gloStart {B : ℕ} (lamda0 : Option (Fin B → ℝ)) : Except GloErr (Fin B → ℝ) :=
  match lamda0 with
  | none => .ok fun _ => 0
  | some l =>
    match notArray l with
    | .error e => .error e
    | .ok true => .ok fun _ => 0
    | .ok false => .ok l

open Classical in
/-- `glo_prox(w0, tau, blocks, weights, lamda0, tol, max_iter, ...)`, regain/wrapper/paspal/
glopridu.py:15-149. -/
noncomputable def gloProx {B : ℕ} (kw : GloKw) (w0 : κ → ℝ) (tau : ℝ) (blocks : Fin B → Finset κ)
    (weights : Fin B → ℝ) (lamda0 : Option (Fin B → ℝ)) (tol : ℝ) (maxIter : ℕ) :
    Except GloErr (GloOut B κ) :=
  match gloStart lamda0 with
  | .error e => .error e
  | .ok lam0 =>
    if Fintype.card {g : Fin B // gloKeep w0 tau blocks weights g} = 0 then
      .ok ⟨fun _ => 0, 0, fun _ => 0⟩
    else
      let a := gloArgs kw w0 tau blocks weights tol
      let r := gloLoop a maxIter fun g => lam0 g
      if r.state.hung then .error .hang
      else .ok ⟨gloPrimal a r.state.lamda, r.lastIter.getD 0,
        fun g => if h : gloKeep w0 tau blocks weights g then r.state.lamda ⟨g, h⟩ else 0⟩

/-! ### `glopridu_algorithm` -/

/-- Arguments of `glopridu_algorithm` as `GroupLassoOverlap.fit` passes them
(regain/wrapper/paspal/glopridu.py:152-167, regain/linear_model/group_lasso_overlap_.py:344-353): `weights`,
`beta0`, `lamda0` and `sigma0` keep their default `None`. `norm2` is `np.linalg.norm(X, 2)`. -/
structure GlopriduArgs (n d B : ℕ) where
  X : Matrix (Fin n) (Fin d) ℝ
  Y : Fin n → ℝ
  blocks : Fin B → Finset (Fin d)
  tau : ℝ
  smoothPar : ℝ
  maxIterExt : ℕ
  maxIterInt : ℕ
  tolExt : ℝ
  tolInt : ℝ
  norm2 : ℝ

variable {n d B : ℕ}

/-- Loop variables of `glopridu_algorithm`. -/
structure GlopriduState (n d B : ℕ) where
  beta : Fin d → ℝ
  h : Fin d → ℝ
  t : ℝ
  Xb : Fin n → ℝ
  Xh : Fin n → ℝ
  lamda : Fin B → ℝ

/-- `sigma0` (regain/wrapper/paspal/glopridu.py:179-180). -/
noncomputable def gpSigma0 (a : GlopriduArgs n d B) : ℝ := a.norm2 ^ 2 / n

/-- `mu` (regain/wrapper/paspal/glopridu.py:187). -/
noncomputable def gpMu (a : GlopriduArgs n d B) : ℝ := a.smoothPar * gpSigma0 a

/-- `sigma` (regain/wrapper/paspal/glopridu.py:188). -/
noncomputable def gpSigma (a : GlopriduArgs n d B) : ℝ := gpSigma0 a + gpMu a

/-- `w0 = h * (1.0 - mu_s) + XT.dot(Y - Xh)` (regain/wrapper/paspal/glopridu.py:192-194, 227). -/
noncomputable def gpPoint (a : GlopriduArgs n d B) (s : GlopriduState n d B) : Fin d → ℝ :=
  (1 - gpMu a / gpSigma a) • s.h + (1 / (n * gpSigma a)) • (a.Xᵀ *ᵥ (a.Y - s.Xh))

/-- `0.5 * (1 + np.sqrt(1 + 4 * t * t))` (regain/wrapper/paspal/glopridu.py:241). -/
noncomputable def gpNextT (t : ℝ) : ℝ := 1 / 2 * (1 + Real.sqrt (1 + 4 * t * t))

/-- One pass (regain/wrapper/paspal/glopridu.py:220-249); `it` is `n_iter - 1`. -/
noncomputable def gpBody (kw : GloKw) (a : GlopriduArgs n d B) (it : ℕ) (s : GlopriduState n d B) :
    Except GloErr (GlopriduState n d B × Bool) :=
  open Classical in
  match gloProx kw (gpPoint a s) (a.tau / gpSigma a) a.blocks (fun _ => 1) (some s.lamda)
      (a.tolInt * ((it : ℝ) + 1) ^ (-3 / 2 : ℝ)) a.maxIterInt with
  | .error e => .error e
  | .ok r =>
    let Xb := a.X *ᵥ r.w
    let tNew := gpNextT s.t
    let h := r.w + ((s.t - 1) / tNew) • (r.w - s.beta)
    let Xh := (1 + (s.t - 1) / tNew) • Xb + ((1 - s.t) / tNew) • s.Xb
    .ok (⟨r.w, h, tNew, Xb, Xh, r.lamda⟩,
      decide (npNorm (Xb - s.Xb) ≤ npNorm s.Xb * a.tolExt ∧ 1 < it + 1))

/-- The external loop (regain/wrapper/paspal/glopridu.py:215-249). The last component is `n_iter`. -/
noncomputable def gpLoop (kw : GloKw) (a : GlopriduArgs n d B) :
    (fuel it : ℕ) → GlopriduState n d B → Except GloErr (GlopriduState n d B × ℕ)
  | 0, it, s => .ok (s, it)
  | fuel + 1, it, s =>
    match gpBody kw a it s with
    | .error e => .error e
    | .ok (s', brk) => if brk then .ok (s', it + 1) else gpLoop kw a fuel (it + 1) s'

/-- State before the loop (regain/wrapper/paspal/glopridu.py:196-211). -/
def gpInit : GlopriduState n d B := ⟨0, 0, 1, 0, 0, 0⟩

/-- `glopridu_algorithm`, regain/wrapper/paspal/glopridu.py:152-251: returns `beta`, `lamda`, `n_iter`.
Blocks of different sizes make `np.array(blocks)` (line 170) ragged, which numpy rejects with the same
exception class as line 35 for two blocks or more; the check is left out. -/
noncomputable def glopridu (kw : GloKw) (a : GlopriduArgs n d B) :
    Except GloErr ((Fin d → ℝ) × (Fin B → ℝ) × ℕ) :=
  match gpLoop kw a a.maxIterExt 0 gpInit with
  | .error e => .error e
  | .ok (s, k) => .ok (s.beta, s.lamda, k)

end Verif.Model
