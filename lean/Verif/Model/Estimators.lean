import Verif.Model.Scores
import Verif.Model.Metrics
import Verif.Model.Gaussian
import Mathlib.Data.Finset.Sort
import Mathlib.Analysis.SpecialFunctions.Pow.Real

/-! Model of the estimator classes: what `fit` hands to the solvers, `score`, and the discriminant analysis of
`regain/discriminant_analysis.py`. The solvers are arguments here. -/

namespace Verif.Model

open Matrix

set_option autoImplicit false

variable {α : Type*} [LinearOrder α] {N : ℕ} {n : Type*} [Fintype n] [DecidableEq n]

/-- `np.unique(y)`, regain/covariance/time_graphical_lasso_.py:484 and regain/discriminant_analysis.py:109. -/
def classesOf (y : Fin N → α) : List α := (Finset.univ.image y).sort

/-- The rows `X[y == cl]`. -/
def rowsOf (y : Fin N → α) (c : α) : Finset (Fin N) := Finset.univ.filter fun i => y i = c

/-- `X[rows].mean(0)`, regain/covariance/time_graphical_lasso_.py:491. -/
noncomputable def rowMean (X : Fin N → n → ℝ) (R : Finset (Fin N)) : n → ℝ := fun j => (∑ i ∈ R, X i j) / R.card

/-- `empirical_covariance(X[rows], assume_centered)` of scikit-learn, called at
regain/covariance/time_graphical_lasso_.py:493-498 and regain/covariance/graphical_lasso_.py:337, for at least one row. -/
noncomputable def empCov (X : Fin N → n → ℝ) (R : Finset (Fin N)) (centered : Bool) : Matrix n n ℝ :=
  if centered then Matrix.of fun a b => (∑ i ∈ R, X i a * X i b) / R.card
  else Matrix.of fun a b => (∑ i ∈ R, (X i a - rowMean X R a) * (X i b - rowMean X R b)) / R.card

/-- What `fit` computes for one class before it calls the solver: `classes_`, the number of samples, `location_` and the
empirical covariance, regain/covariance/time_graphical_lasso_.py:484-498. -/
structure ClassData (α : Type*) (n : Type*) where
  cls : α
  count : ℕ
  location : n → ℝ
  cov : Matrix n n ℝ

/-- The class data of `TimeGraphicalLasso.fit`, regain/covariance/time_graphical_lasso_.py:461-500 (the checks of
`check_X_y` are not modelled). -/
noncomputable def fitInput (centered : Bool) (X : Fin N → n → ℝ) (y : Fin N → α) : List (ClassData α n) :=
  (classesOf y).map fun c =>
    { cls := c
      count := (rowsOf y c).card
      location := if centered then fun _ => 0 else rowMean X (rowsOf y c)
      cov := empCov X (rowsOf y c) centered }

/-- `TimeGraphicalLasso.fit`: the solver sees the covariances and the numbers of samples only,
regain/covariance/time_graphical_lasso_.py:425-459, 500. -/
noncomputable def tglFit {β : Type*} (solver : List (Matrix n n ℝ × ℕ) → β) (centered : Bool) (X : Fin N → n → ℝ)
    (y : Fin N → α) : β :=
  solver ((fitInput centered X y).map fun d => (d.cov, d.count))

/-- One term of `TimeGraphicalLasso.score`, regain/covariance/time_graphical_lasso_.py:536-548: the covariance of no
rows is nan. (Simplified: releases of scikit-learn whose `empirical_covariance` validates its argument raise `ValueError`
there instead.) -/
noncomputable def scoreTerm (X : Fin N → n → ℝ) (y : Fin N → α) (c : α) (loc : n → ℝ) (K : Matrix n n ℝ) : XF :=
  if rowsOf y c = ∅ then .nan
  else XF.mul (.fin (rowsOf y c).card) (logLikelihood (empCov (fun i j => X i j - loc j) (rowsOf y c) true) K)

/-- `TimeGraphicalLasso.score(X, y)`, regain/covariance/time_graphical_lasso_.py:502-550; `model` lists `classes_`,
`location_` and the observed precisions. -/
noncomputable def tglScore (X : Fin N → n → ℝ) (y : Fin N → α) (model : List (α × (n → ℝ) × Matrix n n ℝ)) : XF :=
  model.foldl (fun acc m => XF.add acc (scoreTerm X y m.1 m.2.1 m.2.2)) (.fin 0)

/-! ### Discriminant analysis -/

/-- The position of a label in `classes_` (`return_inverse=True`), regain/discriminant_analysis.py:109. -/
def encode (y : Fin N → α) (i : Fin N) : ℕ := (classesOf y).idxOf (y i)

/-- A fitted `DiscriminantAnalysis`, and the matrices of the estimator it wraps (`estimator.precision_` is the same
array as `precision_`). -/
structure DAFit (α : Type*) (n : Type*) where
  classes : List α
  priors : List ℝ
  means : List (n → ℝ)
  precision : List (Matrix n n ℝ)
  covariance : List (Matrix n n ℝ)
  estPrecision : List (Matrix n n ℝ)
  estCovariance : List (Matrix n n ℝ)

/-- `DiscriminantAnalysis.fit`, regain/discriminant_analysis.py:93-142, for an estimator with `covariance_` whose
`solver` returns precisions and covariances; `pinvh` of the repaired (positive definite) precisions is the inverse. -/
noncomputable def daFit (solver : List (Matrix n n ℝ × ℕ) → List (Matrix n n ℝ) × List (Matrix n n ℝ))
    (centered posdef : Bool) (priors : Option (List ℝ)) (X : Fin N → n → ℝ) (y : Fin N → α) :
    Except DataErr (DAFit α n) :=
  let classes := classesOf y
  let yi : Fin N → ℕ := encode y
  if classes.length < 2 then .error .value
  else if (List.range classes.length).any fun k => (rowsOf yi k).card = 1 then .error .value
  else
    let out := tglFit solver centered X yi
    let prec := if posdef then out.1.map ensurePosdef2d else out.1
    .ok { classes := classes
          priors := priors.getD ((List.range classes.length).map fun k => ((rowsOf yi k).card : ℝ) / N)
          means := (fitInput centered X yi).map fun d => d.location
          precision := prec
          covariance := if posdef then prec.map fun P => P⁻¹ else out.2
          estPrecision := prec
          estCovariance := out.2 }

/-- What `np.linalg.svd(p, full_matrices=False)` returns for a square matrix, regain/discriminant_analysis.py:163. -/
structure IsSvd (C R : Matrix n n ℝ) (S : n → ℝ) (Rt : Matrix n n ℝ) : Prop where
  left : Rᵀ * R = 1
  right : Rt * Rtᵀ = 1
  nonneg : ∀ j, 0 ≤ S j
  decomp : C = R * diagonal S * Rt

/-- One column of the decision function: the rotation is `Rt.T`, regain/discriminant_analysis.py:160-168, followed by
`QuadraticDiscriminantAnalysis._decision_function` of scikit-learn. -/
noncomputable def daDecision (prior : ℝ) (mean : n → ℝ) (S : n → ℝ) (Rt : Matrix n n ℝ) (x : n → ℝ) : ℝ :=
  let rot := Rtᵀ
  let norm2 := ∑ j, (∑ i, (x i - mean i) * (rot i j * S j ^ (-(1 / 2) : ℝ))) ^ 2
  Real.log prior - 1 / 2 * (norm2 + ∑ j, Real.log (S j))

/-- `predict`, inherited from scikit-learn: the first index with the largest decision value (`argmax`). -/
noncomputable def daPredict {k : ℕ} [NeZero k] (d : Fin k → ℝ) : Fin k :=
  (Finset.univ.filter fun i => ∀ j, d j ≤ d i).min' (by
    obtain ⟨i, _, hi⟩ := Finset.exists_max_image Finset.univ d ⟨0, Finset.mem_univ _⟩
    exact ⟨i, Finset.mem_filter.mpr ⟨Finset.mem_univ _, fun j => hi j (Finset.mem_univ _)⟩⟩)

/-- The attributes `precision_`, `latent_`, `covariance_` of a latent variable estimator at one time, from the two
matrices of the solver, regain/covariance/latent_time_graphical_lasso_.py:342-343; `pinvh` of an invertible matrix is
its inverse (singular matrices are not modelled). -/
noncomputable def latentAttrs (Z W : Matrix n n ℝ) : Matrix n n ℝ × Matrix n n ℝ × Matrix n n ℝ := (Z, W, Z⁻¹)

/-- `get_observed_precision` of a latent variable estimator,
regain/covariance/latent_time_graphical_lasso_.py:471-480. -/
def observedPrecision (precision latent : Matrix n n ℝ) : Matrix n n ℝ := precision - latent

end Verif.Model
