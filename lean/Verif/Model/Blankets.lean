import Verif.Model.GWishart
import Mathlib.MeasureTheory.Constructions.Pi
import Mathlib.MeasureTheory.Measure.Dirac

/-! Model of `score_blankets` (`regain/bayesian/gwishart_inference.py`): the regressions behind the scores. -/

namespace Verif.Model

open Matrix MeasureTheory

set_option autoImplicit false

variable {n p : ℕ}

/-- The columns of `X_mb`: the members of the blanket, or a single dummy column when there are none,
regain/bayesian/gwishart_inference.py:97-99. -/
abbrev BlanketCol (mb : Fin p → Bool) := {j : Fin p // mb j = true} ⊕ {_u : Unit // ∀ j, mb j = false}

/-- `X_mb`, regain/bayesian/gwishart_inference.py:97-99: `X[:, mb]`, or `np.zeros((X.shape[0], 1))`. -/
def blanketDesign (X : Matrix (Fin n) (Fin p) ℝ) (mb : Fin p → Bool) : Matrix (Fin n) (BlanketCol mb) ℝ
  | i, .inl j => X i j.1
  | _, .inr _ => 0

/-- The predictions of a fitted linear model with coefficients `w` and intercept `b` (scikit-learn's `LassoLars`, used at
regain/bayesian/gwishart_inference.py:104). -/
def linPredict {C : Type*} [Fintype C] (A : Matrix (Fin n) C ℝ) (w : C → ℝ) (b : ℝ) (i : Fin n) : ℝ := (A *ᵥ w) i + b

open Classical in
/-- `score` of a scikit-learn regressor, used at regain/bayesian/gwishart_inference.py:104: the coefficient of
determination, with the conventions of `r2_score` for a constant target. -/
noncomputable def r2Score (y f : Fin n → ℝ) : ℝ :=
  let res := ∑ i, (y i - f i) ^ 2
  let tot := ∑ i, (y i - (∑ k, y k) / n) ^ 2
  if tot = 0 then (if res = 0 then 1 else 0) else 1 - res / tot

/-- `score` of one blanket of node `i`, regain/bayesian/gwishart_inference.py:101-107: the sum over `alphas` of the scores
of the fits; `w a`, `b a` are what the fit with the `a`-th penalty returned. -/
noncomputable def blanketScore {q : ℕ} (X : Matrix (Fin n) (Fin p) ℝ) (i : Fin p) (mb : Fin p → Bool)
    (w : Fin q → BlanketCol mb → ℝ) (b : Fin q → ℝ) : ℝ :=
  ∑ a, r2Score (fun r => X r i) (linPredict (blanketDesign X mb) (w a) (b a))

/-- The law of one value of `np.random.choice(m, p=pr)`, regain/bayesian/gwishart_inference.py:120. -/
noncomputable def choiceLaw {m : ℕ} (pr : Fin m → ℝ) : Measure (Fin m) := ∑ k, ENNReal.ofReal (pr k) • Measure.dirac k

/-- The law of the indices of one resample, regain/bayesian/gwishart_inference.py:118-123: a separate call of
`np.random.choice` for each node. `s i` are the scores of the blankets of node `i` before they are normalised (112-114). -/
noncomputable def resampleLaw {m : ℕ} (s : Fin p → Fin m → ℝ) : Measure (Fin p → Fin m) :=
  Measure.pi fun i => choiceLaw (normalizedScores (s i))

/-- The law of all the indices, regain/bayesian/gwishart_inference.py:118-123 (`size=n_resampling`). -/
noncomputable def resamplesLaw {m : ℕ} (R : ℕ) (s : Fin p → Fin m → ℝ) : Measure (Fin R → Fin p → Fin m) :=
  Measure.pi fun _ => resampleLaw s

end Verif.Model
