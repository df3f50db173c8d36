import Verif.Model.Prox
import Mathlib.Analysis.SpecialFunctions.Complex.Arg
import Mathlib.Analysis.SpecialFunctions.Trigonometric.Basic

/-! Model of `regain/plotting/covariance.py`. -/

namespace Verif.Model

open Matrix

set_option autoImplicit false

/-- `tt = np.linspace(0, 2 * np.pi, 100)`, regain/plotting/covariance.py:54 (`npts` is not read). -/
noncomputable def ellipseAngle (k : Fin 100) : ℝ := 2 * Real.pi * (k / 99)

/-- A column of `bp`, regain/plotting/covariance.py:55-60, for the angle `t`; `Q`, `e` are what `linalg.eigh(cov)`
returned. -/
noncomputable def cov2dCurve (means : Fin 2 → ℝ) (Q : Matrix (Fin 2) (Fin 2) ℝ) (e : Fin 2 → ℝ) (sdwidth t : ℝ) :
    Fin 2 → ℝ :=
  (Q * diagonal fun i => sdwidth * Real.sqrt (e i)) *ᵥ ![Real.cos t, Real.sin t] + means

/-- The points `plot_cov_2d(means, cov, sdwidth, npts)` draws, regain/plotting/covariance.py:54-62. -/
noncomputable def plotCov2d (means : Fin 2 → ℝ) (Q : Matrix (Fin 2) (Fin 2) ℝ) (e : Fin 2 → ℝ) (sdwidth : ℝ) (_npts : ℕ)
    (k : Fin 100) : Fin 2 → ℝ :=
  cov2dCurve means Q e sdwidth (ellipseAngle k)

/-- What `plot_cov_2d` returns ("their correlation"), regain/plotting/covariance.py:64. -/
def plotCov2dReturn (cov : Matrix (Fin 2) (Fin 2) ℝ) : ℝ := cov 0 1

open Classical in
/-- `order[0]` of `eigsorted`, regain/plotting/covariance.py:88-91: `vals.argsort()[::-1]`. The other position is
`1 - order[0]`. -/
noncomputable def firstAxis (e : Fin 2 → ℝ) : Fin 2 := if e 0 ≤ e 1 then 1 else 0

/-- `theta`, regain/plotting/covariance.py:94: `np.arctan2(y, x)` of the first column. In radians: the code converts to
degrees and matplotlib converts back. -/
noncomputable def ellipseTheta (Q : Matrix (Fin 2) (Fin 2) ℝ) (e : Fin 2 → ℝ) : ℝ :=
  Complex.arg ⟨Q 0 (firstAxis e), Q 1 (firstAxis e)⟩

open Classical in
/-- `width` or `height` for one eigenvalue, regain/plotting/covariance.py:97-102. -/
noncomputable def axisLength (nstd v : ℝ) : ℝ :=
  let w := 2 * nstd * Real.sqrt v
  if w = 0 then w + 1 / 10 else w

/-- `width`, regain/plotting/covariance.py:97-100. -/
noncomputable def ellipseWidth (e : Fin 2 → ℝ) (nstd : ℝ) : ℝ := axisLength nstd (e (firstAxis e))

/-- `height`, regain/plotting/covariance.py:97, 101-102. -/
noncomputable def ellipseHeight (e : Fin 2 → ℝ) (nstd : ℝ) : ℝ := axisLength nstd (e (1 - firstAxis e))

/-- The outline of matplotlib's `Ellipse(xy, width, height, angle)`, used at regain/plotting/covariance.py:108: the unit
circle scaled to the half axes, turned by the angle and moved to `xy`. -/
noncomputable def patchPoint (xy : Fin 2 → ℝ) (width height angle t : ℝ) : Fin 2 → ℝ :=
  ![xy 0 + (width / 2 * Real.cos t * Real.cos angle - height / 2 * Real.sin t * Real.sin angle),
    xy 1 + (width / 2 * Real.cos t * Real.sin angle + height / 2 * Real.sin t * Real.cos angle)]

/-- The outline `plot_cov_ellipse(pos, cov, nstd)` draws, regain/plotting/covariance.py:93-111. -/
noncomputable def covEllipse (pos : Fin 2 → ℝ) (Q : Matrix (Fin 2) (Fin 2) ℝ) (e : Fin 2 → ℝ) (nstd t : ℝ) : Fin 2 → ℝ :=
  patchPoint pos (ellipseWidth e nstd) (ellipseHeight e nstd) (ellipseTheta Q e) t

/-- The upper axis limits set when no axis is passed, regain/plotting/covariance.py:104-107; the lower ones are their
negatives. -/
noncomputable def axisLimit (pos : Fin 2 → ℝ) (e : Fin 2 → ℝ) (nstd : ℝ) : Fin 2 → ℝ :=
  ![ellipseWidth e nstd + pos 0 + 1 / 10, ellipseHeight e nstd + pos 1 + 1 / 10]

end Verif.Model
