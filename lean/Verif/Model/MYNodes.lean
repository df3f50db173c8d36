import Verif.Model.Gaussian
import Mathlib.Analysis.SpecialFunctions.Sqrt
import Mathlib.Analysis.Real.Pi.Bounds
import Mathlib.Analysis.SpecialFunctions.Exp

/-! Model of the node locations and edge probabilities of the Meinshausen-Yuan generators,
regain/datasets/gaussian.py:43-65. -/

namespace Verif.Model

set_option autoImplicit false

section MYNodes

variable {p : ℕ}

/-- `np.linalg.norm(locations[i] - locations[j])`, divided by 10 where the mask is set,
regain/datasets/gaussian.py:50-51. -/
noncomputable def nodeDist (loc : Fin p → ℝ × ℝ) (mask : Fin p → Fin p → Bool) (i j : Fin p) : ℝ :=
  let d := Real.sqrt (((loc i).1 - (loc j).1) ^ 2 + ((loc i).2 - (loc j).2) ^ 2)
  if mask i j then d / 10 else d

/-- `2 * norm.pdf(d * np.sqrt(p), scale=1)`, regain/datasets/gaussian.py:52. -/
noncomputable def nodeProb (loc : Fin p → ℝ × ℝ) (mask : Fin p → Fin p → Bool) (i j : Fin p) : ℝ :=
  2 * (Real.exp (-(nodeDist loc mask i j * Real.sqrt p) ^ 2 / 2) / Real.sqrt (2 * Real.pi))

/-- `_compute_probabilities(locations, random_state, mask)`, regain/datasets/gaussian.py:43-55; `thr` are the
uniform thresholds. -/
noncomputable def computeProbabilities (loc : Fin p → ℝ × ℝ) (mask : Fin p → Fin p → Bool)
    (thr : Fin p → Fin p → ℝ) (i j : Fin p) : ℝ :=
  if thr i j > nodeProb loc mask i j then 0 else nodeProb loc mask i j

/-- `_permute_locations(locations, random_state)`, regain/datasets/gaussian.py:58-65; `perm` are the uniform
steps. -/
noncomputable def permuteLocations (loc perm : Fin p → ℝ × ℝ) : Fin p → ℝ × ℝ :=
  fun i => (max ((loc i).1 + (perm i).1) 0, max ((loc i).2 + (perm i).2) 0)

/-- The locations of all times, regain/datasets/gaussian.py:99, 120-121 and 201-204: `perms t` are the steps
between time `t` and time `t + 1`. -/
noncomputable def locationsAt (loc : Fin p → ℝ × ℝ) (perms : ℕ → Fin p → ℝ × ℝ) : ℕ → Fin p → ℝ × ℝ
  | 0 => loc
  | t + 1 => permuteLocations (locationsAt loc perms t) (perms t)

end MYNodes

end Verif.Model
